import Verif.Linfun

/-!
# C56: a line parameter is the function of position it was given as
-/

set_option linter.unusedSectionVars false

namespace PyRFtk.Linfun

section
variable {K V : Type*} [Field K] [LinearOrder K] [IsStrictOrderedRing K] [AddCommGroup V] [Module K V]

/-- the piecewise linear function is determined by its points -/
theorem Through.unique {pts : List (K × V)} (hinc : Increasing pts) (hne : pts ≠ []) {f g : K → V} (hf : Through pts f) (hg : Through pts g) :
    f = g := by
  funext x
  obtain ⟨a, ha⟩ := Option.ne_none_iff_exists'.1 (fun h => hne (List.head?_eq_none_iff.1 h))
  obtain ⟨b, hb⟩ := Option.ne_none_iff_exists'.1 (fun h => hne (List.getLast?_eq_none_iff.1 h))
  by_cases h1 : x ≤ a.1
  · rw [hf.before a ha x h1, hg.before a ha x h1]
  by_cases h2 : b.1 ≤ x
  · rw [hf.after b hb x h2, hg.after b hb x h2]
  push Not at h1 h2
  -- a pair of neighbours around x
  have hex : ∃ i, ∃ hi : i < pts.length, x < (pts[i]).1 := by
    rw [List.getLast?_eq_getElem?] at hb
    obtain ⟨hl, rfl⟩ := List.getElem?_eq_some_iff.1 hb
    exact ⟨_, hl, h2⟩
  classical
  obtain ⟨hi, hxi⟩ := Nat.find_spec hex
  have hmin := fun m hm => Nat.find_min hex (m := m) hm
  revert hi hxi hmin
  generalize Nat.find hex = i
  intro hi hxi hmin
  cases i with
  | zero =>
    rw [List.head?_eq_getElem?] at ha
    obtain ⟨hl, rfl⟩ := List.getElem?_eq_some_iff.1 ha
    exact absurd hxi (not_lt.2 h1.le)
  | succ i =>
    have hi' : i < pts.length := by omega
    have hle : (pts[i]).1 ≤ x := by
      have := hmin i (by omega)
      push Not at this
      exact this hi'
    have hlt : (pts[i]).1 < (pts[i + 1]).1 := List.pairwise_iff_getElem.1 hinc i (i + 1) hi' hi (by omega)
    have e1 := hf.between i _ _ (List.getElem?_eq_getElem hi') (List.getElem?_eq_getElem hi) x hle hxi.le
    have e2 := hg.between i _ _ (List.getElem?_eq_getElem hi') (List.getElem?_eq_getElem hi) x hle hxi.le
    have e3 := e1.trans e2.symm
    have hne0 : (pts[i + 1]).1 - (pts[i]).1 ≠ 0 := sub_ne_zero.2 hlt.ne'
    have e4 : f x - (pts[i]).2 = g x - (pts[i]).2 := by
      have := congrArg (fun v => ((pts[i + 1]).1 - (pts[i]).1)⁻¹ • v) e3
      simpa [smul_smul, inv_mul_cancel₀ hne0] using this
    exact sub_left_injective e4

/-- **C56**: a number, or a list with one number, is that number everywhere, flagged as constant -/
theorem C56_number (L : Option K) (v : V) :
    (∃ g, linfunL L (.num v) = .ok (g, false, false) ∧ ∀ w x, g.call w x = .ok v) ∧
    ∃ g, linfunL L (.arr1 [v]) = .ok (g, false, false) ∧ ∀ w x, g.call w x = .ok v :=
  ⟨⟨_, rfl, fun _ _ => rfl⟩, ⟨_, rfl, fun _ _ => rfl⟩⟩

/-- **C56**: a table of positions and values (positions increasing) is the piecewise linear function through its points, constant outside -/
theorem C56_table (L : Option K) {xs : List K} {ys : List V} {more : List (List V)} (hlen : xs.length = ys.length) (hne : xs ≠ [])
    (hinc : xs.Pairwise (· < ·)) :
    ∃ g f, linfunL L (.arr2 xs (ys :: more)) = .ok (g, false, true) ∧ (∀ w x, g.call w x = .ok (f x)) ∧ Through (xs.zip ys) f := by
  cases xs with
  | nil => exact absurd rfl hne
  | cons x0 xs =>
    cases ys with
    | nil => simp at hlen
    | cons y0 ys =>
      obtain ⟨b, hb⟩ : ∃ b, ((x0 :: xs).zip (y0 :: ys)).getLast? = some b :=
        Option.ne_none_iff_exists'.1 (fun h => by rw [List.getLast?_eq_none_iff] at h; simp at h)
      have hy : (y0 :: ys).getLast? = some b.2 := by
        rw [List.getLast?_eq_getElem?] at hb ⊢
        have h1 : ((x0 :: xs).zip (y0 :: ys)).length - 1 = (y0 :: ys).length - 1 := by
          rw [List.length_zip, hlen, Nat.min_self]
        rw [h1, List.getElem?_zip_eq_some] at hb
        exact hb.2
      refine ⟨.fn fun _ x => .ok (interp1d (x0 :: xs) (y0 :: ys) y0 b.2 x), interp1d (x0 :: xs) (y0 :: ys) y0 b.2, ?_, ?_,
        interp1d_through (a := (x0, y0)) hinc rfl hb⟩
      · simp only [linfunL, List.head?_cons, hy]
      · intro w x; rfl

/-- **C56**: a list of values is spread evenly over the line: the piecewise linear function through the points (k L / (N - 1), k-th value) -/
theorem C56_list {L : K} (hL : 0 < L) {l : List V} (hl : 2 ≤ l.length) :
    ∃ g f, linfunL (some L) (.arr1 l) = .ok (g, false, true) ∧ (∀ w x, g.call w x = .ok (f x)) ∧
      Through (((List.range l.length).map fun k : ℕ => (k : K) * L / ((l.length : K) - 1)).zip l) f := by
  have hN : (0 : K) < (l.length : K) - 1 := by
    have : (2 : K) ≤ (l.length : K) := by exact_mod_cast hl
    linarith
  have hxs : ((List.range l.length).map fun k : ℕ => (k : K) / ((l.length : K) - 1) * L) =
      (List.range l.length).map fun k : ℕ => (k : K) * L / ((l.length : K) - 1) := by
    refine List.map_congr_left fun k _ => ?_
    ring
  have hinc : ((List.range l.length).map fun k : ℕ => (k : K) * L / ((l.length : K) - 1)).Pairwise (· < ·) := by
    rw [List.pairwise_map]
    refine List.pairwise_lt_range.imp ?_
    intro a b hab
    have : (a : K) < b := by exact_mod_cast hab
    gcongr
  obtain ⟨g, f, h1, h2, h3⟩ := C56_table (none : Option K) (more := []) (ys := l) (by simp) (by
    intro h
    have := congrArg List.length h
    simp at this
    rw [this] at hl; simp at hl) hinc
  refine ⟨g, f, ?_, h2, h3⟩
  rw [← h1]
  match l, hl with
  | a :: b :: l, _ =>
    simp only [linfunL]
    rw [hxs]

/-- **C56**: a function of `w` and `x`, in either order, or of one of them, is used as it is, with the right flags -/
theorem C56_function (L : Option K) (f : List K → Except Err V) :
    (∃ g, linfunL L (.call ["w", "x"] f) = .ok (g, true, true) ∧ ∀ w x, g.call w x = f [w, x]) ∧
    (∃ g, linfunL L (.call ["x", "w"] f) = .ok (g, true, true) ∧ ∀ w x, g.call w x = f [x, w]) ∧
    (∃ g, linfunL L (.call ["w"] f) = .ok (g, true, false) ∧ ∀ w x, g.call w x = f [w]) ∧
    ∃ g, linfunL L (.call ["x"] f) = .ok (g, false, true) ∧ ∀ w x, g.call w x = f [x] :=
  ⟨⟨_, rfl, fun _ _ => rfl⟩, ⟨_, rfl, fun _ _ => rfl⟩, ⟨_, rfl, fun _ _ => rfl⟩, ⟨_, rfl, fun _ _ => rfl⟩⟩

/-- **C56**: the flags are right: a parameter flagged as independent of the frequency (position) is; functions of a parameter that is
neither `w` nor `x` aside -/
theorem C56_flags {L : Option K} {p : Param K V} {g : Fn K V} {ddw ddx : Bool} (h : linfunL L p = .ok (g, ddw, ddx))
    (hp : ∀ sig f, p = .call sig f → ∀ n ∈ sig, n = "w" ∨ n = "x") :
    (ddw = false → ∀ w w' x, g.call w x = g.call w' x) ∧ (ddx = false → ∀ w x x', g.call w x = g.call w x') := by
  cases p with
  | num v =>
    simp only [linfunL, Except.ok.injEq, Prod.mk.injEq] at h
    obtain ⟨rfl, -, -⟩ := h
    exact ⟨fun _ _ _ _ => rfl, fun _ _ _ _ => rfl⟩
  | arrN => simp [linfunL] at h
  | arr1 l =>
    simp only [linfunL] at h
    split at h
    · simp only [Except.ok.injEq, Prod.mk.injEq] at h
      obtain ⟨rfl, -, -⟩ := h
      exact ⟨fun _ _ _ _ => rfl, fun _ _ _ _ => rfl⟩
    · split at h
      · simp at h
      · split at h
        · simp only [Except.ok.injEq, Prod.mk.injEq] at h
          obtain ⟨rfl, -, rfl⟩ := h
          exact ⟨fun _ _ _ _ => rfl, by simp⟩
        · simp at h
  | arr2 xs rows =>
    simp only [linfunL] at h
    split at h
    · simp at h
    · split at h
      · simp only [Except.ok.injEq, Prod.mk.injEq] at h
        obtain ⟨rfl, -, rfl⟩ := h
        exact ⟨fun _ _ _ _ => rfl, by simp⟩
      · simp at h
  | call sig f =>
    have hsig := hp sig f rfl
    simp only [linfunL] at h
    split at h
    · simp at h
    by_cases hw : "w" ∈ sig
    · simp only [hw, decide_true, if_true] at h
      split at h
      · rename_i hhead
        by_cases hx : "x" ∈ sig
        · simp only [hx, decide_true, if_true, Except.ok.injEq, Prod.mk.injEq] at h
          obtain ⟨rfl, rfl, rfl⟩ := h
          exact ⟨by simp, by simp⟩
        · simp only [hx, decide_false, Bool.false_eq_true, if_false, Except.ok.injEq, Prod.mk.injEq] at h
          obtain ⟨rfl, rfl, rfl⟩ := h
          exact ⟨by simp, fun _ _ _ _ => rfl⟩
      · rename_i hhead
        simp only [Except.ok.injEq, Prod.mk.injEq] at h
        obtain ⟨rfl, rfl, rfl⟩ := h
        refine ⟨by simp, fun hc => ?_⟩
        exfalso
        have hx : "x" ∉ sig := by simpa using hc
        cases sig with
        | nil => cases hw
        | cons a l =>
          rcases hsig a List.mem_cons_self with rfl | rfl
          · exact hhead rfl
          · exact hx List.mem_cons_self
    · simp only [hw, decide_false, Bool.false_eq_true, if_false] at h
      by_cases hx : "x" ∈ sig
      · simp only [hx, decide_true, if_true, Except.ok.injEq, Prod.mk.injEq] at h
        obtain ⟨rfl, rfl, rfl⟩ := h
        exact ⟨fun _ _ _ _ => rfl, by simp⟩
      · simp only [hx, decide_false, Bool.false_eq_true, if_false] at h
        cases hc : pyCall sig f [] with
        | error e => simp [hc, Except.map] at h
        | ok v =>
          simp only [hc, Except.map, Except.ok.injEq, Prod.mk.injEq] at h
          obtain ⟨rfl, -, -⟩ := h
          exact ⟨fun _ _ _ _ => rfl, fun _ _ _ _ => rfl⟩

/-- **C56, what does not work** (1): a function of another name and `w` gets the position under that name, but is flagged as independent
of the position -/
theorem C56_other_name_wrong (L : Option K) {n : String} (hn : n ≠ "w" ∧ n ≠ "x") (f : List K → Except Err V) :
    ∃ g, linfunL L (.call [n, "w"] f) = .ok (g, true, false) ∧ ∀ w x, g.call w x = f [x, w] := by
  obtain ⟨h1, h2⟩ := hn
  refine ⟨.fn fun w x => pyCall [n, "w"] f [x, w], ?_, fun _ _ => rfl⟩
  have hx : "x" ∉ [n, "w"] := by
    simp only [List.mem_cons, List.not_mem_nil, or_false, not_or]
    exact ⟨fun h => h2 h.symm, by decide⟩
  have hh : ¬ [n, "w"].head? = some "w" := by
    simp only [List.head?_cons, Option.some.injEq]
    exact h1
  simp only [linfunL, hx, hh, decide_false]
  simp

/-- (2): a function without parameters is accepted, but its value cannot be called later -/
theorem C56_constant_function_wrong (L : Option K) {f : List K → Except Err V} {v : V} (hf : f [] = .ok v) :
    ∃ g, linfunL L (.call [] f) = .ok (g, false, false) ∧ ∀ w x, g.call w x = .error .typeError := by
  refine ⟨.val v, ?_, fun _ _ => rfl⟩
  simp [linfunL, pyCall, hf, Except.map]

/-- (3): a table with decreasing positions is right at its points, but takes the value of the wrong end outside -/
theorem C56_decreasing_wrong (L : Option K) {xs : List K} {ys : List V} {more : List (List V)} (hlen : xs.length = ys.length)
    (hdec : xs.Pairwise (· > ·)) {x0 x1 : K} {y0 y1 : V} (h0 : xs.head? = some x0) (h1 : xs.getLast? = some x1) (g0 : ys.head? = some y0)
    (g1 : ys.getLast? = some y1) :
    ∃ (g : Fn K V) (f : K → V), linfunL L (.arr2 xs (ys :: more)) = .ok (g, false, true) ∧ (∀ w x, g.call w x = .ok (f x)) ∧
      (∀ p ∈ xs.zip ys, f p.1 = p.2) ∧ (∀ x < x1, f x = y0) ∧ ∀ x > x0, f x = y1 := by
  have hnd : xs.Nodup := hdec.imp fun h => h.ne'
  have hsorted : sorted xs ys = (xs.zip ys).reverse := by
    have hperm : (sorted xs ys).Perm (xs.zip ys).reverse := (List.mergeSort_perm _ _).trans (List.reverse_perm _).symm
    refine hperm.eq_of_pairwise (le := fun p q : K × V => p.1 < q.1) ?_ (sorted_increasing hnd) ?_
    · intro a b _ _ h h'; exact absurd (h.trans h') (lt_irrefl _)
    · rw [List.pairwise_reverse]
      have := List.Pairwise.sublist (zip_fst_sublist xs ys) hdec
      rwa [List.pairwise_map] at this
  have hz0 : (xs.zip ys).head? = some (x0, y0) := by
    rw [List.head?_eq_getElem?] at h0 g0 ⊢
    rw [List.getElem?_zip_eq_some]; exact ⟨h0, g0⟩
  have hz1 : (xs.zip ys).getLast? = some (x1, y1) := by
    rw [List.getLast?_eq_getElem?] at h1 g1 ⊢
    rw [List.length_zip, List.getElem?_zip_eq_some]
    constructor
    · rw [← hlen, Nat.min_self]; exact h1
    · rw [hlen, Nat.min_self]; exact g1
  have hx : x1 ≤ x0 := by
    have hinc := sorted_increasing (ys := ys) hnd
    have := head_le hinc (a := (x1, y1)) (p := (x0, y0)) (by rw [hsorted, List.head?_reverse]; exact hz1)
      (by rw [hsorted, List.mem_reverse]; exact List.mem_of_mem_head? hz0)
    exact this
  refine ⟨.fn fun _ x => .ok (interp1d xs ys y0 y1 x), interp1d xs ys y0 y1, ?_, fun _ _ => rfl, (interp1d_inside hnd y0 y1).1, ?_, ?_⟩
  · simp only [linfunL, g0, g1]
  · intro x hlt
    exact (interp1d_outside y0 y1 (a := (x1, y1)) (b := (x0, y0)) (by rw [hsorted, List.head?_reverse]; exact hz1)
      (by rw [hsorted, List.getLast?_reverse]; exact hz0) hx).1 hlt
  · intro x hlt
    exact (interp1d_outside y0 y1 (a := (x1, y1)) (b := (x0, y0)) (by rw [hsorted, List.head?_reverse]; exact hz1)
      (by rw [hsorted, List.getLast?_reverse]; exact hz0) hx).2 hlt

/-- (4): what is refused: a list without the length of the line, an empty list, a one-row table, three dimensions, three parameters -/
theorem C56_refused (L : Option K) :
    (∀ l : List V, l.length ≠ 1 → linfunL (none : Option K) (.arr1 l) = .error .typeError) ∧
    linfunL L (.arr2 (V := V) ([] : List K) [[]]) = .error .indexError ∧ (∀ xs, linfunL L (.arr2 (V := V) xs []) = .error .indexError) ∧
    linfunL L (.arrN : Param K V) = .error .runtimeError ∧
    (∀ sig (f : List K → Except Err V), 2 < sig.length → linfunL L (.call sig f) = .error .valueError) ∧
    ∀ n (f : List K → Except Err V), n ≠ "w" → n ≠ "x" → linfunL L (.call [n] f) = .error .typeError := by
  refine ⟨?_, rfl, fun _ => rfl, rfl, ?_, ?_⟩
  · intro l hl
    match l, hl with
    | [], _ => rfl
    | [_], hl => exact absurd rfl hl
    | _ :: _ :: _, _ => rfl
  · intro sig f hs
    simp only [linfunL, if_pos hs]
  · intro n f h1 h2
    simp [linfunL, pyCall, Except.map, Ne.symm h1, Ne.symm h2]

/-- a table and a list in the scope of the theorems -/
theorem C56_witness : ([0, 1, 3] : List ℚ).Pairwise (· < ·) ∧ ([0, 1, 3] : List ℚ).length = ([50, 60, 30] : List ℚ).length ∧
    ([3, 1, 0] : List ℚ).Pairwise (· > ·) ∧ (30 : ℚ) ≠ 50 ∧ 2 ≤ ([50, 60, 30] : List ℚ).length := by
  refine ⟨?_, rfl, ?_, by norm_num, by decide⟩ <;> norm_num [List.pairwise_cons]

end
end PyRFtk.Linfun
