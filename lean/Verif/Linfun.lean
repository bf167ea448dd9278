import Verif.Base
import Mathlib.Algebra.Order.Field.Basic
import Mathlib.Algebra.Module.Basic
import Mathlib.Tactic.Module
import Mathlib.Tactic.FieldSimp
import Mathlib.Tactic.Linarith
import Mathlib.Tactic.Positivity

/-!
# How a line parameter is given (C56)

`TLresolver._linfunL` (resolveTLparams.py:424-495): a number, a list, a table or a function becomes a function of the angular
frequency `w` and the position `x`, with two flags telling on what it depends.

`K`: frequencies and positions, `V`: values (real or complex).
-/

set_option linter.unusedSectionVars false

namespace PyRFtk.Linfun

section
variable {K V : Type*} [Field K] [LinearOrder K] [IsStrictOrderedRing K] [AddCommGroup V] [Module K V]

/-! ## model -/

/-- what a caller may supply. A callable has the names of its parameters (without defaults) and is called by position; a 2-d array has a
first row (positions) and more rows. -/
inductive Param (K V : Type*)
  | call (sig : List String) (f : List K → Except Err V)
  | num (v : V)
  | arr1 (l : List V)
  | arr2 (xs : List K) (rows : List (List V))
  | arrN

/-- what `_linfunL` returns first: a function of `w` and `x`, or (a parameterless callable) a value -/
inductive Fn (K V : Type*)
  | fn (g : K → K → Except Err V)
  | val (v : V)

/-- calling it: a number is not callable -/
def Fn.call : Fn K V → K → K → Except Err V
  | .fn g, w, x => g w x
  | .val _, _, _ => .error .typeError

/-- calling a Python function with these positional arguments -/
def pyCall (sig : List String) (f : List K → Except Err V) (args : List K) : Except Err V :=
  if args.length = sig.length then f args else .error .typeError

/-- scipy's `interp1d(…, kind='linear')` inside its range, on sorted points: the segment is found and the straight line evaluated
(`np.interp` for real values, `_call_linear` for complex ones: the same for different positions) -/
def segments : List (K × V) → K → V
  | [], _ => 0
  | [p], _ => p.2
  | [p, q], x => p.2 + (x - p.1) • ((q.1 - p.1)⁻¹ • (q.2 - p.2))
  | p :: q :: r :: l, x => if x < q.1 then p.2 + (x - p.1) • ((q.1 - p.1)⁻¹ • (q.2 - p.2)) else segments (q :: r :: l) x

/-- `interp1d(xs, ys, kind='linear', bounds_error=False, fill_value=(lo, hi))`: the points are sorted (stable), the fill values apply
strictly outside -/
def interp1d (xs : List K) (ys : List V) (lo hi : V) (x : K) : V :=
  let pts := (xs.zip ys).mergeSort fun p q => decide (p.1 ≤ q.1)
  match pts.head?, pts.getLast? with
  | some a, some b => if x < a.1 then lo else if b.1 < x then hi else segments pts x
  | _, _ => lo

/-- `_linfunL` (resolveTLparams.py:424-495); `L` is the length of the line, if known -/
def linfunL (L : Option K) : Param K V → Except Err (Fn K V × Bool × Bool)
  | .call sig f =>
    if 2 < sig.length then .error .valueError else                                            -- 435-437
    let ddw := decide ("w" ∈ sig)
    let ddx := decide ("x" ∈ sig)
    if ddw then
      if sig.head? = some "w" then
        if ddx then .ok (.fn fun w x => pyCall sig f [w, x], ddw, ddx)                         -- 444
        else .ok (.fn fun w _ => pyCall sig f [w], ddw, ddx)                                   -- 447
      else .ok (.fn fun w x => pyCall sig f [x, w], ddw, ddx)                                  -- 450
    else if ddx then .ok (.fn fun _ x => pyCall sig f [x], ddw, ddx)                           -- 454
    else (pyCall sig f []).map fun v => (.val v, ddw, ddx)                                     -- 457
  | .num v => .ok (.fn fun _ _ => .ok v, false, false)
  | .arr1 l =>
    match l with
    | [v] => .ok (.fn fun _ _ => .ok v, false, false)
    | l => match L with
      | none => .error .typeError                                                             -- 478: `array * None`
      | some L =>
        let xs := (List.range l.length).map fun k : ℕ => (k : K) / ((l.length : K) - 1) * L
        match l.head?, l.getLast? with
        | some a, some b => .ok (.fn fun _ x => .ok (interp1d xs l a b x), false, true)
        | _, _ => .error .indexError
  | .arr2 xs rows =>
    match rows with
    | [] => .error .indexError
    | ys :: _ => match ys.head?, ys.getLast? with
      | some a, some b => .ok (.fn fun _ x => .ok (interp1d xs ys a b x), false, true)
      | _, _ => .error .indexError
  | .arrN => .error .runtimeError                                                             -- NotImplementedError

/-! ## specification -/

/-- **The piecewise linear function through these points**, constant before the first and after the last -/
structure Through (pts : List (K × V)) (f : K → V) : Prop where
  knots : ∀ p ∈ pts, f p.1 = p.2
  between : ∀ (i : ℕ) p q, pts[i]? = some p → pts[i + 1]? = some q → ∀ x, p.1 ≤ x → x ≤ q.1 →
    (q.1 - p.1) • (f x - p.2) = (x - p.1) • (q.2 - p.2)
  before : ∀ p, pts.head? = some p → ∀ x ≤ p.1, f x = p.2
  after : ∀ p, pts.getLast? = some p → ∀ x ≥ p.1, f x = p.2

/-! ## interpolation -/

/-- strictly increasing positions -/
def Increasing (pts : List (K × V)) : Prop := pts.Pairwise fun p q => p.1 < q.1

theorem segments_first {p q : K × V} {l : List (K × V)} {x : K} (h : x < q.1) :
    segments (p :: q :: l) x = p.2 + (x - p.1) • ((q.1 - p.1)⁻¹ • (q.2 - p.2)) := by
  cases l with
  | nil => rfl
  | cons r l => simp only [segments, if_pos h]

theorem segments_line {p q : K × V} {l : List (K × V)} {x : K} (hpq : p.1 < q.1) (hinc : Increasing (q :: l)) (h : x ≤ q.1) :
    segments (p :: q :: l) x = p.2 + (x - p.1) • ((q.1 - p.1)⁻¹ • (q.2 - p.2)) ∧ segments (q :: l) q.1 = q.2 := by
  have hsec : segments (q :: l) q.1 = q.2 := by
    cases l with
    | nil => rfl
    | cons r l =>
      have hqr : q.1 < r.1 := (List.pairwise_cons.1 hinc).1 r List.mem_cons_self
      rw [segments_first hqr]
      simp
  refine ⟨?_, hsec⟩
  rcases lt_or_eq_of_le h with h | h
  · exact segments_first h
  · cases l with
    | nil => rfl
    | cons r l =>
      have e1 : segments (p :: q :: r :: l) x = segments (q :: r :: l) x := by
        rw [segments, if_neg (by rw [h]; exact lt_irrefl _)]
      rw [e1, h, hsec]
      have hne : q.1 - p.1 ≠ 0 := sub_ne_zero.2 hpq.ne'
      rw [smul_smul, mul_inv_cancel₀ hne, one_smul]
      abel

theorem segments_between : ∀ (pts : List (K × V)), Increasing pts → ∀ (i : ℕ) p q, pts[i]? = some p → pts[i + 1]? = some q →
    ∀ x, p.1 ≤ x → x ≤ q.1 → segments pts x = p.2 + (x - p.1) • ((q.1 - p.1)⁻¹ • (q.2 - p.2))
  | [], _, i, p, q, hp, _, _, _, _ => by simp at hp
  | [a], _, i, p, q, hp, hq, _, _, _ => by simp at hq
  | a :: b :: l, hinc, 0, p, q, hp, hq, x, h1, h2 => by
    simp only [List.getElem?_cons_zero, Option.some.injEq, zero_add, List.getElem?_cons_succ] at hp hq
    subst hp hq
    obtain ⟨g1, g2⟩ := List.pairwise_cons.1 hinc
    exact (segments_line (g1 b List.mem_cons_self) g2 h2).1
  | a :: b :: l, hinc, i + 1, p, q, hp, hq, x, h1, h2 => by
    simp only [List.getElem?_cons_succ] at hp hq
    obtain ⟨g1, g2⟩ := List.pairwise_cons.1 hinc
    have hbp : b.1 ≤ p.1 := by
      cases i with
      | zero => simp only [List.getElem?_cons_zero, Option.some.injEq] at hp; rw [hp]
      | succ i =>
        simp only [List.getElem?_cons_succ] at hp
        exact ((List.pairwise_cons.1 g2).1 p (List.mem_of_getElem? hp)).le
    have hne : l ≠ [] := by
      rintro rfl
      simp at hq
    obtain ⟨r, l, rfl⟩ := List.exists_cons_of_ne_nil hne
    have e1 : segments (a :: b :: r :: l) x = segments (b :: r :: l) x := by
      rw [segments, if_neg (not_lt.2 (hbp.trans h1))]
    rw [e1]
    exact segments_between (b :: r :: l) g2 i p q hp (by simpa using hq) x h1 h2

theorem segments_knot (pts : List (K × V)) (h : Increasing pts) {p : K × V} (hp : p ∈ pts) : segments pts p.1 = p.2 := by
  obtain ⟨i, hi, rfl⟩ := List.mem_iff_getElem.1 hp
  by_cases hlast : i + 1 < pts.length
  · have hlt : pts[i].1 < pts[i + 1].1 := List.pairwise_iff_getElem.1 h i (i + 1) hi hlast (by omega)
    rw [segments_between pts h i pts[i] pts[i + 1] (List.getElem?_eq_getElem hi) (List.getElem?_eq_getElem hlast) _ le_rfl hlt.le]
    simp
  · cases i with
    | zero =>
      match pts, hi, hlast, h with
      | [a], _, _, _ => rfl
      | _ :: _ :: _, _, hlast, _ => simp at hlast
    | succ i =>
      have hi' : i < pts.length := by omega
      have hlt : pts[i].1 < pts[i + 1].1 := List.pairwise_iff_getElem.1 h i (i + 1) hi' hi (by omega)
      rw [segments_between pts h i pts[i] pts[i + 1] (List.getElem?_eq_getElem hi') (List.getElem?_eq_getElem hi) _ hlt.le le_rfl]
      rw [smul_smul, mul_inv_cancel₀ (sub_ne_zero.2 hlt.ne'), one_smul]
      abel

theorem head_le {pts : List (K × V)} (h : Increasing pts) {a p : K × V} (ha : pts.head? = some a) (hp : p ∈ pts) : a.1 ≤ p.1 := by
  cases pts with
  | nil => cases hp
  | cons b l =>
    simp only [List.head?_cons, Option.some.injEq] at ha
    subst ha
    rcases List.mem_cons.1 hp with rfl | hp
    · exact le_rfl
    · exact ((List.pairwise_cons.1 h).1 p hp).le

theorem le_last {pts : List (K × V)} (h : Increasing pts) {b p : K × V} (hb : pts.getLast? = some b) (hp : p ∈ pts) : p.1 ≤ b.1 := by
  rw [List.getLast?_eq_getElem?] at hb
  obtain ⟨hl', rfl⟩ := List.getElem?_eq_some_iff.1 hb
  obtain ⟨i, hi, rfl⟩ := List.mem_iff_getElem.1 hp
  by_cases hl : i = pts.length - 1
  · subst hl; exact le_rfl
  · exact (List.pairwise_iff_getElem.1 h i (pts.length - 1) hi (by omega) (by omega)).le

theorem zip_fst_sublist {α β : Type*} : ∀ (l : List α) (m : List β), ((l.zip m).map Prod.fst).Sublist l
  | [], _ => by simp
  | _ :: _, [] => by simp
  | a :: l, b :: m => by simpa using zip_fst_sublist l m

/-- the points in the order of their positions -/
def sorted (xs : List K) (ys : List V) : List (K × V) := (xs.zip ys).mergeSort fun p q => decide (p.1 ≤ q.1)

theorem sorted_increasing {xs : List K} {ys : List V} (h : xs.Nodup) : Increasing (sorted xs ys) := by
  have h1 : (sorted xs ys).Pairwise fun p q => p.1 ≤ q.1 := by
    have := List.pairwise_mergeSort (le := fun p q : K × V => decide (p.1 ≤ q.1))
      (fun a b c h1 h2 => by simp only [decide_eq_true_eq] at *; exact h1.trans h2)
      (fun a b => by simp only [Bool.or_eq_true, decide_eq_true_eq]; exact le_total _ _) (xs.zip ys)
    exact this.imp fun h => by simpa using h
  have h2 : (sorted xs ys).Pairwise fun p q => p.1 ≠ q.1 := by
    have hp : (sorted xs ys).Perm (xs.zip ys) := List.mergeSort_perm _ _
    rw [hp.pairwise_iff (fun h => h.symm)]
    rw [← List.pairwise_map (f := Prod.fst) (R := (· ≠ ·))]
    have : ((xs.zip ys).map Prod.fst).Sublist xs := by
      exact zip_fst_sublist xs ys
    exact List.Pairwise.sublist this h
  exact (h1.and h2).imp fun h => lt_of_le_of_ne h.1 h.2

theorem sorted_of_increasing {xs : List K} {ys : List V} (h : xs.Pairwise (· < ·)) : sorted xs ys = xs.zip ys := by
  refine List.mergeSort_of_pairwise ?_
  have : ((xs.zip ys).map Prod.fst).Sublist xs := by
    exact zip_fst_sublist xs ys
  have := List.Pairwise.sublist this h
  rw [List.pairwise_map] at this
  exact this.imp fun h => by simpa using h.le

/-- inside its range `interp1d` is right for positions in any order -/
theorem interp1d_inside {xs : List K} {ys : List V} (h : xs.Nodup) (lo hi : V) :
    (∀ p ∈ xs.zip ys, interp1d xs ys lo hi p.1 = p.2) ∧
    ∀ (i : ℕ) p q, (sorted xs ys)[i]? = some p → (sorted xs ys)[i + 1]? = some q → ∀ x, p.1 ≤ x → x ≤ q.1 →
      (q.1 - p.1) • (interp1d xs ys lo hi x - p.2) = (x - p.1) • (q.2 - p.2) := by
  have hinc := sorted_increasing (ys := ys) h
  have hval : ∀ p ∈ sorted xs ys, ∀ q ∈ sorted xs ys, ∀ x, p.1 ≤ x → x ≤ q.1 → interp1d xs ys lo hi x = segments (sorted xs ys) x := by
    intro p hp q hq x h1 h2
    have hne : sorted xs ys ≠ [] := List.ne_nil_of_mem hp
    obtain ⟨a, ha⟩ := Option.ne_none_iff_exists'.1 (fun h => hne (List.head?_eq_none_iff.1 h))
    obtain ⟨b, hb⟩ := Option.ne_none_iff_exists'.1 (fun h => hne (List.getLast?_eq_none_iff.1 h))
    have e1 : ¬ x < a.1 := not_lt.2 ((head_le hinc ha hp).trans h1)
    have e2 : ¬ b.1 < x := not_lt.2 (h2.trans (le_last hinc hb hq))
    unfold interp1d
    simp only
    change (match (sorted xs ys).head?, (sorted xs ys).getLast? with
      | some a, some b => if x < a.1 then lo else if b.1 < x then hi else segments (sorted xs ys) x
      | _, _ => lo) = _
    rw [ha, hb]
    simp only [if_neg e1, if_neg e2]
  constructor
  · intro p hp
    have hp' : p ∈ sorted xs ys := (List.mergeSort_perm _ _).mem_iff.2 hp
    rw [hval p hp' p hp' p.1 le_rfl le_rfl]
    exact segments_knot _ hinc hp'
  · intro i p q hp hq x h1 h2
    rw [hval p (List.mem_of_getElem? hp) q (List.mem_of_getElem? hq) x h1 h2, segments_between _ hinc i p q hp hq x h1 h2]
    have hlt : p.1 < q.1 := by
      obtain ⟨i1, rfl⟩ := List.getElem?_eq_some_iff.1 hp
      obtain ⟨i2, rfl⟩ := List.getElem?_eq_some_iff.1 hq
      exact List.pairwise_iff_getElem.1 hinc i (i + 1) i1 i2 (by omega)
    rw [add_sub_cancel_left, smul_comm, smul_smul (q.1 - p.1), mul_inv_cancel₀ (sub_ne_zero.2 hlt.ne'), one_smul]

theorem interp1d_outside {xs : List K} {ys : List V} (lo hi : V) {a b : K × V} (ha : (sorted xs ys).head? = some a)
    (hb : (sorted xs ys).getLast? = some b) (hab : a.1 ≤ b.1) {x : K} :
    (x < a.1 → interp1d xs ys lo hi x = lo) ∧ (b.1 < x → interp1d xs ys lo hi x = hi) := by
  unfold interp1d
  simp only
  change (_ → (match (sorted xs ys).head?, (sorted xs ys).getLast? with
      | some a, some b => if x < a.1 then lo else if b.1 < x then hi else segments (sorted xs ys) x
      | _, _ => lo) = _) ∧ (_ → (match (sorted xs ys).head?, (sorted xs ys).getLast? with
      | some a, some b => if x < a.1 then lo else if b.1 < x then hi else segments (sorted xs ys) x
      | _, _ => lo) = _)
  rw [ha, hb]
  refine ⟨fun h => by simp only [if_pos h], fun h => ?_⟩
  simp only
  rw [if_neg (not_lt.2 (hab.trans h.le)), if_pos h]

/-- increasing positions: the piecewise linear function -/
theorem interp1d_through {xs : List K} {ys : List V} (h : xs.Pairwise (· < ·)) {a b : K × V} (ha : (xs.zip ys).head? = some a)
    (hb : (xs.zip ys).getLast? = some b) : Through (xs.zip ys) (interp1d xs ys a.2 b.2) := by
  have hs : sorted xs ys = xs.zip ys := sorted_of_increasing h
  have hnd : xs.Nodup := h.imp fun h => h.ne
  have hinc := sorted_increasing (ys := ys) hnd
  obtain ⟨i1, i2⟩ := interp1d_inside hnd (ys := ys) a.2 b.2
  rw [hs] at i2 hinc
  have ham : a ∈ xs.zip ys := List.mem_of_mem_head? ha
  have hbm : b ∈ xs.zip ys := List.mem_of_mem_getLast? hb
  have hab : a.1 ≤ b.1 := head_le hinc ha hbm
  refine ⟨i1, i2, ?_, ?_⟩
  · intro p hp x hx
    rw [ha] at hp
    injection hp with hp
    subst hp
    rcases lt_or_eq_of_le hx with hx | hx
    · exact (interp1d_outside a.2 b.2 (by rw [hs]; exact ha) (by rw [hs]; exact hb) hab).1 hx
    · rw [hx]; exact i1 a ham
  · intro p hp x hx
    rw [hb] at hp
    injection hp with hp
    subst hp
    rcases lt_or_eq_of_le hx with hx | hx
    · exact (interp1d_outside a.2 b.2 (by rw [hs]; exact ha) (by rw [hs]; exact hb) hab).2 hx
    · rw [← hx]; exact i1 b hbm

end
end PyRFtk.Linfun
