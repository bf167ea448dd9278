import Verif.TRLProps2
import Mathlib.Tactic.Linarith
import Mathlib.Tactic.Positivity

/-!
# maxfun and rfTRL.maxV: C12, C48
-/

namespace PyRFtk.TRL

/-- `(x, y)` is the top of the parabola through three points -/
def TopOfParabola (p0 p1 p2 : ℝ × ℝ) (x y : ℝ) : Prop :=
  ∃ a b c : ℝ, (∀ p ∈ [p0, p1, p2], a * p.1 ^ 2 + b * p.1 + c = p.2) ∧ a * x ^ 2 + b * x + c = y ∧
    ∀ t, a * t ^ 2 + b * t + c ≤ y

/-- three consecutive points of a list -/
def Consecutive (l : List (ℝ × ℝ)) (p0 p1 p2 : ℝ × ℝ) : Prop := ∃ u v, l = u ++ p0 :: p1 :: p2 :: v

theorem sgn_pos {x : ℝ} : 0 < x → sgn x = 1 := fun h => by simp [sgn, h]
theorem sgn_neg {x : ℝ} : x < 0 → sgn x = -1 := fun h => by simp [sgn, h, not_lt.2 h.le]
theorem sgn_zero : sgn 0 = 0 := by simp [sgn]

theorem flagged_iff {a b : ℝ} : sgn b - sgn a < 0 ↔ (0 < a ∧ b ≤ 0) ∨ (a = 0 ∧ b < 0) := by
  rcases lt_trichotomy a 0 with ha | ha | ha <;> rcases lt_trichotomy b 0 with hb | hb | hb
  · rw [sgn_neg ha, sgn_neg hb]; constructor <;> intro h
    · norm_num at h
    · rcases h with ⟨h, -⟩ | ⟨h, -⟩ <;> linarith
  · rw [sgn_neg ha, hb, sgn_zero]; constructor <;> intro h
    · norm_num at h
    · rcases h with ⟨h, -⟩ | ⟨h, -⟩ <;> linarith
  · rw [sgn_neg ha, sgn_pos hb]; constructor <;> intro h
    · norm_num at h
    · rcases h with ⟨h, -⟩ | ⟨h, -⟩ <;> linarith
  · rw [ha, sgn_zero, sgn_neg hb]; exact ⟨fun _ => .inr ⟨rfl, hb⟩, fun _ => by norm_num⟩
  · rw [ha, hb, sgn_zero]; simp
  · rw [ha, sgn_zero, sgn_pos hb]; constructor <;> intro h
    · norm_num at h
    · rcases h with ⟨h, -⟩ | ⟨-, h⟩ <;> linarith
  · rw [sgn_pos ha, sgn_neg hb]; exact ⟨fun _ => .inl ⟨ha, hb.le⟩, fun _ => by norm_num⟩
  · rw [sgn_pos ha, hb, sgn_zero]; exact ⟨fun _ => .inl ⟨ha, le_rfl⟩, fun _ => by norm_num⟩
  · rw [sgn_pos ha, sgn_pos hb]; constructor <;> intro h
    · norm_num at h
    · rcases h with ⟨-, h⟩ | ⟨h, -⟩ <;> linarith

theorem vertex_spec {x0 y0 x1 y1 x2 y2 : ℝ} (h1 : x0 < x1) (h2 : x1 < x2) (hf : sgn (y2 - y1) - sgn (y1 - y0) < 0) :
    ∃ v, vertex x0 y0 x1 y1 x2 y2 = some v ∧ x0 ≤ v.1 ∧ v.1 ≤ x2 ∧ y1 ≤ v.2 ∧
      TopOfParabola (x0, y0) (x1, y1) (x2, y2) v.1 v.2 := by
  have hs : 0 ≤ y1 - y0 ∧ y2 - y1 ≤ 0 ∧ (0 < y1 - y0 ∨ y2 - y1 < 0) := by
    rcases flagged_iff.1 hf with ⟨a, b⟩ | ⟨a, b⟩
    · exact ⟨a.le, b, .inl a⟩
    · exact ⟨a.ge, b.le, .inr b⟩
  obtain ⟨s1, s2, s3⟩ := hs
  have ha : 0 < x1 - x0 := by linarith
  have hb : 0 < x2 - x1 := by linarith
  have hab : 0 < x2 - x0 := by linarith
  have d01 : x0 - x1 ≠ 0 := by linarith
  have d02 : x0 - x2 ≠ 0 := by linarith
  have d12 : x1 - x2 ≠ 0 := by linarith
  unfold vertex
  set p0 := (y0 * (x1 - x2) + y1 * (x2 - x0) + y2 * (x0 - x1)) / ((x0 - x1) * (x0 - x2) * (x1 - x2)) with hp0
  set p1 := -(y0 * (x1 ^ 2 - x2 ^ 2) + y1 * (x2 ^ 2 - x0 ^ 2) + y2 * (x0 ^ 2 - x1 ^ 2)) /
    ((x0 - x1) * (x0 - x2) * (x1 - x2)) with hp1
  -- the two slopes
  have e1 : p0 * (x0 + x1) + p1 = (y1 - y0) / (x1 - x0) := by
    rw [hp0, hp1]
    have : x1 - x0 ≠ 0 := ha.ne'
    field_simp
    ring
  have e2 : p0 * (x1 + x2) + p1 = (y2 - y1) / (x2 - x1) := by
    rw [hp0, hp1]
    have : x2 - x1 ≠ 0 := hb.ne'
    field_simp
    ring
  have f1 : 0 ≤ p0 * (x0 + x1) + p1 := by rw [e1]; positivity
  have f2 : p0 * (x1 + x2) + p1 ≤ 0 := by rw [e2]; exact div_nonpos_of_nonpos_of_nonneg s2 hb.le
  have f3 : p0 < 0 := by
    by_contra hn
    have hn : 0 ≤ p0 := not_lt.1 hn
    have hz : p0 * (x2 - x0) ≤ 0 := by nlinarith
    have h0 : p0 = 0 := by nlinarith [mul_nonneg hn hab.le]
    rw [h0] at e1 e2 f1 f2
    have g1 : p1 = 0 := by linarith
    rw [g1] at e1 e2
    have k1 : y1 - y0 = 0 := by
      have := e1.symm; rw [div_eq_iff ha.ne'] at this; linarith
    have k2 : y2 - y1 = 0 := by
      have := e2.symm; rw [div_eq_iff hb.ne'] at this; linarith
    rcases s3 with s3 | s3 <;> linarith
  rw [if_neg f3.ne]
  refine ⟨_, rfl, ?_, ?_, ?_, ?_⟩
  · show x0 ≤ -p1 / (2 * p0)
    rw [le_div_iff_of_neg (by linarith)]; nlinarith
  · show -p1 / (2 * p0) ≤ x2
    rw [div_le_iff_of_neg (by linarith)]; nlinarith
  · show y1 ≤ y0 - p0 * x0 ^ 2 - p1 * x0 - p1 ^ 2 / (4 * p0)
    have hy : y1 = p0 * x1 ^ 2 + p1 * x1 + (y0 - p0 * x0 ^ 2 - p1 * x0) := by
      rw [eq_div_iff ha.ne'] at e1; linarith
    have : p1 ^ 2 / (4 * p0) ≤ -(p0 * x1 ^ 2 + p1 * x1) := by
      rw [div_le_iff_of_neg (by linarith)]
      nlinarith [sq_nonneg (2 * p0 * x1 + p1)]
    linarith
  · refine ⟨p0, p1, y0 - p0 * x0 ^ 2 - p1 * x0, ?_, ?_, ?_⟩
    · rw [eq_div_iff ha.ne'] at e1
      rw [eq_div_iff hb.ne'] at e2
      intro p hp
      simp only [List.mem_cons, List.not_mem_nil, or_false] at hp
      rcases hp with rfl | rfl | rfl
      · simp
      · simp only; linarith
      · simp only; linarith
    · show p0 * (-p1 / (2 * p0)) ^ 2 + p1 * (-p1 / (2 * p0)) + _ = _
      have := f3.ne
      field_simp
      ring
    · intro t
      show _ ≤ y0 - p0 * x0 ^ 2 - p1 * x0 - p1 ^ 2 / (4 * p0)
      have : p1 ^ 2 / (4 * p0) ≤ -(p0 * t ^ 2 + p1 * t) := by
        rw [div_le_iff_of_neg (by linarith)]
        nlinarith [sq_nonneg (2 * p0 * t + p1)]
      linarith

/-- the result is an end sample, or the top of the parabola through three consecutive samples -/
def Candidate (l : List (ℝ × ℝ)) (m : ℝ × ℝ) : Prop :=
  l.head? = some m ∨ l.getLast? = some m ∨ ∃ p0 p1 p2, Consecutive l p0 p1 p2 ∧ TopOfParabola p0 p1 p2 m.1 m.2 ∧
    p0.1 ≤ m.1 ∧ m.1 ≤ p2.1

theorem maxLoop_spec : ∀ (l : List (ℝ × ℝ)) (full pre : List (ℝ × ℝ)) (m : ℝ × ℝ), full = pre ++ l →
    l.Pairwise (fun p q => p.1 < q.1) → Candidate full m →
    (∀ a, l.getLast? = some a → a.2 ≤ m.2) → (∀ a b r, l = a :: b :: r → a.2 ≤ m.2 ∨ a.2 < b.2) →
    m.2 ≤ (maxLoop l m).2 ∧ (∀ p ∈ l, p.2 ≤ (maxLoop l m).2) ∧ Candidate full (maxLoop l m) := by
  intro l
  induction l with
  | nil => intro full pre m _ _ hc _ _; simp [maxLoop, hc]
  | cons p0 l ih =>
    intro full pre m hfull hs hc hlast hhead
    cases l with
    | nil =>
      refine ⟨by simp [maxLoop], ?_, by simpa [maxLoop] using hc⟩
      intro p hp
      simp only [List.mem_singleton] at hp
      subst hp
      simpa [maxLoop] using hlast p rfl
    | cons p1 l =>
      cases l with
      | nil =>
        refine ⟨by simp [maxLoop], ?_, by simpa [maxLoop] using hc⟩
        have h1 : p1.2 ≤ m.2 := hlast p1 rfl
        intro p hp
        simp only [List.mem_cons, List.not_mem_nil, or_false] at hp
        simp only [maxLoop]
        rcases hp with rfl | rfl
        · rcases hhead _ _ _ rfl with h | h <;> linarith
        · exact h1
      | cons p2 r =>
        obtain ⟨x0, y0⟩ := p0
        obtain ⟨x1, y1⟩ := p1
        obtain ⟨x2, y2⟩ := p2
        have hx1 : x0 < x1 := (List.pairwise_cons.1 hs).1 (x1, y1) (by simp)
        have hx2 : x1 < x2 := (List.pairwise_cons.1 (List.pairwise_cons.1 hs).2).1 (x2, y2) (by simp)
        rw [maxLoop]
        set m' := if sgn (y2 - y1) - sgn (y1 - y0) < 0 then maxStep x0 y0 x1 y1 x2 y2 m else m with hm'
        have hstep : m.2 ≤ m'.2 ∧ Candidate full m' ∧ (sgn (y2 - y1) - sgn (y1 - y0) < 0 → y1 ≤ m'.2) := by
          by_cases hf : sgn (y2 - y1) - sgn (y1 - y0) < 0
          · obtain ⟨v, hv, v1, v2, v3, v4⟩ := vertex_spec hx1 hx2 hf
            rw [hm', if_pos hf]
            unfold maxStep
            simp only [hv]
            rw [if_pos ⟨v1, v2⟩]
            split
            · rename_i hlt
              exact ⟨hlt.le, .inr (.inr ⟨_, _, _, ⟨pre, r, hfull⟩, v4, v1, v2⟩), fun _ => v3⟩
            · rename_i hlt
              exact ⟨le_rfl, hc, fun _ => v3.trans (not_lt.1 hlt)⟩
          · rw [hm', if_neg hf]
            exact ⟨le_rfl, hc, fun h => absurd h hf⟩
        obtain ⟨s1, s2, s3⟩ := hstep
        have hhead' := hhead _ _ _ rfl
        simp only at hhead'
        obtain ⟨r1, r2, r3⟩ := ih full (pre ++ [(x0, y0)]) m' (by simp [hfull]) (List.pairwise_cons.1 hs).2 s2
          (fun a ha => (hlast a (by simpa using ha)).trans s1) (by
            intro a b r' he
            simp only [List.cons.injEq] at he
            obtain ⟨rfl, rfl, rfl⟩ := he
            simp only
            by_cases h12 : y1 < y2
            · exact .inr h12
            · left
              by_cases h01 : y0 < y1
              · apply s3
                rw [flagged_iff]
                left; constructor <;> linarith
              · rcases hhead' with h | h
                · linarith
                · exact absurd h h01)
        refine ⟨s1.trans r1, ?_, r3⟩
        intro p hp
        rcases List.mem_cons.1 hp with rfl | hp
        · simp only
          rcases hhead' with h | h
          · linarith
          · have := r2 (x1, y1) (by simp)
            simp only at this
            linarith
        · exact r2 p hp

/-- **C12.** For points given in order of increasing abscissa, `maxfun` returns a value not below any sample; it is an end
sample or the top of the parabola through three consecutive samples, and its abscissa lies between those. -/
theorem C12_maxfun {pts : List (ℝ × ℝ)} (hs : pts.Pairwise (fun p q => p.1 < q.1)) {m : ℝ × ℝ} (h : maxfun pts = .ok m) :
    (∀ p ∈ pts, p.2 ≤ m.2) ∧ Candidate pts m := by
  unfold maxfun at h
  cases hh : pts.head? with
  | none => simp [hh] at h
  | some a =>
    cases hl : pts.getLast? with
    | none => simp [hl] at h
    | some b =>
      simp only [hh, hl, Except.ok.injEq] at h
      have hc : Candidate pts (if a.2 < b.2 then b else a) := by
        split
        · exact .inr (.inl hl)
        · exact .inl hh
      have hm1 : a.2 ≤ (if a.2 < b.2 then b else a).2 := by split <;> linarith
      have hm2 : b.2 ≤ (if a.2 < b.2 then b else a).2 := by split <;> linarith
      obtain ⟨-, h2, h3⟩ := maxLoop_spec pts pts [] _ rfl hs hc
        (fun c hc => by rw [hl] at hc; injection hc with hc; rw [← hc]; exact hm2)
        (fun c d r he => by rw [he] at hh; simp at hh; rw [hh]; exact .inl hm1)
      rw [h] at h2 h3
      exact ⟨h2, h3⟩

/-- it fails for an empty list only -/
theorem C12_total {pts : List (ℝ × ℝ)} (h : pts ≠ []) : ∃ m, maxfun pts = .ok m := by
  unfold maxfun
  cases pts with
  | nil => exact absurd rfl h
  | cons a l =>
    rw [List.getLast?_eq_some_getLast (by simp)]
    exact ⟨_, rfl⟩

/-- the abscissa of the result lies in the sampled range -/
theorem C12_range {pts : List (ℝ × ℝ)} (hs : pts.Pairwise (fun p q => p.1 < q.1)) {m a b : ℝ × ℝ} (h : maxfun pts = .ok m)
    (ha : pts.head? = some a) (hb : pts.getLast? = some b) : a.1 ≤ m.1 ∧ m.1 ≤ b.1 := by
  have hle : ∀ p ∈ pts, a.1 ≤ p.1 := by
    cases pts with
    | nil => simp at ha
    | cons c l =>
      simp at ha; subst ha
      intro p hp
      rcases List.mem_cons.1 hp with rfl | hp
      · exact le_rfl
      · exact ((List.pairwise_cons.1 hs).1 p hp).le
  have hge : ∀ p ∈ pts, p.1 ≤ b.1 := by
    intro p hp
    obtain ⟨ys, rfl⟩ : ∃ ys, pts = ys ++ [b] := by
      rw [List.getLast?_eq_some_iff] at hb; exact hb
    rcases List.mem_append.1 hp with hp | hp
    · exact ((List.pairwise_append.1 hs).2.2 p hp b (by simp)).le
    · simp only [List.mem_singleton] at hp; rw [hp]
  rcases (C12_maxfun hs h).2 with h1 | h1 | ⟨p0, p1, p2, ⟨u, v, rfl⟩, -, h2, h3⟩
  · have := List.mem_of_mem_head? (Option.mem_def.2 h1); exact ⟨hle _ this, hge _ this⟩
  · have := List.mem_of_getLast? h1; exact ⟨hle _ this, hge _ this⟩
  · exact ⟨(hle p0 (by simp)).trans h2, h3.trans (hge p2 (by simp))⟩

/-- **C12 is violated for decreasing abscissae** (a line of negative length): as soon as the samples have an interior local
maximum, the answer is `(0, 0)` whatever the samples. -/
theorem C12_decreasing {p0 p1 p2 : ℝ × ℝ} {u v : List (ℝ × ℝ)} {m : ℝ × ℝ}
    (hs : (u ++ p0 :: p1 :: p2 :: v).Pairwise (fun p q => q.1 < p.1)) (hn : ∀ p ∈ u ++ p0 :: p1 :: p2 :: v, p.1 ≤ 0)
    (hf : p0.2 < p1.2 ∧ p2.2 ≤ p1.2) (h : maxfun (u ++ p0 :: p1 :: p2 :: v) = .ok m) : m = (0, 0) := by
  -- every flagged triple resets to (0,0)
  have step : ∀ x0 y0 x1 y1 x2 y2 : ℝ, x1 < x0 → x2 < x1 → x0 ≤ 0 → ∀ m, maxStep x0 y0 x1 y1 x2 y2 m = (0, 0) := by
    intro x0 y0 x1 y1 x2 y2 h1 h2 h3 m
    have fb : [x0, x1, x2].foldl (fun (m : ℝ × ℝ) x => if m.2 < x then (x, x) else m) (0, 0) = (0, 0) := by
      simp [not_lt.2 h3, not_lt.2 (h1.le.trans h3), not_lt.2 ((h2.trans h1).le.trans h3)]
    unfold maxStep
    rw [fb]
    cases vertex x0 y0 x1 y1 x2 y2 with
    | none => rfl
    | some w =>
      simp only
      rw [if_neg]
      rintro ⟨a, b⟩
      linarith
  have loop0 : ∀ (l : List (ℝ × ℝ)), l.Pairwise (fun p q => q.1 < p.1) → (∀ p ∈ l, p.1 ≤ 0) → maxLoop l (0, 0) = (0, 0) := by
    intro l
    induction l with
    | nil => intros; rfl
    | cons a l ih =>
      intro hs hn
      match l, ih, hs, hn with
      | [], _, _, _ => rfl
      | [_], _, _, _ => rfl
      | (x1, y1) :: (x2, y2) :: r, ih, hs, hn =>
        obtain ⟨x0, y0⟩ := a
        rw [maxLoop]
        have h1 : x1 < x0 := (List.pairwise_cons.1 hs).1 (x1, y1) (by simp)
        have h2 : x2 < x1 := (List.pairwise_cons.1 (List.pairwise_cons.1 hs).2).1 (x2, y2) (by simp)
        rw [step x0 y0 x1 y1 x2 y2 h1 h2 (hn (x0, y0) (by simp)), ite_self]
        exact ih (List.pairwise_cons.1 hs).2 (fun p hp => hn p (List.mem_cons_of_mem _ hp))
  have loop1 : ∀ (u : List (ℝ × ℝ)) (m : ℝ × ℝ), (u ++ p0 :: p1 :: p2 :: v).Pairwise (fun p q => q.1 < p.1) →
      (∀ p ∈ u ++ p0 :: p1 :: p2 :: v, p.1 ≤ 0) → maxLoop (u ++ p0 :: p1 :: p2 :: v) m = (0, 0) := by
    intro u
    induction u with
    | nil =>
      intro m hs hn
      obtain ⟨x0, y0⟩ := p0
      obtain ⟨x1, y1⟩ := p1
      obtain ⟨x2, y2⟩ := p2
      simp only [List.nil_append] at hs hn ⊢
      rw [maxLoop]
      have h1 : x1 < x0 := (List.pairwise_cons.1 hs).1 (x1, y1) (by simp)
      have h2 : x2 < x1 := (List.pairwise_cons.1 (List.pairwise_cons.1 hs).2).1 (x2, y2) (by simp)
      rw [if_pos (by rw [flagged_iff]; left; simp only at hf; constructor <;> linarith [hf.1, hf.2]),
        step x0 y0 x1 y1 x2 y2 h1 h2 (hn (x0, y0) (by simp))]
      exact loop0 _ (List.pairwise_cons.1 hs).2 (fun p hp => hn p (List.mem_cons_of_mem _ hp))
    | cons a u ih =>
      intro m hs hn
      have key : ∀ m', maxLoop (u ++ p0 :: p1 :: p2 :: v) m' = (0, 0) := fun m' =>
        ih m' (List.pairwise_cons.1 hs).2 (fun p hp => hn p (List.mem_cons_of_mem _ hp))
      obtain ⟨b, c, r, hu⟩ : ∃ b c r, u ++ p0 :: p1 :: p2 :: v = b :: c :: r := by
        match u with
        | [] => exact ⟨_, _, _, rfl⟩
        | [d] => exact ⟨_, _, _, rfl⟩
        | d :: e :: w => exact ⟨_, _, _, rfl⟩
      rw [List.cons_append, hu]
      rw [hu] at key
      obtain ⟨x0, y0⟩ := a
      obtain ⟨x1, y1⟩ := b
      obtain ⟨x2, y2⟩ := c
      rw [maxLoop]
      exact key _
  unfold maxfun at h
  split at h
  · injection h with h
    rw [← h]; exact loop1 u _ hs hn
  · cases h

/-! ## rfTRL.maxV -/

theorem linspace_increasing {L : ℝ} (hL : 0 < L) {n : ℕ} (hn : 2 ≤ n) : (linspace L n).Pairwise (· < ·) := by
  unfold linspace
  rw [List.pairwise_map]
  refine List.Pairwise.imp ?_ List.pairwise_lt_range
  intro a b hab
  have h1 : (0 : ℝ) < ((n - 1 : ℕ) : ℝ) := by exact_mod_cast (by omega : 0 < n - 1)
  have h2 : (a : ℝ) < b := by exact_mod_cast hab
  exact mul_lt_mul_of_pos_right h2 (div_pos hL h1)

theorem spaced_increasing {L : ℝ} (hL : 0 < L) (num : ℝ) : (spaced L num).Pairwise (· < ·) :=
  linspace_increasing hL (le_max_left _ _)

theorem grid_increasing {o : Line} (hc : o.constant = true) (hL : 0 < o.L) {f : ℝ} {xs : List ℝ} (h : grid o f = .ok xs) :
    xs.Pairwise (· < ·) := by
  unfold grid at h
  cases hd : o.dx with
  | int n =>
    simp only [hd] at h
    rw [if_pos hc] at h
    by_cases hn : n = 0
    · rw [if_pos hn] at h; cases h
    · rw [if_neg hn] at h
      cases hw : wavlen o (2 * Real.pi * f) 0 with
      | none => simp only [hw] at h; injection h with h; subst h; exact spaced_increasing hL _
      | some l => simp only [hw] at h; injection h with h; subst h; exact spaced_increasing hL _
  | float d =>
    simp only [hd] at h
    by_cases h1 : d < 0
    · rw [if_pos h1, if_neg (not_lt.2 hL.le)] at h
      injection h with h
      subst h
      have hd : 0 < -d := by linarith
      have hp : ((List.range (⌊o.L / -d⌋₊ + 1)).map fun k : ℕ => (k : ℝ) * -d).Pairwise (· < ·) := by
        rw [List.pairwise_map]
        refine List.Pairwise.imp ?_ List.pairwise_lt_range
        intro a b hab
        exact mul_lt_mul_of_pos_right (by exact_mod_cast hab) hd
      split
      · rename_i h3
        rw [List.pairwise_append]
        refine ⟨hp, by simp, ?_⟩
        intro x hx y hy
        simp only [List.mem_singleton] at hy
        subst hy
        obtain ⟨k, hk, rfl⟩ := List.mem_map.1 hx
        have hk : (k : ℝ) ≤ (⌊o.L / -d⌋₊ : ℝ) := by
          rw [List.mem_range] at hk; exact_mod_cast (by omega : k ≤ ⌊o.L / -d⌋₊)
        nlinarith
      · exact hp
    · rw [if_neg h1] at h
      by_cases h2 : d = 0
      · rw [if_pos h2] at h; cases h
      · rw [if_neg h2] at h
        injection h with h; subst h; exact spaced_increasing hL _

theorem fresh_xs {ode : Ode} {o : Line} (hc : o.constant = true) (hL : 0 ≤ o.L) {f : ℝ} {s : Sol} (h : fresh ode o f = .ok s) :
    s.xs.Pairwise (· < ·) ∨ s.xs = [0, 0] := by
  unfold fresh solveNodes at h
  cases hg : grid o f with
  | error e => simp [hg] at h
  | ok gs =>
    simp only [hg] at h
    obtain ⟨e1, e2⟩ := grid_ends hg
    by_cases hz : gs.head? = gs.getLast?
    · rw [if_pos hz] at h
      cases gs with
      | nil => simp at h
      | cons x r =>
        simp at e1; subst e1
        simp only at h
        right
        split at h
        · cases h
        · split at h
          · cases h
          · injection h with h; rw [← h]
    · rw [if_neg hz, if_pos hc] at h
      have hL' : 0 < o.L := by
        rcases hL.lt_or_eq with h1 | h1
        · exact h1
        · rw [e1, e2, h1] at hz; exact absurd rfl hz
      left
      have hx := grid_increasing hc hL' hg
      split at h
      · cases h
      · rename_i p hp
        split at hp
        · cases hp
        · injection hp with hp
          simp only [Prod.mk.injEq] at hp
          obtain ⟨rfl, rfl⟩ := hp
          split at h
          · cases h
          · split at h
            · cases h
            · injection h with h; rw [← h]; exact hx

/-- **C48 (transmission line).** After any history of accepted calls, `maxV` of a uniform line of non-negative length
returns a value that is not below the voltage magnitude at any node of the line — in particular at neither port — for the
distribution excited by the given incident waves, at a position on the line. -/
theorem C48_rfTRL_maxV {ode : Ode} {o o' : Line} (hr : Reach ode o) (hc : o.constant = true) (hL : 0 ≤ o.L) {f : ℝ}
    {E : List (String × ℂ)} {Zb : Option ℝ} {m x : ℝ} {pts : List (ℝ × ℝ)}
    (h : maxV ode o f E Zb = (o', .ok (m, x, pts))) :
    ∃ a0 a1 Vf If, mapE (dictGet E) o.ports = .ok [a0, a1] ∧
      Telegraph (o.z (2 * Real.pi * f)) (o.y (2 * Real.pi * f)) Vf If ∧
      (Vf 0 + refOf o.Zbase Zb * (-If 0)) / 2 = a0 ∧ (Vf o.L + refOf o.Zbase Zb * If o.L) / 2 = a1 ∧
      (∀ p ∈ pts, p.2 = ‖Vf p.1‖ ∧ p.2 ≤ m) ∧ ‖Vf 0‖ ≤ m ∧ ‖Vf o.L‖ ≤ m ∧ 0 ≤ x ∧ x ≤ o.L := by
  obtain ⟨g, s, z⟩ := reach_good hr
  unfold maxV at h
  cases hv : visws ode o f E Zb with
  | mk o1 r1 =>
    cases r1 with
    | error e => simp [hv] at h
    | ok p =>
      obtain ⟨xs, V, I⟩ := p
      obtain ⟨a0, a1, hA, ⟨e1, e2, Vf, If, hT, rfl, rfl, w0, wL⟩, sol, hsol, hxs⟩ := (visws_ok g hv s z).2.2 xs V I rfl
      simp only [hv] at h
      have hz : xs.zip ((xs.map Vf).map fun v => ‖v‖) = xs.map fun x => (x, ‖Vf x‖) := by
        clear * -
        induction xs with
        | nil => rfl
        | cons a l ih => simpa using ih
      rw [hz] at h
      cases hm : maxfun (xs.map fun x => (x, ‖Vf x‖)) with
      | error e => simp [hm] at h
      | ok m' =>
        simp only [hm, Prod.mk.injEq, Except.ok.injEq] at h
        obtain ⟨rfl, rfl, rfl, rfl⟩ := h
        have hall : (∀ p ∈ (xs.map fun x => (x, ‖Vf x‖)), p.2 ≤ m'.2) ∧ 0 ≤ m'.1 ∧ m'.1 ≤ o.L := by
          rcases fresh_xs hc hL hsol with hp | hp
          · rw [hxs] at hp
            have hpw : (xs.map fun x => (x, ‖Vf x‖)).Pairwise (fun p q => p.1 < q.1) := by
              rw [List.pairwise_map]; exact hp
            refine ⟨(C12_maxfun hpw hm).1, ?_⟩
            have := C12_range hpw hm (a := (0, ‖Vf 0‖)) (b := (o.L, ‖Vf o.L‖)) (by rw [List.head?_map, e1]; rfl)
              (by rw [List.getLast?_map, e2]; rfl)
            exact this
          · rw [hxs] at hp
            subst hp
            simp [maxfun, maxLoop] at hm
            simp at e2
            rw [← hm]
            simp [← e2]
        obtain ⟨h1, h2, h3⟩ := hall
        refine ⟨a0, a1, Vf, If, hA, hT, w0, wL, ?_, ?_, ?_, h2, h3⟩
        · intro p hp
          refine ⟨?_, h1 p hp⟩
          obtain ⟨x, -, rfl⟩ := List.mem_map.1 hp
          rfl
        · exact h1 _ (List.mem_map.2 ⟨0, List.mem_of_mem_head? (Option.mem_def.2 e1), rfl⟩)
        · exact h1 _ (List.mem_map.2 ⟨o.L, List.mem_of_getLast? e2, rfl⟩)

/-! ## a concrete line meeting the hypotheses -/

namespace Ex

/-- a lossless 50 Ohm line of one metre with unit delay per metre, default 72 points per wavelength -/
noncomputable def line : Line :=
  { ports := ["1", "2"], L := 1, Zbase := 50, dx := .int 72, constant := true,
    z := fun w _ => Complex.I * w * 50, y := fun w _ => Complex.I * w / 50, xpos := (0, 1), solved := [] }

theorem solves (ode : Ode) : Solves ode line := by
  unfold Solves
  simp [line]

theorem reach (ode : Ode) : Reach ode line := .new _ (solves ode) rfl (by simp [line])

/-- it is evaluated without failure at every nonzero frequency, and is lossless -/
theorem C11_witness (ode : Ode) (f : ℝ) (hf : f ≠ 0) : ∃ o' S, getS ode line f none [] = (o', .ok S) ∧ Lossless S := by
  have hp := Real.pi_ne_zero
  obtain ⟨o', S, h⟩ := C11_total (solves ode) rfl (by simp [GridOK, line]) f (by simp [line]) (by simp [line])
    (.inr (by
      have : (f : ℂ) ≠ 0 := by exact_mod_cast hf
      have hp : (Real.pi : ℂ) ≠ 0 := by exact_mod_cast hp
      simp [line]
      exact hf)) (by simp [line]) (by simp [line])
  have hs : Same line o' := (getS_good h).1
  have hz : o'.Zbase = 50 := by rw [hs]; rfl
  refine ⟨o', S, h, C11_lossless (solves ode) (by rw [hz]; norm_num) (by rw [hz]; simp [refOf]) h ?_ ?_⟩
  · intro x; simp [line]
  · intro x
    have : Complex.I * ((2 * Real.pi * f : ℝ) : ℂ) / 50 = Complex.I * ((2 * Real.pi * f / 50 : ℝ) : ℂ) := by
      push_cast; ring
    simp only [line]
    rw [this]
    simp

end Ex

end PyRFtk.TRL
