import Verif.TRLModel
import Mathlib.Analysis.SpecialFunctions.ExpDeriv
import Mathlib.Analysis.SpecialFunctions.Complex.CircleAddChar

/-!
# Lemmas on the transmission line model
-/

namespace PyRFtk.TRL

/-! ## the grid -/

theorem linspace_ends (L : ℝ) {n : ℕ} (hn : 2 ≤ n) :
    (linspace L n).head? = some 0 ∧ (linspace L n).getLast? = some L := by
  obtain ⟨m, rfl⟩ : ∃ m, n = m + 2 := ⟨n - 2, by omega⟩
  unfold linspace
  constructor
  · rw [List.head?_map, List.head?_range]
    simp
  · rw [List.getLast?_map, List.getLast?_range]
    simp
    field_simp

theorem spaced_ends (L num : ℝ) : (spaced L num).head? = some 0 ∧ (spaced L num).getLast? = some L :=
  linspace_ends L (le_max_left _ _)

theorem grid_ends {o : Line} {f : ℝ} {xs : List ℝ} (h : grid o f = .ok xs) :
    xs.head? = some 0 ∧ xs.getLast? = some o.L := by
  unfold grid at h
  cases hd : o.dx with
  | int n =>
    simp only [hd] at h
    by_cases hc : o.constant = true
    · rw [if_pos hc] at h
      by_cases hn : n = 0
      · rw [if_pos hn] at h; cases h
      · rw [if_neg hn] at h
        cases hw : wavlen o (2 * Real.pi * f) 0 with
        | none => simp only [hw] at h; injection h with h; subst h; exact spaced_ends _ _
        | some l => simp only [hw] at h; injection h with h; subst h; exact spaced_ends _ _
    · rw [if_neg hc] at h
      by_cases hn : n = 0
      · rw [if_pos hn] at h; split at h <;> cases h
      · rw [if_neg hn] at h
        unfold growGrid growSeq at h
        by_cases hk : ∃ k, ∀ x, nodeSeq o f n k = some x → o.L ≤ x
        · rw [dif_pos hk] at h
          cases hl : nodeSeq o f n (Nat.find hk) with
          | none => simp only [hl] at h; cases h
          | some xl =>
            simp only [hl] at h
            by_cases h0 : xl = 0
            · rw [if_pos h0] at h; cases h
            · rw [if_neg h0] at h
              injection h with h
              subst h
              rw [List.head?_map, List.getLast?_map, List.head?_range, List.getLast?_range]
              simp [hl, nodeSeq]
              field_simp
        · rw [dif_neg hk] at h; cases h
  | float d =>
    simp only [hd] at h
    by_cases h1 : d < 0
    · rw [if_pos h1] at h
      by_cases h2 : o.L < 0
      · rw [if_pos h2] at h; cases h
      · rw [if_neg h2] at h
        injection h with h
        subst h
        have hd : 0 < -d := by linarith
        have hL : 0 ≤ o.L := not_lt.1 h2
        have hfl : (⌊o.L / -d⌋₊ : ℝ) * -d ≤ o.L := by
          have := Nat.floor_le (div_nonneg hL hd.le)
          rwa [le_div_iff₀ hd] at this
        split
        · constructor
          · rw [List.head?_append, List.head?_map, List.head?_range]; simp
          · simp
        · rename_i h3
          have : (⌊o.L / -d⌋₊ : ℝ) * -d = o.L := le_antisymm hfl (not_lt.1 h3)
          rw [List.head?_map, List.getLast?_map, List.head?_range, List.getLast?_range]
          simp only [Nat.add_eq_zero_iff, one_ne_zero, and_false, if_false, Option.map_some, Nat.add_sub_cancel, this]
          simp
    · rw [if_neg h1] at h
      by_cases h2 : d = 0
      · rw [if_pos h2] at h; cases h
      · rw [if_neg h2] at h
        injection h with h; subst h; exact spaced_ends _ _

/-! ## fundamental distributions -/

/-- the two distributions starting from unit voltage / unit current -/
structure Fund (z y V1 I1 V2 I2 : ℝ → ℂ) : Prop where
  t1 : Telegraph z y V1 I1
  t2 : Telegraph z y V2 I2
  a : V1 0 = 1
  b : I1 0 = 0
  c : V2 0 = 0
  d : I2 0 = 1

theorem hasDerivAt_exp_mul (g : ℂ) (x : ℝ) :
    HasDerivAt (fun x : ℝ => Complex.exp (g * x)) (g * Complex.exp (g * x)) x := by
  have h1 : HasDerivAt (fun x : ℝ => g * (x : ℂ)) g x := by
    simpa using (Complex.ofRealCLM.hasDerivAt (x := x)).const_mul g
  have := h1.cexp
  rw [mul_comm] at this
  exact this

theorem fund_exp {z y g : ℂ} (hg : g ^ 2 = z * y) (h0 : g ≠ 0) :
    Fund (fun _ => z) (fun _ => y)
      (fun x => 1 / 2 * (Complex.exp (g * x) + 1 / Complex.exp (g * x)))
      (fun x => 1 / 2 * (Complex.exp (g * x) - 1 / Complex.exp (g * x)) / (z / g))
      (fun x => (z / g) ^ 2 * (1 / 2 * (Complex.exp (g * x) - 1 / Complex.exp (g * x)) / (z / g)))
      (fun x => 1 / 2 * (Complex.exp (g * x) + 1 / Complex.exp (g * x))) := by
  have hz : z ≠ 0 := by rintro rfl; simp at hg; exact h0 hg
  have hy : y ≠ 0 := by rintro rfl; simp at hg; exact h0 hg
  have e : ∀ x : ℝ, (1 : ℂ) / Complex.exp (g * x) = Complex.exp (-g * x) := by
    intro x; rw [neg_mul, Complex.exp_neg, one_div]
  simp only [e]
  have d1 := hasDerivAt_exp_mul g
  have d2 := hasDerivAt_exp_mul (-g)
  refine ⟨?_, ?_, by norm_num, by simp, by simp, by norm_num⟩
  · intro x
    constructor
    · refine ((((d1 x).add (d2 x)).const_mul (1 / 2 : ℂ))).congr_deriv ?_
      field_simp; ring
    · refine (((((d1 x).sub (d2 x)).const_mul (1 / 2 : ℂ))).div_const (z / g)).congr_deriv ?_
      field_simp
      linear_combination (Complex.exp (g * x) + Complex.exp (-(g * x))) * hg
  · intro x
    constructor
    · refine ((((((d1 x).sub (d2 x)).const_mul (1 / 2 : ℂ))).div_const (z / g)).const_mul ((z / g) ^ 2)).congr_deriv ?_
      field_simp; ring
    · refine ((((d1 x).add (d2 x)).const_mul (1 / 2 : ℂ))).congr_deriv ?_
      field_simp
      linear_combination (Complex.exp (g * x) - Complex.exp (-(g * x))) * hg

theorem hasDerivAt_ofReal (c : ℂ) (x : ℝ) : HasDerivAt (fun x : ℝ => c * (x : ℂ)) c x := by
  simpa using (Complex.ofRealCLM.hasDerivAt (x := x)).const_mul c

theorem exists_fund (z y : ℂ) : ∃ V1 I1 V2 I2, Fund (fun _ => z) (fun _ => y) V1 I1 V2 I2 := by
  by_cases h : z * y = 0
  · rcases mul_eq_zero.1 h with rfl | rfl
    · refine ⟨fun _ => 1, fun x => y * x, fun _ => 0, fun _ => 1, ?_, ?_, by simp, by simp, by simp, by simp⟩
      · intro x
        exact ⟨(hasDerivAt_const x (1 : ℂ)).congr_deriv (by simp), (hasDerivAt_ofReal y x).congr_deriv (by simp)⟩
      · intro x
        exact ⟨(hasDerivAt_const x (0 : ℂ)).congr_deriv (by simp), (hasDerivAt_const x (1 : ℂ)).congr_deriv (by simp)⟩
    · refine ⟨fun _ => 1, fun _ => 0, fun x => z * x, fun _ => 1, ?_, ?_, by simp, by simp, by simp, by simp⟩
      · intro x
        exact ⟨(hasDerivAt_const x (1 : ℂ)).congr_deriv (by simp), (hasDerivAt_const x (0 : ℂ)).congr_deriv (by simp)⟩
      · intro x
        exact ⟨(hasDerivAt_ofReal z x).congr_deriv (by simp), (hasDerivAt_const x (1 : ℂ)).congr_deriv (by simp)⟩
  · have hg : ((z * y) ^ (1 / 2 : ℂ)) ^ 2 = z * y := by
      rw [← Complex.cpow_nat_mul]; simp
    exact ⟨_, _, _, _, fund_exp hg (by intro h0; rw [h0] at hg; exact h (by rw [← hg]; simp))⟩

/-- the integrator returns the values of the exact solution -/
def ExactOde (ode : Ode) (z y : ℝ → ℂ) : Prop :=
  ∃ V1 I1 V2 I2, Fund z y V1 I1 V2 I2 ∧ ∀ xs, ode z y (1, 0) xs = xs.map (fun x => (V1 x, I1 x)) ∧
    ode z y (0, 1) xs = xs.map (fun x => (V2 x, I2 x))

/-- a line flagged constant has parameters that do not depend on the position; for the others the integrator is exact -/
def Solves (ode : Ode) (o : Line) : Prop :=
  if o.constant then ∀ w x, o.z w x = o.z w 0 ∧ o.y w x = o.y w 0 else ∀ w, ExactOde ode (o.z w) (o.y w)

theorem sqrt_sq (c : ℂ) : (c ^ (1 / 2 : ℂ)) ^ 2 = c := by
  rw [← Complex.cpow_nat_mul]; simp

theorem solveNodes_ok {ode : Ode} {o : Line} (hs : Solves ode o) {f : ℝ} {xs : List ℝ} {VI : List Mat2}
    (h : solveNodes ode o f = .ok (xs, VI)) :
    ∃ V1 I1 V2 I2, Fund (o.z (2 * Real.pi * f)) (o.y (2 * Real.pi * f)) V1 I1 V2 I2 ∧ xs.head? = some 0 ∧
      xs.getLast? = some o.L ∧ VI = xs.map fun x : ℝ => !![V1 x, V2 x; I1 x, I2 x] := by
  unfold solveNodes at h
  cases hg : grid o f with
  | error e => simp [hg] at h
  | ok gs =>
    obtain ⟨e1, e2⟩ := grid_ends hg
    simp only [hg] at h
    have hconst : o.constant = true → o.z (2 * Real.pi * f) = (fun _ => o.z (2 * Real.pi * f) 0) ∧
        o.y (2 * Real.pi * f) = (fun _ => o.y (2 * Real.pi * f) 0) := by
      intro hc
      unfold Solves at hs
      rw [if_pos hc] at hs
      exact ⟨funext fun x => (hs _ x).1, funext fun x => (hs _ x).2⟩
    have hvar : o.constant ≠ true → ExactOde ode (o.z (2 * Real.pi * f)) (o.y (2 * Real.pi * f)) := by
      intro hc
      unfold Solves at hs
      rw [if_neg hc] at hs
      exact hs _
    by_cases hz : gs.head? = gs.getLast?
    · rw [if_pos hz] at h
      have hL : o.L = 0 := by rw [e1, e2] at hz; injection hz with hz; exact hz.symm
      cases gs with
      | nil => cases h
      | cons x r =>
        simp only [List.head?_cons, Option.some.injEq] at e1
        subst e1
        simp only [Except.ok.injEq, Prod.mk.injEq] at h
        obtain ⟨rfl, rfl⟩ := h
        have hF : ∃ V1 I1 V2 I2, Fund (o.z (2 * Real.pi * f)) (o.y (2 * Real.pi * f)) V1 I1 V2 I2 := by
          by_cases hc : o.constant = true
          · obtain ⟨a, b⟩ := hconst hc
            rw [a, b]; exact exists_fund _ _
          · obtain ⟨V1, I1, V2, I2, hF, -⟩ := hvar hc
            exact ⟨V1, I1, V2, I2, hF⟩
        obtain ⟨V1, I1, V2, I2, hF⟩ := hF
        refine ⟨V1, I1, V2, I2, hF, rfl, by simp [hL], ?_⟩
        simp [hF.a, hF.b, hF.c, hF.d, Matrix.one_fin_two]
    · rw [if_neg hz] at h
      by_cases hc : o.constant = true
      · rw [if_pos hc] at h
        obtain ⟨a, b⟩ := hconst hc
        by_cases h0 : (o.z (2 * Real.pi * f) 0 * o.y (2 * Real.pi * f) 0) ^ (1 / 2 : ℂ) = 0
        · rw [if_pos h0] at h; cases h
        · rw [if_neg h0] at h
          simp only [Except.ok.injEq, Prod.mk.injEq] at h
          obtain ⟨rfl, rfl⟩ := h
          rw [a, b]
          exact ⟨_, _, _, _, fund_exp (sqrt_sq _) h0, e1, e2, rfl⟩
      · rw [if_neg hc] at h
        simp only [Except.ok.injEq, Prod.mk.injEq] at h
        obtain ⟨rfl, rfl⟩ := h
        obtain ⟨V1, I1, V2, I2, hF, hx⟩ := hvar hc
        refine ⟨V1, I1, V2, I2, hF, e1, e2, ?_⟩
        rw [(hx _).1, (hx _).2, List.zipWith_map, List.zipWith_self]

/-- what a solved frequency holds -/
theorem fresh_ok {ode : Ode} {o : Line} (hs : Solves ode o) {f : ℝ} {s : Sol} (h : fresh ode o f = .ok s) :
    ∃ V1 I1 V2 I2, Fund (o.z (2 * Real.pi * f)) (o.y (2 * Real.pi * f)) V1 I1 V2 I2 ∧ s.xs.head? = some 0 ∧
      s.xs.getLast? = some o.L ∧ s.VI = s.xs.map (fun x : ℝ => !![V1 x, V2 x; I1 x, I2 x]) ∧
      sFromVI (o.Zbase : ℂ) !![V1 o.L, V2 o.L; I1 o.L, I2 o.L] = .ok s.S ∧ s.sw = [] := by
  unfold fresh at h
  cases hn : solveNodes ode o f with
  | error e => simp [hn] at h
  | ok p =>
    obtain ⟨xs, VI⟩ := p
    obtain ⟨V1, I1, V2, I2, hF, e1, e2, rfl⟩ := solveNodes_ok hs hn
    simp only [hn, List.getLast?_map, e2, Option.map_some] at h
    cases hS : sFromVI (o.Zbase : ℂ) !![V1 o.L, V2 o.L; I1 o.L, I2 o.L] with
    | error e => simp [hS] at h
    | ok S =>
      simp only [hS, Except.ok.injEq] at h
      subst h
      exact ⟨V1, I1, V2, I2, hF, e1, e2, rfl, hS, rfl⟩

theorem law_of_sFromVI {z y V1 I1 V2 I2 : ℝ → ℂ} (hF : Fund z y V1 I1 V2 I2) {L : ℝ} {z0 : ℂ} (hz : z0 ≠ 0) {S : Mat2}
    (h : sFromVI z0 !![V1 L, V2 L; I1 L, I2 L] = .ok S) (v i : Fin 2 → ℂ) :
    ScatterV z0 S v i ↔ LineLaw z y L v i := by
  have := C09_S_from_VI z0 hz _ S h (v 0) (-i 0) (v 1) (i 1)
  rw [lineLaw_iff hF.t1 hF.t2 hF.a hF.b hF.c hF.d]
  have ev : ![v 0, v 1] = v := by funext k; fin_cases k <;> rfl
  have ei : ![- -i 0, i 1] = i := by funext k; fin_cases k <;> simp
  rw [ev, ei] at this
  rw [← this]
  constructor
  · intro h
    have h0 := congrFun h 0
    have h1 := congrFun h 1
    simp [Matrix.mulVec, dotProduct, Fin.sum_univ_two] at h0 h1
    simp [h0, h1]
  · rintro ⟨h0, h1⟩
    funext k
    fin_cases k
    · simp [Matrix.mulVec, dotProduct, Fin.sum_univ_two, h0]
    · simp [Matrix.mulVec, dotProduct, Fin.sum_univ_two, h1]

end PyRFtk.TRL
