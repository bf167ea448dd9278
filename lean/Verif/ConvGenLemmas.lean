import Verif.ConvertLemmas
import Mathlib.Analysis.SpecialFunctions.Complex.Arg
import Mathlib.Analysis.SpecialFunctions.Pow.Real

namespace PyRFtk

open Complex

/-- the principal root is the normaliser of type P -/
theorem norm2_P_iff (z r : ℂ) : norm2 .P z r ↔ r = z ^ (1/2 : ℂ) := by
  have h12 : (1/2 : ℂ) = ((2:ℕ):ℂ)⁻¹ := by norm_num
  constructor
  · rintro ⟨h1, h2⟩
    rw [← h1, h12]
    have harg : |r.arg| ≤ Real.pi / 2 := by
      rw [Complex.abs_arg_le_pi_div_two_iff]
      rcases h2 with h2 | ⟨h2, _⟩ <;> linarith
    have hne : -(Real.pi / 2) ≠ r.arg := by
      intro h
      rcases h2 with h2 | ⟨h2, h3⟩
      · have : |r.arg| < Real.pi / 2 := by
          rw [Complex.abs_arg_lt_pi_div_two_iff]; left; exact h2
        rw [← h, abs_neg, abs_of_pos (by positivity)] at this
        exact lt_irrefl _ this
      · have := Complex.arg_eq_neg_pi_div_two_iff.1 h.symm
        linarith [this.2]
    rw [Complex.pow_cpow_nat_inv (n := 2) (by norm_num)]
    · push_cast
      have := (abs_le.1 harg).1
      exact lt_of_le_of_ne (by linarith) hne
    · push_cast
      exact (abs_le.1 harg).2
  · rintro rfl
    refine ⟨?_, ?_⟩
    · rw [h12]; exact Complex.cpow_nat_inv_pow z (by norm_num)
    · by_cases hz : z = 0
      · right; simp [hz]
      · have e : z ^ (1/2 : ℂ) = ((‖z‖ ^ (1/2:ℝ) : ℝ) : ℂ) * (Complex.cos (z.arg/2) + Complex.sin (z.arg/2) * I) := by
          rw [Complex.cpow_def_of_ne_zero hz, Complex.log, add_mul, Complex.exp_add]
          congr 1
          · rw [Complex.ofReal_cpow (norm_nonneg z), Complex.cpow_def_of_ne_zero (by simpa using hz)]
            rw [Complex.ofReal_log (norm_nonneg z)]; push_cast; rfl
          · rw [Complex.exp_eq_exp_re_mul_sin_add_cos]
            simp
            ring_nf
        have hpos : 0 < ‖z‖ ^ (1/2:ℝ) := Real.rpow_pos_of_pos (norm_pos_iff.2 hz) _
        have hre : (z ^ (1/2 : ℂ)).re = ‖z‖ ^ (1/2:ℝ) * Real.cos (z.arg/2) := by
          rw [e, Complex.re_ofReal_mul]
          congr 1
          rw [show (z.arg : ℂ)/2 = ((z.arg/2 : ℝ) : ℂ) by push_cast; ring, ← Complex.ofReal_cos, ← Complex.ofReal_sin]
          simp only [Complex.add_re, Complex.mul_re, Complex.add_im, Complex.mul_im, Complex.I_re, Complex.I_im,
            Complex.ofReal_re, Complex.ofReal_im]
          ring
        have him : (z ^ (1/2 : ℂ)).im = ‖z‖ ^ (1/2:ℝ) * Real.sin (z.arg/2) := by
          rw [e, Complex.im_ofReal_mul]
          congr 1
          rw [show (z.arg : ℂ)/2 = ((z.arg/2 : ℝ) : ℂ) by push_cast; ring, ← Complex.ofReal_cos, ← Complex.ofReal_sin]
          simp only [Complex.add_re, Complex.mul_re, Complex.add_im, Complex.mul_im, Complex.I_re, Complex.I_im,
            Complex.ofReal_re, Complex.ofReal_im]
          ring
        rw [hre, him]
        have h1 := Complex.neg_pi_lt_arg z
        have h2 := Complex.arg_le_pi z
        rcases h2.eq_or_lt with h2 | h2
        · right
          rw [h2, Real.cos_pi_div_two, Real.sin_pi_div_two]
          constructor <;> linarith
        · left
          exact mul_pos hpos (Real.cos_pos_of_mem_Ioo ⟨by linarith, by linarith⟩)

theorem norm2_G_iff (z r : ℂ) (hz : 0 < z.re) : norm2 .G z r ↔ r = ((Real.sqrt z.re : ℝ) : ℂ) := by
  constructor
  · rintro ⟨h1, h2⟩
    have h3 : (r - (Real.sqrt z.re : ℝ)) * (r + (Real.sqrt z.re : ℝ)) = 0 := by
      have : (((Real.sqrt z.re : ℝ) : ℂ))^2 = (z.re : ℂ) := by
        rw [← Complex.ofReal_pow, Real.sq_sqrt hz.le]
      linear_combination h1 - this
    rcases mul_eq_zero.1 h3 with h | h
    · linear_combination h
    · have := congrArg Complex.re h
      simp at this
      have := Real.sqrt_nonneg z.re
      linarith
  · rintro rfl
    refine ⟨?_, ?_⟩
    · rw [← Complex.ofReal_pow, Real.sq_sqrt hz.le]
    · simpa using hz

theorem norm2_exists (t : WaveType) (z : ℂ) (h : t.Admissible z) :
    ∃ r, r ≠ 0 ∧ ∀ r', norm2 t z r' ↔ r' = r := by
  cases t with
  | V => exact ⟨1, one_ne_zero, fun r' => Iff.rfl⟩
  | P =>
    refine ⟨z ^ (1/2 : ℂ), ?_, norm2_P_iff z⟩
    rw [Ne, Complex.cpow_eq_zero_iff]; simp; exact h
  | G =>
    refine ⟨_, ?_, fun r' => norm2_G_iff z r' h⟩
    have : 0 < Real.sqrt z.re := Real.sqrt_pos.2 h
    exact_mod_cast this.ne'

/-- coefficients that faithfully implement a wave definition -/
structure IsCoef (t : WaveType) (z : ℂ) (vi ab : ℂ × ℂ × ℂ × ℂ) : Prop where
  ab_iff : ∀ V I a b, Waves t z V I a b ↔ a = ab.1 * V + ab.2.1 * I ∧ b = ab.2.2.1 * V + ab.2.2.2 * I
  vi_iff : ∀ V I a b, Waves t z V I a b ↔ V = vi.1 * a + vi.2.1 * b ∧ I = vi.2.2.1 * a + vi.2.2.2 * b

theorem two_re (z : ℂ) : z + starRingEnd ℂ z = 2 * (z.re : ℂ) := by
  apply Complex.ext <;> simp; ring

theorem isCoef_aux (t : WaveType) (z r : ℂ) (hr : r ≠ 0) (hr' : ∀ r', norm2 t z r' ↔ r' = r) (zc : ℂ)
    (hzc : zc = if t = .G then starRingEnd ℂ z else z) (hs : z + zc = 2 * r * (r * (if t = .V then z else 1)))
    (hV : t = .V → z ≠ 0) (vi ab)
    (hvi : vi = if t = .V then (1, 1, z⁻¹, -z⁻¹) else (zc * r⁻¹, z * r⁻¹, r⁻¹, -r⁻¹))
    (hab : ab = (r⁻¹/2, z * r⁻¹/2, r⁻¹/2, -zc * r⁻¹/2)) : IsCoef t z vi ab := by
  have key : ∀ V I a b, Waves t z V I a b ↔ a = (V + z * I) / (2 * r) ∧ b = (V - zc * I) / (2 * r) := by
    intro V I a b
    unfold Waves
    rw [← hzc]
    constructor
    · rintro ⟨r', h1, h2⟩; rw [hr'] at h1; subst h1; exact h2
    · intro h; exact ⟨r, (hr' r).2 rfl, h⟩
  constructor
  · intro V I a b
    rw [key, hab]
    simp only
    have e1 : (V + z * I) / (2 * r) = r⁻¹ / 2 * V + z * r⁻¹ / 2 * I := by field_simp
    have e2 : (V - zc * I) / (2 * r) = r⁻¹ / 2 * V + -zc * r⁻¹ / 2 * I := by field_simp; ring
    rw [e1, e2]
  · intro V I a b
    rw [key, hvi]
    by_cases ht : t = .V
    · have hz := hV ht
      have hr1 : (1:ℂ) = r := by rw [← hr', ht]; rfl
      subst hr1
      simp [ht] at hzc
      subst hzc
      simp only [ht, if_true]
      constructor
      · rintro ⟨rfl, rfl⟩
        constructor <;> field_simp <;> ring
      · rintro ⟨rfl, rfl⟩
        constructor <;> field_simp <;> ring
    · simp only [ht, if_false] at hs ⊢
      constructor
      · rintro ⟨rfl, rfl⟩
        constructor
        · field_simp; linear_combination (-V) * hs
        · field_simp; linear_combination (-I) * hs
      · rintro ⟨rfl, rfl⟩
        constructor
        · field_simp; linear_combination (-a) * hs
        · field_simp; linear_combination (-b) * hs

theorem coef_spec (t : WaveType) (z : ℂ) (h : t.Admissible z) :
    ∃ vi ab, coef t.str z = .ok ⟨some vi, some ab⟩ ∧ IsCoef t z vi ab := by
  cases t with
  | V =>
    simp only [WaveType.Admissible] at h
    refine ⟨(1, 1, z⁻¹, -z⁻¹), (1/2, z/2, 1/2, -z/2), ?_, ?_⟩
    · simp [coef, WaveType.str, h]
    · apply isCoef_aux .V z 1 one_ne_zero (fun r' => Iff.rfl) z (by simp) (by simp; ring) (fun _ => h)
      · simp
      · simp
  | G =>
    simp only [WaveType.Admissible] at h
    have hs : 0 < Real.sqrt z.re := Real.sqrt_pos.2 h
    have hr : ((Real.sqrt z.re : ℝ) : ℂ) ≠ 0 := by exact_mod_cast hs.ne'
    refine ⟨_, _, ?_, isCoef_aux .G z _ hr (fun r' => norm2_G_iff z r' h) _ (by rw [if_pos rfl]) ?_ (by simp) _ _ rfl rfl⟩
    · simp [coef, WaveType.str, h]
    · simp
      rw [two_re, mul_assoc, ← Complex.ofReal_mul, Real.mul_self_sqrt h.le]
  | P =>
    simp only [WaveType.Admissible] at h
    have hr : z ^ (1/2 : ℂ) ≠ 0 := by rw [Ne, Complex.cpow_eq_zero_iff]; simp; exact h
    refine ⟨_, _, ?_, isCoef_aux .P z _ hr (norm2_P_iff z) z (by simp) ?_ (by simp) _ _ rfl rfl⟩
    · simp [coef, WaveType.str, h]
    · have := ((norm2_P_iff z _).2 rfl).1
      simp only [reduceCtorEq, if_false]
      linear_combination (-2) * this

/-- what a source (type1, Z1) must satisfy for its coefficients to be finite -/
theorem admissible_of_toVI (t : WaveType) (z : ℂ) {c : Coef} (hc : coef t.str z = .ok c) (h : c.toVI.isSome) :
    t.Admissible z := by
  cases t with
  | V =>
    intro hz
    simp [coef, WaveType.str] at hc; subst hc; simp [hz] at h
  | G =>
    by_contra hz
    simp only [WaveType.Admissible] at hz
    simp [coef, WaveType.str, hz] at hc; subst hc; simp at h
  | P =>
    intro hz
    simp [coef, WaveType.str, hz] at hc; subst hc; simp at h

theorem coef_ok (t : WaveType) (z : ℂ) : ∃ c, coef t.str z = .ok c := by
  cases t <;> simp [coef, WaveType.str]

/-- the coefficient row for a row of impedances -/
theorem coef_rows (t : WaveType) {N : ℕ} (z : Fin N → ℂ) (h : ∀ i, t.Admissible (z i)) :
    ∃ (c : Fin N → Coef) (vi ab : Fin N → ℂ × ℂ × ℂ × ℂ), (∀ i, coef t.str (z i) = .ok (c i)) ∧
      (∀ i, c i = ⟨some (vi i), some (ab i)⟩) ∧ ∀ i, IsCoef t (z i) (vi i) (ab i) := by
  choose vi ab h1 h2 using fun i => coef_spec t (z i) (h i)
  exact ⟨fun i => ⟨some (vi i), some (ab i)⟩, vi, ab, h1, fun _ => rfl, h2⟩

section one
variable {N : ℕ}

/-- The matrices of `conv1` written with the coefficient rows. -/
noncomputable def mV (vi : Fin N → ℂ × ℂ × ℂ × ℂ) (S : Matrix (Fin N) (Fin N) ℂ) :=
  Matrix.diagonal (fun i => (vi i).1) + Matrix.diagonal (fun i => (vi i).2.1) * S
noncomputable def mI (vi : Fin N → ℂ × ℂ × ℂ × ℂ) (S : Matrix (Fin N) (Fin N) ℂ) :=
  Matrix.diagonal (fun i => (vi i).2.2.1) + Matrix.diagonal (fun i => (vi i).2.2.2) * S
noncomputable def mA (vi ab : Fin N → ℂ × ℂ × ℂ × ℂ) (S : Matrix (Fin N) (Fin N) ℂ) :=
  Matrix.diagonal (fun i => (ab i).1) * mV vi S + Matrix.diagonal (fun i => (ab i).2.1) * mI vi S
noncomputable def mB (vi ab : Fin N → ℂ × ℂ × ℂ × ℂ) (S : Matrix (Fin N) (Fin N) ℂ) :=
  Matrix.diagonal (fun i => (ab i).2.2.1) * mV vi S + Matrix.diagonal (fun i => (ab i).2.2.2) * mI vi S

theorem conv1_eq {c1 c2 : Fin N → Coef} {vi ab : Fin N → ℂ × ℂ × ℂ × ℂ}
    (h1 : ∀ i, (c1 i).toVI = some (vi i)) (h2 : ∀ i, (c2 i).toAB = some (ab i)) (S : Matrix (Fin N) (Fin N) ℂ) :
    conv1 c1 c2 S = (npInv (mA vi ab S)).map fun W => mB vi ab S * W := by
  unfold conv1 mA mB mV mI
  simp [h1, h2]

theorem mulVec_mA (vi ab : Fin N → ℂ × ℂ × ℂ × ℂ) (S : Matrix (Fin N) (Fin N) ℂ) (a : Fin N → ℂ) (i : Fin N) :
    (mA vi ab S).mulVec a i = (ab i).1 * ((vi i).1 * a i + (vi i).2.1 * S.mulVec a i) +
      (ab i).2.1 * ((vi i).2.2.1 * a i + (vi i).2.2.2 * S.mulVec a i) := by
  simp [mA, mV, mI, Matrix.add_mulVec, ← Matrix.mulVec_mulVec, Matrix.mulVec_diagonal]

theorem mulVec_mB (vi ab : Fin N → ℂ × ℂ × ℂ × ℂ) (S : Matrix (Fin N) (Fin N) ℂ) (a : Fin N → ℂ) (i : Fin N) :
    (mB vi ab S).mulVec a i = (ab i).2.2.1 * ((vi i).1 * a i + (vi i).2.1 * S.mulVec a i) +
      (ab i).2.2.2 * ((vi i).2.2.1 * a i + (vi i).2.2.2 * S.mulVec a i) := by
  simp [mB, mV, mI, Matrix.add_mulVec, ← Matrix.mulVec_mulVec, Matrix.mulVec_diagonal]

variable {t1 t2 : WaveType} {z1 z2 : Fin N → ℂ} {vi1 ab1 vi2 ab2 : Fin N → ℂ × ℂ × ℂ × ℂ}

theorem allowed_iff (h1 : ∀ i, IsCoef t1 (z1 i) (vi1 i) (ab1 i)) (S : Matrix (Fin N) (Fin N) ℂ) (V I : Fin N → ℂ) :
    Allowed t1 z1 S V I ↔ ∃ a, (∀ i, V i = (vi1 i).1 * a i + (vi1 i).2.1 * S.mulVec a i) ∧
      (∀ i, I i = (vi1 i).2.2.1 * a i + (vi1 i).2.2.2 * S.mulVec a i) := by
  unfold Allowed
  constructor
  · rintro ⟨a, b, h, rfl⟩
    exact ⟨a, fun i => (((h1 i).vi_iff _ _ _ _).1 (h i)).1, fun i => (((h1 i).vi_iff _ _ _ _).1 (h i)).2⟩
  · rintro ⟨a, hV, hI⟩
    exact ⟨a, _, fun i => ((h1 i).vi_iff _ _ _ _).2 ⟨hV i, hI i⟩, rfl⟩

theorem conv_allowed (h1 : ∀ i, IsCoef t1 (z1 i) (vi1 i) (ab1 i)) (h2 : ∀ i, IsCoef t2 (z2 i) (vi2 i) (ab2 i))
    {S S2 W : Matrix (Fin N) (Fin N) ℂ} (hW : mA vi1 ab2 S * W = 1) (hS : S2 = mB vi1 ab2 S * W) (V I : Fin N → ℂ) :
    Allowed t1 z1 S V I ↔ Allowed t2 z2 S2 V I := by
  have hW' : W * mA vi1 ab2 S = 1 := mul_eq_one_comm.1 hW
  rw [allowed_iff h1]
  constructor
  · rintro ⟨a, hV, hI⟩
    refine ⟨(mA vi1 ab2 S).mulVec a, (mB vi1 ab2 S).mulVec a, fun i => ?_, ?_⟩
    · rw [(h2 i).ab_iff, mulVec_mA, mulVec_mB, hV, hI]; exact ⟨rfl, rfl⟩
    · rw [hS, Matrix.mulVec_mulVec, Matrix.mul_assoc, hW', Matrix.mul_one]
  · rintro ⟨a2, b2, h, rfl⟩
    have e2 : a2 = (mA vi1 ab2 S).mulVec (W.mulVec a2) := by rw [Matrix.mulVec_mulVec, hW, Matrix.one_mulVec]
    have e3 : S2.mulVec a2 = (mB vi1 ab2 S).mulVec (W.mulVec a2) := by rw [Matrix.mulVec_mulVec, hS]
    generalize W.mulVec a2 = a1 at e2 e3
    refine ⟨a1, fun i => ?_, fun i => ?_⟩
    all_goals
      have hi := ((h2 i).vi_iff _ _ _ _).1 (h i)
      have hw : Waves t2 (z2 i) ((vi1 i).1 * a1 i + (vi1 i).2.1 * S.mulVec a1 i)
          ((vi1 i).2.2.1 * a1 i + (vi1 i).2.2.2 * S.mulVec a1 i) (a2 i) (S2.mulVec a2 i) := by
        rw [(h2 i).ab_iff, e3, mulVec_mB]
        refine ⟨?_, rfl⟩
        conv_lhs => rw [e2, mulVec_mA]
      have hw' := ((h2 i).vi_iff _ _ _ _).1 hw
    · rw [hi.1, hw'.1]
    · rw [hi.2, hw'.2]

theorem mulVec_ext {A B : Matrix (Fin N) (Fin N) ℂ} (h : ∀ a, A.mulVec a = B.mulVec a) : A = B := by
  apply Matrix.toLin'.injective
  apply LinearMap.ext
  intro v; simpa using h v

theorem waves_exist (h1 : ∀ i, IsCoef t1 (z1 i) (vi1 i) (ab1 i)) (a b : Fin N → ℂ) :
    ∃ V I : Fin N → ℂ, ∀ i, Waves t1 (z1 i) (V i) (I i) (a i) (b i) :=
  ⟨fun i => (vi1 i).1 * a i + (vi1 i).2.1 * b i, fun i => (vi1 i).2.2.1 * a i + (vi1 i).2.2.2 * b i,
    fun i => ((h1 i).vi_iff _ _ _ _).2 ⟨rfl, rfl⟩⟩

/-- the allowed states determine the matrix -/
theorem allowed_unique (h1 : ∀ i, IsCoef t1 (z1 i) (vi1 i) (ab1 i)) {S S' : Matrix (Fin N) (Fin N) ℂ}
    (h : ∀ V I, Allowed t1 z1 S V I ↔ Allowed t1 z1 S' V I) : S = S' := by
  apply mulVec_ext
  intro a
  obtain ⟨V, I, hw⟩ := waves_exist h1 a (S.mulVec a)
  obtain ⟨a', b', hw', rfl⟩ := (h V I).1 ⟨a, _, hw, rfl⟩
  have ha : a' = a := by
    ext i
    rw [(((h1 i).ab_iff _ _ _ _).1 (hw' i)).1, (((h1 i).ab_iff _ _ _ _).1 (hw i)).1]
  subst ha
  ext i
  rw [(((h1 i).ab_iff _ _ _ _).1 (hw' i)).2, (((h1 i).ab_iff _ _ _ _).1 (hw i)).2]

theorem mA_self (h1 : ∀ i, IsCoef t1 (z1 i) (vi1 i) (ab1 i)) (S : Matrix (Fin N) (Fin N) ℂ) : mA vi1 ab1 S = 1 := by
  apply mulVec_ext
  intro a
  ext i
  rw [mulVec_mA, Matrix.one_mulVec]
  have := ((h1 i).vi_iff _ _ (a i) (S.mulVec a i)).2 ⟨rfl, rfl⟩
  exact (((h1 i).ab_iff _ _ _ _).1 this).1.symm

theorem mA_comp (h2 : ∀ i, IsCoef t2 (z2 i) (vi2 i) (ab2 i)) {ab3 : Fin N → ℂ × ℂ × ℂ × ℂ}
    {S S2 W : Matrix (Fin N) (Fin N) ℂ} (hW : mA vi1 ab2 S * W = 1) (hS : S2 = mB vi1 ab2 S * W) :
    mA vi1 ab3 S = mA vi2 ab3 S2 * mA vi1 ab2 S := by
  have hW' : W * mA vi1 ab2 S = 1 := mul_eq_one_comm.1 hW
  apply mulVec_ext
  intro a
  ext i
  rw [← Matrix.mulVec_mulVec, mulVec_mA, mulVec_mA]
  have e3 : S2.mulVec ((mA vi1 ab2 S).mulVec a) = (mB vi1 ab2 S).mulVec a := by
    rw [hS, Matrix.mulVec_mulVec, Matrix.mul_assoc, hW', Matrix.mul_one]
  rw [e3, mulVec_mA, mulVec_mB]
  have := ((h2 i).ab_iff ((vi1 i).1 * a i + (vi1 i).2.1 * S.mulVec a i)
    ((vi1 i).2.2.1 * a i + (vi1 i).2.2.2 * S.mulVec a i) _ _).2 ⟨rfl, rfl⟩
  have := ((h2 i).vi_iff _ _ _ _).1 this
  rw [← this.1, ← this.2]

end one

end PyRFtk
