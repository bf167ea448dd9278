import Verif.ConvertSpec
import Mathlib.Data.Matrix.Mul
import Mathlib.Tactic.FieldSimp
import Mathlib.Tactic.Ring
import Mathlib.Tactic.LinearCombination

/-!
# From port laws to scattering matrices: uniqueness, power balance, reciprocity

Generic facts on `ScatterV` used for the elements (rfRLC, rfTRL, rfArcObj, rfCoupler).
-/

namespace PyRFtk

section
variable {K : Type*} [Field K] {n : Type*} [Fintype n]

/-- the port state belonging to an excitation `a` -/
theorem scatterV_wave [CharZero K] {z0 : K} (hz : z0 ≠ 0) (S : Matrix n n K) (a : n → K) :
    ScatterV z0 S (a + S.mulVec a) (fun i => (a i - S.mulVec a i) / z0) := by
  have h2 : (2 : K) ≠ 0 := two_ne_zero
  unfold ScatterV
  have e : (fun i => ((a + S.mulVec a) i + z0 * ((a i - S.mulVec a i) / z0)) / 2) = a := by
    funext i; simp only [Pi.add_apply]; field_simp; ring
  rw [e]
  funext i; simp only [Pi.add_apply]; field_simp; ring

/-- two scattering matrices allowing the same port states are equal -/
theorem scatterV_unique [CharZero K] [DecidableEq n] {z0 : K} (hz : z0 ≠ 0) {S S' : Matrix n n K}
    (h : ∀ V I, ScatterV z0 S V I → ScatterV z0 S' V I) : S = S' := by
  have h2 : (2 : K) ≠ 0 := two_ne_zero
  apply Matrix.ext_of_mulVec_single
  intro i
  generalize (Pi.single i (1 : K) : n → K) = a
  have := h _ _ (scatterV_wave hz S a)
  unfold ScatterV at this
  have e : (fun i => ((a + S.mulVec a) i + z0 * ((a i - S.mulVec a i) / z0)) / 2) = a := by
    funext i; simp only [Pi.add_apply]; field_simp; ring
  rw [e] at this
  rw [← this]
  funext i; simp only [Pi.add_apply]; field_simp; ring

/-- Lorentz reciprocity at the ports makes the scattering matrix symmetric -/
theorem reciprocal_of_ports [CharZero K] [DecidableEq n] {z0 : K} (hz : z0 ≠ 0) {S : Matrix n n K}
    (h : ∀ V I V' I', ScatterV z0 S V I → ScatterV z0 S V' I' → ∑ i, V i * I' i = ∑ i, V' i * I i) :
    Reciprocal S := by
  have h2 : (2 : K) ≠ 0 := two_ne_zero
  have key : ∀ a a' : n → K, ∑ i, a i * S.mulVec a' i = ∑ i, a' i * S.mulVec a i := by
    intro a a'
    have := h _ _ _ _ (scatterV_wave hz S a) (scatterV_wave hz S a')
    have h3 : ∑ i, ((a + S.mulVec a) i * ((a' i - S.mulVec a' i) / z0)
        - (a' + S.mulVec a') i * ((a i - S.mulVec a i) / z0)) = 0 := by
      rw [Finset.sum_sub_distrib, this, sub_self]
    have h4 : ∑ i, (a i * S.mulVec a' i - a' i * S.mulVec a i) = 0 := by
      rw [← mul_eq_zero_iff_left (a := (-2) / z0) (div_ne_zero (by simp) hz), Finset.mul_sum, ← h3]
      apply Finset.sum_congr rfl
      intro i _
      simp only [Pi.add_apply]
      field_simp
      ring
    rw [Finset.sum_sub_distrib] at h4
    linear_combination h4
  ext i j
  have := key (Pi.single i 1) (Pi.single j 1)
  simp [Matrix.mulVec_single, Pi.single_apply] at this
  simpa [Matrix.transpose_apply] using this.symm

end

section
variable {n : Type*} [Fintype n]

/-- power flowing into the ports (twice the time average) -/
noncomputable def portPower (V I : n → ℂ) : ℝ := ∑ i, (V i * star (I i)).re

theorem portPower_wave {r : ℝ} (hr : r ≠ 0) (a b : n → ℂ) :
    r * portPower (a + b) (fun i => (a i - b i) / (r : ℂ)) = power a - power b := by
  unfold portPower power
  rw [Finset.mul_sum, ← Finset.sum_sub_distrib]
  apply Finset.sum_congr rfl
  intro i _
  have hz : (r : ℂ) ≠ 0 := by exact_mod_cast hr
  have : star ((a i - b i) / (r : ℂ)) = (star (a i) - star (b i)) / (r : ℂ) := by
    simp
  rw [this, ← Complex.normSq_eq_norm_sq, ← Complex.normSq_eq_norm_sq]
  have e : (a + b) i * ((star (a i) - star (b i)) / (r : ℂ)) = ((a i + b i) * (star (a i) - star (b i))) / (r : ℂ) := by
    simp only [Pi.add_apply]; ring
  rw [e, Complex.div_ofReal_re]
  have : r * (((a i + b i) * (star (a i) - star (b i))).re / r) = ((a i + b i) * (star (a i) - star (b i))).re := by
    field_simp
  rw [this]
  simp [Complex.normSq_apply]
  ring

/-- ports that never deliver net power: passive -/
theorem passive_of_ports {r : ℝ} (hr : 0 < r) {S : Matrix n n ℂ}
    (h : ∀ V I, ScatterV (r : ℂ) S V I → 0 ≤ portPower V I) : Passive S := by
  intro a
  have hz : (r : ℂ) ≠ 0 := by exact_mod_cast hr.ne'
  have h1 := h _ _ (scatterV_wave hz S a)
  have h2 := portPower_wave hr.ne' a (S.mulVec a)
  nlinarith [mul_nonneg hr.le h1]

/-- ports that absorb no net power: lossless -/
theorem lossless_of_ports {r : ℝ} (hr : 0 < r) {S : Matrix n n ℂ}
    (h : ∀ V I, ScatterV (r : ℂ) S V I → portPower V I = 0) : Lossless S := by
  intro a
  have hz : (r : ℂ) ≠ 0 := by exact_mod_cast hr.ne'
  have h1 := h _ _ (scatterV_wave hz S a)
  have h2 := portPower_wave hr.ne' a (S.mulVec a)
  rw [h1] at h2
  linarith

end

end PyRFtk
