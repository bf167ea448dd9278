import Verif.ResolverSound
import Mathlib.Tactic.Positivity
import Mathlib.Analysis.Complex.ExponentialBounds

/-!
# `TLresolver`: losses and propagation against a physical line, and the equations that are wrong (C41)
-/

namespace PyRFtk.Resolver
open Par

namespace Line
variable {N : Nature} {w : ℝ} (l : Line N w)

theorem log_pos : 0 < Real.log (l.OD / l.ID) := by
  apply Real.log_pos
  rw [lt_div_iff₀ l.ID_pos]; linarith [l.gap]

theorem L_pos : 0 < l.L := by
  have := l.log_pos; have := l.mur_pos; have := N.mu0_pos; have := Real.pi_pos
  unfold Line.L; positivity

theorem C_pos : 0 < l.C := by
  have := l.log_pos; have := l.epsr_pos; have := N.e0_pos; have := Real.pi_pos
  unfold Line.C; positivity

theorem g_nonneg : 0 ≤ l.g := by
  have := l.log_pos; have := l.sigma_nonneg; have := Real.pi_pos
  unfold Line.g; positivity

theorem RsI_nonneg : 0 ≤ l.RsI := Real.sqrt_nonneg _
theorem RsO_nonneg : 0 ≤ l.RsO := Real.sqrt_nonneg _

theorem r_nonneg : 0 ≤ l.r := by
  have := l.RsI_nonneg; have := l.RsO_nonneg; have := l.ID_pos; have := l.OD_pos; have := Real.pi_pos
  unfold Line.r; positivity

/-- real and imaginary part of `γ² = (r + jωL)(g + jωC)` -/
theorem γ_rel : l.γ.re ^ 2 - l.γ.im ^ 2 = l.r * l.g - (w * l.L) * (w * l.C) ∧
    2 * l.γ.re * l.γ.im = l.r * (w * l.C) + l.g * (w * l.L) := by
  have h := l.γ_sq
  have h' : l.γ ^ 2 = (((l.r : ℝ) : ℂ) + Complex.I * ((w * l.L : ℝ) : ℂ)) *
      (((l.g : ℝ) : ℂ) + Complex.I * ((w * l.C : ℝ) : ℂ)) := h
  have h1 := congrArg Complex.re h'
  have h2 := congrArg Complex.im h'
  simp [pow_two, Complex.mul_re, Complex.mul_im] at h1 h2
  constructor <;> nlinarith

/-- the relations divided by `ωL` and `ωC` -/
theorem normal : ∃ q u t R G : ℝ, 0 < q ∧ q ^ 2 = (w * l.L) * (w * l.C) ∧ 0 ≤ u ∧ 0 < t ∧ 0 ≤ R ∧ 0 ≤ G ∧
    l.γ.re = u * q ∧ l.γ.im = t * q ∧ l.r = R * (w * l.L) ∧ l.g = G * (w * l.C) ∧
    u ^ 2 - t ^ 2 = R * G - 1 ∧ 2 * u * t = R + G := by
  have hw := l.w_pos
  have hL : 0 < w * l.L := mul_pos hw l.L_pos
  have hC : 0 < w * l.C := mul_pos hw l.C_pos
  have hLC := mul_pos hL hC
  have hL0 := l.L_pos.ne'
  have hC0 := l.C_pos.ne'
  have hq := Real.sqrt_pos.2 hLC
  have hq2 : Real.sqrt ((w * l.L) * (w * l.C)) ^ 2 = (w * l.L) * (w * l.C) := Real.sq_sqrt hLC.le
  set q := Real.sqrt ((w * l.L) * (w * l.C)) with hqd
  obtain ⟨h1, h2⟩ := l.γ_rel
  have hr := l.r_nonneg
  have hg := l.g_nonneg
  have hR : l.r = l.r / (w * l.L) * (w * l.L) := by field_simp
  have hG : l.g = l.g / (w * l.C) * (w * l.C) := by field_simp
  have ha : l.γ.re = l.γ.re / q * q := by field_simp
  have hb : l.γ.im = l.γ.im / q * q := by field_simp
  refine ⟨q, l.γ.re / q, l.γ.im / q, l.r / (w * l.L), l.g / (w * l.C), hq, hq2, ?_, ?_, ?_, ?_, ha, hb, hR, hG, ?_, ?_⟩
  · exact div_nonneg l.γ_re hq.le
  · exact div_pos l.γ_im hq
  · positivity
  · positivity
  · rw [div_pow, div_pow, hq2, ← sub_div, h1]; field_simp
  · have : 2 * (l.γ.re / q) * (l.γ.im / q) = (2 * l.γ.re * l.γ.im) / q ^ 2 := by field_simp
    rw [this, h2, hq2]
    field_simp

end Line

section loss
variable {N : Nature} {w : ℝ} (l : Line N w) (Zb : ℂ)

theorem sound_RsI : value N Zb w 24 l.par = l.par Par.RsI := by
  have h1 : 0 ≤ w * N.mu0 * l.murI * l.rhoI / 2 := by
    have := l.w_pos; have := N.mu0_pos; have := l.murI_pos; have := l.rhoI_nonneg; positivity
  show sqrtC ((w : ℂ) * N.mu0 * l.murI * l.rhoI / 2) = ((l.RsI : ℝ) : ℂ)
  unfold Line.RsI
  rw [← sqrtC_real h1]; push_cast; rfl

theorem sound_RsO : value N Zb w 25 l.par = l.par Par.RsO := by
  have h1 : 0 ≤ w * N.mu0 * l.murO * l.rhoO / 2 := by
    have := l.w_pos; have := N.mu0_pos; have := l.murO_pos; have := l.rhoO_nonneg; positivity
  show sqrtC ((w : ℂ) * N.mu0 * l.murO * l.rhoO / 2) = ((l.RsO : ℝ) : ℂ)
  unfold Line.RsO
  rw [← sqrtC_real h1]; push_cast; rfl

/-- the series resistance from the attenuation -/
theorem sound_rTL_A : value N Zb w 37 l.par = l.par rTL := by
  obtain ⟨q, u, t, R, G, q0, q2, u0, t0, R0, G0, hα, hβ, hr, hg, h1, h2⟩ := l.normal
  have hL : (0 : ℝ) < w * l.L := mul_pos l.w_pos l.L_pos
  have hC : (0 : ℝ) < w * l.C := mul_pos l.w_pos l.C_pos
  show (let wL := (w : ℂ) * (l.L : ℂ); let wC := (w : ℂ) * (l.C : ℂ)
        let gwC := (l.g : ℂ) / wC; let u := (l.γ.re : ℂ) / sqrtC (wL * wC)
        let D2 := (gwC ^ 2 + 1) * (u ^ 2 + 1)
        (-(1 + 2 * u ^ 2) * gwC + 2 * u * sqrtC D2) * wL) = (l.r : ℂ)
  have e1 : sqrtC ((w : ℂ) * (l.L : ℂ) * ((w : ℂ) * (l.C : ℂ))) = q :=
    sqrtC_pos q0 (by rw [← Complex.ofReal_pow, q2]; push_cast; ring)
  have e2 : (l.γ.re : ℂ) / q = u := by
    rw [hα]; push_cast
    have : (q : ℂ) ≠ 0 := by exact_mod_cast q0.ne'
    field_simp
  have e3 : (l.g : ℂ) / ((w : ℂ) * (l.C : ℂ)) = G := by
    rw [hg]; push_cast
    have : (w : ℂ) * (l.C : ℂ) ≠ 0 := by exact_mod_cast hC.ne'
    exact mul_div_cancel_right₀ _ this
  simp only [e1, e2, e3]
  have e4 : sqrtC (((G : ℂ) ^ 2 + 1) * ((u : ℂ) ^ 2 + 1)) = ((t + u * G : ℝ) : ℂ) := by
    apply sqrtC_pos (by positivity)
    have : (G ^ 2 + 1) * (u ^ 2 + 1) = (t + u * G) ^ 2 := by nlinarith
    exact_mod_cast congrArg (fun x : ℝ => (x : ℂ)) this
  rw [e4, hr]
  have h2' : (2 * u * t : ℂ) = R + G := by exact_mod_cast congrArg (fun x : ℝ => (x : ℂ)) h2
  push_cast
  linear_combination ((w : ℂ) * l.L) * h2'

/-- the shunt conductance from the attenuation -/
theorem sound_gTL_A : value N Zb w 38 l.par = l.par gTL := by
  obtain ⟨q, u, t, R, G, q0, q2, u0, t0, R0, G0, hα, hβ, hr, hg, h1, h2⟩ := l.normal
  have hL : (0 : ℝ) < w * l.L := mul_pos l.w_pos l.L_pos
  have hC : (0 : ℝ) < w * l.C := mul_pos l.w_pos l.C_pos
  show (let wL := (w : ℂ) * (l.L : ℂ); let wC := (w : ℂ) * (l.C : ℂ)
        let rwL := (l.r : ℂ) / wL; let u := (l.γ.re : ℂ) / sqrtC (wL * wC)
        let D2 := (rwL ^ 2 + 1) * (u ^ 2 + 1)
        (-(1 + 2 * u ^ 2) * rwL + 2 * u * sqrtC D2) * wC) = (l.g : ℂ)
  have e1 : sqrtC ((w : ℂ) * (l.L : ℂ) * ((w : ℂ) * (l.C : ℂ))) = q :=
    sqrtC_pos q0 (by rw [← Complex.ofReal_pow, q2]; push_cast; ring)
  have e2 : (l.γ.re : ℂ) / q = u := by
    rw [hα]; push_cast
    have : (q : ℂ) ≠ 0 := by exact_mod_cast q0.ne'
    field_simp
  have e3 : (l.r : ℂ) / ((w : ℂ) * (l.L : ℂ)) = R := by
    rw [hr]; push_cast
    have : (w : ℂ) * (l.L : ℂ) ≠ 0 := by exact_mod_cast hL.ne'
    exact mul_div_cancel_right₀ _ this
  simp only [e1, e2, e3]
  have e4 : sqrtC (((R : ℂ) ^ 2 + 1) * ((u : ℂ) ^ 2 + 1)) = ((t + u * R : ℝ) : ℂ) := by
    apply sqrtC_pos (by positivity)
    have : (R ^ 2 + 1) * (u ^ 2 + 1) = (t + u * R) ^ 2 := by nlinarith
    exact_mod_cast congrArg (fun x : ℝ => (x : ℂ)) this
  rw [e4, hg]
  have h2' : (2 * u * t : ℂ) = R + G := by exact_mod_cast congrArg (fun x : ℝ => (x : ℂ)) h2
  push_cast
  linear_combination ((w : ℂ) * l.C) * h2'

/-- the losses are moderate: `r g < ωL ωC` -/
def Moderate : Prop := l.r * l.g < (w * l.L) * (w * l.C)

/-- the attenuation from the series resistance and the shunt conductance: right for moderate losses -/
theorem sound_A (hmod : Moderate l) : value N Zb w 39 l.par = l.par A := by
  obtain ⟨q, u, t, R, G, q0, q2, u0, t0, R0, G0, hα, hβ, hr, hg, h1, h2⟩ := l.normal
  have hL : (0 : ℝ) < w * l.L := mul_pos l.w_pos l.L_pos
  have hC : (0 : ℝ) < w * l.C := mul_pos l.w_pos l.C_pos
  have hd : 0 < 1 - R * G := by
    unfold Moderate at hmod
    rw [hr, hg] at hmod
    have : R * G * ((w * l.L) * (w * l.C)) < 1 * ((w * l.L) * (w * l.C)) := by linarith
    have := lt_of_mul_lt_mul_right this (by positivity)
    linarith
  show (let wL := (w : ℂ) * (l.L : ℂ); let wC := (w : ℂ) * (l.C : ℂ)
        let gwC := (l.g : ℂ) / wC; let rwL := (l.r : ℂ) / wL
        let d := 1 - rwL * gwC
        let a2 := d * (sqrtC (1 + ((rwL + gwC) / d) ^ 2) - 1) / 2
        sqrtC (a2 * wL * wC)) = (l.γ.re : ℂ)
  have e3 : (l.r : ℂ) / ((w : ℂ) * (l.L : ℂ)) = R := by
    rw [hr]; push_cast
    have : (w : ℂ) * (l.L : ℂ) ≠ 0 := by exact_mod_cast hL.ne'
    exact mul_div_cancel_right₀ _ this
  have e4 : (l.g : ℂ) / ((w : ℂ) * (l.C : ℂ)) = G := by
    rw [hg]; push_cast
    have : (w : ℂ) * (l.C : ℂ) ≠ 0 := by exact_mod_cast hC.ne'
    exact mul_div_cancel_right₀ _ this
  simp only [e3, e4]
  have hdC : (1 - (R : ℂ) * G) ≠ 0 := by
    have : ((1 - R * G : ℝ) : ℂ) ≠ 0 := by exact_mod_cast hd.ne'
    push_cast at this; exact this
  have e5 : sqrtC (1 + (((R : ℂ) + G) / (1 - R * G)) ^ 2) = (((u ^ 2 + t ^ 2) / (1 - R * G) : ℝ) : ℂ) := by
    apply sqrtC_pos (by positivity)
    have : (1 - R * G) ^ 2 + (R + G) ^ 2 = (u ^ 2 + t ^ 2) ^ 2 := by
      have h1' : 1 - R * G = t ^ 2 - u ^ 2 := by linarith
      rw [h1', ← h2]; ring
    have h' : (1 - (R : ℂ) * G) ^ 2 + (R + G) ^ 2 = ((u : ℂ) ^ 2 + t ^ 2) ^ 2 := by
      exact_mod_cast congrArg (fun x : ℝ => (x : ℂ)) this
    push_cast
    field_simp
    linear_combination h'
  rw [e5]
  have h1' : ((u : ℂ) ^ 2 - (t : ℂ) ^ 2) = R * G - 1 := by exact_mod_cast congrArg (fun x : ℝ => (x : ℂ)) h1
  have q2' : (q : ℂ) ^ 2 = (w * l.L) * (w * l.C) := by exact_mod_cast congrArg (fun x : ℝ => (x : ℂ)) q2
  have e6 : (1 - (R : ℂ) * G) * ((((u ^ 2 + t ^ 2) / (1 - R * G) : ℝ) : ℂ) - 1) / 2 = (u : ℂ) ^ 2 := by
    push_cast
    field_simp
    linear_combination -h1'
  rw [e6, hα]
  apply sqrtC_of
  · push_cast; linear_combination (-(u : ℂ) ^ 2) * q2'
  · rcases u0.lt_or_eq with h | h
    · left; rw [Complex.ofReal_re]; exact mul_pos h q0
    · right; simp [← h]

/-- the admittance per metre does not vanish -/
theorem gjwC_ne : (l.g : ℂ) + Complex.I * w * l.C ≠ 0 := by
  intro h
  have := congrArg Complex.im h
  simp [Complex.mul_im] at this
  rcases this with h | h
  · exact l.w_pos.ne' h
  · exact l.C_pos.ne' h

theorem γ_sq' : l.γ ^ 2 = ((l.g : ℂ) + Complex.I * w * l.C) * ((l.r : ℂ) + Complex.I * w * l.L) := by
  have h' : l.γ ^ 2 = (((l.r : ℝ) : ℂ) + Complex.I * ((w * l.L : ℝ) : ℂ)) *
      (((l.g : ℝ) : ℂ) + Complex.I * ((w * l.C : ℝ) : ℂ)) := l.γ_sq
  rw [h']; push_cast; ring

/-- the propagation constant -/
theorem sound_gamma : value N Zb w 47 l.par = l.par gamma := by
  show sqrtC (((l.g : ℂ) + Complex.I * w * l.C) * ((l.r : ℂ) + Complex.I * w * l.L)) = l.γ
  apply sqrtC_of (γ_sq' l).symm
  rcases l.γ_re.lt_or_eq with h | h
  · exact .inl h
  · exact .inr ⟨h.symm, l.γ_im.le⟩

/-- the characteristic impedance: `γ/(g + jωC)` has positive real part -/
theorem sound_Zc : value N Zb w 46 l.par = l.par Zc := by
  show sqrtC (((l.r : ℂ) + Complex.I * w * l.L) / ((l.g : ℂ) + Complex.I * w * l.C)) =
    l.γ / ((l.g : ℂ) + Complex.I * w * l.C)
  have hne := gjwC_ne l
  apply sqrtC_of
  · rw [div_pow, γ_sq' l]; field_simp
  · left
    rw [Complex.div_re]
    have hC : 0 < w * l.C := mul_pos l.w_pos l.C_pos
    have hns : 0 < Complex.normSq ((l.g : ℂ) + Complex.I * w * l.C) := Complex.normSq_pos.2 hne
    have h1 : ((l.g : ℂ) + Complex.I * w * l.C).re = l.g := by simp [Complex.mul_re]
    have h2 : ((l.g : ℂ) + Complex.I * w * l.C).im = w * l.C := by simp [Complex.mul_im]
    rw [h1, h2, ← add_div]
    apply div_pos _ hns
    have := mul_nonneg l.γ_re l.g_nonneg
    have := mul_pos l.γ_im hC
    linarith

end loss
end PyRFtk.Resolver
