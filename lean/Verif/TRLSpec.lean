import Verif.PortPower
import Mathlib.Analysis.Calculus.Deriv.Mul
import Mathlib.Analysis.Calculus.Deriv.Add
import Mathlib.Analysis.Calculus.MeanValue
import Mathlib.Analysis.Calculus.Deriv.MeanValue
import Mathlib.Analysis.Calculus.Deriv.Star
import Mathlib.Analysis.Complex.RealDeriv

/-!
# What a transmission line is (specification, independent of the model)

The telegrapher equations and the port law they impose on a section of length `L`.
-/

namespace PyRFtk.TRL

/-- `V`, `I` satisfy the telegrapher equations with series impedance `z x` and shunt admittance `y x` per unit length; the
current is counted in the direction of decreasing `x` (rfTRL.py:383-386: "currents are flowing out of the port at 0"). -/
def Telegraph (z y V I : ℝ → ℂ) : Prop :=
  ∀ x, HasDerivAt V (z x * I x) x ∧ HasDerivAt I (y x * V x) x

/-- The port law of a section between `x = 0` (first port) and `x = L` (second port): port voltages `v` and currents `i`
flowing into the ports are the end values of some voltage and current distribution on the line. -/
def LineLaw (z y : ℝ → ℂ) (L : ℝ) (v i : Fin 2 → ℂ) : Prop :=
  ∃ V I, Telegraph z y V I ∧ V 0 = v 0 ∧ V L = v 1 ∧ I 0 = -i 0 ∧ I L = i 1

theorem wronskian {z y V I V' I' : ℝ → ℂ} (h : Telegraph z y V I) (h' : Telegraph z y V' I') (x x' : ℝ) :
    V x * I' x - V' x * I x = V x' * I' x' - V' x' * I x' := by
  have hd : ∀ t, HasDerivAt (fun t => V t * I' t - V' t * I t) 0 t := by
    intro t
    have := ((h t).1.mul (h' t).2).sub ((h' t).1.mul (h t).2)
    have e : z t * I t * I' t + V t * (y t * V' t) - (z t * I' t * I t + V' t * (y t * V t)) = 0 := by ring
    rw [e] at this
    exact this
  exact is_const_of_deriv_eq_zero (fun t => (hd t).differentiableAt) (fun t => (hd t).deriv) x x'

/-- every distribution is a combination of the two fundamental ones -/
theorem fundamental {z y V I V1 I1 V2 I2 : ℝ → ℂ} (h : Telegraph z y V I) (h1 : Telegraph z y V1 I1)
    (h2 : Telegraph z y V2 I2) (a : V1 0 = 1) (b : I1 0 = 0) (c : V2 0 = 0) (d : I2 0 = 1) (x : ℝ) :
    V x = V1 x * V 0 + V2 x * I 0 ∧ I x = I1 x * V 0 + I2 x * I 0 := by
  have w12 := wronskian h1 h2 x 0
  have w1 := wronskian h h2 x 0
  have w2 := wronskian h1 h x 0
  rw [a, b, c, d] at *
  constructor
  · linear_combination (-V x) * w12 + V1 x * w1 + V2 x * w2
  · linear_combination (-I x) * w12 + I1 x * w1 + I2 x * w2

theorem Telegraph.comb {z y V1 I1 V2 I2 : ℝ → ℂ} (h1 : Telegraph z y V1 I1)
    (h2 : Telegraph z y V2 I2) (a b : ℂ) :
    Telegraph z y (fun x => V1 x * a + V2 x * b) (fun x => I1 x * a + I2 x * b) := by
  intro x
  constructor
  · have := ((h1 x).1.mul_const a).add ((h2 x).1.mul_const b)
    exact this.congr_deriv (by ring)
  · have := ((h1 x).2.mul_const a).add ((h2 x).2.mul_const b)
    exact this.congr_deriv (by ring)

/-- the port law in terms of the fundamental distributions -/
theorem lineLaw_iff {z y V1 I1 V2 I2 : ℝ → ℂ} (h1 : Telegraph z y V1 I1)
    (h2 : Telegraph z y V2 I2) (a : V1 0 = 1) (b : I1 0 = 0) (c : V2 0 = 0) (d : I2 0 = 1) (L : ℝ) (v i : Fin 2 → ℂ) :
    LineLaw z y L v i ↔ v 1 = V1 L * v 0 + V2 L * (-i 0) ∧ i 1 = I1 L * v 0 + I2 L * (-i 0) := by
  constructor
  · rintro ⟨V, I, h, e1, e2, e3, e4⟩
    have := fundamental h h1 h2 a b c d L
    rw [e1, e2, e3, e4] at this
    exact this
  · rintro ⟨e1, e2⟩
    refine ⟨_, _, h1.comb h2 (v 0) (-i 0), ?_, e1.symm, ?_, e2.symm⟩
    · simp [a, c]
    · simp [b, d]

/-! ## Power and reciprocity on the line -/

/-- reciprocity at the ports -/
theorem LineLaw.reciprocal {z y : ℝ → ℂ} {L : ℝ} {v i v' i' : Fin 2 → ℂ} (h : LineLaw z y L v i) (h' : LineLaw z y L v' i') :
    ∑ k, v k * i' k = ∑ k, v' k * i k := by
  obtain ⟨V, I, h, e1, e2, e3, e4⟩ := h
  obtain ⟨V', I', h', f1, f2, f3, f4⟩ := h'
  have := wronskian h h' 0 L
  rw [e1, e2, e3, e4, f1, f2, f3, f4] at this
  simp only [Fin.sum_univ_two]
  linear_combination -this

theorem hasDerivAt_power {z y V I : ℝ → ℂ} (h : Telegraph z y V I) (x : ℝ) :
    HasDerivAt (fun x => (V x * star (I x)).re) ((z x).re * Complex.normSq (I x) + (y x).re * Complex.normSq (V x)) x := by
  have h1 := (h x).1.mul (h x).2.star
  have h2 := Complex.reCLM.hasFDerivAt.comp_hasDerivAt x h1
  have e : Complex.reCLM (z x * I x * star (I x) + V x * star (y x * V x)) =
      (z x).re * Complex.normSq (I x) + (y x).re * Complex.normSq (V x) := by
    simp [Complex.normSq_apply]
    ring
  rw [e] at h2
  exact h2

/-- a line whose series resistance and shunt conductance are nowhere negative absorbs power -/
theorem LineLaw.passive {z y : ℝ → ℂ} {L : ℝ} {v i : Fin 2 → ℂ} (hL : 0 ≤ L) (hz : ∀ x, 0 ≤ (z x).re) (hy : ∀ x, 0 ≤ (y x).re)
    (h : LineLaw z y L v i) : 0 ≤ portPower v i := by
  obtain ⟨V, I, h, e1, e2, e3, e4⟩ := h
  have hm : Monotone (fun x => (V x * star (I x)).re) := by
    apply monotone_of_deriv_nonneg (fun x => (hasDerivAt_power h x).differentiableAt)
    intro x
    rw [(hasDerivAt_power h x).deriv]
    exact add_nonneg (mul_nonneg (hz x) (Complex.normSq_nonneg _)) (mul_nonneg (hy x) (Complex.normSq_nonneg _))
  have := hm hL
  simp only [e1, e2, e3, e4] at this
  unfold portPower
  simp only [Fin.sum_univ_two]
  simp only [star_neg, mul_neg, Complex.neg_re] at this
  linarith

/-- a line without series resistance and shunt conductance neither absorbs nor delivers power -/
theorem LineLaw.lossless {z y : ℝ → ℂ} {L : ℝ} {v i : Fin 2 → ℂ} (hz : ∀ x, (z x).re = 0) (hy : ∀ x, (y x).re = 0)
    (h : LineLaw z y L v i) : portPower v i = 0 := by
  obtain ⟨V, I, h, e1, e2, e3, e4⟩ := h
  have hd : ∀ x, HasDerivAt (fun x => (V x * star (I x)).re) 0 x := by
    intro x
    have := hasDerivAt_power h x
    rw [hz, hy] at this
    simpa using this
  have := is_const_of_deriv_eq_zero (fun t => (hd t).differentiableAt) (fun t => (hd t).deriv) 0 L
  simp only [e1, e2, e3, e4] at this
  unfold portPower
  simp only [Fin.sum_univ_two]
  simp only [star_neg, mul_neg, Complex.neg_re] at this
  linarith

/-- a line seen from the other end -/
theorem LineLaw.reverse {z y : ℝ → ℂ} {L : ℝ} {v i : Fin 2 → ℂ} (h : LineLaw z y L v i) :
    LineLaw (fun x => z (L - x)) (fun x => y (L - x)) L ![v 1, v 0] ![i 1, i 0] := by
  obtain ⟨V, I, h, e1, e2, e3, e4⟩ := h
  refine ⟨fun x => V (L - x), fun x => - I (L - x), ?_, by simp [e2], by simp [e1], by simp [e4], by simp [e3]⟩
  intro x
  have hs : HasDerivAt (fun x : ℝ => L - x) (-1) x := by simpa using (hasDerivAt_id x).const_sub L
  have h1 := (h (L - x)).1.scomp x hs
  have h2 := ((h (L - x)).2.scomp x hs).neg
  constructor
  · exact h1.congr_deriv (by simp)
  · exact h2.congr_deriv (by simp)

/-- a zero-length line connects its ports -/
theorem lineLaw_zero {z y V1 I1 V2 I2 : ℝ → ℂ} (h1 : Telegraph z y V1 I1)
    (h2 : Telegraph z y V2 I2) (a : V1 0 = 1) (b : I1 0 = 0) (c : V2 0 = 0) (d : I2 0 = 1) (v i : Fin 2 → ℂ) :
    LineLaw z y 0 v i ↔ v 1 = v 0 ∧ i 1 = -i 0 := by
  rw [lineLaw_iff h1 h2 a b c d, a, b, c, d]
  simp

/-- two consecutive sections -/
theorem lineLaw_cascade {z y V1 I1 V2 I2 : ℝ → ℂ} (h1 : Telegraph z y V1 I1)
    (h2 : Telegraph z y V2 I2) (a : V1 0 = 1) (b : I1 0 = 0) (c : V2 0 = 0) (d : I2 0 = 1)
    (L1 L2 : ℝ) (v i : Fin 2 → ℂ) :
    LineLaw z y (L1 + L2) v i ↔ ∃ vm im, LineLaw z y L1 ![v 0, vm] ![i 0, im] ∧
      LineLaw (fun x => z (L1 + x)) (fun x => y (L1 + x)) L2 ![vm, v 1] ![-im, i 1] := by
  constructor
  · rintro ⟨V, I, h, e1, e2, e3, e4⟩
    refine ⟨V L1, I L1, ⟨V, I, h, e1, rfl, e3, rfl⟩, fun x => V (L1 + x), fun x => I (L1 + x), ?_, by simp, by simp [e2],
      by simp, by simp [e4]⟩
    intro x
    have hs : HasDerivAt (fun x : ℝ => L1 + x) 1 x := by simpa using (hasDerivAt_id x).const_add L1
    have h1 := (h (L1 + x)).1.scomp x hs
    have h2 := (h (L1 + x)).2.scomp x hs
    constructor
    · exact h1.congr_deriv (by simp)
    · exact h2.congr_deriv (by simp)
  · rintro ⟨vm, im, h, ⟨V, I, h', e1, e2, e3, e4⟩⟩
    simp only [Matrix.cons_val_zero, Matrix.cons_val_one] at e1 e2 e3 e4
    obtain ⟨h3, h4⟩ := (lineLaw_iff h1 h2 a b c d _ _ _).1 h
    simp only [Matrix.cons_val_zero, Matrix.cons_val_one] at h3 h4
    have hsol : Telegraph z y (fun x => V (x - L1)) (fun x => I (x - L1)) := by
      intro x
      have hs : HasDerivAt (fun x : ℝ => x - L1) 1 x := by simpa using (hasDerivAt_id x).sub_const L1
      have h1 := (h' (x - L1)).1.scomp x hs
      have h2 := (h' (x - L1)).2.scomp x hs
      constructor
      · exact h1.congr_deriv (by simp)
      · exact h2.congr_deriv (by simp)
    have hW := wronskian h1 h2 L1 0
    rw [a, b, c, d] at hW
    -- value at 0 of the continued distribution
    have f0 := fundamental hsol h1 h2 a b c d L1
    simp only [sub_self, zero_sub, e1, e3, neg_neg] at f0
    refine ⟨_, _, hsol, ?_, by simp [e2], ?_, by simp [e4]⟩
    · simp only [zero_sub]
      linear_combination (-I2 L1) * f0.1 + V2 L1 * f0.2 + I2 L1 * h3 - V2 L1 * h4 + (v 0 - V (-L1)) * hW
    · simp only [zero_sub]
      linear_combination (I1 L1) * f0.1 - V1 L1 * f0.2 - I1 L1 * h3 + V1 L1 * h4 + (-i 0 - I (-L1)) * hW

end PyRFtk.TRL
