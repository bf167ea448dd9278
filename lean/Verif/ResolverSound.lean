import Verif.ResolverLine
import Mathlib.Tactic.FieldSimp
import Mathlib.Tactic.LinearCombination

/-!
# `TLresolver`: each equation against a physical line (C41)
-/

namespace PyRFtk.Resolver
open Par

namespace Line
variable {N : Nature} {w : ℝ} (l : Line N w)

/-- a line written with square roots of its constants, in which every relation between the parameters is rational -/
theorem roots : ∃ a b m n t : ℝ, 0 < a ∧ 0 < b ∧ 0 < m ∧ 0 < n ∧ 0 < t ∧ N.mu0 = a ^ 2 ∧ N.e0 = b ^ 2 ∧
    N.c0 = 1 / (a * b) ∧ l.mur = m ^ 2 ∧ l.epsr = n ^ 2 ∧ t = Real.log (l.OD / l.ID) := by
  have hb := Real.sqrt_pos.2 N.e0_pos
  have ha := Real.sqrt_pos.2 N.mu0_pos
  have h1 : Real.sqrt N.mu0 ^ 2 = N.mu0 := Real.sq_sqrt N.mu0_pos.le
  have h2 : Real.sqrt N.e0 ^ 2 = N.e0 := Real.sq_sqrt N.e0_pos.le
  refine ⟨Real.sqrt N.mu0, Real.sqrt N.e0, Real.sqrt l.mur, Real.sqrt l.epsr, _, ha, hb,
    Real.sqrt_pos.2 l.mur_pos, Real.sqrt_pos.2 l.epsr_pos, ?_, h1.symm, h2.symm, ?_,
    (Real.sq_sqrt l.mur_pos.le).symm, (Real.sq_sqrt l.epsr_pos.le).symm, rfl⟩
  · apply Real.log_pos
    rw [lt_div_iff₀ l.ID_pos]; linarith [l.gap]
  · have hp : 0 < N.c0 * (Real.sqrt N.mu0 * Real.sqrt N.e0) := mul_pos N.c0_pos (mul_pos ha hb)
    have : (N.c0 * (Real.sqrt N.mu0 * Real.sqrt N.e0)) ^ 2 = 1 ^ 2 := by
      rw [mul_pow, mul_pow, h1, h2]; linarith [N.light]
    have := (pow_left_inj₀ hp.le zero_le_one (by norm_num)).1 this
    field_simp at this ⊢
    linarith

theorem OD_pos : 0 < l.OD := lt_trans l.ID_pos l.gap

/-- the parameters of the line in terms of the roots -/
structure Roots (a b m n t : ℝ) : Prop where
  a0 : 0 < a
  b0 : 0 < b
  m0 : 0 < m
  n0 : 0 < n
  t0 : 0 < t
  mu : N.mu0 = a ^ 2
  e : N.e0 = b ^ 2
  c : N.c0 = 1 / (a * b)
  mur : l.par Par.mur = (m : ℂ) ^ 2
  epsr : l.par Par.epsr = (n : ℂ) ^ 2
  log : Complex.log (l.par Par.OD / l.par Par.ID) = t
  exp : Complex.exp t = l.par Par.OD / l.par Par.ID
  L : l.L = a ^ 2 * m ^ 2 / (2 * Real.pi) * t
  C : l.C = 2 * Real.pi * b ^ 2 * n ^ 2 / t
  g : l.g = 2 * Real.pi * l.sigma / t
  Z0 : l.par Z0TL = (a * m * t / (2 * Real.pi * b * n) : ℂ)
  vr : l.par Par.vr = (1 / (m * n) : ℂ)
  etar : l.par Par.etar = (m / n : ℂ)
  eta : eta0coax N = (a / (2 * Real.pi * b) : ℂ)

theorem roots' : ∃ a b m n t, l.Roots a b m n t := by
  obtain ⟨a, b, m, n, t, a0, b0, m0, n0, t0, mu, e, c, hm, hn, ht⟩ := l.roots
  have hpi := Real.pi_pos
  have hL : l.L = a ^ 2 * m ^ 2 / (2 * Real.pi) * t := by unfold Line.L; rw [mu, hm, ht]
  have hC : l.C = 2 * Real.pi * b ^ 2 * n ^ 2 / t := by unfold Line.C; rw [e, hn, ht]
  have hOD := l.OD_pos
  have hID := l.ID_pos
  refine ⟨a, b, m, n, t, a0, b0, m0, n0, t0, mu, e, c, ?_, ?_, ?_, ?_, hL, hC, ?_, ?_, ?_, ?_, ?_⟩
  · show ((l.mur : ℝ) : ℂ) = _; rw [hm]; push_cast; rfl
  · show ((l.epsr : ℝ) : ℂ) = _; rw [hn]; push_cast; rfl
  · show Complex.log ((l.OD : ℂ) / l.ID) = t
    rw [← Complex.ofReal_div, ← Complex.ofReal_log (by positivity), ht]
  · show Complex.exp t = (l.OD : ℂ) / l.ID
    rw [← Complex.ofReal_exp, ht, Real.exp_log (by positivity)]; push_cast; rfl
  · unfold Line.g; rw [ht]
  · show ((Real.sqrt (l.L / l.C) : ℝ) : ℂ) = _
    have : l.L / l.C = (a * m * t / (2 * Real.pi * b * n)) ^ 2 := by
      rw [hL, hC]; field_simp
    rw [this, Real.sqrt_sq (by positivity)]; push_cast; rfl
  · show ((1 / Real.sqrt (l.mur * l.epsr) : ℝ) : ℂ) = _
    rw [hm, hn, ← mul_pow, Real.sqrt_sq (by positivity)]; push_cast; rfl
  · show ((Real.sqrt (l.mur / l.epsr) : ℝ) : ℂ) = _
    rw [hm, hn, ← div_pow, Real.sqrt_sq (by positivity)]; push_cast; rfl
  · unfold eta0coax
    rw [mu, e]
    have : (((a ^ 2 : ℝ) : ℂ) / ((b ^ 2 : ℝ) : ℂ)) = ((a / b : ℝ) : ℂ) ^ 2 := by push_cast; rw [div_pow]
    rw [this, sqrtC_sq]
    · push_cast
      have : (b : ℂ) ≠ 0 := by exact_mod_cast b0.ne'
      field_simp
    · left; simp only [Complex.ofReal_re]; positivity

end Line

/-- a positive real square root of a complex expression -/
theorem sqrtC_pos {z : ℂ} {y : ℝ} (hy : 0 < y) (h : z = (y : ℂ) ^ 2) : sqrtC z = y :=
  sqrtC_of h (.inl (by simpa using hy))

section medium
variable {N : Nature} {w : ℝ} (l : Line N w) (Zb : ℂ)

set_option maxHeartbeats 1000000 in
/-- the equations between inductance, capacitance, impedance, velocity, permittivity, permeability and geometry -/
theorem sound_medium : ∀ e ∈ EQNS, e.id ∈ [2, 3, 4, 5, 6, 7, 8, 9, 10, 11, 12, 13, 14, 15, 16, 17, 18, 19, 20, 22, 23,
      26, 27, 28, 29, 32, 33, 34, 35, 40, 44, 45] →
    value N Zb w e.id l.par = l.par e.kw := by
  obtain ⟨a, b, m, n, t, R⟩ := l.roots'
  obtain ⟨a0, b0, m0, n0, t0, mu, he0, c, mur, epsr, log, exp, L, C, g, Z0, vr, etar, eta⟩ := R
  have hpi : (Real.pi : ℂ) ≠ 0 := by exact_mod_cast Real.pi_pos.ne'
  have ha : (a : ℂ) ≠ 0 := by exact_mod_cast a0.ne'
  have hb : (b : ℂ) ≠ 0 := by exact_mod_cast b0.ne'
  have hm : (m : ℂ) ≠ 0 := by exact_mod_cast m0.ne'
  have hn : (n : ℂ) ≠ 0 := by exact_mod_cast n0.ne'
  have ht : (t : ℂ) ≠ 0 := by exact_mod_cast t0.ne'
  have hw : (w : ℂ) ≠ 0 := by exact_mod_cast l.w_pos.ne'
  have hpp := Real.pi_pos
  have hOD : l.par Par.OD ≠ 0 := by show (l.OD : ℂ) ≠ 0; exact_mod_cast l.OD_pos.ne'
  have hID : l.par Par.ID ≠ 0 := by show (l.ID : ℂ) ≠ 0; exact_mod_cast l.ID_pos.ne'
  have hL : l.par LTL = (a ^ 2 * m ^ 2 / (2 * Real.pi) * t : ℂ) := by
    show ((l.L : ℝ) : ℂ) = _; rw [L]; push_cast; rfl
  have hC : l.par CTL = (2 * Real.pi * b ^ 2 * n ^ 2 / t : ℂ) := by
    show ((l.C : ℝ) : ℂ) = _; rw [C]; push_cast; rfl
  have hg : l.par gTL = (2 * Real.pi * l.par sigma / t : ℂ) := by
    show ((l.g : ℝ) : ℂ) = _; rw [g]; push_cast; rfl
  have htand : l.par tand = l.par sigma / (w * l.par Par.epsr * N.e0) := by
    show ((_ : ℝ) : ℂ) = _; push_cast; rfl
  have hqI : l.par qTLI = 1 / (Real.pi * l.par Par.ID) := by show ((_ : ℝ) : ℂ) = _; push_cast; rfl
  have hqO : l.par qTLO = 1 / (Real.pi * l.par Par.OD) := by show ((_ : ℝ) : ℂ) = _; push_cast; rfl
  have hrI : l.par rTLI = l.par Par.RsI / (Real.pi * l.par Par.ID) := by show ((_ : ℝ) : ℂ) = _; push_cast; rfl
  have hr : l.par rTL = l.par rTLI + l.par rTLO := by
    show ((l.r : ℝ) : ℂ) = ((_ : ℝ) : ℂ) + ((_ : ℝ) : ℂ); rw [← Complex.ofReal_add]; rfl
  have hec : Complex.exp (a * m * t / (2 * Real.pi * b * n) / (a / (2 * Real.pi * b) * (m / n)) : ℂ) =
      l.par Par.OD / l.par Par.ID := by
    rw [← exp]; congr 1; field_simp
  intro e he hid
  fin_cases he <;> simp only [eqn, List.mem_cons, List.not_mem_nil, or_false, Nat.reduceEqDiff, or_true, or_self,
    OfNat.zero_ne_ofNat, OfNat.one_ne_ofNat] at hid <;>
    simp only [value, eqn]
  · rfl
  · rfl
  · rw [Z0, vr, hL, c]; push_cast; field_simp
  · rw [Z0, vr, hC, c]; push_cast; field_simp
  · rw [Z0, hL, hC]; field_simp
  · rw [Z0, hL, hC]; field_simp
  · rw [Z0, hL, hC]
    rw [sqrtC_pos (y := a * m * t / (2 * Real.pi * b * n)) (by positivity) (by push_cast; field_simp)]
    push_cast; rfl
  · rw [vr, hL, hC, c]
    rw [sqrtC_pos (y := a * b * (m * n)) (by positivity) (by push_cast; field_simp)]
    push_cast; field_simp
  · rw [vr, hL, hC, c]; push_cast; field_simp
  · rw [vr, hL, hC, c]; push_cast; field_simp
  · rw [Z0, etar, eta, log]; field_simp
  · rw [Z0, etar, eta, hec]; field_simp
  · rw [Z0, etar, eta, hec]; field_simp
  · rw [log, hg]
  · rw [hg, etar, eta, Z0]; field_simp
  · rw [hr]
  · rw [hr]; ring
  · rw [hr]; ring
  · rw [hqI, hrI]; field_simp
  · rw [hqI]
  · rw [hqO]
  · rw [mur, epsr, etar]
    rw [sqrtC_pos (y := m / n) (by positivity) (by push_cast; field_simp)]
    push_cast; rfl
  · rw [mur, epsr, etar]; field_simp
  · rw [mur, epsr, etar]; field_simp
  · rw [mur, epsr, vr]
    rw [sqrtC_pos (y := m * n) (by positivity) (by push_cast; ring)]
    push_cast; rfl
  · rw [etar, vr, mur]; field_simp
  · rw [etar, vr, mur]; field_simp
  · rw [etar, vr, mur]; field_simp
  · rw [etar, eta, log, Z0]; field_simp
  · rw [htand, epsr, he0]; push_cast; field_simp
  · rw [hg, log]; field_simp
  · rw [htand]

end medium
end PyRFtk.Resolver
