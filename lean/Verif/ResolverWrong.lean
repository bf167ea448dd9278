import Verif.ResolverValues

/-!
# `TLresolver`: where the derived values are wrong (C41)
-/

namespace PyRFtk.Resolver
open Par

/-- the source of a parameter after resolving -/
def srcOf (k : List Par) (p : Par) : Option Src :=
  match tlresolver [] k with
  | .ok s => s.src p
  | .error _ => none

theorem srcOf_ok {k : List Par} {s : St} (h : tlresolver [] k = .ok s) (p : Par) : s.src p = srcOf k p := by
  unfold srcOf; rw [h]

section
variable {N : Nature} {Zb : ℂ} {w : ℝ} {s : St} {l : Line N w}

/-- a parameter set by a right equation from right values has the right value -/
theorem ev_right {p : Par} (e : Eqn) (hsrc : s.src p = some (.eqn e)) (hr : ∀ r ∈ e.reads, Ev N Zb w l.par s r (l.par r))
    {z : ℂ} (hz : value N Zb w e.id l.par = z) : Ev N Zb w l.par s p z := by
  rw [← hz]; exact .eqn _ hsrc hr

/-- a supplied parameter has the supplied value -/
theorem ev_input {p : Par} (hsrc : s.src p = some .input) : Ev N Zb w l.par s p (l.par p) := .input hsrc

end

/-- `v` with the value at `p` replaced -/
noncomputable def upd (v : Par → ℂ) (p : Par) (z : ℂ) : Par → ℂ := fun q => if q = p then z else v q

/-- **C41 fails: permittivity supplied with inductance and capacitance.** Take any line without conductor losses and
supply its inductance, capacitance, permittivity and loss tangent.  The permeability is then computed as
`epsr/vr²` instead of `1/(epsr vr²)` (resolveTLparams.py:218-220), and with it the conductance — hence the attenuation: the
resolved conductance is `epsr` times the line's. (The formula of equation 31, permittivity from velocity and
permeability, is wrong in the same way.) -/
theorem C41_epsr_wrong {N : Nature} {w : ℝ} (l : Line N w) (Zb : ℂ) :
    ∃ s, tlresolver [] [LTL, CTL, epsr, tand] = .ok s ∧ s.known gamma = true ∧
      Ev N Zb w l.par s mur (l.epsr ^ 2 * l.par mur) ∧ Ev N Zb w l.par s gTL (l.epsr * l.par gTL) := by
  obtain ⟨s, h, hr⟩ := C40_returns (k := [LTL, CTL, epsr, tand]) (by decide) (.inr (by decide))
  have hg := (hr.2 (by simp [Resolvable, NoConductor])).2
  have hs := srcOf_ok h
  have iL := ev_input (N := N) (Zb := Zb) (l := l) ((hs LTL).trans (by decide : srcOf _ _ = some .input))
  have iC := ev_input (N := N) (Zb := Zb) (l := l) ((hs CTL).trans (by decide : srcOf _ _ = some .input))
  have ie := ev_input (N := N) (Zb := Zb) (l := l) ((hs epsr).trans (by decide : srcOf _ _ = some .input))
  have it := ev_input (N := N) (Zb := Zb) (l := l) ((hs tand).trans (by decide : srcOf _ _ = some .input))
  have sZ : s.src Z0TL = some (.eqn (eqn 8 Z0TL [LTL, CTL])) := (hs _).trans (by decide)
  have sv : s.src vr = some (.eqn (eqn 9 vr [CTL, LTL])) := (hs _).trans (by decide)
  have sm : s.src mur = some (.eqn (eqn 30 mur [vr, epsr])) := (hs _).trans (by decide)
  have se : s.src etar = some (.eqn (eqn 26 etar [mur, epsr])) := (hs _).trans (by decide)
  have ss : s.src sigma = some (.eqn (eqn 40 sigma [tand, epsr])) := (hs _).trans (by decide)
  have sg : s.src gTL = some (.eqn (eqn 16 gTL [sigma, Z0TL, etar])) := (hs _).trans (by decide)
  have eZ : Ev N Zb w l.par s Z0TL (l.par Z0TL) := ev_right _ sZ (by simp [eqn, iL, iC])
    (sound_medium l Zb (eqn 8 Z0TL [LTL, CTL]) (by decide) (by decide))
  have ev : Ev N Zb w l.par s vr (l.par vr) := ev_right _ sv (by simp [eqn, iL, iC])
    (sound_medium l Zb (eqn 9 vr [CTL, LTL]) (by decide) (by decide))
  have es : Ev N Zb w l.par s sigma (l.par sigma) := ev_right _ ss (by simp [eqn, it, ie])
    (sound_medium l Zb (eqn 40 sigma [tand, epsr]) (by decide) (by decide))
  have hmn : ((l.mur * l.epsr : ℝ) : ℂ) ≠ 0 := by exact_mod_cast (mul_pos l.mur_pos l.epsr_pos).ne'
  have hvr : l.par vr ^ 2 = 1 / (l.mur * l.epsr : ℂ) := by
    show ((1 / Real.sqrt (l.mur * l.epsr) : ℝ) : ℂ) ^ 2 = _
    rw [← Complex.ofReal_pow, div_pow, one_pow, Real.sq_sqrt (mul_pos l.mur_pos l.epsr_pos).le]
    push_cast; rfl
  have em : Ev N Zb w l.par s mur (l.epsr ^ 2 * l.par mur) := by
    refine ev_right _ sm (by simp [eqn, ev, ie]) ?_
    show (l.epsr : ℂ) / l.par vr ^ 2 = l.epsr ^ 2 * (l.mur : ℂ)
    rw [hvr]; push_cast at hmn; field_simp
  obtain ⟨a, b, m, n, t, R⟩ := l.roots'
  have hm : (m : ℂ) ≠ 0 := by exact_mod_cast R.m0.ne'
  have hn : (n : ℂ) ≠ 0 := by exact_mod_cast R.n0.ne'
  have hen : (l.epsr : ℂ) = (n : ℂ) ^ 2 := R.epsr
  have hmm : (l.mur : ℂ) = (m : ℂ) ^ 2 := R.mur
  have ee : Ev N Zb w l.par s etar (l.epsr * l.par etar) := by
    have : value N Zb w 26 (upd l.par mur (l.epsr ^ 2 * l.par mur)) = l.epsr * l.par etar := by
      show sqrtC ((l.epsr ^ 2 * (l.mur : ℂ)) / (l.epsr : ℂ)) = l.epsr * l.par etar
      rw [R.etar, hen, hmm]
      rw [sqrtC_pos (y := m * n) (mul_pos R.m0 R.n0) (by push_cast; field_simp)]
      push_cast; field_simp
    rw [← this]
    refine .eqn _ se ?_
    simp [eqn, upd, em, ie]
  refine ⟨s, h, hg, em, ?_⟩
  have : value N Zb w 16 (upd l.par etar (l.epsr * l.par etar)) = l.epsr * l.par gTL := by
    have hsg : value N Zb w 16 l.par = l.par gTL :=
      sound_medium l Zb (eqn 16 gTL [sigma, Z0TL, etar]) (by decide) (by decide)
    rw [← hsg]
    show 2 * Real.pi * l.par sigma * (l.epsr * l.par etar) * eta0coax N / l.par Z0TL =
      l.epsr * (2 * Real.pi * l.par sigma * l.par etar * eta0coax N / l.par Z0TL)
    ring
  rw [← this]
  refine .eqn _ sg ?_
  simp [eqn, upd, ee, es, eZ]

/-- in particular the conductance is right only in vacuum or without losses -/
theorem C41_epsr_wrong_iff {N : Nature} {w : ℝ} (l : Line N w) :
    (l.epsr * l.par gTL : ℂ) = l.par gTL ↔ l.epsr = 1 ∨ l.sigma = 0 := by
  have hlog := l.log_pos.ne'
  have hpi := Real.pi_pos.ne'
  show ((l.epsr : ℝ) * (l.g : ℝ) : ℂ) = (l.g : ℂ) ↔ _
  rw [← Complex.ofReal_mul, Complex.ofReal_inj]
  constructor
  · intro h
    have : (l.epsr - 1) * l.g = 0 := by linarith
    rcases mul_eq_zero.1 this with h | h
    · left; linarith
    · right
      unfold Line.g at h
      field_simp at h
      simpa using h
  · rintro (h | h)
    · rw [h, one_mul]
    · unfold Line.g; rw [h]; simp

/-- **C41 fails: attenuation in decibel.** `AdB` is documented as the attenuation constant in dB/m (rfTRL.py:108).  Take any
line with losses and supply its impedance, velocity and attenuation in dB/m: the attenuation is computed as
`1 - 10^(AdB/20)` (resolveTLparams.py:243-245), which is negative, and the series resistance derived from it is negative:
a passive line is resolved as an amplifier. -/
theorem C41_AdB_wrong {N : Nature} {w : ℝ} (l : Line N w) (Zb : ℂ) (hα : 0 < l.γ.re) :
    ∃ s, tlresolver [] [Z0TL, vr, AdB] = .ok s ∧ s.known gamma = true ∧
      ∃ a r : ℝ, Ev N Zb w l.par s A a ∧ a < 0 ∧ Ev N Zb w l.par s rTL r ∧ r < 0 := by
  obtain ⟨s, h, hr⟩ := C40_returns (k := [Z0TL, vr, AdB]) (by decide) (.inr (by decide))
  have hg := (hr.2 (by simp [Resolvable, NoConductor])).2
  have hs := srcOf_ok h
  have iZ := ev_input (N := N) (Zb := Zb) (l := l) ((hs Z0TL).trans (by decide : srcOf _ _ = some .input))
  have iv := ev_input (N := N) (Zb := Zb) (l := l) ((hs vr).trans (by decide : srcOf _ _ = some .input))
  have iA := ev_input (N := N) (Zb := Zb) (l := l) ((hs AdB).trans (by decide : srcOf _ _ = some .input))
  have sL : s.src LTL = some (.eqn (eqn 4 LTL [Z0TL, vr])) := (hs _).trans (by decide)
  have sC : s.src CTL = some (.eqn (eqn 5 CTL [Z0TL, vr])) := (hs _).trans (by decide)
  have sg : s.src gTL = some .zero := (hs _).trans (by decide)
  have sA : s.src A = some (.eqn (eqn 36 A [AdB])) := (hs _).trans (by decide)
  have sr : s.src rTL = some (.eqn (eqn 37 rTL [gTL, LTL, CTL, A])) := (hs _).trans (by decide)
  have eL : Ev N Zb w l.par s LTL (l.par LTL) := ev_right _ sL (by simp [eqn, iZ, iv])
    (sound_medium l Zb (eqn 4 LTL [Z0TL, vr]) (by decide) (by decide))
  have eC : Ev N Zb w l.par s CTL (l.par CTL) := ev_right _ sC (by simp [eqn, iZ, iv])
    (sound_medium l Zb (eqn 5 CTL [Z0TL, vr]) (by decide) (by decide))
  have hlog10 : Real.log 10 ≠ 0 := (Real.log_pos (by norm_num)).ne'
  have hA0 : 1 - Real.exp l.γ.re < 0 := by
    have := Real.one_lt_exp_iff.2 hα; linarith
  have eA : Ev N Zb w l.par s A ((1 - Real.exp l.γ.re : ℝ) : ℂ) := by
    refine ev_right _ sA (by simp [eqn, iA]) ?_
    show (1 : ℂ) - 10 ^ (((20 * l.γ.re / Real.log 10 : ℝ) : ℂ) / 20) = _
    have h1 : (((20 * l.γ.re / Real.log 10 : ℝ) : ℂ) / 20) = ((l.γ.re / Real.log 10 : ℝ) : ℂ) := by
      push_cast; ring
    have h2 : (10 : ℂ) ^ ((l.γ.re / Real.log 10 : ℝ) : ℂ) = ((Real.exp l.γ.re : ℝ) : ℂ) := by
      rw [show (10 : ℂ) = ((10 : ℝ) : ℂ) by norm_num, ← Complex.ofReal_cpow (by norm_num),
        Real.rpow_def_of_pos (by norm_num)]
      congr 2
      field_simp
    rw [h1, h2]; push_cast; rfl
  have eg : Ev N Zb w l.par s gTL 0 := .zero sg
  have hL : 0 < w * l.L := mul_pos l.w_pos l.L_pos
  have hC : 0 < w * l.C := mul_pos l.w_pos l.C_pos
  have hq := Real.sqrt_pos.2 (mul_pos hL hC)
  set q := Real.sqrt ((w * l.L) * (w * l.C)) with hqd
  set u := (1 - Real.exp l.γ.re) / q with hu
  have hu0 : u < 0 := div_neg_of_neg_of_pos hA0 hq
  have h1u : 0 < Real.sqrt (u ^ 2 + 1) := Real.sqrt_pos.2 (by positivity)
  refine ⟨s, h, hg, 1 - Real.exp l.γ.re, 2 * u * Real.sqrt (u ^ 2 + 1) * (w * l.L), eA, hA0, ?_, ?_⟩
  · have : value N Zb w 37 (upd (upd l.par A ((1 - Real.exp l.γ.re : ℝ) : ℂ)) gTL 0) =
        ((2 * u * Real.sqrt (u ^ 2 + 1) * (w * l.L) : ℝ) : ℂ) := by
      have e1 : sqrtC ((w : ℂ) * (l.L : ℂ) * ((w : ℂ) * (l.C : ℂ))) = q := by
        have := sqrtC_real (mul_pos hL hC).le
        rw [← hqd] at this
        rw [← this]; push_cast; rfl
      have e2 : sqrtC (((0 : ℂ) ^ 2 + 1) * ((u : ℂ) ^ 2 + 1)) = (Real.sqrt (u ^ 2 + 1) : ℝ) := by
        rw [← sqrtC_real (by positivity)]; push_cast; congr 1; ring
      show (-(1 + 2 * (((1 - Real.exp l.γ.re : ℝ) : ℂ) / sqrtC ((w : ℂ) * (l.L : ℂ) * ((w : ℂ) * (l.C : ℂ)))) ^ 2) *
          ((0 : ℂ) / ((w : ℂ) * (l.C : ℂ))) + 2 * (((1 - Real.exp l.γ.re : ℝ) : ℂ) /
          sqrtC ((w : ℂ) * (l.L : ℂ) * ((w : ℂ) * (l.C : ℂ)))) *
          sqrtC ((((0 : ℂ) / ((w : ℂ) * (l.C : ℂ))) ^ 2 + 1) * ((((1 - Real.exp l.γ.re : ℝ) : ℂ) /
          sqrtC ((w : ℂ) * (l.L : ℂ) * ((w : ℂ) * (l.C : ℂ)))) ^ 2 + 1))) * ((w : ℂ) * (l.L : ℂ)) = _
      have e3 : ((1 - Real.exp l.γ.re : ℝ) : ℂ) / (q : ℂ) = (u : ℂ) := by rw [hu]; push_cast; rfl
      rw [e1, e3, zero_div, e2]
      push_cast; ring
    rw [← this]
    refine .eqn _ sr ?_
    simp only [eqn, List.mem_cons, List.not_mem_nil, or_false, forall_eq_or_imp, forall_eq]
    refine ⟨?_, ?_, ?_, ?_⟩
    · simpa [upd] using eg
    · simpa [upd] using eL
    · simpa [upd] using eC
    · simpa [upd] using eA
  · have := mul_pos h1u hL
    nlinarith

/-- and with the opposite sign convention (negative decibels for a loss) the value is also wrong: too small -/
theorem C41_AdB_negative_wrong {a : ℝ} (ha : 0 < a) (N : Nature) (Zb : ℂ) (w : ℝ) (v : Par → ℂ)
    (hv : v AdB = ((-(20 * a / Real.log 10) : ℝ) : ℂ)) :
    ∃ x : ℝ, value N Zb w 36 v = x ∧ x < a := by
  refine ⟨1 - Real.exp (-a), ?_, ?_⟩
  · show (1 : ℂ) - 10 ^ (v AdB / 20) = _
    have hlog10 : Real.log 10 ≠ 0 := (Real.log_pos (by norm_num)).ne'
    have h1 : ((-(20 * a / Real.log 10) : ℝ) : ℂ) / 20 = ((-a / Real.log 10 : ℝ) : ℂ) := by
      push_cast; ring
    have h2 : (10 : ℂ) ^ ((-a / Real.log 10 : ℝ) : ℂ) = ((Real.exp (-a) : ℝ) : ℂ) := by
      rw [show (10 : ℂ) = ((10 : ℝ) : ℂ) by norm_num, ← Complex.ofReal_cpow (by norm_num),
        Real.rpow_def_of_pos (by norm_num)]
      congr 2
      field_simp
    rw [hv, h1, h2]; push_cast; rfl
  · have := Real.add_one_lt_exp (x := -a) (by linarith); linarith

/-- **C41 fails: different conductors.** Take any line and supply diameters, resistivities of both conductors and the
medium: the outer part of the series resistance is computed with the surface resistance of the *inner* conductor
(resolveTLparams.py:112-113). The result is the line's exactly if the two surface resistances are equal. -/
theorem C41_outer_wrong {N : Nature} {w : ℝ} (l : Line N w) (Zb : ℂ) (hmu : l.murI = 1) :
    ∃ s, tlresolver [] [OD, ID, rhoI, rhoO, epsr, mur] = .ok s ∧ s.known gamma = true ∧
      Ev N Zb w l.par s rTLO ((l.RsI / (Real.pi * l.OD) : ℝ) : ℂ) ∧
      (((l.RsI / (Real.pi * l.OD) : ℝ) : ℂ) = l.par rTLO ↔ l.RsI = l.RsO) := by
  obtain ⟨s, h, hr⟩ := C40_returns (k := [OD, ID, rhoI, rhoO, epsr, mur]) (by decide) (.inr (by decide))
  have hg := (hr.2 (by simp [Resolvable, NoConductor, Series, SurfI, SurfO])).2
  have hs := srcOf_ok h
  have iO := ev_input (N := N) (Zb := Zb) (l := l) ((hs OD).trans (by decide : srcOf _ _ = some .input))
  have iR := ev_input (N := N) (Zb := Zb) (l := l) ((hs rhoI).trans (by decide : srcOf _ _ = some .input))
  have sm : s.src murI = some (.eqn (eqn 0 murI [])) := (hs _).trans (by decide)
  have sq : s.src qTLO = some (.eqn (eqn 23 qTLO [OD])) := (hs _).trans (by decide)
  have sR : s.src RsI = some (.eqn (eqn 24 RsI [rhoI, murI])) := (hs _).trans (by decide)
  have so : s.src rTLO = some (.eqn ⟨21, rTLO, [RsO, qTLO], [qTLO, RsI]⟩) := (hs _).trans (by decide)
  have em : Ev N Zb w l.par s murI (l.par murI) := by
    refine ev_right _ sm (by simp [eqn]) ?_
    show (1 : ℂ) = (l.murI : ℂ); rw [hmu]; simp
  have eq : Ev N Zb w l.par s qTLO (l.par qTLO) := ev_right _ sq (by simp [eqn, iO])
    (sound_medium l Zb (eqn 23 qTLO [OD]) (by decide) (by decide))
  have eR : Ev N Zb w l.par s RsI (l.par RsI) := ev_right _ sR (by simp [eqn, iR, em]) (sound_RsI l Zb)
  refine ⟨s, h, hg, ?_, ?_⟩
  · refine ev_right _ so (by simp [eq, eR]) ?_
    show ((1 / (Real.pi * l.OD) : ℝ) : ℂ) * (l.RsI : ℂ) = ((l.RsI / (Real.pi * l.OD) : ℝ) : ℂ)
    push_cast; ring
  · show ((l.RsI / (Real.pi * l.OD) : ℝ) : ℂ) = ((l.RsO / (Real.pi * l.OD) : ℝ) : ℂ) ↔ _
    rw [Complex.ofReal_inj]
    have := Real.pi_pos.ne'
    have := l.OD_pos.ne'
    constructor
    · intro h; field_simp at h; exact h
    · intro h; rw [h]

/-- **C41 fails: strong losses.** For a line with `r g > ωL ωC` the equation for the attenuation
(resolveTLparams.py:138-147) takes the square root of `-β²`: numpy returns `nan`, and no real number is the result. -/
theorem C41_strong_losses_wrong {N : Nature} {w : ℝ} (l : Line N w) (Zb : ℂ)
    (hs : (w * l.L) * (w * l.C) < l.r * l.g) :
    value N Zb w 39 l.par = sqrtC (-((l.γ.im : ℂ) ^ 2)) ∧ ∀ x : ℝ, value N Zb w 39 l.par ≠ x := by
  obtain ⟨q, u, t, R, G, q0, q2, u0, t0, R0, G0, hα, hβ, hr, hg, h1, h2⟩ := l.normal
  have hL : (0 : ℝ) < w * l.L := mul_pos l.w_pos l.L_pos
  have hC : (0 : ℝ) < w * l.C := mul_pos l.w_pos l.C_pos
  have hd : 0 < R * G - 1 := by
    rw [hr, hg] at hs
    have : 1 * ((w * l.L) * (w * l.C)) < R * G * ((w * l.L) * (w * l.C)) := by linarith
    have := lt_of_mul_lt_mul_right this (by positivity)
    linarith
  have key : value N Zb w 39 l.par = sqrtC (-((l.γ.im : ℂ) ^ 2)) := by
    show (let wL := (w : ℂ) * (l.L : ℂ); let wC := (w : ℂ) * (l.C : ℂ)
          let gwC := (l.g : ℂ) / wC; let rwL := (l.r : ℂ) / wL
          let d := 1 - rwL * gwC
          let a2 := d * (sqrtC (1 + ((rwL + gwC) / d) ^ 2) - 1) / 2
          sqrtC (a2 * wL * wC)) = _
    have e3 : (l.r : ℂ) / ((w : ℂ) * (l.L : ℂ)) = R := by
      rw [hr]; push_cast
      have : (w : ℂ) * (l.L : ℂ) ≠ 0 := by exact_mod_cast hL.ne'
      exact mul_div_cancel_right₀ _ this
    have e4 : (l.g : ℂ) / ((w : ℂ) * (l.C : ℂ)) = G := by
      rw [hg]; push_cast
      have : (w : ℂ) * (l.C : ℂ) ≠ 0 := by exact_mod_cast hC.ne'
      exact mul_div_cancel_right₀ _ this
    simp only [e3, e4]
    have hdC : (1 - (R : ℂ) * G) ≠ 0 := by
      have : ((1 - R * G : ℝ) : ℂ) ≠ 0 := by exact_mod_cast (by linarith : 1 - R * G < 0).ne
      push_cast at this; exact this
    have hdC' : ((R : ℂ) * G - 1) ≠ 0 := by
      have : ((R * G - 1 : ℝ) : ℂ) ≠ 0 := by exact_mod_cast hd.ne'
      push_cast at this; exact this
    have e5 : sqrtC (1 + (((R : ℂ) + G) / (1 - R * G)) ^ 2) = (((u ^ 2 + t ^ 2) / (R * G - 1) : ℝ) : ℂ) := by
      apply sqrtC_pos (by positivity)
      have : (1 - R * G) ^ 2 + (R + G) ^ 2 = (u ^ 2 + t ^ 2) ^ 2 := by
        have h1' : 1 - R * G = t ^ 2 - u ^ 2 := by linarith
        rw [h1', ← h2]; ring
      have h' : (1 - (R : ℂ) * G) ^ 2 + (R + G) ^ 2 = ((u : ℂ) ^ 2 + t ^ 2) ^ 2 := by
        exact_mod_cast congrArg (fun x : ℝ => (x : ℂ)) this
      push_cast
      have h3 : (1 - (R : ℂ) * G) ^ 2 = (R * G - 1) ^ 2 := by ring
      rw [div_pow, div_pow, h3]
      rw [h3] at h'
      field_simp
      linear_combination h'
    rw [e5]
    have h1' : ((u : ℂ) ^ 2 - (t : ℂ) ^ 2) = R * G - 1 := by exact_mod_cast congrArg (fun x : ℝ => (x : ℂ)) h1
    have q2' : (q : ℂ) ^ 2 = (w * l.L) * (w * l.C) := by exact_mod_cast congrArg (fun x : ℝ => (x : ℂ)) q2
    have e6 : (1 - (R : ℂ) * G) * ((((u ^ 2 + t ^ 2) / (R * G - 1) : ℝ) : ℂ) - 1) / 2 = -(t : ℂ) ^ 2 := by
      push_cast
      have h3 : (1 - (R : ℂ) * G) = -(R * G - 1) := by ring
      rw [h3]
      field_simp
      linear_combination -h1'
    rw [e6, hβ]
    congr 1
    push_cast; linear_combination ((t : ℂ) ^ 2) * q2'
  refine ⟨key, ?_⟩
  intro x hx
  rw [key] at hx
  have h3 : sqrtC (-((l.γ.im : ℂ) ^ 2)) = Complex.I * l.γ.im := by
    apply sqrtC_of
    · rw [mul_pow, Complex.I_sq]; ring
    · right; simp [l.γ_im.le]
  rw [h3] at hx
  have := congrArg Complex.im hx
  simp at this
  exact l.γ_im.ne' this

/-! ## Lines exist -/

/-- vacuum constants: permeability `4π·10⁻⁷`, the defined speed of light, permittivity from the relation between them -/
noncomputable def vacuum : Nature where
  c0 := 299792458
  mu0 := 4 * Real.pi * 1e-7
  e0 := 1 / (299792458 ^ 2 * (4 * Real.pi * 1e-7))
  c0_pos := by norm_num
  mu0_pos := by have := Real.pi_pos; positivity
  e0_pos := by have := Real.pi_pos; positivity
  light := by have := Real.pi_pos.ne'; field_simp

/-- the square root of `(r + jX)(g + jB)` in the first quadrant -/
theorem root_exists {r g X B : ℝ} (r0 : 0 ≤ r) (g0 : 0 ≤ g) (X0 : 0 < X) (B0 : 0 < B) :
    ∃ α β : ℝ, 0 ≤ α ∧ 0 < β ∧ α * α - β * β = r * g - X * B ∧ α * β + β * α = r * B + X * g := by
  obtain ⟨P, hP⟩ : ∃ P, P = r * g - X * B := ⟨_, rfl⟩
  obtain ⟨Q, hQ⟩ : ∃ Q, Q = r * B + X * g := ⟨_, rfl⟩
  have hrB : 0 ≤ r * B := by positivity
  have hgX : 0 ≤ X * g := by positivity
  have Q0 : 0 ≤ Q := by rw [hQ]; positivity
  obtain ⟨M, hM⟩ : ∃ M, M = Real.sqrt (P ^ 2 + Q ^ 2) := ⟨_, rfl⟩
  have hM2 : M ^ 2 = P ^ 2 + Q ^ 2 := by rw [hM]; exact Real.sq_sqrt (by positivity)
  have hM0 : 0 ≤ M := by rw [hM]; exact Real.sqrt_nonneg _
  have hMP : P < M := by
    by_contra hc
    have hc : M ≤ P := not_lt.1 hc
    have h0 : M ^ 2 ≤ P ^ 2 := by gcongr
    have h1 : Q ^ 2 ≤ 0 := by linarith
    have h2 : Q = 0 := by nlinarith
    have hrB0 : r * B = 0 := by linarith
    have hr0 : r = 0 := (mul_eq_zero.1 hrB0).resolve_right B0.ne'
    have hXB := mul_pos X0 B0
    rw [hr0] at hP
    linarith
  have hMP' : 0 ≤ M + P := by
    have h1 : |P| ≤ M := by rw [hM]; exact Real.abs_le_sqrt (by nlinarith [sq_nonneg Q])
    have := neg_abs_le P; linarith
  have ha := Real.sq_sqrt (show 0 ≤ (M + P) / 2 by linarith)
  have hb := Real.sq_sqrt (show 0 ≤ (M - P) / 2 by linarith)
  have ha0 := Real.sqrt_nonneg ((M + P) / 2)
  have hb0 : 0 < Real.sqrt ((M - P) / 2) := Real.sqrt_pos.2 (by linarith)
  generalize Real.sqrt ((M + P) / 2) = α at *
  generalize Real.sqrt ((M - P) / 2) = β at *
  refine ⟨α, β, ha0, hb0, by rw [← hP]; linarith, ?_⟩
  rw [← hQ]
  have h1 : (α * β + β * α) ^ 2 = Q ^ 2 := by
    have : (α * β + β * α) ^ 2 = 4 * (α ^ 2 * β ^ 2) := by ring
    rw [this, ha, hb]
    have : 4 * ((M + P) / 2 * ((M - P) / 2)) = M ^ 2 - P ^ 2 := by ring
    rw [this]; linarith
  exact (pow_left_inj₀ (by positivity) Q0 (by norm_num)).1 h1

/-- every geometry, medium and pair of conductors gives a line: the propagation constant exists -/
theorem line_exists (N : Nature) {w OD ID epsr mur sigma murI murO rhoI rhoO : ℝ} (hw : 0 < w) (hI : 0 < ID)
    (hO : ID < OD) (he : 0 < epsr) (hm : 0 < mur) (hs : 0 ≤ sigma) (hmI : 0 < murI) (hmO : 0 < murO)
    (hrI : 0 ≤ rhoI) (hrO : 0 ≤ rhoO) :
    ∃ l : Line N w, l.OD = OD ∧ l.ID = ID ∧ l.epsr = epsr ∧ l.mur = mur ∧ l.sigma = sigma ∧ l.murI = murI ∧
      l.murO = murO ∧ l.rhoI = rhoI ∧ l.rhoO = rhoO := by
  have hpi := Real.pi_pos
  have hlog : 0 < Real.log (OD / ID) := by
    apply Real.log_pos; rw [lt_div_iff₀ hI]; linarith
  have hOD : 0 < OD := lt_trans hI hO
  have hmu := N.mu0_pos
  have he0 := N.e0_pos
  set r := Real.sqrt (w * N.mu0 * murI * rhoI / 2) / (Real.pi * ID) +
    Real.sqrt (w * N.mu0 * murO * rhoO / 2) / (Real.pi * OD) with hr
  set X := w * (N.mu0 * mur / (2 * Real.pi) * Real.log (OD / ID)) with hX
  set g := 2 * Real.pi * sigma / Real.log (OD / ID) with hg
  set B := w * (2 * Real.pi * N.e0 * epsr / Real.log (OD / ID)) with hB
  have r0 : 0 ≤ r := by
    have := Real.sqrt_nonneg (w * N.mu0 * murI * rhoI / 2)
    have := Real.sqrt_nonneg (w * N.mu0 * murO * rhoO / 2)
    positivity
  have X0 : 0 < X := by positivity
  have g0 : 0 ≤ g := by positivity
  have B0 : 0 < B := by positivity
  obtain ⟨α, β, ha0, hb0, h1, h2⟩ := root_exists r0 g0 X0 B0
  clear_value r X g B
  refine ⟨⟨OD, ID, epsr, mur, sigma, murI, murO, rhoI, rhoO, ⟨α, β⟩, hw, hI, hO, he, hm, hs, hmI, hmO, hrI, hrO,
    ha0, hb0, ?_⟩, rfl, rfl, rfl, rfl, rfl, rfl, rfl, rfl, rfl⟩
  rw [← hr, ← hX, ← hg, ← hB]
  apply Complex.ext
  · simp [pow_two, Complex.mul_re, Complex.mul_im]
    linarith
  · simp [pow_two, Complex.mul_re, Complex.mul_im]
    linarith

/-- a copper cable, 50 mm over 20 mm, filled with a dielectric (permittivity 2.25), at 50 MHz: supplying diameters,
resistivity and permittivity resolves to the line's impedance and propagation constant. -/
theorem C41_values_witness : ∃ l : Line vacuum (2 * Real.pi * 50000000), l.epsr = 2.25 ∧ l.rhoI = 1.7e-8 ∧
    ∃ s, tlresolver [] [OD, ID, Par.rho, epsr] = .ok s ∧ Ev vacuum 50 (2 * Real.pi * 50000000) l.par s Zc (l.par Zc) ∧
      Ev vacuum 50 (2 * Real.pi * 50000000) l.par s gamma l.γ := by
  have hpi := Real.pi_pos
  obtain ⟨l, h1, h2, h3, h4, h5, h6, h7, h8, h9⟩ := line_exists vacuum (w := 2 * Real.pi * 50000000) (OD := 0.05)
    (ID := 0.02) (epsr := 2.25) (mur := 1) (sigma := 0) (murI := 1) (murO := 1) (rhoI := 1.7e-8) (rhoO := 1.7e-8)
    (by positivity) (by norm_num) (by norm_num) (by norm_num) (by norm_num) (by norm_num) (by norm_num) (by norm_num)
    (by norm_num) (by norm_num)
  have hg : l.g = 0 := by unfold Line.g; rw [h5]; simp
  obtain ⟨s, hs, _, _, hz, hga⟩ := C41_values_partial l (Zb := 50) (inp := l.par) (k := [OD, ID, Par.rho, epsr])
    (by decide) (.inr (by decide)) (by simp [Resolvable, NoConductor, Series, SurfI, SurfO])
    { murI := .inr h6, murO := .inr h7, mur := .inr h4, epsr := .inl (by decide)
      Z0 := .inr (.inl (by decide)), conductors := .inr (.inl (by simp [NoConductor]))
      medium := .inr (.inr (.inl h5)), rho := fun _ => .inr (.inr (by rw [h8, h9]))
      outer := .inr (by unfold Line.RsI Line.RsO; rw [h6, h7, h8, h9])
      velocity := .inl (by decide), noAdB := by decide
      att := .inr (by
        unfold Moderate
        rw [hg, mul_zero]
        exact mul_pos (mul_pos l.w_pos l.L_pos) (mul_pos l.w_pos l.C_pos)) }
    (fun _ _ => rfl)
  exact ⟨l, h3, h8, s, hs, hz, hga⟩

/-- lines for which the wrong equations show: a lossy dielectric -/
theorem C41_epsr_wrong_witness : ∃ l : Line vacuum 1, (l.epsr * l.par gTL : ℂ) ≠ l.par gTL := by
  obtain ⟨l, _, _, h3, _, h5, _⟩ := line_exists vacuum (w := 1) (OD := 2) (ID := 1) (epsr := 2) (mur := 1) (sigma := 1)
    (murI := 1) (murO := 1) (rhoI := 0) (rhoO := 0) (by norm_num) (by norm_num) (by norm_num) (by norm_num)
    (by norm_num) (by norm_num) (by norm_num) (by norm_num) (by norm_num) (by norm_num)
  refine ⟨l, fun h => ?_⟩
  rcases (C41_epsr_wrong_iff l).1 h with h | h
  · rw [h3] at h; norm_num at h
  · rw [h5] at h; norm_num at h

/-- any line with losses attenuates -/
theorem C41_AdB_wrong_witness : ∃ l : Line vacuum 1, 0 < l.γ.re := by
  obtain ⟨l, _, _, h3, _, h5, _⟩ := line_exists vacuum (w := 1) (OD := 2) (ID := 1) (epsr := 2) (mur := 1) (sigma := 1)
    (murI := 1) (murO := 1) (rhoI := 0) (rhoO := 0) (by norm_num) (by norm_num) (by norm_num) (by norm_num)
    (by norm_num) (by norm_num) (by norm_num) (by norm_num) (by norm_num) (by norm_num)
  refine ⟨l, ?_⟩
  have hg : 0 < l.g := by
    have := l.log_pos; have := Real.pi_pos
    unfold Line.g; rw [h5]; positivity
  have h := l.γ_rel.2
  have h1 : 0 < l.g * (1 * l.L) := by have := l.L_pos; positivity
  have h2 : 0 ≤ l.r * (1 * l.C) := by have := l.C_pos; have := l.r_nonneg; positivity
  rcases l.γ_re.lt_or_eq with h3 | h3
  · exact h3
  · rw [← h3] at h; simp only [mul_zero, zero_mul] at h; linarith

end PyRFtk.Resolver
