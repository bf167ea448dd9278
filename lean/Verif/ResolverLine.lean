import Verif.ResolverProps3
import Mathlib.Analysis.SpecialFunctions.Pow.Complex
import Mathlib.Analysis.SpecialFunctions.Pow.Real
import Mathlib.Analysis.SpecialFunctions.Complex.Log

/-!
# `TLresolver`: the values (C41)

The functions of the equations (`/repo/src/pyRFtk/resolveTLparams.py:61-283`), evaluated at one angular frequency `w > 0` and one
position, and a physical coaxial line as the specification they are compared with.
-/

namespace PyRFtk.Resolver
open Par

/-- the constants of nature (`scipy.constants`, resolveTLparams.py:7), with the exact relation between them
(the values scipy returns satisfy it up to rounding). -/
structure Nature where
  /-- speed of light -/
  c0 : ℝ
  /-- vacuum permeability -/
  mu0 : ℝ
  /-- vacuum permittivity -/
  e0 : ℝ
  c0_pos : 0 < c0
  mu0_pos : 0 < mu0
  e0_pos : 0 < e0
  light : c0 ^ 2 * mu0 * e0 = 1

/-- `np.sqrt` and `**0.5`: the principal square root. (numpy returns `nan` for a negative real argument; no theorem below
relies on such a value.) -/
noncomputable def sqrtC (z : ℂ) : ℂ := z ^ (1 / 2 : ℂ)

/-- `eta0coax` (resolveTLparams.py:13-14) -/
noncomputable def eta0coax (N : Nature) : ℂ := sqrtC ((N.mu0 : ℂ) / N.e0) / (2 * Real.pi)

/-- the functions of the equations, by position in `EQNS` (resolveTLparams.py:61-283), at angular frequency `w`; `v` gives
the values of the functions they call.  The real quantities are taken as complex numbers. -/
noncomputable def value (N : Nature) (Zbase : ℂ) (w : ℝ) (i : ℕ) (v : Par → ℂ) : ℂ :=
  match i with
  | 0 => 1
  | 1 => 1
  | 2 => v rTL + Complex.I * w * v LTL
  | 3 => v gTL + Complex.I * w * v CTL
  | 4 => v Z0TL / (N.c0 * v vr)
  | 5 => 1 / (v Z0TL * N.c0 * v vr)
  | 6 => v Z0TL ^ 2 * v CTL
  | 7 => v LTL / v Z0TL ^ 2
  | 8 => sqrtC (v LTL / v CTL)
  | 9 => 1 / (N.c0 * sqrtC (v LTL * v CTL))
  | 10 => 1 / ((v vr * N.c0) ^ 2 * v CTL)
  | 11 => 1 / ((v vr * N.c0) ^ 2 * v LTL)
  | 12 => v etar * eta0coax N * Complex.log (v OD / v ID)
  | 13 => v OD / Complex.exp (v Z0TL / (eta0coax N * v etar))
  | 14 => v ID * Complex.exp (v Z0TL / (eta0coax N * v etar))
  | 15 => 2 * Real.pi * v sigma / Complex.log (v OD / v ID)
  | 16 => 2 * Real.pi * v sigma * v etar * eta0coax N / v Z0TL
  | 17 => v rTLI + v rTLO
  | 18 => v rTL - v rTLO
  | 19 => v rTL - v rTLI
  | 20 => v qTLI * v RsI
  | 21 => v qTLO * v RsI
  | 22 => 1 / (Real.pi * v ID)
  | 23 => 1 / (Real.pi * v OD)
  | 24 => sqrtC (w * N.mu0 * v murI * v rhoI / 2)
  | 25 => sqrtC (w * N.mu0 * v murO * v rhoO / 2)
  | 26 => sqrtC (v mur / v epsr)
  | 27 => v etar ^ 2 * v epsr
  | 28 => v mur / v etar ^ 2
  | 29 => 1 / sqrtC (v mur * v epsr)
  | 30 => v epsr / v vr ^ 2
  | 31 => v mur / v vr ^ 2
  | 32 => v etar / v vr
  | 33 => v etar / v mur
  | 34 => v mur * v vr
  | 35 => v Z0TL / (eta0coax N * Complex.log (v OD / v ID))
  | 36 => 1 - 10 ^ (v AdB / 20)
  | 37 =>
      let wL := w * v LTL
      let wC := w * v CTL
      let gwC := v gTL / wC
      let u := v A / sqrtC (wL * wC)
      let D2 := (gwC ^ 2 + 1) * (u ^ 2 + 1)
      (-(1 + 2 * u ^ 2) * gwC + 2 * u * sqrtC D2) * wL
  | 38 =>
      let wL := w * v LTL
      let wC := w * v CTL
      let rwL := v rTL / wL
      let u := v A / sqrtC (wL * wC)
      let D2 := (rwL ^ 2 + 1) * (u ^ 2 + 1)
      (-(1 + 2 * u ^ 2) * rwL + 2 * u * sqrtC D2) * wC
  | 39 =>
      let wL := w * v LTL
      let wC := w * v CTL
      let gwC := v gTL / wC
      let rwL := v rTL / wL
      let d := 1 - rwL * gwC
      let a2 := d * (sqrtC (1 + ((rwL + gwC) / d) ^ 2) - 1) / 2
      sqrtC (a2 * wL * wC)
  | 40 => w * v epsr * N.e0 * v tand
  | 41 => 1
  | 42 => 1
  | 43 => Zbase
  | 44 => v gTL * Complex.log (v OD / v ID) / (2 * Real.pi)
  | 45 => v sigma / (w * v epsr * N.e0)
  | 46 => sqrtC (v rjwL / v gjwC)
  | 47 => sqrtC (v gjwC * v rjwL)
  | 48 => w * sqrtC (v LTL * v CTL)
  | _ => 0

/-- the functions read exactly what the table says they read -/
theorem value_congr (N : Nature) (Zb : ℂ) (w : ℝ) {v v' : Par → ℂ} {e : Eqn} (he : e ∈ EQNS)
    (h : ∀ r ∈ e.reads, v r = v' r) : value N Zb w e.id v = value N Zb w e.id v' := by
  fin_cases he <;> simp only [eqn, List.mem_cons, List.not_mem_nil, or_false, forall_eq_or_imp, forall_eq] at h <;>
    simp only [value, eqn, h]

/-- the value of a parameter of the object, at the frequency and position considered (`getattr(self, kw)(w, x)`), given the
values of the supplied functions there. -/
inductive Ev (N : Nature) (Zb : ℂ) (w : ℝ) (inp : Par → ℂ) (s : St) : Par → ℂ → Prop
  | input {p} : s.src p = some .input → Ev N Zb w inp s p (inp p)
  | zero {p} : s.src p = some .zero → Ev N Zb w inp s p 0
  | rho {p z} : s.src p = some .rho → Ev N Zb w inp s Par.rho z → Ev N Zb w inp s p z
  | eqn {p e} (v : Par → ℂ) : s.src p = some (.eqn e) → (∀ r ∈ e.reads, Ev N Zb w inp s r (v r)) →
      Ev N Zb w inp s p (value N Zb w e.id v)

/-! ## A physical coaxial line -/

/-- a coaxial line at one angular frequency: geometry, medium and conductors, and its propagation constant. -/
structure Line (N : Nature) (w : ℝ) where
  /-- diameter of the outer conductor -/
  OD : ℝ
  /-- diameter of the inner conductor -/
  ID : ℝ
  /-- relative permittivity and permeability of the medium -/
  epsr : ℝ
  /-- see `epsr` -/
  mur : ℝ
  /-- conductivity of the medium -/
  sigma : ℝ
  /-- relative permeability and resistivity of the conductors -/
  murI : ℝ
  /-- see `murI` -/
  murO : ℝ
  /-- see `murI` -/
  rhoI : ℝ
  /-- see `murI` -/
  rhoO : ℝ
  /-- propagation constant -/
  γ : ℂ
  w_pos : 0 < w
  ID_pos : 0 < ID
  gap : ID < OD
  epsr_pos : 0 < epsr
  mur_pos : 0 < mur
  sigma_nonneg : 0 ≤ sigma
  murI_pos : 0 < murI
  murO_pos : 0 < murO
  rhoI_nonneg : 0 ≤ rhoI
  rhoO_nonneg : 0 ≤ rhoO
  /-- a wave that does not grow along its way -/
  γ_re : 0 ≤ γ.re
  γ_im : 0 < γ.im
  /-- `γ² = (r + jωL)(g + jωC)` with the series resistance of the skin effect, and the inductance, conductance and capacitance
  per metre of a coaxial line -/
  γ_sq : γ ^ 2 =
    (((Real.sqrt (w * N.mu0 * murI * rhoI / 2) / (Real.pi * ID) +
        Real.sqrt (w * N.mu0 * murO * rhoO / 2) / (Real.pi * OD) : ℝ) : ℂ) +
      Complex.I * ((w * (N.mu0 * mur / (2 * Real.pi) * Real.log (OD / ID)) : ℝ) : ℂ)) *
    (((2 * Real.pi * sigma / Real.log (OD / ID) : ℝ) : ℂ) +
      Complex.I * ((w * (2 * Real.pi * N.e0 * epsr / Real.log (OD / ID)) : ℝ) : ℂ))

namespace Line
variable {N : Nature} {w : ℝ} (l : Line N w)

/-- surface resistance of the inner conductor (skin effect) -/
noncomputable def RsI : ℝ := Real.sqrt (w * N.mu0 * l.murI * l.rhoI / 2)
/-- surface resistance of the outer conductor -/
noncomputable def RsO : ℝ := Real.sqrt (w * N.mu0 * l.murO * l.rhoO / 2)
/-- series resistance per metre -/
noncomputable def r : ℝ := l.RsI / (Real.pi * l.ID) + l.RsO / (Real.pi * l.OD)
/-- inductance per metre -/
noncomputable def L : ℝ := N.mu0 * l.mur / (2 * Real.pi) * Real.log (l.OD / l.ID)
/-- conductance per metre -/
noncomputable def g : ℝ := 2 * Real.pi * l.sigma / Real.log (l.OD / l.ID)
/-- capacitance per metre -/
noncomputable def C : ℝ := 2 * Real.pi * N.e0 * l.epsr / Real.log (l.OD / l.ID)

/-- what each parameter name stands for, for this line. `rho` is the resistivity when it is the same for both
conductors; `Rs`, `qTL` have no meaning for a coaxial line with two conductors and no rule reads them. -/
noncomputable def par : Par → ℂ
  | .OD => l.OD
  | .ID => l.ID
  | .rho => l.rhoI
  | .rhoO => l.rhoO
  | .rhoI => l.rhoI
  | .Rs => l.RsI
  | .RsO => l.RsO
  | .RsI => l.RsI
  | .rTL => l.r
  | .rTLO => (l.RsO / (Real.pi * l.OD) : ℝ)
  | .rTLI => (l.RsI / (Real.pi * l.ID) : ℝ)
  | .qTL => 0
  | .qTLI => (1 / (Real.pi * l.ID) : ℝ)
  | .qTLO => (1 / (Real.pi * l.OD) : ℝ)
  | .murI => l.murI
  | .murO => l.murO
  | .A => l.γ.re
  | .AdB => (20 * l.γ.re / Real.log 10 : ℝ)
  | .gTL => l.g
  | .sigma => l.sigma
  | .tand => (l.sigma / (w * l.epsr * N.e0) : ℝ)
  | .LTL => l.L
  | .CTL => l.C
  | .Z0TL => Real.sqrt (l.L / l.C)
  | .epsr => l.epsr
  | .mur => l.mur
  | .vr => (1 / Real.sqrt (l.mur * l.epsr) : ℝ)
  | .etar => Real.sqrt (l.mur / l.epsr)
  | .rjwL => l.r + Complex.I * w * l.L
  | .gjwC => l.g + Complex.I * w * l.C
  | .Zc => l.γ / (l.g + Complex.I * w * l.C)
  | .gamma => l.γ
  | .beta => l.γ.im

end Line

/-! ## Square roots -/

theorem sqrtC_sq {z : ℂ} (h : 0 < z.re ∨ (z.re = 0 ∧ 0 ≤ z.im)) : sqrtC (z ^ 2) = z := by
  unfold sqrtC
  have h2 : (1 / 2 : ℂ) = ((2 : ℕ) : ℂ)⁻¹ := by norm_num
  rw [h2]
  apply Complex.pow_cpow_nat_inv (n := 2) (by norm_num)
  · have : -(Real.pi / 2) < z.arg := by
      rw [Complex.neg_pi_div_two_lt_arg_iff]
      rcases h with h | h
      · exact .inl h
      · exact .inr h.2
    simpa using this
  · have : z.arg ≤ Real.pi / 2 := by
      rw [Complex.arg_le_pi_div_two_iff]
      rcases h with h | h
      · exact .inl h.le
      · exact .inl h.1.ge
    simpa using this

theorem sqrtC_of {z y : ℂ} (hy : z = y ^ 2) (h : 0 < y.re ∨ (y.re = 0 ∧ 0 ≤ y.im)) : sqrtC z = y := by
  rw [hy, sqrtC_sq h]

theorem sqrtC_real {x : ℝ} (h : 0 ≤ x) : sqrtC (x : ℂ) = (Real.sqrt x : ℝ) := by
  apply sqrtC_of
  · rw [← Complex.ofReal_pow, Real.sq_sqrt h]
  · rcases (Real.sqrt_nonneg x).lt_or_eq with h | h
    · left; simpa using h
    · right; simp [← h]

end PyRFtk.Resolver
