import Verif.RLCModel
import Verif.PortPower
import Mathlib.Tactic.Linarith
import Mathlib.Tactic.NormNum

/-!
# rfRLC: C13 (documented circuit), C14 (reciprocity, power), C15 (zero frequency)
-/

namespace PyRFtk.RLC

/-! ## Specification: the drawing in the class docstring (`rfRLC.py:21-44`) -/

/-- a resistor of value `R` (`inf`: open) -/
def Resistor : Ext → ℂ → ℂ → Prop
  | .fin R, v, i => v = R * i
  | .inf, _, i => i = 0

/-- an inductor of value `L` (`inf`: open) at angular frequency `w` -/
def Inductor (w : ℝ) : Ext → ℂ → ℂ → Prop
  | .fin L, v, i => v = Complex.I * w * L * i
  | .inf, _, i => i = 0

/-- a capacitor of value `C` (`inf`: short) at angular frequency `w` -/
def Capacitor (w : ℝ) : Ext → ℂ → ℂ → Prop
  | .fin C, v, i => i = Complex.I * w * C * v
  | .inf, v, _ => v = 0

/-- port voltages and currents (port 0 = `s`, port 1 = `p`) allowed by the drawing: `Cs`, `Ls`, `Rs` in series between the
ports, `Cp`, `Lp`, `Rp` each from port `p` to ground -/
def Law (e : Elem → Ext) (w : ℝ) (V I : Fin 2 → ℂ) : Prop :=
  ∃ vC vL vR iC iL iR : ℂ,
    Capacitor w (e .Cs) vC (I 0) ∧ Inductor w (e .Ls) vL (I 0) ∧ Resistor (e .Rs) vR (I 0) ∧
    V 0 - V 1 = vC + vL + vR ∧
    Capacitor w (e .Cp) (V 1) iC ∧ Inductor w (e .Lp) (V 1) iL ∧ Resistor (e .Rp) (V 1) iR ∧
    I 0 + I 1 = iC + iL + iR

/-- angular frequency -/
noncomputable def omega (f : ℝ) : ℝ := 2 * Real.pi * f

/-- all elements have non-negative values -/
def NonNeg (e : Elem → Ext) : Prop := ∀ p x, e p = .fin x → 0 ≤ x

/-! ## The matrix formula -/

theorem mkS_law {zs yp : ℂ} {S : Mat2} (h : mkS zs yp = .ok S) {z0 : ℂ} (V I : Fin 2 → ℂ) :
    ScatterV z0 S V I ↔ V 0 - V 1 = zs * (z0 * I 0) ∧ z0 * (I 0 + I 1) = yp * V 1 := by
  unfold mkS at h
  cases hW : npInv (!![1, 1 + yp; -(1 + zs), 1] : Mat2) with
  | error e => rw [hW] at h; cases h
  | ok W =>
    rw [hW] at h
    injection h with h
    have hA := npInv_eq_ok.1 hW
    have hA' := mul_eq_one_comm.1 hA
    have key : ∀ a b : Fin 2 → ℂ, b = S.mulVec a ↔
        (!![1, 1 + yp; -(1 + zs), 1] : Mat2).mulVec b = (!![1, 1 - yp; 1 - zs, -1] : Mat2).mulVec a := by
      intro a b
      rw [← h]
      constructor
      · rintro rfl
        rw [← Matrix.mulVec_mulVec, Matrix.mulVec_mulVec, hA, Matrix.one_mulVec]
      · intro hb
        rw [← Matrix.mulVec_mulVec, ← hb, Matrix.mulVec_mulVec, hA', Matrix.one_mulVec]
    unfold ScatterV
    rw [key, funext_iff, Fin.forall_fin_two]
    simp [Matrix.mulVec, dotProduct, Fin.sum_univ_two]
    constructor
    · rintro ⟨h1, h2⟩
      constructor
      · linear_combination -h2
      · linear_combination -h1
    · rintro ⟨h1, h2⟩
      constructor
      · linear_combination -h2
      · linear_combination -h1

theorem mkS_error {zs yp : ℂ} {e : Err} (h : mkS zs yp = .error e) {z0 : ℂ} (hz : z0 ≠ 0) (S : Mat2) :
    ¬ ∀ V I, ScatterV z0 S V I ↔ V 0 - V 1 = zs * (z0 * I 0) ∧ z0 * (I 0 + I 1) = yp * V 1 := by
  intro hall
  unfold mkS at h
  cases hW : npInv (!![1, 1 + yp; -(1 + zs), 1] : Mat2) with
  | ok W => rw [hW] at h; cases h
  | error e' =>
    have hd := (npInv_eq_error.1 hW).1
    simp [Matrix.det_fin_two] at hd
    -- a nonzero state without incoming waves
    have := (hall ![1 + yp, -1] ![-(1 + yp) / z0, 1 / z0]).2 ⟨by
        simp; field_simp; linear_combination hd, by simp; field_simp; ring⟩
    unfold ScatterV at this
    have e0 : (fun i => ((![1 + yp, -1] : Fin 2 → ℂ) i + z0 * (![-(1 + yp) / z0, 1 / z0] : Fin 2 → ℂ) i) / 2) = 0 := by
      funext i; fin_cases i <;> simp <;> field_simp <;> ring
    rw [e0, Matrix.mulVec_zero] at this
    have := congrFun this 1
    simp at this
    field_simp at this
    norm_num at this

/-! ## Nonzero frequency -/

/-- element values the formulas cannot digest: a zero divisor or an infinite factor -/
def Degenerate (e : Elem → Ext) (Zb : ℝ) : Prop :=
  Zb = 0 ∨ e .Cs = .fin 0 ∨ e .Rp = .fin 0 ∨ e .Lp = .fin 0 ∨ e .Rs = .inf ∨ e .Ls = .inf ∨ e .Cp = .inf

/-- `2j*pi*f`, the code's `jw` -/
theorem jw_eq (f : ℝ) : (2 * Complex.I * Real.pi * f : ℂ) = Complex.I * (omega f : ℝ) := by
  unfold omega; push_cast; ring

theorem jw_ne {f : ℝ} (hf : f ≠ 0) : Complex.I * ((omega f : ℝ) : ℂ) ≠ 0 := by
  refine mul_ne_zero Complex.I_ne_zero ?_
  have : omega f ≠ 0 := mul_ne_zero (mul_ne_zero two_ne_zero Real.pi_ne_zero) hf
  exact_mod_cast this

theorem capacitor_div {w : ℝ} (hw : Complex.I * (w : ℂ) ≠ 0) {x : Ext} (hx : x ≠ .fin 0) :
    ∃ c, divE (1 / (Complex.I * (w : ℂ))) x = .ok c ∧ (∀ v i, Capacitor w x v i ↔ v = c * i) ∧ c.re = 0 := by
  cases x with
  | inf => exact ⟨0, rfl, by simp [Capacitor], rfl⟩
  | fin C =>
    have hC : C ≠ 0 := by rintro rfl; exact hx rfl
    have hC' : (C : ℂ) ≠ 0 := by exact_mod_cast hC
    refine ⟨1 / (Complex.I * (w : ℂ)) / C, by simp [divE, hC], fun v i => ?_, by simp [Complex.div_ofReal_re]⟩
    have h3 : Complex.I * (w : ℂ) * C ≠ 0 := mul_ne_zero hw hC'
    simp only [Capacitor]
    rw [div_div, div_mul_eq_mul_div, one_mul, eq_div_iff h3, mul_comm v, eq_comm]

theorem resistor_div {x : Ext} (hx : x ≠ .fin 0) :
    ∃ g : ℝ, divE 1 x = .ok (g : ℂ) ∧ (∀ v i, Resistor x v i ↔ i = g * v) ∧
      ((∀ y, x = .fin y → 0 ≤ y) → 0 ≤ g) ∧ (g = 0 ↔ x = .inf) := by
  cases x with
  | inf => exact ⟨0, by simp [divE], by simp [Resistor], by simp, by simp⟩
  | fin C =>
    have hC : C ≠ 0 := by rintro rfl; exact hx rfl
    have hC' : (C : ℂ) ≠ 0 := by exact_mod_cast hC
    refine ⟨1 / C, by simp [divE, hC], fun v i => ?_, fun h => by have := h C rfl; positivity, by simp [hC]⟩
    simp only [Resistor]
    push_cast
    rw [div_mul_eq_mul_div, one_mul, eq_div_iff hC', mul_comm i, eq_comm]

theorem inductor_div {w : ℝ} (hw : Complex.I * (w : ℂ) ≠ 0) {x : Ext} (hx : x ≠ .fin 0) :
    ∃ l, divE (1 / (Complex.I * (w : ℂ))) x = .ok l ∧ (∀ v i, Inductor w x v i ↔ i = l * v) ∧ l.re = 0 := by
  cases x with
  | inf => exact ⟨0, rfl, by simp [Inductor], rfl⟩
  | fin C =>
    have hC : C ≠ 0 := by rintro rfl; exact hx rfl
    have hC' : (C : ℂ) ≠ 0 := by exact_mod_cast hC
    refine ⟨1 / (Complex.I * (w : ℂ)) / C, by simp [divE, hC], fun v i => ?_, by simp [Complex.div_ofReal_re]⟩
    have h3 : Complex.I * (w : ℂ) * C ≠ 0 := mul_ne_zero hw hC'
    simp only [Inductor]
    rw [div_div, div_mul_eq_mul_div, one_mul, eq_div_iff h3, mul_comm i, eq_comm]

/-- how the closure reaches the matrix formula -/
theorem get1S_ne (npc : Bool) (e : Elem → Ext) (Zb : ℝ) {f : ℝ} (hf : f ≠ 0) :
    (Degenerate e Zb ∧ ∃ x, get1S npc e Zb f = .error x) ∨
    (¬ Degenerate e Zb ∧ ∃ zs yp, get1S npc e Zb f = mkS zs yp ∧
      (∀ V I, Law e (omega f) V I ↔ V 0 - V 1 = zs * (Zb * I 0) ∧ (Zb : ℂ) * (I 0 + I 1) = yp * V 1) ∧
      (NonNeg e → 0 < Zb → 0 ≤ zs.re ∧ 0 ≤ yp.re) ∧
      (e .Rs = .fin 0 → e .Rp = .inf → zs.re = 0 ∧ yp.re = 0)) := by
  have hw := jw_ne hf
  unfold get1S
  rw [if_pos hf]
  simp only [jw_eq]
  cases hRs : e .Rs with
  | inf => exact .inl ⟨by simp [Degenerate, hRs], _, rfl⟩
  | fin Rs =>
  cases hLs : e .Ls with
  | inf => exact .inl ⟨by simp [Degenerate, hLs], _, rfl⟩
  | fin Ls =>
  by_cases hC0 : e .Cs = .fin 0
  · refine .inl ⟨by simp [Degenerate, hC0], .zeroDivision, ?_⟩
    simp [hC0, divE, finE, bind, Except.bind]
  obtain ⟨c, hc, hc', hcr⟩ := capacitor_div hw hC0
  by_cases hZ : Zb = 0
  · refine .inl ⟨by simp [Degenerate, hZ], .zeroDivision, ?_⟩
    simp only [hc]
    simp [divE, finE, bind, Except.bind, hZ]
  have hZ' : (Zb : ℂ) ≠ 0 := by exact_mod_cast hZ
  by_cases hR0 : e .Rp = .fin 0
  · refine .inl ⟨by simp [Degenerate, hR0], .zeroDivision, ?_⟩
    simp only [hc]
    simp [divE, finE, bind, Except.bind, hZ, hR0]
  obtain ⟨g, hg, hg', hgr, hgi⟩ := resistor_div hR0
  by_cases hL0 : e .Lp = .fin 0
  · refine .inl ⟨by simp [Degenerate, hL0], .zeroDivision, ?_⟩
    simp only [hc, hg]
    simp [divE, finE, bind, Except.bind, hZ, hL0]
  obtain ⟨l, hl, hl', hlr⟩ := inductor_div hw hL0
  cases hCp : e .Cp with
  | inf =>
    refine .inl ⟨by simp [Degenerate, hCp], .nonFinite, ?_⟩
    simp only [hc, hg, hl]
    simp [divE, finE, bind, Except.bind, hZ]
  | fin Cp =>
    refine .inr ⟨by simp [Degenerate, hC0, hZ, hR0, hL0, hRs, hLs, hCp],
      (Rs + Complex.I * (omega f : ℝ) * Ls + c) / Zb, (g + l + Complex.I * (omega f : ℝ) * Cp) * Zb, ?_, ?_, ?_, ?_⟩
    rotate_left 2
    · intro hn hz
      have h1 := hn .Rs Rs hRs
      have h2 := hgr fun y hy => hn .Rp y hy
      constructor
      · simp [Complex.div_ofReal_re, hcr]; positivity
      · simp [hlr]; positivity
    · intro h1 h2
      rw [hgi.2 h2]
      cases h1
      simp [Complex.div_ofReal_re, hcr, hlr]
    · simp only [hc, hg, hl]
      simp [divE, finE, bind, Except.bind, hZ]
    · intro V I
      unfold Law
      simp only [hc', hg', hl']
      simp only [hRs, hLs, hCp, Resistor, Inductor, Capacitor]
      constructor
      · rintro ⟨vC, vL, vR, iC, iL, iR, rfl, rfl, rfl, h1, rfl, rfl, rfl, h2⟩
        constructor
        · rw [h1]; field_simp; ring
        · rw [h2]; ring
      · rintro ⟨h1, h2⟩
        refine ⟨_, _, _, _, _, _, rfl, rfl, rfl, ?_, rfl, rfl, rfl, ?_⟩
        · rw [h1]; field_simp; ring
        · apply mul_left_cancel₀ hZ'
          rw [h2]; ring

/-- the parameters in force during a call of `getS`: an entry of `params` replaces the object's value -/
def inForce (s : St) (params : Elem → Option Ext) (e : Elem) : Ext := (params e).getD (s.elem e)

/-- the reference impedance in force: the argument if given, else the object's -/
def refZ (s : St) (Zb : Option ℝ) : ℝ := Zb.getD s.Zbase

theorem getS1_ok {npc : Bool} {s s' : St} {Zb : Option ℝ} {params : Elem → Option Ext} {f : ℝ} {S : Mat2}
    (h : getS1 npc s Zb params f = (s', .ok S)) :
    get1S npc (inForce s params) (refZ s Zb) f = .ok S ∧ s'.elem = inForce s params ∧ s'.Zbase = s.Zbase ∧
      s'.f = some f ∧ s'.S = some S := by
  unfold getS1 step at h
  change (match get1S npc (inForce s params) (refZ s Zb) f with
    | .error e => _ | .ok S => _) = _ at h
  cases hg : get1S npc (inForce s params) (refZ s Zb) f with
  | error e => rw [hg] at h; simp at h
  | ok S' => rw [hg] at h; simp at h; obtain ⟨h1, h2⟩ := h; subst h1 h2; exact ⟨rfl, rfl, rfl, rfl, rfl⟩

theorem getS1_error {npc : Bool} {s s' : St} {Zb : Option ℝ} {params : Elem → Option Ext} {f : ℝ} {x : Err}
    (h : getS1 npc s Zb params f = (s', .error x)) :
    get1S npc (inForce s params) (refZ s Zb) f = .error x := by
  unfold getS1 step at h
  change (match get1S npc (inForce s params) (refZ s Zb) f with
    | .error e => _ | .ok S => _) = _ at h
  cases hg : get1S npc (inForce s params) (refZ s Zb) f with
  | error e => rw [hg] at h; simp at h; rw [h.2]
  | ok S' => rw [hg] at h; simp at h

/-- **C13 (documented circuit).** At every nonzero frequency, the matrix returned by `getS` relates the port waves on the
reference impedance exactly at the port voltages and currents the drawing allows. -/
theorem C13_documented_circuit {npc : Bool} {s s' : St} {Zb : Option ℝ} {params : Elem → Option Ext} {f : ℝ} {S : Mat2}
    (hf : f ≠ 0) (h : getS1 npc s Zb params f = (s', .ok S)) (V I : Fin 2 → ℂ) :
    ScatterV (refZ s Zb : ℂ) S V I ↔ Law (inForce s params) (omega f) V I := by
  obtain ⟨h, -⟩ := getS1_ok h
  rcases get1S_ne npc (inForce s params) (refZ s Zb) hf with ⟨-, x, hx⟩ | ⟨-, zs, yp, hm, hl, -, -⟩
  · rw [h] at hx; cases hx
  · rw [h] at hm
    rw [mkS_law hm.symm, hl]

/-- **C13 (when it raises).** At a nonzero frequency `getS` raises iff an element value or the reference is degenerate
for the formulas or the drawn circuit has no scattering matrix on that reference. -/
theorem C13_failure (npc : Bool) (s : St) (Zb : Option ℝ) (params : Elem → Option Ext) {f : ℝ} (hf : f ≠ 0) :
    (∃ s' x, getS1 npc s Zb params f = (s', .error x)) ↔
      Degenerate (inForce s params) (refZ s Zb) ∨
      ¬ ∃ S : Mat2, ∀ V I, ScatterV (refZ s Zb : ℂ) S V I ↔ Law (inForce s params) (omega f) V I := by
  rcases get1S_ne npc (inForce s params) (refZ s Zb) hf with ⟨hd, x, hx⟩ | ⟨hd, zs, yp, hm, hl, -, -⟩
  · refine iff_of_true ?_ (.inl hd)
    exact ⟨{ override params s with f := some f }, x, by
      unfold getS1 step
      change (match get1S npc (inForce s params) (refZ s Zb) f with | .error e => _ | .ok S => _) = _
      rw [hx]⟩
  · have hz : ((refZ s Zb : ℝ) : ℂ) ≠ 0 := by
      intro h; exact hd (.inl (by exact_mod_cast h))
    constructor
    · rintro ⟨s', x, h⟩
      right
      rintro ⟨S, hS⟩
      have he := getS1_error h
      rw [hm] at he
      exact mkS_error he hz S fun V I => by rw [hS, hl]
    · rintro (h | h)
      · exact absurd h hd
      · cases hr : getS1 npc s Zb params f with
        | mk s' r => cases r with
          | error x => exact ⟨s', x, rfl⟩
          | ok S => exact absurd ⟨S, C13_documented_circuit hf hr⟩ h

theorem steps_ok {npc : Bool} {Zb : ℝ} : ∀ {fs : List ℝ} {s s' : St} {Ss : List Mat2},
    steps npc Zb s fs = (s', .ok Ss) → List.Forall₂ (fun f S => get1S npc s.elem Zb f = .ok S) fs Ss ∧ s'.elem = s.elem
  | [], s, s', Ss, h => by simp [steps] at h; obtain ⟨h1, h2⟩ := h; subst h1 h2; exact ⟨.nil, rfl⟩
  | f :: fs, s, s', Ss, h => by
    unfold steps at h
    cases hg : get1S npc s.elem Zb f with
    | error e => simp [step, hg] at h
    | ok S =>
      simp only [step, hg] at h
      cases hr : steps npc Zb { s with f := some f, S := some S } fs with
      | mk s2 r => cases r with
        | error e => simp [hr] at h
        | ok Ss' =>
          simp [hr] at h; obtain ⟨h1, h2⟩ := h; subst h1 h2
          obtain ⟨i1, i2⟩ := steps_ok hr
          exact ⟨.cons hg i1, i2⟩

/-- **C13 (several frequencies).** Called with a sequence of frequencies, `getS` returns one matrix per frequency, in order,
each that of the drawing at that frequency. -/
theorem C13_sequence {npc : Bool} {s s' : St} {Zb : Option ℝ} {params : Elem → Option Ext} {fs : List ℝ} {Ss : List Mat2}
    (h : getSs npc s Zb params fs = (s', .ok Ss)) :
    List.Forall₂ (fun f S => f ≠ 0 → ∀ V I, ScatterV (refZ s Zb : ℂ) S V I ↔ Law (inForce s params) (omega f) V I) fs Ss := by
  refine (steps_ok h).1.imp fun {f S} hS hf V I => ?_
  refine C13_documented_circuit (npc := npc) (s' := { override params s with f := some f, S := some S }) hf ?_ V I
  unfold getS1 step
  change (match get1S npc (inForce s params) (refZ s Zb) f with | .error e => _ | .ok S => _) = _
  change get1S npc (inForce s params) (refZ s Zb) f = .ok S at hS
  rw [hS]

/-- **C13 (params stick).** Element values passed through `params` are not only used for that call: they stay in force
for every later call. -/
theorem C13_params_persist {npc : Bool} {s s' : St} {Zb : Option ℝ} {params : Elem → Option Ext} {f : ℝ} {S : Mat2}
    (h : getS1 npc s Zb params f = (s', .ok S)) (Zb' : Option ℝ) (f' : ℝ) :
    (getS1 npc s' Zb' (fun _ => none) f').2 = (getS1 npc s Zb' params f').2 := by
  obtain ⟨-, h1, h2, -⟩ := getS1_ok h
  have e1 : inForce s' (fun _ => none) = inForce s params := by funext e; simp only [inForce, h1, Option.getD]
  have e2 : refZ s' Zb' = refZ s Zb' := by simp only [refZ, h2]
  have key : ∀ (s : St) (p : Elem → Option Ext), (getS1 npc s Zb' p f').2 = get1S npc (inForce s p) (refZ s Zb') f' := by
    intro s p
    cases hg : get1S npc (inForce s p) (refZ s Zb') f' with
    | error x =>
      have hg' : get1S npc (override p s).elem (Zb'.getD s.Zbase) f' = .error x := hg
      simp [getS1, step, hg']
    | ok x =>
      have hg' : get1S npc (override p s).elem (Zb'.getD s.Zbase) f' = .ok x := hg
      simp [getS1, step, hg']
  rw [key, key, e1, e2]

/-! ## Zero frequency: what the code returns -/

/-- the four branches at `f = 0` -/
theorem get1S_zero {npc : Bool} {e : Elem → Ext} {Zb : ℝ} {S : Mat2} (h : get1S npc e Zb 0 = .ok S) :
    (e .Cs = .inf ∧ e .Lp = .inf ∧ e .Rp ≠ .fin 0 ∧ ∃ (Rs g : ℝ), e .Rs = .fin Rs ∧ divE 1 (e .Rp) = .ok (g : ℂ) ∧
      mkS Rs g = .ok S) ∨
    (npc = true ∧ e .Cs = .inf ∧ (∃ L, e .Lp = .fin L) ∧ ∃ Rs : ℝ, e .Rs = .fin Rs ∧ Rs + Zb ≠ 0 ∧
      S = !![(((Rs - Zb) / (Rs + Zb) : ℝ) : ℂ), 0; 0, ((-1 : ℝ) : ℂ)]) ∨
    (npc = true ∧ (∃ C, e .Cs = .fin C) ∧ e .Lp = .inf ∧ ((∃ Rp : ℝ, e .Rp = .fin Rp ∧ Rp + Zb ≠ 0 ∧
      S = !![((1 : ℝ) : ℂ), 0; 0, (((Rp - Zb) / (Rp + Zb) : ℝ) : ℂ)]) ∨
      (e .Rp = .inf ∧ S = !![((1 : ℝ) : ℂ), 0; 0, ((1 : ℝ) : ℂ)]))) ∨
    (npc = true ∧ (∃ C, e .Cs = .fin C) ∧ (∃ L, e .Lp = .fin L) ∧ S = !![((1 : ℝ) : ℂ), 0; 0, ((-1 : ℝ) : ℂ)]) := by
  unfold get1S at h
  rw [if_neg (by simp)] at h
  cases hCs : e .Cs with
  | inf =>
    simp only [hCs] at h
    cases hRs : e .Rs with
    | inf => rw [hRs] at h; cases h
    | fin Rs =>
      rw [hRs] at h
      cases hLp : e .Lp with
      | inf =>
        left
        simp only [hLp, finE, bind, Except.bind] at h
        by_cases hR0 : e .Rp = .fin 0
        · simp [hR0, divE] at h
        · obtain ⟨g, hg, -⟩ := resistor_div hR0
          rw [hg] at h
          exact ⟨rfl, rfl, hR0, Rs, g, rfl, hg, h⟩
      | fin L =>
        right; left
        simp only [hLp, finE, bind, Except.bind] at h
        split at h
        · cases h
        · split at h
          · cases h
          · rename_i h1 h2
            injection h with h
            refine ⟨by simpa using h1, rfl, ⟨L, rfl⟩, Rs, rfl, by exact_mod_cast h2, ?_⟩
            rw [← h]; push_cast; rfl
  | fin C =>
    simp only [hCs] at h
    right; right
    cases hLp : e .Lp with
    | inf =>
      left
      simp only [hLp] at h
      cases hRp : e .Rp with
      | inf =>
        simp only [hRp] at h
        split at h
        · cases h
        · rename_i h1
          injection h with h
          exact ⟨by simpa using h1, ⟨C, rfl⟩, rfl, .inr ⟨rfl, by rw [← h]; push_cast; rfl⟩⟩
      | fin Rp =>
        simp only [hRp] at h
        split at h
        · cases h
        · split at h
          · cases h
          · rename_i h1 h2
            injection h with h
            exact ⟨by simpa using h2, ⟨C, rfl⟩, rfl, .inl ⟨Rp, rfl, h1, by rw [← h]; push_cast; rfl⟩⟩
    | fin L =>
      right
      simp only [hLp] at h
      split at h
      · cases h
      · rename_i h1
        injection h with h
        exact ⟨by simpa using h1, ⟨C, rfl⟩, ⟨L, rfl⟩, by rw [← h]; push_cast; rfl⟩

theorem get1S_cases {npc : Bool} {e : Elem → Ext} {Zb f : ℝ} {S : Mat2} (h : get1S npc e Zb f = .ok S) :
    (∃ z y, mkS z y = .ok S ∧ (NonNeg e → 0 < Zb → 0 ≤ z.re ∧ 0 ≤ y.re) ∧
      (e .Rs = .fin 0 → e .Rp = .inf → z.re = 0 ∧ y.re = 0)) ∨
    (f = 0 ∧ ∃ p q : ℝ, S = !![(p : ℂ), 0; 0, (q : ℂ)] ∧ (NonNeg e → 0 < Zb → |p| ≤ 1 ∧ |q| ≤ 1) ∧
      (0 < Zb → e .Rs = .fin 0 → e .Rp = .inf → |p| = 1 ∧ |q| = 1)) := by
  have hq : ∀ R : ℝ, 0 ≤ R → 0 < Zb → |(R - Zb) / (R + Zb)| ≤ 1 := by
    intro R h1 h2
    rw [abs_div, div_le_one (by rw [abs_pos]; linarith), abs_of_pos (a := R + Zb) (by linarith), abs_le]
    constructor <;> linarith
  by_cases hf : f = 0
  · subst hf
    rcases get1S_zero h with ⟨-, -, hR0, Rs, g, hRs, hg, hm⟩ | ⟨-, -, -, Rs, hRs, h1, hS⟩ | ⟨-, -, -, h'⟩ | ⟨-, -, -, hS⟩
    · left
      obtain ⟨g', hg', -, h1, h2⟩ := resistor_div hR0
      have : g' = g := by rw [hg] at hg'; injection hg' with hg'; exact_mod_cast hg'.symm
      subst this
      refine ⟨Rs, g', hm, fun hn _ => ⟨by simpa using hn .Rs Rs hRs, by simpa using h1 fun y => hn .Rp y⟩, ?_⟩
      intro h3 h4
      rw [hRs] at h3; cases h3
      simp [h2.2 h4]
    · right
      refine ⟨rfl, _, _, hS, fun hn hz => ⟨hq _ (hn .Rs Rs hRs) hz, by simp⟩, fun hz h3 _ => ?_⟩
      rw [hRs] at h3; cases h3
      simp [hz.ne']
    · right
      rcases h' with ⟨Rp, hRp, h1, hS⟩ | ⟨h1, hS⟩
      · exact ⟨rfl, _, _, hS, fun hn hz => ⟨by simp, hq _ (hn .Rp Rp hRp) hz⟩, fun hz _ h4 => by rw [hRp] at h4; cases h4⟩
      · exact ⟨rfl, _, _, hS, by simp, by simp⟩
    · right
      exact ⟨rfl, _, _, hS, by simp, by simp⟩
  · rcases get1S_ne npc e Zb hf with ⟨-, x, hx⟩ | ⟨-, zs, yp, hm, -, h1, h2⟩
    · rw [h] at hx; cases hx
    · exact .inl ⟨zs, yp, by rw [← hm, h], h1, h2⟩

/-! ## C14 -/

theorem mkS_power {z y : ℂ} {S : Mat2} (h : mkS z y = .ok S) {V I : Fin 2 → ℂ} (hs : ScatterV ((1 : ℝ) : ℂ) S V I) :
    portPower V I = z.re * Complex.normSq (I 0) + y.re * Complex.normSq (V 1) := by
  obtain ⟨h1, h2⟩ := (mkS_law h V I).1 hs
  rw [Complex.ofReal_one] at h1 h2
  have hV : V 0 = V 1 + z * I 0 := by linear_combination h1
  have hI : I 1 = y * V 1 - I 0 := by linear_combination h2
  unfold portPower
  rw [Fin.sum_univ_two, hV, hI]
  simp [Complex.normSq_apply]
  ring

/-- **C14 (reciprocity).** For all element values, references and frequencies the returned matrix is symmetric. -/
theorem C14_reciprocal {npc : Bool} {s s' : St} {Zb : Option ℝ} {params : Elem → Option Ext} {f : ℝ} {S : Mat2}
    (h : getS1 npc s Zb params f = (s', .ok S)) : Reciprocal S := by
  obtain ⟨h, -⟩ := getS1_ok h
  rcases get1S_cases h with ⟨z, y, hm, -⟩ | ⟨-, p, q, rfl, -⟩
  · apply reciprocal_of_ports (z0 := 1) one_ne_zero
    intro V I V' I' h1 h2
    rw [mkS_law hm] at h1 h2
    obtain ⟨a1, a2⟩ := h1
    obtain ⟨b1, b2⟩ := h2
    rw [Fin.sum_univ_two, Fin.sum_univ_two]
    linear_combination I' 0 * a1 - I 0 * b1 - V' 1 * a2 + V 1 * b2
  · unfold Reciprocal
    ext i j
    fin_cases i <;> fin_cases j <;> rfl

theorem power_diag (p q : ℝ) (a : Fin 2 → ℂ) :
    power ((!![(p : ℂ), 0; 0, (q : ℂ)] : Mat2).mulVec a) = p ^ 2 * ‖a 0‖ ^ 2 + q ^ 2 * ‖a 1‖ ^ 2 := by
  unfold power
  rw [Fin.sum_univ_two]
  simp [Matrix.mulVec, dotProduct, Fin.sum_univ_two, mul_pow]

/-- **C14 (passivity).** With non-negative elements and a positive reference impedance no excitation makes more power
leave the ports than enters them, at any frequency. -/
theorem C14_passive {npc : Bool} {s s' : St} {Zb : Option ℝ} {params : Elem → Option Ext} {f : ℝ} {S : Mat2}
    (hn : NonNeg (inForce s params)) (hz : 0 < refZ s Zb) (h : getS1 npc s Zb params f = (s', .ok S)) : Passive S := by
  obtain ⟨h, -⟩ := getS1_ok h
  rcases get1S_cases h with ⟨z, y, hm, h1, -⟩ | ⟨-, p, q, rfl, h1, -⟩
  · obtain ⟨h1, h2⟩ := h1 hn hz
    apply passive_of_ports (r := 1) one_pos
    intro V I hs
    rw [mkS_power hm hs]
    have := Complex.normSq_nonneg (I 0)
    have := Complex.normSq_nonneg (V 1)
    positivity
  · obtain ⟨h1, h2⟩ := h1 hn hz
    intro a
    rw [power_diag]
    unfold power
    rw [Fin.sum_univ_two]
    have e1 : p ^ 2 ≤ 1 := by rw [sq_le_one_iff_abs_le_one]; exact h1
    have e2 : q ^ 2 ≤ 1 := by rw [sq_le_one_iff_abs_le_one]; exact h2
    nlinarith [sq_nonneg ‖a 0‖, sq_nonneg ‖a 1‖]

/-- **C14 (losslessness).** Without resistors (`Rs = 0`, `Rp = inf`; inductors and capacitors of any value) all incident
power is returned, at any frequency. -/
theorem C14_lossless {npc : Bool} {s s' : St} {Zb : Option ℝ} {params : Elem → Option Ext} {f : ℝ} {S : Mat2}
    (h1 : inForce s params .Rs = .fin 0) (h2 : inForce s params .Rp = .inf) (hz : 0 < refZ s Zb)
    (h : getS1 npc s Zb params f = (s', .ok S)) : Lossless S := by
  obtain ⟨h, -⟩ := getS1_ok h
  rcases get1S_cases h with ⟨z, y, hm, -, h3⟩ | ⟨-, p, q, rfl, -, h3⟩
  · obtain ⟨h3, h4⟩ := h3 h1 h2
    apply lossless_of_ports (r := 1) one_pos
    intro V I hs
    rw [mkS_power hm hs, h3, h4]
    ring
  · obtain ⟨h3, h4⟩ := h3 hz h1 h2
    intro a
    rw [power_diag]
    unfold power
    rw [Fin.sum_univ_two, ← sq_abs p, ← sq_abs q, h3, h4]
    ring

/-- **C14 (passive circuits can always be evaluated).** Non-negative, non-degenerate elements and a positive reference:
`getS` does not raise at any nonzero frequency. -/
theorem C14_total (npc : Bool) (s : St) (Zb : Option ℝ) (params : Elem → Option Ext) {f : ℝ} (hf : f ≠ 0)
    (hn : NonNeg (inForce s params)) (hz : 0 < refZ s Zb) (hd : ¬ Degenerate (inForce s params) (refZ s Zb)) :
    ∃ s' S, getS1 npc s Zb params f = (s', .ok S) := by
  cases hr : getS1 npc s Zb params f with
  | mk s' r => cases r with
    | ok S => exact ⟨s', S, rfl⟩
    | error x =>
      exfalso
      have he := getS1_error hr
      rcases get1S_ne npc (inForce s params) (refZ s Zb) hf with ⟨h, -⟩ | ⟨-, zs, yp, hm, -, h1, -⟩
      · exact hd h
      · obtain ⟨h1, h2⟩ := h1 hn hz
        rw [hm] at he
        unfold mkS at he
        cases hW : npInv (!![1, 1 + yp; -(1 + zs), 1] : Mat2) with
        | ok W => rw [hW] at he; cases he
        | error e' =>
          have hdet := (npInv_eq_error.1 hW).1
          simp [Matrix.det_fin_two] at hdet
          have hr := congrArg Complex.re hdet
          have hi := congrArg Complex.im hdet
          simp at hr hi
          nlinarith [mul_nonneg h1 h2, sq_nonneg zs.im, sq_nonneg yp.im, mul_nonneg h1 (sq_nonneg yp.im), mul_nonneg h2 (sq_nonneg zs.im)]

end PyRFtk.RLC
