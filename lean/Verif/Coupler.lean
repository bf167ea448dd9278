import Verif.RfBase
import Verif.RLCProps2
import Mathlib.Analysis.SpecialFunctions.Pow.Real
import Mathlib.Analysis.SpecialFunctions.Log.Base
import Mathlib.Analysis.SpecialFunctions.Trigonometric.Basic

/-!
# Models of `rfArcObj.py` and `rfCoupler.py`, property C16 (and the port count of rfArcObj, C50)
-/

namespace PyRFtk

open RLC (Ext)

/-! ## rfArcObj -/

namespace Arc

open Classical in
/-- `get1S`, `rfArcObj.py:81-87`: the result is a number, not a 1 x 1 array. An infinite inductance (the default) makes
`2j*pi*f*inf` contain `nan`, hence the result. -/
noncomputable def get1S (Larc : Ext) (Zself f : ℝ) : Except Err ℂ :=
  match Larc with
  | .inf => .error .nonFinite
  | .fin L =>
    let jwL : ℂ := 2 * Complex.I * Real.pi * f * L
    if jwL + Zself = 0 then .error .zeroDivision else .ok ((jwL - Zself) / (jwL + Zself))

/-- the inductance in force after `rfArcObj(*args, Larc=…)`, `rfArcObj.py:58-59`: keyword, else positional, else `+inf` -/
def larc (arg kw : Option Ext) : Ext := kw.getD (arg.getD .inf)

open Classical in
/-- `rfBase.getS` (`rfBase.py:277-281`) on these numbers: `np.array` of a list of numbers is one-dimensional -/
noncomputable def getSs (Larc : Ext) (Zself : ℝ) (Zb : Option ℝ) (fs : List ℝ) : Except Err (ND ℂ) :=
  match mapE (get1S Larc Zself) fs with
  | .error e => .error e
  | .ok l =>
    let Z := Zb.getD Zself
    if Z ≠ Zself then convertGeneral (.d0 Z) (.d1 l) (.d0 Zself) "V" "V" else .ok (.d1 l)

/-- `rfBase.getS` with one frequency (`rfBase.py:283-284`) -/
noncomputable def getS (Larc : Ext) (Zself : ℝ) (Zb : Option ℝ) (f : ℝ) : Except Err ℂ :=
  match getSs Larc Zself Zb [f] with
  | .error e => .error e
  | .ok (.d1 (x :: _)) => .ok x
  | .ok _ => .error .indexError

/-- one-port scattering by a number -/
theorem scatter_one {z s V I : ℂ} : ScatterV z (Matrix.of fun (_ _ : Fin 1) => s) (fun _ => V) (fun _ => I) ↔
    V - z * I = s * (V + z * I) := by
  unfold ScatterV
  rw [funext_iff]
  simp [Matrix.mulVec, dotProduct]
  constructor
  · intro h; linear_combination 2 * h
  · intro h; linear_combination h / 2

/-- a 1-D argument with one entry is converted like the 1 x 1 matrix -/
theorem convert_one {s z1 z2 : ℂ} (hz : z2 ≠ 0) {R : ND ℂ}
    (h : convertGeneral (.d0 z2) (.d1 [s]) (.d0 z1) "V" "V" = .ok R) :
    ∃ s', R = .d1 [s'] ∧ ∀ V I : ℂ, V - z1 * I = s * (V + z1 * I) ↔ V - z2 * I = s' * (V + z2 * I) := by
  obtain ⟨l', a, b, c, d⟩ := (convertGeneral_ok_iff .V .V (.vector [s]) (by simp) (.inr rfl) (.scalar z1 1 1)
    (.scalar z2 1 1)).1 h
  cases a with
  | vector xs =>
    simp at c
    obtain ⟨x, rfl⟩ := List.length_eq_one_iff.1 c
    refine ⟨x, rfl, fun V I => ?_⟩
    have := conv1_allowed (t1 := .V) (t2 := .V) (z1 := fun _ => z1) (z2 := fun _ => z2) (fun _ => hz)
      (d 0 (Matrix.of fun _ _ => s) (Matrix.of fun _ _ => x) (fun _ => z1) (fun _ => z2) (by simp) (by simp) (by simp)
        (by simp)) (fun _ => V) (fun _ => I)
    rw [allowed_V, allowed_V, scatter_one, scatter_one] at this
    exact this
  | _ => simp [ND.ndim] at b

/-- **C16 (arc).** An arc of finite inductance, on positive references, is the inductance `V = jwL I` at every frequency
and every requested reference, and reflects all power. -/
theorem C16_arc {L Zself f : ℝ} {Zb : Option ℝ} {s : ℂ} (hz : 0 < Zself) (hzb : 0 < Zb.getD Zself)
    (h : getS (.fin L) Zself Zb f = .ok s) :
    (∀ V I : ℂ, V - (Zb.getD Zself : ℝ) * I = s * (V + (Zb.getD Zself : ℝ) * I) ↔
      V = Complex.I * (2 * Real.pi * f : ℝ) * L * I) ∧ ‖s‖ = 1 := by
  have hzc : (Zself : ℂ) ≠ 0 := by exact_mod_cast hz.ne'
  have law1 : ∀ s1, get1S (.fin L) Zself f = .ok s1 → ∀ V I : ℂ, V - (Zself : ℂ) * I = s1 * (V + (Zself : ℂ) * I) ↔
      V = Complex.I * (2 * Real.pi * f : ℝ) * L * I := by
    intro s1 h1 V I
    unfold get1S at h1
    simp only at h1
    split at h1
    · cases h1
    · rename_i hne
      injection h1 with h1
      rw [← h1, RLC.reflect_iff hne hzc]
      push_cast
      constructor <;> intro h <;> rw [h] <;> ring
  have main : ∀ V I : ℂ, V - (Zb.getD Zself : ℝ) * I = s * (V + (Zb.getD Zself : ℝ) * I) ↔
      V = Complex.I * (2 * Real.pi * f : ℝ) * L * I := by
    unfold getS getSs at h
    cases h1 : get1S (.fin L) Zself f with
    | error e => simp [mapE, h1] at h
    | ok s1 =>
      simp only [mapE, h1] at h
      by_cases hZ : Zb.getD Zself = Zself
      · rw [if_neg (not_not.2 hZ)] at h
        injection h with h
        subst h
        rw [hZ]
        exact law1 _ h1
      · rw [if_pos hZ] at h
        cases hc : convertGeneral (.d0 ((Zb.getD Zself : ℝ) : ℂ)) (.d1 [s1]) (.d0 (Zself : ℂ)) "V" "V" with
        | error e => simp [hc] at h
        | ok R =>
          simp only [hc] at h
          obtain ⟨s', rfl, hs'⟩ := convert_one (by exact_mod_cast hzb.ne') hc
          injection h with h
          subst h
          intro V I
          rw [← hs', law1 _ h1]
  refine ⟨main, ?_⟩
  -- excite with a unit wave
  generalize Zb.getD Zself = z at *
  have hz' : (z : ℂ) ≠ 0 := by exact_mod_cast hzb.ne'
  have := (main (1 + s) ((1 - s) / z)).1 (by field_simp; ring)
  set x : ℝ := 2 * Real.pi * f * L / z with hx
  have e : 1 + s = Complex.I * x * (1 - s) := by
    rw [this, hx]; push_cast; field_simp
  have h2 : (1 + Complex.I * x) * s = Complex.I * x - 1 := by linear_combination e
  have h3 : ‖(1 + Complex.I * x : ℂ)‖ * ‖s‖ = ‖(Complex.I * x - 1 : ℂ)‖ := by rw [← norm_mul, h2]
  have h4 : ‖(Complex.I * x - 1 : ℂ)‖ = ‖(1 + Complex.I * x : ℂ)‖ := by
    rw [← sq_eq_sq₀ (norm_nonneg _) (norm_nonneg _), ← Complex.normSq_eq_norm_sq, ← Complex.normSq_eq_norm_sq]
    simp [Complex.normSq_apply]
  rw [h4] at h3
  have h5 : ‖(1 + Complex.I * x : ℂ)‖ ≠ 0 := by
    rw [norm_ne_zero_iff]
    intro h0
    have := congrArg Complex.re h0
    simp at this
  exact mul_left_cancel₀ h5 (by rw [h3, mul_one])

/-- **C16 (which inductance).** An inductance given by keyword is the one in force, whatever the positional argument; without the
keyword it is the positional one. -/
theorem C16_arc_argument {Zself f K : ℝ} {Zb : Option ℝ} (arg : Option Ext) {s : ℂ} (hz : 0 < Zself) (hzb : 0 < Zb.getD Zself) :
    (getS (larc arg (some (.fin K))) Zself Zb f = .ok s → ∀ V I : ℂ, V - (Zb.getD Zself : ℝ) * I = s * (V + (Zb.getD Zself : ℝ) * I) ↔
      V = Complex.I * (2 * Real.pi * f : ℝ) * K * I) ∧
    (getS (larc (some (.fin K)) none) Zself Zb f = .ok s → ∀ V I : ℂ, V - (Zb.getD Zself : ℝ) * I = s * (V + (Zb.getD Zself : ℝ) * I) ↔
      V = Complex.I * (2 * Real.pi * f : ℝ) * K * I) :=
  ⟨fun h => (C16_arc hz hzb h).1, fun h => (C16_arc hz hzb h).1⟩

/-- **C16 (arc evaluates).** With a positive reference the arc's own matrix exists at every frequency. -/
theorem C16_arc_total {L Zself f : ℝ} (hz : 0 < Zself) : ∃ s, getS (.fin L) Zself none f = .ok s := by
  have hne : (2 * Complex.I * Real.pi * f * L + Zself : ℂ) ≠ 0 := by
    intro h
    have := congrArg Complex.re h
    simp at this
    exact hz.ne' this
  exact ⟨_, by simp [getS, getSs, mapE, get1S, hne]; rfl⟩

/-- **C16 is violated by the default arc.** Without an inductance (default `+inf`, an open end) the result is not a number. -/
theorem C16_arc_default (Zself f : ℝ) (Zb : Option ℝ) : getS (larc none none) Zself Zb f = .error .nonFinite := rfl

/-- **C16 is violated for frequency sequences on another reference.** However many frequencies are asked, one number comes
back. -/
theorem C16_arc_sequence_truncated {Larc : Ext} {Zself : ℝ} {Zb : Option ℝ} {fs : List ℝ} {R : ND ℂ} (hne : fs ≠ [])
    (hZ : Zb.getD Zself ≠ Zself) (hz : Zb.getD Zself ≠ 0) (h : getSs Larc Zself Zb fs = .ok R) : ∃ s, R = .d1 [s] := by
  unfold getSs at h
  cases hm : mapE (get1S Larc Zself) fs with
  | error e => simp [hm] at h
  | ok l =>
    simp only [hm] at h
    rw [if_pos hZ] at h
    have hl : l ≠ [] := by
      rintro rfl
      have := mapE_eq_ok.1 hm
      cases this
      exact hne rfl
    have hdn : Denotes (.d1 l) 1 (l.map fun x => Matrix.of fun (_ _ : Fin 1) => x) := .vector l
    obtain ⟨l', a, b, -⟩ := C05_physical .V .V hdn (by simpa using hl) (.scalar (Zself : ℂ) _ 1)
      (.scalar ((Zb.getD Zself : ℝ) : ℂ) _ 1) (by
        intro z hz' i
        have := List.eq_of_mem_replicate hz'
        rw [this]
        show ((Zb.getD Zself : ℝ) : ℂ) ≠ 0
        exact_mod_cast hz) h
    simp [ND.ndim] at b
    obtain ⟨n, rfl⟩ : ∃ xs, R = .d1 xs := by
      unfold convertGeneral at h
      rw [check3D_of_denotes hdn] at h
      simp only at h
      split at h
      · cases h
      · split at h
        · cases h
        · split at h
          · cases h
          · rename_i l2 _
            cases l2 with
            | nil => simp [convUnstack, ND.ndim] at h
            | cons A l2 =>
              simp [convUnstack, ND.ndim, entry00, Except.map] at h
              exact ⟨_, h.symm⟩
    cases a with
    | vector xs =>
      simp at b
      obtain ⟨x, rfl⟩ := List.length_eq_one_iff.1 b
      exact ⟨x, rfl⟩

end Arc

/-- **C50 is violated (rfArcObj).** The constructor passes its keyword arguments to rfBase (`rfArcObj.py:54`), where an object
without `ports` and `Ss` has no ports: the "1-port" arc reports length 0 unless the port is named. -/
theorem C50_rfArcObj_default_ports {fs : Option (List ℝ)} {Zb : Option ℝ} {o : RfBase.Obj}
    (h : RfBase.init none none fs Zb = .ok o) : o.ports = [] ∧ o.N = 0 := by
  unfold RfBase.init at h
  simp only at h
  split at h
  · cases h
  · injection h with h; subst h; exact ⟨rfl, rfl⟩

/-! ## rfCoupler -/

namespace Coupler

/-- the attributes set by `rfCoupler.__init__` -/
structure Obj where
  kc : ℝ
  kcdB : ℝ
  Lc : Option ℝ
  f0Hz : Option ℝ

/-- speed of light, `scipy.constants.speed_of_light` -/
def c0 : ℝ := 299792458

open Classical in
/-- Python truth value of an optional number: `None` and `0` are false -/
noncomputable def truthy (x : Option ℝ) : Option ℝ := x.filter (fun v => v ≠ 0)

/-- `rfCoupler.py:77-110`. (A negative `kc` makes `log10` give `nan` for `kcdB`; `Real.logb` differs there, but nothing
below uses `kcdB` in that case.) -/
noncomputable def init (kc kcdB Lc f0Hz : Option ℝ) : Except Err Obj :=
  match (match truthy kc with                                                  -- 88
    | some k => match truthy kcdB with                                         -- 89
      | some _ => .error .valueError                                           -- 90-92
      | none => .ok (k, 20 * Real.logb 10 k)                                   -- 94
    | none => match truthy kcdB with
      | some d => .ok ((10 : ℝ) ^ (-|d| / 20), d)                              -- 96-97
      | none => .ok (Real.sqrt (1/2), -20 * Real.logb 10 (Real.sqrt (1/2))) : Except Err (ℝ × ℝ)) with   -- 99-100
  | .error e => .error e
  | .ok (k, d) => match truthy Lc with                                         -- 102
    | some l => match truthy f0Hz with                                         -- 103
      | some _ => .error .valueError                                           -- 104-106
      | none => .ok ⟨k, d, some l, some (c0 / (4 * l))⟩                        -- 107
    | none => match truthy f0Hz with
      | some f0 => .ok ⟨k, d, some (c0 / (4 * f0)), some f0⟩                   -- 109-110
      | none => .ok ⟨k, d, Lc, f0Hz⟩

abbrev Mat4 := Matrix (Fin 4) (Fin 4) ℂ

open Classical in
/-- `get1S`, `rfCoupler.py:149-171`, ports in the order A1, A2, B1, B2 -/
noncomputable def get1S (o : Obj) (f : ℝ) : Except Err Mat4 :=
  match (match truthy o.Lc with
    | some l => .ok l
    | none => if f = 0 then .error .zeroDivision else .ok (c0 / (4 * f)) : Except Err ℝ) with
  | .error e => .error e
  | .ok l =>
    let blc := 2 * Real.pi * f / c0 * l                                        -- 154
    if 1 - o.kc ^ 2 < 0 then .error .nonFinite else                            -- 157: sqrt of a negative float
    let s := Real.sqrt (1 - o.kc ^ 2)
    let N : ℂ := s * Real.cos blc + Complex.I * Real.sin blc                   -- 159
    if N = 0 then .error .nonFinite else                                       -- 160: division by zero
    let A := s / N
    let B := Complex.I * o.kc * Real.sin blc / N
    .ok !![0, A, B, 0; A, 0, 0, B; B, 0, 0, A; 0, B, A, 0]                     -- 165-169

/-- `A`, `B` as used in the matrix -/
theorem get1S_ok {o : Obj} {f : ℝ} {S : Mat4} (h : get1S o f = .ok S) :
    ∃ (l : ℝ) (A B : ℂ), (truthy o.Lc = some l ∨ truthy o.Lc = none ∧ f ≠ 0 ∧ l = c0 / (4 * f)) ∧
      S = !![0, A, B, 0; A, 0, 0, B; B, 0, 0, A; 0, B, A, 0] ∧
      Complex.normSq A + Complex.normSq B = 1 ∧ (A * star B).re = 0 ∧
      Complex.normSq B * (1 - o.kc ^ 2 + o.kc ^ 2 * Real.sin (2 * Real.pi * f / c0 * l) ^ 2) =
        o.kc ^ 2 * Real.sin (2 * Real.pi * f / c0 * l) ^ 2 ∧
      1 - o.kc ^ 2 + o.kc ^ 2 * Real.sin (2 * Real.pi * f / c0 * l) ^ 2 ≠ 0 := by
  unfold get1S at h
  split at h
  · cases h
  · rename_i l hl
    refine ⟨l, ?_⟩
    have hl' : truthy o.Lc = some l ∨ truthy o.Lc = none ∧ f ≠ 0 ∧ l = c0 / (4 * f) := by
      cases ht : truthy o.Lc with
      | some l' => simp [ht] at hl; left; rw [hl]
      | none =>
        simp only [ht] at hl
        split at hl
        · cases hl
        · rename_i hf
          injection hl with hl
          exact .inr ⟨rfl, hf, hl.symm⟩
    simp only at h
    split at h
    · cases h
    rename_i hk
    split at h
    · cases h
    rename_i hN
    injection h with h
    set x := 2 * Real.pi * f / c0 * l with hx
    set s := Real.sqrt (1 - o.kc ^ 2) with hs
    have hs2 : s ^ 2 = 1 - o.kc ^ 2 := Real.sq_sqrt (not_lt.1 hk)
    have hcs := Real.sin_sq_add_cos_sq x
    have hN2 : Complex.normSq ((s : ℂ) * Real.cos x + Complex.I * Real.sin x) =
        1 - o.kc ^ 2 + o.kc ^ 2 * Real.sin x ^ 2 := by
      rw [Complex.normSq_apply]
      simp [-Complex.ofReal_cos, -Complex.ofReal_sin]
      linear_combination (Real.cos x ^ 2) * hs2 + (1 - o.kc ^ 2) * hcs
    have hN0 : Complex.normSq ((s : ℂ) * Real.cos x + Complex.I * Real.sin x) ≠ 0 := by
      rw [Ne, Complex.normSq_eq_zero]; exact hN
    refine ⟨_, _, hl', h.symm, ?_, ?_, ?_, by rw [← hN2]; exact hN0⟩
    · rw [Complex.normSq_div, Complex.normSq_div, ← add_div, div_eq_one_iff_eq hN0, hN2]
      simp [Complex.normSq_ofReal, -Complex.ofReal_sin]
      linear_combination hs2
    · have : (s / ((s : ℂ) * Real.cos x + Complex.I * Real.sin x)) *
          star (Complex.I * o.kc * Real.sin x / ((s : ℂ) * Real.cos x + Complex.I * Real.sin x)) =
          (s * star (Complex.I * o.kc * Real.sin x : ℂ)) /
            (Complex.normSq ((s : ℂ) * Real.cos x + Complex.I * Real.sin x) : ℂ) := by
        rw [star_div₀, div_mul_div_comm, Complex.star_def, Complex.mul_conj]
      rw [this, Complex.div_ofReal_re]
      simp [-Complex.ofReal_sin]
    · rw [Complex.normSq_div, hN2, div_mul_cancel₀]
      · simp [Complex.normSq_ofReal, -Complex.ofReal_sin]
        ring
      · rw [← hN2]; exact hN0

theorem lossless_pattern {A B : ℂ} (h1 : Complex.normSq A + Complex.normSq B = 1) (h2 : (A * star B).re = 0) :
    Lossless (!![0, A, B, 0; A, 0, 0, B; B, 0, 0, A; 0, B, A, 0] : Mat4) := by
  intro a
  unfold power
  rw [Fin.sum_univ_four, Fin.sum_univ_four]
  simp [Matrix.mulVec, dotProduct, Fin.sum_univ_four]
  simp only [← Complex.normSq_eq_norm_sq, Complex.normSq_apply, Complex.star_def, Complex.mul_re, Complex.conj_re,
    Complex.conj_im, Complex.add_re, Complex.add_im, Complex.mul_im] at *
  have e1 : A.re ^ 2 + A.im ^ 2 + B.re ^ 2 + B.im ^ 2 = 1 := by linear_combination h1
  have e2 : A.re * B.re + A.im * B.im = 0 := by linear_combination h2
  linear_combination ((a 0).re ^ 2 + (a 0).im ^ 2 + (a 1).re ^ 2 + (a 1).im ^ 2 + (a 2).re ^ 2 + (a 2).im ^ 2 +
    (a 3).re ^ 2 + (a 3).im ^ 2) * e1 + 4 * ((a 1).re * (a 2).re + (a 1).im * (a 2).im + (a 0).re * (a 3).re + (a 0).im * (a 3).im) * e2

/-- **C16 (coupler).** On its own reference the coupler's matrix is lossless, reciprocal and matched, at every frequency and
coupling; opposite ports (A1-B2, A2-B1) are isolated. -/
theorem C16_coupler {o : Obj} {f : ℝ} {S : Mat4} (h : get1S o f = .ok S) :
    Lossless S ∧ Reciprocal S ∧ (∀ i, S i i = 0) ∧ S 0 3 = 0 ∧ S 1 2 = 0 := by
  obtain ⟨l, A, B, -, rfl, h1, h2, -⟩ := get1S_ok h
  refine ⟨lossless_pattern h1 h2, ?_, ?_, rfl, rfl⟩
  · unfold Reciprocal
    ext i j
    fin_cases i <;> fin_cases j <;> rfl
  · intro i; fin_cases i <;> rfl

/-- **C16 (coupler on any reference).** Asked on another positive reference, it is still lossless and reciprocal. -/
theorem C16_coupler_any_reference {o : Obj} {f Zself : ℝ} {Zb : Option ℝ} {S : Mat4} (hz : 0 < Zself)
    (hzb : 0 < Zb.getD Zself) (h : RfBase.getS (get1S o) Zself Zb f = .ok S) : Lossless S ∧ Reciprocal S := by
  obtain ⟨T, hT, -, hVI⟩ := RfBase.C34_getS_reference hzb.ne' h
  obtain ⟨h1, h2, -⟩ := C16_coupler hT
  have hzc : (Zself : ℂ) ≠ 0 := by exact_mod_cast hz.ne'
  -- every port state is a pair of waves of T
  have wave : ∀ V I, ScatterV (Zself : ℂ) T V I → ∃ a, V = a + T.mulVec a ∧ I = fun i => (a i - T.mulVec a i) / Zself := by
    intro V I hs
    refine ⟨fun i => (V i + Zself * I i) / 2, ?_, ?_⟩
    · unfold ScatterV at hs
      rw [← hs]; funext i; simp only [Pi.add_apply]; ring
    · unfold ScatterV at hs
      rw [← hs]; funext i; field_simp; ring
  constructor
  · apply lossless_of_ports hzb
    intro V I hs
    obtain ⟨a, rfl, rfl⟩ := wave V I ((hVI V I).2 hs)
    have := portPower_wave hz.ne' a (T.mulVec a)
    rw [h1 a, sub_self] at this
    exact (mul_eq_zero.1 this).resolve_left hz.ne'
  · apply reciprocal_of_ports (z0 := ((Zb.getD Zself : ℝ) : ℂ)) (by exact_mod_cast hzb.ne')
    intro V I V' I' hs hs'
    obtain ⟨a, rfl, rfl⟩ := wave V I ((hVI V I).2 hs)
    obtain ⟨a', rfl, rfl⟩ := wave V' I' ((hVI V' I').2 hs')
    have hr : ∑ i, a i * T.mulVec a' i = ∑ i, a' i * T.mulVec a i := by
      have : a ⬝ᵥ T.mulVec a' = a' ⬝ᵥ T.mulVec a := by
        rw [Matrix.dotProduct_mulVec, ← Matrix.mulVec_transpose, h2, dotProduct_comm]
      exact this
    have : ∑ i, ((a + T.mulVec a) i * ((a' i - T.mulVec a' i) / Zself) -
        (a' + T.mulVec a') i * ((a i - T.mulVec a i) / Zself)) = 0 := by
      have e : ∀ i, ((a + T.mulVec a) i * ((a' i - T.mulVec a' i) / Zself) -
        (a' + T.mulVec a') i * ((a i - T.mulVec a i) / Zself)) = (-2 / Zself) * (a i * T.mulVec a' i - a' i * T.mulVec a i) := by
        intro i; simp only [Pi.add_apply]; field_simp; ring
      simp only [e]
      rw [← Finset.mul_sum, Finset.sum_sub_distrib, hr, sub_self, mul_zero]
    rw [Finset.sum_sub_distrib, sub_eq_zero] at this
    exact this

/-- **C16 (coupling at the centre frequency).** At the frequency where the coupler is a quarter wave long (always, when
neither length nor frequency was given) the fraction `kc` of the amplitude is coupled. -/
theorem C16_coupling {o : Obj} {f : ℝ} {S : Mat4} (h : get1S o f = .ok S) (hf : f ≠ 0)
    (hq : truthy o.Lc = none ∨ truthy o.Lc = some (c0 / (4 * f))) : ‖S 0 2‖ = |o.kc| ∧ ‖S 0 1‖ ^ 2 = 1 - o.kc ^ 2 := by
  obtain ⟨l, A, B, hl, rfl, h1, -, h3, -⟩ := get1S_ok h
  have hlv : l = c0 / (4 * f) := by
    rcases hl with hl | ⟨hl, -, hl'⟩
    · rcases hq with hq | hq
      · rw [hl] at hq; cases hq
      · rw [hl] at hq; injection hq
    · exact hl'
  have hx : 2 * Real.pi * f / c0 * l = Real.pi / 2 := by
    have : c0 ≠ 0 := by norm_num [c0]
    rw [hlv]; field_simp; ring
  rw [hx, Real.sin_pi_div_two] at h3
  have hB : Complex.normSq B = o.kc ^ 2 := by linear_combination h3
  have hA : Complex.normSq A = 1 - o.kc ^ 2 := by linear_combination h1 - hB
  rw [Complex.normSq_eq_norm_sq] at hA hB
  constructor
  · show ‖B‖ = _
    rw [← abs_of_nonneg (norm_nonneg B)]
    exact (sq_eq_sq_iff_abs_eq_abs _ _).1 hB
  · exact hA

/-- **C16 (it evaluates).** For `|kc| < 1` the matrix exists at every nonzero frequency. -/
theorem C16_coupler_total {o : Obj} {f : ℝ} (hf : f ≠ 0) (hk : o.kc ^ 2 < 1) : ∃ S, get1S o f = .ok S := by
  unfold get1S
  have : ∃ l, (match truthy o.Lc with
      | some l => .ok l
      | none => if f = 0 then .error .zeroDivision else .ok (c0 / (4 * f)) : Except Err ℝ) = .ok l := by
    cases truthy o.Lc with
    | some l => exact ⟨l, rfl⟩
    | none => exact ⟨_, by rw [if_neg hf]⟩
  obtain ⟨l, hl⟩ := this
  rw [hl]
  simp only
  rw [if_neg (by linarith), if_neg]
  · exact ⟨_, rfl⟩
  · intro h0
    have hre := congrArg Complex.re h0
    have him := congrArg Complex.im h0
    simp [-Complex.ofReal_cos, -Complex.ofReal_sin] at hre him
    have hs : 0 < Real.sqrt (1 - o.kc ^ 2) := Real.sqrt_pos.2 (by linarith)
    have hcs := Real.sin_sq_add_cos_sq (2 * Real.pi * f / c0 * l)
    rcases hre with hre | hre
    · exact hs.ne' hre
    · rw [hre, him] at hcs; norm_num at hcs

theorem truthy_some {x : ℝ} (h : x ≠ 0) : truthy (some x) = some x := by simp [truthy, Option.filter, h]

theorem truthy_zero : truthy (some 0) = none := by simp [truthy, Option.filter]

/-- **C16 (dB and linear coupling).** A coupler built from `kc` in (0, 1) and the one built from the dB value the first reports
are the same coupler; a dB value of either sign means an attenuation. -/
theorem C16_dB_linear {k : ℝ} (h0 : 0 < k) (h1 : k < 1) {o : Obj} (Lc f0Hz : Option ℝ)
    (h : init (some k) none Lc f0Hz = .ok o) :
    o.kc = k ∧ (∃ o', init none (some o.kcdB) Lc f0Hz = .ok o' ∧ o'.kc = k ∧ o'.Lc = o.Lc) ∧
    ∃ o', init none (some (-o.kcdB)) Lc f0Hz = .ok o' ∧ o'.kc = k ∧ o'.Lc = o.Lc := by
  have hlog : Real.logb 10 k < 0 := Real.logb_neg (by norm_num) h0 h1
  have hpow : ∀ d, |d| = -(20 * Real.logb 10 k) → (10 : ℝ) ^ (-|d| / 20) = k := by
    intro d hd
    have : -|d| / 20 = Real.logb 10 k := by rw [hd]; ring
    rw [this, Real.rpow_logb (by norm_num) (by norm_num) h0]
  unfold init at h
  have t0 : truthy (none : Option ℝ) = none := rfl
  rw [truthy_some h0.ne', t0] at h
  simp only at h
  have key : ∀ d, d ≠ 0 → |d| = -(20 * Real.logb 10 k) → ∀ o : Obj, (match truthy Lc with
      | some l => match truthy f0Hz with
        | some _ => .error .valueError
        | none => .ok ⟨k, 20 * Real.logb 10 k, some l, some (c0 / (4 * l))⟩
      | none => match truthy f0Hz with
        | some f0 => .ok ⟨k, 20 * Real.logb 10 k, some (c0 / (4 * f0)), some f0⟩
        | none => .ok ⟨k, 20 * Real.logb 10 k, Lc, f0Hz⟩ : Except Err Obj) = .ok o →
      o.kc = k ∧ o.kcdB = 20 * Real.logb 10 k ∧ ∃ o', init none (some d) Lc f0Hz = .ok o' ∧ o'.kc = k ∧ o'.Lc = o.Lc := by
    intro d hd0 hd o h
    unfold init
    rw [truthy_some hd0, t0]
    simp only [hpow d hd]
    cases hL : truthy Lc with
    | some l =>
      cases hf : truthy f0Hz with
      | some f0 => simp only [hL, hf] at h; cases h
      | none => simp only [hL, hf] at h; injection h with h; subst h; exact ⟨rfl, rfl, _, rfl, rfl, rfl⟩
    | none =>
      cases hf : truthy f0Hz with
      | some f0 => simp only [hL, hf] at h; injection h with h; subst h; exact ⟨rfl, rfl, _, rfl, rfl, rfl⟩
      | none => simp only [hL, hf] at h; injection h with h; subst h; exact ⟨rfl, rfl, _, rfl, rfl, rfl⟩
  have a1 : |20 * Real.logb 10 k| = -(20 * Real.logb 10 k) := abs_of_neg (by linarith)
  obtain ⟨h1, h2, h3⟩ := key (20 * Real.logb 10 k) (by intro h; linarith) a1 o h
  obtain ⟨-, -, h4⟩ := key (-(20 * Real.logb 10 k)) (by intro h; linarith) (by rw [abs_neg, a1]) o h
  rw [h2]
  exact ⟨h1, h3, h4⟩

/-- **C16 is violated at the ends of the coupling range.** Asking for no coupling (`kc = 0`) or for full coupling in dB
(`kcdB = 0`) gives the default 3 dB coupler. -/
theorem C16_zero_coupling_ignored (Lc f0Hz : Option ℝ) :
    init (some 0) none Lc f0Hz = init none none Lc f0Hz ∧ init none (some 0) Lc f0Hz = init none none Lc f0Hz ∧
    ∀ o, init none none Lc f0Hz = .ok o → o.kc ^ 2 = 1 / 2 := by
  have t0 : truthy (none : Option ℝ) = none := rfl
  refine ⟨by unfold init; rw [truthy_zero, t0], by unfold init; rw [truthy_zero, t0], ?_⟩
  intro o h
  unfold init at h
  rw [t0] at h
  simp only at h
  have : o.kc = Real.sqrt (1/2) := by
    cases hL : truthy Lc <;> cases hf : truthy f0Hz <;> simp only [hL, hf] at h <;> first | cases h | skip
    all_goals (first | rfl | (injection h with h; subst h; rfl))
  rw [this, Real.sq_sqrt (by norm_num)]

/-- the hypotheses of C16 are met: the default coupler at any nonzero frequency -/
theorem C16_witness (f : ℝ) (hf : f ≠ 0) : ∃ o S, init none none none none = .ok o ∧ get1S o f = .ok S ∧ ‖S 0 2‖ ^ 2 = 1 / 2 := by
  have t0 : truthy (none : Option ℝ) = none := rfl
  refine ⟨⟨Real.sqrt (1/2), -20 * Real.logb 10 (Real.sqrt (1/2)), none, none⟩, ?_⟩
  have hk : Real.sqrt (1/2) ^ 2 = 1/2 := Real.sq_sqrt (by norm_num)
  obtain ⟨S, hS⟩ := C16_coupler_total (o := ⟨Real.sqrt (1/2), -20 * Real.logb 10 (Real.sqrt (1/2)), none, none⟩) hf
    (by show Real.sqrt (1/2) ^ 2 < 1; rw [hk]; norm_num)
  refine ⟨S, by unfold init; rw [t0], hS, ?_⟩
  rw [(C16_coupling hS hf (.inl t0)).1, sq_abs]
  exact hk

end Coupler

end PyRFtk
