import Verif.TRLFile
import Verif.PortPower

/-!
# A section given by a Touchstone file: between the frequencies, references, voltages (C67)
-/

namespace PyRFtk.TRL

open TSF RfObject

variable {N : ℕ} {I : Interp1} {io : NumIO}

/-- the section with samples of a response in format `fmt` -/
def sampled (line : Line) (fmt : Fmt) (fs : List ℝ) (R : ℝ → RfObject.Mat N) : FLine N := ⟨line, fs, fs.map R, fmt⟩

theorem sampled_eval (hI : I.Sound) {line : Line} {fmt : Fmt} {fs : List ℝ} (h2 : 2 ≤ fs.length) (hd : fs.Nodup) {R : ℝ → RfObject.Mat N} :
    ∃ G, (∀ a b x, G (fs.map fun y => a * y + b) x = a * x + b) ∧ ∀ f, sNpinter I (sampled line fmt fs R) f = evalF G fmt (fs.map R) f := by
  have hne : fs ≠ [] := by intro h; rw [h] at h2; simp at h2
  obtain ⟨G, hG⟩ := hI.made fs (min (fs.length - 1) 3) hd (by omega)
  refine ⟨G, fun a b x => hI.affine hG hd (by omega) a b x, fun f => ?_⟩
  unfold sNpinter sampled
  simp only [if_neg hne, hG]

/-- **C67**: with a file in format RI, responses that are straight lines in the complex plane are reproduced at every frequency. -/
theorem C67_RI (hI : I.Sound) {line : Line} {fs : List ℝ} (h2 : 2 ≤ fs.length) (hd : fs.Nodup) (A B : RfObject.Mat N) (f : ℝ) :
    sNpinter I (sampled line .RI fs (Straight A B)) f = .ok (Straight A B f) := by
  obtain ⟨G, haff, hG⟩ := sampled_eval hI (line := line) (fmt := .RI) h2 hd (R := Straight A B)
  rw [hG]
  unfold evalF
  simp only [List.map_map, Function.comp_def]
  congr 1
  funext i j
  have e1 : (fs.map fun x : ℝ => (Straight A B x i j).re) = fs.map fun x => (A i j).re * x + (B i j).re := by
    apply List.map_congr_left; intro x _; simp [Straight, mul_comm]
  have e2 : (fs.map fun x : ℝ => (Straight A B x i j).im) = fs.map fun x => (A i j).im * x + (B i j).im := by
    apply List.map_congr_left; intro x _; simp [Straight, mul_comm]
  rw [e1, e2, haff, haff]
  apply Complex.ext <;> simp [Straight, mul_comm]

theorem rowPhase_small {S : RfObject.Mat N} {i : Fin N} (h : ∀ j, |(S i j).arg| < Real.pi / 2) (j : Fin N) : rowPhase S i j = (S i j).arg := by
  unfold rowPhase
  rw [unwrap_unique (q := List.ofFn fun j => (S i j).arg)]
  · simp
  · rw [List.forall₂_same]; exact fun x _ => ⟨0, by simp⟩
  · rfl
  · rw [List.isChain_iff_getElem]
    intro k hk
    simp only [List.length_ofFn] at hk
    simp only [List.getElem_ofFn]
    have a := abs_lt.1 (h ⟨k, by omega⟩)
    have b := abs_lt.1 (h ⟨k + 1, hk⟩)
    rw [abs_lt]
    constructor <;> linarith [a.1, a.2, b.1, b.2]

theorem arg_of_small {r t : ℝ} (hr : 0 < r) (ht : |t| < Real.pi / 2) : ((r : ℂ) * Complex.exp (Complex.I * t)).arg = t := by
  have hpi := Real.pi_pos
  rw [abs_lt] at ht
  rw [Complex.arg_real_mul _ hr, mul_comm, Complex.arg_exp_mul_I, toIocMod_eq_self]
  constructor <;> linarith [ht.1, ht.2]

/-- **C67**: with a file in format MA, a delay is reproduced at every frequency as long as at all frequencies of the file all phases are less
than a quarter turn. -/
theorem C67_small_phases (hI : I.Sound) {line : Line} {fs : List ℝ} (h2 : 2 ≤ fs.length) (hd : fs.Nodup) {a b t p : Fin N → Fin N → ℝ}
    (hs : ∀ i j, ∀ f ∈ fs, 0 < a i j * f + b i j ∧ |t i j * f + p i j| < Real.pi / 2) (f : ℝ) :
    sNpinter I (sampled line .MA fs (Delayed a b t p)) f = .ok (Delayed a b t p f) := by
  obtain ⟨G, haff, hG⟩ := sampled_eval hI (line := line) (fmt := .MA) h2 hd (R := Delayed a b t p)
  rw [hG]
  unfold evalF
  simp only [List.map_map, Function.comp_def]
  congr 1
  funext i j
  have harg : ∀ x ∈ fs, ∀ j, (Delayed a b t p x i j).arg = t i j * x + p i j := fun x hx j =>
    arg_of_small (hs i j x hx).1 (hs i j x hx).2
  have e1 : (fs.map fun x => ‖Delayed a b t p x i j‖) = fs.map fun x => a i j * x + b i j :=
    List.map_congr_left fun x hx => norm_delayed (hs i j x hx).1.le
  have e2 : (fs.map fun x => rowPhase (Delayed a b t p x) i j) = fs.map fun x => t i j * x + p i j := by
    apply List.map_congr_left
    intro x hx
    rw [rowPhase_small (fun j => by rw [harg x hx j]; exact (hs i j x hx).2), harg x hx j]
  rw [e1, e2, haff, haff]
  rfl

/-! ## the phase is not followed from frequency to frequency -/

/-- a matched reciprocal line with phase `t f + p` -/
noncomputable def delayLine (t p f : ℝ) : RfObject.Mat 2 :=
  Matrix.of fun i j => if i = j then 0 else Complex.exp (Complex.I * ((t * f + p : ℝ) : ℂ))

/-- **C67 is violated**: a delay line sampled at two frequencies between which its phase turns by less than half a turn, but passes the
cut of the principal value (at which `numpy.angle` jumps), is answered with the opposite sign half way: the phase is unwrapped along the
row of the matrix and not along the frequencies.  (An rfObject with the same data gives the right answer, C66_delay.) -/
theorem C67_wrong_between (hI : I.Sound) {line : Line} {f0 f1 t p : ℝ} (hf : f0 ≠ f1) (ht : |t * (f1 - f0)| < Real.pi)
    (hcut : (delayLine t p f1 1 0).arg - (delayLine t p f0 1 0).arg ≠ t * (f1 - f0)) :
    ∃ S, sNpinter I (sampled line .MA [f0, f1] (delayLine t p)) ((f0 + f1) / 2) = .ok S ∧ S 1 0 = -delayLine t p ((f0 + f1) / 2) 1 0 := by
  obtain ⟨G, haff, hG⟩ := sampled_eval hI (line := line) (fmt := .MA) (fs := [f0, f1]) (by simp) (by simpa using hf) (R := delayLine t p)
  refine ⟨_, hG _, ?_⟩
  show (G ([f0, f1].map (delayLine t p) |>.map fun S => ‖S 1 0‖) ((f0 + f1) / 2) : ℂ) * Complex.exp (Complex.I *
    G ([f0, f1].map (delayLine t p) |>.map fun S => rowPhase S 1 0) ((f0 + f1) / 2)) = _
  have hd10 : ∀ f, delayLine t p f 1 0 = Complex.exp (Complex.I * ((t * f + p : ℝ) : ℂ)) := fun f => by simp [delayLine]
  have hnorm : ∀ f, ‖delayLine t p f 1 0‖ = 1 := fun f => by rw [hd10, mul_comm]; exact Complex.norm_exp_ofReal_mul_I _
  have hrow : ∀ f, rowPhase (delayLine t p f) 1 0 = (delayLine t p f 1 0).arg := fun f => by
    unfold rowPhase; simp [List.ofFn_succ, unwrap]
  have htwo : ∀ y0 y1 : ℝ, G [y0, y1] ((f0 + f1) / 2) = (y0 + y1) / 2 := by
    intro y0 y1
    have h := haff ((y1 - y0) / (f1 - f0)) (y0 - (y1 - y0) / (f1 - f0) * f0) ((f0 + f1) / 2)
    have hne : f1 - f0 ≠ 0 := sub_ne_zero.2 hf.symm
    have e0 : (y1 - y0) / (f1 - f0) * f0 + (y0 - (y1 - y0) / (f1 - f0) * f0) = y0 := by ring
    have e1 : (y1 - y0) / (f1 - f0) * f1 + (y0 - (y1 - y0) / (f1 - f0) * f0) = y1 := by field_simp; ring
    simp only [List.map_cons, List.map_nil, e0, e1] at h
    rw [h]
    field_simp
    ring
  simp only [List.map_cons, List.map_nil, hnorm, hrow, htwo]
  have harg : ∀ f, ∃ m : ℤ, (delayLine t p f 1 0).arg = t * f + p + 2 * Real.pi * m := fun f => by
    have := arg_dir (r := 1) (t := t * f + p) one_pos
    rw [hd10]
    simpa [SameDirection] using this
  obtain ⟨m0, h0⟩ := harg f0
  obtain ⟨m1, h1⟩ := harg f1
  have hpi := Real.pi_pos
  have b0 := Complex.neg_pi_lt_arg (delayLine t p f0 1 0)
  have b0' := Complex.arg_le_pi (delayLine t p f0 1 0)
  have b1 := Complex.neg_pi_lt_arg (delayLine t p f1 1 0)
  have b1' := Complex.arg_le_pi (delayLine t p f1 1 0)
  have hm : m1 - m0 = 1 ∨ m1 - m0 = -1 := by
    rw [abs_lt] at ht
    have hne : m1 - m0 ≠ 0 := by
      intro e
      apply hcut
      have : m1 = m0 := by omega
      rw [h0, h1, this]; ring
    have e : 2 * Real.pi * ((m1 - m0 : ℤ) : ℝ) = ((delayLine t p f1 1 0).arg - (delayLine t p f0 1 0).arg) - t * (f1 - f0) := by
      rw [h0, h1]; push_cast; ring
    have u1 : ((m1 - m0 : ℤ) : ℝ) < 2 := by nlinarith [ht.1, ht.2]
    have u2 : (-2 : ℝ) < ((m1 - m0 : ℤ) : ℝ) := by nlinarith [ht.1, ht.2]
    have u1 : m1 - m0 < 2 := by exact_mod_cast u1
    have u2 : -2 < m1 - m0 := by exact_mod_cast u2
    omega
  rw [h0, h1, hd10]
  have key : ∃ k : ℤ, (t * f0 + p + 2 * Real.pi * m0 + (t * f1 + p + 2 * Real.pi * m1)) / 2 = (t * ((f0 + f1) / 2) + p) + Real.pi + 2 * Real.pi * k := by
    rcases hm with h | h
    · refine ⟨m0, ?_⟩
      have : (m1 : ℝ) = m0 + 1 := by exact_mod_cast (by omega : m1 = m0 + 1)
      rw [this]; ring
    · refine ⟨m0 - 1, ?_⟩
      have : (m1 : ℝ) = m0 - 1 := by exact_mod_cast (by omega : m1 = m0 - 1)
      rw [this]; push_cast; ring
  obtain ⟨k, hk⟩ := key
  rw [exp_sameDirection ⟨k, hk⟩, Complex.ofReal_add (t * ((f0 + f1) / 2) + p), mul_add, Complex.exp_add, mul_comm Complex.I (Real.pi : ℂ), Complex.exp_pi_mul_I]
  simp

/-- the hypotheses of `C67_wrong_between` are met: a phase from 3/4 to 5/4 half turns -/
theorem C67_wrong_between_witness : |(Real.pi / 2) * ((2 : ℝ) - 1)| < Real.pi ∧
    (delayLine (Real.pi / 2) (Real.pi / 4) 2 1 0).arg - (delayLine (Real.pi / 2) (Real.pi / 4) 1 1 0).arg ≠ (Real.pi / 2) * (2 - 1) := by
  have hpi := Real.pi_pos
  refine ⟨by rw [abs_lt]; constructor <;> linarith, ?_⟩
  have h1 : (delayLine (Real.pi / 2) (Real.pi / 4) 1 1 0).arg = 3 * Real.pi / 4 := by
    have : delayLine (Real.pi / 2) (Real.pi / 4) 1 1 0 = Complex.exp (((3 * Real.pi / 4 : ℝ) : ℂ) * Complex.I) := by
      simp only [delayLine, Matrix.of_apply, if_neg (show (1 : Fin 2) ≠ 0 by decide)]
      congr 1; push_cast; ring
    rw [this, Complex.arg_exp_mul_I, toIocMod_eq_self]
    constructor <;> linarith
  have h2 := Complex.arg_le_pi (delayLine (Real.pi / 2) (Real.pi / 4) 2 1 0)
  intro h
  rw [h1] at h
  linarith

/-! ## set -/

/-- **C67**: the length of the section makes no difference to the scattering matrix from a file. -/
theorem C67_set_length {o : FLine N} (hc : o.line.constant = true) (L f : ℝ) (Zb : Option ℝ) :
    (getSF I o f Zb [.L L]).2 = (getSF I o f Zb []).2 := by
  simp [getSF, set, setLoop, hc, get1SF, sNpinter]

theorem same_network {z z' : ℂ} (hz : z ≠ 0) {S : RfObject.Mat N} (h : ∀ V C, ScatterV z S V C → ScatterV z' S V C) :
    z = z' ∨ S * S = 1 := by
  by_cases e : z = z'
  · exact .inl e
  right
  apply Matrix.ext_of_mulVec_single
  intro i
  have hw := h _ _ (scatterV_wave hz S (Pi.single i (1 : ℂ) : Fin N → ℂ))
  generalize (Pi.single i (1 : ℂ) : Fin N → ℂ) = a at hw ⊢
  rw [← Matrix.mulVec_mulVec, Matrix.one_mulVec]
  unfold ScatterV at hw
  have hr : (fun i => ((a + S.mulVec a) i + z' * ((a i - S.mulVec a i) / z)) / 2) =
      ((1 + z' / z) / 2) • a + ((1 - z' / z) / 2) • S.mulVec a := by
    funext j; simp only [Pi.add_apply, Pi.smul_apply, smul_eq_mul]; ring
  rw [hr, Matrix.mulVec_add, Matrix.mulVec_smul, Matrix.mulVec_smul] at hw
  funext j
  have hj := congrFun hw j
  simp only [Pi.add_apply, Pi.smul_apply, smul_eq_mul] at hj
  have hk : (1 - z' / z) / 2 ≠ 0 := by
    have : z' / z ≠ 1 := by intro h; rw [div_eq_one_iff_eq hz] at h; exact e h.symm
    exact div_ne_zero (sub_ne_zero.2 this.symm) two_ne_zero
  apply mul_left_cancel₀ hk
  linear_combination -hj

/-- **C67 is violated**: `set(Zbase=Z')` does not keep the network.  Asked on its own reference the object gives the same matrix as before,
now understood on `Z'`; this is another network, unless the matrix squares to one. -/
theorem C67_set_reference {o : FLine N} (hc : o.line.constant = true) (hz : o.line.Zbase ≠ 0) {Z' : ℝ} (hne : Z' ≠ o.line.Zbase) {f : ℝ}
    {S : RfObject.Mat N} (h : (getSF I o f none []).2 = .ok S) :
    (getSF I o f none [.Zbase Z']).1.line.Zbase = Z' ∧ (getSF I o f none [.Zbase Z']).2 = .ok S ∧
      (S * S ≠ 1 → ∃ V C, ScatterV (o.line.Zbase : ℂ) S V C ∧ ¬ ScatterV (Z' : ℂ) S V C) := by
  refine ⟨by simp [getSF, set, setLoop, hc], ?_, fun hS => ?_⟩
  · simp only [getSF, set, setLoop, get1SF, sNpinter, orOwn, onRef, hc, ne_eq, not_true_eq_false, false_and, if_false] at h ⊢
    simpa using h
  · by_contra hcon
    push Not at hcon
    rcases same_network (by exact_mod_cast hz) hcon with e | e
    · exact hne (by exact_mod_cast e.symm)
    · exact hS e

/-! ## voltages along the section -/

/-- the voltages and currents `VISWs` returns for a new object: those of a line with the parameters of the section that starts with the
voltage and current the file gives at the first port; what the file says about the other port is not used -/
theorem viswsF_ok {ode : Ode} {o o' : FLine N} (hnew : o.line.solved = []) (hs : Solves ode o.line) {f : ℝ} {E : List (String × ℂ)}
    {Zb : Option ℝ} {xs : List ℝ} {V C : List ℂ} (h : viswsF ode I o f E Zb = (o', .ok (xs, V, C))) :
    ∃ (a : Fin N → ℂ) (S : RfObject.Mat N) (h0 : 0 < N), mapE (dictGet E) o.line.ports = .ok (List.ofFn a) ∧
      (getSF I o f (some (orOwn o.line.Zbase Zb)) []).2 = .ok S ∧ xs.head? = some 0 ∧ xs.getLast? = some o.line.L ∧
      ∃ Vf If, Telegraph (o.line.z (2 * Real.pi * f)) (o.line.y (2 * Real.pi * f)) Vf If ∧ V = xs.map Vf ∧ C = xs.map If ∧
        Vf 0 = a ⟨0, h0⟩ + S.mulVec a ⟨0, h0⟩ := by
  unfold viswsF at h
  cases hA : mapE (dictGet E) o.line.ports with
  | error e => rw [hA] at h; simp at h
  | ok As =>
    rw [hA] at h
    have hn : findSol o.line.solved f = none := by rw [hnew]; rfl
    simp only [hn, Option.bind_none] at h
    cases hg : getSF I o f (some (orOwn o.line.Zbase Zb)) [] with
    | mk o1 r1 =>
      rw [hg] at h
      have hl1 : o1.line = { o.line with solved := [] } := by
        have := congrArg Prod.fst hg
        simp [getSF, set, setLoop] at this
        rw [← this]
      cases r1 with
      | error e => simp at h
      | ok S =>
        simp only at h
        split at h
        · rename_i hlen
          split at h
          · rename_i h0
            split at h
            · simp at h
            · cases hv : solveVI ode o1.line f ((fun i : Fin N => As[i.1]'(by omega)) ⟨0, h0⟩ + S.mulVec (fun i : Fin N => As[i.1]'(by omega)) ⟨0, h0⟩)
                  (-((fun i : Fin N => As[i.1]'(by omega)) ⟨0, h0⟩ - S.mulVec (fun i : Fin N => As[i.1]'(by omega)) ⟨0, h0⟩) / ((orOwn o.line.Zbase Zb : ℝ) : ℂ)) with
              | mk l2 r2 =>
                rw [hv] at h
                cases r2 with
                | error e => simp at h
                | ok r =>
                  simp only [Prod.mk.injEq, Except.ok.injEq] at h
                  obtain ⟨-, rfl⟩ := h
                  obtain ⟨-, -, h3⟩ := solveVI_ok (good_nil (by rw [hl1])) hv
                  obtain ⟨k1, k2, -, Vf, If, k3, k4, k5, k6, -⟩ := h3 _ _ _ rfl (by rw [hl1]; exact hs)
                  rw [hl1] at k2 k3
                  refine ⟨fun i => As[i.1]'(by omega), S, h0, ?_, rfl, k1, k2, Vf, If, k3, k4, k5, k6⟩
                  congr 1
                  apply List.ext_getElem (by simp [hlen])
                  intro i h1 h2
                  simp
          · simp at h
        · simp at h

/-- **C67 is violated** for voltages: for a section of length 0, the default, `VISWs` says that the voltage at the second port is that at
the first, whatever the file says. -/
theorem C67_voltages {ode : Ode} {o o' : FLine N} (hnew : o.line.solved = []) (hs : Solves ode o.line) (hL : o.line.L = 0) {f : ℝ}
    {E : List (String × ℂ)} {Zb : Option ℝ} {xs : List ℝ} {V C : List ℂ} (h : viswsF ode I o f E Zb = (o', .ok (xs, V, C))) :
    V.getLast? = V.head? := by
  obtain ⟨a, S, h0, -, -, k1, k2, Vf, If, -, rfl, -, -⟩ := viswsF_ok hnew hs h
  rw [List.getLast?_map, List.head?_map, k1, k2, hL]

/-! ## concrete cases -/

namespace Ex

/-- a section of length 0 without parameters -/
noncomputable def line0 : Line := ⟨["1", "2"], 0, 50, .int 72, true, fun _ _ => 0, fun _ _ => 0, (0, 0), []⟩

/-- matched ports without transmission, at the frequencies 1 and 2 -/
noncomputable def dead : FLine 2 := sampled line0 .RI [1, 2] (Straight 0 0)

theorem line0_solves (ode : Ode) : Solves ode line0 := by
  unfold Solves; rw [if_pos (show line0.constant = true from rfl)]; exact fun _ _ => ⟨rfl, rfl⟩

/-- excited at the first port only, the second port carries no voltage; `VISWs` says it carries that of the first -/
theorem C67_voltages_witness (ode : Ode) (hI : I.Sound) : ∃ o' xs V C, viswsF ode I dead 1 [("1", 1), ("2", 0)] none = (o', .ok (xs, V, C)) ∧
    (getSF I dead 1 none []).2 = .ok 0 ∧ V.getLast? = some 1 := by
  have hS : ∀ Zb, Zb = none ∨ Zb = some 50 → (getSF I dead 1 Zb []).2 = .ok 0 := by
    intro Zb hZ
    rw [getSF_plain]
    unfold get1SF
    have : sNpinter I { dead with line := { dead.line with solved := [] } } 1 = .ok (Straight 0 0 1) :=
      C67_RI hI (line := { line0 with solved := [] }) (fs := [1, 2]) (by simp) (by norm_num) (0 : RfObject.Mat 2) 0 1
    rw [this]
    have e : orOwn (50 : ℝ) Zb = 50 := by rcases hZ with rfl | rfl <;> simp [orOwn]
    show onRef 50 (orOwn 50 Zb) _ = _
    rw [e]
    unfold onRef
    rw [if_pos rfl]
    simp [Straight]
  obtain ⟨V1, I1, V2, I2, hF, hfr⟩ := fresh_uniform (line0_solves ode) rfl (show GridOK line0 from by simp [GridOK, line0]) 1 (.inl rfl)
  obtain ⟨s, hs⟩ := hfr (sFromVI_total hF (by simp [line0]) (by simp [line0]) (fun _ => by simp [line0]) (fun _ => by simp [line0]))
  have hA : mapE (dictGet [("1", (1 : ℂ)), ("2", 0)]) dead.line.ports = .ok [1, 0] := by
    simp [mapE, dead, sampled, line0, dictGet, List.lookup]
  have hn : findSol dead.line.solved 1 = none := rfl
  have hz : orOwn dead.line.Zbase none = 50 := rfl
  have hg : getSF I dead 1 (some 50) [] = (dead, .ok 0) := Prod.ext (by simp [getSF, set, setLoop, dead, sampled, line0]) (hS _ (.inr rfl))
  have hvi : ∀ V0 I0, ∃ l r, solveVI ode dead.line 1 V0 I0 = (l, .ok r) := by
    intro V0 I0
    unfold solveVI ensure
    rw [hn]
    simp only
    rw [show fresh ode dead.line 1 = .ok s from hs]
    exact ⟨_, _, rfl⟩
  have hok : ∃ o' r, viswsF ode I dead 1 [("1", 1), ("2", 0)] none = (o', .ok r) := by
    unfold viswsF
    rw [hA]
    simp only [hn, Option.bind_none, hz, hg]
    rw [dif_pos (by rfl), dif_pos (by norm_num), if_neg (by norm_num)]
    obtain ⟨l, r, e⟩ := hvi ((fun i : Fin 2 => ([1, 0] : List ℂ)[i.1]'(by simp; omega)) ⟨0, by norm_num⟩ +
        (0 : RfObject.Mat 2).mulVec (fun i : Fin 2 => ([1, 0] : List ℂ)[i.1]'(by simp; omega)) ⟨0, by norm_num⟩)
      (-((fun i : Fin 2 => ([1, 0] : List ℂ)[i.1]'(by simp; omega)) ⟨0, by norm_num⟩ -
        (0 : RfObject.Mat 2).mulVec (fun i : Fin 2 => ([1, 0] : List ℂ)[i.1]'(by simp; omega)) ⟨0, by norm_num⟩) / ((50 : ℝ) : ℂ))
    rw [e]
    exact ⟨_, _, rfl⟩
  obtain ⟨o', ⟨xs, V, C⟩, hok⟩ := hok
  refine ⟨o', xs, V, C, hok, hS _ (.inl rfl), ?_⟩
  obtain ⟨a, S, h0, k1, k2, k3, k4, Vf, If, -, rfl, -, k5⟩ := viswsF_ok (o := dead) rfl (line0_solves ode) hok
  rw [hz, hS _ (.inr rfl)] at k2
  have k2 := Except.ok.inj k2
  rw [hA] at k1
  have k1 := Except.ok.inj k1
  have ha : a ⟨0, h0⟩ = 1 := by
    have := congrArg (fun l => l[0]?) k1
    simpa using this.symm
  rw [← k2, ha, Matrix.zero_mulVec] at k5
  rw [List.getLast?_map, k4]
  show some (Vf 0) = _
  rw [k5]; simp

end Ex

end PyRFtk.TRL
