import Verif.Parts
import Verif.PartsNest
import Verif.Loaded
import Mathlib.LinearAlgebra.Matrix.Notation
import Mathlib.LinearAlgebra.FiniteDimensional.Basic
import Mathlib.LinearAlgebra.FreeModule.Finite.Matrix

/-!
# C88: chain (ABCD) matrices and input impedances

The model is `CircuitModel` with the block objects of `Parts` (rfTRL.py, rfRLC.py, rfCircuit.py:connect 767-923, terminate 870-985, getS 1249-1345).
-/

namespace PyRFtk.Circuit

/-! ## specification -/

/-- the first and the second port of a block -/
def Blk.one {O : Type*} (b : Blk O) : Node := .blk b.name (b.ports.getD 0 "")
def Blk.two {O : Type*} (b : Blk O) : Node := .blk b.name (b.ports.getD 1 "")

/-- the second port of each block and the first port of the next are connected to each other and to nothing else -/
def InRow {O : Type*} (juncs : List Junction) : List (Blk O) → Prop
  | a :: b :: bs => (∃ j ∈ juncs, j.new = none ∧ j.members.Perm [a.two, b.one]) ∧ InRow juncs (b :: bs)
  | _ => True

/-- `M` is the chain matrix of a two-port: voltage at and current into the first port, in terms of the voltage at and the current out of the second -/
def ChainMatrix (law : (v i : ℕ → ℂ) → Prop) (M : Matrix (Fin 2) (Fin 2) ℂ) : Prop := ∀ v i, law v i → ![v 0, i 0] = M.mulVec ![v 1, -i 1]

/-- impedance of the series arm of an rfRLC -/
noncomputable def zSeries (e : RLC.Elem → RLC.Ext) (w : ℝ) : ℂ :=
  (match e .Rs with | .fin R => (R : ℂ) | .inf => 0) + (match e .Ls with | .fin L => Complex.I * w * L | .inf => 0) +
    (match e .Cs with | .fin C => 1 / (Complex.I * w * C) | .inf => 0)

/-- admittance of the shunt arm of an rfRLC -/
noncomputable def yShunt (e : RLC.Elem → RLC.Ext) (w : ℝ) : ℂ :=
  (match e .Rp with | .fin R => 1 / (R : ℂ) | .inf => 0) + (match e .Lp with | .fin L => 1 / (Complex.I * w * L) | .inf => 0) +
    (match e .Cp with | .fin C => Complex.I * w * C | .inf => 0)

/-- the series arm conducts and the shunt arm is no short circuit -/
structure Ordinary (e : RLC.Elem → RLC.Ext) : Prop where
  rs : e .Rs ≠ .inf
  ls : e .Ls ≠ .inf
  cs : e .Cs ≠ .fin 0
  rp : e .Rp ≠ .fin 0
  lp : e .Lp ≠ .fin 0
  cp : e .Cp ≠ .inf

/-- the chain matrix of a uniform line with propagation constant `γ`, characteristic impedance `Zc`, length `L` -/
noncomputable def lineChain (γ Zc : ℂ) (L : ℝ) : Matrix (Fin 2) (Fin 2) ℂ :=
  !![Complex.cosh (γ * L), Zc * Complex.sinh (γ * L); Complex.sinh (γ * L) / Zc, Complex.cosh (γ * L)]

/-! ## the parts -/

/-- **C88 (line).** A uniform line has the textbook chain matrix. -/
theorem C88_line {l : TRL.Line} {f : ℝ} {γ : ℂ} (hu : ∀ w x, l.z w x = l.z w 0 ∧ l.y w x = l.y w 0) (hγ : γ ^ 2 = l.z (2 * Real.pi * f) 0 * l.y (2 * Real.pi * f) 0)
    (h0 : γ ≠ 0) : ChainMatrix ((Part.line l).Law f) (lineChain γ (l.z (2 * Real.pi * f) 0 / γ) l.L) := by
  intro v i h
  have hF := TRL.fund_exp hγ h0
  have hz : l.z (2 * Real.pi * f) 0 ≠ 0 := by intro e; rw [e, zero_mul] at hγ; exact h0 (pow_eq_zero_iff (by norm_num) |>.1 hγ)
  have h : TRL.LineLaw (l.z (2 * Real.pi * f)) (l.y (2 * Real.pi * f)) l.L (fun k : Fin 2 => v k) (fun k : Fin 2 => i k) := h
  rw [show l.z (2 * Real.pi * f) = fun _ => l.z (2 * Real.pi * f) 0 from funext fun x => (hu _ x).1,
    show l.y (2 * Real.pi * f) = fun _ => l.y (2 * Real.pi * f) 0 from funext fun x => (hu _ x).2,
    TRL.lineLaw_iff hF.t1 hF.t2 hF.a hF.b hF.c hF.d] at h
  obtain ⟨e1, e2⟩ := h
  have c : (1 : ℂ) / 2 * (Complex.exp (γ * l.L) + 1 / Complex.exp (γ * l.L)) = Complex.cosh (γ * l.L) := by
    rw [Complex.cosh, Complex.exp_neg]; ring
  have d : (1 : ℂ) / 2 * (Complex.exp (γ * l.L) - 1 / Complex.exp (γ * l.L)) = Complex.sinh (γ * l.L) := by
    rw [Complex.sinh, Complex.exp_neg]; ring
  simp only [c, d, Fin.val_zero, Fin.val_one] at e1 e2
  have hcs := Complex.cosh_sq_sub_sinh_sq (γ * l.L)
  have hZ : l.z (2 * Real.pi * f) 0 / γ ≠ 0 := div_ne_zero hz h0
  unfold lineChain
  generalize l.z (2 * Real.pi * f) 0 / γ = Zc at *
  generalize Complex.cosh (γ * l.L) = C at *
  generalize Complex.sinh (γ * l.L) = D at *
  have k1 : Zc ^ 2 * (D / Zc) = Zc * D := by field_simp
  have k2 : D / Zc * Zc = D := by field_simp
  have k : ∀ x y : ℂ, (!![C, Zc * D; D / Zc, C] : Matrix (Fin 2) (Fin 2) ℂ).mulVec ![x, y] = ![C * x + Zc * D * y, D / Zc * x + C * y] := by
    intro x y; funext q; fin_cases q <;> simp [Matrix.mulVec, dotProduct, Fin.sum_univ_two]
  rw [k]
  have e1' : v 1 = C * v 0 - Zc * D * i 0 := by rw [e1, k1]; ring
  funext q
  fin_cases q
  · show v 0 = C * v 1 + Zc * D * (-i 1)
    rw [e1', e2]
    linear_combination (-v 0) * hcs + D * v 0 * k2
  · show i 0 = D / Zc * v 1 + C * (-i 1)
    rw [e1', e2]
    linear_combination (-i 0) * hcs + D * i 0 * k2

/-- **C88 (lumped element).** An rfRLC has the chain matrix of its series arm followed by its shunt arm. -/
theorem C88_rlc {s : RLC.St} {f : ℝ} (hf : f ≠ 0) (ho : Ordinary s.elem) :
    ChainMatrix ((Part.rlc s).Law f) !![1 + zSeries s.elem (RLC.omega f) * yShunt s.elem (RLC.omega f), zSeries s.elem (RLC.omega f); yShunt s.elem (RLC.omega f), 1] := by
  intro v i h
  obtain ⟨vC, vL, vR, iC, iL, iR, h1, h2, h3, h4, h5, h6, h7, h8⟩ := (show RLC.Law s.elem (RLC.omega f) (fun k : Fin 2 => v k) (fun k : Fin 2 => i k) from h)
  simp only [Fin.val_zero, Fin.val_one] at h1 h2 h3 h4 h5 h6 h7 h8
  have hw : (RLC.omega f : ℂ) ≠ 0 := by
    unfold RLC.omega
    exact_mod_cast mul_ne_zero (mul_ne_zero two_ne_zero Real.pi_ne_zero) hf
  have hI := Complex.I_ne_zero
  have a1 : vC = (match s.elem .Cs with | .fin C => 1 / (Complex.I * RLC.omega f * C) | .inf => 0) * i 0 := by
    have := ho.cs
    cases hc : s.elem .Cs with
    | inf => rw [hc] at h1; rw [show vC = 0 from h1]; simp
    | fin C =>
      rw [hc] at h1 this
      have hC : (C : ℂ) ≠ 0 := by
        intro e; apply this; congr 1; exact_mod_cast e
      have h1 : i 0 = Complex.I * RLC.omega f * C * vC := h1
      rw [h1]; field_simp
  have a2 : vL = (match s.elem .Ls with | .fin L => Complex.I * RLC.omega f * L | .inf => 0) * i 0 := by
    have := ho.ls
    cases hc : s.elem .Ls with
    | inf => exact absurd hc this
    | fin L => rw [hc] at h2; exact h2
  have a3 : vR = (match s.elem .Rs with | .fin R => (R : ℂ) | .inf => 0) * i 0 := by
    have := ho.rs
    cases hc : s.elem .Rs with
    | inf => exact absurd hc this
    | fin L => rw [hc] at h3; exact h3
  have a4 : iC = (match s.elem .Cp with | .fin C => Complex.I * RLC.omega f * C | .inf => 0) * v 1 := by
    have := ho.cp
    cases hc : s.elem .Cp with
    | inf => exact absurd hc this
    | fin L => rw [hc] at h5; exact h5
  have a5 : iL = (match s.elem .Lp with | .fin L => 1 / (Complex.I * RLC.omega f * L) | .inf => 0) * v 1 := by
    have := ho.lp
    cases hc : s.elem .Lp with
    | inf => rw [hc] at h6; rw [show iL = 0 from h6]; simp
    | fin C =>
      rw [hc] at h6 this
      have hC : (C : ℂ) ≠ 0 := by
        intro e; apply this; congr 1; exact_mod_cast e
      have h1 : v 1 = Complex.I * RLC.omega f * C * iL := h6
      rw [h1]; field_simp
  have a6 : iR = (match s.elem .Rp with | .fin R => 1 / (R : ℂ) | .inf => 0) * v 1 := by
    have := ho.rp
    cases hc : s.elem .Rp with
    | inf => rw [hc] at h7; rw [show iR = 0 from h7]; simp
    | fin C =>
      rw [hc] at h7 this
      have hC : (C : ℂ) ≠ 0 := by
        intro e; apply this; congr 1; exact_mod_cast e
      have h1 : v 1 = C * iR := h7
      rw [h1]; field_simp
  have hz : v 0 - v 1 = zSeries s.elem (RLC.omega f) * i 0 := by
    rw [h4, a1, a2, a3]; unfold zSeries; ring
  have hy : i 0 + i 1 = yShunt s.elem (RLC.omega f) * v 1 := by
    rw [h8, a4, a5, a6]; unfold yShunt; ring
  generalize zSeries s.elem (RLC.omega f) = Z at *
  generalize yShunt s.elem (RLC.omega f) = Y at *
  have k : ∀ x y : ℂ, (!![1 + Z * Y, Z; Y, 1] : Matrix (Fin 2) (Fin 2) ℂ).mulVec ![x, y] = ![(1 + Z * Y) * x + Z * y, Y * x + 1 * y] := by
    intro x y; funext q; fin_cases q <;> simp [Matrix.mulVec, dotProduct, Fin.sum_univ_two]
  rw [k]
  funext q
  fin_cases q
  · show v 0 = (1 + Z * Y) * v 1 + Z * (-i 1)
    linear_combination hz + Z * hy
  · show i 0 = Y * v 1 + 1 * (-i 1)
    linear_combination hy

/-! ## circuits -/

section
variable {O Fl : Type*} [DecidableEq Fl] {ops : ObjOps ℂ O ℝ Fl} {beh : O → ℝ → ℂ → Fl → Except Err (SMat ℂ)} {law : O → (v i : ℕ → ℂ) → Prop}

theorem row_chain {net : Net ℂ} {zb : ℂ} {blocks : List (Blk O)} {V I : Node → ℂ} (hphys : PhysicsL law net zb blocks V I) {M : Blk O → Matrix (Fin 2) (Fin 2) ℂ} :
    ∀ (bs : List (Blk O)) (a : Blk O), (∀ b ∈ a :: bs, b ∈ blocks ∧ ChainMatrix (law b.obj) (M b)) → InRow net.juncs (a :: bs) →
      ![V a.one, I a.one] = (((a :: bs).map M).prod).mulVec ![V ((a :: bs).getLast (by simp)).two, -I ((a :: bs).getLast (by simp)).two] := by
  intro bs
  induction bs with
  | nil =>
    intro a hm _
    have := (hm a (by simp)).2 _ _ (hphys.parts a (hm a (by simp)).1)
    simpa [Blk.one, Blk.two] using this
  | cons b bs ih =>
    intro a hm hj
    have h1 : ![V a.one, I a.one] = (M a).mulVec ![V a.two, -I a.two] := (hm a (by simp)).2 _ _ (hphys.parts a (hm a (by simp)).1)
    have h2 := ih b (fun c hc => hm c (List.mem_cons_of_mem _ hc)) hj.2
    obtain ⟨j, hjm, hnew, hperm⟩ := hj.1
    obtain ⟨hk1, hk2⟩ := hphys.juncs j hjm
    rw [hnew] at hk1 hk2
    have hv : V a.two = V b.one := hk1 _ (by simp [hperm.mem_iff]) _ (by simp [hperm.mem_iff])
    rw [(hperm.map I).sum_eq] at hk2
    have hi : -I a.two = I b.one := by
      simp at hk2; linear_combination -hk2
    rw [List.map_cons, List.prod_cons, ← Matrix.mulVec_mulVec, List.getLast_cons (by simp), ← h2, ← hv, ← hi]
    exact h1

variable {nan : ℂ} {r z f : ℝ} {names : List Node} {net : Net ℂ} {bh : Behave ℂ ℝ Fl} {s s' : St ℂ O ℝ Fl} {ph : Phase} {fl : Fl} {S : SMat ℂ}

theorem physics_ports (hlaw : Lawful ops beh) (hr : r ≠ 0) (hz : z ≠ 0) (h : Built ops beh nan (r : ℂ) names net bh s ph) (hph : ph ≠ .reloaded)
    (hp : ∀ b ∈ s.blocks, Obeys ops beh law f r fl b.obj) (hs : getS ops s f (some (z : ℂ)) fl = (s', .ok S)) {po : List Node} (hpo : s'.ports = po)
    (v i : Fin po.length → ℂ) : ScatterV (z : ℂ) (Matrix.of fun a b : Fin po.length => S.at a b) v i ↔
      ∃ V I : Node → ℂ, PhysicsL law net r s.blocks V I ∧ ∀ k : Fin po.length, V po[k] = v k ∧ I po[k] = i k := by
  subst hpo
  exact physics_of_laws hlaw hr hz h hph hp hs v i

/-- **C88 (cascade).** A circuit whose two ports are the ends of a row of two-ports, each connected to the next: the voltages and currents at its ports are related by
the matrix it returns, on the reference asked for, exactly if they are related by the product of the chain matrices, in the order of the row. -/
theorem C88_cascade (hlaw : Lawful ops beh) (hr : r ≠ 0) (hz : z ≠ 0) (h : Built ops beh nan (r : ℂ) names net bh s ph) (hph : ph ≠ .reloaded)
    (hp : ∀ b ∈ s.blocks, Obeys ops beh law f r fl b.obj) (hs : getS ops s f (some (z : ℂ)) fl = (s', .ok S)) {M : Blk O → Matrix (Fin 2) (Fin 2) ℂ}
    {a : Blk O} {bs : List (Blk O)} (hm : ∀ b ∈ a :: bs, b ∈ s.blocks ∧ ChainMatrix (law b.obj) (M b)) (hj : InRow net.juncs (a :: bs))
    (hports : s'.ports = [a.one, ((a :: bs).getLast (by simp)).two]) (v i : Fin 2 → ℂ) :
    ScatterV (z : ℂ) (Matrix.of fun a b : Fin 2 => S.at a b) v i ↔ ![v 0, i 0] = (((a :: bs).map M).prod).mulVec ![v 1, -i 1] := by
  have hzc : (z : ℂ) ≠ 0 := by exact_mod_cast hz
  have key := physics_ports hlaw hr hz h hph hp hs hports
  have fwd : ∀ v i : Fin 2 → ℂ, ScatterV (z : ℂ) (Matrix.of fun a b : Fin 2 => S.at a b) v i → ![v 0, i 0] = (((a :: bs).map M).prod).mulVec ![v 1, -i 1] := by
    intro v i hv
    obtain ⟨V, I, hphys, hvi⟩ := (key v i).1 hv
    have e0 := hvi 0
    have e1 := hvi 1
    have := row_chain hphys bs a hm hj
    simp at e0 e1
    rw [e0.1, e0.2, e1.1, e1.2] at this
    exact this
  refine ⟨fwd v i, fun hv => ?_⟩
  clear key
  generalize (Matrix.of fun a b : Fin 2 => S.at a b) = T at *
  generalize ((a :: bs).map M).prod = P at *
  -- the states of the circuit, from the waves sent in
  have st : ∀ x : Fin 2 → ℂ, ScatterV (z : ℂ) T (x + T.mulVec x) (fun k => (x k - T.mulVec x k) / z) := by
    intro x
    unfold ScatterV
    have e : (fun k => ((x + T.mulVec x) k + (z : ℂ) * ((x k - T.mulVec x k) / z)) / 2) = x := by
      funext k; simp only [Pi.add_apply]; field_simp; ring
    rw [e]
    funext k; simp only [Pi.add_apply]; field_simp; ring
  let g : (Fin 2 → ℂ) →ₗ[ℂ] (Fin 2 → ℂ) :=
    { toFun := fun x => ![(x + T.mulVec x) 1, (x 1 - T.mulVec x 1) / z]
      map_add' := by
        intro x y; funext k; fin_cases k <;> simp [Matrix.mulVec_add] <;> ring
      map_smul' := by
        intro c x; funext k; fin_cases k <;> simp [Matrix.mulVec_smul] <;> ring }
  have hg : Function.Injective g := by
    rw [← LinearMap.ker_eq_bot, LinearMap.ker_eq_bot']
    intro x hx
    have g0 : (x + T.mulVec x) 1 = 0 := congrFun hx 0
    have g1 : (x 1 - T.mulVec x 1) / z = 0 := congrFun hx 1
    have e := fwd _ _ (st x)
    rw [g0, g1] at e
    have z0 : P.mulVec ![(0 : ℂ), -0] = 0 := by
      have : (![(0 : ℂ), -0] : Fin 2 → ℂ) = 0 := by funext k; fin_cases k <;> simp
      rw [this, Matrix.mulVec_zero]
    rw [z0] at e
    have f0 : (x + T.mulVec x) 0 = 0 := congrFun e 0
    have f1 : (x 0 - T.mulVec x 0) / z = 0 := congrFun e 1
    simp only [Pi.add_apply] at f0 g0
    rw [div_eq_zero_iff, or_iff_left hzc] at f1 g1
    funext k
    fin_cases k
    · show x 0 = 0
      linear_combination (f0 + f1) / 2
    · show x 1 = 0
      linear_combination (g0 + g1) / 2
  obtain ⟨x, hx⟩ := LinearMap.injective_iff_surjective.1 hg ![v 1, i 1]
  have g0 : (x + T.mulVec x) 1 = v 1 := congrFun hx 0
  have g1 : (x 1 - T.mulVec x 1) / z = i 1 := congrFun hx 1
  have e := fwd _ _ (st x)
  rw [g0, g1, ← hv] at e
  have f0 : (x + T.mulVec x) 0 = v 0 := congrFun e 0
  have f1 : (x 0 - T.mulVec x 0) / z = i 0 := congrFun e 1
  have hv' : x + T.mulVec x = v := by funext k; fin_cases k <;> assumption
  have hi' : (fun k => (x k - T.mulVec x k) / (z : ℂ)) = i := by funext k; fin_cases k <;> assumption
  have := st x
  rwa [hv', hi'] at this

/-- **C88 (input impedance).** A row of two-ports with chain matrix `[[A, B], [C, D]]`, the impedance `ZL` at its end, presents the impedance `(A ZL + B) / (C ZL + D)`:
the reflection `S` returned on the reference `z` satisfies `S ((A ZL + B) + z (C ZL + D)) = (A ZL + B) - z (C ZL + D)`. -/
theorem C88_input (hlaw : Lawful ops beh) (hr : r ≠ 0) (hz : z ≠ 0) (h : Built ops beh nan (r : ℂ) names net bh s ph) (hph : ph ≠ .reloaded)
    (hp : ∀ b ∈ s.blocks, Obeys ops beh law f r fl b.obj) (hs : getS ops s f (some (z : ℂ)) fl = (s', .ok S)) {M : Blk O → Matrix (Fin 2) (Fin 2) ℂ}
    {a : Blk O} {bs : List (Blk O)} (hm : ∀ b ∈ a :: bs, b ∈ s.blocks ∧ ChainMatrix (law b.obj) (M b)) (hj : InRow net.juncs (a :: bs))
    {ZL : ℂ} (hl : (((a :: bs).getLast (by simp)).two, Load.Z ZL) ∈ net.loads) (hports : s'.ports = [a.one]) {A B C D : ℂ} (hM : ((a :: bs).map M).prod = !![A, B; C, D]) :
    S.at 0 0 * ((A * ZL + B) + z * (C * ZL + D)) = (A * ZL + B) - z * (C * ZL + D) ∧
      (A * ZL + B) + z * (C * ZL + D) ≠ 0 := by
  have hzc : (z : ℂ) ≠ 0 := by exact_mod_cast hz
  have key := physics_ports hlaw hr hz h hph hp hs hports
  -- every state: the end current `j`
  have st : ∀ v i : Fin 1 → ℂ, ScatterV (z : ℂ) (Matrix.of fun a b : Fin 1 => S.at a b) v i → ∃ j, v 0 = (A * ZL + B) * j ∧ i 0 = (C * ZL + D) * j := by
    intro v i hv
    obtain ⟨V, I, hphys, hvi⟩ := (key v i).1 hv
    have e0 := hvi 0
    simp at e0
    have hload : V ((a :: bs).getLast (by simp)).two = ZL * (-I ((a :: bs).getLast (by simp)).two) := hphys.loads _ hl
    have hrow := row_chain hphys bs a hm hj
    rw [hM, e0.1, e0.2, hload] at hrow
    generalize -I ((a :: bs).getLast (by simp)).two = j at hrow
    refine ⟨j, ?_, ?_⟩
    · have := congrFun hrow 0
      simp [Matrix.mulVec, dotProduct, Fin.sum_univ_two] at this
      rw [this]; ring
    · have := congrFun hrow 1
      simp [Matrix.mulVec, dotProduct, Fin.sum_univ_two] at this
      rw [this]; ring
  obtain ⟨j, h1, h2⟩ := st (fun _ => 1 + S.at 0 0) (fun _ => (1 - S.at 0 0) / z) (by
    unfold ScatterV
    funext k
    fin_cases k
    simp [Matrix.mulVec, dotProduct]
    field_simp
    ring)
  rw [div_eq_iff hzc] at h2
  have hjne : ((A * ZL + B) + z * (C * ZL + D)) * j = 2 := by linear_combination -h1 - h2
  have hj0 : (A * ZL + B) + z * (C * ZL + D) ≠ 0 := by
    intro e; rw [e, zero_mul] at hjne; norm_num at hjne
  refine ⟨?_, hj0⟩
  refine mul_left_cancel₀ (two_ne_zero (α := ℂ)) ?_
  linear_combination ((A * ZL + B) + z * (C * ZL + D)) * (h1 - h2) + ((A * ZL + B) - z * (C * ZL + D)) * hjne

/-- **C88 (loaded line).** A uniform line with characteristic impedance `Zc`, propagation constant `γ` and length `L`, the impedance `ZL` at its second port, presents at its
first port `Zc (ZL + Zc tanh γL) / (Zc + ZL tanh γL)`, written here without division. -/
theorem C88_loaded_line {ode : TRL.Ode} {npc : Bool} {face : Face} {s s' : St ℂ Part ℝ Fl}
    (hr : r ≠ 0) (hz : z ≠ 0) (h : Built (partOps ode npc face Fl) (partBeh ode npc Fl) nan (r : ℂ) names net bh s ph) (hph : ph ≠ .reloaded)
    (hp : ∀ b ∈ s.blocks, b.obj.Proper ode f) (hs : getS (partOps ode npc face Fl) s f (some (z : ℂ)) fl = (s', .ok S)) {a : Blk Part} (ha : a ∈ s.blocks)
    {l : TRL.Line} (hl : a.obj = .line l) (hu : ∀ w x, l.z w x = l.z w 0 ∧ l.y w x = l.y w 0) {γ Zc ZL : ℂ} (h0 : γ ≠ 0)
    (hγ : γ ^ 2 = l.z (2 * Real.pi * f) 0 * l.y (2 * Real.pi * f) 0) (hZ : Zc = l.z (2 * Real.pi * f) 0 / γ)
    (hload : (a.two, Load.Z ZL) ∈ net.loads) (hports : s'.ports = [a.one]) :
    let N := Zc * (ZL * Complex.cosh (γ * l.L) + Zc * Complex.sinh (γ * l.L))
    let D := Zc * Complex.cosh (γ * l.L) + ZL * Complex.sinh (γ * l.L)
    N + z * D ≠ 0 ∧ S.at 0 0 = (N - z * D) / (N + z * D) := by
  intro N D
  have hzl : l.z (2 * Real.pi * f) 0 ≠ 0 := by intro e; rw [e, zero_mul] at hγ; exact h0 (pow_eq_zero_iff (by norm_num) |>.1 hγ)
  have hZ0 : Zc ≠ 0 := hZ ▸ div_ne_zero hzl h0
  obtain ⟨h1, h2⟩ := C88_input C80_parts_lawful hr hz h hph (fun b hb => parts_obey (hp b hb) hr fl) hs (M := fun _ => lineChain γ Zc l.L) (a := a) (bs := [])
    (fun b hb => by
      rw [List.mem_singleton] at hb
      subst hb
      refine ⟨ha, ?_⟩
      rw [hl, hZ]
      exact C88_line hu hγ h0) trivial hload hports (A := Complex.cosh (γ * l.L)) (B := Zc * Complex.sinh (γ * l.L)) (C := Complex.sinh (γ * l.L) / Zc)
    (D := Complex.cosh (γ * l.L)) (by simp [lineChain])
  have e1 : N = Zc * (Complex.cosh (γ * l.L) * ZL + Zc * Complex.sinh (γ * l.L)) := by ring
  have e2 : D = Zc * (Complex.sinh (γ * l.L) / Zc * ZL + Complex.cosh (γ * l.L)) := by
    have : D = Zc * Complex.cosh (γ * l.L) + ZL * Complex.sinh (γ * l.L) := rfl
    rw [this]; field_simp; ring
  have e3 : N + z * D ≠ 0 := by
    rw [e1, e2]
    intro e
    apply h2
    refine mul_left_cancel₀ hZ0 ?_
    linear_combination e
  refine ⟨e3, ?_⟩
  rw [eq_div_iff e3, e1, e2]
  linear_combination Zc * h1

/-- **C88 (parallel).** One-ports with the admittances `Y b`, all connected at one new port: their admittances add. -/
theorem C88_parallel (hlaw : Lawful ops beh) (hr : r ≠ 0) (hz : z ≠ 0) (h : Built ops beh nan (r : ℂ) names net bh s ph) (hph : ph ≠ .reloaded)
    (hp : ∀ b ∈ s.blocks, Obeys ops beh law f r fl b.obj) (hs : getS ops s f (some (z : ℂ)) fl = (s', .ok S)) {Y : Blk O → ℂ} {bs : List (Blk O)}
    (hm : ∀ b ∈ bs, b ∈ s.blocks ∧ ∀ v i, law b.obj v i → i 0 = Y b * v 0) {x : Node} {j : Junction} (hj : j ∈ net.juncs) (hnew : j.new = some x)
    (hmem : j.members.Perm (bs.map Blk.one)) (hports : s'.ports = [x]) :
    1 + z * (bs.map Y).sum ≠ 0 ∧ S.at 0 0 = (1 - z * (bs.map Y).sum) / (1 + z * (bs.map Y).sum) := by
  have hzc : (z : ℂ) ≠ 0 := by exact_mod_cast hz
  have key := physics_ports hlaw hr hz h hph hp hs hports
  have st : ∀ v i : Fin 1 → ℂ, ScatterV (z : ℂ) (Matrix.of fun a b : Fin 1 => S.at a b) v i → i 0 = (bs.map Y).sum * v 0 := by
    intro v i hv
    obtain ⟨V, I, hphys, hvi⟩ := (key v i).1 hv
    have e0 := hvi 0
    simp at e0
    obtain ⟨k1, k2⟩ := hphys.juncs j hj
    rw [hnew] at k1 k2
    rw [(hmem.map I).sum_eq, List.map_map] at k2
    have hI : ∀ b ∈ bs, (I ∘ Blk.one) b = Y b * v 0 := by
      intro b hb
      have h1 : I b.one = Y b * V b.one := (hm b hb).2 _ _ (hphys.parts b (hm b hb).1)
      have h2 : V b.one = V x := k1 _ (by simp only [List.mem_append]; exact Or.inl (hmem.mem_iff.2 (List.mem_map_of_mem hb))) _ (by simp)
      rw [Function.comp_apply, h1, h2, e0.1]
    rw [List.map_congr_left hI, List.sum_map_mul_right] at k2
    rw [← e0.2]
    exact k2.symm
  have h1 := st (fun _ => 1 + S.at 0 0) (fun _ => (1 - S.at 0 0) / z) (by
    unfold ScatterV
    funext k
    fin_cases k
    simp [Matrix.mulVec, dotProduct]
    field_simp
    ring)
  rw [div_eq_iff hzc] at h1
  have h2 : 1 + z * (bs.map Y).sum ≠ 0 := by
    intro e
    have : (2 : ℂ) = 0 := by linear_combination h1 + (1 + S.at 0 0) * e
    norm_num at this
  refine ⟨h2, ?_⟩
  rw [eq_div_iff h2]
  linear_combination -h1

/-- **C88 (series).** A row of two-ports that are series impedances `Z b` is the series impedance `Σ Z b`; a row of shunt admittances is the shunt admittance `Σ Y b`. -/
theorem C88_series (hlaw : Lawful ops beh) (hr : r ≠ 0) (hz : z ≠ 0) (h : Built ops beh nan (r : ℂ) names net bh s ph) (hph : ph ≠ .reloaded)
    (hp : ∀ b ∈ s.blocks, Obeys ops beh law f r fl b.obj) (hs : getS ops s f (some (z : ℂ)) fl = (s', .ok S)) {X : Blk O → ℂ}
    {a : Blk O} {bs : List (Blk O)} (hm : ∀ b ∈ a :: bs, b ∈ s.blocks) (hj : InRow net.juncs (a :: bs))
    (hports : s'.ports = [a.one, ((a :: bs).getLast (by simp)).two]) (v i : Fin 2 → ℂ) :
    ((∀ b ∈ a :: bs, ∀ v i, law b.obj v i → v 0 - v 1 = X b * i 0 ∧ i 0 = - i 1) →
      (ScatterV (z : ℂ) (Matrix.of fun a b : Fin 2 => S.at a b) v i ↔ v 0 - v 1 = ((a :: bs).map X).sum * i 0 ∧ i 0 = - i 1)) ∧
    ((∀ b ∈ a :: bs, ∀ v i, law b.obj v i → v 0 = v 1 ∧ i 0 + i 1 = X b * v 0) →
      (ScatterV (z : ℂ) (Matrix.of fun a b : Fin 2 => S.at a b) v i ↔ v 0 = v 1 ∧ i 0 + i 1 = ((a :: bs).map X).sum * v 0)) := by
  have ser : ∀ l : List (Blk O), (l.map fun b => (!![1, X b; 0, 1] : Matrix (Fin 2) (Fin 2) ℂ)).prod = !![1, (l.map X).sum; 0, 1] := by
    intro l
    induction l with
    | nil => ext p q; fin_cases p <;> fin_cases q <;> simp
    | cons b l ih =>
      rw [List.map_cons, List.prod_cons, ih]
      ext p q; fin_cases p <;> fin_cases q <;> simp [Matrix.mul_apply, Fin.sum_univ_two, add_comm]
  have shu : ∀ l : List (Blk O), (l.map fun b => (!![1, 0; X b, 1] : Matrix (Fin 2) (Fin 2) ℂ)).prod = !![1, 0; (l.map X).sum, 1] := by
    intro l
    induction l with
    | nil => ext p q; fin_cases p <;> fin_cases q <;> simp
    | cons b l ih =>
      rw [List.map_cons, List.prod_cons, ih]
      ext p q; fin_cases p <;> fin_cases q <;> simp [Matrix.mul_apply, Fin.sum_univ_two]
  have mv : ∀ (p q r' t x y : ℂ), (!![p, q; r', t] : Matrix (Fin 2) (Fin 2) ℂ).mulVec ![x, y] = ![p * x + q * y, r' * x + t * y] := by
    intro p q r' t x y; funext k; fin_cases k <;> simp [Matrix.mulVec, dotProduct, Fin.sum_univ_two]
  have two : ∀ p q x y : ℂ, ![p, q] = ![x, y] ↔ p = x ∧ q = y := by
    intro p q x y
    constructor
    · intro e; exact ⟨congrFun e 0, congrFun e 1⟩
    · rintro ⟨rfl, rfl⟩; rfl
  constructor
  · intro hX
    rw [C88_cascade hlaw hr hz h hph hp hs (M := fun b => !![1, X b; 0, 1]) (fun b hb => ⟨hm b hb, fun v i hvi => by
      obtain ⟨e1, e2⟩ := hX b hb v i hvi
      rw [mv, two]
      constructor
      · linear_combination e1 + X b * e2
      · linear_combination e2⟩) hj hports, ser, mv, two]
    generalize ((a :: bs).map X).sum = Z
    constructor
    · rintro ⟨e1, e2⟩
      exact ⟨by linear_combination e1 - Z * e2, by linear_combination e2⟩
    · rintro ⟨e1, e2⟩
      exact ⟨by linear_combination e1 + Z * e2, by linear_combination e2⟩
  · intro hX
    rw [C88_cascade hlaw hr hz h hph hp hs (M := fun b => !![1, 0; X b, 1]) (fun b hb => ⟨hm b hb, fun v i hvi => by
      obtain ⟨e1, e2⟩ := hX b hb v i hvi
      rw [mv, two]
      constructor
      · linear_combination e1
      · linear_combination e2 + X b * e1⟩) hj hports, shu, mv, two]
    generalize ((a :: bs).map X).sum = Z
    constructor
    · rintro ⟨e1, e2⟩
      exact ⟨by linear_combination e1, by linear_combination e2 - Z * e1⟩
    · rintro ⟨e1, e2⟩
      exact ⟨by linear_combination e1, by linear_combination e2 + Z * e1⟩

end

/-! ## a concrete circuit -/

namespace ExCascade
open ExParts
variable (ode : TRL.Ode)

noncomputable def A : Blk Part := ⟨"A", ["1", "2"], (0, 0), .line (line 1), 0⟩
noncomputable def B : Blk Part := ⟨"B", ["1", "2"], (2, 4), .line (line 2), 1⟩

theorem chain {L f : ℝ} : ChainMatrix ((Part.line (line L)).Law f) (lineChain Complex.I 1 L) := by
  have := C88_line (l := line L) (f := f) (γ := Complex.I) (fun _ _ => ⟨rfl, rfl⟩) (by simp [line, pow_two]) Complex.I_ne_zero
  simpa [line] using this

noncomputable def mats (b : Blk Part) : Matrix (Fin 2) (Fin 2) ℂ := if b.name = "A" then lineChain Complex.I 1 1 else lineChain Complex.I 1 2

theorem row {s : St ℂ Part ℝ Unit} (hbl : s.blocks = [A, B]) {f : ℝ} : ∀ b ∈ [A, B], b ∈ s.blocks ∧ ChainMatrix (b.obj.Law f) (mats b) := by
  rw [hbl]
  intro b hb
  refine ⟨hb, ?_⟩
  simp only [List.mem_cons, List.not_mem_nil, or_false] at hb
  rcases hb with rfl | rfl
  · have : mats A = lineChain Complex.I 1 (1 : ℝ) := by simp [mats, A]
    rw [this]; exact chain
  · have : mats B = lineChain Complex.I 1 (2 : ℝ) := by simp [mats, B]
    rw [this]; exact chain

theorem obeys {s : St ℂ Part ℝ Unit} (hbl : s.blocks = [A, B]) {f : ℝ} : ∀ b ∈ s.blocks, Obeys (op ode) (partBeh ode false Unit) (fun p => p.Law f) f 50 () b.obj := by
  rw [hbl]
  intro b hb
  simp only [List.mem_cons, List.not_mem_nil, or_false] at hb
  rcases hb with rfl | rfl <;> exact parts_obey (proper ode) (by norm_num) ()

/-- the hypotheses of C88_cascade are met by lines of 1 m and 2 m in a row -/
theorem C88_witness (f : ℝ) : ∃ s' S, getS (op ode) (t3 ode) f (some ((50 : ℝ) : ℂ)) () = (s', .ok S) ∧ ∀ v i : Fin 2 → ℂ,
    ScatterV ((50 : ℝ) : ℂ) (Matrix.of fun a b : Fin 2 => S.at a b) v i ↔ ![v 0, i 0] = (lineChain Complex.I 1 1 * lineChain Complex.I 1 2).mulVec ![v 1, -i 1] := by
  obtain ⟨S, s', -, hs⟩ := C80_witness ode f
  obtain ⟨bh, hb⟩ := built ode
  have hs' := getS_own_any C80_parts_lawful hb hs
  refine ⟨s', S, hs', fun v i => ?_⟩
  have hpo : s'.ports = [A.one, B.two] := (C29_ports C80_parts_lawful (Built.eval hb hs)).2.1 (Or.inr rfl)
  rw [C88_cascade C80_parts_lawful (by norm_num) (by norm_num) hb (by decide) (obeys ode rfl) hs' (a := A) (bs := [B]) (row rfl)
    ⟨⟨_, List.mem_singleton_self _, rfl, List.Perm.refl _⟩, trivial⟩ hpo v i]
  simp [mats, A, B]

noncomputable def t4 : St' := (terminate (t3 ode) (.blk "B" "2") (.Z 50)).1

theorem rho : termRho (t3 ode).zbase (.Z (50 : ℂ)) = .ok ((50 - (t3 ode).zbase) / (50 + (t3 ode).zbase)) := by
  have : (t3 ode).zbase = ((50 : ℝ) : ℂ) := rfl
  simp only [termRho, this]
  norm_num

theorem loaded : terminate (t3 ode) (.blk "B" "2") (.Z 50) = (t4 ode, .ok ()) := by
  refine Prod.ext rfl ?_
  unfold terminate
  rw [rho ode]
  rfl

theorem blocks4 : (t4 ode).blocks = [A, B] := by
  unfold t4 terminate
  rw [rho ode]
  rfl

/-- … and those of C88_input by the same lines ended by 50 Ω (their characteristic impedance is 1 Ω) -/
theorem C88_input_witness (f : ℝ) : ∃ t' S A' B' C' D', getS (op ode) (t4 ode) f (some ((50 : ℝ) : ℂ)) () = (t', .ok S) ∧
    lineChain Complex.I 1 1 * lineChain Complex.I 1 2 = !![A', B'; C', D'] ∧
    S.at 0 0 = ((A' * 50 + B') - 50 * (C' * 50 + D')) / ((A' * 50 + B') + 50 * (C' * 50 + D')) := by
  obtain ⟨S, s', -, hs⟩ := C80_witness ode f
  obtain ⟨bh, hb⟩ := built ode
  have hb4 := Built.terminate hb (l := .Z 50) rfl (loaded ode)
  have hfree : (net.load (.blk "B" "2") (.Z 50)).free = [A.one] := by decide
  have key := C87_load C80_parts_lawful hb (by decide) hs (p := .blk "B" "2") (by decide) (l := .Z 50) rfl (loaded ode)
  have hr : (Load.Z (50 : ℂ)).reflection ((50 : ℝ) : ℂ) = 0 := by simp [Load.reflection]
  rw [hr] at key
  obtain ⟨t', S', ht⟩ := (key.1 (by rw [hfree]; simp) (Or.inl (by
    obtain ⟨hi, hbb, -⟩ := hb4.all C80_parts_lawful
    obtain ⟨-, ha, -⟩ := hbb rfl
    simp [St.names, ha, hi.nm]))).2 (by simp)
  have ht' := getS_own_any C80_parts_lawful hb4 ht
  have hpo : t'.ports = [A.one] := by
    have := ((Built.eval hb4 ht).inv C80_parts_lawful).rep.ports_perm
    rw [hfree] at this
    exact List.perm_singleton.1 this
  generalize hP : lineChain Complex.I 1 1 * lineChain Complex.I 1 2 = P
  have hP2 : P = !![P 0 0, P 0 1; P 1 0, P 1 1] := by ext a b; fin_cases a <;> fin_cases b <;> rfl
  have hM : ([A, B].map mats).prod = !![P 0 0, P 0 1; P 1 0, P 1 1] := by rw [← hP2, ← hP]; simp [mats, A, B]
  obtain ⟨h1, h2⟩ := C88_input C80_parts_lawful (by norm_num) (by norm_num) hb4 (by decide) (obeys ode (blocks4 ode)) ht' (a := A) (bs := [B]) (row (blocks4 ode))
    ⟨⟨_, List.mem_singleton_self _, rfl, List.Perm.refl _⟩, trivial⟩ (ZL := 50) (by exact List.mem_singleton_self _) hpo hM
  refine ⟨t', S', P 0 0, P 0 1, P 1 0, P 1 1, ht', hP2, ?_⟩
  push_cast at h1 h2
  rw [eq_div_iff h2]
  exact h1

end ExCascade

end PyRFtk.Circuit
