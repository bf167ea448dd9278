import Verif.CircuitNest
import Verif.TRLProps2
import Verif.RLCProps
import Verif.Coupler
import Verif.CircuitPower

/-!
# C80: circuits of transmission lines, lumped elements, couplers and stored matrices

The circuit model leaves the block objects open (`ObjOps`); here they are the models of rfTRL, rfRLC and rfBase (rfCoupler), so that
the theorems on circuits hold for them without assumption, and the matrix of a circuit is described by the physical laws only: telegrapher equations,
Ohm's law of the lumped elements, Kirchhoff's laws.
-/

set_option linter.unusedSectionVars false

namespace PyRFtk.Circuit

/-! ## model -/

/-- a block object: rfTRL (TRLModel), rfRLC (RLCModel), or an object that inherits `rfBase.getS` and so is given by its own `get1S` and
reference impedance: rfCoupler (Coupler.get1S) and rfBase with stored matrices (RfBase) -/
inductive Part
  | line (l : TRL.Line)
  | rlc (s : RLC.St)
  | base (n : ℕ) (get1 : ℝ → Except Err (Matrix (Fin n) (Fin n) ℂ)) (Zself : ℝ)

/-- `len(obj)` (rfTRL.py:337, rfRLC.py:149, rfBase.py); an rfRLC on which `set` was called is taken as evaluated since (C50) -/
def Part.len : Part → ℕ
  | .line _ => 2
  | .rlc _ => 2
  | .base n _ _ => n

open Classical in
/-- `obj.getS(f, Zbase=z, params={}, flags=…)` (rfTRL.py:534-576, rfRLC.py:181-255, rfBase.py:270-287): flags are not used.  Only real reference impedances are
modelled; with another one the model raises. -/
noncomputable def Part.getS (ode : TRL.Ode) (npc : Bool) (p : Part) (f : ℝ) (z : ℂ) : Part × Except Err (SMat ℂ) :=
  if z.im ≠ 0 then (p, .error .typeError)
  else match p with
    | .line l => match TRL.getS ode l f (some z.re) [] with
      | (l, r) => (.line l, r.map fun S => ⟨2, S⟩)
    | .rlc s => match RLC.getS1 npc s (some z.re) (fun _ => none) f with
      | (s, r) => (.rlc s, r.map fun S => ⟨2, S⟩)
    | .base n g Z => (.base n g Z, (RfBase.getS g Z (some z.re) f).map fun S => ⟨n, S⟩)

/-- port names and positions of the objects: anything -/
structure Face where
  ports : Part → Option (List String)
  xpos : Part → Option (List ℚ)
  portPos : Part → String → Except Err ℚ

/-- what the circuit uses of these objects -/
noncomputable def partOps (ode : TRL.Ode) (npc : Bool) (face : Face) (Fl : Type*) : ObjOps ℂ Part ℝ Fl where
  len := Part.len
  ports := face.ports
  xpos := face.xpos
  portPos := face.portPos
  getS p f z _ := p.getS ode npc f z

/-- the answer of an object -/
noncomputable def partBeh (ode : TRL.Ode) (npc : Bool) (Fl : Type*) : Part → ℝ → ℂ → Fl → Except Err (SMat ℂ) := fun p f z _ => (p.getS ode npc f z).2

/-! ## specification -/

/-- the law of an object between the voltages `v k` at its ports and the currents `i k` into them, at frequency `f` -/
def Part.Law (f : ℝ) : Part → (v i : ℕ → ℂ) → Prop
  | .line l, v, i => TRL.LineLaw (l.z (2 * Real.pi * f)) (l.y (2 * Real.pi * f)) l.L (fun k : Fin 2 => v k) (fun k : Fin 2 => i k)
  | .rlc s, v, i => RLC.Law s.elem (RLC.omega f) (fun k : Fin 2 => v k) (fun k : Fin 2 => i k)
  | .base n g Z, v, i => ∃ T, g f = .ok T ∧ ScatterV (Z : ℂ) T (fun k : Fin n => v k) (fun k : Fin n => i k)

/-- the line's parameters are uniform or its integrator exact (C10), its own reference is not zero; lumped elements are asked at a frequency other than 0 -/
def Part.Proper (ode : TRL.Ode) (f : ℝ) : Part → Prop
  | .line l => TRL.Solves ode l ∧ l.Zbase ≠ 0
  | .rlc _ => f ≠ 0
  | .base _ _ _ => True

/-- Kirchhoff's laws at a junction: one voltage; the current that enters at the new node (none: no current) is the sum of the currents into the members -/
def Junction.Kirchhoff (j : Junction) (V I : Node → ℂ) : Prop :=
  (∀ p ∈ j.members ++ j.new.toList, ∀ q ∈ j.members ++ j.new.toList, V p = V q) ∧
  (j.members.map I).sum = match j.new with | none => 0 | some n => I n

/-- Ohm's law at a load: the current into the load is `-I`; a reflection coefficient is on the circuit's reference `zb` -/
def Load.Ohm (zb : ℂ) : Load ℂ → (V I : ℂ) → Prop
  | .Z z, V, I => V = z * (-I)
  | .Y y, V, I => -I = y * V
  | .RC r, V, I => V + zb * I = r * (V - zb * I)

/-- the voltages and currents at all nodes obey all laws of the network, `law` being the law of each block object -/
structure PhysicsL {O : Type*} (law : O → (v i : ℕ → ℂ) → Prop) (net : Net ℂ) (zb : ℂ) (blocks : List (Blk O)) (V I : Node → ℂ) : Prop where
  parts : ∀ b ∈ blocks, law b.obj (fun k => V (.blk b.name (b.ports.getD k ""))) (fun k => I (.blk b.name (b.ports.getD k "")))
  juncs : ∀ j ∈ net.juncs, j.Kirchhoff V I
  loads : ∀ x ∈ net.loads, x.2.Ohm zb (V x.1) (I x.1)
  crosses : ∀ x ∈ net.crosses, V x.1 = V x.2 ∧ I x.1 = - I x.2
  sames : ∀ x ∈ net.sames, V x.1 = V x.2 ∧ I x.1 = I x.2

/-- … for the objects above -/
abbrev Physics (net : Net ℂ) (zb : ℂ) (f : ℝ) (blocks : List (Blk Part)) (V I : Node → ℂ) : Prop := PhysicsL (fun p : Part => p.Law f) net zb blocks V I

/-- the first and second port of a block -/
def portA (b : Blk Part) : Node := .blk b.name (b.ports.getD 0 "")
def portB (b : Blk Part) : Node := .blk b.name (b.ports.getD 1 "")

/-- the blocks are consecutive sections, from `x` on, of the line with impedance `Z` and admittance `Y` per unit length at frequency `f`; `e` is where they end -/
inductive Sections (f : ℝ) (Z Y : ℝ → ℂ) : ℝ → List (Blk Part) → ℝ → Prop
  | nil (x : ℝ) : Sections f Z Y x [] x
  | cons {x e : ℝ} {b : Blk Part} {bs : List (Blk Part)} (l : TRL.Line) (hb : b.obj = .line l) (hz : ∀ t, l.z (2 * Real.pi * f) t = Z (x + t))
      (hy : ∀ t, l.y (2 * Real.pi * f) t = Y (x + t)) (h : Sections f Z Y (x + l.L) bs e) : Sections f Z Y x (b :: bs) e

/-- the second port of each block and the first port of the next are connected to each other and to nothing else -/
def Joined (juncs : List Junction) : List (Blk Part) → Prop
  | a :: b :: bs => (∃ j ∈ juncs, j.new = none ∧ j.members.Perm [portB a, portA b]) ∧ Joined juncs (b :: bs)
  | _ => True

/-- the object cannot deliver power: a line of no negative length without gain, an element without negative parameters, a matrix that is passive -/
def Part.Dissipative (f : ℝ) : Part → Prop
  | .line l => 0 ≤ l.L ∧ ∀ x, 0 ≤ (l.z (2 * Real.pi * f) x).re ∧ 0 ≤ (l.y (2 * Real.pi * f) x).re
  | .rlc s => RLC.NonNeg s.elem
  | .base _ g Z => 0 < Z ∧ ∀ T, g f = .ok T → Passive T

/-- the object neither absorbs nor delivers power: a line whose impedance and admittance per unit length are imaginary, an element without resistors, a lossless matrix -/
def Part.Reactive (f : ℝ) : Part → Prop
  | .line l => ∀ x, (l.z (2 * Real.pi * f) x).re = 0 ∧ (l.y (2 * Real.pi * f) x).re = 0
  | .rlc s => s.elem .Rs = .fin 0 ∧ s.elem .Rp = .inf
  | .base _ g Z => 0 < Z ∧ ∀ T, g f = .ok T → Lossless T

/-- the object is reciprocal: lines and elements always are -/
def Part.Recip (f : ℝ) : Part → Prop
  | .line _ => True
  | .rlc _ => True
  | .base _ g Z => Z ≠ 0 ∧ ∀ T, g f = .ok T → Reciprocal T

/-! ## proofs -/

section
variable {ode : TRL.Ode} {npc : Bool} {face : Face} {Fl : Type*} [DecidableEq Fl]

theorem line_beh {l l' : TRL.Line} (h : TRL.Same { l with solved := [] } l') (f : ℝ) (z : Option ℝ) :
    (TRL.getS ode l' f z []).2 = (TRL.getS ode l f z []).2 := by
  have e : ({ l' with solved := [] } : TRL.Line) = { l with solved := [] } := by rw [h]
  have e1 : ∀ l : TRL.Line, TRL.set l [] = ({ l with solved := [] }, .ok ()) := fun l => by simp [TRL.set, TRL.setLoop]
  unfold TRL.getS
  rw [e1, e1, e]

theorem line_same {l : TRL.Line} {f : ℝ} {z : Option ℝ} : TRL.Same { l with solved := [] } (TRL.getS ode l f z []).1 := by
  have e1 : ∀ l : TRL.Line, TRL.set l [] = ({ l with solved := [] }, .ok ()) := fun l => by simp [TRL.set, TRL.setLoop]
  have : TRL.getS ode l f z [] = TRL.get1S ode { l with solved := [] } f z := by
    unfold TRL.getS
    rw [e1]
  rw [this]
  exact (TRL.get1S_ok (TRL.good_nil rfl) (Prod.ext rfl rfl)).1

theorem rlc_eq (s : RLC.St) (z : Option ℝ) (f : ℝ) : (RLC.getS1 npc s z (fun _ => none) f).2 = RLC.get1S npc s.elem (z.getD s.Zbase) f ∧
    (RLC.getS1 npc s z (fun _ => none) f).1.elem = s.elem ∧ (RLC.getS1 npc s z (fun _ => none) f).1.Zbase = s.Zbase := by
  unfold RLC.getS1 RLC.step
  have e : (RLC.override (fun _ => none) s) = s := rfl
  rw [e]
  cases RLC.get1S npc s.elem (z.getD s.Zbase) f <;> exact ⟨rfl, rfl, rfl⟩

theorem rlc_beh {s : RLC.St} {z z' : Option ℝ} {f f' : ℝ} : (RLC.getS1 npc (RLC.getS1 npc s z (fun _ => none) f).1 z' (fun _ => none) f').2 =
    (RLC.getS1 npc s z' (fun _ => none) f').2 := by
  rw [(rlc_eq _ _ _).1, (rlc_eq _ _ _).1, (rlc_eq _ _ _).2.1, (rlc_eq _ _ _).2.2]

theorem map_n {n : ℕ} {r : Except Err (Matrix (Fin n) (Fin n) ℂ)} {S : SMat ℂ} (h : (r.map fun S => (⟨n, S⟩ : SMat ℂ)) = .ok S) : S.n = n := by
  cases r with
  | error e => cases h
  | ok M => cases h; rfl

/-- **C80 (the objects can be used in circuits).** The models of the objects have all that the theorems on circuits ask of block objects. -/
theorem C80_parts_lawful : Lawful (partOps ode npc face Fl) (partBeh ode npc Fl) where
  res _ _ _ _ := rfl
  stable p f z fl := by
    funext f' z' fl'
    show (Part.getS ode npc (Part.getS ode npc p f z).1 f' z').2 = (Part.getS ode npc p f' z').2
    unfold Part.getS
    by_cases hz : z.im ≠ 0
    · rw [if_pos hz]
    · rw [if_neg hz]
      by_cases hz' : z'.im ≠ 0
      · rw [if_pos hz', if_pos hz']
      · rw [if_neg hz', if_neg hz']
        cases p with
        | line l =>
          dsimp only
          rw [line_beh line_same]
        | rlc s =>
          dsimp only
          rw [rlc_beh]
        | base n g Z => rfl
  len p f z fl := by
    show Part.len (Part.getS ode npc p f z).1 = Part.len p
    unfold Part.getS
    split
    · rfl
    · cases p <;> rfl
  sized p f z fl S h := by
    change (Part.getS ode npc p f z).2 = .ok S at h
    show S.n = Part.len p
    unfold Part.getS at h
    split at h
    · cases h
    · cases p with
      | line l => exact map_n h
      | rlc s => exact map_n h
      | base n g Z => exact map_n h

/-- what an object answers is its law, on the reference asked for -/
theorem part_law {p : Part} {f r : ℝ} {S : SMat ℂ} (hp : p.Proper ode f) (hr : r ≠ 0) (h : (p.getS ode npc f (r : ℂ)).2 = .ok S) (v i : ℕ → ℂ) :
    (∀ k < p.len, (v k - r * i k) / 2 = ∑ j : Fin p.len, S.at k j * ((v j + r * i j) / 2)) ↔ p.Law f v i := by
  have conv : ∀ {n : ℕ} (M : Matrix (Fin n) (Fin n) ℂ), (∀ k < n, (v k - r * i k) / 2 = ∑ j : Fin n, (⟨n, M⟩ : SMat ℂ).at k j * ((v j + r * i j) / 2)) ↔
      ScatterV (r : ℂ) M (fun k : Fin n => v k) (fun k : Fin n => i k) := by
    intro n M
    unfold ScatterV
    constructor
    · intro h
      funext k
      rw [h k k.2]
      simp [Matrix.mulVec, dotProduct, SMat.at]
    · intro h k hk
      have := congrFun h ⟨k, hk⟩
      simp only at this
      rw [this]
      simp [Matrix.mulVec, dotProduct, SMat.at, hk]
  unfold Part.getS at h
  rw [if_neg (by simp)] at h
  simp only [Complex.ofReal_re] at h
  cases p with
  | line l =>
    obtain ⟨h1, h2⟩ := hp
    dsimp only at h
    cases hg : TRL.getS ode l f (some r) [] with
    | mk l' q =>
      have hsame := line_same (ode := ode) (l := l) (f := f) (z := some r)
      rw [hg] at h hsame
      cases q with
      | error e => cases h
      | ok M =>
        cases h
        change TRL.Same _ l' at hsame
        have hZ : l'.Zbase = l.Zbase := by rw [hsame]
        have hL : l'.L = l.L := by rw [hsame]
        refine (conv M).trans ?_
        have := TRL.C10_telegrapher h1 (by rw [hZ]; exact h2) hg (fun k : Fin 2 => v k) (fun k : Fin 2 => i k)
        rw [hL] at this
        have hro : TRL.refOf l'.Zbase (some r) = r := by simp [TRL.refOf, hr]
        rw [hro] at this
        exact this
  | rlc s =>
    dsimp only at h
    cases hg : RLC.getS1 npc s (some r) (fun _ => none) f with
    | mk s' q =>
      rw [hg] at h
      cases q with
      | error e => cases h
      | ok M =>
        cases h
        refine (conv M).trans ?_
        exact RLC.C13_documented_circuit hp hg (fun k : Fin 2 => v k) (fun k : Fin 2 => i k)
  | base n g Z =>
    dsimp only at h
    cases hg : RfBase.getS g Z (some r) f with
    | error e => rw [hg] at h; cases h
    | ok M =>
      rw [hg] at h
      cases h
      refine (conv M).trans ?_
      obtain ⟨T, hT, -, hVI⟩ := RfBase.C34_getS_reference (by exact hr) hg
      show _ ↔ ∃ T, g f = .ok T ∧ ScatterV (Z : ℂ) T (fun k : Fin n => v k) (fun k : Fin n => i k)
      constructor
      · intro h
        exact ⟨T, hT, (hVI _ _).2 h⟩
      · rintro ⟨T', hT', h⟩
        rw [hT] at hT'
        cases hT'
        exact (hVI _ _).1 h

/-- the matrix the object answers on reference `r` expresses the law -/
def Obeys {O : Type*} (ops : ObjOps ℂ O ℝ Fl) (beh : O → ℝ → ℂ → Fl → Except Err (SMat ℂ)) (law : O → (v i : ℕ → ℂ) → Prop) (f r : ℝ) (fl : Fl) (o : O) : Prop :=
  ∀ T, beh o f (r : ℂ) fl = .ok T → ∀ v i : ℕ → ℂ,
    (∀ k < ops.len o, (v k - r * i k) / 2 = ∑ j : Fin (ops.len o), T.at k j * ((v j + r * i j) / 2)) ↔ law o v i

theorem parts_obey {p : Part} {f r : ℝ} (hp : p.Proper ode f) (hr : r ≠ 0) (fl : Fl) :
    Obeys (partOps ode npc face Fl) (partBeh ode npc Fl) (fun p => p.Law f) f r fl p := fun _ hT v i => part_law hp hr hT v i

section generic
variable {O : Type*} {ops : ObjOps ℂ O ℝ Fl} {beh : O → ℝ → ℂ → Fl → Except Err (SMat ℂ)} {law : O → (v i : ℕ → ℂ) → Prop}

/-- voltage and current instead of waves -/
theorem laws_physics {zb : ℂ} {r f : ℝ} {names : List Node} {net : Net ℂ} {bh : Behave ℂ ℝ Fl} {s : St ℂ O ℝ Fl} (hzb : zb = r) (hr : r ≠ 0)
    (hinv : Inv ops beh zb names net bh s) {fl : Fl} {Sof : String → SMat ℂ} (hS : Given net bh f zb fl Sof)
    (hp : ∀ b ∈ s.blocks, Obeys ops beh law f r fl b.obj) (w : Wave → ℂ) :
    net.Laws zb Sof w ↔ PhysicsL law net r s.blocks (volt w) (fun n => curr w n / r) := by
  subst hzb
  have hrc : (r : ℂ) ≠ 0 := by exact_mod_cast hr
  have hbl : net.blks = s.blocks.map fun b => (b.name, b.ports) := hinv.rep.rep.blks
  have hin : ∀ n, w (.inn, n) = (volt w n + r * (curr w n / r)) / 2 := by
    intro n; unfold volt curr; field_simp; ring
  have hout : ∀ n, w (.out, n) = (volt w n - r * (curr w n / r)) / 2 := by
    intro n; unfold volt curr; field_simp; ring
  have hblock : ∀ b ∈ s.blocks, (BlockLaw (Sof b.name) b.name b.ports w ↔ law b.obj (fun k => volt w (.blk b.name (b.ports.getD k "")))
      (fun k => curr w (.blk b.name (b.ports.getD k "")) / r)) := by
    intro b hb
    have hlen : b.ports.length = ops.len b.obj := hinv.rep.rep.blen b hb
    have hans : beh b.obj f (r : ℂ) fl = .ok (Sof b.name) := by
      have := hS (b.name, b.ports) (by rw [hbl]; exact List.mem_map_of_mem hb)
      rw [← hinv.bhv b hb] at this
      exact this
    rw [← hp b hb _ hans]
    unfold BlockLaw
    rw [← hlen]
    constructor
    · intro h k hk
      have := h ⟨k, hk⟩
      rw [hout] at this
      have e : ∀ j : Fin b.ports.length, b.ports.getD j "" = b.ports[j] := fun j => by simp
      have ek : b.ports.getD k "" = b.ports[k] := by simp [hk]
      simp only [ek]
      refine Eq.trans (by simpa using this) ?_
      refine Finset.sum_congr rfl fun j _ => ?_
      rw [e, hin]
      rfl
    · intro h k
      have := h k k.2
      have e : ∀ j : Fin b.ports.length, b.ports.getD j "" = b.ports[j] := fun j => by simp
      rw [e] at this
      rw [hout]
      refine Eq.trans (by simpa using this) ?_
      refine Finset.sum_congr rfl fun j _ => ?_
      rw [hin]
      simp
  have hj : ∀ j : Junction, j.Law w ↔ j.Kirchhoff (volt w) (fun n => curr w n / r) := by
    intro j
    have hsum : (j.members.map fun n => curr w n / (r : ℂ)).sum = (j.members.map (curr w)).sum / r := by
      induction j.members with
      | nil => simp
      | cons a l ih => simp only [List.map_cons, List.sum_cons, ih]; ring
    unfold Junction.Law Junction.Kirchhoff
    rw [hsum]
    cases j.new with
    | none => simp [hrc]
    | some n =>
      simp only [and_congr_right_iff]
      intro _
      field_simp
  have hl : ∀ (l : Load ℂ) (n : Node), l.Law (r : ℂ) (w (.inn, n)) (w (.out, n)) ↔ l.Ohm (r : ℂ) (volt w n) (curr w n / r) := by
    intro l n
    cases l with
    | Z z =>
      unfold Load.Law Load.Ohm volt curr
      constructor
      · intro h; field_simp; linear_combination h
      · intro h; field_simp at h; linear_combination h
    | Y y =>
      unfold Load.Law Load.Ohm volt curr
      constructor
      · intro h; field_simp; linear_combination h
      · intro h; field_simp at h; linear_combination h
    | RC ρ =>
      unfold Load.Law Load.Ohm volt curr
      constructor
      · intro h; field_simp; linear_combination 2 * h
      · intro h; field_simp at h; linear_combination (1/2) * h
  constructor
  · rintro ⟨h1, ⟨h2, h3, h4⟩, h5⟩
    refine ⟨fun b hb => (hblock b hb).1 (h1 (b.name, b.ports) (by rw [hbl]; exact List.mem_map_of_mem hb)), fun j hjm => (hj j).1 (h2 j hjm),
      fun x hx => (hl _ _).1 (h5 x hx), fun x hx => ?_, fun x hx => ?_⟩
    · obtain ⟨a, b⟩ := h3 x hx
      unfold volt curr
      rw [a, b]
      exact ⟨by ring, by ring⟩
    · obtain ⟨a, b⟩ := h4 x hx
      unfold volt curr
      rw [a, b]
      exact ⟨rfl, rfl⟩
  · rintro ⟨h1, h2, h5, h3, h4⟩
    refine ⟨?_, ⟨fun j hjm => (hj j).2 (h2 j hjm), fun x hx => ?_, fun x hx => ?_⟩, fun x hx => (hl _ _).2 (h5 x hx)⟩
    · intro x hx
      rw [hbl] at hx
      simp only [List.mem_map] at hx
      obtain ⟨b, hb, rfl⟩ := hx
      exact (hblock b hb).2 (h1 b hb)
    · obtain ⟨a, b⟩ := h3 x hx
      rw [hin x.1, hout x.1, hin x.2, hout x.2, a, b]
      exact ⟨by ring, by ring⟩
    · obtain ⟨a, b⟩ := h4 x hx
      rw [hin x.1, hout x.1, hin x.2, hout x.2, a, b]
      exact ⟨rfl, rfl⟩

/-- the waves of given voltages and currents -/
noncomputable def wavesOf (r : ℝ) (V I : Node → ℂ) : Wave → ℂ
  | (.inn, n) => (V n + r * I n) / 2
  | (.out, n) => (V n - r * I n) / 2

theorem wavesOf_eq {r : ℝ} (hr : r ≠ 0) (V I : Node → ℂ) : volt (wavesOf r V I) = V ∧ (fun n => curr (wavesOf r V I) n / (r : ℂ)) = I := by
  have hrc : (r : ℂ) ≠ 0 := by exact_mod_cast hr
  refine ⟨funext fun n => ?_, funext fun n => ?_⟩
  · simp only [volt, wavesOf]; ring
  · simp only [curr, wavesOf]; field_simp; ring

/-- the theorem for any block objects that obey their laws -/
theorem physics_of_laws {nan : ℂ} {r z f : ℝ} {names : List Node} {net : Net ℂ} {bh : Behave ℂ ℝ Fl} {s s' : St ℂ O ℝ Fl} {ph : Phase} {fl : Fl} {S : SMat ℂ}
    (hlaw : Lawful ops beh) (hr : r ≠ 0) (hz : z ≠ 0) (h : Built ops beh nan (r : ℂ) names net bh s ph)
    (hph : ph ≠ .reloaded) (hp : ∀ b ∈ s.blocks, Obeys ops beh law f r fl b.obj) (hs : getS ops s f (some (z : ℂ)) fl = (s', .ok S))
    (v i : Fin s'.ports.length → ℂ) :
    ScatterV (z : ℂ) (Matrix.of fun a b : Fin s'.ports.length => S.at a b) v i ↔
      ∃ V I : Node → ℂ, PhysicsL law net r s.blocks V I ∧ ∀ k : Fin s'.ports.length, V s'.ports[k] = v k ∧ I s'.ports[k] = i k := by
  have hrc : (r : ℂ) ≠ 0 := by exact_mod_cast hr
  have hzc : (z : ℂ) ≠ 0 := by exact_mod_cast hz
  have hinv := h.inv hlaw
  obtain ⟨Sof, hS⟩ : ∃ Sof, Given net bh f (r : ℂ) fl Sof := by
    cases hg : get1S ops s f fl with
    | mk s1 q =>
      cases q with
      | error e => simp [getS, hg] at hs
      | ok M => exact (C20_getS_sound hlaw h hph (s' := s1) (S := M) (by simp [getS, hg])).1
  have key := C22_flatten_waves hlaw h hph hrc hzc hs hS (fun k => (v k + z * i k) / 2) (fun k => (v k - z * i k) / 2)
  have e1 : ScatterV (z : ℂ) (Matrix.of fun a b : Fin s'.ports.length => S.at a b) v i ↔
      ∀ k : Fin s'.ports.length, (v k - z * i k) / 2 = ∑ j : Fin s'.ports.length, S.at k j * ((v j + z * i j) / 2) := by
    unfold ScatterV
    rw [funext_iff]
    rfl
  rw [e1]
  refine key.trans ?_
  constructor
  · rintro ⟨w, hw, hports⟩
    refine ⟨volt w, fun n => curr w n / r, (laws_physics rfl hr hinv hS hp w).1 hw, fun k => ?_⟩
    obtain ⟨a, b⟩ := hports k
    refine ⟨by rw [a]; ring, ?_⟩
    show curr w s'.ports[k] / (r : ℂ) = i k
    rw [b]
    field_simp
    ring
  · rintro ⟨V, I, hphys, hports⟩
    obtain ⟨eV, eI⟩ := wavesOf_eq hr V I
    refine ⟨wavesOf r V I, (laws_physics rfl hr hinv hS hp _).2 (by rw [eV, eI]; exact hphys), fun k => ?_⟩
    obtain ⟨a, b⟩ := hports k
    have eI' : curr (wavesOf r V I) s'.ports[k] / (r : ℂ) = I s'.ports[k] := congrFun eI _
    refine ⟨by rw [eV, a]; ring, ?_⟩
    rw [eI', b]
    field_simp
    ring

end generic

variable {nan : ℂ} {r z f : ℝ} {names : List Node} {net : Net ℂ} {bh : Behave ℂ ℝ Fl} {s s' : St ℂ Part ℝ Fl} {ph : Phase} {fl : Fl} {S : SMat ℂ}

/-- **C80 (the matrix is that of the physical network).** A circuit of lines, lumped elements, couplers and stored matrices, built and evaluated in any way:
voltages `v` and currents `i` at its ports are related by the matrix it returns, on the reference asked for, exactly if they are the port values of voltages
and currents at all nodes that obey the telegrapher equations on every line, Ohm's law in every element and load, and Kirchhoff's laws at every junction. -/
theorem C80_physics (hr : r ≠ 0) (hz : z ≠ 0) (h : Built (partOps ode npc face Fl) (partBeh ode npc Fl) nan (r : ℂ) names net bh s ph)
    (hph : ph ≠ .reloaded) (hp : ∀ b ∈ s.blocks, b.obj.Proper ode f) (hs : getS (partOps ode npc face Fl) s f (some (z : ℂ)) fl = (s', .ok S))
    (v i : Fin s'.ports.length → ℂ) :
    ScatterV (z : ℂ) (Matrix.of fun a b : Fin s'.ports.length => S.at a b) v i ↔
      ∃ V I : Node → ℂ, Physics net r f s.blocks V I ∧ ∀ k : Fin s'.ports.length, V s'.ports[k] = v k ∧ I s'.ports[k] = i k :=
  physics_of_laws C80_parts_lawful hr hz h hph (fun b hb => parts_obey (hp b hb) hr fl) hs v i

theorem section_step {V I : Node → ℂ} {Z Y V1 I1 V2 I2 : ℝ → ℂ} (hF : TRL.Fund Z Y V1 I1 V2 I2) {r f : ℝ} {net : Net ℂ} {blocks : List (Blk Part)}
    (hphys : Physics net r f blocks V I) {b : Blk Part} (hm : b ∈ blocks) {l : TRL.Line} (hb : b.obj = .line l) {x : ℝ}
    (hz : ∀ t, l.z (2 * Real.pi * f) t = Z (x + t)) (hy : ∀ t, l.y (2 * Real.pi * f) t = Y (x + t)) {v0 i0 : ℂ}
    (h0 : TRL.LineLaw Z Y x ![v0, V (portA b)] ![i0, -I (portA b)]) : TRL.LineLaw Z Y (x + l.L) ![v0, V (portB b)] ![i0, I (portB b)] := by
  have hl := hphys.parts b hm
  rw [hb] at hl
  simp only [Part.Law] at hl
  rw [funext hz, funext hy] at hl
  refine (TRL.lineLaw_cascade hF.t1 hF.t2 hF.a hF.b hF.c hF.d x l.L _ _).2 ⟨_, _, h0, ?_⟩
  convert hl using 1 <;> · funext k; fin_cases k <;> simp [portA, portB]

theorem joined_step {V I : Node → ℂ} {r f : ℝ} {net : Net ℂ} {blocks : List (Blk Part)} (hphys : Physics net r f blocks V I) {a b : Blk Part}
    (hj : ∃ j ∈ net.juncs, j.new = none ∧ j.members.Perm [portB a, portA b]) : V (portB a) = V (portA b) ∧ I (portB a) = - I (portA b) := by
  obtain ⟨j, hjm, hnew, hperm⟩ := hj
  obtain ⟨hk1, hk2⟩ := hphys.juncs j hjm
  rw [hnew] at hk1 hk2
  have hmem : ∀ p, p ∈ j.members ↔ p ∈ [portB a, portA b] := fun p => hperm.mem_iff
  refine ⟨hk1 _ (by simp [hmem]) _ (by simp [hmem]), ?_⟩
  rw [(hperm.map I).sum_eq] at hk2
  simp at hk2
  exact eq_neg_of_add_eq_zero_left hk2

theorem chain_law {V I : Node → ℂ} {Z Y V1 I1 V2 I2 : ℝ → ℂ} (hF : TRL.Fund Z Y V1 I1 V2 I2) {r f : ℝ} {net : Net ℂ} {blocks : List (Blk Part)}
    (hphys : Physics net r f blocks V I) (bs : List (Blk Part)) (a : Blk Part) {x e : ℝ} (hsec : Sections f Z Y x (a :: bs) e) (hm : ∀ b ∈ a :: bs, b ∈ blocks)
    (hj : Joined net.juncs (a :: bs)) {v0 i0 : ℂ} (h0 : TRL.LineLaw Z Y x ![v0, V (portA a)] ![i0, -I (portA a)]) :
    TRL.LineLaw Z Y e ![v0, V (portB ((a :: bs).getLast (by simp)))] ![i0, I (portB ((a :: bs).getLast (by simp)))] := by
  induction bs generalizing a x with
  | nil =>
    cases hsec with
    | cons l hb hz hy h =>
      cases h
      exact section_step hF hphys (hm a (by simp)) hb hz hy h0
  | cons b bs ih =>
    cases hsec with
    | cons l hb hz hy h =>
      have h1 := section_step hF hphys (hm a (by simp)) hb hz hy h0
      obtain ⟨hv, hi⟩ := joined_step hphys hj.1
      have := ih b h (fun c hc => hm c (List.mem_cons_of_mem _ hc)) hj.2 (by rw [← hv, ← hi]; exact h1)
      simpa using this

/-- **C80 (a line cut into sections).** A circuit whose two ports are the ends of a chain of lines, each connected to the next, that are consecutive sections of one
line, uniform or not, returns the matrix of that line. -/
theorem C80_split (hr : r ≠ 0) (hz : z ≠ 0) (h : Built (partOps ode npc face Fl) (partBeh ode npc Fl) nan (r : ℂ) names net bh s ph)
    (hph : ph ≠ .reloaded) (hp : ∀ b ∈ s.blocks, b.obj.Proper ode f) (hs : getS (partOps ode npc face Fl) s f (some (z : ℂ)) fl = (s', .ok S))
    {a : Blk Part} {bs : List (Blk Part)} (hm : ∀ b ∈ a :: bs, b ∈ s.blocks) (hj : Joined net.juncs (a :: bs)) {l₀ : TRL.Line}
    (hsec : Sections f (l₀.z (2 * Real.pi * f)) (l₀.y (2 * Real.pi * f)) 0 (a :: bs) l₀.L) (hports : s'.ports = [portA a, portB ((a :: bs).getLast (by simp))])
    {S₀ : SMat ℂ} (hl : (Part.line l₀).Proper ode f) (hg : ((Part.line l₀).getS ode npc f (z : ℂ)).2 = .ok S₀) : S = S₀ := by
  have hzc : (z : ℂ) ≠ 0 := by exact_mod_cast hz
  have hlaw := C80_parts_lawful (ode := ode) (npc := npc) (face := face) (Fl := Fl)
  have hn0 : S₀.n = 2 := hlaw.sized (Part.line l₀) f z fl S₀ hg
  have hn : S.n = 2 := by
    have : S.n = s'.ports.length := (C20_getS_reference hlaw h hph hzc hs).2.1
    rw [this, hports]
    rfl
  obtain ⟨V1, I1, V2, I2, hF⟩ := TRL.solves_fund hl.1 (2 * Real.pi * f)
  have key := fun v i => C80_physics hr hz h hph hp hs v i
  have h0 := fun v i => part_law (npc := npc) hl hz hg v i
  have hlen : s'.ports.length = 2 := by rw [hports]; rfl
  have hat : ∀ a < 2, ∀ b < 2, S.at a b = S₀.at a b := by
    have e : (Matrix.of fun a b : Fin s'.ports.length => S.at a b) = Matrix.of fun a b : Fin s'.ports.length => S₀.at a b := by
      refine scatterV_unique hzc fun v i hvi => ?_
      obtain ⟨V, I, hphys, hk⟩ := (key v i).1 hvi
      have hzero : TRL.LineLaw (l₀.z (2 * Real.pi * f)) (l₀.y (2 * Real.pi * f)) 0 ![V (portA a), V (portA a)] ![I (portA a), -I (portA a)] :=
        (TRL.lineLaw_zero hF.t1 hF.t2 hF.a hF.b hF.c hF.d _ _).2 ⟨rfl, rfl⟩
      have hc := chain_law hF hphys bs a hsec hm hj hzero
      have hlw : (Part.line l₀).Law f (fun k => V (s'.ports.getD k (.ext ""))) (fun k => I (s'.ports.getD k (.ext ""))) := by
        simp only [Part.Law]
        convert hc using 1 <;> · funext k; fin_cases k <;> simp [hports]
      have h2 := (h0 _ _).2 hlw
      unfold ScatterV
      funext k
      have hk2 : (k : ℕ) < 2 := hlen ▸ k.2
      have e1 : ∀ k : Fin s'.ports.length, s'.ports.getD k (.ext "") = s'.ports[k] := fun k => by simp
      have := h2 k hk2
      rw [e1, (hk k).1, (hk k).2] at this
      rw [this]
      simp only [Matrix.mulVec, dotProduct, Matrix.of_apply]
      show ∑ j : Fin 2, _ = _
      rw [← Equiv.sum_comp (finCongr hlen)]
      refine Finset.sum_congr rfl fun j _ => ?_
      have ej : ((finCongr hlen) j : ℕ) = (j : ℕ) := rfl
      rw [ej, e1, (hk j).1, (hk j).2]
    intro x hx y hy
    exact congrFun (congrFun e ⟨x, by omega⟩) ⟨y, by omega⟩
  obtain ⟨n, M⟩ := S
  obtain ⟨n0, M0⟩ := S₀
  dsimp only at hn hn0
  subst hn hn0
  congr 1
  funext x y
  have := hat x x.2 y y.2
  simpa [SMat.at, show (x : ℕ) ≤ 1 by omega, show (y : ℕ) ≤ 1 by omega] using this

/-- the theorem for any block objects that obey their laws -/
theorem answers_of_laws {O : Type} {ops : ObjOps ℂ O ℝ Fl} {beh : O → ℝ → ℂ → Fl → Except Err (SMat ℂ)} {law : O → (v i : ℕ → ℂ) → Prop}
    {nan : ℂ} {r f : ℝ} {names : List Node} {net : Net ℂ} {bh : Behave ℂ ℝ Fl} {s : St ℂ O ℝ Fl} {ph : Phase} {fl : Fl}
    (hlaw : Lawful ops beh) (hr : r ≠ 0) (h : Built ops beh nan (r : ℂ) names net bh s ph) (hph : ph ≠ .reloaded)
    (hp' : ∀ b ∈ s.blocks, Obeys ops beh law f r fl b.obj) (hans : ∀ b ∈ s.blocks, ∃ T, beh b.obj f (r : ℂ) fl = .ok T)
    (hfree : net.free ≠ []) (hnames : s.names = [] ∨ s.names.Perm net.free) :
    (∃ s' S, getS ops s f none fl = (s', .ok S)) ↔
      (∀ e : Node → ℂ, ∃ V I, PhysicsL law net r s.blocks V I ∧ ∀ p ∈ net.free, V p + r * I p = e p) ∧
      ∀ V I V' I', PhysicsL law net r s.blocks V I → PhysicsL law net r s.blocks V' I' → (∀ p ∈ net.free, V p + r * I p = V' p + r * I' p) →
        ∀ n ∈ net.nodes, V n = V' n ∧ I n = I' n := by
  have hrc : (r : ℂ) ≠ 0 := by exact_mod_cast hr
  have hinv := h.inv hlaw
  have hbl : net.blks = s.blocks.map fun b => (b.name, b.ports) := hinv.rep.rep.blks
  obtain ⟨Sof, hS⟩ : ∃ Sof, Given net bh f (r : ℂ) fl Sof := by
    refine exists_given fun x hx => ?_
    rw [hbl] at hx
    simp only [List.mem_map] at hx
    obtain ⟨b, hb, rfl⟩ := hx
    obtain ⟨T, hT⟩ := hans b hb
    refine ⟨T, ?_⟩
    rw [← hinv.bhv b hb]
    exact hT
  rw [C20_getS_complete hlaw h hph hS hfree hnames]
  have hin : ∀ (w : Wave → ℂ) n, 2 * w (.inn, n) = volt w n + r * (curr w n / r) := by
    intro w n; unfold volt curr; field_simp; ring
  have hout : ∀ (w : Wave → ℂ) n, 2 * w (.out, n) = volt w n - r * (curr w n / r) := by
    intro w n; unfold volt curr; field_simp; ring
  have h2 : (2 : ℂ) ≠ 0 := two_ne_zero
  constructor
  · rintro ⟨h3, h4⟩
    refine ⟨fun e => ?_, fun V I V' I' hV hV' hpq n hn => ?_⟩
    · obtain ⟨w, hw, he⟩ := h3 fun n => e n / 2
      refine ⟨_, _, (laws_physics (law := law) rfl hr hinv hS hp' w).1 hw, fun p hpf => ?_⟩
      rw [← hin, he p hpf]
      field_simp
    · obtain ⟨eV, eI⟩ := wavesOf_eq hr V I
      obtain ⟨eV', eI'⟩ := wavesOf_eq hr V' I'
      have a := (laws_physics (law := law) rfl hr hinv hS hp' (wavesOf r V I)).2 (by rw [eV, eI]; exact hV)
      have b := (laws_physics (law := law) rfl hr hinv hS hp' (wavesOf r V' I')).2 (by rw [eV', eI']; exact hV')
      have c := h4 _ _ a b (fun p hpf => by simp only [wavesOf, hpq p hpf]) n hn
      have c1 := c .inn
      have c2 := c .out
      simp only [wavesOf] at c1 c2
      have hv : V n = V' n := by linear_combination c1 + c2
      refine ⟨hv, mul_left_cancel₀ hrc ?_⟩
      linear_combination c1 - c2
  · rintro ⟨h3, h4⟩
    refine ⟨fun e => ?_, fun w w' hw hw' hpq n hn d => ?_⟩
    · obtain ⟨V, I, hV, he⟩ := h3 fun n => 2 * e n
      obtain ⟨eV, eI⟩ := wavesOf_eq hr V I
      refine ⟨wavesOf r V I, (laws_physics (law := law) rfl hr hinv hS hp' _).2 (by rw [eV, eI]; exact hV), fun p hpf => ?_⟩
      simp only [wavesOf, he p hpf]
      ring
    · obtain ⟨c1, c2⟩ := h4 _ _ _ _ ((laws_physics (law := law) rfl hr hinv hS hp' w).1 hw) ((laws_physics (law := law) rfl hr hinv hS hp' w').1 hw')
        (fun p hpf => by rw [← hin, ← hin, hpq p hpf]) n hn
      apply mul_left_cancel₀ h2
      cases d
      · rw [hin, hin, c1, c2]
      · rw [hout, hout, c1, c2]

/-- **C80 (when a circuit answers).** If all its objects answer, a circuit of them answers exactly if the physical laws determine all voltages and currents from the
excitations `V + r I` at its free ports, and allow any excitation. -/
theorem C80_answers (hr : r ≠ 0) (h : Built (partOps ode npc face Fl) (partBeh ode npc Fl) nan (r : ℂ) names net bh s ph)
    (hph : ph ≠ .reloaded) (hp : ∀ b ∈ s.blocks, b.obj.Proper ode f) (hans : ∀ b ∈ s.blocks, ∃ T, (b.obj.getS ode npc f (r : ℂ)).2 = .ok T)
    (hfree : net.free ≠ []) (hnames : s.names = [] ∨ s.names.Perm net.free) :
    (∃ s' S, getS (partOps ode npc face Fl) s f none fl = (s', .ok S)) ↔
      (∀ e : Node → ℂ, ∃ V I, Physics net r f s.blocks V I ∧ ∀ p ∈ net.free, V p + r * I p = e p) ∧
      ∀ V I V' I', Physics net r f s.blocks V I → Physics net r f s.blocks V' I' → (∀ p ∈ net.free, V p + r * I p = V' p + r * I' p) →
        ∀ n ∈ net.nodes, V n = V' n ∧ I n = I' n :=
  answers_of_laws C80_parts_lawful hr h hph (fun b hb => parts_obey (hp b hb) hr fl) hans hfree hnames

/-- where a port of the chain is, and the direction of the current into it -/
noncomputable def chainPos : ℝ → List (Blk Part) → Node → ℝ × ℂ
  | _, [], _ => (0, 0)
  | x, b :: bs, n =>
    let l := match b.obj with | .line l => l.L | _ => 0
    if n = portA b then (x, -1) else if n = portB b then (x + l, 1) else chainPos (x + l) bs n

theorem sections_chain {Z Y Vs Is : ℝ → ℂ} (hT : TRL.Telegraph Z Y Vs Is) {f : ℝ} (bs : List (Blk Part)) {x e : ℝ} (hsec : Sections f Z Y x bs e)
    (hnd : (bs.map Blk.name).Nodup) (hAB : ∀ b ∈ bs, portA b ≠ portB b) :
    let V := fun n => Vs (chainPos x bs n).1
    let I := fun n => (chainPos x bs n).2 * Is (chainPos x bs n).1
    (∀ b ∈ bs, b.obj.Law f (fun k => V (.blk b.name (b.ports.getD k ""))) (fun k => I (.blk b.name (b.ports.getD k "")))) ∧
    (∀ b c, [b, c] <:+: bs → V (portB b) = V (portA c) ∧ I (portB b) = - I (portA c)) ∧
    (∀ b, bs.head? = some b → V (portA b) = Vs x ∧ I (portA b) = - Is x) ∧ (∀ b, bs.getLast? = some b → V (portB b) = Vs e ∧ I (portB b) = Is e) := by
  induction hsec with
  | nil x => simp
  | @cons x e b bs l hb hz hy h ih =>
    rw [List.map_cons, List.nodup_cons] at hnd
    obtain ⟨i1, i2, i3, i4⟩ := ih hnd.2 (fun c hc => hAB c (List.mem_cons_of_mem _ hc))
    have hne := hAB b (by simp)
    have cA : chainPos x (b :: bs) (portA b) = (x, -1) := by simp [chainPos]
    have cB : chainPos x (b :: bs) (portB b) = (x + l.L, 1) := by simp [chainPos, hne.symm, hb]
    have cO : ∀ c ∈ bs, ∀ p, chainPos x (b :: bs) (.blk c.name p) = chainPos (x + l.L) bs (.blk c.name p) := by
      intro c hc p
      have hcn : c.name ≠ b.name := fun e => hnd.1 (by rw [← e]; exact List.mem_map_of_mem hc)
      simp [chainPos, portA, portB, hcn, hb]
    intro V I
    refine ⟨fun c hc => ?_, fun c d hcd => ?_, fun c hc => ?_, fun c hc => ?_⟩
    · rw [List.mem_cons] at hc
      rcases hc with rfl | hc
      · rw [hb]
        simp only [Part.Law]
        rw [funext hz, funext hy]
        refine ⟨fun t => Vs (x + t), fun t => Is (x + t), fun t => ?_, ?_, ?_, ?_, ?_⟩
        · have hs : HasDerivAt (fun t : ℝ => x + t) 1 t := by simpa using (hasDerivAt_id t).const_add x
          have h1 := (hT (x + t)).1.scomp t hs
          have h2 := (hT (x + t)).2.scomp t hs
          exact ⟨h1.congr_deriv (by simp), h2.congr_deriv (by simp)⟩
        · show Vs (x + 0) = Vs (chainPos x _ (portA c)).1
          rw [cA, add_zero]
        · show Vs (x + l.L) = Vs (chainPos x _ (portB c)).1
          rw [cB]
        · show Is (x + 0) = -((chainPos x _ (portA c)).2 * Is (chainPos x _ (portA c)).1)
          rw [cA]
          simp
        · show Is (x + l.L) = (chainPos x _ (portB c)).2 * Is (chainPos x _ (portB c)).1
          rw [cB]
          simp
      · have := i1 c hc
        simp only [V, I, cO c hc]
        exact this
    · rw [List.infix_cons_iff] at hcd
      rcases hcd with hcd | hcd
      · rw [List.cons_prefix_cons] at hcd
        obtain ⟨rfl, hcd⟩ := hcd
        cases bs with
        | nil => simp at hcd
        | cons d' bs =>
          rw [List.cons_prefix_cons] at hcd
          obtain ⟨rfl, -⟩ := hcd
          have := i3 d rfl
          dsimp only at this
          have e : chainPos x (c :: d :: bs) (portA d) = chainPos (x + l.L) (d :: bs) (portA d) := cO d (by simp) _
          simp only [V, I]
          rw [cB, e, this.1, this.2]
          simp
      · have := i2 c d hcd
        have ec : chainPos x (b :: bs) (portB c) = chainPos (x + l.L) bs (portB c) := cO c (hcd.subset (by simp)) _
        have ed : chainPos x (b :: bs) (portA d) = chainPos (x + l.L) bs (portA d) := cO d (hcd.subset (by simp)) _
        simp only [V, I]
        rw [ec, ed]
        exact this
    · simp only [List.head?_cons, Option.some.injEq] at hc
      subst hc
      simp only [V, I]
      rw [cA]
      simp
    · cases bs with
      | nil =>
        simp only [List.getLast?_singleton, Option.some.injEq] at hc
        subst hc
        cases h
        simp only [V, I]
        rw [cB]
        simp
      | cons d bs =>
        rw [List.getLast?_cons_cons] at hc
        have := i4 c hc
        have e : chainPos x (b :: d :: bs) (portB c) = chainPos (x + l.L) (d :: bs) (portB c) := cO c (List.mem_of_getLast? hc) _
        simp only [V, I]
        rw [e]
        exact this

/-- the values at the start determine those at all ports of the chain -/
theorem chain_unique {V I V' I' : Node → ℂ} {Z Y V1 I1 V2 I2 : ℝ → ℂ} (hF : TRL.Fund Z Y V1 I1 V2 I2) {r f : ℝ} {net : Net ℂ} {blocks : List (Blk Part)}
    (hphys : Physics net r f blocks V I) (hphys' : Physics net r f blocks V' I') {v0 i0 : ℂ} {bs : List (Blk Part)} {x e : ℝ} (hsec : Sections f Z Y x bs e) :
    (∀ b ∈ bs, b ∈ blocks) → Joined net.juncs bs → (∀ a, bs.head? = some a → TRL.LineLaw Z Y x ![v0, V (portA a)] ![i0, -I (portA a)] ∧
      TRL.LineLaw Z Y x ![v0, V' (portA a)] ![i0, -I' (portA a)]) → ∀ b ∈ bs, ∀ p ∈ [portA b, portB b], V p = V' p ∧ I p = I' p := by
  have uniq : ∀ {x : ℝ} {v i v' i' : ℂ}, TRL.LineLaw Z Y x ![v0, v] ![i0, i] → TRL.LineLaw Z Y x ![v0, v'] ![i0, i'] → v = v' ∧ i = i' := by
    intro x v i v' i' h h'
    rw [TRL.lineLaw_iff hF.t1 hF.t2 hF.a hF.b hF.c hF.d] at h h'
    simp at h h'
    exact ⟨h.1.trans h'.1.symm, h.2.trans h'.2.symm⟩
  induction hsec with
  | nil x => simp
  | @cons x e b bs l hb hz hy h ih =>
    intro hm hj h0
    obtain ⟨g0, g0'⟩ := h0 b rfl
    have g1 := section_step hF hphys (hm b (by simp)) hb hz hy g0
    have g1' := section_step hF hphys' (hm b (by simp)) hb hz hy g0'
    have hrest := ih (fun c hc => hm c (List.mem_cons_of_mem _ hc)) (by
      cases bs with
      | nil => trivial
      | cons c bs => exact hj.2) (by
      intro c hc
      cases bs with
      | nil => cases hc
      | cons c' bs =>
        cases hc
        obtain ⟨a1, a2⟩ := joined_step hphys hj.1
        obtain ⟨b1, b2⟩ := joined_step hphys' hj.1
        rw [← a1, ← a2, ← b1, ← b2]
        exact ⟨g1, g1'⟩)
    intro c hc p hp
    rw [List.mem_cons] at hc
    rcases hc with rfl | hc
    · simp only [List.mem_cons, List.not_mem_nil, or_false] at hp
      rcases hp with rfl | rfl
      · obtain ⟨u1, u2⟩ := uniq g0 g0'
        exact ⟨u1, neg_injective u2⟩
      · exact uniq g1 g1'
    · exact hrest c hc p hp

theorem sections_line {f : ℝ} {Z Y : ℝ → ℂ} {x e : ℝ} {bs : List (Blk Part)} (h : Sections f Z Y x bs e) : ∀ b ∈ bs, ∃ l, b.obj = .line l := by
  induction h with
  | nil => simp
  | cons l hb _ _ _ ih => exact List.forall_mem_cons.2 ⟨⟨l, hb⟩, ih⟩

/-- **C80 (a circuit of line sections answers).** A circuit that holds nothing but the sections of a line, each connected to the next, and whose ports are the two ends,
answers with the matrix of the line whenever the line and the sections answer. -/
theorem C80_split_answers (hr : r ≠ 0) (h : Built (partOps ode npc face Fl) (partBeh ode npc Fl) nan (r : ℂ) names net bh s ph)
    (hph : ph ≠ .reloaded) (hp : ∀ b ∈ s.blocks, b.obj.Proper ode f) (hans : ∀ b ∈ s.blocks, ∃ T, (b.obj.getS ode npc f (r : ℂ)).2 = .ok T)
    {a : Blk Part} {bs : List (Blk Part)} (hm : s.blocks = a :: bs) (hj : Joined net.juncs (a :: bs))
    (hjs : ∀ j ∈ net.juncs, ∃ b c, [b, c] <:+: a :: bs ∧ j.new = none ∧ j.members.Perm [portB b, portA c])
    (hl0 : net.loads = []) (hc0 : net.crosses = []) (hs0 : net.sames = []) (hnd : ∀ n ∈ net.nodes, ∃ b ∈ a :: bs, n ∈ [portA b, portB b]) {l₀ : TRL.Line}
    (hsec : Sections f (l₀.z (2 * Real.pi * f)) (l₀.y (2 * Real.pi * f)) 0 (a :: bs) l₀.L) (hports : s.ports = [portA a, portB ((a :: bs).getLast (by simp))])
    (hnames : s.names = []) {S₀ : SMat ℂ} (hl : (Part.line l₀).Proper ode f) (hg : ((Part.line l₀).getS ode npc f (r : ℂ)).2 = .ok S₀) :
    ∃ s', getS (partOps ode npc face Fl) s f none fl = (s', .ok S₀) := by
  have hrc : (r : ℂ) ≠ 0 := by exact_mod_cast hr
  have hlaw := C80_parts_lawful (ode := ode) (npc := npc) (face := face) (Fl := Fl)
  have hinv := h.inv hlaw
  have hperm := hinv.rep.ports_perm
  have hfree : net.free ≠ [] := by
    intro e
    rw [e, hports] at hperm
    simpa using hperm.length_eq
  obtain ⟨V1, I1, V2, I2, hF⟩ := TRL.solves_fund hl.1 (2 * Real.pi * f)
  have hz0 := part_law (npc := npc) hl hr hg
  have hlast : (a :: bs).getLast? = some ((a :: bs).getLast (by simp)) := List.getLast?_eq_getLast_of_ne_nil (by simp)
  generalize hc : (a :: bs).getLast (by simp) = c at hports hlast
  have hpf : ∀ p ∈ net.free, p = portA a ∨ p = portB c := by
    intro p hp
    have := hperm.mem_iff.2 hp
    rw [hports] at this
    simpa using this
  have hfp : ∀ p, p = portA a ∨ p = portB c → p ∈ net.free := by
    intro p hp
    refine hperm.mem_iff.1 ?_
    rw [hports]
    simpa using hp
  have hmain : (∃ s' S, getS (partOps ode npc face Fl) s f none fl = (s', .ok S)) := by
    refine (C80_answers hr h hph hp hans hfree (Or.inl hnames)).2 ⟨fun e => ?_, fun V I V' I' hV hV' hpq n hn => ?_⟩
    · let p : ℕ → Node := fun k => if k = 0 then portA a else portB c
      let o : ℕ → ℂ := fun k => ∑ j : Fin 2, S₀.at k j * (e (p j) / 2)
      let v : ℕ → ℂ := fun k => e (p k) / 2 + o k
      let i : ℕ → ℂ := fun k => (e (p k) / 2 - o k) / r
      have hinc : ∀ k, (v k + r * i k) / 2 = e (p k) / 2 := by intro k; simp only [v, i]; field_simp; ring
      have hlw := (hz0 v i).1 (by
        intro k hk
        have : (v k - r * i k) / 2 = o k := by simp only [v, i]; field_simp; ring
        rw [this]
        refine Finset.sum_congr rfl fun j _ => ?_
        rw [hinc])
      simp only [Part.Law] at hlw
      obtain ⟨Vs, Is, hT, e1, e2, e3, e4⟩ := hlw
      obtain ⟨c1, c2, c3, c4⟩ := sections_chain hT (a :: bs) hsec (by rw [← hm]; exact hinv.rep.rep.bnd) (by
        intro b hb
        have hbm : b ∈ s.blocks := by rw [hm]; exact hb
        have hblen : b.ports.length = 2 := by
          have := hinv.rep.rep.blen b hbm
          rw [this]
          obtain ⟨l, hl⟩ : ∃ l, b.obj = .line l := sections_line hsec b hb
          show Part.len b.obj = 2
          rw [hl]; rfl
        have b0 := (hinv.rep.rep.bcol b hbm 0 (by omega)).1
        have b1 := (hinv.rep.rep.bcol b hbm 1 (by omega)).1
        intro eq
        have eA : portA b = .blk b.name b.ports[0] := by simp [portA, hblen]
        have eB : portB b = .blk b.name b.ports[1] := by simp [portB, hblen]
        rw [← eA] at b0
        rw [← eB, ← eq] at b1
        have hlt := (List.getElem?_eq_some_iff.1 b0).1
        have := (List.getElem?_inj hlt hinv.rep.rep.wnd).1 (b0.trans b1.symm)
        omega)
      refine ⟨fun n => Vs (chainPos 0 (a :: bs) n).1, fun n => (chainPos 0 (a :: bs) n).2 * Is (chainPos 0 (a :: bs) n).1, ⟨by rw [hm]; exact c1, fun j hjm => ?_, by simp [hl0], by simp [hc0], by simp [hs0]⟩, fun q hq => ?_⟩
      · obtain ⟨b, d, hbd, hnew, hpm⟩ := hjs j hjm
        obtain ⟨k1, k2⟩ := c2 b d hbd
        refine ⟨?_, ?_⟩
        · rw [hnew]
          intro x hx y hy
          simp only [Option.toList_none, List.append_nil, hpm.mem_iff, List.mem_cons, List.not_mem_nil, or_false] at hx hy
          rcases hx with rfl | rfl <;> rcases hy with rfl | rfl
          · rfl
          · exact k1
          · exact k1.symm
          · rfl
        · rw [hnew, (hpm.map _).sum_eq]
          simp only [List.map_cons, List.map_nil, List.sum_cons, List.sum_nil, add_zero]
          dsimp only at k2
          rw [k2]
          ring
      · rcases hpf q hq with rfl | rfl
        · obtain ⟨k1, k2⟩ := c3 a rfl
          rw [k1, k2, e1, e3]
          have := hinc 0
          simp only [p, if_pos] at this
          simp only [Fin.val_zero, neg_neg]
          linear_combination 2 * this
        · obtain ⟨k1, k2⟩ := c4 c hlast
          rw [k1, k2, e2, e4]
          have := hinc 1
          simp only [p, one_ne_zero, if_false] at this
          simp only [Fin.val_one]
          linear_combination 2 * this
    · have z1 : TRL.LineLaw (l₀.z (2 * Real.pi * f)) (l₀.y (2 * Real.pi * f)) 0 ![V (portA a), V (portA a)] ![I (portA a), -I (portA a)] :=
        (TRL.lineLaw_zero hF.t1 hF.t2 hF.a hF.b hF.c hF.d _ _).2 ⟨rfl, rfl⟩
      have z2 : TRL.LineLaw (l₀.z (2 * Real.pi * f)) (l₀.y (2 * Real.pi * f)) 0 ![V' (portA a), V' (portA a)] ![I' (portA a), -I' (portA a)] :=
        (TRL.lineLaw_zero hF.t1 hF.t2 hF.a hF.b hF.c hF.d _ _).2 ⟨rfl, rfl⟩
      have hout : ∀ V I, Physics net r f s.blocks V I → (V (portA a) - r * I (portA a)) / 2 = S₀.at 0 0 * ((V (portA a) + r * I (portA a)) / 2) +
          S₀.at 0 1 * ((V (portB c) + r * I (portB c)) / 2) := by
        intro V I hV
        have zz : TRL.LineLaw (l₀.z (2 * Real.pi * f)) (l₀.y (2 * Real.pi * f)) 0 ![V (portA a), V (portA a)] ![I (portA a), -I (portA a)] :=
          (TRL.lineLaw_zero hF.t1 hF.t2 hF.a hF.b hF.c hF.d _ _).2 ⟨rfl, rfl⟩
        have hw := chain_law hF hV bs a hsec (by rw [hm]; simp) hj zz
        rw [hc] at hw
        have hlw : (Part.line l₀).Law f (fun k => V (if k = 0 then portA a else portB c)) (fun k => I (if k = 0 then portA a else portB c)) := by
          simp only [Part.Law]
          convert hw using 1 <;> · funext k; fin_cases k <;> simp
        have := (hz0 _ _).2 hlw 0 (by simp [Part.len])
        rw [if_pos rfl] at this
        refine this.trans ?_
        show ∑ j : Fin 2, _ = _
        rw [Fin.sum_univ_two]
        simp
      have hA := hpq (portA a) (hfp _ (Or.inl rfl))
      have hB := hpq (portB c) (hfp _ (Or.inr rfl))
      have o1 := hout V I hV
      have o2 := hout V' I' hV'
      rw [hA, hB, ← o2] at o1
      have hVA : V (portA a) = V' (portA a) := by linear_combination hA / 2 + o1
      have hIA : I (portA a) = I' (portA a) := by
        apply mul_left_cancel₀ hrc
        linear_combination hA / 2 - o1
      obtain ⟨b, hb, hnb⟩ := hnd n hn
      refine chain_unique (v0 := V (portA a)) (i0 := I (portA a)) hF hV hV' hsec (by rw [hm]; simp) hj ?_ b hb n hnb
      intro a' ha'
      cases ha'
      refine ⟨z1, ?_⟩
      rw [hVA, hIA]
      exact z2
  obtain ⟨s', S, hs⟩ := hmain
  have hpp := C49_labels hlaw h hph hfree (Or.inl hnames) hs
  have hzb : s'.zbase = (r : ℂ) := ((Built.eval h hs).inv hlaw).zb
  have hs2 : getS (partOps ode npc face Fl) s f (some (r : ℂ)) fl = (s', .ok S) := by
    unfold getS at hs ⊢
    cases hg1 : get1S (partOps ode npc face Fl) s f fl with
    | mk s1 q =>
      rw [hg1] at hs
      cases q with
      | error e => cases hs
      | ok M =>
        cases hs
        dsimp only
        rw [if_neg (by rw [hzb]; simp)]
  have := C80_split hr hr h hph hp hs2 (by rw [hm]; simp) hj hsec (by rw [hpp, hports, hc]) hl hg
  exact ⟨s', by rw [hs, this]⟩

theorem scatterV_waves {n : Type*} [Fintype n] {z : ℂ} (hz : z ≠ 0) {S : Matrix n n ℂ} {V I : n → ℂ} (h : ScatterV z S V I) :
    ∃ a, V = a + S.mulVec a ∧ I = fun i => (a i - S.mulVec a i) / z := by
  refine ⟨fun i => (V i + z * I i) / 2, ?_, ?_⟩
  · funext i
    have := congrFun h i
    simp only [Pi.add_apply]
    rw [← this]
    ring
  · funext i
    have := congrFun h i
    rw [← this]
    field_simp
    ring

theorem portPower_passive {n : Type*} [Fintype n] {r : ℝ} (hr : 0 < r) {S : Matrix n n ℂ} (hS : Passive S) {V I : n → ℂ} (h : ScatterV (r : ℂ) S V I) :
    0 ≤ portPower V I := by
  obtain ⟨a, rfl, rfl⟩ := scatterV_waves (by exact_mod_cast hr.ne') h
  have h1 := portPower_wave hr.ne' a (S.mulVec a)
  have h2 := hS a
  exact le_of_mul_le_mul_left (by rw [mul_zero, h1]; linarith) hr

theorem portPower_lossless {n : Type*} [Fintype n] {r : ℝ} (hr : 0 < r) {S : Matrix n n ℂ} (hS : Lossless S) {V I : n → ℂ} (h : ScatterV (r : ℂ) S V I) :
    portPower V I = 0 := by
  obtain ⟨a, rfl, rfl⟩ := scatterV_waves (by exact_mod_cast hr.ne') h
  have h1 := portPower_wave hr.ne' a (S.mulVec a)
  have h2 := hS a
  rw [h2, sub_self] at h1
  exact (mul_eq_zero.1 h1).resolve_left hr.ne'

theorem ports_reciprocal {n : Type*} [Fintype n] {z : ℂ} (hz : z ≠ 0) {S : Matrix n n ℂ} (hS : Reciprocal S) {V I V' I' : n → ℂ} (h : ScatterV z S V I)
    (h' : ScatterV z S V' I') : ∑ i, V i * I' i = ∑ i, V' i * I i := by
  obtain ⟨a, rfl, rfl⟩ := scatterV_waves hz h
  obtain ⟨b, rfl, rfl⟩ := scatterV_waves hz h'
  have key : ∑ i, S.mulVec a i * b i = ∑ i, S.mulVec b i * a i := by
    have e : dotProduct (S.mulVec a) b = dotProduct (S.mulVec b) a := by
      rw [dotProduct_comm, Matrix.dotProduct_mulVec, ← Matrix.mulVec_transpose, hS]
    exact e
  have e1 : ∀ i, (a + S.mulVec a) i * ((b i - S.mulVec b i) / z) - (b + S.mulVec b) i * ((a i - S.mulVec a i) / z) =
      2 / z * (S.mulVec a i * b i) - 2 / z * (S.mulVec b i * a i) := by
    intro i; simp only [Pi.add_apply]; ring
  rw [← sub_eq_zero, ← Finset.sum_sub_distrib, Finset.sum_congr rfl fun i _ => e1 i, Finset.sum_sub_distrib, ← Finset.mul_sum, ← Finset.mul_sum, key, sub_self]

/-- `getS` without reference and with the circuit's own -/
theorem parts_getS_own (h : Built (partOps ode npc face Fl) (partBeh ode npc Fl) nan (r : ℂ) names net bh s ph)
    (hs : getS (partOps ode npc face Fl) s f none fl = (s', .ok S)) : getS (partOps ode npc face Fl) s f (some (r : ℂ)) fl = (s', .ok S) := by
  have hzb : s'.zbase = (r : ℂ) := ((Built.eval h hs).inv C80_parts_lawful).zb
  unfold getS at hs ⊢
  cases hg1 : get1S (partOps ode npc face Fl) s f fl with
  | mk s1 q =>
    rw [hg1] at hs
    cases q with
    | error e => cases hs
    | ok M =>
      cases hs
      dsimp only
      rw [if_neg (by rw [hzb]; simp)]

/-- the matrices on two references have the same port states -/
theorem parts_transfer (hr : r ≠ 0) (hz : z ≠ 0) (h : Built (partOps ode npc face Fl) (partBeh ode npc Fl) nan (r : ℂ) names net bh s ph)
    (hph : ph ≠ .reloaded) (hp : ∀ b ∈ s.blocks, b.obj.Proper ode f) (hs : getS (partOps ode npc face Fl) s f (some (z : ℂ)) fl = (s', .ok S)) :
    ∃ M, getS (partOps ode npc face Fl) s f none fl = (s', .ok M) ∧ ∀ v i, ScatterV (z : ℂ) (Matrix.of fun a b : Fin s'.ports.length => S.at a b) v i ↔
      ScatterV (r : ℂ) (Matrix.of fun a b : Fin s'.ports.length => M.at a b) v i := by
  obtain ⟨M, hM⟩ : ∃ M, getS (partOps ode npc face Fl) s f none fl = (s', .ok M) := by
    unfold getS at hs ⊢
    cases hg1 : get1S (partOps ode npc face Fl) s f fl with
    | mk s1 q =>
      rw [hg1] at hs
      cases q with
      | error e => cases hs
      | ok M =>
        refine ⟨M, ?_⟩
        dsimp only at hs ⊢
        have := congrArg Prod.fst hs
        split at this <;> · dsimp only at this; rw [this]
  refine ⟨M, hM, fun v i => ?_⟩
  rw [C80_physics hr hz h hph hp hs, C80_physics hr hr h hph hp (parts_getS_own h hM)]

theorem part_passive {p : Part} {f r : ℝ} {S : SMat ℂ} (hp : p.Proper ode f) (hd : p.Dissipative f) (hr : 0 < r)
    (h : (p.getS ode npc f (r : ℂ)).2 = .ok S) : Passive S.m := by
  unfold Part.getS at h
  rw [if_neg (by simp)] at h
  simp only [Complex.ofReal_re] at h
  cases p with
  | line l =>
    dsimp only at h
    cases hg : TRL.getS ode l f (some r) [] with
    | mk l' q =>
      have hsame := line_same (ode := ode) (l := l) (f := f) (z := some r)
      rw [hg] at h hsame
      cases q with
      | error e => cases h
      | ok M =>
        cases h
        change TRL.Same _ l' at hsame
        have hZ : l'.Zbase = l.Zbase := by rw [hsame]
        have hL : l'.L = l.L := by rw [hsame]
        exact TRL.C11_passive hp.1 (by rw [hZ]; exact hp.2) (by simpa [TRL.refOf, hr.ne'] using hr) (by rw [hL]; exact hd.1) hg (fun x => (hd.2 x).1)
          (fun x => (hd.2 x).2)
  | rlc s =>
    dsimp only at h
    cases hg : RLC.getS1 npc s (some r) (fun _ => none) f with
    | mk s' q =>
      rw [hg] at h
      cases q with
      | error e => cases h
      | ok M =>
        cases h
        exact RLC.C14_passive (Zb := some r) (params := fun _ => none) hd hr hg
  | base n g Z =>
    dsimp only at h
    cases hg : RfBase.getS g Z (some r) f with
    | error e => rw [hg] at h; cases h
    | ok M =>
      rw [hg] at h
      cases h
      obtain ⟨T, hT, -, hVI⟩ := RfBase.C34_getS_reference (by exact hr.ne') hg
      exact passive_of_ports hr fun V I hV => portPower_passive hd.1 (hd.2 T hT) ((hVI V I).2 hV)

theorem part_lossless {p : Part} {f r : ℝ} {S : SMat ℂ} (hp : p.Proper ode f) (hd : p.Reactive f) (hr : 0 < r)
    (h : (p.getS ode npc f (r : ℂ)).2 = .ok S) : Lossless S.m := by
  unfold Part.getS at h
  rw [if_neg (by simp)] at h
  simp only [Complex.ofReal_re] at h
  cases p with
  | line l =>
    dsimp only at h
    cases hg : TRL.getS ode l f (some r) [] with
    | mk l' q =>
      have hsame := line_same (ode := ode) (l := l) (f := f) (z := some r)
      rw [hg] at h hsame
      cases q with
      | error e => cases h
      | ok M =>
        cases h
        change TRL.Same _ l' at hsame
        have hZ : l'.Zbase = l.Zbase := by rw [hsame]
        exact TRL.C11_lossless hp.1 (by rw [hZ]; exact hp.2) (by simpa [TRL.refOf, hr.ne'] using hr) hg (fun x => (hd x).1) (fun x => (hd x).2)
  | rlc s =>
    dsimp only at h
    cases hg : RLC.getS1 npc s (some r) (fun _ => none) f with
    | mk s' q =>
      rw [hg] at h
      cases q with
      | error e => cases h
      | ok M =>
        cases h
        exact RLC.C14_lossless (Zb := some r) (params := fun _ => none) hd.1 hd.2 hr hg
  | base n g Z =>
    dsimp only at h
    cases hg : RfBase.getS g Z (some r) f with
    | error e => rw [hg] at h; cases h
    | ok M =>
      rw [hg] at h
      cases h
      obtain ⟨T, hT, -, hVI⟩ := RfBase.C34_getS_reference (by exact hr.ne') hg
      exact lossless_of_ports hr fun V I hV => portPower_lossless hd.1 (hd.2 T hT) ((hVI V I).2 hV)

theorem part_recip {p : Part} {f r : ℝ} {S : SMat ℂ} (hp : p.Proper ode f) (hd : p.Recip f) (hr : r ≠ 0)
    (h : (p.getS ode npc f (r : ℂ)).2 = .ok S) : Reciprocal S.m := by
  unfold Part.getS at h
  rw [if_neg (by simp)] at h
  simp only [Complex.ofReal_re] at h
  cases p with
  | line l =>
    dsimp only at h
    cases hg : TRL.getS ode l f (some r) [] with
    | mk l' q =>
      have hsame := line_same (ode := ode) (l := l) (f := f) (z := some r)
      rw [hg] at h hsame
      cases q with
      | error e => cases h
      | ok M =>
        cases h
        change TRL.Same _ l' at hsame
        have hZ : l'.Zbase = l.Zbase := by rw [hsame]
        exact TRL.C10_reciprocal hp.1 (by rw [hZ]; exact hp.2) hg
  | rlc s =>
    dsimp only at h
    cases hg : RLC.getS1 npc s (some r) (fun _ => none) f with
    | mk s' q =>
      rw [hg] at h
      cases q with
      | error e => cases h
      | ok M =>
        cases h
        exact RLC.C14_reciprocal hg
  | base n g Z =>
    dsimp only at h
    cases hg : RfBase.getS g Z (some r) f with
    | error e => rw [hg] at h; cases h
    | ok M =>
      rw [hg] at h
      cases h
      have hrc : (r : ℂ) ≠ 0 := by exact_mod_cast hr
      have hZc : (Z : ℂ) ≠ 0 := by exact_mod_cast hd.1
      obtain ⟨T, hT, -, hVI⟩ := RfBase.C34_getS_reference (by exact hr) hg
      exact reciprocal_of_ports hrc fun V I V' I' hV hV' => ports_reciprocal hZc (hd.2 T hT) ((hVI V I).2 hV) ((hVI V' I').2 hV')

theorem blocks_all {P : SMat ℂ → Prop} {zb : ℂ} (hinv : Inv (partOps ode npc face Fl) (partBeh ode npc Fl) zb names net bh s) {Sof : String → SMat ℂ}
    (hS : Given net bh f zb fl Sof) (H : ∀ b ∈ s.blocks, ∀ T, (b.obj.getS ode npc f zb).2 = .ok T → P T) : ∀ x ∈ net.blks, P (Sof x.1) := by
  intro x hx
  have hx' := hx
  rw [hinv.rep.rep.blks] at hx'
  simp only [List.mem_map] at hx'
  obtain ⟨b, hb, rfl⟩ := hx'
  refine H b hb _ ?_
  have := hS _ hx
  rw [← hinv.bhv b hb] at this
  exact this

theorem of_at {m : ℕ} (hn : S.n = m) : (∀ P : (n : ℕ) → Matrix (Fin n) (Fin n) ℂ → Prop, P _ S.m → P _ (Matrix.of fun a b : Fin m => S.at a b)) := by
  intro P h
  obtain ⟨n, m⟩ := S
  dsimp only at hn
  subst hn
  convert h using 1
  ext a b
  simp [SMat.at]

/-- **C80 (passive).** A circuit of objects that cannot deliver power, with passive loads, returns a passive matrix on every positive reference. -/
theorem C80_passive (hr : 0 < r) (hz : 0 < z) (h : Built (partOps ode npc face Fl) (partBeh ode npc Fl) nan (r : ℂ) names net bh s ph)
    (hph : ph ≠ .reloaded) (hpl : net.Plain) (hp : ∀ b ∈ s.blocks, b.obj.Proper ode f ∧ b.obj.Dissipative f) (hl : ∀ x ∈ net.loads, x.2.Passive)
    (hs : getS (partOps ode npc face Fl) s f (some (z : ℂ)) fl = (s', .ok S)) : Passive (Matrix.of fun a b : Fin s'.ports.length => S.at a b) := by
  have hlaw := C80_parts_lawful (ode := ode) (npc := npc) (face := face) (Fl := Fl)
  obtain ⟨M, hM, ht⟩ := parts_transfer hr.ne' hz.ne' h hph (fun b hb => (hp b hb).1) hs
  obtain ⟨⟨Sof, hS⟩, hsc⟩ := C20_getS_sound hlaw h hph hM
  have hpas := C23_passive hr hlaw h hph hpl hM hS (blocks_all (P := fun T => Passive T.m) (h.inv hlaw) hS fun b hb T hT =>
    part_passive (hp b hb).1 (hp b hb).2 hr hT) hl
  have := of_at (hsc Sof hS).size (fun n m => Passive m) hpas
  exact passive_of_ports hz fun V I hV => portPower_passive hr this ((ht V I).1 hV)

/-- **C80 (lossless).** A circuit of objects that neither absorb nor deliver power, with lossless loads, returns a lossless matrix on every positive reference. -/
theorem C80_lossless (hr : 0 < r) (hz : 0 < z) (h : Built (partOps ode npc face Fl) (partBeh ode npc Fl) nan (r : ℂ) names net bh s ph)
    (hph : ph ≠ .reloaded) (hpl : net.Plain) (hp : ∀ b ∈ s.blocks, b.obj.Proper ode f ∧ b.obj.Reactive f) (hl : ∀ x ∈ net.loads, x.2.Lossless)
    (hs : getS (partOps ode npc face Fl) s f (some (z : ℂ)) fl = (s', .ok S)) : Lossless (Matrix.of fun a b : Fin s'.ports.length => S.at a b) := by
  have hlaw := C80_parts_lawful (ode := ode) (npc := npc) (face := face) (Fl := Fl)
  obtain ⟨M, hM, ht⟩ := parts_transfer hr.ne' hz.ne' h hph (fun b hb => (hp b hb).1) hs
  obtain ⟨⟨Sof, hS⟩, hsc⟩ := C20_getS_sound hlaw h hph hM
  have hpas := C23_lossless hr hlaw h hph hpl hM hS (blocks_all (P := fun T => Lossless T.m) (h.inv hlaw) hS fun b hb T hT =>
    part_lossless (hp b hb).1 (hp b hb).2 hr hT) hl
  have := of_at (hsc Sof hS).size (fun n m => Lossless m) hpas
  exact lossless_of_ports hz fun V I hV => portPower_lossless hr this ((ht V I).1 hV)

/-- **C80 (reciprocal).** A circuit of reciprocal objects returns a symmetric matrix on every reference. -/
theorem C80_reciprocal (hr : r ≠ 0) (hz : z ≠ 0) (h : Built (partOps ode npc face Fl) (partBeh ode npc Fl) nan (r : ℂ) names net bh s ph)
    (hph : ph ≠ .reloaded) (hpl : net.Plain) (hp : ∀ b ∈ s.blocks, b.obj.Proper ode f ∧ b.obj.Recip f)
    (hs : getS (partOps ode npc face Fl) s f (some (z : ℂ)) fl = (s', .ok S)) : Reciprocal (Matrix.of fun a b : Fin s'.ports.length => S.at a b) := by
  have hrc : (r : ℂ) ≠ 0 := by exact_mod_cast hr
  have hzc : (z : ℂ) ≠ 0 := by exact_mod_cast hz
  have hlaw := C80_parts_lawful (ode := ode) (npc := npc) (face := face) (Fl := Fl)
  obtain ⟨M, hM, ht⟩ := parts_transfer hr hz h hph (fun b hb => (hp b hb).1) hs
  obtain ⟨⟨Sof, hS⟩, hsc⟩ := C20_getS_sound hlaw h hph hM
  have hrec := C23_reciprocal hlaw h hph hpl hrc hM hS (blocks_all (P := fun T => Reciprocal T.m) (h.inv hlaw) hS fun b hb T hT =>
    part_recip (hp b hb).1 (hp b hb).2 hr hT)
  have := of_at (hsc Sof hS).size (fun n m => Reciprocal m) hrec
  exact reciprocal_of_ports hzc fun V I V' I' hV hV' => ports_reciprocal hrc this ((ht V I).1 hV) ((ht V' I').1 hV')

end

/-! ## a concrete circuit -/

namespace ExParts

/-- a lossless line of length `L` -/
noncomputable def line (L : ℝ) : TRL.Line :=
  { ports := ["1", "2"], L := L, Zbase := 50, dx := .int 36, constant := true, z := fun _ _ => Complex.I, y := fun _ _ => Complex.I, xpos := (0, L), solved := [] }

/-- names and positions of the ports -/
def face : Face := ⟨fun _ => some ["1", "2"], fun _ => some [0, 1], fun _ _ => .ok 0⟩

variable (ode : TRL.Ode)

theorem proper {L f : ℝ} : (Part.line (line L)).Proper ode f := by
  refine ⟨?_, by norm_num [line]⟩
  unfold TRL.Solves
  rw [if_pos (show (line L).constant = true from rfl)]
  intro w x
  exact ⟨rfl, rfl⟩

theorem answers {L f : ℝ} (hL : 0 ≤ L) : ∃ S, ((Part.line (line L)).getS ode false f ((50 : ℝ) : ℂ)).2 = .ok S := by
  obtain ⟨o', S, h⟩ := TRL.C11_total (ode := ode) (o := line L) (proper ode (f := f)).1 rfl (by unfold TRL.GridOK; simp [line]) f (by norm_num [line]) hL
    (Or.inr (by simp [line])) (by simp [line]) (by simp [line])
  have e1 : TRL.set (line L) [] = (line L, .ok ()) := by simp [TRL.set, TRL.setLoop, line]
  have h2 : TRL.getS ode (line L) f (some 50) [] = (o', .ok S) := by
    have hsame := line_same (ode := ode) (l := line L) (f := f) (z := none)
    rw [h] at hsame
    have hZ : o'.Zbase = 50 := by
      have : TRL.Same _ o' := hsame
      rw [this]; rfl
    unfold TRL.getS at h ⊢
    rw [e1] at h ⊢
    dsimp only at h ⊢
    unfold TRL.get1S at h ⊢
    cases he : TRL.ensure ode (line L) f with
    | mk o1 q =>
      rw [he] at h
      cases q with
      | error e => cases h
      | ok s =>
        cases h
        dsimp only
        rw [if_pos (Or.inr hZ.symm)]
  refine ⟨⟨2, S⟩, ?_⟩
  unfold Part.getS
  rw [if_neg (by simp)]
  simp only [Complex.ofReal_re, h2]
  rfl

noncomputable abbrev op := partOps ode false face Unit
abbrev St' := St ℂ Part ℝ Unit
noncomputable def t0 : St' := St.init ((50 : ℝ) : ℂ) []
noncomputable def t1 : St' := (addblock (op ode) 0 t0 "A" (.line (line 1)) .none 0).1
noncomputable def t2 : St' := (addblock (op ode) 0 (t1 ode) "B" (.line (line 2)) .none 1).1
noncomputable def t3 : St' := (connect (op ode) (t2 ode) [.blk "A" "2", .blk "B" "1"]).1

def net : Net ℂ where
  blks := [("A", ["1", "2"]), ("B", ["1", "2"])]
  nodes := [.blk "A" "1", .blk "A" "2", .blk "B" "1", .blk "B" "2"]
  juncs := [⟨[.blk "A" "2", .blk "B" "1"], none⟩]
  loads := []
  crosses := []
  sames := []

theorem built : ∃ bh, Built (op ode) (partBeh ode false Unit) 0 ((50 : ℝ) : ℂ) [] net bh (t3 ode) .building := by
  have h0 : Built (op ode) (partBeh ode false Unit) 0 ((50 : ℝ) : ℂ) [] Net.empty (fun _ _ _ _ => .error .valueError) t0 .building := Built.init _
  have h1 := Built.addblock h0 (by decide) (ports := ["1", "2"]) rfl (by decide) (show addblock (op ode) 0 t0 "A" (.line (line 1)) .none 0 = (t1 ode, .ok ()) from Prod.ext rfl rfl)
  have h2 := Built.addblock h1 (by decide) (ports := ["1", "2"]) rfl (by decide) (show addblock (op ode) 0 (t1 ode) "B" (.line (line 2)) .none 1 = (t2 ode, .ok ()) from Prod.ext rfl rfl)
  have h3 := Built.connect h2 (show connect (op ode) (t2 ode) [.blk "A" "2", .blk "B" "1"] = (t3 ode, .ok ()) from Prod.ext rfl rfl)
  exact ⟨_, h3⟩

/-- the hypotheses of C80_split_answers (and so of C80_split, C80_physics, C80_answers) are met by a line of length 3 cut into lengths 1 and 2 -/
theorem C80_witness (f : ℝ) : ∃ S₀ s', ((Part.line (line 3)).getS ode false f ((50 : ℝ) : ℂ)).2 = .ok S₀ ∧ getS (op ode) (t3 ode) f none () = (s', .ok S₀) := by
  obtain ⟨bh, hb⟩ := built ode
  obtain ⟨S₀, hS⟩ := answers ode (f := f) (show (0 : ℝ) ≤ 3 by norm_num)
  let A : Blk Part := ⟨"A", ["1", "2"], (0, 0), .line (line 1), 0⟩
  let B : Blk Part := ⟨"B", ["1", "2"], (2, 4), .line (line 2), 1⟩
  have hbl : (t3 ode).blocks = [A, B] := rfl
  obtain ⟨s', hs⟩ := C80_split_answers (fl := ()) (by norm_num) hb (by decide) (f := f) (by
      rw [hbl]; intro b hbm; simp only [List.mem_cons, List.not_mem_nil, or_false] at hbm
      rcases hbm with rfl | rfl <;> exact proper ode) (by
      rw [hbl]; intro b hbm; simp only [List.mem_cons, List.not_mem_nil, or_false] at hbm
      rcases hbm with rfl | rfl
      · exact answers ode (by norm_num)
      · exact answers ode (by norm_num)) hbl
    ⟨⟨_, List.mem_singleton_self _, rfl, List.Perm.refl _⟩, trivial⟩
    (by
      intro j hj
      simp only [net, List.mem_cons, List.not_mem_nil, or_false] at hj
      subst hj
      exact ⟨A, B, List.infix_refl _, rfl, List.Perm.refl _⟩) rfl rfl rfl
    (by
      intro n hn
      simp only [net, List.mem_cons, List.not_mem_nil, or_false] at hn
      rcases hn with rfl | rfl | rfl | rfl
      · exact ⟨A, by simp, by simp [portA, A]⟩
      · exact ⟨A, by simp, by simp [portB, A]⟩
      · exact ⟨B, by simp, by simp [portA, B]⟩
      · exact ⟨B, by simp, by simp [portB, B]⟩) (l₀ := line 3)
    (by
      refine .cons (line 1) rfl (fun _ => rfl) (fun _ => rfl) (.cons (line 2) rfl (fun _ => rfl) (fun _ => rfl) ?_)
      have : (0 : ℝ) + (line 1).L + (line 2).L = (line 3).L := by norm_num [line]
      rw [this]
      exact .nil _) rfl rfl (proper ode) hS
  exact ⟨S₀, s', hS, hs⟩

/-- … and those of C80_passive, C80_lossless and C80_reciprocal -/
theorem C80_power_witness (f : ℝ) {s' : St'} {S : SMat ℂ} {z : ℝ} (hz : 0 < z) (hs : getS (op ode) (t3 ode) f (some (z : ℂ)) () = (s', .ok S)) :
    Passive (Matrix.of fun a b : Fin s'.ports.length => S.at a b) ∧ Lossless (Matrix.of fun a b : Fin s'.ports.length => S.at a b) ∧
      Reciprocal (Matrix.of fun a b : Fin s'.ports.length => S.at a b) := by
  obtain ⟨bh, hb⟩ := built ode
  have hobj : ∀ b ∈ (t3 ode).blocks, ∃ L : ℝ, 0 ≤ L ∧ b.obj = .line (line L) := by
    have hbl : (t3 ode).blocks.map Blk.obj = [.line (line 1), .line (line 2)] := rfl
    intro b hbm
    have := List.mem_map_of_mem (f := Blk.obj) hbm
    rw [hbl] at this
    simp only [List.mem_cons, List.not_mem_nil, or_false] at this
    rcases this with e | e
    · exact ⟨1, by norm_num, e⟩
    · exact ⟨2, by norm_num, e⟩
  refine ⟨C80_passive (by norm_num) hz hb (by decide) ⟨rfl, rfl⟩ (fun b hbm => ?_) (by simp [net]) hs,
    C80_lossless (by norm_num) hz hb (by decide) ⟨rfl, rfl⟩ (fun b hbm => ?_) (by simp [net]) hs,
    C80_reciprocal (by norm_num) hz.ne' hb (by decide) ⟨rfl, rfl⟩ (fun b hbm => ?_) hs⟩
  · obtain ⟨L, hL, e⟩ := hobj b hbm
    rw [e]
    exact ⟨proper ode, hL, fun x => by simp [line]⟩
  · obtain ⟨L, hL, e⟩ := hobj b hbm
    rw [e]
    exact ⟨proper ode, fun x => by simp [line]⟩
  · obtain ⟨L, hL, e⟩ := hobj b hbm
    rw [e]
    exact ⟨proper ode, trivial⟩

end ExParts
end PyRFtk.Circuit
