import Verif.PartsPower
import Verif.ConvComplete

/-!
# C90: a circuit without gain can be evaluated unless it holds a resonance without loss
-/

set_option linter.unusedSectionVars false

namespace PyRFtk.Circuit

section
variable {K O F Fl : Type*} [Field K] [DecidableEq F] [DecidableEq Fl]
variable {ops : ObjOps K O F Fl} {beh : O → F → K → Fl → Except Err (SMat K)} {nan zb : K} {names : List Node}
variable {net : Net K} {bh : Behave K F Fl} {s s' : St K O F Fl} {ph : Phase}

/-- a square system whose only solution without excitation is zero -/
theorem Squared.det_of_unique {s : St K O F Fl} {iA iB iE : Fin s.ports.length → Fin s.cols} (q : Squared s iA iB iE)
    (h : Rep ops net s) {Sof : String → SMat K} (hf : Filled s.blocks s.rows Sof)
    (hu : ∀ w, net.Laws s.zbase Sof w → (∀ p ∈ s.ports, w (.inn, p) = 0) → ∀ n ∈ net.nodes, ∀ d, w (d, n) = 0) : s.mat.det ≠ 0 := by
  have hlw : s.waves.length = s.cols := h.wlen
  have hlaws : ∀ w, NonE s.core w ↔ net.Laws s.zbase Sof w := fun w => h.rep.laws_iff hf w
  have hwnd : s.waves.Nodup := h.rep.wnd
  intro hdet
  obtain ⟨v, hv1, hv2⟩ := Matrix.exists_mulVec_eq_zero_iff.2 hdet
  apply hv1
  have e1 : net.Laws s.zbase Sof (wOf s v) := by
    rw [← hlaws, q.non]
    intro i _
    rw [xOf_wOf hwnd hlw, hv2]; rfl
  have e3 := hu _ e1 (by
    intro p hp
    obtain ⟨j, hj, rfl⟩ := List.getElem_of_mem hp
    have h1 : xOf s (wOf s v) (iA ⟨j, hj⟩) = wOf s v (.inn, s.ports[j]) := wv_xOf (q.hA ⟨j, hj⟩)
    rw [← h1, xOf_wOf hwnd hlw]
    have h2 : s.mat.mulVec v (iE ⟨j, hj⟩) = v (iA ⟨j, hj⟩) := by
      simp [Matrix.mulVec, dotProduct, q.row]
    rw [← h2, hv2]; rfl)
  ext j
  have hj : (j : ℕ) < s.waves.length := by rw [hlw]; exact j.2
  have h1 : s.waves[(j : ℕ)]? = some s.waves[(j : ℕ)] := List.getElem?_eq_getElem hj
  have h2 : xOf s (wOf s v) j = _ := wv_xOf h1
  rw [xOf_wOf hwnd hlw] at h2
  have hm : (s.waves[(j : ℕ)].1, s.waves[(j : ℕ)].2) ∈ s.waves := List.getElem_mem hj
  rw [h2]
  exact e3 s.waves[(j : ℕ)].2 ((h.rep.wmem _ _).1 hm) s.waves[(j : ℕ)].1

theorem Solvable.perm {laws : (Wave → K) → Prop} {nodes p q : List Node} (hpq : ∀ x, x ∈ p ↔ x ∈ q) (H : Solvable laws nodes p) : Solvable laws nodes q :=
  ⟨fun a => by obtain ⟨w, h1, h2⟩ := H.exists_sol a; exact ⟨w, h1, fun p hp => h2 p ((hpq p).2 hp)⟩,
    fun w w' h1 h2 h3 => H.unique w w' h1 h2 fun p hp => h3 p ((hpq p).1 hp)⟩

/-- as many equations as unknowns: if only the zero state has no excitation, every excitation is possible -/
theorem solvable_of_unique (hlaw : Lawful ops beh) (hinv : Inv ops beh zb names net bh s) {f : F} {fl : Fl} {Sof : String → SMat K} (hS : Given net bh f zb fl Sof)
    (hcond : s.names = [] ∨ s.names.Perm s.ports)
    (hu : ∀ w, net.Laws zb Sof w → (∀ p ∈ net.free, w (.inn, p) = 0) → ∀ n ∈ net.nodes, ∀ d, w (d, n) = 0) : Solvable (net.Laws zb Sof) net.nodes net.free := by
  have hrep := hinv.rep
  have hzb := hinv.zb
  obtain ⟨f1, f2, f3, f4⟩ := fillBlocks_spec hlaw f s.zbase fl s.blocks s.rows hrep.rep.blen hrep.rep.rows_disjoint
  have hS' := hS
  rw [← hzb, hinv.delivers] at hS'
  have f4 := f4 fun b hb => ⟨_, hS' b hb⟩
  obtain ⟨g1, g2⟩ := f3 f4
  generalize fillBlocks ops f s.zbase fl s.blocks s.rows = r at f1 f2 f4 g2
  set s1 : St K O F Fl := { s with blocks := r.1, rows := r.2.1 } with hs1
  have hlike : List.Forall₂ (Blk.Like ops) s.blocks r.1 := f2.imp fun _ _ x => x.1
  have hrep1 : Rep ops net s1 := by
    refine ⟨hrep.rep.fill f1 hlike, hrep.wlen, ?_⟩
    intro b p hb
    have h1 := congrArg (List.map Prod.fst) (forall₂_like_map hlike)
    simp only [List.map_map] at h1
    have h3 : r.1.map Blk.name = s.blocks.map Blk.name := h1
    show b ∈ r.1.map Blk.name
    rw [h3]
    exact hrep.bnode b p hb
  have hfill1 : Filled s1.blocks s1.rows Sof := by
    have := g2 Sof hS'
    intro b' hb' i j har rr hrr'
    obtain ⟨b, hb, h1, h2⟩ := forall₂_mem_right f2 hb'
    obtain ⟨e1, e2, e3, _⟩ := h1
    have har' : b.Area i j := by simpa [Blk.Area, e2, e3] using har
    rw [e1, e3]
    exact this b hb i j har' rr hrr'
  obtain ⟨q1, q2, q3, q4, q5, q6, q7, q8, q9, q10⟩ := squareUp_spec hrep1
  have hok := q9.2 (Or.inr hcond)
  obtain ⟨t1, ⟨R, t2⟩, t3, t4⟩ := q8 hok
  generalize squareUp s1 = y at q1 q2 q3 t1 t2
  obtain ⟨s2, y2⟩ := y
  dsimp only at q1 q2 q3 t1 t2
  have hfill2 : Filled s2.blocks s2.rows Sof := by
    intro b hb i j har rr hrr'
    rw [q2] at hb
    have hb1 : i < s1.rows.length := by
      have e := hrep1.rep.eS b hb (i - b.loc.1) (by have := har.1; have := har.2.1; omega)
      have hi : b.loc.1 + (i - b.loc.1) = i := by have := har.1; omega
      rw [hi] at e
      have e1 := (List.getElem?_eq_some_iff.1 e).1
      have e2 : s1.eqns.length = s1.rows.length := hrep1.rep.elen
      have e3 : i < s1.eqns.length := e1
      omega
    rw [t2, List.getElem?_append_left hb1] at hrr'
    exact hfill1 b hb i j har rr hrr'
  have hz2 : s2.zbase = zb := q3.trans hzb
  obtain ⟨-, iA, iB, iE, q⟩ := q1.squared t1
  have hmem : ∀ x, x ∈ s2.ports ↔ x ∈ net.free := fun x => q1.ports_perm.mem_iff
  have hdet := q.det_of_unique q1 hfill2 (by
    rw [hz2]
    intro w hw h0
    exact hu w hw fun p hp => h0 p ((hmem p).2 hp))
  have := (q.solvable_iff q1 hfill2).1 hdet
  rw [hz2] at this
  exact this.perm hmem

/-- the error of an evaluation whose blocks answer and whose port names fit -/
theorem getS_linAlg [CharZero K] (hlaw : Lawful ops beh) (h : Built ops beh nan zb names net bh s ph) {f : F} {fl : Fl}
    (hans : ∀ b ∈ s.blocks, ∃ T, beh b.obj f zb fl = .ok T) (hfree : net.free ≠ []) (hnames : s.names = [] ∨ s.names.Perm net.free)
    {s' : St K O F Fl} {e : Err} (hs : getS ops s f none fl = (s', .error e)) : e = .linAlg := by
  obtain ⟨hinv, hb, hc⟩ := h.all hlaw
  have hp : s.ports ≠ [] := fun e => hfree (by have := hinv.rep.ports_perm; rw [e] at this; exact this.symm.eq_nil)
  have hs1 : get1S ops s f fl = (s', .error e) := by
    unfold getS at hs
    cases hg : get1S ops s f fl with
    | mk s1 r1 =>
      rw [hg] at hs
      cases r1 with
      | error e => simp only [Prod.mk.injEq, Except.error.injEq] at hs; rw [hs.1, hs.2]
      | ok M => simp at hs
  rcases get1S_eq (ops := ops) s f fl with ⟨M, e1, e2, e3, e4⟩ | ⟨_, e2⟩
  · rw [e4] at hs1; simp at hs1
  · rw [e2] at hs1
    obtain ⟨a, -⟩ := recompute_answer hlaw hinv hp f fl hs1
    have hfe : fillErr beh f zb fl s.blocks = none := by
      simp only [fillErr, List.findSome?_eq_none_iff]
      intro b hb
      obtain ⟨T, hT⟩ := hans b hb
      rw [hT]
    have hbad : ¬ Bad s := by
      rintro ⟨-, h1, h2⟩
      rcases hnames with h | h
      · exact h1 h
      · exact h2 (h.trans hinv.rep.ports_perm.symm)
    obtain ⟨Sof, -, ⟨-, S, h, -⟩ | ⟨-, h⟩⟩ := a.solve hfe hbad
    · cases h
    · cases h; rfl

end

/-! ## specification -/

/-- voltages and currents that keep themselves up: they obey all laws, are not all zero, vanish at all free ports, and no block and no load takes or gives power -/
structure Resonance {O : Type*} (law : O → (v i : ℕ → ℂ) → Prop) (net : Net ℂ) (zb : ℂ) (blocks : List (Blk O)) (V I : Node → ℂ) : Prop where
  physics : PhysicsL law net zb blocks V I
  alive : ∃ n ∈ net.nodes, V n ≠ 0 ∨ I n ≠ 0
  closed : ∀ p ∈ net.free, V p = 0 ∧ I p = 0
  parts : ∀ b ∈ blocks, (b.ports.map fun q => (V (.blk b.name q) * star (I (.blk b.name q))).re).sum = 0
  loads : ∀ x ∈ net.loads, (V x.1 * star (I x.1)).re = 0

/-- the object takes power whenever it is not at rest -/
def Takes {O : Type*} (len : O → ℕ) (law : O → (v i : ℕ → ℂ) → Prop) (o : O) : Prop :=
  ∀ v i, law o v i → ∑ k : Fin (len o), (v k * star (i k)).re = 0 → ∀ k < len o, v k = 0 ∧ i k = 0

/-- losses: a line of some length with series resistance (or shunt conductance) everywhere and some admittance (impedance) somewhere, a lumped element with a series and a
parallel resistor and no ideal short or open branch, a matrix that loses power from every excitation -/
def Part.Lossy (f : ℝ) : Part → Prop
  | .line l => 0 < l.L ∧ (∀ x, 0 ≤ (l.z (2 * Real.pi * f) x).re ∧ 0 ≤ (l.y (2 * Real.pi * f) x).re) ∧
      ((∀ x, 0 < (l.z (2 * Real.pi * f) x).re ∧ l.y (2 * Real.pi * f) x ≠ 0) ∨ ∀ x, 0 < (l.y (2 * Real.pi * f) x).re ∧ l.z (2 * Real.pi * f) x ≠ 0)
  | .rlc s => RLC.NonNeg s.elem ∧ f ≠ 0 ∧ (∃ R, s.elem .Rs = .fin R ∧ R ≠ 0) ∧ (∃ R, s.elem .Rp = .fin R ∧ R ≠ 0) ∧
      (∃ L, s.elem .Ls = .fin L) ∧ s.elem .Cs ≠ .fin 0 ∧ (∃ C, s.elem .Cp = .fin C) ∧ s.elem .Lp ≠ .fin 0
  | .base n g Z => 0 < Z ∧ ∀ T, g f = .ok T → ∀ a : Fin n → ℂ, a ≠ 0 → power (T.mulVec a) < power a

/-- an object at any depth with losses: a part with losses, or a circuit built without deembedding on a positive reference, with passive loads, from such objects; if it asks
for a port order, all its free ports are named -/
noncomputable def lossyAt {Fl : Type} [DecidableEq Fl] (ode : TRL.Ode) (npc : Bool) (face : Face) : (n : ℕ) → (partTower (Fl := Fl) ode npc face n).O → ℝ → Prop
  | 0 => fun (p : Part) f => p.Lossy f
  | n + 1 => fun o f => Sum.elim (fun a => lossyAt ode npc face n a f) (fun c => ∃ (nan : ℂ) (r : ℝ) (names : List Node) (net : Net ℂ) (bh : Behave ℂ ℝ Fl) (ph : Phase),
      0 < r ∧ Built (partTower ode npc face n).ops (partTower ode npc face n).beh nan (r : ℂ) names net bh c.st ph ∧ ph ≠ .reloaded ∧
      net.Plain ∧ (∀ x ∈ net.loads, x.2.Passive) ∧ (c.st.names = [] ∨ c.st.names.Perm net.free) ∧ ∀ b ∈ c.st.blocks, lossyAt ode npc face n b.obj f) o

/-- all lines, lumped elements, couplers and stored matrices inside an object answer on the reference of the circuit they are in -/
noncomputable def answersAt {Fl : Type} [DecidableEq Fl] (ode : TRL.Ode) (npc : Bool) (face : Face) (f : ℝ) : (n : ℕ) → (partTower (Fl := Fl) ode npc face n).O → ℂ → Prop
  | 0 => fun (p : Part) z => ∃ T, (p.getS ode npc f z).2 = .ok T
  | n + 1 => fun o z => Sum.elim (fun a => answersAt ode npc face f n a z) (fun c => ∀ b ∈ c.st.blocks, answersAt ode npc face f n b.obj c.st.zbase) o

/-- what the objects are made of: lines of uniform parameters with a usable grid and a positive reference of their own, a stored matrix for this frequency -/
def Part.Given (f : ℝ) : Part → Prop
  | .line l => l.constant = true ∧ TRL.GridOK l ∧ 0 < l.Zbase
  | .rlc _ => True
  | .base _ g _ => ∃ T, g f = .ok T

/-- all lines, lumped elements and stored matrices inside an object are given at this frequency -/
noncomputable def givenAt {Fl : Type} [DecidableEq Fl] (ode : TRL.Ode) (npc : Bool) (face : Face) (f : ℝ) : (n : ℕ) → (partTower (Fl := Fl) ode npc face n).O → Prop
  | 0 => fun (p : Part) => p.Given f
  | n + 1 => fun o => Sum.elim (fun a => givenAt ode npc face f n a) (fun c => ∀ b ∈ c.st.blocks, givenAt ode npc face f n b.obj) o

/-! ## proofs -/

section
variable {Fl : Type} [DecidableEq Fl]

section generic
variable {O : Type} {ops : ObjOps ℂ O ℝ Fl} {beh : O → ℝ → ℂ → Fl → Except Err (SMat ℂ)} {law : O → (v i : ℕ → ℂ) → Prop}
  {nan : ℂ} {r f : ℝ} {names : List Node} {net : Net ℂ} {bh : Behave ℂ ℝ Fl} {s s' : St ℂ O ℝ Fl} {ph : Phase} {fl : Fl}

theorem sum_ports (b : Blk O) (c : String → ℝ) : (b.ports.map c).sum = ∑ k : Fin b.ports.length, c (b.ports.getD k "") := by
  rw [← List.sum_ofFn]
  congr 1
  apply List.ext_getElem
  · simp
  · intro i h1 h2
    simp

theorem sum_zero_of_nonneg {α : Type*} {l : List α} {c : α → ℝ} (h0 : ∀ x ∈ l, 0 ≤ c x) (h : (l.map c).sum = 0) : ∀ x ∈ l, c x = 0 := by
  induction l with
  | nil => simp
  | cons a l ih =>
    rw [List.map_cons, List.sum_cons] at h
    have h1 := h0 a (by simp)
    have h2 : 0 ≤ (l.map c).sum := List.sum_nonneg fun y hy => by
      obtain ⟨x, hx, rfl⟩ := List.mem_map.1 hy
      exact h0 x (by simp [hx])
    rw [List.forall_mem_cons]
    exact ⟨by linarith, ih (fun x hx => h0 x (by simp [hx])) (by linarith)⟩

theorem re_sum {α : Type*} (l : List α) (c : α → ℂ) : (l.map c).sum.re = (l.map fun x => (c x).re).sum := by
  induction l with
  | nil => simp
  | cons a l ih => simp [ih]

/-- without excitation nothing is absorbed anywhere -/
theorem rest_of_passive (hlaw : Lawful ops beh) (hr : 0 < r) (h : Built ops beh nan (r : ℂ) names net bh s ph) (hpl : net.Plain)
    (habs : ∀ b ∈ s.blocks, ∀ v i, law b.obj v i → 0 ≤ ∑ k : Fin (ops.len b.obj), (v k * star (i k)).re) (hl : ∀ x ∈ net.loads, x.2.Passive)
    {V I : Node → ℂ} (hphys : PhysicsL law net (r : ℂ) s.blocks V I) (h0 : ∀ p ∈ net.free, V p + r * I p = 0) :
    (∀ p ∈ net.free, V p = 0 ∧ I p = 0) ∧ (∀ b ∈ s.blocks, (b.ports.map fun q => (V (.blk b.name q) * star (I (.blk b.name q))).re).sum = 0) ∧
      ∀ x ∈ net.loads, (V x.1 * star (I x.1)).re = 0 := by
  have t := congrArg Complex.re (physics_power hlaw hr.ne' h hpl hphys.juncs fun j hj => kirchhoff_star (hphys.juncs j hj))
  rw [Complex.sub_re, re_sum, re_sum, re_sum] at t
  simp only [re_sum] at t
  have hb : ∀ b ∈ s.blocks, 0 ≤ (b.ports.map fun q => (V (.blk b.name q) * star (I (.blk b.name q))).re).sum := by
    intro b hb
    have := habs b hb _ _ (hphys.parts b hb)
    rw [sum_ports b fun q => (V (.blk b.name q) * star (I (.blk b.name q))).re, (h.inv hlaw).rep.rep.blen b hb]
    exact this
  have hx : ∀ x ∈ net.loads, 0 ≤ -(V x.1 * star (I x.1)).re := fun x hx => by
    have := ohm_absorbs (hl x hx) hr (hphys.loads x hx)
    linarith
  have hV : ∀ p ∈ net.free, (V p * star (I p)).re = -(r * Complex.normSq (I p)) := by
    intro p hp
    have : V p = -(r * I p) := by linear_combination h0 p hp
    rw [this]
    simp [Complex.normSq_apply]
    ring
  have hf : ∀ p ∈ net.free, 0 ≤ -(V p * star (I p)).re := by
    intro p hp
    rw [hV p hp]
    have := mul_nonneg hr.le (Complex.normSq_nonneg (I p))
    linarith
  have neg : ∀ {α : Type} (l : List α) (c : α → ℝ), (l.map fun x => -c x).sum = -(l.map c).sum := by
    intro α l c
    induction l with
    | nil => simp
    | cons a l ih => simp only [List.map_cons, List.sum_cons, ih]; ring
  have sb : 0 ≤ (s.blocks.map fun b => (b.ports.map fun q => (V (.blk b.name q) * star (I (.blk b.name q))).re).sum).sum :=
    List.sum_nonneg fun y hy => by obtain ⟨b, hbb, rfl⟩ := List.mem_map.1 hy; exact hb b hbb
  have sl : 0 ≤ (net.loads.map fun x => -(V x.1 * star (I x.1)).re).sum :=
    List.sum_nonneg fun y hy => by obtain ⟨b, hbb, rfl⟩ := List.mem_map.1 hy; exact hx b hbb
  have sf : 0 ≤ (net.free.map fun p => -(V p * star (I p)).re).sum :=
    List.sum_nonneg fun y hy => by obtain ⟨b, hbb, rfl⟩ := List.mem_map.1 hy; exact hf b hbb
  have nl := neg net.loads fun x => (V x.1 * star (I x.1)).re
  have nf := neg net.free fun p => (V p * star (I p)).re
  have t' : (net.free.map fun p => -(V p * star (I p)).re).sum + (s.blocks.map fun b => (b.ports.map fun q => (V (.blk b.name q) * star (I (.blk b.name q))).re).sum).sum +
      (net.loads.map fun x => -(V x.1 * star (I x.1)).re).sum = 0 := by
    rw [nl, nf]
    linarith
  refine ⟨fun p hp => ?_, sum_zero_of_nonneg hb (by linarith), fun x hxx => ?_⟩
  · have := sum_zero_of_nonneg hf (by linarith) p hp
    rw [hV p hp, neg_neg] at this
    have hI : I p = 0 := Complex.normSq_eq_zero.1 ((mul_eq_zero.1 this).resolve_left hr.ne')
    refine ⟨?_, hI⟩
    have := h0 p hp
    rw [hI] at this
    simpa using this
  · have := sum_zero_of_nonneg hx (by linarith) x hxx
    linarith

/-- if no power enters at the free ports, nothing is absorbed anywhere -/
theorem rest_of_power (hlaw : Lawful ops beh) (hr : 0 < r) (h : Built ops beh nan (r : ℂ) names net bh s ph) (hpl : net.Plain)
    (habs : ∀ b ∈ s.blocks, ∀ v i, law b.obj v i → 0 ≤ ∑ k : Fin (ops.len b.obj), (v k * star (i k)).re) (hl : ∀ x ∈ net.loads, x.2.Passive)
    {V I : Node → ℂ} (hphys : PhysicsL law net (r : ℂ) s.blocks V I) (h0 : (net.free.map fun p => (V p * star (I p)).re).sum ≤ 0) :
    ∀ b ∈ s.blocks, (b.ports.map fun q => (V (.blk b.name q) * star (I (.blk b.name q))).re).sum = 0 := by
  have t := congrArg Complex.re (physics_power hlaw hr.ne' h hpl hphys.juncs fun j hj => kirchhoff_star (hphys.juncs j hj))
  rw [Complex.sub_re, re_sum, re_sum, re_sum] at t
  simp only [re_sum] at t
  have hb : ∀ b ∈ s.blocks, 0 ≤ (b.ports.map fun q => (V (.blk b.name q) * star (I (.blk b.name q))).re).sum := by
    intro b hb
    have := habs b hb _ _ (hphys.parts b hb)
    rw [sum_ports b fun q => (V (.blk b.name q) * star (I (.blk b.name q))).re, (h.inv hlaw).rep.rep.blen b hb]
    exact this
  have hx : ∀ l : List (Node × Load ℂ), (∀ x ∈ l, x ∈ net.loads) → (l.map fun x => (V x.1 * star (I x.1)).re).sum ≤ 0 := by
    intro l
    induction l with
    | nil => simp
    | cons x l ih =>
      intro hm
      have h1 := ohm_absorbs (hl x (hm x (by simp))) hr (hphys.loads x (hm x (by simp)))
      have h2 := ih fun y hy => hm y (by simp [hy])
      rw [List.map_cons, List.sum_cons]
      linarith
  have hx := hx net.loads fun _ h => h
  have sb : 0 ≤ (s.blocks.map fun b => (b.ports.map fun q => (V (.blk b.name q) * star (I (.blk b.name q))).re).sum).sum :=
    List.sum_nonneg fun y hy => by obtain ⟨b, hbb, rfl⟩ := List.mem_map.1 hy; exact hb b hbb
  exact sum_zero_of_nonneg hb (by linarith)

/-- the circuit answers unless it holds a resonance -/
theorem resonance_of_laws (hlaw : Lawful ops beh) (hr : 0 < r) (h : Built ops beh nan (r : ℂ) names net bh s ph) (hph : ph ≠ .reloaded) (hpl : net.Plain)
    (hp : ∀ b ∈ s.blocks, Obeys ops beh law f r fl b.obj) (hans : ∀ b ∈ s.blocks, ∃ T, beh b.obj f (r : ℂ) fl = .ok T)
    (habs : ∀ b ∈ s.blocks, ∀ v i, law b.obj v i → 0 ≤ ∑ k : Fin (ops.len b.obj), (v k * star (i k)).re) (hl : ∀ x ∈ net.loads, x.2.Passive)
    (hfree : net.free ≠ []) (hnames : s.names = [] ∨ s.names.Perm net.free) :
    (∃ s' S, getS ops s f none fl = (s', .ok S)) ↔ ¬ ∃ V I, Resonance law net (r : ℂ) s.blocks V I := by
  have hrc : (r : ℂ) ≠ 0 := by exact_mod_cast hr.ne'
  have hinv := h.inv hlaw
  constructor
  · rintro hok ⟨V, I, hres⟩
    obtain ⟨-, hu⟩ := (answers_of_laws hlaw hr.ne' h hph hp hans hfree hnames).1 hok
    obtain ⟨n, hn, hne⟩ := hres.alive
    have hzero : PhysicsL law net (r : ℂ) s.blocks (fun _ => 0) (fun _ => 0) := by
      obtain ⟨Sof, hS⟩ : ∃ Sof, Given net bh f (r : ℂ) fl Sof := by
        refine exists_given fun x hx => ?_
        rw [hinv.rep.rep.blks] at hx
        simp only [List.mem_map] at hx
        obtain ⟨b, hb, rfl⟩ := hx
        obtain ⟨T, hT⟩ := hans b hb
        exact ⟨T, by rw [← hinv.bhv b hb]; exact hT⟩
      have h1 : net.Laws (r : ℂ) Sof (fun _ => 0) := by
        refine ⟨fun x hx i => by simp, ⟨fun j hj => ⟨fun _ _ _ _ => rfl, ?_⟩, fun x hx => ⟨rfl, rfl⟩, fun x hx => ⟨rfl, rfl⟩⟩, fun x hx => ?_⟩
        · have : (j.members.map (curr fun _ => (0 : ℂ))).sum = 0 := by
            induction j.members with
            | nil => rfl
            | cons a l ih => rw [List.map_cons, List.sum_cons, ih]; simp [curr]
          rw [this]
          cases j.new <;> simp [curr]
        · cases x.2 <;> simp [Load.Law]
      have h2 := (laws_physics (law := law) rfl hr.ne' hinv hS hp _).1 h1
      have e1 : volt (fun _ => (0 : ℂ)) = fun _ => 0 := by funext n; simp [volt]
      have e2 : (fun n => curr (fun _ => (0 : ℂ)) n / (r : ℂ)) = fun _ => 0 := by funext n; simp [curr]
      rw [e1, e2] at h2
      exact h2
    obtain ⟨a, b⟩ := hu _ _ _ _ hres.physics hzero (fun p hp => by obtain ⟨a, b⟩ := hres.closed p hp; rw [a, b]) n hn
    exact hne.elim (fun h => h a) fun h => h b
  · intro hno
    obtain ⟨Sof, hS⟩ : ∃ Sof, Given net bh f (r : ℂ) fl Sof := by
      refine exists_given fun x hx => ?_
      rw [hinv.rep.rep.blks] at hx
      simp only [List.mem_map] at hx
      obtain ⟨b, hb, rfl⟩ := hx
      obtain ⟨T, hT⟩ := hans b hb
      exact ⟨T, by rw [← hinv.bhv b hb]; exact hT⟩
    rw [C20_getS_complete hlaw h hph hS hfree hnames]
    refine solvable_of_unique hlaw hinv hS (hnames.imp id fun hp => hp.trans hinv.rep.ports_perm.symm) fun w hw h0 n hn => ?_
    have hphys := (laws_physics (law := law) rfl hr.ne' hinv hS hp w).1 hw
    have hin : ∀ n, 2 * w (.inn, n) = volt w n + r * (curr w n / r) := by
      intro n; unfold volt curr; field_simp; ring
    have hout : ∀ n, 2 * w (.out, n) = volt w n - r * (curr w n / r) := by
      intro n; unfold volt curr; field_simp; ring
    obtain ⟨r1, r2, r3⟩ := rest_of_passive hlaw hr h hpl habs hl hphys (fun p hp => by rw [← hin, h0 p hp, mul_zero])
    by_contra hc
    apply hno
    refine ⟨_, _, hphys, ⟨n, hn, ?_⟩, r1, r2, r3⟩
    by_contra hc2
    push Not at hc2
    apply hc
    intro d
    have h2 : (2 : ℂ) ≠ 0 := two_ne_zero
    apply mul_left_cancel₀ h2
    rw [mul_zero]
    cases d
    · rw [hin]; rw [hc2.1, hc2.2]; simp
    · rw [hout]; rw [hc2.1, hc2.2]; simp

/-- junctions only join what the blocks bring -/
theorem nodes_rest {net : Net ℂ} {zb : ℂ} (h : Built ops beh nan zb names net bh s ph) (hlaw : Lawful ops beh) : net.Plain → ∀ {V I : Node → ℂ}, (∀ j ∈ net.juncs, j.Kirchhoff V I) →
    (∀ n ∈ net.blkNodes, V n = 0 ∧ I n = 0) → ∀ n ∈ net.nodes, V n = 0 ∧ I n = 0 := by
  induction h with
  | init bh => intro _ V I _ _ n hn; simp [Net.empty] at hn
  | @addblock net bh s s' name obj spec relpos ports h0 _ _ _ _ ih =>
    intro hpl V I hj hb n hn
    simp only [Net.addBlk, List.mem_append] at hn
    rcases hn with hn | hn
    · refine ih hpl hj (fun m hm => hb m ?_) n hn
      simp only [Net.blkNodes, Net.addBlk, List.flatMap_append, List.mem_append]
      exact Or.inl hm
    · refine hb n ?_
      simp only [Net.blkNodes, Net.addBlk, List.flatMap_append, List.mem_append]
      exact Or.inr (by simpa using hn)
  | replace _ _ _ ih => exact ih
  | @connect net bh s s' ps h0 hs ih =>
    intro hpl V I hj hb n hn
    have old := ih hpl (fun j hjm => hj j (by simp [Net.connect, Net.join, hjm])) hb
    simp only [Net.connect, Net.join, List.mem_append, Option.mem_toList] at hn
    rcases hn with hn | hn
    · exact old n hn
    · have hn1 : n ∉ net.nodes := by simpa using List.find?_some hn
      have hn2 : n ∈ ps := List.mem_of_find?_eq_some hn
      have hK := hj ⟨ps.filter (· ∈ net.nodes), ps.find? (· ∉ net.nodes)⟩ (by simp [Net.connect, Net.join])
      have hwm : ∀ p, (Dir.inn, p) ∈ s.waves ↔ p ∈ net.nodes := fun p => (h0.inv hlaw).rep.rep.wmem .inn p
      have hne : ps.filter (· ∈ net.nodes) ≠ [] := by
        intro he
        have hold : ps.filter (fun p => (Dir.inn, p) ∈ s.waves) = [] := by
          rw [← he]
          exact List.filter_congr fun p _ => by simp [hwm]
        unfold connect at hs
        have hmem : n ∈ ps.filter fun p => (Dir.inn, p) ∉ s.waves := by simp [hn2, hwm, hn1]
        dsimp only at hs
        split at hs
        · cases congrArg Prod.snd hs
        · rename_i heq
          rw [heq] at hmem
          cases hmem
        · cases congrArg Prod.snd hs
        · rw [hold] at hs
          cases congrArg Prod.snd hs
      obtain ⟨m, hm⟩ := List.exists_mem_of_ne_nil _ hne
      refine ⟨?_, ?_⟩
      · rw [hK.1 n (List.mem_append_right _ (Option.mem_toList.2 hn)) m (List.mem_append_left _ hm)]
        exact (old m (by simpa using (List.mem_filter.1 hm).2)).1
      · have h2 := hK.2
        dsimp only at h2
        rw [hn] at h2
        change _ = I n at h2
        rw [← h2]
        apply List.sum_eq_zero
        intro y hy
        obtain ⟨x, hx, rfl⟩ := List.mem_map.1 hy
        exact (old x (by simpa using (List.mem_filter.1 hx).2)).2
  | terminate _ _ _ ih => exact ih
  | @deembed net bh s s' int ext h0 _ _ _ hs ih =>
    intro hpl
    have e1 : ∀ (ext : List (Node × Node)) (net : Net ℂ), (ext.foldl Net.same net).sames = net.sames ++ ext ∧ (ext.foldl Net.same net).crosses = net.crosses := by
      intro ext
      induction ext with
      | nil => intro net; simp
      | cons x l ih => intro net; simp [ih, Net.same]
    have e2 : ∀ (int : List (Node × Node)) (net : Net ℂ), (int.foldl Net.cross net).crosses = net.crosses ++ int := by
      intro int
      induction int with
      | nil => intro net; simp
      | cons x l ih => intro net; simp [ih, Net.cross]
    obtain ⟨p1, p2⟩ := hpl
    simp only [Net.deembed, (e1 _ _).1, (e1 _ _).2, e2] at p1 p2
    rw [List.append_eq_nil_iff] at p1 p2
    obtain ⟨p1, rfl⟩ := p1
    obtain ⟨p2, rfl⟩ := p2
    intro V I hj hb n hn
    exact ih ⟨p1, p2⟩ hj hb n hn
  | eval _ _ ih => exact ih
  | used _ _ ih => exact ih

/-- objects that take power and get none are at rest, and so are all nodes -/
theorem all_rest (hlaw : Lawful ops beh) {zb : ℂ} (h : Built ops beh nan zb names net bh s ph) (hpl : net.Plain) (ht : ∀ b ∈ s.blocks, Takes ops.len law b.obj)
    {V I : Node → ℂ} (hphys : PhysicsL law net zb s.blocks V I)
    (hparts : ∀ b ∈ s.blocks, (b.ports.map fun q => (V (.blk b.name q) * star (I (.blk b.name q))).re).sum = 0) : ∀ n ∈ net.nodes, V n = 0 ∧ I n = 0 := by
  have hinv := h.inv hlaw
  refine nodes_rest h hlaw hpl hphys.juncs fun m hm => ?_
  simp only [Net.blkNodes, List.mem_flatMap, List.mem_map] at hm
  obtain ⟨x, hx, q, hq, rfl⟩ := hm
  rw [hinv.rep.rep.blks] at hx
  simp only [List.mem_map] at hx
  obtain ⟨b, hb, rfl⟩ := hx
  have h1 := hparts b hb
  rw [sum_ports b fun q => (V (.blk b.name q) * star (I (.blk b.name q))).re, hinv.rep.rep.blen b hb] at h1
  have h2 := ht b hb _ _ (hphys.parts b hb) h1
  obtain ⟨k, hk, rfl⟩ := List.getElem_of_mem hq
  have := h2 k (by rw [← hinv.rep.rep.blen b hb]; exact hk)
  simpa [hk] using this

/-- objects that take power: no resonance -/
theorem no_resonance (hlaw : Lawful ops beh) {zb : ℂ} (h : Built ops beh nan zb names net bh s ph) (hpl : net.Plain) (ht : ∀ b ∈ s.blocks, Takes ops.len law b.obj) :
    ¬ ∃ V I, Resonance law net zb s.blocks V I := by
  rintro ⟨V, I, hres⟩
  obtain ⟨n, hn, hne⟩ := hres.alive
  obtain ⟨a, b⟩ := all_rest hlaw h hpl ht hres.physics hres.parts n hn
  exact hne.elim (fun h => h a) fun h => h b

end generic

theorem line_takes {z y : ℝ → ℂ} {L : ℝ} (hL : 0 < L) (hz : ∀ x, 0 ≤ (z x).re) (hy : ∀ x, 0 ≤ (y x).re)
    (hzy : (∀ x, 0 < (z x).re ∧ y x ≠ 0) ∨ ∀ x, 0 < (y x).re ∧ z x ≠ 0) {v i : Fin 2 → ℂ} (h : TRL.LineLaw z y L v i) (h0 : portPower v i = 0) :
    ∀ k, v k = 0 ∧ i k = 0 := by
  obtain ⟨V, I, h, e1, e2, e3, e4⟩ := h
  have hder := fun x => TRL.hasDerivAt_power h x
  have hm : Monotone (fun x => (V x * star (I x)).re) := by
    apply monotone_of_deriv_nonneg (fun x => (hder x).differentiableAt)
    intro x
    rw [(hder x).deriv]
    exact add_nonneg (mul_nonneg (hz x) (Complex.normSq_nonneg _)) (mul_nonneg (hy x) (Complex.normSq_nonneg _))
  have hends : (V 0 * star (I 0)).re = (V L * star (I L)).re := by
    unfold portPower at h0
    rw [Fin.sum_univ_two] at h0
    rw [e1, e2, e3, e4]
    simp only [star_neg, mul_neg, Complex.neg_re]
    linarith
  have hconst : ∀ x ∈ Set.Ioo 0 L, (V x * star (I x)).re = (V 0 * star (I 0)).re := by
    intro x hx
    have a := hm hx.1.le
    have b := hm hx.2.le
    dsimp only at a b
    linarith
  have hflow : ∀ x ∈ Set.Ioo 0 L, (z x).re * Complex.normSq (I x) + (y x).re * Complex.normSq (V x) = 0 := by
    intro x hx
    have h1 : (fun x => (V x * star (I x)).re) =ᶠ[nhds x] fun _ => (V 0 * star (I 0)).re := by
      filter_upwards [Ioo_mem_nhds hx.1 hx.2] with t ht using hconst t ht
    exact ((hder x).congr_of_eventuallyEq h1.symm).unique (hasDerivAt_const x _)
  have hzero : ∀ x ∈ Set.Ioo 0 L, V x = 0 ∧ I x = 0 := by
    rcases hzy with hzy | hzy
    · have hI : ∀ x ∈ Set.Ioo 0 L, I x = 0 := by
        intro x hx
        have a := mul_nonneg (hz x) (Complex.normSq_nonneg (I x))
        have b := mul_nonneg (hy x) (Complex.normSq_nonneg (V x))
        have c := hflow x hx
        have : (z x).re * Complex.normSq (I x) = 0 := by linarith
        exact Complex.normSq_eq_zero.1 ((mul_eq_zero.1 this).resolve_left (hzy x).1.ne')
      intro x hx
      refine ⟨?_, hI x hx⟩
      have h1 : I =ᶠ[nhds x] fun _ => 0 := by
        filter_upwards [Ioo_mem_nhds hx.1 hx.2] with t ht using hI t ht
      have h2 : y x * V x = 0 := ((h x).2.congr_of_eventuallyEq h1.symm).unique (hasDerivAt_const x _)
      exact (mul_eq_zero.1 h2).resolve_left (hzy x).2
    · have hV : ∀ x ∈ Set.Ioo 0 L, V x = 0 := by
        intro x hx
        have a := mul_nonneg (hz x) (Complex.normSq_nonneg (I x))
        have b := mul_nonneg (hy x) (Complex.normSq_nonneg (V x))
        have c := hflow x hx
        have : (y x).re * Complex.normSq (V x) = 0 := by linarith
        exact Complex.normSq_eq_zero.1 ((mul_eq_zero.1 this).resolve_left (hzy x).1.ne')
      intro x hx
      refine ⟨hV x hx, ?_⟩
      have h1 : V =ᶠ[nhds x] fun _ => 0 := by
        filter_upwards [Ioo_mem_nhds hx.1 hx.2] with t ht using hV t ht
      have h2 : z x * I x = 0 := ((h x).1.congr_of_eventuallyEq h1.symm).unique (hasDerivAt_const x _)
      exact (mul_eq_zero.1 h2).resolve_left (hzy x).2
  have cV : Continuous V := continuous_iff_continuousAt.2 fun x => (h x).1.continuousAt
  have cI : Continuous I := continuous_iff_continuousAt.2 fun x => (h x).2.continuousAt
  have kV : Set.EqOn V (fun _ => 0) (Set.Icc 0 L) := by
    rw [← closure_Ioo hL.ne]
    exact Set.EqOn.closure (fun x hx => (hzero x hx).1) cV continuous_const
  have kI : Set.EqOn I (fun _ => 0) (Set.Icc 0 L) := by
    rw [← closure_Ioo hL.ne]
    exact Set.EqOn.closure (fun x hx => (hzero x hx).2) cI continuous_const
  have a0 := kV (Set.left_mem_Icc.2 hL.le)
  have aL := kV (Set.right_mem_Icc.2 hL.le)
  have b0 := kI (Set.left_mem_Icc.2 hL.le)
  have bL := kI (Set.right_mem_Icc.2 hL.le)
  simp only [e1, e2, e3, e4, neg_eq_zero] at a0 aL b0 bL
  intro k
  fin_cases k
  · exact ⟨a0, b0⟩
  · exact ⟨aL, bL⟩

theorem rlc_takes {e : RLC.Elem → RLC.Ext} {w : ℝ} (hw : w ≠ 0) (hn : RLC.NonNeg e) (hRs : ∃ R, e .Rs = .fin R ∧ R ≠ 0) (hRp : ∃ R, e .Rp = .fin R ∧ R ≠ 0)
    (hLs : ∃ L, e .Ls = .fin L) (hCs : e .Cs ≠ .fin 0) (hCp : ∃ C, e .Cp = .fin C) (hLp : e .Lp ≠ .fin 0) {V I : Fin 2 → ℂ} (h : RLC.Law e w V I)
    (h0 : portPower V I = 0) : ∀ k, V k = 0 ∧ I k = 0 := by
  obtain ⟨vC, vL, vR, iC, iL, iR, h1, h2, h3, h4, h5, h6, h7, h8⟩ := h
  have hwc : (w : ℂ) ≠ 0 := by exact_mod_cast hw
  have cap : ∀ {x : RLC.Ext} {v i : ℂ}, RLC.Capacitor w x v i → (v * star i).re = 0 := by
    intro x v i h
    cases x with
    | fin C =>
      have h : i = Complex.I * w * C * v := h
      rw [h]; simp; ring
    | inf =>
      have h : v = 0 := h
      rw [h]; simp
  have ind : ∀ {x : RLC.Ext} {v i : ℂ}, RLC.Inductor w x v i → (v * star i).re = 0 := by
    intro x v i h
    cases x with
    | fin C =>
      have h : v = Complex.I * w * C * i := h
      rw [h]; simp; ring
    | inf =>
      have h : i = 0 := h
      rw [h]; simp
  have hV : V 0 = V 1 + (vC + vL + vR) := by linear_combination h4
  have hI : I 1 = iC + iL + iR - I 0 := by linear_combination h8
  have key : portPower V I = ((vC * star (I 0)).re + (vL * star (I 0)).re + (vR * star (I 0)).re) +
      ((V 1 * star iC).re + (V 1 * star iL).re + (V 1 * star iR).re) := by
    unfold portPower
    rw [Fin.sum_univ_two, hV, hI]
    simp
    ring
  rw [h0, cap h1, ind h2, cap h5, ind h6] at key
  obtain ⟨Rs, eRs, nRs⟩ := hRs
  obtain ⟨Rp, eRp, nRp⟩ := hRp
  obtain ⟨Ls, eLs⟩ := hLs
  obtain ⟨Cp, eCp⟩ := hCp
  rw [eRs] at h3
  rw [eRp] at h7
  rw [eLs] at h2
  rw [eCp] at h5
  have h3 : vR = Rs * I 0 := h3
  have h7 : V 1 = Rp * iR := h7
  have h2 : vL = Complex.I * w * Ls * I 0 := h2
  have h5 : iC = Complex.I * w * Cp * V 1 := h5
  have pRs := hn _ _ eRs
  have pRp := hn _ _ eRp
  have p1 : (vR * star (I 0)).re = Rs * Complex.normSq (I 0) := by rw [h3]; simp [Complex.normSq_apply]; ring
  have p2 : (V 1 * star iR).re = Rp * Complex.normSq iR := by rw [h7]; simp [Complex.normSq_apply]; ring
  rw [p1, p2] at key
  have q1 := mul_nonneg pRs (Complex.normSq_nonneg (I 0))
  have q2 := mul_nonneg pRp (Complex.normSq_nonneg iR)
  have hI0 : I 0 = 0 := Complex.normSq_eq_zero.1 ((mul_eq_zero.1 (by linarith : Rs * Complex.normSq (I 0) = 0)).resolve_left nRs)
  have hiR : iR = 0 := Complex.normSq_eq_zero.1 ((mul_eq_zero.1 (by linarith : Rp * Complex.normSq iR = 0)).resolve_left nRp)
  have hV1 : V 1 = 0 := by rw [h7, hiR, mul_zero]
  have hvC : vC = 0 := by
    cases hc : e .Cs with
    | fin C =>
      rw [hc] at h1 hCs
      have h1 : I 0 = Complex.I * w * C * vC := h1
      rw [hI0] at h1
      have hC : (C : ℂ) ≠ 0 := by
        have : C ≠ 0 := fun h => hCs (by rw [h])
        exact_mod_cast this
      exact (mul_eq_zero.1 h1.symm).resolve_left (mul_ne_zero (mul_ne_zero Complex.I_ne_zero hwc) hC)
    | inf => rw [hc] at h1; exact h1
  have hiL : iL = 0 := by
    cases hc : e .Lp with
    | fin C =>
      rw [hc] at h6 hLp
      have h6 : V 1 = Complex.I * w * C * iL := h6
      rw [hV1] at h6
      have hC : (C : ℂ) ≠ 0 := by
        have : C ≠ 0 := fun h => hLp (by rw [h])
        exact_mod_cast this
      exact (mul_eq_zero.1 h6.symm).resolve_left (mul_ne_zero (mul_ne_zero Complex.I_ne_zero hwc) hC)
    | inf => rw [hc] at h6; exact h6
  intro k
  fin_cases k
  · exact ⟨by show V 0 = 0; rw [hV, hV1, hvC, h2, h3, hI0]; simp, hI0⟩
  · exact ⟨hV1, by show I 1 = 0; rw [hI, h5, hV1, hiL, hiR, hI0]; simp⟩

/-- a part with losses takes power whenever it is not at rest -/
theorem part_takes {f : ℝ} {p : Part} (hp : p.Lossy f) : Takes Part.len (fun p => p.Law f) p := by
  intro v i h h0
  cases p with
  | line l =>
    intro k hk
    exact line_takes hp.1 (fun x => (hp.2.1 x).1) (fun x => (hp.2.1 x).2) hp.2.2 (v := fun k => v k) (i := fun k => i k) h h0 ⟨k, hk⟩
  | rlc s =>
    obtain ⟨hn, hf, h1, h2, h3, h4, h5, h6⟩ := hp
    intro k hk
    have hw : RLC.omega f ≠ 0 := by unfold RLC.omega; positivity
    exact rlc_takes hw hn h1 h2 h3 h4 h5 h6 (V := fun k => v k) (I := fun k => i k) h h0 ⟨k, hk⟩
  | base n g Z =>
    obtain ⟨T, hT, h⟩ := h
    obtain ⟨hZ, hs⟩ := hp
    have hZc : (Z : ℂ) ≠ 0 := by exact_mod_cast hZ.ne'
    set a : Fin n → ℂ := fun k => (v k + Z * i k) / 2 with ha
    have hb : (fun k : Fin n => (v k - Z * i k) / 2) = T.mulVec a := h
    have hab : ∀ k : Fin n, a k + T.mulVec a k = v k := fun k => by rw [← hb, ha]; ring
    have hab' : ∀ k : Fin n, (a k - T.mulVec a k) / (Z : ℂ) = i k := fun k => by rw [← hb, ha]; field_simp; ring
    have hpw := portPower_wave hZ.ne' a (T.mulVec a)
    have e1 : a + T.mulVec a = fun k : Fin n => v k := funext hab
    have e2 : (fun k : Fin n => (a k - T.mulVec a k) / (Z : ℂ)) = fun k : Fin n => i k := funext hab'
    rw [e1, e2, show portPower (fun k : Fin n => v k) (fun k : Fin n => i k) = 0 from h0, mul_zero] at hpw
    have ha0 : a = 0 := by
      by_contra hne
      have := hs T hT a hne
      linarith
    intro k hk
    have := hab ⟨k, hk⟩
    have h2 := hab' ⟨k, hk⟩
    rw [ha0] at this h2
    simp at this h2
    exact ⟨this.symm, h2.symm⟩

theorem part_diss {f : ℝ} {p : Part} (hp : p.Lossy f) : p.Dissipative f := by
  cases p with
  | line l => exact ⟨hp.1.le, hp.2.1⟩
  | rlc s => exact hp.1
  | base n g Z =>
    refine ⟨hp.1, fun T hT a => ?_⟩
    by_cases ha : a = 0
    · rw [ha, Matrix.mulVec_zero]
    · exact (hp.2 T hT a ha).le

/-- a passive matrix can be written on every positive reference -/
theorem convVV_passive {r z : ℝ} (hr : 0 < r) (hz : 0 < z) {M : SMat ℂ} (hM : Passive M.m) : ∃ S, convVV (z : ℂ) (r : ℂ) M = .ok S := by
  have hrc : (r : ℂ) ≠ 0 := by exact_mod_cast hr.ne'
  have hzc : (z : ℂ) ≠ 0 := by exact_mod_cast hz.ne'
  unfold convVV
  rw [if_neg (by simp [hrc])]
  dsimp only
  have hdet : ((2 : ℂ)⁻¹ • (1 + M.m) + ((z : ℂ) / 2) • (r : ℂ)⁻¹ • (1 - M.m)).det ≠ 0 := by
    intro hd
    obtain ⟨a, ha, h0⟩ := Matrix.exists_mulVec_eq_zero_iff.2 hd
    apply ha
    have h1 : ∀ k, (a k + M.m.mulVec a k) + z * ((a k - M.m.mulVec a k) / r) = 0 := by
      intro k
      have := congrFun h0 k
      simp only [Matrix.add_mulVec, Matrix.smul_mulVec, Matrix.sub_mulVec, Matrix.one_mulVec, Pi.add_apply, Pi.smul_apply, Pi.sub_apply, smul_eq_mul, Pi.zero_apply] at this
      linear_combination 2 * this
    have hpw := portPower_wave hr.ne' a (M.m.mulVec a)
    have hpos : 0 ≤ power a - power (M.m.mulVec a) := by have := hM a; linarith
    rw [← hpw] at hpos
    have hpp : portPower (a + M.m.mulVec a) (fun k => (a k - M.m.mulVec a k) / (r : ℂ)) = -∑ k, z * Complex.normSq ((a k - M.m.mulVec a k) / (r : ℂ)) := by
      unfold portPower
      rw [← Finset.sum_neg_distrib]
      refine Finset.sum_congr rfl fun k _ => ?_
      have e : (a + M.m.mulVec a) k = -(z * ((a k - M.m.mulVec a k) / (r : ℂ))) := by
        rw [Pi.add_apply]; linear_combination h1 k
      rw [e, neg_mul, Complex.neg_re, mul_assoc, Complex.star_def, Complex.mul_conj, Complex.re_ofReal_mul, Complex.ofReal_re]
    rw [hpp] at hpos
    have hnn : ∀ k ∈ Finset.univ, 0 ≤ z * Complex.normSq ((a k - M.m.mulVec a k) / (r : ℂ)) := fun k _ => mul_nonneg hz.le (Complex.normSq_nonneg _)
    have hs0 : ∑ k, z * Complex.normSq ((a k - M.m.mulVec a k) / (r : ℂ)) = 0 := by
      have := Finset.sum_nonneg hnn
      nlinarith
    rw [Finset.sum_eq_zero_iff_of_nonneg hnn] at hs0
    funext k
    have h2 : (a k - M.m.mulVec a k) / (r : ℂ) = 0 := Complex.normSq_eq_zero.1 ((mul_eq_zero.1 (hs0 k (Finset.mem_univ k))).resolve_left hz.ne')
    have h3 := h1 k
    rw [h2, mul_zero, add_zero] at h3
    have h4 : a k - M.m.mulVec a k = 0 := (div_eq_zero_iff.1 h2).resolve_right hrc
    have h5 : (2 : ℂ) * a k = 0 := by linear_combination h3 + h4
    exact (mul_eq_zero.1 h5).resolve_left two_ne_zero
  rw [npInv_of_det_ne_zero hdet]
  exact ⟨_, rfl⟩

theorem convG_passive {r z : ℝ} (hr : 0 < r) (hz : 0 < z) {N : ℕ} {T : Matrix (Fin N) (Fin N) ℂ} (hT : Passive T) :
    ∃ S', convertGeneral (.d0 (z : ℂ)) (.d2 N N T) (.d0 (r : ℂ)) "V" "V" = .ok (.d2 N N S') ∧
      convertGeneral (.d0 (z : ℂ)) (.d3 N N [T]) (.d0 (r : ℂ)) "V" "V" = .ok (.d3 N N [S']) := by
  have hrc : (r : ℂ) ≠ 0 := by exact_mod_cast hr.ne'
  have hzc : (z : ℂ) ≠ 0 := by exact_mod_cast hz.ne'
  obtain ⟨S, hS⟩ := convVV_passive hr hz (M := ⟨N, T⟩) hT
  have h1 := convVV_eq_convertGeneral (z : ℂ) (r : ℂ) ⟨N, T⟩
  rw [hS] at h1
  have hN : S.n = N := by
    unfold convVV at hS
    rw [if_neg (by simp [hrc])] at hS
    dsimp only at hS
    cases hi : npInv ((2 : ℂ)⁻¹ • (1 + T) + ((z : ℂ) / 2) • (r : ℂ)⁻¹ • (1 - T)) with
    | error e => rw [hi] at hS; cases hS
    | ok W => rw [hi] at hS; cases hS; rfl
  obtain ⟨n, S⟩ := S
  change n = N at hN
  subst hN
  refine ⟨S, h1, ?_⟩
  have hok : ∀ w : ℝ, 0 < w → ∀ m, TableOK .V (List.replicate m fun _ : Fin n => (w : ℂ)) := by
    intro w hw m row hrow i
    rw [List.eq_of_mem_replicate hrow]
    have : (w : ℂ) ≠ 0 := by exact_mod_cast hw.ne'
    exact this
  have e1 := (C05_exact .V .V (.matrix n T) (by simp) (Or.inl (by simp [ND.ndim])) (.scalar (r : ℂ) _ n) (.scalar (z : ℂ) _ n) (hok r hr _) (hok z hz _)).1 h1
  refine (C05_exact .V .V (.stack n [T]) (by simp) (Or.inl (by simp [ND.ndim])) (.scalar (r : ℂ) _ n) (.scalar (z : ℂ) _ n) (hok r hr _) (hok z hz _)).2 ?_
  obtain ⟨l', hd, -, hl, hk⟩ := e1
  have hd' : l' = [S] := by
    cases hd; rfl
  subst hd'
  exact ⟨[S], .stack n [S], rfl, rfl, hk⟩

theorem part_answers {ode : TRL.Ode} {npc : Bool} {f r : ℝ} {p : Part} (hp : p.Proper ode f) (hl : p.Lossy f) (hg : p.Given f) (hr : 0 < r) :
    ∃ T, (p.getS ode npc f (r : ℂ)).2 = .ok T := by
  unfold Part.getS
  rw [if_neg (by simp)]
  simp only [Complex.ofReal_re]
  cases p with
  | line l =>
    obtain ⟨hc, hG, hZ⟩ := hg
    obtain ⟨hL, hre, hor⟩ := hl
    have hzy : l.z (2 * Real.pi * f) 0 * l.y (2 * Real.pi * f) 0 ≠ 0 := by
      have key : ∀ c : ℂ, 0 < c.re → c ≠ 0 := fun c hc h => by rw [h] at hc; simp at hc
      rcases hor with h | h
      · exact mul_ne_zero (key _ (h 0).1) (h 0).2
      · exact mul_ne_zero (h 0).2 (key _ (h 0).1)
    obtain ⟨o', S, h⟩ := TRL.C11_total (ode := ode) hp.1 hc hG f hZ hL.le (Or.inr hzy) (hre 0).1 (hre 0).2
    have hsame := line_same (ode := ode) (l := l) (f := f) (z := none)
    rw [h] at hsame
    have hZ' : o'.Zbase = l.Zbase := by
      have : TRL.Same _ o' := hsame
      rw [this]
    have hL' : o'.L = l.L := by
      have : TRL.Same _ o' := hsame
      rw [this]
    have hpas : Passive S := TRL.C11_passive hp.1 (by rw [hZ']; exact hp.2) (by simpa [TRL.refOf, hZ'] using hZ) (by rw [hL']; exact hL.le) h
      (fun x => (hre x).1) (fun x => (hre x).2)
    have h2 : ∃ o'' M, TRL.getS ode l f (some r) [] = (o'', .ok M) := by
      unfold TRL.getS at h ⊢
      cases hset : TRL.set l [] with
      | mk o1 q =>
        rw [hset] at h
        cases q with
        | error e => cases h
        | ok u =>
          dsimp only at h ⊢
          unfold TRL.get1S at h ⊢
          cases he : TRL.ensure ode o1 f with
          | mk o2 q =>
            rw [he] at h
            cases q with
            | error e => cases h
            | ok s =>
              cases h
              dsimp only
              split
              · exact ⟨_, _, rfl⟩
              · obtain ⟨S', hS', -⟩ := convG_passive hZ hr hpas
                rw [hZ', hS']
                exact ⟨_, _, by simp only [TRL.asMat2, and_self, dite_true]; rfl⟩
    obtain ⟨o'', M, h3⟩ := h2
    dsimp only
    rw [h3]
    exact ⟨_, rfl⟩
  | rlc s =>
    obtain ⟨hn, hf, ⟨Rs, hRs, -⟩, ⟨Rp, hRp, hRp0⟩, ⟨Ls, hLs⟩, hCs, ⟨Cp, hCp⟩, hLp⟩ := hl
    obtain ⟨s', S, h⟩ := RLC.C14_total npc s (some r) (fun _ => none) hf hn hr (by
      rintro (h | h | h | h | h | h | h)
      · exact hr.ne' h
      · exact hCs h
      · change s.elem .Rp = _ at h; rw [hRp] at h; cases h; exact hRp0 rfl
      · exact hLp h
      · change s.elem .Rs = _ at h; rw [hRs] at h; cases h
      · change s.elem .Ls = _ at h; rw [hLs] at h; cases h
      · change s.elem .Cp = _ at h; rw [hCp] at h; cases h)
    dsimp only
    rw [h]
    exact ⟨_, rfl⟩
  | base n g Z =>
    obtain ⟨T, hT⟩ := hg
    obtain ⟨hZ, hloss⟩ := hl
    have hpas : Passive T := fun a => by
      by_cases ha : a = 0
      · subst ha; simp
      · exact (hloss T hT a ha).le
    obtain ⟨S', -, hS'⟩ := convG_passive hZ hr hpas
    unfold RfBase.getS RfBase.getSs
    simp only [mapE, hT, RfBase.arr, List.isEmpty_cons, Bool.false_eq_true, if_false, Option.getD_some]
    by_cases hne : r ≠ Z
    · rw [if_pos hne, hS']
      exact ⟨_, by simp only [RfBase.first, and_self, dite_true]; rfl⟩
    · rw [if_neg hne]
      exact ⟨_, by simp only [RfBase.first, and_self, dite_true]; rfl⟩

theorem answersAt_of_given {ode : TRL.Ode} {npc : Bool} {face : Face} {f : ℝ} : ∀ (n : ℕ) (o : (partTower (Fl := Fl) ode npc face n).O),
    (partTower ode npc face n).proper o f → lossyAt ode npc face n o f → givenAt ode npc face f n o → ∀ r : ℝ, 0 < r → answersAt ode npc face f n o (r : ℂ)
  | 0, (p : Part), hp, hl, hg, r, hr => part_answers hp hl hg hr
  | n + 1, .inl a, hp, hl, hg, r, hr => answersAt_of_given n a hp hl hg r hr
  | n + 1, .inr c, hp, hl, hg, r, hr => by
    intro b hb
    obtain ⟨nan, r', names, net, bh, ph, hr', h, -, -, -, -, hbl⟩ := hl
    have hzb : c.st.zbase = (r' : ℂ) := (h.inv (partTower ode npc face n).lawful).zb
    rw [hzb]
    exact answersAt_of_given n b.obj (hp.2 b hb) (hbl b hb) (hg b hb) r' hr'

section generic
variable {O : Type} {ops : ObjOps ℂ O ℝ Fl} {beh : O → ℝ → ℂ → Fl → Except Err (SMat ℂ)} {law : O → (v i : ℕ → ℂ) → Prop}
  {nan : ℂ} {r f : ℝ} {names : List Node} {net : Net ℂ} {bh : Behave ℂ ℝ Fl} {s s' : St ℂ O ℝ Fl} {ph : Phase} {fl : Fl}

/-- what answers on the own reference answers on every positive one -/
theorem any_reference (hlaw : Lawful ops beh) (hr : 0 < r) (h : Built ops beh nan (r : ℂ) names net bh s ph) (hph : ph ≠ .reloaded) (hpl : net.Plain)
    (hd : ∀ b ∈ s.blocks, ∀ T, beh b.obj f (r : ℂ) fl = .ok T → Passive T.m) (hl : ∀ x ∈ net.loads, x.2.Passive)
    (hok : ∃ s' S, getS ops s f none fl = (s', .ok S)) {z : ℝ} (hz : 0 < z) : ∃ s' S, getS ops s f (some (z : ℂ)) fl = (s', .ok S) := by
  obtain ⟨s', M, hM⟩ := hok
  obtain ⟨⟨Sof, hS⟩, -⟩ := C20_getS_sound hlaw h hph hM
  have hpas := C23_passive hr hlaw h hph hpl hM hS (blocks_any (P := fun T => Passive T.m) (h.inv hlaw) hS hd) hl
  have hzb : s'.zbase = (r : ℂ) := ((Built.eval h hM).inv hlaw).zb
  unfold getS at hM ⊢
  cases hg : get1S ops s f fl with
  | mk s1 q =>
    rw [hg] at hM
    cases q with
    | error e => cases hM
    | ok M' =>
      cases hM
      dsimp only
      split
      · rw [hzb]
        obtain ⟨S, hS⟩ := convVV_passive hr hz hpas
        exact ⟨_, S, by rw [hS]⟩
      · exact ⟨_, _, rfl⟩

end generic

/-- objects with losses at any depth: they cannot deliver power, they answer, and they take power whenever they are not at rest -/
theorem deep_lossy {ode : TRL.Ode} {npc : Bool} {face : Face} (f : ℝ) (fl : Fl) : ∀ (n : ℕ) (o : (partTower (Fl := Fl) ode npc face n).O), (partTower ode npc face n).proper o f →
    lossyAt ode npc face n o f → ∀ r : ℝ, 0 < r → answersAt ode npc face f n o (r : ℂ) →
    (partTower ode npc face n).diss o f ∧ (∃ T, (partTower ode npc face n).beh o f (r : ℂ) fl = .ok T) ∧
      Takes (partTower ode npc face n).ops.len (fun o => (partTower ode npc face n).law o f fl) o := by
  intro n
  induction n with
  | zero => exact fun o hp hlo r hr ha => ⟨part_diss hlo, ha, part_takes hlo⟩
  | succ n ih =>
    intro o hp hlo r hr ha
    cases o with
    | inl a => exact ih a hp hlo r hr ha
    | inr c =>
      obtain ⟨nan, r1, names, net, bh, ph, hr1, h, hph, hpl, hl, hnm, hlb⟩ := hlo
      have hlaw := (partTower (Fl := Fl) ode npc face n).lawful
      have hzb : c.st.zbase = (r1 : ℂ) := (h.inv hlaw).zb
      have hpb : ∀ b ∈ c.st.blocks, (partTower ode npc face n).proper b.obj f := hp.2
      have hb := fun b hb => ih b.obj (hpb b hb) (hlb b hb) r1 hr1 (by have := ha b hb; rwa [hzb] at this)
      have hfree : net.free ≠ [] := by
        obtain ⟨_, _, _, net', _, _, h', -, hfree'⟩ := c.ok
        intro he
        have p1 := (h.inv hlaw).rep.ports_perm
        have p2 := (h'.inv hlaw).rep.ports_perm
        rw [he] at p1
        exact hfree' (p2.symm.trans p1).eq_nil
      have hob : ∀ b ∈ c.st.blocks, Obeys (partTower ode npc face n).ops (partTower ode npc face n).beh (fun o => (partTower ode npc face n).law o f fl) f r1 fl b.obj :=
        fun b hb => (partTower ode npc face n).obeys b.obj f r1 fl (hpb b hb) hr1.ne'
      have hpass : ∀ b ∈ c.st.blocks, ∀ T, (partTower ode npc face n).beh b.obj f (r1 : ℂ) fl = .ok T → Passive T.m :=
        fun b hbm T hT => (partTower ode npc face n).passive b.obj f r1 fl T (hpb b hbm) (hb b hbm).1 hr1 hT
      have habs : ∀ b ∈ c.st.blocks, ∀ v i, (partTower ode npc face n).law b.obj f fl v i → 0 ≤ ∑ k : Fin ((partTower ode npc face n).ops.len b.obj), (v k * star (i k)).re := by
        intro b hbm v i hv
        obtain ⟨T, hT⟩ := (hb b hbm).2.1
        exact law_absorbs hlaw hr1 hT (hpass b hbm T hT) (hob b hbm) hv
      have hok := (resonance_of_laws hlaw hr1 h hph hpl hob (fun b hbm => (hb b hbm).2.1) habs hl hfree hnm).2 (no_resonance hlaw h hpl fun b hbm => (hb b hbm).2.2)
      obtain ⟨s', T, hs⟩ := any_reference hlaw hr1 h hph hpl hpass hl hok hr
      have hT : (partTower ode npc face (n + 1)).beh (.inr c) f (r : ℂ) fl = .ok T := congrArg Prod.snd hs
      refine ⟨⟨nan, r1, names, net, bh, ph, hr1, h, hph, hpl, hl, fun b hbm => (hb b hbm).1⟩, ⟨T, hT⟩, fun v i hv hpw => ?_⟩
      have hsc := ((partTower ode npc face (n + 1)).obeys (.inr c) f r fl hp hr.ne' T hT v i).2 hv
      have h' := Built.eval h hs
      have hperm' : s'.ports.Perm net.free := (h'.inv hlaw).rep.ports_perm
      have hlen : c.st.ports.length = s'.ports.length := ((h.inv hlaw).rep.ports_perm.trans hperm'.symm).length_eq
      change ∀ k < c.st.ports.length, (v k - r * i k) / 2 = ∑ j : Fin c.st.ports.length, T.at k j * ((v j + r * i j) / 2) at hsc
      change ∑ k : Fin c.st.ports.length, (v k * star (i k)).re = 0 at hpw
      change ∀ k < c.st.ports.length, v k = 0 ∧ i k = 0
      rw [hlen] at hsc hpw ⊢
      obtain ⟨V, I, hphys, hport⟩ := (physics_of_laws hlaw hr1.ne' hr.ne' h hph hob hs (fun k => v k) (fun k => i k)).1 (funext fun k => hsc k k.2)
      have hsum : (net.free.map fun p => (V p * star (I p)).re).sum ≤ 0 := by
        rw [← (hperm'.map _).sum_eq, sum_map_fin]
        refine le_of_eq (Eq.trans ?_ hpw)
        refine Finset.sum_congr rfl fun k _ => ?_
        rw [(hport k).1, (hport k).2]
      have hrest := all_rest hlaw h hpl (fun b hbm => (hb b hbm).2.2) hphys (rest_of_power hlaw hr1 h hpl habs hl hphys hsum)
      intro k hk
      have hmem : s'.ports[k] ∈ net.nodes := (mem_free.1 (hperm'.mem_iff.1 (List.getElem_mem hk))).1
      have := hport ⟨k, hk⟩
      rw [← this.1, ← this.2]
      exact hrest _ hmem

/-! ## the property -/

variable {ode : TRL.Ode} {npc : Bool} {face : Face} (n : ℕ) {s s' : St ℂ (partTower (Fl := Fl) ode npc face n).O ℝ Fl}
  {nan : ℂ} {r f : ℝ} {names : List Node} {net : Net ℂ} {bh : Behave ℂ ℝ Fl} {ph : Phase} {fl : Fl}

/-- **C90 (a circuit without gain fails only in a resonance).** A circuit of lines, lumped elements, couplers, stored matrices and circuits of these, none of which can
deliver power and all of which answer, with passive loads, answers exactly if it holds no resonance: no voltages and currents that obey all laws without any
wave at the free ports, not all zero, and without power taken by any block or load. -/
theorem C90_resonance (hr : 0 < r) (h : Built (partTower ode npc face n).ops (partTower ode npc face n).beh nan (r : ℂ) names net bh s ph) (hph : ph ≠ .reloaded) (hpl : net.Plain)
    (hp : ∀ b ∈ s.blocks, (partTower ode npc face n).proper b.obj f ∧ (partTower ode npc face n).diss b.obj f) (hl : ∀ x ∈ net.loads, x.2.Passive)
    (hans : ∀ b ∈ s.blocks, ∃ T, (partTower ode npc face n).beh b.obj f (r : ℂ) fl = .ok T) (hfree : net.free ≠ []) (hnames : s.names = [] ∨ s.names.Perm net.free) :
    (∃ s' S, getS (partTower ode npc face n).ops s f none fl = (s', .ok S)) ↔
      ¬ ∃ V I, Resonance (fun o => (partTower ode npc face n).law o f fl) net (r : ℂ) s.blocks V I :=
  resonance_of_laws (partTower ode npc face n).lawful hr h hph hpl (fun b hb => (partTower ode npc face n).obeys b.obj f r fl (hp b hb).1 hr.ne') hans
    (fun b hb v i hv => by
      obtain ⟨T, hT⟩ := hans b hb
      exact law_absorbs (partTower ode npc face n).lawful hr hT ((partTower ode npc face n).passive b.obj f r fl T (hp b hb).1 (hp b hb).2 hr hT)
        ((partTower ode npc face n).obeys b.obj f r fl (hp b hb).1 hr.ne') hv) hl hfree hnames

/-- **C90 (which error).** If all objects answer and the names asked for are those of the free ports, the only error is LinAlgError. -/
theorem C90_error (h : Built (partTower ode npc face n).ops (partTower ode npc face n).beh nan (r : ℂ) names net bh s ph)
    (hans : ∀ b ∈ s.blocks, ∃ T, (partTower ode npc face n).beh b.obj f (r : ℂ) fl = .ok T) (hfree : net.free ≠ []) (hnames : s.names = [] ∨ s.names.Perm net.free)
    {e : Err} (hs : getS (partTower ode npc face n).ops s f none fl = (s', .error e)) : e = .linAlg :=
  getS_linAlg (partTower ode npc face n).lawful h hans hfree hnames hs

/-- **C90 (any reference).** Whenever such a circuit answers on its own reference it answers on every positive one. -/
theorem C90_reference (hr : 0 < r) (h : Built (partTower ode npc face n).ops (partTower ode npc face n).beh nan (r : ℂ) names net bh s ph) (hph : ph ≠ .reloaded) (hpl : net.Plain)
    (hp : ∀ b ∈ s.blocks, (partTower ode npc face n).proper b.obj f ∧ (partTower ode npc face n).diss b.obj f) (hl : ∀ x ∈ net.loads, x.2.Passive)
    (hok : ∃ s' S, getS (partTower ode npc face n).ops s f none fl = (s', .ok S)) {z : ℝ} (hz : 0 < z) :
    ∃ s' S, getS (partTower ode npc face n).ops s f (some (z : ℂ)) fl = (s', .ok S) :=
  any_reference (partTower ode npc face n).lawful hr h hph hpl (fun b hb T hT => (partTower ode npc face n).passive b.obj f r fl T (hp b hb).1 (hp b hb).2 hr hT) hl hok hz

/-- **C90 (circuits with losses always answer).** A circuit nested to any depth of lines with losses, lossy lumped elements and matrices that lose power, all of which answer, with
passive loads, answers on every positive reference: it never raises. -/
theorem C90_lossy (hr : 0 < r) (h : Built (partTower ode npc face n).ops (partTower ode npc face n).beh nan (r : ℂ) names net bh s ph) (hph : ph ≠ .reloaded) (hpl : net.Plain)
    (hp : ∀ b ∈ s.blocks, (partTower ode npc face n).proper b.obj f ∧ lossyAt ode npc face n b.obj f ∧ answersAt ode npc face f n b.obj (r : ℂ)) (hl : ∀ x ∈ net.loads, x.2.Passive)
    (hfree : net.free ≠ []) (hnames : s.names = [] ∨ s.names.Perm net.free) {z : ℝ} (hz : 0 < z) :
    (∃ s' S, getS (partTower ode npc face n).ops s f none fl = (s', .ok S)) ∧ ∃ s' S, getS (partTower ode npc face n).ops s f (some (z : ℂ)) fl = (s', .ok S) := by
  have hb := fun b hb => deep_lossy f fl n b.obj (hp b hb).1 (hp b hb).2.1 r hr (hp b hb).2.2
  have hok := (C90_resonance n hr h hph hpl (fun b hbm => ⟨(hp b hbm).1, (hb b hbm).1⟩) hl (fun b hbm => (hb b hbm).2.1) hfree hnames).2
    (no_resonance (partTower ode npc face n).lawful h hpl fun b hbm => (hb b hbm).2.2)
  exact ⟨hok, C90_reference n hr h hph hpl (fun b hbm => ⟨(hp b hbm).1, (hb b hbm).1⟩) hl hok hz⟩

/-- **C90 (no further assumption on the objects).** Lines of uniform parameters with losses, lossy lumped elements and stored matrices that lose power, joined to any
depth: the circuit answers at that frequency on every positive reference. -/
theorem C90_uniform (hr : 0 < r) (h : Built (partTower ode npc face n).ops (partTower ode npc face n).beh nan (r : ℂ) names net bh s ph) (hph : ph ≠ .reloaded) (hpl : net.Plain)
    (hp : ∀ b ∈ s.blocks, (partTower ode npc face n).proper b.obj f ∧ lossyAt ode npc face n b.obj f ∧ givenAt ode npc face f n b.obj) (hl : ∀ x ∈ net.loads, x.2.Passive)
    (hfree : net.free ≠ []) (hnames : s.names = [] ∨ s.names.Perm net.free) {z : ℝ} (hz : 0 < z) :
    (∃ s' S, getS (partTower ode npc face n).ops s f none fl = (s', .ok S)) ∧ ∃ s' S, getS (partTower ode npc face n).ops s f (some (z : ℂ)) fl = (s', .ok S) :=
  C90_lossy n hr h hph hpl (fun b hb => ⟨(hp b hb).1, (hp b hb).2.1, answersAt_of_given n b.obj (hp b hb).1 (hp b hb).2.1 (hp b hb).2.2 r hr⟩) hl hfree hnames hz

end

/-! ## concrete circuits: a line with losses, short-circuited; a through connection beside another one whose two ports are joined -/

namespace ExRes
open ExParts ExSol

variable (ode : TRL.Ode)

/-- a line of length 1 with series resistance and no shunt conductance -/
noncomputable def lossy : TRL.Line :=
  { ports := ["1", "2"], L := 1, Zbase := 50, dx := .int 36, constant := true, z := fun _ _ => 1 + Complex.I, y := fun _ _ => Complex.I, xpos := (0, 1), solved := [] }

theorem proper_lossy {f : ℝ} : (Part.line lossy).Proper ode f := by
  refine ⟨?_, by norm_num [lossy]⟩
  unfold TRL.Solves
  rw [if_pos (show lossy.constant = true from rfl)]
  intro w x
  exact ⟨rfl, rfl⟩

theorem lossy_lossy {f : ℝ} : (Part.line lossy).Lossy f := by
  refine ⟨by norm_num [lossy], fun x => ?_, Or.inl fun x => ?_⟩
  · simp [lossy]
  · simp [lossy]

theorem given_lossy {f : ℝ} : (Part.line lossy).Given f := ⟨rfl, by unfold TRL.GridOK; simp [lossy], by norm_num [lossy]⟩

theorem answers_lossy {f : ℝ} : ∃ S, ((Part.line lossy).getS ode false f ((50 : ℝ) : ℂ)).2 = .ok S :=
  part_answers (proper_lossy ode) lossy_lossy given_lossy (by norm_num)

noncomputable def d1 : St ℂ (kind ode).O ℝ Unit := (addblock (kind ode).ops 0 (d0 ode) "A" (.line lossy : Part) .none 0).1
noncomputable def d2 : St ℂ (kind ode).O ℝ Unit := (terminate (d1 ode) (.blk "A" "2") (.RC (1/2))).1

theorem built : ∃ bh, Built (kind ode).ops (kind ode).beh 0 ((50 : ℝ) : ℂ) [] Ex.netc bh (d2 ode) .building := by
  have h0 : Built (kind ode).ops (kind ode).beh 0 ((50 : ℝ) : ℂ) [] Net.empty (fun _ _ _ _ => .error .valueError) (d0 ode) .building := Built.init _
  have h1 := Built.addblock h0 (by decide) (ports := ["1", "2"]) rfl (by decide)
    (show addblock (kind ode).ops 0 (d0 ode) "A" (.line lossy : Part) .none 0 = (d1 ode, .ok ()) from Prod.ext rfl rfl)
  have h2 := Built.terminate h1 (l := .RC (1/2)) rfl
    (show terminate (d1 ode) (.blk "A" "2") (.RC (1/2)) = (d2 ode, .ok ()) from Prod.ext rfl rfl)
  exact ⟨_, h2⟩

/-- the line with losses and a load answers at every frequency on every positive reference -/
theorem C90_lossy_witness (f : ℝ) {z : ℝ} (hz : 0 < z) : ∃ s' S, getS (kind ode).ops (d2 ode) f (some (z : ℂ)) () = (s', .ok S) := by
  obtain ⟨bh, h⟩ := built ode
  have hobj : ∀ b ∈ (d2 ode).blocks, b.obj = (.line lossy : Part) := by
    intro b hb
    have := List.mem_map_of_mem (f := Blk.obj) hb
    rw [show (d2 ode).blocks.map Blk.obj = [(.line lossy : Part)] from rfl] at this
    exact List.mem_singleton.1 this
  refine (C90_lossy 0 (by norm_num) h (by decide) ⟨rfl, rfl⟩ (fun b hb => ?_) ?_ (by decide) (Or.inl ?_) hz).2
  · rw [hobj b hb]
    exact ⟨proper_lossy ode (f := f), lossy_lossy, answers_lossy ode⟩
  · intro x hx
    simp only [Ex.netc, List.mem_cons, List.not_mem_nil, or_false] at hx
    subst hx
    show ‖(1/2 : ℂ)‖ ≤ 1
    norm_num
  · obtain ⟨hi, hb, -⟩ := h.all (kind ode).lawful
    obtain ⟨-, ha, -⟩ := hb rfl
    simp [St.names, ha, hi.nm]

/-- … as C90_uniform says without asking the line -/
theorem C90_uniform_witness (f : ℝ) {z : ℝ} (hz : 0 < z) : ∃ s' S, getS (kind ode).ops (d2 ode) f (some (z : ℂ)) () = (s', .ok S) := by
  obtain ⟨bh, h⟩ := built ode
  have hobj : ∀ b ∈ (d2 ode).blocks, b.obj = (.line lossy : Part) := by
    intro b hb
    have := List.mem_map_of_mem (f := Blk.obj) hb
    rw [show (d2 ode).blocks.map Blk.obj = [(.line lossy : Part)] from rfl] at this
    exact List.mem_singleton.1 this
  refine (C90_uniform 0 (by norm_num) h (by decide) ⟨rfl, rfl⟩ (fun b hb => ?_) ?_ (by decide) (Or.inl ?_) hz).2
  · rw [hobj b hb]
    exact ⟨proper_lossy ode (f := f), lossy_lossy, given_lossy (f := f)⟩
  · intro x hx
    simp only [Ex.netc, List.mem_cons, List.not_mem_nil, or_false] at hx
    subst hx
    show ‖(1/2 : ℂ)‖ ≤ 1
    norm_num
  · obtain ⟨hi, hb, -⟩ := h.all (kind ode).lawful
    obtain ⟨-, ha, -⟩ := hb rfl
    simp [St.names, ha, hi.nm]

noncomputable def g1 : St ℂ (kind ode).O ℝ Unit := (addblock (kind ode).ops 0 (d0 ode) "A" thr .none 0).1
noncomputable def g2 : St ℂ (kind ode).O ℝ Unit := (addblock (kind ode).ops 0 (g1 ode) "B" thr .none 1).1
noncomputable def g3 : St ℂ (kind ode).O ℝ Unit := (connect (kind ode).ops (g2 ode) [.blk "B" "1", .blk "B" "2"]).1

def netg : Net ℂ where
  blks := [("A", ["1", "2"]), ("B", ["1", "2"])]
  nodes := [.blk "A" "1", .blk "A" "2", .blk "B" "1", .blk "B" "2"]
  juncs := [⟨[.blk "B" "1", .blk "B" "2"], none⟩]
  loads := []
  crosses := []
  sames := []

theorem builtg : ∃ bh, Built (kind ode).ops (kind ode).beh 0 ((50 : ℝ) : ℂ) [] netg bh (g3 ode) .building := by
  have h0 : Built (kind ode).ops (kind ode).beh 0 ((50 : ℝ) : ℂ) [] Net.empty (fun _ _ _ _ => .error .valueError) (d0 ode) .building := Built.init _
  have h1 := Built.addblock h0 (by decide) (ports := ["1", "2"]) rfl (by decide)
    (show addblock (kind ode).ops 0 (d0 ode) "A" thr .none 0 = (g1 ode, .ok ()) from Prod.ext rfl rfl)
  have h2 := Built.addblock h1 (by decide) (ports := ["1", "2"]) rfl (by decide)
    (show addblock (kind ode).ops 0 (g1 ode) "B" thr .none 1 = (g2 ode, .ok ()) from Prod.ext rfl rfl)
  have h3 := Built.connect h2 (show connect (kind ode).ops (g2 ode) [.blk "B" "1", .blk "B" "2"] = (g3 ode, .ok ()) from Prod.ext rfl rfl)
  exact ⟨_, h3⟩

/-- a through connection whose ports are joined to each other holds a resonance: the circuit raises LinAlgError, although another block leaves it two free ports -/
theorem C90_resonance_witness (f : ℝ) : ∃ s', getS (kind ode).ops (g3 ode) f none () = (s', .error .linAlg) := by
  obtain ⟨bh, h⟩ := builtg ode
  have hobj : ∀ b ∈ (g3 ode).blocks, b.obj = thr := by
    intro b hb
    have := List.mem_map_of_mem (f := Blk.obj) hb
    rw [show (g3 ode).blocks.map Blk.obj = [thr, thr] from rfl] at this
    rcases List.mem_cons.1 this with e | e
    · exact e
    · exact List.mem_singleton.1 e
  have hnm : (g3 ode).names = [] := by
    obtain ⟨hi, hb, -⟩ := h.all (kind ode).lawful
    obtain ⟨-, ha, -⟩ := hb rfl
    simp [St.names, ha, hi.nm]
  have hans : ∀ b ∈ (g3 ode).blocks, ∃ T, (kind ode).beh b.obj f ((50 : ℝ) : ℂ) () = .ok T := fun b hb => by
    rw [hobj b hb]; exact ⟨_, beh_thr ode f⟩
  have hiff := C90_resonance 0 (f := f) (fl := ()) (by norm_num) h (by decide) ⟨rfl, rfl⟩ (fun b hb => by
      rw [hobj b hb]
      refine ⟨trivial, by norm_num, fun S hS a => ?_⟩
      injection hS with hS
      subst hS
      simp [power, Fin.sum_univ_two, Matrix.mulVec, dotProduct, add_comm]) (by simp [netg]) hans (by decide) (Or.inl hnm)
  cases hg : getS (kind ode).ops (g3 ode) f none () with
  | mk s' r =>
    cases r with
    | error e => exact ⟨s', by rw [C90_error 0 h hans (by decide) (Or.inl hnm) hg]⟩
    | ok S =>
      exfalso
      refine hiff.1 ⟨s', S, hg⟩ ⟨fun n => if n = .blk "B" "1" ∨ n = .blk "B" "2" then 1 else 0, fun _ => 0, ⟨?_, ?_, ?_, ?_, ?_⟩, ?_, ?_, ?_, ?_⟩
      · intro b hb
        rw [show (g3 ode).blocks = [⟨"A", ["1", "2"], (0, 0), thr, 0⟩, ⟨"B", ["1", "2"], (2, 4), thr, 1⟩] from rfl] at hb
        simp only [List.mem_cons, List.not_mem_nil, or_false] at hb
        rcases hb with rfl | rfl
        · refine ⟨_, rfl, ?_⟩
          funext k
          fin_cases k <;> simp [Matrix.mulVec, dotProduct]
        · refine ⟨_, rfl, ?_⟩
          funext k
          fin_cases k <;> simp [Matrix.mulVec, dotProduct, Fin.sum_univ_two]
      · intro j hj
        simp only [netg, List.mem_cons, List.not_mem_nil, or_false] at hj
        subst hj
        constructor
        · intro p hp q hq
          simp only [Option.toList, List.append_nil, List.mem_cons, List.not_mem_nil, or_false] at hp hq
          simp [hp, hq]
        · simp
      · simp [netg]
      · simp [netg]
      · simp [netg]
      · exact ⟨.blk "B" "1", by simp [netg], Or.inl (by simp)⟩
      · intro p hp
        rw [show netg.free = [.blk "A" "1", .blk "A" "2"] from rfl] at hp
        simp only [List.mem_cons, List.not_mem_nil, or_false] at hp
        rcases hp with rfl | rfl <;> simp
      · intro b hb; simp
      · simp [netg]

end ExRes
end PyRFtk.Circuit
