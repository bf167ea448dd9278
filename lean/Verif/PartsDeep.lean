import Verif.PartsSol
import Verif.CircuitSolCirc

/-!
# C82: what `Solution` reports inside nested circuits is their physical state
-/

set_option linter.unusedSectionVars false

namespace PyRFtk.Circuit

section
variable {Fl : Type} [DecidableEq Fl]
variable {O : Type} {ops : ObjOps ℂ O ℝ Fl} {beh : O → ℝ → ℂ → Fl → Except Err (SMat ℂ)} {sub : SubSol ℂ O ℝ Fl} {ins : Insides ℂ O ℝ Fl}

/-! ## specification -/

/-- Voltages and currents at all nodes of a circuit and at all nodes inside its blocks (called `block.node`) obey all laws, at all levels: Kirchhoff's laws at
the junctions, Ohm's law at the loads, and every block is in one of its own states, `state o f fl v i y` saying that object `o` can be in the inner state `y` while
`v`, `i` are the voltages at and the currents into its ports. -/
structure DeepPhysics (state : O → ℝ → Fl → (v i : ℕ → ℂ) → Inner ℂ → Prop) (net : Net ℂ) (zb : ℂ) (blocks : List (Blk O)) (f : ℝ) (fl : Fl) (x : Inner ℂ) : Prop where
  parts : ∀ b ∈ blocks, state b.obj f fl (fun k => x.V (b.name ++ "." ++ b.ports.getD k "")) (fun k => x.I (b.name ++ "." ++ b.ports.getD k "")) (x.part b.name)
  juncs : ∀ j ∈ net.juncs, j.Kirchhoff (fun n => x.V n.str) (fun n => x.I n.str)
  loads : ∀ y ∈ net.loads, y.2.Ohm zb (x.V y.1.str) (x.I y.1.str)
  crosses : ∀ y ∈ net.crosses, x.V y.1.str = x.V y.2.str ∧ x.I y.1.str = - x.I y.2.str
  sames : ∀ y ∈ net.sames, x.V y.1.str = x.V y.2.str ∧ x.I y.1.str = x.I y.2.str

/-- a circuit used as an object: an inner state that obeys all laws, with these voltages and currents at its ports -/
def circState (state : O → ℝ → Fl → (v i : ℕ → ℂ) → Inner ℂ → Prop) (c : SolCirc ops beh sub) (f : ℝ) (fl : Fl) (v i : ℕ → ℂ) (x : Inner ℂ) : Prop :=
  DeepPhysics state c.net c.zb c.st.blocks f fl x ∧ ∀ (k : ℕ) (h : k < c.st.ports.length), x.V c.st.ports[k].str = v k ∧ x.I c.st.ports[k].str = i k

/-- the circuit has a real reference and its objects are proper -/
def solProper (proper : O → ℝ → Prop) (c : SolCirc ops beh sub) (f : ℝ) : Prop := (∃ r : ℝ, c.zb = r) ∧ ∀ b ∈ c.st.blocks, proper b.obj f

/-! ## proofs -/

variable {zb nan : ℂ} {r z f : ℝ} {names : List Node} {net : Net ℂ} {bh : Behave ℂ ℝ Fl} {s s' : St ℂ O ℝ Fl} {ph : Phase} {fl : Fl} {S : SMat ℂ}

/-- the laws speak of the nodes of the net only -/
theorem laws_nodes (hinv : Inv ops beh zb names net bh s) {Sof : String → SMat ℂ} {w w' : Wave → ℂ} (hw : ∀ n ∈ net.nodes, ∀ d, w (d, n) = w' (d, n))
    (h : net.Laws zb Sof w) : net.Laws zb Sof w' := by
  obtain ⟨h1, h2, h3⟩ := h
  have hrep := hinv.rep.rep
  refine ⟨?_, ?_, ?_⟩
  · intro x hx
    have h := h1 x hx
    rw [hrep.blks] at hx
    simp only [List.mem_map] at hx
    obtain ⟨b, hb, rfl⟩ := hx
    have hn : ∀ k (hk : k < b.ports.length), Node.blk b.name b.ports[k] ∈ net.nodes := fun k hk =>
      (hrep.wmem .inn _).1 (List.mem_of_getElem? (hrep.bcol b hb k hk).1)
    intro i
    have := h i
    change w (.out, .blk b.name b.ports[(i : ℕ)]) = ∑ j : Fin b.ports.length, _ at this
    change w' (.out, .blk b.name b.ports[(i : ℕ)]) = ∑ j : Fin b.ports.length, _
    rw [← hw _ (hn i i.2) .out, this]
    refine Finset.sum_congr rfl fun j _ => ?_
    have := hw _ (hn j j.2) .inn
    change _ * w (.inn, .blk b.name b.ports[(j : ℕ)]) = _ * w' (.inn, .blk b.name b.ports[(j : ℕ)])
    rw [this]
  · rw [← hrep.core] at h2 ⊢
    intro i row e hi he hc
    rw [← h2 i row e hi he hc]
    unfold rowEval
    refine Finset.sum_congr rfl fun j hj => ?_
    have hj := Finset.mem_range.1 hj
    have e1 := List.getElem?_eq_getElem hj
    rw [wv_of_getElem? e1, wv_of_getElem? e1]
    congr 1
    have := (hrep.wmem (s.core.waves[j]).1 (s.core.waves[j]).2).1 (List.getElem_mem _)
    exact (hw _ this _).symm
  · intro x hx
    have hn : x.1 ∈ net.nodes := hrep.usub _ (by
      unfold Net.used
      exact List.mem_append_right _ (List.mem_map_of_mem hx))
    rw [← hw _ hn, ← hw _ hn]
    exact h3 x hx

/-- the laws of a circuit from a state of all its levels -/
theorem deep_laws {state : O → ℝ → Fl → (v i : ℕ → ℂ) → Inner ℂ → Prop} {proper : O → ℝ → Prop}
    (hob : ∀ o f r fl, proper o f → r ≠ 0 → Obeys ops beh (fun o v i => ∃ x, state o f fl v i x) f r fl o) (hr : r ≠ 0)
    (hinv : Inv ops beh (r : ℂ) names net bh s) {Sof : String → SMat ℂ} (hS : Given net bh f (r : ℂ) fl Sof) (hp : ∀ b ∈ s.blocks, proper b.obj f)
    {x : Inner ℂ} (hx : DeepPhysics state net r s.blocks f fl x) : net.Laws r Sof (wavesOf r (fun n => x.V n.str) (fun n => x.I n.str)) := by
  obtain ⟨e1, e2⟩ := wavesOf_eq hr (fun n => x.V n.str) (fun n => x.I n.str)
  refine (laws_physics (law := fun o v i => ∃ x, state o f fl v i x) rfl hr hinv hS (fun b hb => hob b.obj f r fl (hp b hb) hr) _).2 ?_
  rw [e1, e2]
  exact ⟨fun b hb => ⟨_, hx.parts b hb⟩, hx.juncs, hx.loads, hx.crosses, hx.sames⟩

/-- what `Solution` may report obeys all laws -/
theorem circ_deep {state : O → ℝ → Fl → (v i : ℕ → ℂ) → Inner ℂ → Prop} {proper : O → ℝ → Prop} (hlaw : Lawful ops beh)
    (hob : ∀ o f r fl, proper o f → r ≠ 0 → Obeys ops beh (fun o v i => ∃ x, state o f fl v i x) f r fl o)
    (hleaf : ∀ o f fl v i x y, sub o = none → state o f fl v i x → state o f fl v i y)
    (hdeep : ∀ o f fl x ps, (sub o).isSome → proper o f → ins.phys o f fl x → ops.ports o = some ps →
      state o f fl (fun k => x.V (ps.getD k "")) (fun k => x.I (ps.getD k "")) x)
    (c : SolCirc ops beh sub) (hp : solProper proper c f) {x : Inner ℂ} (hx : solPhys sub ins c f fl x) : DeepPhysics state c.net c.zb c.st.blocks f fl x := by
  obtain ⟨⟨r, hzr⟩, hpb⟩ := hp
  obtain ⟨nan, names, ph, h, hph, ho⟩ := c.built
  have hr : r ≠ 0 := by
    intro e
    exact c.hzb (by rw [hzr, e]; simp)
  have hrc : (r : ℂ) ≠ 0 := by exact_mod_cast hr
  rw [hzr] at h
  have hinv := h.inv hlaw
  obtain ⟨Sof, w, hS, hw, hn, hsub⟩ := hx
  rw [hzr] at hS hw hn ⊢
  have hw' := laws_nodes (w' := wavesOf r (fun n => x.V n.str) (fun n => x.I n.str)) hinv (fun n hn' d => by
    obtain ⟨a, b⟩ := hn n hn'
    cases d
    · change _ = (x.V n.str + r * x.I n.str) / 2
      rw [a, b]; unfold volt curr; field_simp; ring
    · change _ = (x.V n.str - r * x.I n.str) / 2
      rw [a, b]; unfold volt curr; field_simp; ring) hw
  obtain ⟨e1, e2⟩ := wavesOf_eq hr (fun n => x.V n.str) (fun n => x.I n.str)
  have hP := (laws_physics (law := fun o v i => ∃ x, state o f fl v i x) rfl hr hinv hS (fun b hb => hob b.obj f r fl (hpb b hb) hr) _).1 hw'
  rw [e1, e2] at hP
  refine ⟨fun b hb => ?_, hP.juncs, hP.loads, hP.crosses, hP.sames⟩
  cases hso : sub b.obj with
  | none =>
    obtain ⟨y, hy⟩ := hP.parts b hb
    exact hleaf _ _ _ _ _ y _ hso hy
  | some m =>
    have hs : (sub b.obj).isSome := by rw [hso]; rfl
    exact hdeep b.obj f fl (x.part b.name) b.ports hs (hpb b hb) (hsub b hb hs) (c.lab b hb hs)

theorem circState_obeys {state : O → ℝ → Fl → (v i : ℕ → ℂ) → Inner ℂ → Prop} {proper : O → ℝ → Prop} (hlaw : Lawful ops beh) (hv : Solves ops beh sub ins)
    (hob : ∀ o f r fl, proper o f → r ≠ 0 → Obeys ops beh (fun o v i => ∃ x, state o f fl v i x) f r fl o)
    (hleaf : ∀ o f fl v i x y, sub o = none → state o f fl v i x → state o f fl v i y)
    (hdeep : ∀ o f fl x ps, (sub o).isSome → proper o f → ins.phys o f fl x → ops.ports o = some ps →
      state o f fl (fun k => x.V (ps.getD k "")) (fun k => x.I (ps.getD k "")) x)
    (c : SolCirc ops beh sub) (f z : ℝ) (fl : Fl) (hp : solProper proper c f) (hz : z ≠ 0) :
    Obeys (solOps hlaw hv) (solBeh ops beh sub) (fun c v i => ∃ x, circState state c f fl v i x) f z fl c := by
  intro T hT v i
  have hzc : (z : ℂ) ≠ 0 := by exact_mod_cast hz
  have hall := (C30_nested hlaw hv).allowed c rfl f (z : ℂ) fl T hzc hT v i
  simp only [Finset.sum_range] at hall
  rw [← hall]
  constructor
  · intro ha
    obtain ⟨x, hx, hxp⟩ := (C30_nested hlaw hv).inner c rfl f fl v i _ ha ⟨_, T, hzc, hT⟩ rfl
    refine ⟨x, circ_deep hlaw hob hleaf hdeep c hp hx, fun k hk => ?_⟩
    have := hxp k (by simpa using hk)
    simpa [List.getD_eq_getElem?_getD, hk] using this
  · rintro ⟨x, hx, hxp⟩
    obtain ⟨⟨r, hzr⟩, hpb⟩ := hp
    obtain ⟨nan, names, ph, h, hph, ho⟩ := c.built
    have hr : r ≠ 0 := by
      intro e
      exact c.hzb (by rw [hzr, e]; simp)
    rw [hzr] at h hx
    have hs : getS ops c.st f (some (z : ℂ)) fl = ((getS ops c.st f (some (z : ℂ)) fl).1, .ok T) := Prod.ext rfl hT
    obtain ⟨⟨Sof, hS⟩, -⟩ := getS_size hlaw h hph hs
    have hw := deep_laws hob hr (h.inv hlaw) hS hpb hx
    obtain ⟨e1, e2⟩ := wavesOf_eq hr (fun n => x.V n.str) (fun n => x.I n.str)
    refine ⟨Sof, _, by rw [hzr]; exact hS, by rw [hzr]; exact hw, fun k hk => ?_⟩
    rw [hzr, e1, congrFun e2]
    exact hxp k hk

/-- the state of all levels is determined by voltages and currents at the ports -/
theorem circState_uniq {state : O → ℝ → Fl → (v i : ℕ → ℂ) → Inner ℂ → Prop} {proper : O → ℝ → Prop} (hlaw : Lawful ops beh)
    (hob : ∀ o f r fl, proper o f → r ≠ 0 → Obeys ops beh (fun o v i => ∃ x, state o f fl v i x) f r fl o)
    (huniq : ∀ o f fl (r : ℝ) T v i v' i' x y, (sub o).isSome → proper o f → r ≠ 0 → beh o f (r : ℂ) fl = .ok T → state o f fl v i x → state o f fl v' i' y →
      (∀ k < ops.len o, v k = v' k ∧ i k = i' k) → ∀ n ∈ ins.nodes o, x.V n = y.V n ∧ x.I n = y.I n)
    (c : SolCirc ops beh sub) (f z : ℝ) (fl : Fl) (T : SMat ℂ) (hp : solProper proper c f) (hz : z ≠ 0) (hT : solBeh ops beh sub c f (z : ℂ) fl = .ok T)
    {x y : Inner ℂ} (hx : DeepPhysics state c.net c.zb c.st.blocks f fl x) (hy : DeepPhysics state c.net c.zb c.st.blocks f fl y)
    (hxy : ∀ n ∈ c.st.ports, x.V n.str = y.V n.str ∧ x.I n.str = y.I n.str) :
    ∀ n ∈ solNodes sub ins c, x.V n = y.V n ∧ x.I n = y.I n := by
  obtain ⟨⟨r, hzr⟩, hpb⟩ := hp
  obtain ⟨nan, names, ph, h, hph, ho⟩ := c.built
  have hr : r ≠ 0 := by
    intro e
    exact c.hzb (by rw [hzr, e]; simp)
  rw [hzr] at h hx hy
  have hinv := h.inv hlaw
  have hs : getS ops c.st f (some (z : ℂ)) fl = ((getS ops c.st f (some (z : ℂ)) fl).1, .ok T) := Prod.ext rfl hT
  obtain ⟨⟨Sof, hS⟩, -⟩ := getS_size hlaw h hph hs
  obtain ⟨M, hM, -⟩ := own_transfer (law := fun o v i => ∃ x, state o f fl v i x) hlaw hr hz h hph (fun b hb => hob b.obj f r fl (hpb b hb) hr) hs
  have hlab := c.labels hlaw hM
  have hu := ((C20_getS_sound hlaw h hph hM).2 Sof hS).unique _ _ (deep_laws hob hr hinv hS hpb hx) (deep_laws hob hr hinv hS hpb hy) (fun p hpp => by
    rw [hlab] at hpp
    obtain ⟨a, b⟩ := hxy p hpp
    change (x.V p.str + r * x.I p.str) / 2 = (y.V p.str + r * y.I p.str) / 2
    rw [a, b])
  have hrc : (r : ℂ) ≠ 0 := by exact_mod_cast hr
  have own : ∀ n ∈ c.net.nodes, x.V n.str = y.V n.str ∧ x.I n.str = y.I n.str := by
    intro n hn
    have a := hu n hn .inn
    have b := hu n hn .out
    change (x.V n.str + r * x.I n.str) / 2 = (y.V n.str + r * y.I n.str) / 2 at a
    change (x.V n.str - r * x.I n.str) / 2 = (y.V n.str - r * y.I n.str) / 2 at b
    exact ⟨by linear_combination a + b, mul_left_cancel₀ hrc (by linear_combination a - b)⟩
  intro n hn
  unfold solNodes at hn
  rcases List.mem_append.1 hn with hn | hn
  · obtain ⟨m, hm, rfl⟩ := List.mem_map.1 hn
    exact own m hm
  · obtain ⟨b, hb, hn⟩ := List.mem_flatMap.1 hn
    split at hn
    · rename_i hsb
      obtain ⟨m, hm, rfl⟩ := List.mem_map.1 hn
      have hbm : (b.name, b.ports) ∈ c.net.blks := by rw [hinv.rep.rep.blks]; exact List.mem_map_of_mem hb
      have hbeh : beh b.obj f (r : ℂ) fl = .ok (Sof b.name) := by
        rw [hinv.bhv b hb]
        exact hS _ hbm
      refine huniq b.obj f fl r _ _ _ _ _ _ _ hsb (hpb b hb) hr hbeh (hx.parts b hb) (hy.parts b hb) (fun k hk => ?_) m hm
      have hlen : b.ports.length = ops.len b.obj := hinv.rep.rep.blen b hb
      rw [← hlen] at hk
      have e : b.ports.getD k "" = b.ports[k] := by simp [hk]
      simp only [e]
      exact own (.blk b.name b.ports[k]) ((hinv.rep.rep.wmem .inn _).1 (List.mem_of_getElem? (hinv.rep.rep.bcol b hb k hk).1))
    · cases hn

/-- a kind of block objects with insides and physical laws -/
structure DeepKind (Fl : Type) [DecidableEq Fl] where
  O : Type
  ops : ObjOps ℂ O ℝ Fl
  beh : O → ℝ → ℂ → Fl → Except Err (SMat ℂ)
  sub : SubSol ℂ O ℝ Fl
  ins : Insides ℂ O ℝ Fl
  lawful : Lawful ops beh
  solves : Solves ops beh sub ins
  /-- the object can be in this inner state with these voltages at and currents into its ports -/
  state : O → ℝ → Fl → (v i : ℕ → ℂ) → Inner ℂ → Prop
  proper : O → ℝ → Prop
  obeys : ∀ o f r fl, proper o f → r ≠ 0 → Obeys ops beh (fun o v i => ∃ x, state o f fl v i x) f r fl o
  leaf : ∀ o f fl v i x y, sub o = none → state o f fl v i x → state o f fl v i y
  deep : ∀ o f fl x ps, (sub o).isSome → proper o f → ins.phys o f fl x → ops.ports o = some ps →
      state o f fl (fun k => x.V (ps.getD k "")) (fun k => x.I (ps.getD k "")) x
  uniq : ∀ o f fl (r : ℝ) T v i v' i' x y, (sub o).isSome → proper o f → r ≠ 0 → beh o f (r : ℂ) fl = .ok T → state o f fl v i x → state o f fl v' i' y →
      (∀ k < ops.len o, v k = v' k ∧ i k = i' k) → ∀ n ∈ ins.nodes o, x.V n = y.V n ∧ x.I n = y.I n

/-- lines, lumped elements, couplers, stored matrices: nothing to report inside, their states are those of their laws -/
noncomputable def deepPart (ode : TRL.Ode) (npc : Bool) (face : Face) : DeepKind Fl where
  O := Part
  ops := partOps ode npc face Fl
  beh := partBeh ode npc Fl
  sub := fun _ => none
  ins := leafIns ℂ Part ℝ Fl
  lawful := C80_parts_lawful
  solves := leaf_solves C80_parts_lawful
  state p f _ v i _ := p.Law f v i
  proper p f := p.Proper ode f
  obeys p f r fl hp hr := by
    intro T hT v i
    rw [parts_obey (face := face) hp hr fl T hT v i]
    exact ⟨fun h => ⟨⟨fun _ => 0, fun _ => 0⟩, h⟩, fun ⟨_, h⟩ => h⟩
  leaf _ _ _ _ _ _ _ _ h := h
  deep _ _ _ _ _ h := by cases h
  uniq _ _ _ _ _ _ _ _ _ _ _ h := by cases h

/-- objects nested up to depth `n`: those objects, and circuits of objects of smaller depth -/
noncomputable def deepTower (ode : TRL.Ode) (npc : Bool) (face : Face) : ℕ → DeepKind Fl
  | 0 => deepPart ode npc face
  | n + 1 =>
    let k := deepTower ode npc face n
    { O := k.O ⊕ SolCirc k.ops k.beh k.sub
      ops := sumOps k.ops (solOps k.lawful k.solves)
      beh := Sum.elim k.beh (solBeh k.ops k.beh k.sub)
      sub := sumSub k.sub (solSub k.lawful k.solves)
      ins := sumIns k.ins (solIns k.sub k.ins)
      lawful := sum_lawful k.lawful (sol_lawful k.lawful k.solves)
      solves := sum_solves k.solves (C30_nested k.lawful k.solves)
      state := Sum.elim k.state (circState k.state)
      proper := Sum.elim k.proper (solProper k.proper)
      obeys := fun o f r fl hp hr => by
        cases o with
        | inl a => exact k.obeys a f r fl hp hr
        | inr c => exact circState_obeys k.lawful k.solves k.obeys k.leaf k.deep c f r fl hp hr
      leaf := fun o f fl v i x y hs h => by
        cases o with
        | inl a =>
          refine k.leaf a f fl v i x y ?_ h
          change (k.sub a).map _ = none at hs
          cases ha : k.sub a with
          | none => rfl
          | some m => rw [ha] at hs; cases hs
        | inr c => cases hs
      deep := fun o f fl x ps hs hp hx hps => by
        cases o with
        | inl a =>
          refine k.deep a f fl x ps ?_ hp hx hps
          change ((k.sub a).map _).isSome at hs
          simpa using hs
        | inr c =>
          refine ⟨circ_deep k.lawful k.obeys k.leaf k.deep c hp hx, fun j hj => ?_⟩
          have hps : some (c.st.ports.map Node.str) = some ps := hps
          injection hps with hps
          subst hps
          simp [List.getD_eq_getElem?_getD, hj]
      uniq := fun o f fl r T v i v' i' x y hs hp hr hT hx hy hvi => by
        cases o with
        | inl a =>
          refine k.uniq a f fl r T v i v' i' x y ?_ hp hr hT hx hy hvi
          change ((k.sub a).map _).isSome at hs
          simpa using hs
        | inr c =>
          refine circState_uniq k.lawful k.obeys k.uniq c f r fl T hp hr hT hx.1 hy.1 fun n hn => ?_
          obtain ⟨j, hj, rfl⟩ := List.getElem_of_mem hn
          obtain ⟨a, b⟩ := hvi j hj
          rw [(hx.2 j hj).1, (hx.2 j hj).2, (hy.2 j hj).1, (hy.2 j hj).2, a, b]
          exact ⟨rfl, rfl⟩ }

/-- **C82 (the state, inside nested circuits too).** Whatever `Solution` returns for a circuit of lines, lumped elements, couplers, stored matrices and circuits of these
nested to any depth: there is one state of all its nodes at all levels that obeys all physical laws and in which the waves given enter the ports; every entry of the
table is the voltage, the current and the waves of that state; all nodes asked for are there; and every state that obeys the laws with these waves is that state. -/
theorem C82_any_depth {ode : TRL.Ode} {npc : Bool} {face : Face} (n : ℕ)
    (c : SolCirc (deepTower (Fl := Fl) ode npc face n).ops (deepTower ode npc face n).beh (deepTower ode npc face n).sub)
    {E : List (Node × ℂ)} {z : Option ℝ} {nodes : Option (List String)} {s' : St ℂ (deepTower ode npc face n).O ℝ Fl} {t : List (Node × Quad ℂ)} {r : ℝ}
    (hzb : c.zb = r) (hz : z.getD r ≠ 0) (hp : ∀ b ∈ c.st.blocks, (deepTower ode npc face n).proper b.obj f)
    (hs : solutionAll (deepTower ode npc face n).ops (deepTower ode npc face n).sub c.st f E (z.map Complex.ofReal) nodes fl = (s', .ok t)) :
    ∃ x, DeepPhysics (deepTower ode npc face n).state c.net r c.st.blocks f fl x ∧
      (∀ p ∈ c.net.free, dictGet p E = some (x.fwd (z.getD r : ℝ) p.str)) ∧
      (∀ m q, (m, q) ∈ t → m.str ∈ solNodes (deepTower ode npc face n).sub (deepTower ode npc face n).ins c ∧ q = x.quad (z.getD r : ℝ) m.str) ∧
      (∀ m ∈ solNodes (deepTower ode npc face n).sub (deepTower ode npc face n).ins c, (∀ l, nodes = some l → m ∈ l) → ∃ k ∈ t.map Prod.fst, k.str = m) ∧
      ∀ y, DeepPhysics (deepTower ode npc face n).state c.net r c.st.blocks f fl y → (∀ p ∈ c.net.free, dictGet p E = some (y.fwd (z.getD r : ℝ) p.str)) →
        ∀ m ∈ solNodes (deepTower ode npc face n).sub (deepTower ode npc face n).ins c, x.V m = y.V m ∧ x.I m = y.I m := by
  have hzz : (z.map Complex.ofReal).getD c.zb = ((z.getD r : ℝ) : ℂ) := by rw [hzb]; cases z <;> rfl
  have hzc : ((z.getD r : ℝ) : ℂ) ≠ 0 := by exact_mod_cast hz
  have hlaw := (deepTower (Fl := Fl) ode npc face n).lawful
  have hprop : solProper (deepTower (Fl := Fl) ode npc face n).proper c f := ⟨⟨r, hzb⟩, hp⟩
  obtain ⟨⟨T, hT⟩, x, h1, h2, h3, h4⟩ := solutionAll_spec hlaw (deepTower (Fl := Fl) ode npc face n).solves c (by rw [hzz]; exact hzc) hs
  rw [hzz] at h2 h3 hT
  have hx := circ_deep hlaw (deepTower (Fl := Fl) ode npc face n).obeys (deepTower (Fl := Fl) ode npc face n).leaf (deepTower (Fl := Fl) ode npc face n).deep c hprop h1
  rw [hzb] at hx
  refine ⟨x, hx, h2, h3, h4, fun y hy hE => ?_⟩
  -- voltages and currents at the ports agree
  obtain ⟨nan, names, ph, h, hph, ho⟩ := c.built
  have hperm := (h.inv hlaw).rep.ports_perm
  have hscat : ∀ u, DeepPhysics (deepTower (Fl := Fl) ode npc face n).state c.net r c.st.blocks f fl u → ∀ k < c.st.ports.length,
      (u.V (c.st.ports.getD k (.ext "")).str - (z.getD r : ℝ) * u.I (c.st.ports.getD k (.ext "")).str) / 2 =
        ∑ j : Fin c.st.ports.length, T.at k j * ((u.V (c.st.ports.getD j (.ext "")).str + (z.getD r : ℝ) * u.I (c.st.ports.getD j (.ext "")).str) / 2) := by
    intro u hu
    refine (circState_obeys hlaw (deepTower (Fl := Fl) ode npc face n).solves (deepTower (Fl := Fl) ode npc face n).obeys (deepTower (Fl := Fl) ode npc face n).leaf
      (deepTower (Fl := Fl) ode npc face n).deep c f (z.getD r) fl hprop hz T hT (fun k => u.V (c.st.ports.getD k (.ext "")).str)
      (fun k => u.I (c.st.ports.getD k (.ext "")).str)).2 ⟨u, by rw [hzb]; exact hu, fun k hk => ?_⟩
    simp [hk]
  have hin : ∀ p ∈ c.net.free, (x.V p.str + (z.getD r : ℝ) * x.I p.str) / 2 = (y.V p.str + (z.getD r : ℝ) * y.I p.str) / 2 := by
    intro p hp
    have a := h2 p hp
    rw [hE p hp] at a
    exact (Option.some.inj a).symm
  refine circState_uniq hlaw (deepTower (Fl := Fl) ode npc face n).obeys (deepTower (Fl := Fl) ode npc face n).uniq c f (z.getD r) fl T hprop hz hT
    (by rw [hzb]; exact hx) (by rw [hzb]; exact hy) fun p hp => ?_
  obtain ⟨k, hk, rfl⟩ := List.getElem_of_mem hp
  have a := hscat x hx k hk
  have b := hscat y hy k hk
  have e : ∀ j (hj : j < c.st.ports.length), c.st.ports.getD j (.ext "") = c.st.ports[j] := fun j hj => by simp [hj]
  have hout : (x.V (c.st.ports.getD k (.ext "")).str - (z.getD r : ℝ) * x.I (c.st.ports.getD k (.ext "")).str) / 2 =
      (y.V (c.st.ports.getD k (.ext "")).str - (z.getD r : ℝ) * y.I (c.st.ports.getD k (.ext "")).str) / 2 := by
    rw [a, b]
    refine Finset.sum_congr rfl fun j _ => ?_
    rw [e j j.2, hin _ (hperm.mem_iff.1 (List.getElem_mem j.2))]
  rw [e k hk] at hout
  have i1 := hin _ (hperm.mem_iff.1 hp)
  exact ⟨by linear_combination i1 + hout, mul_left_cancel₀ hzc (by linear_combination i1 - hout)⟩

end

/-! ## a concrete case: the two joined lines of `ExParts` inside a circuit -/

namespace ExDeep
open ExParts

variable (ode : TRL.Ode)

noncomputable abbrev kind (n : ℕ) : DeepKind Unit := deepTower ode false ExParts.face n

/-- the inner circuit -/
noncomputable def inner : SolCirc (op ode) (partBeh ode false Unit) (fun _ => none) where
  st := t3 ode
  zb := ((50 : ℝ) : ℂ)
  net := ExParts.net
  bh := (ExParts.built ode).choose
  built := ⟨_, _, _, (ExParts.built ode).choose_spec, by decide, Or.inl rfl⟩
  hzb := by norm_num
  hfree := by decide
  dots := ⟨by decide, fun n h => by simp [ExParts.net] at h⟩
  lab := fun _ _ h => by cases h

noncomputable def u0 : St ℂ (kind ode 1).O ℝ Unit := St.init ((50 : ℝ) : ℂ) []
noncomputable def u1 : St ℂ (kind ode 1).O ℝ Unit := (addblock (kind ode 1).ops 0 (u0 ode) "X" (.inr (inner ode)) .none 0).1

theorem built : ∃ bh, Built (kind ode 1).ops (kind ode 1).beh 0 ((50 : ℝ) : ℂ) [] ExNest.net bh (u1 ode) .building := by
  have h0 : Built (kind ode 1).ops (kind ode 1).beh 0 ((50 : ℝ) : ℂ) [] Net.empty (fun _ _ _ _ => .error .valueError) (u0 ode) .building := Built.init _
  have h1 := Built.addblock h0 (by decide) (ports := ["A.1", "B.2"]) rfl (by decide)
    (show addblock (kind ode 1).ops 0 (u0 ode) "X" (.inr (inner ode)) .none 0 = (u1 ode, .ok ()) from Prod.ext rfl rfl)
  exact ⟨_, h1⟩

theorem blk {b : Blk (kind ode 1).O} (h : b ∈ (u1 ode).blocks) : b.obj = .inr (inner ode) ∧ b.ports = ["A.1", "B.2"] := by
  have hb : (u1 ode).blocks.map (fun b => (b.obj, b.ports)) = [(.inr (inner ode), ["A.1", "B.2"])] := rfl
  have := List.mem_map_of_mem (f := fun b : Blk (kind ode 1).O => (b.obj, b.ports)) h
  rw [hb] at this
  have := List.mem_singleton.1 this
  exact ⟨congrArg Prod.fst this, congrArg Prod.snd this⟩

/-- the outer circuit -/
noncomputable def outer : SolCirc (kind ode 1).ops (kind ode 1).beh (kind ode 1).sub where
  st := u1 ode
  zb := ((50 : ℝ) : ℂ)
  net := ExNest.net
  bh := (built ode).choose
  built := ⟨_, _, _, (built ode).choose_spec, by decide, Or.inl rfl⟩
  hzb := by norm_num
  hfree := by decide
  dots := ⟨by decide, fun n h => by simp [ExNest.net] at h⟩
  lab := fun b hb _ => by
    obtain ⟨h1, h2⟩ := blk ode hb
    rw [h1, h2]
    rfl

theorem is_proper (f : ℝ) {b : Blk (kind ode 1).O} (h : b ∈ (u1 ode).blocks) : (kind ode 1).proper b.obj f := by
  rw [(blk ode h).1]
  refine ⟨⟨50, rfl⟩, fun b hb => ?_⟩
  obtain ⟨L, _, e⟩ := ExNest.inner_obj ode hb
  rw [e]
  exact ExParts.proper ode (f := f)

/-- the outer circuit answers -/
theorem answers (f : ℝ) : ∃ s' S, getS (kind ode 1).ops (u1 ode) f (some ((50 : ℝ) : ℂ)) () = (s', .ok S) := by
  obtain ⟨bh, h⟩ := built ode
  have hlaw := (kind ode 1).lawful
  obtain ⟨S₀, t', -, hT⟩ := ExParts.C80_witness ode f
  obtain ⟨bi, hi⟩ := ExParts.built ode
  have hT' := getS_own_any C80_parts_lawful hi hT
  have hobj : ∀ b ∈ (u1 ode).blocks, (kind ode 1).beh b.obj f ((50 : ℝ) : ℂ) () = .ok S₀ := by
    intro b hb
    rw [(blk ode hb).1]
    exact congrArg Prod.snd hT'
  obtain ⟨Sof, hS⟩ : ∃ Sof, Given ExNest.net bh f ((50 : ℝ) : ℂ) () Sof := by
    refine exists_given fun x hx => ?_
    rw [(h.inv hlaw).rep.rep.blks] at hx
    simp only [List.mem_map] at hx
    obtain ⟨b, hb, rfl⟩ := hx
    exact ⟨S₀, by rw [← (h.inv hlaw).bhv b hb]; exact hobj b hb⟩
  obtain ⟨s', S, hs⟩ := (C20_getS_complete hlaw h (by decide) (f := f) (fl := ()) hS (by decide) (Or.inl rfl)).2 (ExNest.solvable Sof)
  exact ⟨s', S, getS_own_any hlaw h hs⟩

theorem pair_of_snd {α β : Type*} {p : α × β} {b : β} (h : p.2 = b) : ∃ a, p = (a, b) := ⟨p.1, Prod.ext rfl h⟩

theorem node_mem : "X.A.2" ∈ solNodes (kind ode 1).sub (kind ode 1).ins (outer ode) := by
  refine List.mem_append_right _ (List.mem_flatMap.2 ⟨_, List.mem_cons_self .., ?_⟩)
  refine List.mem_map.2 ⟨"A.2", List.mem_append_left _ (List.mem_map.2 ⟨.blk "A" "2", ?_, rfl⟩), rfl⟩
  show Node.blk "A" "2" ∈ ExParts.net.nodes
  decide

/-- the excitation: a wave into the first line -/
noncomputable def E : List (Node × ℂ) := [(.blk "X" "A.1", 1), (.blk "X" "B.2", 0)]

theorem free : (outer ode).net.free = [.blk "X" "A.1", .blk "X" "B.2"] := by
  show ExNest.net.free = _
  decide

theorem reports (f : ℝ) : ∃ t, (solutionAll (kind ode 1).ops (kind ode 1).sub (outer ode).st f E none none ()).2 = .ok t := by
  obtain ⟨s0, S0, h0⟩ := answers ode f
  obtain ⟨T, t', -, hT⟩ := ExParts.C80_witness ode f
  obtain ⟨bi, hi⟩ := ExParts.built ode
  have hT' := getS_own_any C80_parts_lawful hi hT
  refine solutionAll_answers (kind ode 1).lawful (kind ode 1).solves (outer ode) (f := f) (E := E) (z := none) (nodes := none) (fl := ())
    (by show ((50 : ℝ) : ℂ) ≠ 0; norm_num) ?_ ?_
  · refine ⟨⟨S0, congrArg Prod.snd h0⟩, fun b hb _ => ?_⟩
    rw [(blk ode hb).1]
    exact ⟨⟨T, congrArg Prod.snd hT'⟩, fun b _ h => by cases h⟩
  · intro p hp
    rw [free] at hp
    simp only [List.mem_cons, List.not_mem_nil, or_false] at hp
    rcases hp with rfl | rfl
    · exact fun h => by cases h
    · exact fun h => by cases h

/-- C82_any_depth applies: a wave into the first line, the node between the two lines inside the block is reported -/
theorem C82_any_depth_witness (f : ℝ) : ∃ s' t x, solutionAll (kind ode 1).ops (kind ode 1).sub (outer ode).st f E none none () = (s', .ok t) ∧
    DeepPhysics (kind ode 1).state (outer ode).net (50 : ℝ) (outer ode).st.blocks f () x ∧ x.fwd (50 : ℝ) "X.A.1" = 1 ∧ x.fwd (50 : ℝ) "X.B.2" = 0 ∧
    ∃ m q, (m, q) ∈ t ∧ m.str = "X.A.2" ∧ q = x.quad (50 : ℝ) "X.A.2" := by
  obtain ⟨t, ht⟩ := reports ode f
  obtain ⟨s', hs⟩ : ∃ s', solutionAll (kind ode 1).ops (kind ode 1).sub (outer ode).st f E none none () = (s', .ok t) := pair_of_snd ht
  have hz : (outer ode).zb = ((50 : ℝ) : ℂ) := rfl
  have hp : ∀ b ∈ (outer ode).st.blocks, (kind ode 1).proper b.obj f := fun b hb => is_proper ode f hb
  have hm := node_mem ode
  have hf := free ode
  generalize outer ode = c at *
  obtain ⟨x, h1, h2, h3, h4, -⟩ := C82_any_depth 1 c (f := f) (fl := ()) (z := none) (r := 50) hz (by norm_num) hp hs
  obtain ⟨m, hm, hms⟩ := h4 "X.A.2" hm (by simp)
  obtain ⟨⟨m', q⟩, hq, rfl⟩ := List.mem_map.1 hm
  have a := h2 (.blk "X" "A.1") (by rw [hf]; decide)
  have b := h2 (.blk "X" "B.2") (by rw [hf]; decide)
  have a' : dictGet (.blk "X" "A.1") E = some 1 := rfl
  have b' : dictGet (.blk "X" "B.2") E = some 0 := rfl
  rw [a'] at a
  rw [b'] at b
  refine ⟨s', t, x, hs, h1, (Option.some.inj a).symm, (Option.some.inj b).symm, m', q, hq, hms, ?_⟩
  have := (h3 m' q hq).2
  dsimp only at hms
  rw [hms] at this
  exact this

end ExDeep
end PyRFtk.Circuit
