import Verif.CircuitSolNest

/-!
# Circuits with insides (C30, blocks inside blocks)

The objects of `CircuitSolNest` made from circuits: `SolCirc`.  `C30_nested`: they meet the requirements `Solves` again, so that `Solution`
is right at any depth.
-/

set_option linter.unusedSectionVars false

namespace PyRFtk.Circuit

section
variable {K O F Fl : Type*} [Field K] [CharZero K] [DecidableEq F] [DecidableEq Fl]
variable {ops : ObjOps K O F Fl} {beh : O → F → K → Fl → Except Err (SMat K)} {sub : SubSol K O F Fl} {ins : Insides K O F Fl}
variable {nan zb : K} {names : List Node} {net : Net K} {bh : Behave K F Fl} {s s' : St K O F Fl} {ph : Phase}

/-! ## states that answer the same -/

/-- other objects of the same behaviour in the blocks: the same answers -/
theorem getS_used (hlaw : Lawful ops beh) (h : Built ops beh nan zb names net bh s ph) (hph : ph ≠ .reloaded) (hfree : net.free ≠ [])
    {bs : List (Blk O)} (hb : List.Forall₂ (fun b b' => Blk.Like ops b b' ∧ beh b'.obj = beh b.obj) s.blocks bs)
    (f : F) (z : Option K) (fl : Fl) : (getS ops { s with blocks := bs } f z fl).2 = (getS ops s f z fl).2 := by
  have h' := Built.used h hb
  obtain ⟨hi, -, hc⟩ := h.all hlaw
  obtain ⟨hi', -, hc'⟩ := h'.all hlaw
  have hp : s.ports ≠ [] := by
    intro e
    have := hi.rep.ports_perm
    rw [e] at this
    exact hfree this.symm.eq_nil
  have hk : Kept beh s { s with blocks := bs } :=
    Kept.of_shape (fun f zb fl => fillErr_congr hb) rfl rfl rfl rfl
  have key : (get1S ops { s with blocks := bs } f fl).2 = (get1S ops s f fl).2 := by
    cases hg : get1S ops s f fl with
    | mk s1 r1 =>
      cases hg' : get1S ops { s with blocks := bs } f fl with
      | mk s2 r2 =>
        have a1 := (get1S_answer hlaw hi (hc hph) (h.stored_aliased hlaw) hp f fl hg).1
        have a2 := (get1S_answer hlaw hi' (hc' hph) (h'.stored_aliased hlaw) hp f fl hg').1
        show r2 = r1
        by_cases hb : Bad s
        · cases hf : fillErr beh f zb fl s.blocks with
          | some e => rw [a1.fill e hf, a2.fill e (by rw [hk.err]; exact hf)]
          | none => rw [a1.names hf hb, a2.names (by rw [hk.err]; exact hf) (hk.bad.2 hb)]
        · have a2' : Answer beh net bh zb s.blocks (Bad s) (ordered s) f fl r2 := by
            rw [← hk.ord hb]
            refine ⟨fun e he => a2.fill e (by rw [hk.err]; exact he),
              fun he hbb => absurd hbb hb, fun he hbb => a2.solve (by rw [hk.err]; exact he) (fun x => hbb (hk.bad.1 x))⟩
          exact a2'.unique (ordered_nodup hi.rep hb) a1
  have hz : ∀ {t : St K O F Fl} {ph : Phase}, Built ops beh nan zb names net bh t ph → (get1S ops t f fl).1.zbase = zb := by
    intro t ph ht
    cases hg : getS ops t f none fl with
    | mk t1 r1 =>
      rw [getS_state hg]
      exact ((Built.eval ht hg).inv hlaw).zb
  have hz1 := hz h
  have hz2 := hz h'
  unfold getS
  cases hg : get1S ops s f fl with
  | mk s1 r1 =>
    cases hg' : get1S ops { s with blocks := bs } f fl with
    | mk s2 r2 =>
      rw [hg] at key hz1
      rw [hg'] at key hz2
      simp only at key hz1 hz2
      subst key
      cases r2 with
      | error e => rfl
      | ok M =>
        simp only
        cases z with
        | none => rfl
        | some z' =>
          by_cases hc : z' ≠ 0 ∧ z' ≠ zb
          · simp only
            rw [if_pos (by rw [hz2]; exact hc), if_pos (by rw [hz1]; exact hc)]
            simp only [hz1, hz2]
          · simp only
            rw [if_neg (by rw [hz2]; exact hc), if_neg (by rw [hz1]; exact hc)]

/-- the state after `Solution` (at its own level): untouched or evaluated -/
theorem solution_state (hlaw : Lawful ops beh) (h : Built ops beh nan zb names net bh s ph) (hph : ph ≠ .reloaded)
    {f : F} {fl : Fl} {E : List (Node × K)} {z : Option K} {r : Except Err (List (Node × Quad K))}
    (hs : solution ops s f E z fl = (s', r)) : s' = s ∨ ∃ r', getS ops s f (some (z.getD zb)) fl = (s', r') := by
  have hz0 : s.zbase = zb := (h.inv hlaw).zb
  have key : ∀ s1 r1, solve ops s f E z fl = (s1, r1) → s1 = s ∨ ∃ r', getS ops s f (some (z.getD zb)) fl = (s1, r') := by
    intro s1 r1 hsol
    unfold solve at hsol
    simp only [hz0] at hsol
    cases hEa : mapE (dictIndex E) s.ports with
    | error e => rw [hEa] at hsol; simp only [Prod.mk.injEq] at hsol; exact Or.inl hsol.1.symm
    | ok Ea =>
      rw [hEa] at hsol
      simp only at hsol
      cases hg : getS ops s f (some (z.getD zb)) fl with
      | mk s2 r2 =>
        rw [hg] at hsol
        right
        refine ⟨r2, ?_⟩
        cases r2 with
        | error e => simp only [Prod.mk.injEq] at hsol; rw [hsol.1]
        | ok S =>
          simp only at hsol
          cases hb : applyS S Ea with
          | error e => rw [hb] at hsol; simp only [Prod.mk.injEq] at hsol; rw [hsol.1]
          | ok Eb =>
            rw [hb] at hsol
            simp only at hsol
            split at hsol
            · simp only [Prod.mk.injEq] at hsol; rw [hsol.1]
            · split at hsol
              · simp only [Prod.mk.injEq] at hsol; rw [hsol.1]
              · obtain ⟨c1, W, c2, -⟩ := getS_inverse hlaw h hph hg
                unfold applyInv at hsol
                rw [c2] at hsol
                simp only at hsol
                split at hsol <;> (simp only [Prod.mk.injEq] at hsol; rw [hsol.1])
  unfold solution at hs
  cases hsol : solve ops s f E z fl with
  | mk s1 r1 =>
    rw [hsol] at hs
    have := key s1 r1 hsol
    cases r1 with
    | error e => simp only [Prod.mk.injEq] at hs; rw [← hs.1]; exact this
    | ok sol =>
      simp only at hs
      split at hs <;> (simp only [Prod.mk.injEq] at hs; rw [← hs.1]; exact this)

/-! ## circuits as objects with insides -/

/-- A circuit in use: reached by a history, with external ports; no load changed since the last evaluation; no `Portnames`, or
evaluated before; no dots in the names of blocks and external nodes; every block that has a `Solution` method carries the port names of its
object. -/
structure SolCirc (ops : ObjOps K O F Fl) (beh : O → F → K → Fl → Except Err (SMat K)) (sub : SubSol K O F Fl) where
  st : St K O F Fl
  zb : K
  net : Net K
  bh : Behave K F Fl
  built : ∃ nan names ph, Built ops beh nan zb names net bh st ph ∧ ph ≠ .reloaded ∧ (names = [] ∨ st.aliased = true)
  hzb : zb ≠ 0
  hfree : net.free ≠ []
  dots : Dotless net
  lab : ∀ b ∈ st.blocks, (sub b.obj).isSome → ops.ports b.obj = some b.ports

/-- a state of circuit `c` after some use -/
structure Next (ins : Insides K O F Fl) (c : SolCirc ops beh sub) (s' : St K O F Fl) : Prop where
  built : ∃ nan names ph, Built ops beh nan c.zb names c.net c.bh s' ph ∧ ph ≠ .reloaded ∧ (names = [] ∨ s'.aliased = true)
  ports : s'.ports = c.st.ports
  same : SameBlks ops beh sub ins c.st.blocks s'.blocks
  ans : ∀ f z fl, (getS ops s' f z fl).2 = (getS ops c.st f z fl).2

/-- the circuit after that use -/
def SolCirc.next (c : SolCirc ops beh sub) (s' : St K O F Fl) (h : Next ins c s') : SolCirc ops beh sub where
  st := s'
  zb := c.zb
  net := c.net
  bh := c.bh
  built := h.built
  hzb := c.hzb
  hfree := c.hfree
  dots := c.dots
  lab := by
    intro b' hb' hs
    obtain ⟨b, hb, h1, h2, h3, h4, h5⟩ := forall₂_mem_right h.same hb'
    rw [h5.solv] at hs
    rw [h5.ports hs, h2]
    exact c.lab b hb hs

theorem SolCirc.labels (hlaw : Lawful ops beh) (c : SolCirc ops beh sub) {f : F} {z : Option K} {fl : Fl} {r : Except Err (SMat K)}
    (hs : getS ops c.st f z fl = (s', r)) : s'.ports = c.st.ports := by
  obtain ⟨nan, names, ph, h, hph, ho⟩ := c.built
  refine C49_labels hlaw h hph c.hfree ?_ hs
  rcases ho with ho | ho
  · by_cases ha : c.st.aliased = true
    · exact Or.inr ha
    · left
      unfold St.names
      rw [if_neg ha, (h.inv hlaw).nm, ho]
  · exact Or.inr ho

theorem next_getS (hlaw : Lawful ops beh) (hv : Solves ops beh sub ins) (c : SolCirc ops beh sub) {f : F} {z : Option K} {fl : Fl}
    {r : Except Err (SMat K)} (hs : getS ops c.st f z fl = (s', r)) : Next ins c s' := by
  have hl := c.labels hlaw hs
  obtain ⟨nan, names, ph, h, hph, ho⟩ := c.built
  refine ⟨⟨nan, names, _, Built.eval h hs, ?_, ?_⟩, hl, getS_same hv hs, fun f' z' fl' => getS_stable hlaw h hph c.hfree hs f' z' fl'⟩
  · rw [afterEval_of_ne hph]; decide
  · rcases ho with ho | ho
    · exact Or.inl ho
    · right
      have hst := getS_state hs
      rcases get1S_eq (ops := ops) c.st f fl with ⟨M, e1, e2, e3, e4⟩ | ⟨e1, e2⟩
      · rw [e4] at hst
        simp only at hst
        rw [← hst]; exact ho
      · rw [e2] at hst
        rw [← hst]
        exact recompute_aliased ho f fl

theorem Next.refl (c : SolCirc ops beh sub) : Next ins c c.st := ⟨c.built, rfl, SameBlks.refl _, fun _ _ _ => rfl⟩

theorem Next.blocks (hlaw : Lawful ops beh) {c : SolCirc ops beh sub} (h : Next ins c s') {bs : List (Blk O)}
    (hb : SameBlks ops beh sub ins s'.blocks bs) : Next ins c { s' with blocks := bs } := by
  obtain ⟨⟨nan, names, ph, h1, hph, ho⟩, h2, h3, h4⟩ := h
  have hb' : List.Forall₂ (fun b b' => Blk.Like ops b b' ∧ beh b'.obj = beh b.obj) s'.blocks bs := hb.imp fun _ _ h => h.like
  refine ⟨⟨nan, names, ph, Built.used h1 hb', hph, ho⟩, h2, SameBlks.trans h3 hb, fun f z fl => ?_⟩
  rw [getS_used hlaw h1 hph c.hfree hb', h4]

theorem next_solution (hlaw : Lawful ops beh) (hv : Solves ops beh sub ins) (c : SolCirc ops beh sub) {f : F} {E : List (Node × K)}
    {z : Option K} {fl : Fl} {r : Except Err (List (Node × Quad K))} (hs : solution ops c.st f E z fl = (s', r)) : Next ins c s' := by
  obtain ⟨nan, names, ph, h, hph, ho⟩ := c.built
  rcases solution_state hlaw h hph hs with rfl | ⟨r', hr⟩
  · exact Next.refl c
  · exact next_getS hlaw hv c hr

theorem next_solutionAll (hlaw : Lawful ops beh) (hv : Solves ops beh sub ins) (c : SolCirc ops beh sub) (f : F) (E : List (Node × K))
    (z : Option K) (nodes : Option (List String)) (fl : Fl) : Next ins c (solutionAll ops sub c.st f E z nodes fl).1 := by
  unfold solutionAll
  cases hs : solution ops c.st f E z fl with
  | mk s1 r1 =>
    have h1 := next_solution hlaw hv c hs
    cases r1 with
    | error e => exact h1
    | ok t => exact h1.blocks hlaw (deeper_same hv _ _ _ _ _ _)

/-- a circuit as a block object: `len`, `ports` (names), `getS` (rfCircuit.py:259-260, 1249-1345) -/
noncomputable def solOps (hlaw : Lawful ops beh) (hv : Solves ops beh sub ins) : ObjOps K (SolCirc ops beh sub) F Fl where
  len c := c.st.ports.length
  ports c := some (c.st.ports.map Node.str)
  xpos c := some c.st.xpos
  portPos _ _ := .ok 0
  getS c f z fl := (c.next _ (next_getS hlaw hv c (Prod.ext rfl rfl : getS ops c.st f (some z) fl = (_, _))),
    (getS ops c.st f (some z) fl).2)

/-- what a circuit answers -/
noncomputable def solBeh (ops : ObjOps K O F Fl) (beh : O → F → K → Fl → Except Err (SMat K)) (sub : SubSol K O F Fl)
    (c : SolCirc ops beh sub) (f : F) (z : K) (fl : Fl) : Except Err (SMat K) := (getS ops c.st f (some z) fl).2

/-- an excitation given by the strings of the ports: what `E[p]` finds -/
def byNode (ports : List Node) (E : List (String × K)) : List (Node × K) :=
  ports.filterMap fun p => (dictGet p.str E).map fun v => (p, v)

/-- the `Solution` method of a circuit (rfCircuit.py:1462-1612), by strings -/
noncomputable def solSub (hlaw : Lawful ops beh) (hv : Solves ops beh sub ins) : SubSol K (SolCirc ops beh sub) F Fl := fun c =>
  some fun f E z left fl =>
    (c.next _ (next_solutionAll hlaw hv c f (byNode c.st.ports E) (some z) left fl),
      (solutionAll ops sub c.st f (byNode c.st.ports E) (some z) left fl).2.map fun t => t.map fun x => (x.1.str, x.2))

/-- names of all nodes, inside blocks too -/
def solNodes (sub : SubSol K O F Fl) (ins : Insides K O F Fl) (c : SolCirc ops beh sub) : List String :=
  c.net.nodes.map Node.str ++ c.st.blocks.flatMap fun b =>
    if (sub b.obj).isSome then (ins.nodes b.obj).map fun r => b.name ++ "." ++ r else []

/-- the port states that the laws of the network allow -/
def solAllowed (c : SolCirc ops beh sub) (f : F) (fl : Fl) (V I : ℕ → K) : Prop :=
  ∃ Sof w, Given c.net c.bh f c.zb fl Sof ∧ c.net.Laws c.zb Sof w ∧
    ∀ i (hi : i < c.st.ports.length), volt w c.st.ports[i] = V i ∧ curr w c.st.ports[i] / c.zb = I i

/-- **The inner states of a circuit**: at its own nodes voltages and currents that satisfy all laws of its network, and every block with
insides is in one of its inner states, the nodes of block `b` being called `b.node`.  (The ports of a block are nodes of the circuit and nodes
of the block: they carry one voltage and one current.) -/
def solPhys (sub : SubSol K O F Fl) (ins : Insides K O F Fl) (c : SolCirc ops beh sub) (f : F) (fl : Fl) (x : Inner K) : Prop :=
  ∃ Sof w, Given c.net c.bh f c.zb fl Sof ∧ c.net.Laws c.zb Sof w ∧
    (∀ n ∈ c.net.nodes, x.V n.str = volt w n ∧ x.I n.str = curr w n / c.zb) ∧
    ∀ b ∈ c.st.blocks, (sub b.obj).isSome → ins.phys b.obj f fl (x.part b.name)

/-- the circuit answers on this reference, and so do its blocks with insides -/
def solReady (sub : SubSol K O F Fl) (ins : Insides K O F Fl) (c : SolCirc ops beh sub) (f : F) (z : K) (fl : Fl) : Prop :=
  (∃ S, solBeh ops beh sub c f z fl = .ok S) ∧ ∀ b ∈ c.st.blocks, (sub b.obj).isSome → ins.ready b.obj f z fl

/-- what is inside a circuit -/
def solIns (sub : SubSol K O F Fl) (ins : Insides K O F Fl) : Insides K (SolCirc ops beh sub) F Fl :=
  ⟨solNodes sub ins, solAllowed, solPhys sub ins, solReady sub ins⟩

theorem solBeh_next {c : SolCirc ops beh sub} (h : Next ins c s') : solBeh ops beh sub (c.next s' h) = solBeh ops beh sub c := by
  funext f z fl
  exact h.ans f (some z) fl

theorem solSame (hlaw : Lawful ops beh) (hv : Solves ops beh sub ins) {c : SolCirc ops beh sub} (h : Next ins c s') :
    SameObj (solOps hlaw hv) (solBeh ops beh sub) (solSub hlaw hv) (solIns sub ins) c (c.next s' h) where
  len := by show s'.ports.length = c.st.ports.length; rw [h.ports]
  beh := solBeh_next h
  solv := rfl
  ports _ := by show some (s'.ports.map Node.str) = some (c.st.ports.map Node.str); rw [h.ports]
  nodes := by
    show c.net.nodes.map Node.str ++ _ = c.net.nodes.map Node.str ++ _
    congr 1
    have hb := h.same
    show s'.blocks.flatMap _ = c.st.blocks.flatMap _
    generalize c.st.blocks = bs at hb
    generalize s'.blocks = bs' at hb
    induction hb with
    | nil => rfl
    | cons h1 h2 ih =>
      rw [List.flatMap_cons, List.flatMap_cons, ih]
      simp only [h1.2.2.2.2.solv, h1.2.2.2.2.nodes, h1.1]
  allowed := by
    funext f fl V I
    show (∃ Sof w, Given c.net c.bh f c.zb fl Sof ∧ c.net.Laws c.zb Sof w ∧
      ∀ i (hi : i < s'.ports.length), volt w s'.ports[i] = V i ∧ curr w s'.ports[i] / c.zb = I i) = solAllowed c f fl V I
    simp only [h.ports]
    rfl
  phys := by
    funext f fl x
    show (∃ Sof w, Given c.net c.bh f c.zb fl Sof ∧ c.net.Laws c.zb Sof w ∧
      (∀ n ∈ c.net.nodes, x.V n.str = volt w n ∧ x.I n.str = curr w n / c.zb) ∧
      ∀ b ∈ s'.blocks, (sub b.obj).isSome → ins.phys b.obj f fl (x.part b.name)) = solPhys sub ins c f fl x
    have : (∀ b ∈ s'.blocks, (sub b.obj).isSome → ins.phys b.obj f fl (x.part b.name)) ↔
        ∀ b ∈ c.st.blocks, (sub b.obj).isSome → ins.phys b.obj f fl (x.part b.name) := by
      have hb := h.same
      generalize c.st.blocks = bs at hb
      generalize s'.blocks = bs' at hb
      induction hb with
      | nil => rfl
      | cons h1 h2 ih =>
        rw [List.forall_mem_cons, List.forall_mem_cons, h1.2.2.2.2.solv, h1.2.2.2.2.phys, h1.1]
        exact and_congr_right fun _ => ih
    simp only [this]
    rfl
  ready := by
    funext f z fl
    show ((∃ S, solBeh ops beh sub (c.next s' h) f z fl = .ok S) ∧ ∀ b ∈ s'.blocks, (sub b.obj).isSome → ins.ready b.obj f z fl) =
      ((∃ S, solBeh ops beh sub c f z fl = .ok S) ∧ ∀ b ∈ c.st.blocks, (sub b.obj).isSome → ins.ready b.obj f z fl)
    rw [solBeh_next h]
    congr 1
    rw [eq_iff_iff]
    have hb := h.same
    generalize c.st.blocks = bs at hb
    generalize s'.blocks = bs' at hb
    induction hb with
    | nil => rfl
    | cons h1 h2 ih =>
      rw [List.forall_mem_cons, List.forall_mem_cons, h1.2.2.2.2.solv, h1.2.2.2.2.ready]
      exact and_congr_right fun _ => ih

/-! ## putting the insides together -/

theorem str_inj (hd : Dotless net) (hlaw : Lawful ops beh) (h : Built ops beh nan zb names net bh s ph) {n m : Node} (hn : n ∈ net.nodes)
    (hm : m ∈ net.nodes) (e : n.str = m.str) : n = m := by
  have hc : ∀ {n : Node}, n ∈ net.nodes → match n with | .blk b' _ => '.' ∉ b'.toList | .ext e => '.' ∉ e.toList := by
    intro n hn
    cases n with
    | blk b p =>
      obtain ⟨ps, h1, -⟩ := h.blk_node hlaw hn
      exact hd.blk _ h1
    | ext e => exact hd.ext e hn
  cases m with
  | blk b p => exact str_prefix_inj (hc hm) (hc hn) e
  | ext e' =>
    cases n with
    | blk b p => exact (str_prefix_inj (hc hn) (hc hm) e.symm).symm
    | ext e'' => simp only [Node.str] at e; rw [e]

theorem SolCirc.blk_mem (hlaw : Lawful ops beh) (h : Built ops beh nan zb names net bh s ph) {b : Blk O} (hb : b ∈ s.blocks) :
    (b.name, b.ports) ∈ net.blks := by
  have : net.blks = s.blocks.map fun b => (b.name, b.ports) := (h.inv hlaw).rep.rep.blks
  rw [this]
  exact List.mem_map_of_mem hb

theorem SolCirc.blk_nodup (hlaw : Lawful ops beh) (h : Built ops beh nan zb names net bh s ph) : (s.blocks.map Blk.name).Nodup := by
  exact (h.inv hlaw).rep.rep.bnd

open Classical in
/-- voltages and currents at the nodes of the circuit from `w`, elsewhere from the blocks -/
noncomputable def glue (zb : K) (net : Net K) (w : Wave → K) (xs : String → Inner K) : Inner K where
  V s := if h : ∃ n ∈ net.nodes, n.str = s then volt w h.choose else (xs (cutHead s)).V (cutTail s)
  I s := if h : ∃ n ∈ net.nodes, n.str = s then curr w h.choose / zb else (xs (cutHead s)).I (cutTail s)

theorem glue_node (hd : Dotless net) (hlaw : Lawful ops beh) (h : Built ops beh nan zb names net bh s ph) (w : Wave → K)
    (xs : String → Inner K) {n : Node} (hn : n ∈ net.nodes) :
    (glue zb net w xs).V n.str = volt w n ∧ (glue zb net w xs).I n.str = curr w n / zb := by
  have hex : ∃ m ∈ net.nodes, m.str = n.str := ⟨n, hn, rfl⟩
  have e : hex.choose = n := str_inj hd hlaw h hex.choose_spec.1 hn hex.choose_spec.2
  simp only [glue]
  rw [dif_pos hex, dif_pos hex, e]
  exact ⟨rfl, rfl⟩

theorem glue_part (hd : Dotless net) (hlaw : Lawful ops beh) (h : Built ops beh nan zb names net bh s ph) (w : Wave → K)
    (xs : String → Inner K) {b : Blk O} (hb : b ∈ s.blocks)
    (hV : ∀ p ∈ b.ports, (xs b.name).V p = volt w (.blk b.name p)) (hI : ∀ p ∈ b.ports, (xs b.name).I p = curr w (.blk b.name p) / zb)
    (r : String) : ((glue zb net w xs).part b.name).V r = (xs b.name).V r ∧ ((glue zb net w xs).part b.name).I r = (xs b.name).I r := by
  have hbd : '.' ∉ b.name.toList := hd.blk _ (SolCirc.blk_mem hlaw h hb)
  by_cases hr : Node.blk b.name r ∈ net.nodes
  · obtain ⟨ps, h1, h2⟩ := h.blk_node hlaw hr
    have hps : ps = b.ports := by
      have hbl : net.blks = s.blocks.map fun b => (b.name, b.ports) := (h.inv hlaw).rep.rep.blks
      rw [hbl, List.mem_map] at h1
      obtain ⟨b', hb', e⟩ := h1
      injection e with e1 e2
      have : b' = b := List.inj_on_of_nodup_map (SolCirc.blk_nodup hlaw h) hb' hb e1
      rw [← e2, this]
    subst hps
    have := glue_node hd hlaw h w xs hr
    simp only [Inner.part]
    rw [hV r h2, hI r h2]
    exact this
  · have hno : ¬ ∃ n ∈ net.nodes, n.str = b.name ++ "." ++ r := by
      rintro ⟨n, hn, e⟩
      apply hr
      have : n = .blk b.name r := by
        refine str_prefix_inj hbd ?_ e
        cases n with
        | blk b' p =>
          obtain ⟨ps, h1, -⟩ := h.blk_node hlaw hn
          exact hd.blk _ h1
        | ext e' => exact hd.ext e' hn
      rw [← this]; exact hn
    obtain ⟨c1, c2⟩ := cut_prefix (n := r) hbd
    simp only [Inner.part, glue]
    rw [dif_neg hno, dif_neg hno, c1, c2]
    exact ⟨rfl, rfl⟩

/-- the waves of the network put a block with insides into an allowed state -/
theorem outside_of_laws (hlaw : Lawful ops beh) (hv : Solves ops beh sub ins) (h : Built ops beh nan zb names net bh s ph)
    (hzb : zb ≠ 0) {f : F} {fl : Fl} {Sof : String → SMat K} (hg : Given net bh f zb fl Sof) {w : Wave → K} (hw : net.Laws zb Sof w)
    {b : Blk O} (hb : b ∈ s.blocks) (hs : (sub b.obj).isSome) (hl : ops.ports b.obj = some b.ports) :
    Outside ops beh ins f fl (fun b p => volt w (.blk b p)) (fun b p => curr w (.blk b p) / zb) b := by
  have hbm := SolCirc.blk_mem hlaw h hb
  have hbeh : beh b.obj f zb fl = .ok (Sof b.name) := by
    rw [(h.inv hlaw).bhv b hb]
    exact hg _ hbm
  refine ⟨hl, ?_, zb, _, hzb, hbeh⟩
  rw [hv.allowed b.obj hs f zb fl _ hzb hbeh]
  intro i hi
  have hlen : b.ports.length = ops.len b.obj := (h.inv hlaw).rep.rep.blen b hb
  have hB := hw.1 _ hbm ⟨i, by show i < b.ports.length; omega⟩
  simp only [Fin.getElem_fin] at hB
  have two : (2 : K) ≠ 0 := two_ne_zero
  have eA : ∀ n : Node, (volt w n + zb * (curr w n / zb)) / 2 = w (.inn, n) := by
    intro n; simp only [volt, curr]; field_simp; ring
  have eB : ∀ n : Node, (volt w n - zb * (curr w n / zb)) / 2 = w (.out, n) := by
    intro n; simp only [volt, curr]; field_simp; ring
  rw [eB, ← hlen, Finset.sum_range]
  have e : b.ports.getD i "" = b.ports[i] := by simp [List.getD_eq_getElem?_getD, show i < b.ports.length by omega]
  rw [e, hB]
  refine Finset.sum_congr rfl fun j _ => ?_
  rw [eA]
  simp [List.getD_eq_getElem?_getD]

theorem byNode_get {ports : List Node} {E : List (String × K)} {p : Node} {v : K} (h : dictGet p (byNode ports E) = some v) :
    dictGet p.str E = some v := by
  have := dictGet_mem h
  unfold byNode at this
  rw [List.mem_filterMap] at this
  obtain ⟨q, -, e⟩ := this
  cases hq : dictGet q.str E with
  | none => rw [hq] at e; cases e
  | some u =>
    rw [hq] at e
    simp only [Option.map_some, Option.some.injEq, Prod.mk.injEq] at e
    rw [← e.1, hq, e.2]

/-- **C30 (what `Solution` reports, with the nodes inside blocks).**  There is one inner state of the circuit -- its own network laws hold, and
every block with insides is in one of its inner states, with the same voltages and currents at its ports -- such that the waves entering the
external ports are those given, every entry of the table is the voltage, current and waves of that state, and all nodes asked for (all nodes,
when `nodes = None`) are in the table. -/
theorem solutionAll_spec (hlaw : Lawful ops beh) (hv : Solves ops beh sub ins) (c : SolCirc ops beh sub) {f : F} {E : List (Node × K)}
    {z : Option K} {nodes : Option (List String)} {fl : Fl} {t : List (Node × Quad K)} (hz : z.getD c.zb ≠ 0)
    (hs : solutionAll ops sub c.st f E z nodes fl = (s', .ok t)) :
    (∃ S, (getS ops c.st f (some (z.getD c.zb)) fl).2 = .ok S) ∧
    ∃ x, solPhys sub ins c f fl x ∧ (∀ p ∈ c.net.free, dictGet p E = some (x.fwd (z.getD c.zb) p.str)) ∧
      (∀ n q, (n, q) ∈ t → n.str ∈ solNodes sub ins c ∧ q = x.quad (z.getD c.zb) n.str) ∧
      ∀ n ∈ solNodes sub ins c, (∀ l, nodes = some l → n ∈ l) → ∃ m ∈ t.map Prod.fst, m.str = n := by
  obtain ⟨nan, names, ph, h, hph, ho⟩ := c.built
  have hz0 : c.st.zbase = c.zb := (h.inv hlaw).zb
  unfold solutionAll at hs
  cases hsol : solution ops c.st f E z fl with
  | mk s1 r1 =>
    rw [hsol] at hs
    cases r1 with
    | error e => simp at hs
    | ok t0 =>
      simp only [Prod.mk.injEq] at hs
      obtain ⟨-, hs⟩ := hs
      rw [hz0] at hs
      have hnd := solution_nodup hsol
      have hnx := next_solution (ins := ins) hlaw hv c hsol
      obtain ⟨S, hS⟩ := solution_getS hlaw h hph c.hzb hsol
      obtain ⟨Sof, hg, w, hw, hE, ht0⟩ := C30_solution hlaw h hph c.hzb (by
        rcases ho with ho | ho
        · exact Or.inl ho
        · exact Or.inr (Or.inr ho)) hsol
      obtain ⟨nan', names', ph', h1, hph', -⟩ := hnx.built
      have hlab1 := (c.next s1 hnx).lab
      have hnod : ∀ {n q}, (n, q) ∈ t0 → n ∈ c.net.nodes ∧ q = (stateOf c.zb w).quad (z.getD c.zb) n := by
        intro n q hm
        have := dictGet_of_mem hnd hm
        rw [ht0 n] at this
        split at this
        · rename_i hn
          injection this with this
          exact ⟨hn, this.symm⟩
        · cases this
      obtain ⟨xs, x1, x2, x3, x4⟩ := deeper_spec hv hz s1.blocks t0 (SolCirc.blk_nodup hlaw h1)
        (fun b hb => c.dots.blk _ (SolCirc.blk_mem hlaw h1 hb))
        (fun b hb hbs => by
          refine ⟨outside_of_laws hlaw hv h1 c.hzb hg hw hb hbs (hlab1 b hb hbs), fun p hp => ?_⟩
          rw [ht0, if_pos]
          · rfl
          · have hr := (h1.inv hlaw).rep.rep
            obtain ⟨k, hk, rfl⟩ := List.getElem_of_mem hp
            have := (hr.bcol b hb k hk).1
            exact (hr.wmem .inn _).1 (List.mem_of_getElem? this)) hs
      have gn := fun {n} hn => glue_node c.dots hlaw h1 w xs (n := n) hn
      have gp : ∀ b ∈ s1.blocks, (sub b.obj).isSome → ∀ r, ((glue c.zb c.net w xs).part b.name).V r = (xs b.name).V r ∧
          ((glue c.zb c.net w xs).part b.name).I r = (xs b.name).I r := by
        intro b hb hbs r
        exact glue_part c.dots hlaw h1 w xs hb (x1 b hb hbs).V (x1 b hb hbs).I r
      refine ⟨⟨S, by rw [hS]⟩, glue c.zb c.net w xs, ?_, ?_, ?_, ?_⟩
      · change (solIns sub ins).phys c f fl (glue c.zb c.net w xs)
        rw [← congrFun (congrFun (congrFun (solSame hlaw hv hnx).phys f) fl)]
        refine ⟨Sof, w, hg, hw, fun n hn => gn hn, fun b hb hbs => ?_⟩
        refine hv.congr b.obj hbs f fl (xs b.name) _ (fun n _ => ?_) (x1 b hb hbs).phys
        exact ⟨(gp b hb hbs n).1.symm, (gp b hb hbs n).2.symm⟩
      · intro p hp
        have hpn : p ∈ c.net.nodes := (mem_free.1 hp).1
        rw [hE p hp]
        simp only [Field.State.fwd, stateOf, Inner.fwd, (gn hpn).1, (gn hpn).2]
      · intro n q hm
        have hsn := (solSame hlaw hv hnx).nodes
        rcases x2 _ hm with hm | ⟨b, hb, hbs, r, hr, e⟩
        · obtain ⟨hn, rfl⟩ := hnod hm
          refine ⟨?_, ?_⟩
          · unfold solNodes
            exact List.mem_append_left _ (List.mem_map_of_mem hn)
          · simp only [Field.State.quad, Field.State.fwd, Field.State.rev, stateOf, Inner.quad, Inner.fwd, Inner.rev, (gn hn).1, (gn hn).2]
        · injection e with e1 e2
          subst e1 e2
          refine ⟨?_, ?_⟩
          · change Node.str (.blk b.name r) ∈ (solIns sub ins).nodes c
            rw [← hsn]
            show _ ∈ _ ++ _
            apply List.mem_append_right
            rw [List.mem_flatMap]
            exact ⟨b, hb, by rw [if_pos hbs]; exact List.mem_map.2 ⟨r, hr, rfl⟩⟩
          · obtain ⟨e1, e2⟩ := gp b hb hbs r
            simp only [Inner.part] at e1 e2
            simp only [Inner.quad, Inner.fwd, Inner.rev, Node.str, e1, e2]
      · intro n hn hwant
        have hsn := (solSame hlaw hv hnx).nodes
        change n ∈ (solIns sub ins).nodes c at hn
        rw [← hsn] at hn
        have hn : n ∈ c.net.nodes.map Node.str ++ s1.blocks.flatMap fun b =>
          if (sub b.obj).isSome then (ins.nodes b.obj).map fun r => b.name ++ "." ++ r else [] := hn
        have hin : ∀ m, dictGet m t ≠ none → m ∈ t.map Prod.fst := by
          intro m hm
          by_contra hc
          exact hm (dictGet_none.2 hc)
        rcases List.mem_append.1 hn with hn | hn
        · obtain ⟨m, hm, rfl⟩ := List.mem_map.1 hn
          refine ⟨m, hin m (x3 m ?_), rfl⟩
          rw [ht0, if_pos hm]
          simp
        · rw [List.mem_flatMap] at hn
          obtain ⟨b, hb, hn⟩ := hn
          split at hn
          · rename_i hbs
            obtain ⟨r, hr, rfl⟩ := List.mem_map.1 hn
            by_cases hk : (b.name ++ "." ++ r) ∈ t0.map fun x => x.1.str
            · obtain ⟨y, hy, e⟩ := List.mem_map.1 hk
              refine ⟨y.1, hin _ (x3 _ ?_), e⟩
              rw [dictGet_of_mem hnd (show (y.1, y.2) ∈ t0 from hy)]
              simp
            · refine ⟨.blk b.name r, hin _ (x4 b hb hbs r hr ?_), rfl⟩
              intro l hl
              unfold nodesLeft at hl
              cases hnodes : nodes with
              | none => rw [hnodes] at hl; cases hl
              | some l' =>
                rw [hnodes] at hl
                simp only [Option.some.injEq] at hl
                rw [← hl, List.mem_filter]
                exact ⟨hwant l' hnodes, by simpa using hk⟩
          · simp at hn

/-- **C30 (answers, with the nodes inside blocks).** -/
theorem solutionAll_answers (hlaw : Lawful ops beh) (hv : Solves ops beh sub ins) (c : SolCirc ops beh sub) {f : F} {E : List (Node × K)}
    {z : Option K} {nodes : Option (List String)} {fl : Fl} (hz : z.getD c.zb ≠ 0) (hr : solReady sub ins c f (z.getD c.zb) fl)
    (hE : ∀ p ∈ c.net.free, dictGet p E ≠ none) : ∃ t, (solutionAll ops sub c.st f E z nodes fl).2 = .ok t := by
  obtain ⟨nan, names, ph, h, hph, ho⟩ := c.built
  have hz0 : c.st.zbase = c.zb := (h.inv hlaw).zb
  obtain ⟨⟨S, hS⟩, hrb⟩ := hr
  obtain ⟨t0, ht0⟩ := C30_solution_answers hlaw h hph c.hzb hz hE
    (Prod.ext rfl hS : getS ops c.st f (some (z.getD c.zb)) fl = ((getS ops c.st f (some (z.getD c.zb)) fl).1, .ok S))
  have hnx := next_solution (ins := ins) hlaw hv c ht0
  obtain ⟨nan', names', ph', h1, hph', -⟩ := hnx.built
  have hlab1 := (c.next _ hnx).lab
  have hrd := congrFun (congrFun (congrFun (solSame hlaw hv hnx).ready f) (z.getD c.zb)) fl
  have hrd' : solReady sub ins (c.next _ hnx) f (z.getD c.zb) fl :=
    hrd.mpr (⟨⟨S, hS⟩, hrb⟩ : solReady sub ins c f (z.getD c.zb) fl)
  obtain ⟨Sof, hg, w, hw, -, hd⟩ := C30_solution hlaw h hph c.hzb (by
    rcases ho with ho | ho
    · exact Or.inl ho
    · exact Or.inr (Or.inr ho)) ht0
  unfold solutionAll
  rw [ht0]
  simp only [hz0]
  refine deeper_answers hv hz _ _ fun b hb hbs => ⟨hlab1 b hb hbs, hrd'.2 b hb hbs, fun p hp => ?_⟩
  rw [hd, if_pos]
  · simp
  · have hr := (h1.inv hlaw).rep.rep
    obtain ⟨k, hk, rfl⟩ := List.getElem_of_mem hp
    have := (hr.bcol b hb k hk).1
    exact (hr.wmem .inn _).1 (List.mem_of_getElem? this)

theorem byNode_keys {ports : List Node} {E : List (String × K)} {p : Node} (hp : p ∈ ports) (h : dictGet p.str E ≠ none) :
    dictGet p (byNode ports E) ≠ none := by
  rw [Ne, dictGet_none, not_not]
  cases hd : dictGet p.str E with
  | none => exact absurd hd h
  | some v =>
    refine List.mem_map.2 ⟨(p, v), ?_, rfl⟩
    unfold byNode
    rw [List.mem_filterMap]
    exact ⟨p, hp, by rw [hd]; rfl⟩

theorem flat_ports (hlaw : Lawful ops beh) (h : Built ops beh nan zb names net bh s ph)
    (hph : ph ≠ .reloaded) (hzb : zb ≠ 0) {f : F} {fl : Fl} {z : K} (hz : z ≠ 0) {S : SMat K}
    (hs : getS ops s f (some z) fl = (s', .ok S)) {Sof : String → SMat K} (hS : Given net bh f zb fl Sof) {ps : List Node}
    (hp : s'.ports = ps) (a b : Fin ps.length → K) :
    (∀ i, b i = ∑ j : Fin ps.length, S.at i j * a j) ↔
      ∃ v, net.Laws zb Sof v ∧ ∀ i : Fin ps.length, volt v ps[i] = a i + b i ∧ curr v ps[i] / zb = (a i - b i) / z := by
  subst hp
  exact C22_flatten_waves hlaw h hph hzb hz hs hS a b

theorem sol_lawful (hlaw : Lawful ops beh) (hv : Solves ops beh sub ins) : Lawful (solOps hlaw hv) (solBeh ops beh sub) where
  res _ _ _ _ := rfl
  stable c f z fl := solBeh_next (ins := ins) (next_getS hlaw hv c (Prod.ext rfl rfl : getS ops c.st f (some z) fl = (_, _)))
  len c f z fl := by
    show (getS ops c.st f (some z) fl).1.ports.length = c.st.ports.length
    have hs : getS ops c.st f (some z) fl = ((getS ops c.st f (some z) fl).1, (getS ops c.st f (some z) fl).2) := rfl
    rw [c.labels hlaw hs]
  sized c f z fl S hS := by
    obtain ⟨nan, names, ph, h, hph, ho⟩ := c.built
    show S.n = c.st.ports.length
    have hS : (getS ops c.st f (some z) fl).2 = .ok S := hS
    have hs : getS ops c.st f (some z) fl = (_, .ok S) := Prod.ext rfl hS
    rw [(getS_size hlaw h hph hs).2, c.labels hlaw hs]

/-- **C30 (any depth).**  A circuit of blocks that report their inner states is again a block that reports its inner states. -/
theorem C30_nested (hlaw : Lawful ops beh) (hv : Solves ops beh sub ins) :
    Solves (solOps hlaw hv) (solBeh ops beh sub) (solSub hlaw hv) (solIns sub ins) where
  keep c f z fl := solSame hlaw hv (next_getS hlaw hv c (Prod.ext rfl rfl : getS ops c.st f (some z) fl = (_, _)))
  used c m hm f E z left fl := by
    have hm : some _ = some m := hm
    injection hm with hm
    subst hm
    exact solSame hlaw hv (next_solutionAll hlaw hv c f (byNode c.st.ports E) (some z) left fl)
  ports c _ := by
    obtain ⟨nan, names, ph, h, hph, ho⟩ := c.built
    have hpm := (h.inv hlaw).rep.ports_perm
    have hin : ∀ p ∈ c.st.ports, p ∈ c.net.nodes := fun p hp => (mem_free.1 (hpm.mem_iff.1 hp)).1
    refine ⟨_, rfl, List.length_map _, ?_, ?_⟩
    · refine List.Nodup.map_on ?_ (h.inv hlaw).rep.rep.pnd
      intro p hp q hq e
      exact str_inj c.dots hlaw h (hin p hp) (hin q hq) e
    · intro p hp
      obtain ⟨n, hn, rfl⟩ := List.mem_map.1 hp
      exact List.mem_append_left _ (List.mem_map_of_mem (hin n hn))
  allowed c _ f z fl S hz hS V I := by
    obtain ⟨nan, names, ph, h, hph, ho⟩ := c.built
    have hS : (getS ops c.st f (some z) fl).2 = .ok S := hS
    have hs : getS ops c.st f (some z) fl = ((getS ops c.st f (some z) fl).1, .ok S) := Prod.ext rfl hS
    obtain ⟨⟨Sof, hg⟩, -⟩ := getS_size hlaw h hph hs
    have hfl := flat_ports hlaw h hph c.hzb hz hs hg (c.labels hlaw hs)
    have two : (2 : K) ≠ 0 := two_ne_zero
    have key := hfl (fun i => (V i + z * I i) / 2) (fun i => (V i - z * I i) / 2)
    have e1 : (∀ i < (solOps hlaw hv).len c, (V i - z * I i) / 2 = ∑ j ∈ Finset.range ((solOps hlaw hv).len c), S.at i j * ((V j + z * I j) / 2)) ↔
        ∀ i : Fin c.st.ports.length, (V i - z * I i) / 2 = ∑ j : Fin c.st.ports.length, S.at i j * ((V j + z * I j) / 2) := by
      show (∀ i < c.st.ports.length, (V i - z * I i) / 2 = ∑ j ∈ Finset.range c.st.ports.length, S.at i j * ((V j + z * I j) / 2)) ↔ _
      simp only [Finset.sum_range]
      exact ⟨fun H i => H i i.2, fun H i hi => H ⟨i, hi⟩⟩
    rw [e1, key]
    show (∃ Sof w, _) ↔ _
    have e2 : ∀ i : ℕ, (V i + z * I i) / 2 + (V i - z * I i) / 2 = V i := fun i => by field_simp; ring
    have e3 : ∀ i : ℕ, ((V i + z * I i) / 2 - (V i - z * I i) / 2) / z = I i := fun i => by field_simp; ring
    constructor
    · rintro ⟨Sof', w, g1, g2, g3⟩
      refine ⟨w, (g1.laws_congr hg w).1 g2, fun i => ?_⟩
      rw [e2, e3]
      exact g3 i i.2
    · rintro ⟨w, g2, g3⟩
      refine ⟨Sof, w, hg, g2, fun i hi => ?_⟩
      have := g3 ⟨i, hi⟩
      rw [e2, e3] at this
      exact this
  outer c _ f fl x ps hx hps := by
    obtain ⟨nan, names, ph, h, hph, ho⟩ := c.built
    have hpm := (h.inv hlaw).rep.ports_perm
    obtain ⟨Sof, w, g1, g2, g3, -⟩ := hx
    have hps : some (c.st.ports.map Node.str) = some ps := hps
    injection hps with hps
    subst hps
    refine ⟨Sof, w, g1, g2, fun i hi => ?_⟩
    have hn : c.st.ports[i] ∈ c.net.nodes := (mem_free.1 (hpm.mem_iff.1 (List.getElem_mem hi))).1
    have e : (c.st.ports.map Node.str).getD i "" = c.st.ports[i].str := by simp [List.getD_eq_getElem?_getD, hi]
    simp only [e]
    exact ⟨(g3 _ hn).1.symm, (g3 _ hn).2.symm⟩
  inner c _ f fl V I ps ha hb hps := by
    classical
    obtain ⟨nan, names, ph, h, hph, ho⟩ := c.built
    have hpm := (h.inv hlaw).rep.ports_perm
    obtain ⟨Sof, w, g1, g2, g3⟩ := ha
    have hps : some (c.st.ports.map Node.str) = some ps := hps
    injection hps with hps
    subst hps
    have hfit : ∀ b ∈ c.st.blocks, (sub b.obj).isSome → ∃ x, Fits ins f fl (fun b p => volt w (.blk b p))
        (fun b p => curr w (.blk b p) / c.zb) b x := fun b hb hbs =>
      (outside_of_laws hlaw hv h c.hzb g1 g2 hb hbs (c.lab b hb hbs)).fits hv hbs
    have hxs : ∃ xs : String → Inner K, ∀ b ∈ c.st.blocks, (sub b.obj).isSome → Fits ins f fl (fun b p => volt w (.blk b p))
        (fun b p => curr w (.blk b p) / c.zb) b (xs b.name) := by
      refine ⟨fun n => if hb : ∃ x, ∃ b ∈ c.st.blocks, b.name = n ∧ Fits ins f fl (fun b p => volt w (.blk b p))
        (fun b p => curr w (.blk b p) / c.zb) b x then hb.choose else ⟨0, 0⟩, fun b hb hbs => ?_⟩
      have hex : ∃ x, ∃ b' ∈ c.st.blocks, b'.name = b.name ∧ Fits ins f fl (fun b p => volt w (.blk b p))
          (fun b p => curr w (.blk b p) / c.zb) b' x := by
        obtain ⟨x, hx⟩ := hfit b hb hbs
        exact ⟨x, b, hb, rfl, hx⟩
      simp only [dif_pos hex]
      obtain ⟨b', h1, h2, h3⟩ := hex.choose_spec
      have e : b' = b := List.inj_on_of_nodup_map (SolCirc.blk_nodup hlaw h) h1 hb h2
      subst e
      exact h3
    obtain ⟨xs, hxs⟩ := hxs
    have gn := fun {n} hn => glue_node c.dots hlaw h w xs (n := n) hn
    refine ⟨glue c.zb c.net w xs, ⟨Sof, w, g1, g2, fun n hn => gn hn, fun b hb hbs => ?_⟩, fun i hi => ?_⟩
    · refine hv.congr b.obj hbs f fl (xs b.name) _ (fun n _ => ?_) (hxs b hb hbs).phys
      have := glue_part c.dots hlaw h w xs hb (hxs b hb hbs).V (hxs b hb hbs).I n
      exact ⟨this.1.symm, this.2.symm⟩
    · rw [List.length_map] at hi
      have hn : c.st.ports[i] ∈ c.net.nodes := (mem_free.1 (hpm.mem_iff.1 (List.getElem_mem hi))).1
      have e : (c.st.ports.map Node.str).getD i "" = c.st.ports[i].str := by simp [List.getD_eq_getElem?_getD, hi]
      rw [e, (gn hn).1, (gn hn).2]
      exact g3 i hi
  congr c _ f fl x y hxy hx := by
    obtain ⟨Sof, w, g1, g2, g3, g4⟩ := hx
    have hxy : ∀ n ∈ solNodes sub ins c, x.V n = y.V n ∧ x.I n = y.I n := hxy
    refine ⟨Sof, w, g1, g2, fun n hn => ?_, fun b hb hbs => ?_⟩
    · obtain ⟨e1, e2⟩ := hxy n.str (List.mem_append_left _ (List.mem_map_of_mem hn))
      rw [← e1, ← e2]
      exact g3 n hn
    · refine hv.congr b.obj hbs f fl (x.part b.name) _ (fun n hn => ?_) (g4 b hb hbs)
      refine hxy _ (List.mem_append_right _ ?_)
      rw [List.mem_flatMap]
      exact ⟨b, hb, by rw [if_pos hbs]; exact List.mem_map.2 ⟨n, hn, rfl⟩⟩
  sol c m hm f E z left fl t hz ht := by
    have hm : some _ = some m := hm
    injection hm with hm
    subst hm
    simp only at ht
    cases hs : solutionAll ops sub c.st f (byNode c.st.ports E) (some z) left fl with
    | mk s1 r1 =>
      rw [hs] at ht
      cases r1 with
      | error e => cases ht
      | ok t0 =>
        simp only [Except.map, Except.ok.injEq] at ht
        subst ht
        obtain ⟨⟨S, hS⟩, x, x1, x2, x3, x4⟩ := solutionAll_spec hlaw hv c (z := some z) hz hs
        refine ⟨⟨S, hS⟩, x, x1, ?_, ?_, ?_⟩
        · intro ps hps p hp
          have hps : some (c.st.ports.map Node.str) = some ps := hps
          injection hps with hps
          subst hps
          obtain ⟨n, hn, rfl⟩ := List.mem_map.1 hp
          obtain ⟨nan, names, ph, h, hph, ho⟩ := c.built
          exact byNode_get (x2 n ((h.inv hlaw).rep.ports_perm.mem_iff.1 hn))
        · intro n q hnq
          obtain ⟨y, hy, e⟩ := List.mem_map.1 hnq
          injection e with e1 e2
          subst e1 e2
          exact x3 y.1 y.2 hy
        · intro n hn hw
          obtain ⟨m, hm, e⟩ := x4 n hn hw
          obtain ⟨y, hy, e'⟩ := List.mem_map.1 hm
          rw [List.map_map]
          exact List.mem_map.2 ⟨y, hy, by simp [e', e]⟩
  ans c m hm f E z left fl hz hr hE := by
    have hm : some _ = some m := hm
    injection hm with hm
    subst hm
    obtain ⟨nan, names, ph, h, hph, ho⟩ := c.built
    obtain ⟨t, ht⟩ := solutionAll_answers hlaw hv c (E := byNode c.st.ports E) (z := some z) (nodes := left) hz hr (by
      intro p hp
      have hp := (h.inv hlaw).rep.ports_perm.mem_iff.2 hp
      exact byNode_keys hp (hE _ rfl _ (List.mem_map_of_mem hp)))
    refine ⟨t.map fun x => (x.1.str, x.2), ?_⟩
    simp only [ht, Except.map]

/-! ## any depth -/

/-- objects without a `Solution` method -/
def leafIns (K O F Fl : Type*) : Insides K O F Fl := ⟨fun _ => [], fun _ _ _ _ _ => False, fun _ _ _ _ => False, fun _ _ _ _ => True⟩

theorem leaf_solves (hlaw : Lawful ops beh) : Solves ops beh (fun _ => none) (leafIns K O F Fl) where
  keep o f z fl := ⟨hlaw.len o f z fl, hlaw.stable o f z fl, rfl, (fun h => by cases h), rfl, rfl, rfl, rfl⟩
  used o m hm := by cases hm
  ports o h := by cases h
  allowed o h := by cases h
  outer o h := by cases h
  inner o h := by cases h
  congr o h := by cases h
  sol o m hm := by cases hm
  ans o m hm := by cases hm

/-- objects of two kinds -/
def sumSub {O₁ O₂ : Type*} (m₁ : SubSol K O₁ F Fl) (m₂ : SubSol K O₂ F Fl) : SubSol K (O₁ ⊕ O₂) F Fl
  | .inl a => (m₁ a).map fun m f E z left fl => (.inl (m f E z left fl).1, (m f E z left fl).2)
  | .inr a => (m₂ a).map fun m f E z left fl => (.inr (m f E z left fl).1, (m f E z left fl).2)

def sumIns {O₁ O₂ : Type*} (i₁ : Insides K O₁ F Fl) (i₂ : Insides K O₂ F Fl) : Insides K (O₁ ⊕ O₂) F Fl :=
  ⟨Sum.elim i₁.nodes i₂.nodes, Sum.elim i₁.allowed i₂.allowed, Sum.elim i₁.phys i₂.phys, Sum.elim i₁.ready i₂.ready⟩

theorem sum_solves {O₁ O₂ : Type*} {o₁ : ObjOps K O₁ F Fl} {o₂ : ObjOps K O₂ F Fl}
    {b₁ : O₁ → F → K → Fl → Except Err (SMat K)} {b₂ : O₂ → F → K → Fl → Except Err (SMat K)}
    {m₁ : SubSol K O₁ F Fl} {m₂ : SubSol K O₂ F Fl} {i₁ : Insides K O₁ F Fl} {i₂ : Insides K O₂ F Fl}
    (h₁ : Solves o₁ b₁ m₁ i₁) (h₂ : Solves o₂ b₂ m₂ i₂) :
    Solves (sumOps o₁ o₂) (Sum.elim b₁ b₂) (sumSub m₁ m₂) (sumIns i₁ i₂) := by
  have l1 : ∀ {a a'}, SameObj o₁ b₁ m₁ i₁ a a' → SameObj (sumOps o₁ o₂) (Sum.elim b₁ b₂) (sumSub m₁ m₂) (sumIns i₁ i₂) (.inl a) (.inl a') :=
    fun h => ⟨h.len, h.beh, by simp [sumSub, h.solv], fun hs => h.ports (by simpa [sumSub] using hs), h.nodes, h.allowed, h.phys, h.ready⟩
  have l2 : ∀ {a a'}, SameObj o₂ b₂ m₂ i₂ a a' → SameObj (sumOps o₁ o₂) (Sum.elim b₁ b₂) (sumSub m₁ m₂) (sumIns i₁ i₂) (.inr a) (.inr a') :=
    fun h => ⟨h.len, h.beh, by simp [sumSub, h.solv], fun hs => h.ports (by simpa [sumSub] using hs), h.nodes, h.allowed, h.phys, h.ready⟩
  constructor
  · intro o f z fl
    cases o with
    | inl a => exact l1 (h₁.keep a f z fl)
    | inr a => exact l2 (h₂.keep a f z fl)
  · intro o m hm f E z left fl
    cases o with
    | inl a =>
      obtain ⟨m', e1, rfl⟩ := Option.map_eq_some_iff.1 hm
      exact l1 (h₁.used a m' e1 f E z left fl)
    | inr a =>
      obtain ⟨m', e1, rfl⟩ := Option.map_eq_some_iff.1 hm
      exact l2 (h₂.used a m' e1 f E z left fl)
  · intro o hs
    cases o with
    | inl a => exact h₁.ports a (by simpa [sumSub] using hs)
    | inr a => exact h₂.ports a (by simpa [sumSub] using hs)
  · intro o hs
    cases o with
    | inl a => exact h₁.allowed a (by simpa [sumSub] using hs)
    | inr a => exact h₂.allowed a (by simpa [sumSub] using hs)
  · intro o hs
    cases o with
    | inl a => exact h₁.outer a (by simpa [sumSub] using hs)
    | inr a => exact h₂.outer a (by simpa [sumSub] using hs)
  · intro o hs
    cases o with
    | inl a => exact h₁.inner a (by simpa [sumSub] using hs)
    | inr a => exact h₂.inner a (by simpa [sumSub] using hs)
  · intro o hs
    cases o with
    | inl a => exact h₁.congr a (by simpa [sumSub] using hs)
    | inr a => exact h₂.congr a (by simpa [sumSub] using hs)
  · intro o m hm f E z left fl
    cases o with
    | inl a =>
      obtain ⟨m', e1, rfl⟩ := Option.map_eq_some_iff.1 hm
      exact h₁.sol a m' e1 f E z left fl
    | inr a =>
      obtain ⟨m', e1, rfl⟩ := Option.map_eq_some_iff.1 hm
      exact h₂.sol a m' e1 f E z left fl
  · intro o m hm f E z left fl
    cases o with
    | inl a =>
      obtain ⟨m', e1, rfl⟩ := Option.map_eq_some_iff.1 hm
      exact h₁.ans a m' e1 f E z left fl
    | inr a =>
      obtain ⟨m', e1, rfl⟩ := Option.map_eq_some_iff.1 hm
      exact h₂.ans a m' e1 f E z left fl

end

/-- a kind of block object with insides -/
structure SolKind (K F Fl : Type) [Field K] where
  O : Type
  ops : ObjOps K O F Fl
  beh : O → F → K → Fl → Except Err (SMat K)
  sub : SubSol K O F Fl
  ins : Insides K O F Fl
  lawful : Lawful ops beh
  solves : Solves ops beh sub ins

/-- objects nested up to depth `n`: unchanging objects without a `Solution` method, or circuits of objects of smaller depth -/
noncomputable def solTower (K F Fl : Type) [Field K] [CharZero K] [DecidableEq F] [DecidableEq Fl] : ℕ → SolKind K F Fl
  | 0 => ⟨Imm K F Fl, immOps K F Fl, Imm.beh, fun _ => none, leafIns K (Imm K F Fl) F Fl, imm_lawful K F Fl, leaf_solves (imm_lawful K F Fl)⟩
  | n + 1 =>
    let k := solTower K F Fl n
    ⟨k.O ⊕ SolCirc k.ops k.beh k.sub, sumOps k.ops (solOps k.lawful k.solves), Sum.elim k.beh (solBeh k.ops k.beh k.sub),
      sumSub k.sub (solSub k.lawful k.solves), sumIns k.ins (solIns k.sub k.ins), sum_lawful k.lawful (sol_lawful k.lawful k.solves),
      sum_solves k.solves (C30_nested k.lawful k.solves)⟩

/-- **C30 (nodes inside blocks, any depth).**  A circuit of objects nested to any depth.  Whatever `Solution` returns: there is one inner
state of the circuit -- its own network laws hold, every block that is a circuit is in one of *its* inner states, with the same voltages and
currents at the ports seen from both sides -- in which exactly the waves given enter the external ports; every entry of the table is the
voltage, the current and the two waves of that state; all nodes asked for (all of them, for `nodes = None`) are there. -/
theorem C30_any_depth {K F Fl : Type} [Field K] [CharZero K] [DecidableEq F] [DecidableEq Fl] (n : ℕ)
    (c : SolCirc (solTower K F Fl n).ops (solTower K F Fl n).beh (solTower K F Fl n).sub) {f : F} {E : List (Node × K)}
    {z : Option K} {nodes : Option (List String)} {fl : Fl} {s' : St K (solTower K F Fl n).O F Fl} {t : List (Node × Quad K)}
    (hz : z.getD c.zb ≠ 0) (hs : solutionAll (solTower K F Fl n).ops (solTower K F Fl n).sub c.st f E z nodes fl = (s', .ok t)) :
    ∃ x, solPhys (solTower K F Fl n).sub (solTower K F Fl n).ins c f fl x ∧
      (∀ p ∈ c.net.free, dictGet p E = some (x.fwd (z.getD c.zb) p.str)) ∧
      (∀ m q, (m, q) ∈ t → m.str ∈ solNodes (solTower K F Fl n).sub (solTower K F Fl n).ins c ∧ q = x.quad (z.getD c.zb) m.str) ∧
      ∀ m ∈ solNodes (solTower K F Fl n).sub (solTower K F Fl n).ins c, (∀ l, nodes = some l → m ∈ l) → ∃ k ∈ t.map Prod.fst, k.str = m :=
  (solutionAll_spec (solTower K F Fl n).lawful (solTower K F Fl n).solves c hz hs).2

/-- **C30 (answers, any depth).**  `Solution` answers when every external port is given a wave and, at every level, the S-matrices on the
reference asked for exist. -/
theorem C30_any_depth_answers {K F Fl : Type} [Field K] [CharZero K] [DecidableEq F] [DecidableEq Fl] (n : ℕ)
    (c : SolCirc (solTower K F Fl n).ops (solTower K F Fl n).beh (solTower K F Fl n).sub) {f : F} {E : List (Node × K)}
    {z : Option K} (nodes : Option (List String)) {fl : Fl} (hz : z.getD c.zb ≠ 0)
    (hr : solReady (solTower K F Fl n).sub (solTower K F Fl n).ins c f (z.getD c.zb) fl) (hE : ∀ p ∈ c.net.free, dictGet p E ≠ none) :
    ∃ t, (solutionAll (solTower K F Fl n).ops (solTower K F Fl n).sub c.st f E z nodes fl).2 = .ok t :=
  solutionAll_answers (solTower K F Fl n).lawful (solTower K F Fl n).solves c hz hr hE

end PyRFtk.Circuit
