import Verif.CircuitSolEx
import Verif.GTLPos

/-!
# The positions of the external ports of a circuit (C61)

rfCircuit.py: `addblock` (658-680, 719-726), `getpos` (739-763), `connect` (799-825), `terminate` (937-939, 959-961): the list
`circuit.xpos` beside the list `circuit.ports`.
-/

set_option linter.unusedSectionVars false

namespace PyRFtk.Circuit

section
variable {K O F Fl : Type*} [Field K] [DecidableEq F] [DecidableEq Fl]

/-! ## specification -/

/-- **Where things are.**  `Laid … net bh pos s ph`: a sequence of calls as in `Built` has led to `s`, and `pos` is where the nodes are:

* a port of a block is where the block was put (`relpos`) plus the port's position in the block's object;
* a port made by `connect` is where the first of the existing ports given to that call is.

Not among the calls: `deembed`, a first evaluation with Portnames, and the replacement of an object by one with other positions. -/
inductive Laid (ops : ObjOps K O F Fl) (beh : O → F → K → Fl → Except Err (SMat K)) (nan zb : K) (names : List Node) :
    Net K → Behave K F Fl → (Node → ℚ) → St K O F Fl → Phase → Prop
  | init (bh pos) : Laid ops beh nan zb names Net.empty bh pos (St.init zb names) .building
  | addblock {net bh pos pos' s s' name obj spec relpos ports xs} :
      Laid ops beh nan zb names net bh pos s .building →
      name ∉ net.blks.map Prod.fst → resolvePorts ops obj spec = .ok ports → ports.Nodup →
      ops.xpos obj = some xs →
      addblock ops nan s name obj spec relpos = (s', .ok ()) →
      (∀ n ∈ net.nodes, pos' n = pos n) →
      (∀ (k : ℕ) (hk : k < ports.length), ∃ hx : k < xs.length, pos' (.blk name ports[k]) = relpos + xs[k]) →
      Laid ops beh nan zb names (net.addBlk name ports) (Function.update bh name (beh obj)) pos' s' .building
  | replace {net bh pos s s' ph name obj spec relpos} :
      Laid ops beh nan zb names net bh pos s ph →
      name ∈ net.blks.map Prod.fst →
      (∀ b ∈ s.blocks, b.name = name → ops.xpos obj = ops.xpos b.obj) →
      Circuit.addblock ops nan s name obj spec relpos = (s', .ok ()) →
      Laid ops beh nan zb names net (Function.update bh name (beh obj)) pos s' (if ph = .reloaded then .evaluated else ph)
  | connect {net bh pos pos' s s' ps} :
      Laid ops beh nan zb names net bh pos s .building →
      connect ops s ps = (s', .ok ()) →
      (∀ n ∈ net.nodes, pos' n = pos n) →
      (∀ n ∈ ps, n ∉ net.nodes → ∀ o rest, ps.filter (· ∈ net.nodes) = o :: rest → pos' n = pos o) →
      Laid ops beh nan zb names (net.connect ps) bh pos' s' .building
  | terminate {net bh pos s s' ph p args l} :
      Laid ops beh nan zb names net bh pos s ph → args.load = some l →
      terminate s p args = (s', .ok ()) →
      Laid ops beh nan zb names (net.load p l) bh pos s'
        (if ph ≠ .building ∧ p ∈ net.loads.map Prod.fst then .reloaded else if ph = .reloaded then .evaluated else ph)
  | eval {net bh pos s s' ph f z fl r} :
      Laid ops beh nan zb names net bh pos s ph → ph ≠ .reloaded → net.free ≠ [] → names = [] ∨ s.aliased = true →
      getS ops s f z fl = (s', r) →
      Laid ops beh nan zb names net bh pos s' (afterEval ph s f fl r)
  | used {net bh pos s ph bs} :
      Laid ops beh nan zb names net bh pos s ph →
      List.Forall₂ (fun b b' => Blk.Like ops b b' ∧ beh b'.obj = beh b.obj) s.blocks bs →
      List.Forall₂ (SamePlace ops) s.blocks bs →
      Laid ops beh nan zb names net bh pos { s with blocks := bs } ph

variable {ops : ObjOps K O F Fl} {beh : O → F → K → Fl → Except Err (SMat K)}
variable {nan zb : K} {names : List Node} {net : Net K} {bh : Behave K F Fl} {s s' : St K O F Fl} {ph : Phase} {pos pos' : Node → ℚ}

theorem Laid.built (h : Laid ops beh nan zb names net bh pos s ph) : Built ops beh nan zb names net bh s ph := by
  induction h with
  | init bh pos => exact Built.init _
  | addblock h h1 h2 h3 h4 h5 h6 h7 ih => exact Built.addblock ih h1 h2 h3 h5
  | replace h h1 h2 h3 ih => exact Built.replace ih h1 h3
  | connect h h1 h2 h3 ih => exact Built.connect ih h1
  | terminate h h1 h2 ih => exact Built.terminate ih h1 h2
  | eval h h1 h2 h3 h4 ih => exact Built.eval ih h4
  | used h h1 h2 ih => exact Built.used ih h1

/-- every block's ports are where its object and its position put them -/
def BlkPos (ops : ObjOps K O F Fl) (pos : Node → ℚ) (b : Blk O) : Prop :=
  ∃ xs, ops.xpos b.obj = some xs ∧ ∀ (k : ℕ) (hk : k < b.ports.length), ∃ hx : k < xs.length, pos (.blk b.name b.ports[k]) = b.relpos + xs[k]

theorem BlkPos.same {b b' : Blk O} (h : BlkPos ops pos b) (hs : SamePlace ops b b') : BlkPos ops pos b' := by
  obtain ⟨xs, h1, h2⟩ := h
  obtain ⟨e1, e2, e3, e4⟩ := hs
  refine ⟨xs, e4.trans h1, ?_⟩
  rw [e1, e2, e3]; exact h2

theorem BlkPos.congr {b : Blk O} (h : BlkPos ops pos b) (hc : ∀ p ∈ b.ports, pos' (.blk b.name p) = pos (.blk b.name p)) : BlkPos ops pos' b := by
  obtain ⟨xs, h1, h2⟩ := h
  refine ⟨xs, h1, fun k hk => ?_⟩
  obtain ⟨hx, e⟩ := h2 k hk
  exact ⟨hx, by rw [hc _ (List.getElem_mem hk), e]⟩

theorem pop_map {l : List Node} {pos : Node → ℚ} {p : Node} {xs : List ℚ} (h : pyPop (l.map pos) (idx l p) = .ok xs) :
    xs = (l.eraseIdx (idx l p)).map pos := by
  unfold pyPop at h
  split at h
  · injection h with h; rw [← h, List.eraseIdx_map]
  · cases h

theorem consume_pos {new : List Node} : ∀ {ps : List Node} {s s' : St K O F Fl}, s.xpos = s.ports.map pos →
    consume new ps s = (s', .ok ()) → s'.xpos = s'.ports.map pos
  | [], s, s', hx, h => by
    simp only [consume, Prod.mk.injEq, and_true] at h
    rw [← h]; exact hx
  | p :: ps, s, s', hx, h => by
    unfold consume at h
    split at h
    · exact consume_pos hx h
    · cases hk : pyIndex s.ports p with
      | error e => simp [hk] at h
      | ok kp =>
        obtain ⟨h1, rfl⟩ := pyIndex_ok hk
        simp only [hk] at h
        cases hq : pyPop s.xpos (idx s.ports p) with
        | error e => simp [hq] at h
        | ok xs =>
          simp only [hq] at h
          rw [hx] at hq
          exact consume_pos (pop_map hq) h

theorem connectTail_pos {new ps : List Node} (hx : s.xpos = s.ports.map pos) (h : connectTail new ps s = (s', .ok ())) :
    s'.xpos = s'.ports.map pos ∧ s'.blocks = s.blocks := by
  unfold connectTail at h
  cases hA : mapE (fun p => pyIndex s.waves (waveA new p)) ps with
  | error e => simp [hA] at h
  | ok idxAs =>
    cases hB : mapE (fun p => pyIndex s.waves (waveB new p)) ps with
    | error e => simp [hA, hB] at h
    | ok idxBs =>
      simp only [hA, hB] at h
      cases hc : consume new ps s with
      | mk s1 r =>
        cases r with
        | error e => simp [hc] at h
        | ok u =>
          simp only [hc, Prod.mk.injEq, and_true] at h
          rw [← h]
          have hb : ∀ {ps : List Node} {s s' : St K O F Fl}, consume new ps s = (s', .ok ()) → s'.blocks = s.blocks := by
            intro ps
            induction ps with
            | nil => intro s s' h; simp only [consume, Prod.mk.injEq, and_true] at h; rw [h]
            | cons p ps ih =>
              intro s s' h
              unfold consume at h
              split at h
              · exact ih h
              · split at h
                · simp at h
                · simp only at h
                  split at h
                  · simp at h
                  · have := ih h; exact this
          have e1 := consume_pos hx hc
          have e2 := hb hc
          exact ⟨e1, e2⟩

/-- the list of positions goes with the list of ports, and every block is where it should be -/
structure Aligned (ops : ObjOps K O F Fl) (pos : Node → ℚ) (s : St K O F Fl) : Prop where
  ports : s.xpos = s.ports.map pos
  blocks : ∀ b ∈ s.blocks, BlkPos ops pos b

theorem getpos_block [CharZero K] (hlaw : Lawful ops beh) (h : Built ops beh nan zb names net bh s ph) {s' : St K O F Fl} (hs : s'.blocks = s.blocks)
    (hp : ∀ b ∈ s.blocks, BlkPos ops pos b) {b p : String} (hn : Node.blk b p ∈ net.nodes) : getpos ops s' (.blk b p) = .ok (pos (.blk b p)) := by
  have hr := (h.inv hlaw).rep
  obtain ⟨ps, h1, h2⟩ := h.blk_node hlaw hn
  rw [hr.rep.blks, List.mem_map] at h1
  obtain ⟨b1, hb1, e⟩ := h1
  simp only [Prod.mk.injEq] at e
  obtain ⟨rfl, rfl⟩ := e
  have hf : s'.blocks.find? (fun x => x.name = b1.name) = some b1 := by
    rw [hs]
    cases hf : s.blocks.find? (fun x => x.name = b1.name) with
    | none =>
      rw [List.find?_eq_none] at hf
      exact absurd (decide_eq_true rfl) (hf b1 hb1)
    | some b2 =>
      have e2 : b2.name = b1.name := by simpa using List.find?_some hf
      rw [List.inj_on_of_nodup_map hr.rep.bnd (List.mem_of_find?_eq_some hf) hb1 e2]
  obtain ⟨xs, hx1, hx2⟩ := hp b1 hb1
  obtain ⟨hl, e⟩ := hx2 (idx b1.ports p) (idx_lt h2)
  have hget : b1.ports[idx b1.ports p]'(idx_lt h2) = p := List.getElem_idxOf (idx_lt h2)
  rw [hget] at e
  simp only [getpos, hf, pyIndex_of_mem h2, hx1, List.getElem?_eq_getElem hl, e]

theorem getpos_ext {n : String} (hx : s.xpos = s.ports.map pos) (hn : Node.ext n ∈ s.ports) (q : List Node) :
    getpos ops { s with ports := s.ports ++ q } (.ext n) = .ok (pos (.ext n)) := by
  have hm : Node.ext n ∈ s.ports ++ q := by simp [hn]
  have hi : idx (s.ports ++ q) (.ext n) = idx s.ports (.ext n) := List.idxOf_append_of_mem hn
  have hv : s.xpos[idx s.ports (.ext n)]? = some (pos (.ext n)) := by
    rw [hx, List.getElem?_map, getElem?_idx hn]; rfl
  simp only [getpos, pyIndex_of_mem hm, hi, hv]

theorem Laid.aligned [CharZero K] (hlaw : Lawful ops beh) (hst : ∀ o f z fl, ops.xpos (ops.getS o f z fl).1 = ops.xpos o)
    (h : Laid ops beh nan zb names net bh pos s ph) : Aligned ops pos s := by
  induction h with
  | init bh pos => exact ⟨rfl, by intro b hb; cases hb⟩
  | @addblock net bh pos pos' s s' name obj spec relpos ports xs h h1 h2 h3 h4 h5 h6 h7 ih =>
    have hb := h.built
    have hr := (hb.inv hlaw).rep
    have hfind : s.blocks.find? (fun b => b.name = name) = none := by
      rw [List.find?_eq_none]
      intro b hbm hc
      apply h1
      rw [hr.rep.blks, List.map_map]
      exact List.mem_map.2 ⟨b, hbm, by simpa using hc⟩
    unfold Circuit.addblock at h5
    simp only [hfind, h2, Prod.mk.injEq, and_true] at h5
    subst h5
    constructor
    · simp only [List.map_append, ih.ports, List.map_map]
      congr 1
      · exact List.map_congr_left fun p hp => (h6 p ((hr.rep.pmem p).1 hp).1).symm
      · unfold blockXpos
        rw [h4]
        simp only
        apply List.ext_getElem
        · simp only [List.length_map, List.length_zip]
          rcases Nat.eq_zero_or_pos ports.length with h0 | h0
          · omega
          · obtain ⟨hx, -⟩ := h7 (ports.length - 1) (by omega)
            omega
        · intro k hk hk'
          simp only [List.length_map] at hk'
          obtain ⟨hx, e⟩ := h7 k hk'
          simp [e]
    · intro b hbm
      simp only [List.mem_append, List.mem_singleton] at hbm
      rcases hbm with hbm | rfl
      · refine (ih.blocks b hbm).congr fun p hp => h6 _ ?_
        have := (hr.rep.bcol b hbm (idx b.ports p) (idx_lt hp)).1
        have hget : b.ports[idx b.ports p]'(idx_lt hp) = p := List.getElem_idxOf (idx_lt hp)
        rw [hget] at this
        exact (hr.rep.wmem _ _).1 (List.mem_of_getElem? this)
      · exact ⟨xs, h4, h7⟩
  | @replace net bh pos s s' ph name obj spec relpos h h1 h2 h3 ih =>
    have hb := h.built
    have hr := (hb.inv hlaw).rep
    unfold Circuit.addblock at h3
    cases hf : s.blocks.find? (fun b => b.name = name) with
    | none =>
      rw [hr.rep.blks, List.map_map] at h1
      obtain ⟨b, hbm, e⟩ := List.mem_map.1 h1
      rw [List.find?_eq_none] at hf
      exact absurd e (by simpa using hf b hbm)
    | some b =>
      simp only [hf] at h3
      split at h3
      · simp at h3
      · simp only [Prod.mk.injEq, and_true] at h3
        subst h3
        refine ⟨ih.ports, ?_⟩
        intro b' hb'
        simp only [replaceObj, List.mem_map] at hb'
        obtain ⟨b0, hb0, rfl⟩ := hb'
        refine (ih.blocks b0 hb0).same ?_
        split
        · rename_i e; exact ⟨rfl, rfl, rfl, h2 b0 hb0 e⟩
        · exact SamePlace.refl _
  | @connect net bh pos pos' s s' ps h h1 h2 h3 ih =>
    have hb := h.built
    have hr := (hb.inv hlaw).rep
    have hnew : (ps.filter fun p => (Dir.inn, p) ∉ s.waves) = ps.filter (· ∉ net.nodes) :=
      List.filter_congr fun p _ => by
        have : (Dir.inn, p) ∈ s.waves ↔ p ∈ net.nodes := hr.rep.wmem _ _
        simp [this]
    have hold : (ps.filter fun p => (Dir.inn, p) ∈ s.waves) = ps.filter (· ∈ net.nodes) :=
      List.filter_congr fun p _ => by
        have : (Dir.inn, p) ∈ s.waves ↔ p ∈ net.nodes := hr.rep.wmem _ _
        simp [this]
    have hx' : s.xpos = s.ports.map pos' := by
      rw [ih.ports]; exact List.map_congr_left fun p hp => (h2 p ((hr.rep.pmem p).1 hp).1).symm
    have hbl : ∀ b ∈ s.blocks, BlkPos ops pos' b := by
      intro b hbm
      refine (ih.blocks b hbm).congr fun p hp => h2 _ ?_
      have := (hr.rep.bcol b hbm (idx b.ports p) (idx_lt hp)).1
      have hget : b.ports[idx b.ports p]'(idx_lt hp) = p := List.getElem_idxOf (idx_lt hp)
      rw [hget] at this
      exact (hr.rep.wmem _ _).1 (List.mem_of_getElem? this)
    unfold Circuit.connect at h1
    simp only [hnew, hold] at h1
    split at h1
    · simp at h1
    · obtain ⟨e1, e2⟩ := connectTail_pos hx' h1
      exact ⟨e1, by rw [e2]; exact hbl⟩
    · simp at h1
    · rename_i n hn
      split at h1
      · simp at h1
      · rename_i o rest ho
        split at h1
        · simp at h1
        · rename_i x hx
          have hnm : Node.ext n ∈ ps ∧ Node.ext n ∉ net.nodes := by
            have : Node.ext n ∈ ps.filter (· ∉ net.nodes) := by rw [hn]; simp
            simpa using this
          have hom : o ∈ ps ∧ o ∈ net.nodes := by
            have : o ∈ ps.filter (· ∈ net.nodes) := by rw [ho]; simp
            simpa using this
          have hop : o ∈ s.ports := by
            have hnd : (s.ports ++ [Node.ext n]).Nodup := by
              refine List.Nodup.append hr.rep.pnd (by simp) ?_
              intro q h1 h2
              simp only [List.mem_singleton] at h2; subst h2
              exact hnm.2 ((hr.rep.pmem _).1 h1).1
            have := (connectTail_ok hnd h1).2.2.1 o (by
              simp only [List.mem_filter, List.mem_singleton, decide_eq_true_eq]
              exact ⟨hom.1, fun e => hnm.2 (e ▸ hom.2)⟩)
            simp only [List.mem_append, List.mem_singleton] at this
            rcases this with this | this
            · exact this
            · exact absurd (this ▸ hom.2) hnm.2
          have hxv : x = pos o := by
            cases o with
            | blk b p =>
              have := getpos_block hlaw hb (s' := { s with waves := s.waves ++ [(Dir.inn, Node.ext n), (.out, .ext n)], ports := s.ports ++ [.ext n] }) rfl
                ih.blocks hom.2
              rw [hx] at this; injection this
            | ext m =>
              have := getpos_ext (ops := ops) (s := { s with waves := s.waves ++ [(Dir.inn, Node.ext n), (.out, .ext n)] }) ih.ports hop [.ext n]
              simp only at this
              rw [hx] at this; injection this
          have hpn : pos' (.ext n) = x := by rw [hxv]; exact h3 _ hnm.1 hnm.2 o rest ho
          obtain ⟨e1, e2⟩ := connectTail_pos (pos := pos') (by simp [hx', hpn]) h1
          exact ⟨e1, by rw [e2]; exact hbl⟩
  | @terminate net bh pos s s' ph p args l h h1 h2 ih =>
    unfold Circuit.terminate at h2
    simp only at h2
    split at h2
    · simp at h2
    · split at h2
      · simp only [Prod.mk.injEq, and_true] at h2
        rw [← h2]; exact ⟨ih.ports, ih.blocks⟩
      · split at h2
        · split at h2
          · simp at h2
          · split at h2
            · simp at h2
            · rename_i kp hk
              obtain ⟨-, rfl⟩ := pyIndex_ok hk
              rw [ih.ports] at h2
              split at h2
              · simp at h2
              · rename_i xs hxs
                simp only [Prod.mk.injEq, and_true] at h2
                rw [← h2]; exact ⟨pop_map hxs, ih.blocks⟩
        · split at h2
          · simp at h2
          · rename_i kp hk
            obtain ⟨-, rfl⟩ := pyIndex_ok hk
            rw [ih.ports] at h2
            split at h2
            · simp at h2
            · rename_i xs hxs
              split at h2
              · simp at h2
              · simp only [Prod.mk.injEq, and_true] at h2
                rw [← h2]; exact ⟨pop_map hxs, ih.blocks⟩
  | @eval net bh pos s s' ph f z fl r h h1 h2 h3 h4 ih =>
    have hb := h.built
    have hp : s'.ports = s.ports := by
      refine C49_labels hlaw hb h1 h2 ?_ h4
      rcases h3 with ho | ho
      · by_cases ha : s.aliased = true
        · exact Or.inr ha
        · left
          unfold St.names
          rw [if_neg ha, (hb.inv hlaw).nm, ho]
      · exact Or.inr ho
    refine ⟨by rw [getS_xpos h4, hp, ih.ports], fun b' hb' => ?_⟩
    obtain ⟨b, hbm, hsame⟩ := forall₂_mem_right (getS_places hst h4) hb'
    exact (ih.blocks b hbm).same hsame
  | used h h1 h2 ih =>
    refine ⟨ih.ports, fun b' hb' => ?_⟩
    obtain ⟨b, hbm, hsame⟩ := forall₂_mem_right h2 hb'
    exact (ih.blocks b hbm).same hsame

/-! ## properties -/

/-- **C61**: the entries of `circuit.xpos` are the positions of the ports in `circuit.ports`, one for one -/
theorem C61_positions [CharZero K] (hlaw : Lawful ops beh) (hst : ∀ o f z fl, ops.xpos (ops.getS o f z fl).1 = ops.xpos o)
    (h : Laid ops beh nan zb names net bh pos s ph) :
    s.xpos.length = s.ports.length ∧ ∀ (k : ℕ) (hk : k < s.ports.length), s.xpos[k]? = some (pos s.ports[k]) := by
  have ha := (h.aligned hlaw hst).ports
  refine ⟨by rw [ha, List.length_map], fun k hk => ?_⟩
  rw [ha, List.getElem?_map, List.getElem?_eq_getElem hk]; rfl

/-- **C61**: `getpos` gives the position of every external port and of every port of a block, connected or not -/
theorem C61_getpos [CharZero K] (hlaw : Lawful ops beh) (hst : ∀ o f z fl, ops.xpos (ops.getS o f z fl).1 = ops.xpos o)
    (h : Laid ops beh nan zb names net bh pos s ph) :
    (∀ n ∈ s.ports, getpos ops s n = .ok (pos n)) ∧ ∀ b p, Node.blk b p ∈ net.nodes → getpos ops s (.blk b p) = .ok (pos (.blk b p)) := by
  have ha := h.aligned hlaw hst
  have hb := h.built
  have hblk : ∀ b p, Node.blk b p ∈ net.nodes → getpos ops s (.blk b p) = .ok (pos (.blk b p)) := fun b p hn =>
    getpos_block hlaw hb rfl ha.blocks hn
  refine ⟨fun n hn => ?_, hblk⟩
  cases n with
  | blk b p => exact hblk b p (((hb.inv hlaw).rep.rep.pmem _).1 hn).1
  | ext m => simpa using getpos_ext (ops := ops) ha.ports hn []

/-- **C61 is violated when Portnames are given**: the first evaluation puts the ports into the order of Portnames and leaves the list of
positions in the order of creation. -/
theorem C61_portnames [CharZero K] (hlaw : Lawful ops beh) (hst : ∀ o f z fl, ops.xpos (ops.getS o f z fl).1 = ops.xpos o)
    (h : Laid ops beh nan zb names net bh pos s .building) (hn : names ≠ []) {f : F} {fl : Fl} {S : SMat K} (hs : getS ops s f none fl = (s', .ok S)) :
    s'.ports = names ∧ s'.xpos = net.free.map pos := by
  have hb := h.built
  refine ⟨by rw [C29_first_eval hlaw hb hs, if_neg hn], ?_⟩
  rw [getS_xpos hs, (h.aligned hlaw hst).ports, (C29_ports hlaw hb).2.1 (Or.inl rfl)]

theorem deembedInt_pos {dp ip : Node} (h : deembedInt s dp ip = (s', .ok ())) :
    s'.xpos = s.xpos ∧ s'.ports = (s.ports ++ [ip]).erase dp := by
  unfold deembedInt at h
  split at h
  · simp at h
  · simp only at h
    split at h
    · simp at h
    · split at h
      · simp at h
      · simp at h
      · simp only [Prod.mk.injEq, and_true] at h; rw [← h]; exact ⟨rfl, rfl⟩

theorem deembedExt_pos {dp ep : Node} (hnd : s.ports.Nodup) (h : deembedExt s dp ep = (s', .ok ())) :
    s'.xpos = s.xpos ∧ s'.ports.length + 2 = s.ports.length ∧ s'.ports.Nodup := by
  unfold deembedExt at h
  split at h
  · simp at h
  · rename_i hd
    split at h
    · simp at h
    · split at h
      · simp only at h
        split at h
        · simp at h
        · rename_i kp hk
          obtain ⟨-, rfl⟩ := pyIndex_ok hk
          have hm := pyIndex_isOk hk
          simp only [Prod.mk.injEq, and_true] at h
          rw [← h]
          have hlt : idx (s.ports.erase dp) ep < (s.ports.erase dp).length := idx_lt hm
          have h1 := List.length_erase_of_mem (show dp ∈ s.ports by simpa using hd)
          have h0 : 0 < s.ports.length := List.length_pos_of_mem (show dp ∈ s.ports by simpa using hd)
          refine ⟨rfl, ?_, (hnd.sublist List.erase_sublist).sublist (List.eraseIdx_sublist _ _)⟩
          simp only [List.length_eraseIdx, hlt, if_true]
          omega
      · simp at h

theorem iter_ext_pos : ∀ (ext : List (Node × Node)) {s s' : St K O F Fl}, s.ports.Nodup →
    iter (fun s x => deembedExt s x.1 x.2) s ext = (s', .ok ()) → s'.xpos = s.xpos ∧ s'.ports.length + 2 * ext.length = s.ports.length
  | [], s, s', _, h => by
    simp only [iter, Prod.mk.injEq, and_true] at h
    subst h; exact ⟨rfl, by simp⟩
  | x :: ext, s, s', hnd, h => by
    unfold iter at h
    cases h1 : deembedExt s x.1 x.2 with
    | mk s1 r =>
      rw [h1] at h
      cases r with
      | error e => simp at h
      | ok u =>
        obtain ⟨a1, a2, a3⟩ := deembedExt_pos hnd h1
        obtain ⟨b1, b2⟩ := iter_ext_pos ext a3 h
        exact ⟨b1.trans a1, by simp only [List.length_cons]; omega⟩

/-- **C61 is violated by `deembed` of existing ports**: the ports disappear from `ports` but not from `xpos`, so that the lists do not even have
the same length. -/
theorem C61_deembed [CharZero K] (hlaw : Lawful ops beh) (hst : ∀ o f z fl, ops.xpos (ops.getS o f z fl).1 = ops.xpos o)
    (h : Laid ops beh nan zb names net bh pos s .building) {ext : List (Node × Node)} (hs : deembed s [] ext = (s', .ok ())) :
    s'.xpos.length = s'.ports.length + 2 * ext.length := by
  unfold deembed at hs
  simp only [iter] at hs
  have hnd : s.ports.Nodup := (h.built.inv hlaw).rep.rep.pnd
  have hx := (C61_positions hlaw hst h).1
  obtain ⟨a1, a2⟩ := iter_ext_pos ext (s := { s with S := none, invM := none, rows := s.rows.map (padRow s.cols), cols := s.cols + 2 * 0 }) hnd hs
  simp only at a1 a2
  rw [a1, hx]
  exact a2.symm

/-- **C61 is violated by `deembed` to a new port**: the new port comes last in `ports`, and the positions are those of the ports before, so
that all ports after the deembedded one are listed at the position of their neighbour. -/
theorem C61_deembed_new [CharZero K] (hlaw : Lawful ops beh) (hst : ∀ o f z fl, ops.xpos (ops.getS o f z fl).1 = ops.xpos o)
    (h : Laid ops beh nan zb names net bh pos s .building) {dp ip : Node} (hs : deembed s [(dp, ip)] [] = (s', .ok ())) :
    s'.ports = (s.ports ++ [ip]).erase dp ∧ s'.xpos = s.ports.map pos := by
  unfold deembed at hs
  simp only [iter] at hs
  split at hs
  · simp at hs
  · rename_i s1 u h1
    split at h1
    · simp at h1
    · rename_i s2 u2 h2
      simp only [Prod.mk.injEq, and_true] at h1 hs
      obtain ⟨a1, a2⟩ := deembedInt_pos h2
      simp only at a1 a2
      rw [← hs, ← h1]
      exact ⟨a2, by rw [a1]; exact (h.aligned hlaw hst).ports⟩

/-- **C61 is violated when the object of a block is replaced by one with other positions**: the list keeps the old ones. -/
theorem C61_replaced [CharZero K] (hlaw : Lawful ops beh) (hst : ∀ o f z fl, ops.xpos (ops.getS o f z fl).1 = ops.xpos o)
    (h : Laid ops beh nan zb names net bh pos s ph) {name : String} (hname : name ∈ net.blks.map Prod.fst) {obj : O} {spec : PortSpec} {relpos : ℚ}
    (hs : addblock ops nan s name obj spec relpos = (s', .ok ())) : s'.ports = s.ports ∧ s'.xpos = s.ports.map pos := by
  have hr := (h.built.inv hlaw).rep
  unfold Circuit.addblock at hs
  cases hf : s.blocks.find? (fun b => b.name = name) with
  | none =>
    rw [hr.rep.blks, List.map_map] at hname
    obtain ⟨b, hbm, e⟩ := List.mem_map.1 hname
    rw [List.find?_eq_none] at hf
    exact absurd e (by simpa using hf b hbm)
  | some b =>
    simp only [hf] at hs
    split at hs
    · simp at hs
    · simp only [Prod.mk.injEq, and_true] at hs
      subst hs
      exact ⟨rfl, (h.aligned hlaw hst).ports⟩

/-! ## examples -/

/-! ## resolve_xpos (rfCircuit.py:1619-1645), a public method that nothing calls -/

/-- the position `resolve_xpos` finds for one port (1625-1643): `blocks[b]['xpos']` is the number `relpos`, so subscripting it raises a
TypeError, which 1637 turns into a RuntimeError; `obj.ports.index` is evaluated before the subscript -/
def resolvePos (ops : ObjOps K O F Fl) (s : St K O F Fl) : Node → Except Err ℚ
  | .blk b p => match s.blocks.find? (fun x => x.name = b) with
    | none => .error .keyError                                                  -- 1631
    | some x => match ops.ports x.obj with
      | none => .error .runtimeError                                            -- an array has no `ports`
      | some ps => match pyIndex ps p with
        | .error _ => .error .valueError                                        -- 1634-1636
        | .ok _ => .error .runtimeError                                         -- a number is not subscriptable
  | .ext _ => .ok 0                                                             -- 1642-1643

/-- rfCircuit.py:1619-1645 -/
def resolveXpos (ops : ObjOps K O F Fl) (s : St K O F Fl) : St K O F Fl × Except Err Unit :=
  match mapE (resolvePos ops s) s.ports with
  | .error e => (s, .error e)
  | .ok xs => ({ s with xpos := xs }, .ok ())

/-- **C61 is violated by `resolve_xpos`**: it raises whenever one of the ports is a port of a block; otherwise it puts every port at 0. -/
theorem C61_resolve_xpos :
    ((∃ b p, Node.blk b p ∈ s.ports) → ∃ e, resolveXpos ops s = (s, .error e)) ∧
    ((∀ n ∈ s.ports, ∃ m, n = Node.ext m) → resolveXpos ops s = ({ s with xpos := s.ports.map fun _ => 0 }, .ok ())) := by
  constructor
  · rintro ⟨b, p, hm⟩
    unfold resolveXpos
    cases h : mapE (resolvePos ops s) s.ports with
    | error e => exact ⟨e, rfl⟩
    | ok xs =>
      exfalso
      obtain ⟨x, -, hx⟩ := forall₂_mem_left (mapE_eq_ok.1 h) hm
      unfold resolvePos at hx
      simp only at hx
      split at hx
      · cases hx
      · split at hx
        · cases hx
        · split at hx <;> cases hx
  · intro h
    have : mapE (resolvePos ops s) s.ports = .ok (s.ports.map fun _ => 0) := by
      rw [mapE_eq_ok]
      generalize s.ports = l at h
      induction l with
      | nil => exact .nil
      | cons a l ih =>
        obtain ⟨m, rfl⟩ := h a List.mem_cons_self
        exact .cons rfl (ih fun n hn => h n (List.mem_cons_of_mem _ hn))
    unfold resolveXpos
    rw [this]

/-- **C61 (resolve_xpos, which error).** The first port that belongs to a block decides: ValueError if the block's object has no port of that name, otherwise RuntimeError. -/
theorem C61_resolve_xpos_error {pre post : List Node} {b p : String} (hp : s.ports = pre ++ .blk b p :: post) (hpre : ∀ n ∈ pre, ∃ m, n = Node.ext m)
    {x : Blk O} (hx : s.blocks.find? (fun x => x.name = b) = some x) {ps : List String} (hps : ops.ports x.obj = some ps) :
    resolveXpos ops s = (s, .error (if p ∈ ps then .runtimeError else .valueError)) := by
  have h1 : resolvePos ops s (.blk b p) = .error (if p ∈ ps then .runtimeError else .valueError) := by
    unfold resolvePos
    simp only [hx, hps]
    by_cases h : p ∈ ps
    · rw [pyIndex_of_mem h, if_pos h]
    · rw [pyIndex_of_not_mem h, if_neg h]
  have h2 : mapE (resolvePos ops s) s.ports = .error (if p ∈ ps then .runtimeError else .valueError) := by
    rw [hp]
    clear hp
    induction pre with
    | nil => simp only [List.nil_append, mapE, h1]
    | cons a pre ih =>
      obtain ⟨m, rfl⟩ := hpre a List.mem_cons_self
      have ih := ih fun n hn => hpre n (List.mem_cons_of_mem _ hn)
      simp only [List.cons_append, mapE, ih]
      rfl
  unfold resolveXpos
  rw [h2]

namespace ExPos
open Ex

theorem still : ∀ o f z fl, (immOps ℚ Unit Unit).xpos ((immOps ℚ Unit Unit).getS o f z fl).1 = (immOps ℚ Unit Unit).xpos o := fun _ _ _ _ => rfl

/-- where the nodes of the example are: `A` from 0 to 1, `B` from 1 to 2, the new port at the joint -/
def where' : Node → ℚ
  | .blk "A" "1" => 0
  | .blk "A" "2" => 1
  | .blk "B" "1" => 1
  | .blk "B" "2" => 2
  | _ => 1

/-- `A.2` and `B.1` connected, the joint being the new port `J` -/
def t3 : E := (connect o s2 [.ext "J", .blk "A" "2", .blk "B" "1"]).1

theorem laid : ∃ net bh, Laid o Imm.beh 0 50 [] net bh where' t3 .building := by
  have h0 : Laid o Imm.beh 0 50 [] Net.empty (fun _ _ _ _ => .error .valueError) where' s0 .building := Laid.init _ _
  have h1 := Laid.addblock (pos' := where') (xs := [0, 1]) h0 (by decide) (ports := ["1", "2"]) (by decide) (by decide) rfl step1 (fun _ _ => rfl) (by
    intro k hk
    have : k = 0 ∨ k = 1 := by simp at hk; omega
    rcases this with rfl | rfl
    · exact ⟨by decide, by show (0 : ℚ) = 0 + 0; norm_num⟩
    · exact ⟨by decide, by show (1 : ℚ) = 0 + 1; norm_num⟩)
  have h2 := Laid.addblock (pos' := where') (xs := [0, 1]) h1 (by decide) (ports := ["1", "2"]) (by decide) (by decide) rfl step2 (fun _ _ => rfl) (by
    intro k hk
    have : k = 0 ∨ k = 1 := by simp at hk; omega
    rcases this with rfl | rfl
    · exact ⟨by decide, by show (1 : ℚ) = 1 + 0; norm_num⟩
    · exact ⟨by decide, by show (2 : ℚ) = 1 + 1; norm_num⟩)
  have h3 := Laid.connect (pos' := where') h2 (ps := [.ext "J", .blk "A" "2", .blk "B" "1"]) (s' := t3) (Prod.ext rfl rfl) (fun _ _ => rfl) (by
    intro n hn hnn x rest hx
    have e : ([Node.ext "J", .blk "A" "2", .blk "B" "1"].filter fun x => decide (x ∈ ((Net.empty.addBlk "A" ["1", "2"]).addBlk "B" ["1", "2"] : Net ℚ).nodes))
        = [.blk "A" "2", .blk "B" "1"] := by decide
    rw [e] at hx
    injection hx with hx _
    subst hx
    have : n = .ext "J" := by
      simp only [List.mem_cons, List.not_mem_nil, or_false] at hn
      rcases hn with rfl | rfl | rfl
      · rfl
      · exact absurd (by decide) hnn
      · exact absurd (by decide) hnn
    subst this; rfl)
  exact ⟨_, _, h3⟩

/-- the ports are `A.1`, `B.2`, `J` at 0, 2, 1 -/
theorem C61_witness : t3.ports = [.blk "A" "1", .blk "B" "2", .ext "J"] ∧ t3.xpos = [0, 2, 1] := by
  obtain ⟨net, bh, h⟩ := laid
  have hp : t3.ports = [.blk "A" "1", .blk "B" "2", .ext "J"] := rfl
  exact ⟨hp, by rw [(h.aligned (imm_lawful ℚ Unit Unit) still).ports, hp]; rfl⟩

theorem laid1 (ps : List Node) : Laid o Imm.beh 0 50 ps neti bhi where' (addblock o 0 (St.init 50 ps) "A" (two mB) .none 0).1 .building := by
  have h0 : Laid o Imm.beh 0 50 ps Net.empty (fun _ _ _ _ => .error .valueError) where' (St.init 50 ps : E) .building := Laid.init _ _
  exact Laid.addblock (pos' := where') (xs := [0, 1]) h0 (by decide) (ports := ["1", "2"]) (by decide) (by decide) rfl (Prod.ext rfl rfl) (fun _ _ => rfl) (by
    intro k hk
    have : k = 0 ∨ k = 1 := by simp at hk; omega
    rcases this with rfl | rfl
    · exact ⟨by decide, by show (0 : ℚ) = 0 + 0; norm_num⟩
    · exact ⟨by decide, by show (1 : ℚ) = 0 + 1; norm_num⟩)

/-- Portnames `A.2, A.1`: after the first evaluation the port `A.2`, which is at 1, is listed at 0 -/
theorem C61_portnames_witness : ∃ s' S, getS o i1 () none () = (s', .ok S) ∧ s'.ports = [.blk "A" "2", .blk "A" "1"] ∧ s'.xpos = [0, 1] ∧
    where' (.blk "A" "2") = 1 := by
  have hl := imm_lawful ℚ Unit Unit
  obtain ⟨s', S, hs⟩ := (C20_getS_complete hl builti (by decide) giveni (by decide) (Or.inr (by decide))).2 solvablei
  obtain ⟨h1, h2⟩ := C61_portnames hl still (laid1 pnames) (by decide) hs
  exact ⟨s', S, hs, h1, h2, rfl⟩

/-- `A.1` deembedded to the new port `P`: `A.2`, which is at 1, is listed at 0 -/
theorem C61_deembed_new_witness : ∃ s', deembed k1 [(.blk "A" "1", .ext "P")] [] = (s', .ok ()) ∧ s'.ports = [.blk "A" "2", .ext "P"] ∧ s'.xpos = [0, 1] := by
  have hs : deembed k1 [(.blk "A" "1", .ext "P")] [] = ((deembed k1 [(.blk "A" "1", .ext "P")] []).1, .ok ()) := Prod.ext rfl rfl
  exact ⟨_, hs, C61_deembed_new (imm_lawful ℚ Unit Unit) still (laid1 []) hs⟩

/-- `A.1` and `A.2` deembedded: no ports, two positions -/
theorem C61_deembed_witness : ∃ s', deembed k1 [] [(.blk "A" "1", .blk "A" "2")] = (s', .ok ()) ∧ s'.ports = [] ∧ s'.xpos.length = 2 := by
  have hs : deembed k1 [] [(.blk "A" "1", .blk "A" "2")] = ((deembed k1 [] [(.blk "A" "1", .blk "A" "2")]).1, .ok ()) := Prod.ext rfl rfl
  exact ⟨_, hs, rfl, C61_deembed (imm_lawful ℚ Unit Unit) still (laid1 []) hs⟩

/-- a 2-port of length 3 -/
def long : Imm ℚ Unit Unit := { two mB with xpos := some [0, 3], placed := by intro xs h; injection h with h; rw [← h]; decide }

/-- the object of `A` is replaced by one of length 3: `A.2` is listed at 1, `getpos` says 3 -/
theorem C61_replaced_witness : ∃ s', addblock o 0 k1 "A" long .none 0 = (s', .ok ()) ∧ s'.ports = [.blk "A" "1", .blk "A" "2"] ∧ s'.xpos = [0, 1] ∧
    getpos o s' (.blk "A" "2") = .ok 3 := by
  have hs : addblock o 0 k1 "A" long .none 0 = ((addblock o 0 k1 "A" long .none 0).1, .ok ()) := Prod.ext rfl rfl
  obtain ⟨h1, h2⟩ := C61_replaced (imm_lawful ℚ Unit Unit) still (laid1 []) (by decide) hs
  refine ⟨_, hs, h1, h2, ?_⟩
  show Except.ok ((0 : ℚ) + 3) = _
  norm_num

/-- a line alone in a circuit: `resolve_xpos` raises -/
theorem C61_resolve_xpos_witness : ∃ e, resolveXpos o k1 = (k1, .error e) := C61_resolve_xpos.1 ⟨"A", "1", by decide⟩

theorem C61_resolve_xpos_error_witness : ∃ b p pre post x ps, k1.ports = pre ++ Node.blk b p :: post ∧ (∀ n ∈ pre, ∃ m, n = Node.ext m) ∧
    k1.blocks.find? (fun x => x.name = b) = some x ∧ o.ports x.obj = some ps := ⟨"A", "1", [], _, _, _, rfl, by simp, rfl, rfl⟩

end ExPos

end
end PyRFtk.Circuit
