import Verif.GTLModel
import Verif.CircuitProps2
import Verif.CircuitSolNest

/-!
# The circuit built by `rfGTL` is the network its description means (C54)
-/

set_option linter.unusedSectionVars false

namespace PyRFtk.Circuit

section
variable {K O F Fl : Type*} [Field K] [DecidableEq F] [DecidableEq Fl]

/-- the names among the ends of an element -/
def GBlk.names (g : GBlk K O) : List String := g.ports.filterMap fun | .name n => some n | _ => none

/-- **What the description may look like.**  Elements have different names (they are keys of a dict), the ends of one element have
different names, none of them one of the reserved words -/
structure GOK (gs : List (GBlk K O)) : Prop where
  blocks : (gs.map GBlk.name).Nodup
  ends : ∀ g ∈ gs, (g.ports.map GPort.tag).Nodup
  plain : ∀ g ∈ gs, ∀ n, .name n ∈ g.ports → n ∉ gtlTags

/-- names of the elements with an end called `p` -/
def gOn (gs : List (GBlk K O)) (p : String) : List String := (gs.filter fun g => p ∈ g.names).map GBlk.name

theorem gEnds_eq (gs : List (GBlk K O)) (p : String) : gEnds gs p = (gOn gs p).map fun b => .blk b p := by
  simp only [gEnds, gOn, List.map_map, GBlk.names]; rfl

theorem gOn_append (gs gs' : List (GBlk K O)) (p : String) : gOn (gs ++ gs') p = gOn gs p ++ gOn gs' p := by
  simp [gOn]

theorem mem_names {g : GBlk K O} {n : String} : n ∈ g.names ↔ .name n ∈ g.ports := by
  simp only [GBlk.names, List.mem_filterMap]
  constructor
  · rintro ⟨a, ha, he⟩
    cases a <;> simp at he
    subst he; exact ha
  · intro h; exact ⟨_, h, rfl⟩

/-! ## the table of ends -/

/-- `portlist` after the blocks `gs` -/
structure PL (gs : List (GBlk K O)) (pl : List (String × List String)) : Prop where
  keys : (pl.map Prod.fst).Nodup
  get : ∀ p, (dictGet p pl).getD [] = gOn gs p
  ne : ∀ p bs, dictGet p pl = some bs → bs ≠ []

theorem PL.mem {gs : List (GBlk K O)} {pl : List (String × List String)} (h : PL gs pl) {p : String} {bs : List String} :
    (p, bs) ∈ pl ↔ bs = gOn gs p ∧ bs ≠ [] := by
  have hg := h.get p
  constructor
  · intro hm
    have := dictGet_of_mem h.keys hm
    rw [this] at hg
    exact ⟨hg, h.ne p bs this⟩
  · rintro ⟨h1, h2⟩
    cases hd : dictGet p pl with
    | none => rw [hd] at hg; simp at hg; exact absurd (by rw [h1, ← hg]) h2
    | some v => rw [hd] at hg; simp at hg; rw [h1, ← hg]; exact dictGet_mem hd

theorem notePorts_keys (b : String) : ∀ (ps : List (GPort K)) (pl : List (String × List String)), (pl.map Prod.fst).Nodup →
    ((ps.foldl (notePort b) pl).map Prod.fst).Nodup
  | [], _, h => h
  | p :: ps, pl, h => by
    refine notePorts_keys b ps _ ?_
    cases p with
    | name n => exact dictSet_nodup h
    | oc => exact h
    | sc => exact h
    | load a => exact h

theorem notePorts_ne (b : String) : ∀ (ps : List (GPort K)) (pl : List (String × List String)),
    (∀ p bs, dictGet p pl = some bs → bs ≠ []) → ∀ p bs, dictGet p (ps.foldl (notePort b) pl) = some bs → bs ≠ []
  | [], _, h => h
  | p :: ps, pl, h => by
    refine notePorts_ne b ps _ ?_
    cases p with
    | name n =>
      intro q bs hq
      simp only [notePort, dictGet_dictSet] at hq
      split at hq
      · injection hq with hq; subst hq; simp
      · exact h q bs hq
    | oc => exact h
    | sc => exact h
    | load a => exact h

theorem notePorts_get (b : String) (p : String) : ∀ (ps : List (GPort K)) (pl : List (String × List String)),
    (ps.map GPort.tag).Nodup → (∀ n, .name n ∈ ps → n ∉ gtlTags) →
    (dictGet p (ps.foldl (notePort b) pl)).getD [] =
      (dictGet p pl).getD [] ++ (if p ∈ ps.filterMap (fun | .name n => some n | _ => none) then [b] else [])
  | [], pl, _, _ => by simp
  | q :: ps, pl, h, hp => by
    have h' := List.nodup_cons.1 h
    rw [List.foldl_cons, notePorts_get b p ps _ h'.2 (fun n hn => hp n (List.mem_cons_of_mem _ hn))]
    cases q with
    | name n =>
      have hn : n ∉ ps.filterMap (fun | .name n => some n | _ => none) := by
        intro hc
        rw [List.mem_filterMap] at hc
        obtain ⟨a, ha, he⟩ := hc
        cases a <;> simp at he
        subst he
        exact h'.1 (List.mem_map.2 ⟨_, ha, rfl⟩)
      simp only [notePort, dictGet_dictSet, List.filterMap_cons, List.mem_cons]
      by_cases hpn : p = n
      · subst hpn
        simp [hn]
      · simp [hpn]
    | oc => simp [notePort]
    | sc => simp [notePort]
    | load a => simp [notePort]

theorem PL.note {gs : List (GBlk K O)} {pl : List (String × List String)} (h : PL gs pl) (g : GBlk K O)
    (h1 : (g.ports.map GPort.tag).Nodup) (h2 : ∀ n, .name n ∈ g.ports → n ∉ gtlTags) : PL (gs ++ [g]) (noteBlk g pl) := by
  refine ⟨notePorts_keys _ _ _ h.keys, fun p => ?_, notePorts_ne _ _ _ h.ne⟩
  unfold noteBlk
  rw [notePorts_get g.name p g.ports pl h1 h2, h.get p, gOn_append]
  congr 1
  by_cases hp : p ∈ g.names
  · have : p ∈ g.ports.filterMap (fun | .name n => some n | _ => none) := hp
    simp [gOn, hp, this]
  · have : p ∉ g.ports.filterMap (fun | .name n => some n | _ => none) := hp
    simp [gOn, hp, this]

/-! ## the last termination -/

theorem lastTerm_aux (ps : List (GPort K)) : ∀ r : Option (TermArgs K × String),
    (ps.foldl (fun r p => match GPort.term p with | some a => some (a, p.tag) | none => r) r = r ∨
      ∃ q ∈ ps, ∃ a, q.term = some a ∧
        ps.foldl (fun r p => match GPort.term p with | some a => some (a, p.tag) | none => r) r = some (a, q.tag)) ∧
    (ps.foldl (fun r p => match GPort.term p with | some a => some (a, p.tag) | none => r) r = none → ∀ q ∈ ps, q.term = none) := by
  induction ps with
  | nil => intro r; exact ⟨Or.inl rfl, fun _ q hq => by cases hq⟩
  | cons p ps ih =>
    intro r
    rw [List.foldl_cons]
    obtain ⟨h1, h2⟩ := ih (match GPort.term p with | some a => some (a, p.tag) | none => r)
    cases ht : p.term with
    | none =>
      simp only [ht] at h1 h2 ⊢
      refine ⟨?_, ?_⟩
      · rcases h1 with h1 | ⟨q, hq, a, ha, he⟩
        · exact Or.inl h1
        · exact Or.inr ⟨q, List.mem_cons_of_mem _ hq, a, ha, he⟩
      · intro h q hq
        rcases List.mem_cons.1 hq with rfl | hq
        · exact ht
        · exact h2 h q hq
    | some a =>
      simp only [ht] at h1 h2 ⊢
      refine ⟨?_, ?_⟩
      · rcases h1 with h1 | ⟨q, hq, a, ha, he⟩
        · exact Or.inr ⟨p, List.mem_cons_self, a, ht, h1⟩
        · exact Or.inr ⟨q, List.mem_cons_of_mem _ hq, a, ha, he⟩
      · intro h
        rcases h1 with h1 | ⟨q, hq, a, ha, he⟩
        · rw [h1] at h; cases h
        · rw [he] at h; cases h

theorem lastTerm_some {ps : List (GPort K)} {a : TermArgs K} {t : String} (h : lastTerm ps = some (a, t)) :
    ∃ q ∈ ps, q.term = some a ∧ q.tag = t := by
  rcases (lastTerm_aux ps none).1 with h1 | ⟨q, hq, a', ha, he⟩
  · have h2 : (none : Option (TermArgs K × String)) = some (a, t) := h1.symm.trans h
    cases h2
  · replace h : some (a', q.tag) = some (a, t) := he.symm.trans h
    simp only [Option.some.injEq, Prod.mk.injEq] at h
    exact ⟨q, hq, by rw [ha, h.1], h.2⟩

/-! ## the blocks -/

/-- the load of an element -/
def gLoad (g : GBlk K O) : Option (Node × Load K) :=
  match lastTerm g.ports with
  | none => none
  | some (a, t) => match a.load with
    | none => none
    | some l => some (.blk g.name t, l)

/-- the network before the connections -/
def gNet (gs : List (GBlk K O)) : Net K :=
  { blks := gs.map fun g => (g.name, g.ports.map GPort.tag)
    nodes := gs.flatMap fun g => (g.ports.map GPort.tag).map (.blk g.name)
    juncs := []
    loads := gs.filterMap gLoad
    crosses := []
    sames := [] }

theorem gNet_append (gs : List (GBlk K O)) (g : GBlk K O) :
    gNet (gs ++ [g]) = { (gNet gs).addBlk g.name (g.ports.map GPort.tag) with loads := (gNet gs).loads ++ (gLoad g).toList } := by
  simp only [gNet, Net.addBlk, List.map_append, List.flatMap_append, List.filterMap_append, List.map_cons, List.map_nil,
    List.flatMap_cons, List.flatMap_nil, List.append_nil]
  cases h : gLoad g <;> simp [h]

variable {ops : ObjOps K O F Fl} {beh : O → F → K → Fl → Except Err (SMat K)} {nan zb : K} {names : List Node}

theorem resolvePorts_list {obj : O} {l ports : List String} (h : resolvePorts ops obj (.list l) = .ok ports) : ports = l := by
  unfold resolvePorts objPorts specPorts at h
  cases ho : ops.ports obj <;> simp only [ho, if_true] at h <;> split at h <;>
    first | (injection h with h; exact h.symm) | cases h

theorem addblock_ok {s s' : St K O F Fl} {name : String} {obj : O} {spec : PortSpec} {x : ℚ}
    (hn : s.blocks.find? (fun b => b.name = name) = none) (h : addblock ops nan s name obj spec x = (s', .ok ())) :
    ∃ ports, resolvePorts ops obj spec = .ok ports := by
  unfold addblock at h
  simp only [hn] at h
  cases hr : resolvePorts ops obj spec with
  | error e => simp [hr] at h
  | ok p => exact ⟨p, rfl⟩

theorem load_key {gs : List (GBlk K O)} {b t : String} (h : Node.blk b t ∈ (gNet gs).loads.map Prod.fst) :
    b ∈ gs.map GBlk.name := by
  simp only [gNet, List.mem_map, List.mem_filterMap] at h
  obtain ⟨x, ⟨g, hg, hx⟩, he⟩ := h
  unfold gLoad at hx
  split at hx
  · cases hx
  · split at hx
    · cases hx
    · injection hx with hx; subst hx
      simp only [Node.blk.injEq] at he
      exact List.mem_map.2 ⟨g, hg, he.1⟩

theorem gtlBlocks_built [CharZero K] (hlaw : Lawful ops beh) : ∀ (gs done : List (GBlk K O)) (s s' : St K O F Fl)
    (pl pl' : List (String × List String)) (pos pos' : List (String × ℚ)) (bh : Behave K F Fl),
    Built ops beh nan zb names (gNet done) bh s .building → PL done pl → GOK (done ++ gs) →
    (∀ g ∈ done, bh g.name = beh g.obj) → gtlBlocks ops nan gs s pl pos = (s', .ok (pl', pos')) →
    ∃ bh', Built ops beh nan zb names (gNet (done ++ gs)) bh' s' .building ∧ PL (done ++ gs) pl' ∧
      ∀ g ∈ done ++ gs, bh' g.name = beh g.obj
  | [], done, s, s', pl, pl', pos, pos', bh, hb, hpl, hok, hbh, h => by
    simp only [gtlBlocks, Prod.mk.injEq, Except.ok.injEq] at h
    obtain ⟨rfl, rfl, rfl⟩ := h
    rw [List.append_nil]
    exact ⟨bh, hb, hpl, hbh⟩
  | g :: gs, done, s, s', pl, pl', pos, pos', bh, hb, hpl, hok, hbh, h => by
    have hnot : g.name ∉ done.map GBlk.name := by
      have := hok.blocks
      rw [List.map_append, List.nodup_append] at this
      intro hc
      exact this.2.2 _ hc g.name (by simp) rfl
    have hmem : g ∈ done ++ g :: gs := by simp
    have happ : done ++ g :: gs = (done ++ [g]) ++ gs := by simp
    unfold gtlBlocks at h
    cases hp : notePos g pos with
    | error e => simp [hp] at h
    | ok pos1 =>
      simp only [hp] at h
      cases ha : addblock ops nan s g.name g.obj (.list (g.ports.map GPort.tag)) (g.xpos.getD (-10)) with
      | mk s1 r1 =>
        simp only [ha] at h
        cases r1 with
        | error e => simp at h
        | ok u =>
          have hname : g.name ∉ (gNet done).blks.map Prod.fst := by
            simp only [gNet, List.map_map]; exact hnot
          have hbl := (hb.inv hlaw).rep.rep.blks
          have hfind : s.blocks.find? (fun b => b.name = g.name) = none := by
            rw [List.find?_eq_none]
            intro b hbm hbn
            apply hname
            rw [hbl]
            simp only [decide_eq_true_eq] at hbn
            simp only [List.mem_map]
            exact ⟨(b.name, b.ports), ⟨b, hbm, rfl⟩, hbn⟩
          obtain ⟨ports, hres⟩ := addblock_ok hfind ha
          have hports := resolvePorts_list hres
          subst hports
          have hb1 := Built.addblock hb hname hres (hok.ends g hmem) ha
          have hbh1 : ∀ x ∈ done ++ [g], Function.update bh g.name (beh g.obj) x.name = beh x.obj := by
            intro x hx
            rw [List.mem_append, List.mem_singleton] at hx
            rcases hx with hx | rfl
            · rw [Function.update_of_ne]
              · exact hbh x hx
              · intro hc; exact hnot (hc ▸ List.mem_map_of_mem hx)
            · rw [Function.update_self]
          have hpl1 := hpl.note g (hok.ends g hmem) (hok.plain g hmem)
          have hok1 : GOK ((done ++ [g]) ++ gs) := by rw [← happ]; exact hok
          rw [happ]
          simp only at h
          cases hl : lastTerm g.ports with
          | none =>
            simp only [hl] at h
            refine gtlBlocks_built hlaw gs (done ++ [g]) s1 s' _ pl' _ pos' _ ?_ hpl1 hok1 hbh1 h
            have : gLoad g = none := by simp [gLoad, hl]
            rw [gNet_append, this]
            simp only [Option.toList_none, List.append_nil]
            exact hb1
          | some at' =>
            obtain ⟨a, t⟩ := at'
            simp only [hl] at h
            cases htm : terminate s1 (.blk g.name t) a with
            | mk s2 r2 =>
              simp only [htm] at h
              cases r2 with
              | error e => simp at h
              | ok u2 =>
                obtain ⟨l, hal, -⟩ := rep_terminate (hb1.inv hlaw).rep htm
                have hb2 := Built.terminate hb1 hal htm
                refine gtlBlocks_built hlaw gs (done ++ [g]) s2 s' _ pl' _ pos' _ ?_ hpl1 hok1 hbh1 h
                have hg : gLoad g = some (.blk g.name t, l) := by simp [gLoad, hl, hal]
                rw [gNet_append, hg]
                have hk : Node.blk g.name t ∉ ((gNet done).addBlk g.name (g.ports.map GPort.tag)).loads.map Prod.fst :=
                  fun hc => hnot (load_key hc)
                have he : ((gNet done).addBlk g.name (g.ports.map GPort.tag)).load (.blk g.name t) l =
                    { (gNet done).addBlk g.name (g.ports.map GPort.tag) with loads := (gNet done).loads ++ [(.blk g.name t, l)] } := by
                  unfold Net.load
                  rw [dictSet_not_mem hk]
                  rfl
                rw [he] at hb2
                simpa using hb2

/-! ## the connections -/

/-- the junctions of the names with several ends -/
def gJuncs (pl : List (String × List String)) : List Junction :=
  (pl.filter fun e => 1 < e.2.length).map fun e => ⟨e.2.map fun b => .blk b e.1, none⟩

theorem gtlJoins_built [CharZero K] (hlaw : Lawful ops beh) : ∀ (pl : List (String × List String)) (s s' : St K O F Fl) (net : Net K)
    (bh : Behave K F Fl), Built ops beh nan zb names net bh s .building → (∀ e ∈ pl, ∀ b ∈ e.2, .blk b e.1 ∈ net.nodes) →
    gtlJoins ops pl s = (s', .ok ()) → Built ops beh nan zb names { net with juncs := net.juncs ++ gJuncs pl } bh s' .building
  | [], s, s', net, bh, hb, hn, h => by
    simp only [gtlJoins, Prod.mk.injEq, and_true] at h
    subst h
    simpa [gJuncs] using hb
  | e :: pl, s, s', net, bh, hb, hn, h => by
    unfold gtlJoins at h
    by_cases hl : 1 < e.2.length
    · rw [if_pos hl] at h
      cases hc : connect ops s (e.2.map fun b => .blk b e.1) with
      | mk s1 r1 =>
        simp only [hc] at h
        cases r1 with
        | error e => simp at h
        | ok u =>
          simp only at h
          have hb1 := Built.connect hb hc
          have hall : ∀ p ∈ e.2.map (fun b => Node.blk b e.1), p ∈ net.nodes := by
            intro p hp
            obtain ⟨b, hbm, rfl⟩ := List.mem_map.1 hp
            exact hn e List.mem_cons_self b hbm
          have hnet : net.connect (e.2.map fun b => .blk b e.1) =
              { net with juncs := net.juncs ++ [⟨e.2.map fun b => .blk b e.1, none⟩] } := by
            unfold Net.connect Net.join
            have h1 : (e.2.map fun b => Node.blk b e.1).filter (· ∈ net.nodes) = e.2.map fun b => Node.blk b e.1 := by
              rw [List.filter_eq_self]
              intro p hp; simpa using hall p hp
            have h2 : (e.2.map fun b => Node.blk b e.1).find? (· ∉ net.nodes) = none := by
              rw [List.find?_eq_none]
              intro p hp; simpa using hall p hp
            rw [h1, h2]
            simp
          rw [hnet] at hb1
          have := gtlJoins_built hlaw pl s1 s' _ bh hb1 (fun e' he' => hn e' (List.mem_cons_of_mem _ he')) h
          have hj : gJuncs (e :: pl) = ⟨e.2.map fun b => .blk b e.1, none⟩ :: gJuncs pl := by
            simp [gJuncs, hl]
          rw [hj]
          simpa using this
    · rw [if_neg hl] at h
      have := gtlJoins_built hlaw pl s s' net bh hb (fun e' he' => hn e' (List.mem_cons_of_mem _ he')) h
      have hj : gJuncs (e :: pl) = gJuncs pl := by simp [gJuncs, hl]
      rw [hj]
      exact this

/-! ## the positions do not matter for the network -/

/-- the same block, maybe elsewhere -/
def Moved (b b' : Blk O) : Prop := ∃ x, b' = { b with relpos := x }

theorem Moved.refl (b : Blk O) : Moved b b := ⟨b.relpos, rfl⟩
theorem Moved.trans {a b c : Blk O} (h : Moved a b) (h' : Moved b c) : Moved a c := by
  obtain ⟨x, rfl⟩ := h; obtain ⟨y, rfl⟩ := h'; exact ⟨y, rfl⟩

theorem forall₂_trans {α : Type*} {R : α → α → Prop} (hR : ∀ a b c, R a b → R b c → R a c) :
    ∀ {l m n : List α}, List.Forall₂ R l m → List.Forall₂ R m n → List.Forall₂ R l n
  | _, _, _, .nil, .nil => .nil
  | _, _, _, .cons h1 t1, .cons h2 t2 => .cons (hR _ _ _ h1 h2) (forall₂_trans hR t1 t2)

theorem forall₂_refl' {α : Type*} {R : α → α → Prop} (hR : ∀ a, R a a) : ∀ l : List α, List.Forall₂ R l l
  | [] => .nil
  | a :: l => .cons (hR a) (forall₂_refl' hR l)

theorem setRel_moved {n : String} {g : Blk O → Except Err ℚ} {bs bs' : List (Blk O)} (h : setRel n g bs = .ok bs') :
    List.Forall₂ Moved bs bs' := by
  unfold setRel at h
  rw [mapE_eq_ok] at h
  refine h.imp fun b b' hb => ?_
  split at hb
  · cases hg : g b with
    | error e => simp [hg, Except.map] at hb
    | ok x => simp only [hg, Except.map, Except.ok.injEq] at hb; exact ⟨x, hb.symm⟩
  · injection hb with hb; subst hb; exact Moved.refl b

theorem foldErr_moved {α : Type*} {g : List (Blk O) → α → Except Err (List (Blk O))}
    (hg : ∀ bs a bs', g bs a = .ok bs' → List.Forall₂ Moved bs bs') : ∀ (l : List α) {bs bs' : List (Blk O)},
    foldErr g bs l = .ok bs' → List.Forall₂ Moved bs bs'
  | [], bs, bs', h => by
    simp only [foldErr, Except.ok.injEq] at h; subst h; exact forall₂_refl' Moved.refl _
  | a :: l, bs, bs', h => by
    unfold foldErr at h
    cases ha : g bs a with
    | error e => simp [ha] at h
    | ok b1 =>
      simp only [ha] at h
      exact forall₂_trans (R := Moved) (fun _ _ _ h h' => Moved.trans h h') (hg _ _ _ ha) (foldErr_moved hg l h)

theorem placeFirst_moved {pl : List (String × List String)} {pos : List (String × ℚ)} {bs bs' : List (Blk O)}
    (h : placeFirst ops pl pos bs = .ok bs') : List.Forall₂ Moved bs bs' := by
  refine foldErr_moved (fun bs e bs' he => ?_) _ h
  split at he
  · cases he
  · exact foldErr_moved (fun bs n bs' hn => setRel_moved hn) _ he

theorem placePass_moved : ∀ (bs : List (Blk O × Bool)) (pos : List (String × ℚ)) {bs' pos' fnd},
    placePass ops bs pos = .ok (bs', pos', fnd) → List.Forall₂ Moved (bs.map Prod.fst) (bs'.map Prod.fst)
  | [], pos, bs', pos', fnd, h => by
    simp only [placePass, Except.ok.injEq, Prod.mk.injEq] at h; rw [← h.1]; exact .nil
  | (b, true) :: bs, pos, bs', pos', fnd, h => by
    unfold placePass at h
    cases hp : placePass ops bs pos with
    | error e => simp [hp] at h
    | ok r =>
      obtain ⟨b1, p1, f1⟩ := r
      simp only [hp, Except.ok.injEq, Prod.mk.injEq] at h
      rw [← h.1]
      exact .cons (Moved.refl b) (placePass_moved bs pos hp)
  | (b, false) :: bs, pos, bs', pos', fnd, h => by
    unfold placePass at h
    cases hb : placeBlk ops b pos with
    | error e => simp [hb] at h
    | ok o =>
      cases o with
      | none =>
        cases hp : placePass ops bs pos with
        | error e => simp [hb, hp] at h
        | ok r =>
          obtain ⟨b1, p1, f1⟩ := r
          simp only [hb, hp, Except.ok.injEq, Prod.mk.injEq] at h
          rw [← h.1]
          exact .cons (Moved.refl b) (placePass_moved bs pos hp)
      | some rp =>
        obtain ⟨r, pos1⟩ := rp
        cases hp : placePass ops bs pos1 with
        | error e => simp [hb, hp] at h
        | ok r' =>
          obtain ⟨b1, p1, f1⟩ := r'
          simp only [hb, hp, Except.ok.injEq, Prod.mk.injEq] at h
          rw [← h.1]
          exact .cons ⟨r, rfl⟩ (placePass_moved bs pos1 hp)

theorem placeLoop_moved : ∀ (n : ℕ) (bs : List (Blk O × Bool)) (pos : List (String × ℚ)) {bs' pos'},
    placeLoop ops n bs pos = .ok (bs', pos') → List.Forall₂ Moved (bs.map Prod.fst) (bs'.map Prod.fst)
  | 0, bs, pos, bs', pos', h => by
    simp only [placeLoop, Except.ok.injEq, Prod.mk.injEq] at h; rw [← h.1]; exact forall₂_refl' Moved.refl _
  | n + 1, bs, pos, bs', pos', h => by
    unfold placeLoop at h
    cases hp : placePass ops bs pos with
    | error e => simp [hp] at h
    | ok r =>
      obtain ⟨b1, p1, f1⟩ := r
      simp only [hp] at h
      have hm := placePass_moved bs pos hp
      split at h
      · exact forall₂_trans (R := Moved) (fun _ _ _ h h' => Moved.trans h h') hm (placeLoop_moved n b1 p1 h)
      · simp only [Except.ok.injEq, Prod.mk.injEq] at h
        rw [← h.1]; exact hm

theorem place_moved {pl : List (String × List String)} {pos : List (String × ℚ)} {bs bs' : List (Blk O)}
    (h : place ops pl pos bs = .ok bs') : List.Forall₂ Moved bs bs' := by
  unfold place at h
  cases hf : placeFirst ops pl pos bs with
  | error e => simp [hf] at h
  | ok b1 =>
    simp only [hf] at h
    cases hl : placeLoop ops (b1.length + 1) (b1.map fun b => (b, false)) pos with
    | error e => simp [hl, Except.map] at h
    | ok r =>
      obtain ⟨b2, p2⟩ := r
      simp only [hl, Except.map, Except.ok.injEq] at h
      rw [← h]
      have := placeLoop_moved _ _ _ hl
      simp only [List.map_map] at this
      refine forall₂_trans (R := Moved) (fun _ _ _ h h' => Moved.trans h h') (placeFirst_moved hf) ?_
      simpa [Function.comp_def] using this

/-! ## the external ports -/

/-- the junction of a declared port -/
def gExt (pl : List (String × List String)) (p : String) : Junction :=
  ⟨((dictGet p pl).getD []).map fun b => .blk b p, some (.ext p)⟩

theorem gtlExts_built [CharZero K] (hlaw : Lawful ops beh) (pl : List (String × List String)) :
    ∀ (ps done : List String) (s s' : St K O F Fl) (net : Net K)
    (bh : Behave K F Fl), (∀ p ∈ ps, ∀ b, dictGet p pl = some [b] → .blk b p ∈ net.nodes) → (∀ n, .ext n ∉ net.nodes) →
    Built ops beh nan zb names { net with juncs := net.juncs ++ done.map (gExt pl), nodes := net.nodes ++ done.map .ext } bh s .building →
    gtlExts ops pl ps s = (s', .ok ()) →
    Built ops beh nan zb names { net with juncs := net.juncs ++ (done ++ ps).map (gExt pl), nodes := net.nodes ++ (done ++ ps).map .ext }
      bh s' .building ∧ ∀ p ∈ ps, ∃ b, dictGet p pl = some [b]
  | [], done, s, s', net, bh, hn, he, hb, h => by
    simp only [gtlExts, Prod.mk.injEq, and_true] at h
    subst h
    rw [List.append_nil]
    exact ⟨hb, by simp⟩
  | p :: ps, done, s, s', net, bh, hn, he, hb, h => by
    unfold gtlExts at h
    split at h
    · rename_i b hd
      cases hc : connect ops s [.blk b p, .ext p] with
      | mk s1 r1 =>
        simp only [hc] at h
        cases r1 with
        | error e => simp at h
        | ok u =>
          simp only at h
          have hfree := (C28_connect_free hlaw hb hc).2.1
          have hb1 := Built.connect hb hc
          have hbn := hn p List.mem_cons_self b hd
          have hp : p ∉ done := by
            intro hp
            rcases hfree (.blk b p) (by simp) with hf | ⟨-, n, hc'⟩
            · rw [mem_free] at hf
              apply hf.2
              unfold Net.used
              simp only [List.mem_append]
              left; left; left
              rw [List.mem_flatMap]
              refine ⟨gExt pl p, List.mem_append_right _ (List.mem_map_of_mem hp), ?_⟩
              simp [gExt, hd]
            · cases hc'
          have hnet : Net.connect { net with juncs := net.juncs ++ done.map (gExt pl), nodes := net.nodes ++ done.map .ext }
                [.blk b p, .ext p] =
              { net with juncs := net.juncs ++ (done ++ [p]).map (gExt pl), nodes := net.nodes ++ (done ++ [p]).map .ext } := by
            unfold Net.connect Net.join
            have e1 : Node.blk b p ∈ net.nodes ++ done.map .ext := List.mem_append_left _ hbn
            have e2 : Node.ext p ∉ net.nodes ++ done.map .ext := by
              simp [he, hp]
            simp [hbn, he, hp, gExt, hd]
          rw [hnet] at hb1
          obtain ⟨r1, r2⟩ := gtlExts_built hlaw pl ps (done ++ [p]) s1 s' net bh
            (fun q hq => hn q (List.mem_cons_of_mem _ hq)) he hb1 h
          refine ⟨by simpa using r1, ?_⟩
          intro q hq
          rcases List.mem_cons.1 hq with rfl | hq
          · exact ⟨b, hd⟩
          · exact r2 q hq
    · simp at h

end
end PyRFtk.Circuit
