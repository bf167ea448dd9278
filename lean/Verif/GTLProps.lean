import Verif.GTLNet

/-!
# C54: the scattering matrix of an `rfGTL` object is that of the network it describes
-/

set_option linter.unusedSectionVars false

namespace PyRFtk.Circuit

section
variable {K O F Fl : Type*} [Field K] [DecidableEq F] [DecidableEq Fl]
variable {ops : ObjOps K O F Fl} {beh : O → F → K → Fl → Except Err (SMat K)} {nan zb : K}

/-- the network of a finished `rfGTL` object -/
def gFinal (portnames : List String) (gs : List (GBlk K O)) (pl : List (String × List String)) : Net K :=
  { gNet gs with juncs := gJuncs pl ++ portnames.map (gExt pl), nodes := (gNet gs).nodes ++ portnames.map .ext }

/-- what is known of a finished object -/
structure Made (ops : ObjOps K O F Fl) (beh : O → F → K → Fl → Except Err (SMat K)) (nan zb : K) (portnames : List String)
    (gs : List (GBlk K O)) (pl : List (String × List String)) (bh : Behave K F Fl) (s : St K O F Fl) : Prop where
  built : Built ops beh nan zb (portnames.map .ext) (gFinal portnames gs pl) bh s .evaluated
  prime : ∃ s₀ f z fl S, Built ops beh nan zb (portnames.map .ext) (gFinal portnames gs pl) bh s₀ .building ∧ getS ops s₀ f z fl = (s, .ok S)
  tab : PL gs pl
  bh : ∀ g ∈ gs, bh g.name = beh g.obj
  single : ∀ p ∈ portnames, ∃ b, gOn gs p = [b]
  count : (pl.filter fun e => ¬ 1 < e.2.length).length = portnames.length
  free : (gFinal portnames gs pl).free = portnames.map .ext

theorem mem_gOn {gs : List (GBlk K O)} {p b : String} : b ∈ gOn gs p ↔ ∃ g ∈ gs, g.name = b ∧ .name p ∈ g.ports := by
  simp only [gOn, List.mem_map, List.mem_filter, decide_eq_true_eq, mem_names]
  constructor
  · rintro ⟨g, ⟨h1, h2⟩, h3⟩; exact ⟨g, h1, h3, h2⟩
  · rintro ⟨g, h1, h3, h2⟩; exact ⟨g, ⟨h1, h2⟩, h3⟩

theorem on_node {gs : List (GBlk K O)} {p b : String} (h : b ∈ gOn gs p) : .blk b p ∈ (gNet gs).nodes := by
  obtain ⟨g, hg, hn, hp⟩ := mem_gOn.1 h
  simp only [gNet, List.mem_flatMap, List.mem_map]
  exact ⟨g, hg, p, ⟨_, hp, rfl⟩, by rw [hn]⟩

theorem gtlInit_made [CharZero K] (hlaw : Lawful ops beh) {f0 : F} {fl0 : Fl} {portnames : List String} {relpos : List (String × ℚ)}
    {gs : List (GBlk K O)} (hok : GOK gs) {s : St K O F Fl} (h : gtlInit ops nan zb f0 fl0 portnames relpos gs = (s, .ok ())) :
    ∃ pl bh, Made ops beh nan zb portnames gs pl bh s := by
  unfold gtlInit at h
  simp only at h
  split at h
  · simp at h
  cases h1 : gtlBlocks ops nan gs (St.init zb (portnames.map .ext)) [] relpos with
  | mk s1 r1 =>
    simp only [h1] at h
    cases r1 with
    | error e => simp at h
    | ok x =>
      obtain ⟨pl, pos⟩ := x
      have hpl0 : PL ([] : List (GBlk K O)) [] := ⟨by simp, fun p => by simp [dictGet, gOn], fun p bs hp => by simp [dictGet] at hp⟩
      obtain ⟨bh, hb1, hpl, hbh⟩ := gtlBlocks_built (beh := beh) (zb := zb) (names := portnames.map .ext) hlaw gs [] _ s1 [] pl relpos pos
        (fun _ _ _ _ => .error .valueError) (Built.init _) hpl0 hok (by simp) h1
      rw [List.nil_append] at hb1 hpl hbh
      simp only at h
      cases h2 : gtlJoins ops pl s1 with
      | mk s2 r2 =>
        simp only [h2] at h
        cases r2 with
        | error e => simp at h
        | ok u =>
          simp only at h
          split at h
          · simp at h
          rename_i hcount
          have hnode : ∀ e ∈ pl, ∀ b ∈ e.2, .blk b e.1 ∈ (gNet gs).nodes := by
            intro e he b hb
            have := (hpl.mem (p := e.1) (bs := e.2)).1 he
            exact on_node (this.1 ▸ hb)
          have hb2 := gtlJoins_built hlaw pl s1 s2 _ bh hb1 hnode h2
          cases h3 : place ops pl pos s2.blocks with
          | error e => simp [h3] at h
          | ok bs =>
            simp only [h3] at h
            have hmv := place_moved h3
            have hb3 := Built.used hb2 (hmv.imp fun b b' (hb : Moved b b') => by
              obtain ⟨x, rfl⟩ := hb
              exact ⟨⟨rfl, rfl, rfl, rfl⟩, rfl⟩)
            cases h4 : gtlExts ops pl portnames { s2 with blocks := bs } with
            | mk s3 r3 =>
              simp only [h4] at h
              cases r3 with
              | error e => simp at h
              | ok u =>
                simp only at h
                have hg : ∀ p b, dictGet p pl = some [b] → gOn gs p = [b] := by
                  intro p b hd
                  have := hpl.get p
                  rw [hd] at this; exact this.symm
                obtain ⟨hb4, hsingle⟩ := gtlExts_built hlaw pl portnames [] _ s3
                  { gNet gs with juncs := gJuncs pl } bh
                  (fun p _ b hd => on_node (by rw [hg p b hd]; simp))
                  (fun n hc => by simp [gNet] at hc) (by simpa [gNet] using hb3) h4
                rw [List.nil_append] at hb4
                split at h
                · simp at h
                rename_i hports
                push Not at hports
                have hfree := (C29_ports hlaw hb4).2.1 (Or.inl rfl)
                cases h5 : getS ops s3 f0 (some s3.zbase) fl0 with
                | mk s4 r4 =>
                  have hb5 := Built.eval hb4 h5
                  rw [afterEval_of_ne (by decide)] at hb5
                  simp only [h5] at h
                  cases r4 with
                  | error e => simp at h
                  | ok S =>
                    simp only [Prod.mk.injEq, and_true] at h
                    subst h
                    refine ⟨pl, bh, ⟨hb5, ⟨s3, f0, _, fl0, S, hb4, h5⟩, hpl, hbh, ?_, ?_, ?_⟩⟩
                    · intro p hp
                      obtain ⟨b, hb⟩ := hsingle p hp
                      exact ⟨b, hg p b hb⟩
                    · push Not at hcount; simpa using hcount
                    · unfold gFinal; exact hfree.symm.trans hports

section made
variable {portnames : List String} {gs : List (GBlk K O)} {pl : List (String × List String)} {bh : Behave K F Fl} {s : St K O F Fl}

/-- the declared ports are distinct -/
theorem Made.nodup [CharZero K] (hlaw : Lawful ops beh) (h : Made ops beh nan zb portnames gs pl bh s) : portnames.Nodup := by
  have := (h.built.inv hlaw).rep.rep.nnd
  have h2 : ((gFinal portnames gs pl).nodes.filter fun n => n ∉ (gFinal portnames gs pl).used).Nodup := this.filter _
  have h3 : (gFinal portnames gs pl).free.Nodup := h2
  rw [h.free] at h3
  exact List.Nodup.of_map _ h3

/-- the names with exactly one end are the declared ports -/
theorem Made.declared [CharZero K] (hlaw : Lawful ops beh) (h : Made ops beh nan zb portnames gs pl bh s) (p : String) :
    p ∈ portnames ↔ (gOn gs p).length = 1 := by
  have hnd := h.nodup hlaw
  have hks : ((pl.filter fun e => ¬ 1 < e.2.length).map Prod.fst).Nodup :=
    h.tab.keys.sublist (List.Sublist.map _ List.filter_sublist)
  have hmem : ∀ q, q ∈ (pl.filter fun e => ¬ 1 < e.2.length).map Prod.fst ↔ (gOn gs q).length = 1 := by
    intro q
    simp only [List.mem_map, List.mem_filter, decide_eq_true_eq]
    constructor
    · rintro ⟨⟨q', bs⟩, ⟨h1, h2⟩, rfl⟩
      obtain ⟨rfl, h3⟩ := h.tab.mem.1 h1
      have := List.length_pos_iff.2 h3
      simp only at h2 ⊢
      omega
    · intro hq
      refine ⟨(q, gOn gs q), ⟨h.tab.mem.2 ⟨rfl, ?_⟩, ?_⟩, rfl⟩
      · intro hc; rw [hc] at hq; simp at hq
      · simp only; omega
  have hsub : portnames ⊆ (pl.filter fun e => ¬ 1 < e.2.length).map Prod.fst := by
    intro q hq
    rw [hmem]
    obtain ⟨b, hb⟩ := h.single q hq
    rw [hb]; rfl
  have hperm : portnames.Perm ((pl.filter fun e => ¬ 1 < e.2.length).map Prod.fst) := by
    refine (hnd.subperm hsub).perm_of_length_le ?_
    rw [List.length_map, h.count]
  rw [hperm.mem_iff, hmem]

/-- two ends of an element with the same tag are the same end -/
theorem same_tag {g : GBlk K O} (h : (g.ports.map GPort.tag).Nodup) {q q' : GPort K} (hq : q ∈ g.ports) (hq' : q' ∈ g.ports)
    (ht : q.tag = q'.tag) : q = q' := List.inj_on_of_nodup_map h hq hq' ht

theorem term_tag {q : GPort K} {a : TermArgs K} (h : q.term = some a) : q.tag ∈ gtlTags := by
  cases q <;> simp [GPort.term, GPort.tag, gtlTags] at h ⊢

/-- the nodes that have a function: ends with a name, and loads -/
theorem used_cases {b t : String} (h : Node.blk b t ∈ (gFinal portnames gs pl).used) (hpl : PL gs pl) :
    b ∈ gOn gs t ∨ ∃ l, (Node.blk b t, l) ∈ (gNet gs).loads := by
  unfold Net.used at h
  simp only [gFinal, gNet, List.map_nil, List.append_nil, List.flatMap_nil, List.mem_append] at h
  rcases h with h | h
  · left
    rw [List.mem_flatMap] at h
    obtain ⟨j, hj, hm⟩ := h
    rw [List.mem_append] at hj
    rcases hj with hj | hj
    · simp only [gJuncs, List.mem_map, List.mem_filter] at hj
      obtain ⟨e, ⟨he, -⟩, rfl⟩ := hj
      simp only [List.mem_map, Node.blk.injEq] at hm
      obtain ⟨c, hc, rfl, rfl⟩ := hm
      have := (hpl.mem (p := e.1) (bs := e.2)).1 he
      rw [← this.1]; exact hc
    · obtain ⟨p, hp, rfl⟩ := List.mem_map.1 hj
      simp only [gExt, List.mem_map, Node.blk.injEq] at hm
      obtain ⟨c, hc, rfl, rfl⟩ := hm
      rw [hpl.get] at hc; exact hc
  · right
    rw [List.mem_map] at h
    obtain ⟨x, hx, he⟩ := h
    exact ⟨x.2, by rw [← he]; exact hx⟩

/-- every terminated end has its load -/
theorem Made.loaded (hok : GOK gs) (h : Made ops beh nan zb portnames gs pl bh s) {g : GBlk K O} (hg : g ∈ gs)
    {q : GPort K} (hq : q ∈ g.ports) {a : TermArgs K} (ha : q.term = some a) :
    ∃ l, a.load = some l ∧ (Node.blk g.name q.tag, l) ∈ (gNet gs).loads := by
  have hnode : Node.blk g.name q.tag ∈ (gFinal portnames gs pl).nodes := by
    simp only [gFinal, List.mem_append]
    left
    simp only [gNet, List.mem_flatMap, List.mem_map]
    exact ⟨g, hg, q.tag, ⟨q, hq, rfl⟩, rfl⟩
  have hused : Node.blk g.name q.tag ∈ (gFinal portnames gs pl).used := by
    by_contra hc
    have : Node.blk g.name q.tag ∈ (gFinal portnames gs pl).free := mem_free.2 ⟨hnode, hc⟩
    rw [h.free] at this
    simp at this
  rcases used_cases hused h.tab with hc | ⟨l, hl⟩
  · exfalso
    obtain ⟨g', hg', hn, hp⟩ := mem_gOn.1 hc
    exact hok.plain g' hg' _ hp (term_tag ha)
  · refine ⟨l, ?_, hl⟩
    simp only [gNet, List.mem_filterMap] at hl
    obtain ⟨g', hg', hx⟩ := hl
    unfold gLoad at hx
    split at hx
    · cases hx
    · rename_i a' t hlast
      split at hx
      · cases hx
      · rename_i l' hl'
        simp only [Option.some.injEq, Prod.mk.injEq, Node.blk.injEq] at hx
        obtain ⟨⟨hn, ht⟩, rfl⟩ := hx
        have hgg : g' = g := List.inj_on_of_nodup_map hok.blocks hg' hg hn
        subst hgg
        obtain ⟨q', hq', ha', ht'⟩ := lastTerm_some hlast
        have : q' = q := same_tag (hok.ends _ hg) hq' hq (ht'.trans ht)
        subst this
        rw [ha'] at ha
        injection ha with ha
        rw [← ha]; exact hl'

/-- the loads are those of terminated ends -/
theorem load_of {x : Node × Load K} (h : x ∈ (gNet gs).loads) :
    ∃ g ∈ gs, ∃ q ∈ g.ports, ∃ a, q.term = some a ∧ a.load = some x.2 ∧ x.1 = .blk g.name q.tag := by
  simp only [gNet, List.mem_filterMap] at h
  obtain ⟨g, hg, hx⟩ := h
  unfold gLoad at hx
  split at hx
  · cases hx
  · rename_i a t hlast
    split at hx
    · cases hx
    · rename_i l hl
      injection hx with hx
      subst hx
      obtain ⟨q, hq, ha, ht⟩ := lastTerm_some hlast
      exact ⟨g, hg, q, hq, a, ha, hl, by rw [ht]⟩

theorem Y0_law {i o : K} : Load.Law zb (.Y 0) i o ↔ i - o = 0 := by
  simp only [Load.Law, zero_mul, sub_eq_zero]; exact eq_comm

theorem Z0_law (hz : zb ≠ 0) {i o : K} : Load.Law zb (.Z 0) i o ↔ i + o = 0 := by
  simp [Load.Law, hz]

/-- the laws of the circuit built are those of the description -/
theorem Made.laws [CharZero K] (hok : GOK gs) (hz : zb ≠ 0) (hlaw : Lawful ops beh) (h : Made ops beh nan zb portnames gs pl bh s)
    (Sof : String → SMat K) (w : Wave → K) :
    (gFinal portnames gs pl).Laws zb Sof w ↔ GLaws portnames gs zb Sof w := by
  have hdecl := h.declared hlaw
  have hjunc : ∀ p, 1 < (gOn gs p).length → (⟨gEnds gs p, none⟩ : Junction) ∈ gJuncs pl := by
    intro p hp
    simp only [gJuncs, List.mem_map, List.mem_filter, decide_eq_true_eq]
    refine ⟨(p, gOn gs p), ⟨h.tab.mem.2 ⟨rfl, fun hc => by rw [hc] at hp; simp at hp⟩, hp⟩, ?_⟩
    simp only [gEnds_eq]
  have hext : ∀ p, gExt pl p = ⟨gEnds gs p, some (.ext p)⟩ := by
    intro p
    simp only [gExt, h.tab.get, gEnds_eq]
  constructor
  · rintro ⟨h1, ⟨h2, -, -⟩, h3⟩
    have hj : ∀ p, 1 < (gOn gs p).length → Junction.Law ⟨gEnds gs p, none⟩ w := fun p hp =>
      h2 _ (List.mem_append_left _ (hjunc p hp))
    have he : ∀ p ∈ portnames, Junction.Law ⟨gEnds gs p, some (.ext p)⟩ w := fun p hp =>
      h2 _ (List.mem_append_right _ (by rw [← hext]; exact List.mem_map_of_mem hp))
    have hload : ∀ g ∈ gs, ∀ q ∈ g.ports, ∀ a l, q.term = some a → a.load = some l →
        l.Law zb (w (.inn, .blk g.name q.tag)) (w (.out, .blk g.name q.tag)) := by
      intro g hg q hq a l ha hl
      obtain ⟨l', hl', hm⟩ := h.loaded hok hg hq ha
      rw [hl] at hl'
      injection hl' with hl'
      subst hl'
      exact h3 _ hm
    refine ⟨?_, ?_, ?_, ?_, ?_, ?_, ?_, ?_⟩
    · intro g hg
      exact h1 (g.name, g.ports.map GPort.tag) (by simp only [gFinal, gNet]; exact List.mem_map_of_mem hg)
    · intro g hg hq
      exact Y0_law.1 (hload g hg _ hq (.Y 0) (.Y 0) rfl rfl)
    · intro g hg hq
      exact (Z0_law hz).1 (hload g hg _ hq (.Z 0) (.Z 0) rfl rfl)
    · intro g hg a l hq hl
      exact hload g hg _ hq a l rfl hl
    · intro p m hm n hn
      rcases Nat.lt_or_ge 1 (gOn gs p).length with hp | hp
      · exact (hj p hp).1 m (by simpa using hm) n (by simpa using hn)
      · rw [gEnds_eq] at hm hn
        match hgo : gOn gs p with
        | [] => simp [hgo] at hm
        | [b] => simp only [hgo, List.map_cons, List.map_nil, List.mem_singleton] at hm hn; rw [hm, hn]
        | b :: c :: l => simp [hgo] at hp
    · intro p hp
      rw [hdecl] at hp
      rcases Nat.lt_or_ge 1 (gOn gs p).length with hp' | hp'
      · exact (hj p hp').2
      · have : gOn gs p = [] := by
          match hgo : gOn gs p with
          | [] => rfl
          | [b] => simp [hgo] at hp
          | b :: c :: l => simp [hgo] at hp'
        simp [gEnds_eq, this]
    · intro p hp m hm
      exact (he p hp).1 _ (by simp) _ (by simp [hm])
    · intro p hp
      exact (he p hp).2.symm
  · intro hG
    refine ⟨?_, ⟨?_, ?_, ?_⟩, ?_⟩
    · intro x hx
      simp only [gFinal, gNet, List.mem_map] at hx
      obtain ⟨g, hg, rfl⟩ := hx
      exact hG.elements g hg
    · intro j hj
      simp only [gFinal] at hj
      rw [List.mem_append] at hj
      rcases hj with hj | hj
      · simp only [gJuncs, List.mem_map, List.mem_filter, decide_eq_true_eq] at hj
        obtain ⟨⟨p, bs⟩, ⟨he, hlen⟩, rfl⟩ := hj
        obtain ⟨rfl, -⟩ := h.tab.mem.1 he
        simp only at hlen ⊢
        rw [← gEnds_eq]
        refine ⟨?_, ?_⟩
        · intro m hm n hn
          exact hG.nodes p m (by simpa using hm) n (by simpa using hn)
        · refine hG.inner p ?_
          rw [hdecl]; omega
      · obtain ⟨p, hp, rfl⟩ := List.mem_map.1 hj
        rw [hext]
        refine ⟨?_, (hG.outerI p hp).symm⟩
        have key : ∀ m ∈ gEnds gs p ++ [Node.ext p], volt w m = volt w (.ext p) := by
          intro m hm
          rw [List.mem_append, List.mem_singleton] at hm
          rcases hm with hm | rfl
          · exact (hG.outerV p hp m hm).symm
          · rfl
        intro m hm n hn
        rw [key m hm, key n hn]
    · intro x hx; simp [gFinal, gNet] at hx
    · intro x hx; simp [gFinal, gNet] at hx
    · intro x hx
      obtain ⟨g, hg, q, hq, a, ha, hl, he⟩ := load_of (gs := gs) hx
      rw [he]
      cases q with
      | name n => simp [GPort.term] at ha
      | oc =>
        simp only [GPort.term, Option.some.injEq] at ha
        subst ha
        simp only [TermArgs.load, Option.some.injEq] at hl
        rw [← hl]
        exact Y0_law.2 (hG.opens g hg hq)
      | sc =>
        simp only [GPort.term, Option.some.injEq] at ha
        subst ha
        simp only [TermArgs.load, Option.some.injEq] at hl
        rw [← hl]
        exact (Z0_law hz).2 (hG.shorts g hg hq)
      | load b =>
        simp only [GPort.term, Option.some.injEq] at ha
        subst ha
        exact hG.loads g hg b x.2 hq hl

/-- the ports of the object, in any later state -/
theorem Made.ports [CharZero K] (hlaw : Lawful ops beh) (h : Made ops beh nan zb portnames gs pl bh s) {s' : St K O F Fl} {ph : Phase}
    (hb : Built ops beh nan zb (portnames.map .ext) (gFinal portnames gs pl) bh s' ph) : s'.ports = portnames.map .ext := by
  obtain ⟨h1, -, h3⟩ := C29_ports hlaw hb
  rw [h.free] at h1 h3
  rcases h3 with h3 | h3
  · exact h3
  · exact h3.eq_of_length h1.length_eq

end made

theorem scat_iff {ports : List Node} {portnames : List String} (hp : ports = portnames.map .ext) {S : SMat K} {P : (Wave → K) → Prop}
    (H : ∀ a b : Fin ports.length → K, (∃ w, P w ∧ (∀ i, w (.inn, ports[i]) = a i) ∧ ∀ i, w (.out, ports[i]) = b i) ↔
      ∀ i, b i = ∑ j : Fin ports.length, S.at i j * a j) (a b : ℕ → K) :
    (∃ w, P w ∧ ∀ i (hi : i < portnames.length), w (.inn, .ext portnames[i]) = a i ∧ w (.out, .ext portnames[i]) = b i) ↔
      ∀ i < portnames.length, b i = ∑ j ∈ Finset.range portnames.length, S.at i j * a j := by
  subst hp
  have hlen : (portnames.map Node.ext).length = portnames.length := List.length_map _
  have := H (fun i => a i) (fun i => b i)
  constructor
  · rintro ⟨w, h1, h2⟩ i hi
    have h3 := this.1 ⟨w, h1, fun i => by simpa using (h2 i (by have := i.2; omega)).1, fun i => by simpa using (h2 i (by have := i.2; omega)).2⟩
      ⟨i, by omega⟩
    rw [h3, Fin.sum_univ_eq_sum_range (fun j => S.at i j * a j), hlen]
  · intro h
    obtain ⟨w, h1, h2, h3⟩ := this.2 (fun i => by
      obtain ⟨i, hi⟩ := i
      simp only
      rw [Fin.sum_univ_eq_sum_range (fun j => S.at i j * a j), hlen]
      exact h i (by omega))
    refine ⟨w, h1, fun i hi => ?_⟩
    have e1 := h2 ⟨i, by omega⟩
    have e2 := h3 ⟨i, by omega⟩
    simp only [Fin.getElem_fin, List.getElem_map] at e1 e2
    exact ⟨e1, e2⟩

/-- **C54.** `rfGTL`: if the constructor accepts the description and `getS` answers, then every element delivers its scattering
matrix, and `S` is the scattering matrix of the network described, at the declared ports in the declared order. -/
theorem C54_scattering [CharZero K] (hlaw : Lawful ops beh) (hz : zb ≠ 0) {f0 : F} {fl0 : Fl} {portnames : List String}
    {relpos : List (String × ℚ)} {gs : List (GBlk K O)} (hok : GOK gs) {s s' : St K O F Fl}
    (h : gtlInit ops nan zb f0 fl0 portnames relpos gs = (s, .ok ())) {f : F} {fl : Fl} {S : SMat K}
    (hs : getS ops s f none fl = (s', .ok S)) :
    S.n = portnames.length ∧ s'.ports = portnames.map .ext ∧
    (∃ Sof : String → SMat K, ∀ g ∈ gs, beh g.obj f zb fl = .ok (Sof g.name)) ∧
    ∀ Sof : String → SMat K, (∀ g ∈ gs, beh g.obj f zb fl = .ok (Sof g.name)) → ∀ a b : ℕ → K,
      ((∃ w, GLaws portnames gs zb Sof w ∧
        ∀ i (hi : i < portnames.length), w (.inn, .ext portnames[i]) = a i ∧ w (.out, .ext portnames[i]) = b i) ↔
      ∀ i < portnames.length, b i = ∑ j ∈ Finset.range portnames.length, S.at i j * a j) := by
  obtain ⟨pl, bh, hm⟩ := gtlInit_made hlaw hok h
  obtain ⟨⟨Sof, hS⟩, hsc⟩ := C20_getS_sound hlaw hm.built (by decide) hs
  have hports := hm.ports hlaw (Built.eval hm.built hs)
  have hgiven : ∀ Sof : String → SMat K, Given (gFinal portnames gs pl) bh f zb fl Sof ↔
      ∀ g ∈ gs, beh g.obj f zb fl = .ok (Sof g.name) := by
    intro Sof
    simp only [Given, gFinal, gNet, List.mem_map]
    constructor
    · intro H g hg
      rw [← hm.bh g hg]
      exact H _ ⟨g, hg, rfl⟩
    · rintro H x ⟨g, hg, rfl⟩
      simp only [hm.bh g hg]
      exact H g hg
  refine ⟨?_, hports, ⟨Sof, (hgiven Sof).1 hS⟩, ?_⟩
  · rw [(hsc Sof hS).size, hports, List.length_map]
  · intro Sof hS a b
    refine scat_iff hports (fun a b => ?_) a b
    have := C20_external hlaw hm.built (by decide) hs ((hgiven Sof).2 hS) a b
    rw [← this]
    refine exists_congr fun w => and_congr_left fun _ => ?_
    exact (hm.laws hok hz hlaw Sof w).symm

/-- **C54 (what is accepted).** The declared ports are distinct and are exactly the names with a single end, each a port of the element
that has it; every other name joins at least two ends; an element has at most one terminated end, and its termination is meaningful. -/
theorem C54_declared [CharZero K] (hlaw : Lawful ops beh) {f0 : F} {fl0 : Fl} {portnames : List String}
    {relpos : List (String × ℚ)} {gs : List (GBlk K O)} (hok : GOK gs) {s : St K O F Fl}
    (h : gtlInit ops nan zb f0 fl0 portnames relpos gs = (s, .ok ())) :
    portnames.Nodup ∧ (∀ p, p ∈ portnames ↔ (gEnds gs p).length = 1) ∧
    (∀ g ∈ gs, ∀ p, .name p ∈ g.ports → p ∉ portnames → 2 ≤ (gEnds gs p).length) ∧
    ∀ g ∈ gs, ∀ q ∈ g.ports, ∀ q' ∈ g.ports, (∀ n, q ≠ .name n) → (∀ n, q' ≠ .name n) → q = q' := by
  obtain ⟨pl, bh, hm⟩ := gtlInit_made hlaw hok h
  have hd : ∀ p, p ∈ portnames ↔ (gEnds gs p).length = 1 := by
    intro p
    rw [hm.declared hlaw p, gEnds_eq, List.length_map]
  refine ⟨hm.nodup hlaw, hd, ?_, ?_⟩
  · intro g hg p hp hnot
    rw [hd] at hnot
    have : 0 < (gEnds gs p).length := by
      rw [gEnds_eq, List.length_map, List.length_pos_iff]
      intro hc
      have : g.name ∈ gOn gs p := mem_gOn.2 ⟨g, hg, rfl, hp⟩
      rw [hc] at this; simp at this
    omega
  · intro g hg q hq q' hq' hn hn'
    have key : ∀ q ∈ g.ports, (∀ n, q ≠ .name n) → ∃ a, lastTerm g.ports = some (a, q.tag) := by
      intro q hq hn
      obtain ⟨a, ha⟩ : ∃ a, q.term = some a := by
        cases q with
        | name n => exact absurd rfl (hn n)
        | oc => exact ⟨_, rfl⟩
        | sc => exact ⟨_, rfl⟩
        | load a => exact ⟨_, rfl⟩
      obtain ⟨l, -, hl⟩ := hm.loaded hok hg hq ha
      simp only [gNet, List.mem_filterMap] at hl
      obtain ⟨g', hg', hx⟩ := hl
      unfold gLoad at hx
      split at hx
      · cases hx
      · rename_i a' t hlast
        split at hx
        · cases hx
        · simp only [Option.some.injEq, Prod.mk.injEq, Node.blk.injEq] at hx
          have hgg : g' = g := List.inj_on_of_nodup_map hok.blocks hg' hg hx.1.1
          subst hgg
          exact ⟨a', by rw [hlast, hx.1.2]⟩
    obtain ⟨a, ha⟩ := key q hq hn
    obtain ⟨a', ha'⟩ := key q' hq' hn'
    rw [ha] at ha'
    simp only [Option.some.injEq, Prod.mk.injEq] at ha'
    exact same_tag (hok.ends g hg) hq hq' ha'.2

/-- **C54 (when it answers).** `getS` of a finished object answers exactly when the laws determine the waves. -/
theorem C54_answers [CharZero K] (hlaw : Lawful ops beh) (hz : zb ≠ 0) {f0 : F} {fl0 : Fl} {portnames : List String}
    {relpos : List (String × ℚ)} {gs : List (GBlk K O)} (hok : GOK gs) {s : St K O F Fl}
    (h : gtlInit ops nan zb f0 fl0 portnames relpos gs = (s, .ok ())) (hne : portnames ≠ []) {f : F} {fl : Fl} {Sof : String → SMat K}
    (hS : ∀ g ∈ gs, beh g.obj f zb fl = .ok (Sof g.name)) :
    (∃ s' S, getS ops s f none fl = (s', .ok S)) ↔
      Solvable (GLaws portnames gs zb Sof)
        ((gs.flatMap fun g => (g.ports.map GPort.tag).map (.blk g.name)) ++ portnames.map .ext) (portnames.map .ext) := by
  obtain ⟨pl, bh, hm⟩ := gtlInit_made hlaw hok h
  have hgiven : Given (gFinal portnames gs pl) bh f zb fl Sof := by
    simp only [Given, gFinal, gNet, List.mem_map]
    rintro x ⟨g, hg, rfl⟩
    simp only [hm.bh g hg]
    exact hS g hg
  have hp := hm.ports hlaw hm.built
  have := C20_getS_complete hlaw hm.built (by decide) hgiven (by rw [hm.free]; simpa using hne) (by
    right
    rw [hm.free]
    unfold St.names
    split
    · rw [hp]
    · rw [(hm.built.inv hlaw).nm])
  rw [this, hm.free]
  have hl : (gFinal portnames gs pl).Laws zb Sof = GLaws portnames gs zb Sof := by
    funext w; exact propext (hm.laws hok hz hlaw Sof w)
  rw [hl]
  rfl

end
end PyRFtk.Circuit
