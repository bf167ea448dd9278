import Verif.GTLPos2
import Verif.GTLEx

/-!
# Positions in an `rfGTL` object: theorems (C55)
-/

set_option linter.unusedSectionVars false

namespace PyRFtk.Circuit

section
variable {K O F Fl : Type*} [Field K] [DecidableEq F] [DecidableEq Fl]
variable {ops : ObjOps K O F Fl} {beh : O → F → K → Fl → Except Err (SMat K)} {nan zb : K}

theorem tag_name {q : GPort K} {p : String} (h : q.tag = p) (hp : p ∉ gtlTags) : q = .name p := by
  cases q with
  | name n => exact congrArg GPort.name h
  | oc => exact absurd (h ▸ by simp [GPort.tag, gtlTags]) hp
  | sc => exact absurd (h ▸ by simp [GPort.tag, gtlTags]) hp
  | load a => exact absurd (h ▸ by simp [GPort.tag, gtlTags]) hp

theorem names_of {R : GBlk K O → Blk O → Prop} (hR : ∀ g b, R g b → b.name = g.name) {gs : List (GBlk K O)} {bs : List (Blk O)}
    (h : List.Forall₂ R gs bs) : bs.map Blk.name = gs.map GBlk.name := by
  induction h with
  | nil => rfl
  | cons h _ ih => rw [List.map_cons, List.map_cons, ih, hR _ _ h]

theorem reachP_iff {relpos pos : List (String × ℚ)} {gs : List (GBlk K O)} {bs : List (Blk O)} (hok : GOK gs)
    (hbs : List.Forall₂ OfElem gs bs) (hkeys : ∀ p ∈ pos.map Prod.fst, p ∉ gtlTags)
    (hpos : ∀ p, p ∈ pos.map Prod.fst ↔ p ∈ relpos.map Prod.fst ∨ ∃ g ∈ gs, ∃ v, Starts g p v) (p : String) :
    ReachP (bs.map Blk.ports) (pos.map Prod.fst) p ↔ Reached relpos gs p := by
  have hR : ∀ p, ReachP (bs.map Blk.ports) (pos.map Prod.fst) p → p ∉ gtlTags := by
    intro p hp
    cases hp with
    | base h => exact hkeys p h
    | step _ _ _ _ h => exact h
  constructor
  · intro h
    induction h with
    | @base p hp =>
      rcases (hpos p).1 hp with h | ⟨g, hg, v, h1, q, h2, h3⟩
      · exact .given h
      · rw [tag_name h3 (hkeys p hp)] at h2
        exact .start hg h1 h2
    | @step ports p q hports hp hRp hq ht ih =>
      obtain ⟨b, hb, rfl⟩ := List.mem_map.1 hports
      obtain ⟨g, hg, hgb⟩ := forall₂_mem_right hbs hb
      rw [hgb.2.1] at hp hq
      obtain ⟨p', hp', h1⟩ := List.mem_map.1 hp
      obtain ⟨q', hq', h2⟩ := List.mem_map.1 hq
      rw [tag_name h1 (hR p hRp)] at hp'
      rw [tag_name h2 ht] at hq'
      exact .along hg hp' ih hq'
  · intro h
    induction h with
    | given h => exact .base ((hpos _).2 (Or.inl h))
    | start hg h1 h2 => exact .base ((hpos _).2 (Or.inr ⟨_, hg, _, h1, _, h2, rfl⟩))
    | along hg hp _ hq ih =>
      obtain ⟨b, hb, hgb⟩ := forall₂_mem_left hbs hg
      refine .step (List.mem_map_of_mem hb) ?_ ih ?_ (hok.plain _ hg _ hq)
      · rw [hgb.2.1]; exact List.mem_map.2 ⟨_, hp, rfl⟩
      · rw [hgb.2.1]; exact List.mem_map.2 ⟨_, hq, rfl⟩

/-- an element has an end with a known position -/
def GBlk.Known (relpos : List (String × ℚ)) (gs : List (GBlk K O)) (g : GBlk K O) : Prop := ∃ n, .name n ∈ g.ports ∧ Reached relpos gs n

/-- a placed block of an element -/
structure PlacedAs (ops : ObjOps K O F Fl) (relpos : List (String × ℚ)) (gs : List (GBlk K O)) (X : String → ℚ) (g : GBlk K O) (b : Blk O) : Prop where
  name : b.name = g.name
  ports : b.ports = g.ports.map GPort.tag
  xpos : ops.xpos b.obj = ops.xpos g.obj
  known : g.Known relpos gs → b.relpos = X g.name
  unknown : ¬ g.Known relpos gs → b.relpos = -10

theorem getpos_placed {relpos : List (String × ℚ)} {gs : List (GBlk K O)} {X : String → ℚ} {s : St K O F Fl} (hok : GOK gs)
    (hbs : List.Forall₂ (PlacedAs ops relpos gs X) gs s.blocks) {g : GBlk K O} (hg : g ∈ gs) {k : ℕ} {q : GPort K} {xs : List ℚ} {x : ℚ}
    (hq : g.ports[k]? = some q) (hxs : ops.xpos g.obj = some xs) (hx : xs[k]? = some x) :
    (g.Known relpos gs → getpos ops s (.blk g.name q.tag) = .ok (X g.name + x)) ∧
    (¬ g.Known relpos gs → getpos ops s (.blk g.name q.tag) = .ok (-10 + x)) := by
  obtain ⟨b, hb, hgb⟩ := forall₂_mem_left hbs hg
  have hnames : s.blocks.map Blk.name = gs.map GBlk.name := names_of (fun _ _ h => PlacedAs.name h) hbs
  have hfind : s.blocks.find? (fun x => x.name = g.name) = some b := by
    have hnd : (s.blocks.map Blk.name).Nodup := hnames ▸ hok.blocks
    cases hf : s.blocks.find? (fun x => x.name = g.name) with
    | none =>
      rw [List.find?_eq_none] at hf
      exact absurd hgb.name (by simpa using hf b hb)
    | some b' =>
      have h1 := List.find?_some hf
      have h2 := List.mem_of_find?_eq_some hf
      simp only [decide_eq_true_eq] at h1
      rw [List.inj_on_of_nodup_map hnd h2 hb (h1.trans hgb.name.symm)]
  have hlt : k < g.ports.length := (List.getElem?_eq_some_iff.1 hq).1
  have hk : pyIndex b.ports q.tag = .ok k := by
    have hmem : q.tag ∈ b.ports := by
      rw [hgb.ports]; exact List.mem_map_of_mem (List.mem_of_getElem? hq)
    unfold pyIndex
    rw [if_pos hmem]
    have h1 : (b.ports)[k]? = some q.tag := by rw [hgb.ports, List.getElem?_map, hq]; rfl
    have hnd : b.ports.Nodup := by rw [hgb.ports]; exact hok.ends g hg
    obtain ⟨hl, h2⟩ := List.getElem?_eq_some_iff.1 h1
    refine congrArg Except.ok ?_
    rw [← h2]
    exact hnd.idxOf_getElem k hl
  have hval : getpos ops s (.blk g.name q.tag) = .ok (b.relpos + x) := by
    simp only [getpos, hfind, hk, hgb.xpos, hxs, hx]
  rw [hval]
  exact ⟨fun h => by rw [hgb.known h], fun h => by rw [hgb.unknown h]⟩

/-- the state of a finished object, as far as positions are concerned -/
theorem gtlInit_places [CharZero K] (hlaw : Lawful ops beh) (hxp : ∀ o f z fl, ops.xpos (ops.getS o f z fl).1 = ops.xpos o)
    {f0 : F} {fl0 : Fl} {portnames : List String} {relpos : List (String × ℚ)}
    {gs : List (GBlk K O)} (hok : GOK gs) {X P : String → ℚ} (hlay : GLayout ops relpos gs X P) {s : St K O F Fl}
    (h : gtlInit ops nan zb f0 fl0 portnames relpos gs = (s, .ok ())) :
    List.Forall₂ (PlacedAs ops relpos gs X) gs s.blocks ∧ s.xpos.length = portnames.length ∧
    ∀ (k : ℕ) n v, portnames[k]? = some n → s.xpos[k]? = some v → ∃ g ∈ gs, ∃ (i : ℕ) (xs : List ℚ) (x : ℚ), g.ports[i]? = some (.name n) ∧
      ops.xpos g.obj = some xs ∧ xs[i]? = some x ∧ (g.Known relpos gs → v = X g.name + x) ∧ (¬ g.Known relpos gs → v = -10 + x) := by
  unfold gtlInit at h
  simp only at h
  split at h
  · simp at h
  cases h1 : gtlBlocks ops nan gs (St.init zb (portnames.map .ext)) [] relpos with
  | mk s1 r1 =>
    simp only [h1] at h
    cases r1 with
    | error e => simp at h
    | ok x =>
      obtain ⟨pl, pos⟩ := x
      have hpl0 : PL ([] : List (GBlk K O)) [] := ⟨by simp, fun p => by simp [dictGet, gOn], fun p bs hp => by simp [dictGet] at hp⟩
      obtain ⟨bh, hb1, hpl, hbh⟩ := gtlBlocks_built (beh := beh) (zb := zb) (names := portnames.map .ext) hlaw gs [] _ s1 [] pl relpos pos
        (fun _ _ _ _ => .error .valueError) (Built.init _) hpl0 hok (by simp) h1
      rw [List.nil_append] at hpl
      obtain ⟨⟨L, l1, l2⟩, k2, k3, k4⟩ := gtlBlocks_keeps gs _ s1 [] pl relpos pos hok.blocks (by simp [St.init])
        (fun g hg => by obtain ⟨xs, a, b, -⟩ := hlay.elements g hg; exact ⟨xs, a, b⟩) rfl h1
      have l1' : s1.blocks = L := by rw [l1]; rfl
      subst l1'
      simp only at h
      cases h2 : gtlJoins ops pl s1 with
      | mk s2 r2 =>
        simp only [h2] at h
        cases r2 with
        | error e => simp at h
        | ok u =>
          simp only at h
          split at h
          · simp at h
          obtain ⟨j1, j2⟩ := gtlJoins_keeps pl s1 s2 k2 h2
          cases h3 : place ops pl pos s2.blocks with
          | error e => simp [h3] at h
          | ok bs =>
            simp only [h3] at h
            rw [j1] at h3
            have hnames : s1.blocks.map Blk.name = gs.map GBlk.name := names_of (fun _ _ h => h.1) l2
            obtain ⟨p1, p2⟩ := place_spec (X := X) (P := P) (by rw [hnames]; exact hok.blocks) (by
                intro p ns hd
                have hg := hpl.get p
                rw [hd] at hg
                simp only [Option.getD_some] at hg
                have key : ∀ n ∈ ns, ∃ g ∈ gs, g.name = n ∧ .name p ∈ g.ports := fun n hn => mem_gOn.1 (hg ▸ hn)
                refine ⟨?_, ?_⟩
                · obtain ⟨n, hn⟩ := List.exists_mem_of_ne_nil ns (hpl.ne p ns hd)
                  obtain ⟨g, hg1, -, hg2⟩ := key n hn
                  exact hok.plain g hg1 p hg2
                · intro n hn
                  obtain ⟨g, hg1, hg3, hg2⟩ := key n hn
                  obtain ⟨b, hb, hgb⟩ := forall₂_mem_left l2 hg1
                  exact ⟨b, hb, hgb.1.trans hg3, by rw [hgb.2.1]; exact List.mem_map.2 ⟨_, hg2, rfl⟩⟩)
              (by
                intro b hb
                obtain ⟨g, hg, hgb⟩ := forall₂_mem_right l2 hb
                obtain ⟨xs, a, bl, c⟩ := hlay.elements g hg
                refine ⟨xs, by rw [hgb.2.2.1]; exact a, by rw [hgb.2.1, List.length_map, bl], ?_⟩
                rintro ⟨p, x⟩ he ht
                rw [hgb.2.1] at he
                obtain ⟨k, hk, hke⟩ := List.mem_iff_getElem.1 he
                simp only [List.length_zip, List.length_map, lt_inf_iff] at hk
                simp only [List.getElem_zip, List.getElem_map, Prod.mk.injEq] at hke
                rw [hgb.1]
                refine c k p x ?_ ?_
                · rw [List.getElem?_eq_getElem hk.1, tag_name hke.1 ht]
                · rw [List.getElem?_eq_getElem hk.2, hke.2])
              (by
                intro p v hd ht
                rcases k4 p v hd with h | ⟨g, hg, h5, q, h6, h7⟩
                · exact hlay.given _ (dictGet_mem h)
                · rw [tag_name h7 ht] at h6
                  exact hlay.starts g hg v p h5 h6) h3
            have hreach := reachP_iff hok l2 p1 k3
            have hplaced : List.Forall₂ (PlacedAs ops relpos gs X) gs bs := by
              have : ∀ {l : List (GBlk K O)} {m n : List (Blk O)}, (∀ g ∈ l, g ∈ gs) → List.Forall₂ OfElem l m →
                  List.Forall₂ (fun b b' => Moved b b' ∧
                    ((∃ p ∈ b.ports, ReachP (s1.blocks.map Blk.ports) (pos.map Prod.fst) p) → b'.relpos = X b.name) ∧
                    ((¬ ∃ p ∈ b.ports, ReachP (s1.blocks.map Blk.ports) (pos.map Prod.fst) p) → b' = b)) m n →
                  List.Forall₂ (PlacedAs ops relpos gs X) l n := by
                intro l m n hsub hlm
                induction hlm generalizing n with
                | nil => intro h; cases h; exact .nil
                | @cons g b l m hgb _ ih =>
                  intro h
                  cases h with
                  | @cons _ b' _ n hbb ht =>
                    refine .cons ?_ (ih (fun g hg => hsub g (List.mem_cons_of_mem _ hg)) ht)
                    have hg := hsub g List.mem_cons_self
                    obtain ⟨⟨x, rfl⟩, e1, e2⟩ := hbb
                    have hkn : (∃ p ∈ b.ports, ReachP (s1.blocks.map Blk.ports) (pos.map Prod.fst) p) ↔ g.Known relpos gs := by
                      rw [hgb.2.1]
                      constructor
                      · rintro ⟨p, hp, hr⟩
                        obtain ⟨q, hq, hqp⟩ := List.mem_map.1 hp
                        have hpt : p ∉ gtlTags := by
                          cases hr with
                          | base h => exact p1 p h
                          | step _ _ _ _ h => exact h
                        rw [tag_name hqp hpt] at hq
                        exact ⟨p, hq, (hreach p).1 hr⟩
                      · rintro ⟨n, hn, hr⟩
                        exact ⟨n, List.mem_map.2 ⟨_, hn, rfl⟩, (hreach n).2 hr⟩
                    refine ⟨hgb.1, hgb.2.1, by simp only [hgb.2.2.1], ?_, ?_⟩
                    · intro hk; rw [e1 (hkn.2 hk), hgb.1]
                    · intro hk
                      have := e2 (fun hc => hk (hkn.1 hc))
                      rw [this, hgb.2.2.2]
                      cases hgx : g.xpos with
                      | none => rfl
                      | some v =>
                        exfalso
                        cases hgp : g.ports with
                        | nil =>
                          have hnil : notePos g ([] : List (String × ℚ)) = .error .indexError := by simp [notePos, hgx, hgp]
                          have hall : ∀ (gs : List (GBlk K O)) (s s' : St K O F Fl) pl pl' pos pos', g ∈ gs →
                              gtlBlocks ops nan gs s pl pos ≠ (s', .ok (pl', pos')) := by
                            intro gs
                            induction gs with
                            | nil => intro _ _ _ _ _ _ h; cases h
                            | cons a l ih =>
                              intro s s' pl pl' pos pos' hm hrun
                              unfold gtlBlocks at hrun
                              rcases List.mem_cons.1 hm with rfl | hm
                              · simp [notePos, hgx, hgp] at hrun
                              · repeat' split at hrun
                                all_goals first | exact ih _ _ _ _ _ _ hm hrun | simp at hrun
                          exact hall gs _ _ _ _ _ _ hg h1
                        | cons q l =>
                          have hst : Starts g q.tag v := ⟨hgx, q, by rw [hgp]; rfl, rfl⟩
                          have hk1 : q.tag ∈ pos.map Prod.fst := (k3 _).2 (Or.inr ⟨g, hg, v, hst⟩)
                          refine hk (hkn.1 ⟨q.tag, ?_, .base hk1⟩)
                          rw [hgb.2.1, hgp]; exact List.mem_cons_self
              exact this (fun _ h => h) l2 p2
            cases h4 : gtlExts ops pl portnames { s2 with blocks := bs } with
            | mk s3 r3 =>
              simp only [h4] at h
              cases r3 with
              | error e => simp at h
              | ok u =>
                simp only at h
                obtain ⟨x1, x2, x3⟩ := gtlExts_keeps pl (fun n v => ∃ g ∈ gs, ∃ (i : ℕ) (xs : List ℚ) (x : ℚ), g.ports[i]? = some (.name n) ∧
                  ops.xpos g.obj = some xs ∧ xs[i]? = some x ∧ (g.Known relpos gs → v = X g.name + x) ∧ (¬ g.Known relpos gs → v = -10 + x))
                  portnames { s2 with blocks := bs } s3 j2 (by
                    intro p _ b hd v hv
                    have hg := hpl.get p
                    rw [hd] at hg
                    simp only [Option.getD_some] at hg
                    obtain ⟨g, hg1, rfl, hg2⟩ := mem_gOn.1 (hg ▸ List.mem_singleton_self b)
                    obtain ⟨i, hi, hie⟩ := List.mem_iff_getElem.1 hg2
                    obtain ⟨xs, a, bl, -⟩ := hlay.elements g hg1
                    have hix : i < xs.length := by omega
                    refine ⟨g, hg1, i, xs, xs[i], by rw [List.getElem?_eq_getElem hi, hie], a, List.getElem?_eq_getElem hix, ?_⟩
                    obtain ⟨y1, y2⟩ := getpos_placed (s := { s2 with blocks := bs }) hok hplaced hg1 (q := .name p) (by rw [List.getElem?_eq_getElem hi, hie]) a (List.getElem?_eq_getElem hix)
                    refine ⟨fun hk => ?_, fun hk => ?_⟩
                    · have := (y1 hk).symm.trans hv
                      injection this with this
                      exact this.symm
                    · have := (y2 hk).symm.trans hv
                      injection this with this
                      exact this.symm) (by
                    intro n v hm
                    exfalso
                    have hb2 := gtlJoins_built hlaw pl s1 s2 _ bh hb1 (by
                      intro e he b hb
                      have := (hpl.mem (p := e.1) (bs := e.2)).1 he
                      exact on_node (this.1 ▸ hb)) h2
                    have hm1 : Node.ext n ∈ s2.ports := (List.of_mem_zip hm).1
                    have := ((hb2.inv hlaw).rep.ports_perm.mem_iff).1 hm1
                    have := (mem_free.1 this).1
                    simp [gNet] at this) h4
                split at h
                · simp at h
                rename_i hports
                push Not at hports
                cases h5 : getS ops s3 f0 (some s3.zbase) fl0 with
                | mk s4 r4 =>
                  simp only [h5] at h
                  cases r4 with
                  | error e => simp at h
                  | ok S =>
                    simp only [Prod.mk.injEq, and_true] at h
                    subst h
                    have hx4 := getS_xpos h5
                    have hpl4 := getS_places hxp h5
                    rw [x1] at hpl4
                    refine ⟨?_, ?_, ?_⟩
                    · have : ∀ {l : List (GBlk K O)} {m n : List (Blk O)}, List.Forall₂ (PlacedAs ops relpos gs X) l m →
                          List.Forall₂ (SamePlace ops) m n → List.Forall₂ (PlacedAs ops relpos gs X) l n := by
                        intro l m n hlm
                        induction hlm generalizing n with
                        | nil => intro h; cases h; exact .nil
                        | cons hgb _ ih =>
                          intro h
                          cases h with
                          | cons hbb ht =>
                            obtain ⟨z1, z2, z3, z4⟩ := hbb
                            exact .cons ⟨z1.trans hgb.name, z2.trans hgb.ports, z4.trans hgb.xpos, fun hk => z3.trans (hgb.known hk),
                              fun hk => z3.trans (hgb.unknown hk)⟩ (ih ht)
                      exact this hplaced hpl4
                    · rw [hx4, x2, hports, List.length_map]
                    · intro k n v hk hv
                      rw [hx4] at hv
                      refine x3 n v ?_
                      rw [hports]
                      refine List.mem_iff_getElem?.2 ⟨k, ?_⟩
                      rw [List.getElem?_zip_eq_some]
                      exact ⟨by rw [List.getElem?_map, hk]; rfl, hv⟩

theorem Reached.known {relpos : List (String × ℚ)} {gs : List (GBlk K O)} {g : GBlk K O} (hg : g ∈ gs) {n : String} (hn : .name n ∈ g.ports) :
    g.Known relpos gs ↔ Reached relpos gs n :=
  ⟨fun ⟨_, hm, hr⟩ => .along hg hm hr hn, fun h => ⟨n, hn, h⟩⟩

/-- **C55**: the positions of the elements.  If the description has a layout, then the object uses it wherever it follows from the given
positions: the `k`th end of the element `g` is at the element's position plus the end's own position in the element.  An element none of
whose ends is reached is put at -10. -/
theorem C55_elements [CharZero K] (hlaw : Lawful ops beh) (hxp : ∀ o f z fl, ops.xpos (ops.getS o f z fl).1 = ops.xpos o)
    {f0 : F} {fl0 : Fl} {portnames : List String} {relpos : List (String × ℚ)}
    {gs : List (GBlk K O)} (hok : GOK gs) {X P : String → ℚ} (hlay : GLayout ops relpos gs X P) {s : St K O F Fl}
    (h : gtlInit ops nan zb f0 fl0 portnames relpos gs = (s, .ok ())) {g : GBlk K O} (hg : g ∈ gs) {k : ℕ} {q : GPort K} {xs : List ℚ} {x : ℚ}
    (hq : g.ports[k]? = some q) (hxs : ops.xpos g.obj = some xs) (hx : xs[k]? = some x) :
    ((∃ n, .name n ∈ g.ports ∧ Reached relpos gs n) → getpos ops s (.blk g.name q.tag) = .ok (X g.name + x)) ∧
    ((¬ ∃ n, .name n ∈ g.ports ∧ Reached relpos gs n) → getpos ops s (.blk g.name q.tag) = .ok (-10 + x)) :=
  getpos_placed hok (gtlInit_places hlaw hxp hok hlay h).1 hg hq hxs hx

/-- **C55**: the positions of the names: all ends with the same reached name are at one place, the one of the layout -/
theorem C55_names [CharZero K] (hlaw : Lawful ops beh) (hxp : ∀ o f z fl, ops.xpos (ops.getS o f z fl).1 = ops.xpos o)
    {f0 : F} {fl0 : Fl} {portnames : List String} {relpos : List (String × ℚ)}
    {gs : List (GBlk K O)} (hok : GOK gs) {X P : String → ℚ} (hlay : GLayout ops relpos gs X P) {s : St K O F Fl}
    (h : gtlInit ops nan zb f0 fl0 portnames relpos gs = (s, .ok ())) {n : String} (hn : Reached relpos gs n) :
    ∀ m ∈ gEnds gs n, getpos ops s m = .ok (P n) := by
  intro m hm
  rw [gEnds_eq] at hm
  obtain ⟨b, hb, rfl⟩ := List.mem_map.1 hm
  obtain ⟨g, hg, rfl, hp⟩ := mem_gOn.1 hb
  obtain ⟨i, hi, hie⟩ := List.mem_iff_getElem.1 hp
  obtain ⟨xs, a, bl, c⟩ := hlay.elements g hg
  have hix : i < xs.length := by omega
  have hq : g.ports[i]? = some (GPort.name n) := by rw [List.getElem?_eq_getElem hi, hie]
  have hx := List.getElem?_eq_getElem hix
  rw [c i n _ hq hx]
  exact (C55_elements hlaw hxp hok hlay h hg hq a hx).1 ⟨n, hp, hn⟩

/-- **C55**: the positions reported for the ports: that of the layout if it is reached, otherwise the one that comes from putting the
element at -10 -/
theorem C55_ports [CharZero K] (hlaw : Lawful ops beh) (hxp : ∀ o f z fl, ops.xpos (ops.getS o f z fl).1 = ops.xpos o)
    {f0 : F} {fl0 : Fl} {portnames : List String} {relpos : List (String × ℚ)}
    {gs : List (GBlk K O)} (hok : GOK gs) {X P : String → ℚ} (hlay : GLayout ops relpos gs X P) {s : St K O F Fl}
    (h : gtlInit ops nan zb f0 fl0 portnames relpos gs = (s, .ok ())) :
    s.xpos.length = portnames.length ∧
    ∀ (k : ℕ) n, portnames[k]? = some n →
      (Reached relpos gs n → s.xpos[k]? = some (P n)) ∧
      (¬ Reached relpos gs n → ∃ g ∈ gs, ∃ (i : ℕ) (xs : List ℚ) (x : ℚ), g.ports[i]? = some (.name n) ∧ ops.xpos g.obj = some xs ∧
        xs[i]? = some x ∧ s.xpos[k]? = some (-10 + x)) := by
  obtain ⟨-, h2, h3⟩ := gtlInit_places hlaw hxp hok hlay h
  refine ⟨h2, ?_⟩
  intro k n hk
  have hlt : k < s.xpos.length := by rw [h2]; exact (List.getElem?_eq_some_iff.1 hk).1
  obtain ⟨g, hg, i, xs, x, a1, a2, a3, a4, a5⟩ := h3 k n _ hk (List.getElem?_eq_getElem hlt)
  have hn : .name n ∈ g.ports := List.mem_of_getElem? a1
  rw [List.getElem?_eq_getElem hlt]
  refine ⟨fun hr => ?_, fun hr => ?_⟩
  · rw [a4 ((Reached.known hg hn).2 hr)]
    obtain ⟨xs', b1, -, b3⟩ := hlay.elements g hg
    rw [a2] at b1
    injection b1 with b1
    subst b1
    rw [b3 i n x a1 a3]
  · exact ⟨g, hg, i, xs, x, a1, a2, a3, by rw [a5 fun hc => hr ((Reached.known hg hn).1 hc)]⟩

/-- **C55**: evaluating does not move anything -/
theorem C55_stays (hxp : ∀ o f z fl, ops.xpos (ops.getS o f z fl).1 = ops.xpos o) {s s' : St K O F Fl} {f : F} {z : Option K} {fl : Fl}
    {r : Except Err (SMat K)} (hs : getS ops s f z fl = (s', r)) :
    s'.xpos = s.xpos ∧ ∀ b p, getpos ops s' (.blk b p) = getpos ops s (.blk b p) := by
  refine ⟨getS_xpos hs, fun b p => ?_⟩
  have hf := getS_places hxp hs
  simp only [getpos]
  have : ∀ {l m : List (Blk O)}, List.Forall₂ (SamePlace ops) l m →
      (l.find? (fun x => x.name = b) = none ∧ m.find? (fun x => x.name = b) = none) ∨
      ∃ u v, l.find? (fun x => x.name = b) = some u ∧ m.find? (fun x => x.name = b) = some v ∧ SamePlace ops u v := by
    intro l m hlm
    induction hlm with
    | nil => exact Or.inl ⟨rfl, rfl⟩
    | @cons u v l m huv _ ih =>
      by_cases hb : u.name = b
      · right
        refine ⟨u, v, ?_, ?_, huv⟩
        · rw [List.find?_cons_of_pos (by simpa using hb)]
        · rw [List.find?_cons_of_pos (by simpa [huv.1] using hb)]
      · rw [List.find?_cons_of_neg (by simpa using hb), List.find?_cons_of_neg (by simpa [huv.1] using hb)]
        exact ih
  rcases this hf with ⟨h1, h2⟩ | ⟨u, v, h1, h2, h3, h4, h5, h6⟩
  · rw [h1, h2]
  · rw [h1, h2]; simp only [h4, h5, h6]

theorem gtlBlocks_pos {ops : ObjOps K O F Fl} {nan : K} : ∀ (gs : List (GBlk K O)) (s s' : St K O F Fl) (pl pl' : List (String × List String))
    (pos pos' : List (String × ℚ)), gtlBlocks ops nan gs s pl pos = (s', .ok (pl', pos')) →
    ∀ p, (p ∈ pos.map Prod.fst ∨ ∃ g ∈ gs, ∃ v, Starts g p v) → p ∈ pos'.map Prod.fst
  | [], s, s', pl, pl', pos, pos', h, p, hp => by
    simp only [gtlBlocks, Prod.mk.injEq, Except.ok.injEq] at h
    obtain ⟨rfl, rfl, rfl⟩ := h
    rcases hp with h | ⟨g, hg, -⟩
    · exact h
    · cases hg
  | g :: gs, s, s', pl, pl', pos, pos', h, p, hp => by
    unfold gtlBlocks at h
    cases hp1 : notePos g pos with
    | error e => simp [hp1] at h
    | ok pos1 =>
      simp only [hp1] at h
      obtain ⟨n1, -⟩ := notePos_spec hp1
      have hp' : p ∈ pos1.map Prod.fst ∨ ∃ g ∈ gs, ∃ v, Starts g p v := by
        rcases hp with h | ⟨g', hg', v, hv⟩
        · exact Or.inl ((n1 p).2 (Or.inl h))
        · rcases List.mem_cons.1 hg' with rfl | hg'
          · exact Or.inl ((n1 p).2 (Or.inr ⟨v, hv⟩))
          · exact Or.inr ⟨g', hg', v, hv⟩
      repeat' split at h
      all_goals first | exact gtlBlocks_pos gs _ _ _ _ _ _ h p hp' | simp at h

/-- **C55** (a limit): a position cannot be given to an element whose first end is terminated; the constructor fails (`KeyError`) -/
theorem C55_terminated_start [CharZero K] (hlaw : Lawful ops beh) {f0 : F} {fl0 : Fl} {portnames : List String} {relpos : List (String × ℚ)}
    {gs : List (GBlk K O)} (hok : GOK gs) {g : GBlk K O} (hg : g ∈ gs) (hx : g.xpos ≠ none) {q : GPort K} (hq : g.ports.head? = some q)
    (ht : ∀ n, q ≠ .name n) : (gtlInit ops nan zb f0 fl0 portnames relpos gs).2 ≠ .ok () := by
  intro hr
  have h : gtlInit ops nan zb f0 fl0 portnames relpos gs = ((gtlInit ops nan zb f0 fl0 portnames relpos gs).1, .ok ()) := Prod.ext rfl hr
  generalize (gtlInit ops nan zb f0 fl0 portnames relpos gs).1 = s at h
  obtain ⟨v, hv⟩ := Option.ne_none_iff_exists'.1 hx
  have htag : q.tag ∈ gtlTags := by
    by_contra hc
    exact ht _ (tag_name rfl hc)
  unfold gtlInit at h
  simp only at h
  split at h
  · simp at h
  cases h1 : gtlBlocks ops nan gs (St.init zb (portnames.map .ext)) [] relpos with
  | mk s1 r1 =>
    simp only [h1] at h
    cases r1 with
    | error e => simp at h
    | ok x =>
      obtain ⟨pl, pos⟩ := x
      have hpl0 : PL ([] : List (GBlk K O)) [] := ⟨by simp, fun p => by simp [dictGet, gOn], fun p bs hp => by simp [dictGet] at hp⟩
      obtain ⟨bh, hb1, hpl, hbh⟩ := gtlBlocks_built (beh := beh) (zb := zb) (names := portnames.map .ext) hlaw gs [] _ s1 [] pl relpos pos
        (fun _ _ _ _ => .error .valueError) (Built.init _) hpl0 hok (by simp) h1
      rw [List.nil_append] at hpl
      have hk := gtlBlocks_pos gs _ _ _ _ _ _ h1 q.tag (Or.inr ⟨g, hg, v, hv, q, hq, rfl⟩)
      have hnone : dictGet q.tag pl = none := by
        cases hd : dictGet q.tag pl with
        | none => rfl
        | some ns =>
          exfalso
          have hgt := hpl.get q.tag
          rw [hd] at hgt
          simp only [Option.getD_some] at hgt
          obtain ⟨n, hn⟩ := List.exists_mem_of_ne_nil ns (hpl.ne _ ns hd)
          obtain ⟨g', hg', -, hp'⟩ := mem_gOn.1 (hgt ▸ hn)
          exact hok.plain g' hg' _ hp' htag
      simp only at h
      cases h2 : gtlJoins ops pl s1 with
      | mk s2 r2 =>
        simp only [h2] at h
        cases r2 with
        | error e => simp at h
        | ok u =>
          simp only at h
          split at h
          · simp at h
          have hfail : ∀ (pos : List (String × ℚ)) (bs bs' : List (Blk O)), q.tag ∈ pos.map Prod.fst → placeFirst ops pl pos bs ≠ .ok bs' := by
            intro pos
            induction pos with
            | nil => intro _ _ h; cases h
            | cons e pos ih =>
              intro bs bs' hm hrun
              unfold placeFirst foldErr at hrun
              rw [List.map_cons, List.mem_cons] at hm
              rcases hm with hm | hm
              · simp [← hm, hnone] at hrun
              · repeat' split at hrun
                all_goals first | exact ih _ _ hm hrun | simp at hrun
          cases h3 : place ops pl pos s2.blocks with
          | error e => simp [h3] at h
          | ok bs =>
            unfold place at h3
            split at h3
            · simp at h3
            · rename_i b1 hb
              exact hfail _ _ _ hk hb

/-- **C55**: a position given for a name that is not a declared port is refused -/
theorem C55_unknown_port (ops : ObjOps K O F Fl) (nan zb : K) (f0 : F) (fl0 : Fl) {portnames : List String} {relpos : List (String × ℚ)}
    (gs : List (GBlk K O)) {n : String} {x : ℚ} (h : (n, x) ∈ relpos) (hn : n ∉ portnames) :
    (gtlInit ops nan zb f0 fl0 portnames relpos gs).2 = .error .valueError := by
  unfold gtlInit
  rw [if_pos ⟨_, h, hn⟩]

end
end PyRFtk.Circuit

namespace PyRFtk.Circuit.Ex

/-- the layout of the example: `A` from 0 to 1, `B` from 1 to 2 -/
theorem C55_witness : GLayout o [] [gA, gB] (fun n => if n = "A" then 0 else 1) (fun n => if n = "in" then 0 else 1) ∧
    (∀ o' f z fl, o.xpos (o.getS o' f z fl).1 = o.xpos o') ∧ Reached [] [gA, gB] "in" ∧ Reached [] [gA, gB] "T" := by
  have hin : Reached [] [gA, gB] "in" := .start (g := gA) (by simp) rfl rfl
  refine ⟨⟨?_, by simp, ?_⟩, fun _ _ _ _ => rfl, hin, ?_⟩
  · intro g hg
    simp only [List.mem_cons, List.not_mem_nil, or_false] at hg
    rcases hg with rfl | rfl
    · refine ⟨[0, 1], rfl, rfl, ?_⟩
      intro k n x hk hx
      match k, hk, hx with
      | 0, hk, hx => cases hk; cases hx; simp [gA]
      | 1, hk, hx => cases hk; cases hx; simp [gA]
    · refine ⟨[0, 1], rfl, rfl, ?_⟩
      intro k n x hk hx
      match k, hk, hx with
      | 0, hk, hx => cases hk; cases hx; simp [gB]
      | 1, hk, hx => cases hk
  · intro g hg v n hv hn
    simp only [List.mem_cons, List.not_mem_nil, or_false] at hg
    rcases hg with rfl | rfl
    · cases hv; cases hn; simp
    · cases hv
  · exact .along (g := gA) (p := "in") (by simp) (by simp [gA]) hin (by simp [gA])

end PyRFtk.Circuit.Ex
