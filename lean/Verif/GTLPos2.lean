import Verif.GTLPos

/-!
# Positions in an `rfGTL` object: the property (C55)
-/

set_option linter.unusedSectionVars false

namespace PyRFtk.Circuit

section
variable {K O F Fl : Type*} [Field K] [DecidableEq F] [DecidableEq Fl]
variable {ops : ObjOps K O F Fl} {beh : O → F → K → Fl → Except Err (SMat K)} {nan zb : K}
variable {s s' : St K O F Fl}

/-! ## specification -/

/-- **A layout of the description**: elements at `X`, names at `P`, such that every end of an element is at the position of the element
plus its own, and the given positions are respected (`relpos` of the object for names; `relpos` of an element for its first end). -/
structure GLayout (ops : ObjOps K O F Fl) (relpos : List (String × ℚ)) (gs : List (GBlk K O)) (X P : String → ℚ) : Prop where
  elements : ∀ g ∈ gs, ∃ xs, ops.xpos g.obj = some xs ∧ xs.length = g.ports.length ∧
    ∀ (k : ℕ) n x, g.ports[k]? = some (GPort.name n) → xs[k]? = some x → P n = X g.name + x
  given : ∀ e ∈ relpos, e.2 = P e.1
  starts : ∀ g ∈ gs, ∀ v n, g.xpos = some v → g.ports.head? = some (GPort.name n) → v = P n

/-- names whose position follows from the given ones -/
inductive Reached (relpos : List (String × ℚ)) (gs : List (GBlk K O)) : String → Prop
  | given {p} : p ∈ relpos.map Prod.fst → Reached relpos gs p
  | start {g v p} : g ∈ gs → g.xpos = some v → g.ports.head? = some (GPort.name p) → Reached relpos gs p
  | along {g p q} : g ∈ gs → GPort.name p ∈ g.ports → Reached relpos gs p → GPort.name q ∈ g.ports → Reached relpos gs q

/-! ## what the steps of the constructor do to blocks and positions -/

theorem terminate_keeps {p : Node} {args : TermArgs K} (h : terminate s p args = (s', .ok ())) : s'.blocks = s.blocks := by
  unfold terminate at h
  simp only at h
  cases h1 : termRho s.zbase args with
  | error e => simp [h1] at h
  | ok rho =>
    simp only [h1] at h
    repeat' split at h
    all_goals first | (simp only [Prod.mk.injEq, and_true] at h; rw [← h]) | simp at h

theorem pop_both {p : Node} {ports : List Node} {xpos xs : List ℚ} {kp : ℕ} (hx : xpos.length = ports.length)
    (h1 : pyIndex ports p = .ok kp) (h2 : pyPop xpos kp = .ok xs) :
    xs.length = (ports.eraseIdx kp).length ∧ ∀ e ∈ (ports.eraseIdx kp).zip xs, e ∈ ports.zip xpos := by
  unfold pyIndex at h1
  split at h1
  · rename_i hm
    injection h1 with h1
    subst h1
    have hlt : idx ports p < ports.length := idx_lt_of_mem hm
    unfold pyPop at h2
    rw [if_pos (by omega)] at h2
    injection h2 with h2
    subst h2
    refine ⟨?_, ?_⟩
    · rw [List.length_eraseIdx_of_lt hlt, List.length_eraseIdx_of_lt (by omega)]
      omega
    · intro e he
      have : (ports.eraseIdx (idx ports p)).zip (xpos.eraseIdx (idx ports p)) = (ports.zip xpos).eraseIdx (idx ports p) := by
        generalize idx ports p = k
        clear hm hlt he
        induction ports generalizing xpos k with
        | nil => simp
        | cons a l ih =>
          cases xpos with
          | nil => simp at hx
          | cons y ys =>
            cases k with
            | zero => simp
            | succ k => simp only [List.eraseIdx_cons_succ, List.zip_cons_cons]; rw [ih (by simpa using hx)]
      rw [this] at he
      exact List.mem_of_mem_eraseIdx he
  · cases h1

theorem terminate_len {p : Node} {args : TermArgs K} (hx : s.xpos.length = s.ports.length)
    (h : terminate s p args = (s', .ok ())) : s'.xpos.length = s'.ports.length := by
  unfold terminate at h
  simp only at h
  cases h1 : termRho s.zbase args with
  | error e => simp [h1] at h
  | ok rho =>
    simp only [h1] at h
    cases h2 : dictGet p s.T with
    | some t =>
      simp only [h2, Prod.mk.injEq, and_true] at h
      rw [← h]; exact hx
    | none =>
      simp only [h2] at h
      cases h3 : dictGet p s.E with
      | some e =>
        simp only [h3] at h
        split at h
        · simp at h
        · cases h4 : pyIndex s.ports p with
          | error e => simp [h4] at h
          | ok kp =>
            simp only [h4] at h
            cases h5 : pyPop s.xpos kp with
            | error e => simp [h5] at h
            | ok xs =>
              simp only [h5, Prod.mk.injEq, and_true] at h
              rw [← h]; exact (pop_both hx h4 h5).1
      | none =>
        simp only [h3] at h
        cases h4 : pyIndex s.ports p with
        | error e => simp [h4] at h
        | ok kp =>
          simp only [h4] at h
          cases h5 : pyPop s.xpos kp with
          | error e => simp [h5] at h
          | ok xs =>
            simp only [h5] at h
            split at h
            · simp at h
            · simp only [Prod.mk.injEq, and_true] at h
              rw [← h]; exact (pop_both hx h4 h5).1

theorem consume_keeps {new : List Node} : ∀ {ps : List Node} {s s' : St K O F Fl}, s.xpos.length = s.ports.length →
    consume new ps s = (s', .ok ()) → s'.xpos.length = s'.ports.length ∧ (∀ e ∈ s'.ports.zip s'.xpos, e ∈ s.ports.zip s.xpos) ∧
      s'.blocks = s.blocks
  | [], s, s', hx, h => by
    simp only [consume, Prod.mk.injEq, and_true] at h
    subst h
    exact ⟨hx, fun _ h => h, rfl⟩
  | p :: ps, s, s', hx, h => by
    unfold consume at h
    by_cases hp : p ∈ new
    · rw [if_pos hp] at h
      exact consume_keeps hx h
    · rw [if_neg hp] at h
      cases h4 : pyIndex s.ports p with
      | error e => simp [h4] at h
      | ok kp =>
        simp only [h4] at h
        cases h5 : pyPop s.xpos kp with
        | error e => simp [h5] at h
        | ok xs =>
          simp only [h5] at h
          obtain ⟨a1, a2⟩ := pop_both hx h4 h5
          obtain ⟨b1, b2, b3⟩ := consume_keeps (s := { s with ports := s.ports.eraseIdx kp, xpos := xs }) a1 h
          exact ⟨b1, fun e he => a2 e (b2 e he), b3⟩

theorem connectTail_keeps {new ps : List Node} (hx : s.xpos.length = s.ports.length) (h : connectTail new ps s = (s', .ok ())) :
    s'.xpos.length = s'.ports.length ∧ (∀ e ∈ s'.ports.zip s'.xpos, e ∈ s.ports.zip s.xpos) ∧ s'.blocks = s.blocks := by
  unfold connectTail at h
  split at h
  · simp at h
  · simp at h
  · cases h3 : consume new ps s with
    | mk s1 r =>
      cases r with
      | error e => simp [h3] at h
      | ok u =>
        simp only [h3, Prod.mk.injEq, and_true] at h
        have := consume_keeps hx h3
        rw [← h]
        exact this

/-- `connect`: blocks stay; a new port comes with the position of the first old one -/
theorem connect_keeps {ps : List Node} (hx : s.xpos.length = s.ports.length) (h : connect ops s ps = (s', .ok ())) :
    s'.xpos.length = s'.ports.length ∧ s'.blocks = s.blocks ∧
    ∀ e ∈ s'.ports.zip s'.xpos, e ∈ s.ports.zip s.xpos ∨
      ∃ n o, e.1 = .ext n ∧ ps.filter (fun p => decide ((Dir.inn, p) ∉ s.waves)) = [.ext n] ∧ (ps.filter fun p => (Dir.inn, p) ∈ s.waves).head? = some o ∧
        ∀ b p, o = .blk b p → getpos ops s o = .ok e.2 := by
  unfold connect at h
  match hn : ps.filter (fun p => decide ((Dir.inn, p) ∉ s.waves)) with
  | [] =>
    simp only [hn] at h
    obtain ⟨a, b, c⟩ := connectTail_keeps hx h
    exact ⟨a, c, fun e he => Or.inl (b e he)⟩
  | [.blk _ _] => simp only [hn] at h; cases h
  | _ :: _ :: _ => simp only [hn] at h; cases h
  | [.ext n] =>
    simp only [hn] at h
    split at h
    · simp at h
    · rename_i old o l ho
      split at h
      · simp at h
      · rename_i x hg
        obtain ⟨a, b, c⟩ := connectTail_keeps (by simp [hx]) h
        refine ⟨a, c, fun e he => ?_⟩
        have := b e he
        simp only at this
        rw [List.zip_append hx.symm] at this
        rw [List.mem_append] at this
        rcases this with h1 | h1
        · exact Or.inl h1
        · simp only [List.zip_cons_cons, List.zip_nil_right, List.mem_singleton] at h1
          subst h1
          refine Or.inr ⟨n, o, rfl, rfl, ?_, ?_⟩
          · rw [ho]; rfl
          · rintro b p rfl
            exact hg

/-- the block of an element before the placing -/
def OfElem (g : GBlk K O) (b : Blk O) : Prop :=
  b.name = g.name ∧ b.ports = g.ports.map GPort.tag ∧ b.obj = g.obj ∧ b.relpos = g.xpos.getD (-10)

/-- the position an element gives to its first end -/
def Starts (g : GBlk K O) (p : String) (v : ℚ) : Prop := g.xpos = some v ∧ ∃ q, g.ports.head? = some q ∧ q.tag = p

theorem notePos_spec {g : GBlk K O} {pos pos' : List (String × ℚ)} (h : notePos g pos = .ok pos') :
    (∀ p, p ∈ pos'.map Prod.fst ↔ p ∈ pos.map Prod.fst ∨ ∃ v, Starts g p v) ∧
    ∀ p v, dictGet p pos' = some v → dictGet p pos = some v ∨ Starts g p v := by
  unfold notePos at h
  cases hx : g.xpos with
  | none =>
    simp only [hx, Except.ok.injEq] at h
    subst h
    refine ⟨fun p => ⟨Or.inl, ?_⟩, fun p v h => Or.inl h⟩
    rintro (h | ⟨v, hv, -⟩)
    · exact h
    · rw [hx] at hv; cases hv
  | some x =>
    cases hp : g.ports with
    | nil => simp [hx, hp] at h
    | cons q l =>
      simp only [hx, hp, Except.ok.injEq] at h
      subst h
      have hs : Starts g q.tag x := ⟨hx, q, by rw [hp]; rfl, rfl⟩
      refine ⟨fun p => ?_, fun p v hv => ?_⟩
      · have h1 : ∀ d : List (String × ℚ), p ∈ d.map Prod.fst ↔ dictGet p d ≠ none := fun d => by
          rw [Ne, dictGet_none, not_not]
        rw [h1, h1, dictGet_dictSet]
        constructor
        · intro h
          split at h
          · rename_i he; rw [he]; exact Or.inr ⟨x, hs⟩
          · exact Or.inl h
        · rintro (h | ⟨v, -, q', hq', rfl⟩)
          · split
            · simp
            · exact h
          · rw [hp] at hq'
            simp only [List.head?_cons, Option.some.injEq] at hq'
            subst hq'
            simp
      · rw [dictGet_dictSet] at hv
        split at hv
        · rename_i he
          injection hv with hv
          rw [he, ← hv]; exact Or.inr hs
        · exact Or.inl hv

theorem addblock_keeps {name : String} {obj : O} {l : List String} {x : ℚ} {xs : List ℚ}
    (hn : s.blocks.find? (fun b => b.name = name) = none) (hxs : ops.xpos obj = some xs) (hl : xs.length = l.length)
    (h : addblock ops nan s name obj (.list l) x = (s', .ok ())) :
    s'.blocks = s.blocks ++ [⟨name, l, (s.rows.length, s.cols), obj, x⟩] ∧
      (s.xpos.length = s.ports.length → s'.xpos.length = s'.ports.length) := by
  unfold addblock at h
  simp only [hn] at h
  cases hr : resolvePorts ops obj (.list l) with
  | error e => simp [hr] at h
  | ok p =>
    have := resolvePorts_list hr
    subst this
    simp only [hr, Prod.mk.injEq, and_true] at h
    rw [← h]
    refine ⟨rfl, fun hx => ?_⟩
    simp [blockXpos, hxs, hx, hl]

theorem gtlBlocks_keeps : ∀ (gs : List (GBlk K O)) (s s' : St K O F Fl) (pl pl' : List (String × List String))
    (pos pos' : List (String × ℚ)), (gs.map GBlk.name).Nodup → (∀ g ∈ gs, g.name ∉ s.blocks.map Blk.name) →
    (∀ g ∈ gs, ∃ xs, ops.xpos g.obj = some xs ∧ xs.length = g.ports.length) → s.xpos.length = s.ports.length →
    gtlBlocks ops nan gs s pl pos = (s', .ok (pl', pos')) →
    (∃ L, s'.blocks = s.blocks ++ L ∧ List.Forall₂ OfElem gs L) ∧ s'.xpos.length = s'.ports.length ∧
    (∀ p, p ∈ pos'.map Prod.fst ↔ p ∈ pos.map Prod.fst ∨ ∃ g ∈ gs, ∃ v, Starts g p v) ∧
    ∀ p v, dictGet p pos' = some v → dictGet p pos = some v ∨ ∃ g ∈ gs, Starts g p v
  | [], s, s', pl, pl', pos, pos', _, _, _, hx, h => by
    simp only [gtlBlocks, Prod.mk.injEq, Except.ok.injEq] at h
    obtain ⟨rfl, rfl, rfl⟩ := h
    exact ⟨⟨[], by simp, .nil⟩, hx, by simp, fun p v h => Or.inl h⟩
  | g :: gs, s, s', pl, pl', pos, pos', hnd, hnew, hxs, hx, h => by
    unfold gtlBlocks at h
    cases hp : notePos g pos with
    | error e => simp [hp] at h
    | ok pos1 =>
      simp only [hp] at h
      obtain ⟨n1, n2⟩ := notePos_spec hp
      cases ha : addblock ops nan s g.name g.obj (.list (g.ports.map GPort.tag)) (g.xpos.getD (-10)) with
      | mk s1 r1 =>
        simp only [ha] at h
        cases r1 with
        | error e => simp at h
        | ok u =>
          have hfind : s.blocks.find? (fun b => b.name = g.name) = none := by
            rw [List.find?_eq_none]
            intro b hbm hbn
            simp only [decide_eq_true_eq] at hbn
            exact hnew g List.mem_cons_self (hbn ▸ List.mem_map_of_mem hbm)
          obtain ⟨xs, hxs1, hxs2⟩ := hxs g List.mem_cons_self
          obtain ⟨a1, a2⟩ := addblock_keeps hfind hxs1 (by rw [hxs2, List.length_map]) ha
          rw [List.map_cons, List.nodup_cons] at hnd
          have rest : ∀ s2 : St K O F Fl, s2.blocks = s1.blocks → s2.xpos.length = s2.ports.length →
              gtlBlocks ops nan gs s2 (noteBlk g pl) pos1 = (s', .ok (pl', pos')) →
              (∃ L, s'.blocks = s.blocks ++ L ∧ List.Forall₂ OfElem (g :: gs) L) ∧ s'.xpos.length = s'.ports.length ∧
              (∀ p, p ∈ pos'.map Prod.fst ↔ p ∈ pos.map Prod.fst ∨ ∃ g' ∈ g :: gs, ∃ v, Starts g' p v) ∧
              ∀ p v, dictGet p pos' = some v → dictGet p pos = some v ∨ ∃ g' ∈ g :: gs, Starts g' p v := by
            intro s2 hs2 hx2 hrun
            obtain ⟨⟨L, l1, l2⟩, k2, k3, k4⟩ := gtlBlocks_keeps gs s2 s' _ pl' pos1 pos' hnd.2 (by
              intro g' hg' hc
              rw [hs2, a1, List.map_append, List.mem_append] at hc
              rcases hc with hc | hc
              · exact hnew g' (List.mem_cons_of_mem _ hg') hc
              · simp only [List.map_cons, List.map_nil, List.mem_singleton] at hc
                exact hnd.1 (hc ▸ List.mem_map_of_mem hg'))
              (fun g' hg' => hxs g' (List.mem_cons_of_mem _ hg')) hx2 hrun
            refine ⟨⟨⟨g.name, g.ports.map GPort.tag, (s.rows.length, s.cols), g.obj, g.xpos.getD (-10)⟩ :: L, ?_, .cons ?_ l2⟩, k2, ?_, ?_⟩
            · rw [l1, hs2, a1]; simp
            · exact ⟨rfl, rfl, rfl, rfl⟩
            · intro p
              rw [k3, n1]
              constructor
              · rintro ((h | ⟨v, hv⟩) | ⟨g', hg', v, hv⟩)
                · exact Or.inl h
                · exact Or.inr ⟨g, List.mem_cons_self, v, hv⟩
                · exact Or.inr ⟨g', List.mem_cons_of_mem _ hg', v, hv⟩
              · rintro (h | ⟨g', hg', v, hv⟩)
                · exact Or.inl (Or.inl h)
                · rcases List.mem_cons.1 hg' with rfl | hg'
                  · exact Or.inl (Or.inr ⟨v, hv⟩)
                  · exact Or.inr ⟨g', hg', v, hv⟩
            · intro p v hv
              rcases k4 p v hv with h | ⟨g', hg', h⟩
              · rcases n2 p v h with h | h
                · exact Or.inl h
                · exact Or.inr ⟨g, List.mem_cons_self, h⟩
              · exact Or.inr ⟨g', List.mem_cons_of_mem _ hg', h⟩
          simp only at h
          cases hl : lastTerm g.ports with
          | none =>
            simp only [hl] at h
            exact rest s1 rfl (a2 hx) h
          | some at' =>
            obtain ⟨a, t⟩ := at'
            simp only [hl] at h
            cases htm : terminate s1 (.blk g.name t) a with
            | mk s2 r2 =>
              simp only [htm] at h
              cases r2 with
              | error e => simp at h
              | ok u2 => exact rest s2 (terminate_keeps htm) (terminate_len (a2 hx) htm) h

theorem gtlJoins_keeps : ∀ (pl : List (String × List String)) (s s' : St K O F Fl), s.xpos.length = s.ports.length →
    gtlJoins ops pl s = (s', .ok ()) → s'.blocks = s.blocks ∧ s'.xpos.length = s'.ports.length
  | [], s, s', hx, h => by
    simp only [gtlJoins, Prod.mk.injEq, and_true] at h
    subst h
    exact ⟨rfl, hx⟩
  | e :: pl, s, s', hx, h => by
    unfold gtlJoins at h
    split at h
    · cases hc : connect ops s (e.2.map fun b => .blk b e.1) with
      | mk s1 r1 =>
        simp only [hc] at h
        cases r1 with
        | error e => simp at h
        | ok u =>
          simp only at h
          obtain ⟨c1, c2, -⟩ := connect_keeps hx hc
          obtain ⟨k1, k2⟩ := gtlJoins_keeps pl s1 s' c1 h
          exact ⟨k1.trans c2, k2⟩
    · exact gtlJoins_keeps pl s s' hx h

/-- `getpos` of a block's port depends on the blocks only -/
theorem getpos_blocks {t : St K O F Fl} (h : t.blocks = s.blocks) (b p : String) : getpos ops t (.blk b p) = getpos ops s (.blk b p) := by
  simp only [getpos, h]

theorem gtlExts_keeps (pl : List (String × List String)) (Q : String → ℚ → Prop) : ∀ (ps : List String) (s s' : St K O F Fl),
    s.xpos.length = s.ports.length → (∀ p ∈ ps, ∀ b, dictGet p pl = some [b] → ∀ v, getpos ops s (.blk b p) = .ok v → Q p v) →
    (∀ n v, (Node.ext n, v) ∈ s.ports.zip s.xpos → Q n v) →
    gtlExts ops pl ps s = (s', .ok ()) →
    s'.blocks = s.blocks ∧ s'.xpos.length = s'.ports.length ∧ ∀ n v, (Node.ext n, v) ∈ s'.ports.zip s'.xpos → Q n v
  | [], s, s', hx, _, hq, h => by
    simp only [gtlExts, Prod.mk.injEq, and_true] at h
    subst h
    exact ⟨rfl, hx, hq⟩
  | p :: ps, s, s', hx, hg, hq, h => by
    unfold gtlExts at h
    split at h
    · rename_i b hd
      cases hc : connect ops s [.blk b p, .ext p] with
      | mk s1 r1 =>
        simp only [hc] at h
        cases r1 with
        | error e => simp at h
        | ok u =>
          simp only at h
          obtain ⟨c1, c2, c3⟩ := connect_keeps hx hc
          obtain ⟨k1, k2, k3⟩ := gtlExts_keeps pl Q ps s1 s' c1
            (fun q hq' b' hd' v hv => hg q (List.mem_cons_of_mem _ hq') b' hd' v (by rw [← getpos_blocks c2]; exact hv))
            (by
              intro n v hm
              rcases c3 _ hm with h1 | ⟨n', o, e1, e0, e2, e3⟩
              · exact hq n v h1
              · simp only [Node.ext.injEq] at e1
                subst e1
                have hwb : (Dir.inn, Node.blk b p) ∈ s.waves := by
                  by_contra hc
                  rw [List.filter_cons_of_pos (by simpa using hc)] at e0
                  simp at e0
                have : o = .blk b p := by
                  rw [List.filter_cons_of_pos (by simpa using hwb)] at e2
                  simpa using e2.symm
                subst this
                have hn : n = p := by
                  have : Node.ext n ∈ [Node.blk b p, .ext p].filter (fun p => decide ((Dir.inn, p) ∉ s.waves)) := by rw [e0]; simp
                  have := (List.mem_filter.1 this).1
                  simpa using this
                subst hn
                exact hg n List.mem_cons_self b hd v (e3 b n rfl)) h
          exact ⟨k1.trans c2, k2, k3⟩
    · simp at h

end
end PyRFtk.Circuit
