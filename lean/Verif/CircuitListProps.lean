import Verif.CircuitListFrame

/-!
# The listing of a circuit: what it shows of the equations
-/

set_option linter.unusedSectionVars false

namespace PyRFtk.Circuit

section
variable {K O F Fl : Type*} [Field K] [DecidableEq F] [DecidableEq Fl]
variable {ops : ObjOps K O F Fl} {beh : O → F → K → Fl → Except Err (SMat K)} {nan zb : K} {names : List Node}
variable {net : Net K} {bh : Behave K F Fl} {s s' : St K O F Fl} {ph : Phase} {C C' : CDict}

/-! ## rows of a junction -/

theorem foldl_setCol_notMem (v : ℕ × ℕ → K) : ∀ (l : List (ℕ × ℕ)) (r : ℕ → K) (j : ℕ), (∀ x ∈ l, x.1 ≠ j) →
    (l.foldl (fun r b => setCol r b.1 (v b)) r) j = r j
  | [], r, j, _ => rfl
  | x :: l, r, j, h => by
    rw [List.foldl_cons, foldl_setCol_notMem v l _ j fun y hy => h y (List.mem_cons_of_mem _ hy)]
    exact setCol_ne (h x List.mem_cons_self).symm

theorem foldl_setCol_mem (v : ℕ × ℕ → K) : ∀ (l : List (ℕ × ℕ)) (r : ℕ → K) (x : ℕ × ℕ), (l.map Prod.fst).Nodup → x ∈ l →
    (l.foldl (fun r b => setCol r b.1 (v b)) r) x.1 = v x
  | [], r, x, _, h => by simp at h
  | y :: l, r, x, hnd, h => by
    rw [List.foldl_cons]
    simp only [List.map_cons, List.nodup_cons] at hnd
    rcases List.mem_cons.1 h with rfl | h
    · rw [foldl_setCol_notMem v l _ _ fun z hz hc => hnd.1 (by rw [← hc]; exact List.mem_map_of_mem hz)]
      exact setCol_self
    · exact foldl_setCol_mem v l _ x hnd.2 h

theorem junctionRow_off {N kr a : ℕ} {bs : List ℕ} {j : ℕ} (ha : j ≠ a) (hb : j ∉ bs) : (junctionRow N kr a bs : ℕ → K) j = 0 := by
  unfold junctionRow
  rw [foldl_setCol_notMem (fun b => (2 : K) / (N : K) - if b.2 = kr then 1 else 0), setCol_ne ha]
  · rfl
  · rintro ⟨b, m⟩ hx hc
    have := List.mem_zipIdx hx
    simp only at hc
    subst hc
    exact hb (by rw [this.2.2]; exact List.getElem_mem _)

theorem junctionRow_on {N kr a : ℕ} {bs : List ℕ} {m j : ℕ} (hnd : bs.Nodup) (hm : bs[m]? = some j) (hne : m ≠ kr) :
    (junctionRow N kr a bs : ℕ → K) j = (2 : K) / (N : K) := by
  unfold junctionRow
  have h := foldl_setCol_mem (fun b => (2 : K) / (N : K) - if b.2 = kr then 1 else 0) bs.zipIdx (setCol zeroRow a (-1)) (j, m)
    (by simpa using hnd) (by rw [List.mem_zipIdx_iff_getElem?]; exact hm)
  rw [h, if_neg hne, sub_zero]

theorem junctionRows_get {waves : List Wave} {new ps : List Node} {i : ℕ} {p : Node} (h : ps[i]? = some p) :
    (junctionRows K waves new ps)[i]? =
      some (junctionRow ps.length i (idx waves (waveA new p)) (ps.map fun q => idx waves (waveB new q))) := by
  unfold junctionRows
  simp [List.getElem?_zipIdx, h]

/-! ## connect, in one piece -/

/-- what a successful `connect` does to the equations -/
structure Connected (s s' : St K O F Fl) (ps new : List Node) : Prop where
  waves : ∃ ws, s'.waves = s.waves ++ ws
  eqns : s'.eqns = s.eqns ++ ps.map .C
  rows : s'.rows = s.rows.map (padRow s.cols) ++ junctionRows K s'.waves new ps
  nodup : ps.Nodup
  old : ∀ p ∈ ps, p ∉ new → p ∈ s.ports
  memA : ∀ p ∈ ps, waveA new p ∈ s'.waves
  memB : ∀ p ∈ ps, waveB new p ∈ s'.waves
  one : ∀ p ∈ ps, p ∈ new → ∃ o ∈ ps, o ∉ new

theorem connected (hr : Rep ops net s) {ps : List Node} (hs : connect ops s ps = (s', .ok ())) :
    Connected s s' ps (ps.filter fun p => (Dir.inn, p) ∉ s.waves) := by
  unfold connect at hs
  match hn : ps.filter (fun p => decide ((Dir.inn, p) ∉ s.waves)) with
  | _ :: _ :: _ => rw [hn] at hs; simp at hs
  | [.blk _ _] => rw [hn] at hs; simp at hs
  | [] =>
    simp only [hn] at hs
    obtain ⟨⟨xs, rfl⟩, hc1, hc2, hA, hB⟩ := connectTail_ok hr.rep.pnd hs
    have hf : ps.filter (· ∉ ([] : List Node)) = ps := by simp
    rw [hf] at hc1 hc2
    exact ⟨⟨[], by simp⟩, rfl, rfl, hc1, fun p hp _ => hc2 p hp, hA, hB, by simp⟩
  | [.ext n] =>
    simp only [hn] at hs
    have hnw : (Dir.inn, Node.ext n) ∉ s.waves := by
      have : Node.ext n ∈ ps.filter (fun p => decide ((Dir.inn, p) ∉ s.waves)) := by rw [hn]; simp
      simpa using (List.mem_filter.1 this).2
    split at hs
    · simp at hs
    · rename_i o os ho
      split at hs
      · simp at hs
      · rename_i x hx
        have hnn : Node.ext n ∉ s.ports := fun hc => hnw ((hr.rep.wmem .inn _).2 ((hr.rep.pmem _).1 hc).1)
        have hpnd : (s.ports ++ [Node.ext n]).Nodup := by
          rw [List.nodup_append]
          refine ⟨hr.rep.pnd, by simp, ?_⟩
          rintro a ha b hb rfl
          simp only [List.mem_singleton] at hb; subst hb; exact hnn ha
        obtain ⟨⟨xs, rfl⟩, hc1, hc2, hA, hB⟩ := connectTail_ok (s := { s with waves := _, ports := _, xpos := _ }) hpnd hs
        have hcnt : ps.count (Node.ext n) = 1 := by
          have h1 : (ps.filter (fun p => decide ((Dir.inn, p) ∉ s.waves))).count (Node.ext n) = ps.count (Node.ext n) :=
            List.count_filter (by simpa using hnw)
          rw [← h1, hn]; simp
        refine ⟨⟨_, rfl⟩, rfl, rfl, ?_, ?_, hA, hB, ?_⟩
        · rw [List.nodup_iff_count_le_one]
          intro p
          by_cases hp : p = Node.ext n
          · subst hp; omega
          · have h1 := List.nodup_iff_count_le_one.1 hc1 p
            rwa [List.count_filter (by simpa using hp)] at h1
        · intro p hp hq
          have h1 := hc2 p (List.mem_filter.2 ⟨hp, by simpa using hq⟩)
          rcases List.mem_append.1 h1 with h1 | h1
          · exact h1
          · exact absurd h1 hq
        · intro _ _ _
          have h1 : o ∈ ps.filter (fun p => decide ((Dir.inn, p) ∈ s.waves)) := by rw [ho]; simp
          obtain ⟨h2, h3⟩ := List.mem_filter.1 h1
          refine ⟨o, h2, ?_⟩
          intro hc
          simp only [List.mem_singleton] at hc
          subst hc
          exact hnw (by simpa using h3)

/-! ## the dictionary -/

theorem dictGet_dictSet_c {α β : Type*} [DecidableEq α] (k : α) (v : β) (a : α) : ∀ d : List (α × β),
    dictGet a (dictSet k v d) = if a = k then some v else dictGet a d
  | [] => by
    by_cases h : a = k
    · subst h; simp [dictSet, dictGet]
    · have : (a == k) = false := by simpa using h
      simp [dictSet, dictGet, List.lookup, this, h]
  | (k', v') :: d => by
    have ih := dictGet_dictSet_c k v a d
    unfold dictSet
    by_cases hk : k' = k
    · subst hk
      rw [if_pos rfl]
      by_cases h : a = k'
      · subst h; simp [dictGet, List.lookup]
      · have : (a == k') = false := by simpa using h
        simp [dictGet, List.lookup, this, h]
    · rw [if_neg hk]
      by_cases h : a = k'
      · subst h; simp [dictGet, List.lookup, hk]
      · have h' : (a == k') = false := by simpa using h
        simp only [dictGet, List.lookup, h'] at ih ⊢
        exact ih

theorem dictGet_foldl_c {α β : Type*} [DecidableEq α] (f : α → β) (a : α) : ∀ (ps : List α) (d : List (α × β)),
    dictGet a (ps.foldl (fun d p => dictSet p (f p) d) d) = if a ∈ ps then some (f a) else dictGet a d
  | [], d => by simp
  | p :: ps, d => by
    rw [List.foldl_cons, dictGet_foldl_c f a ps, dictGet_dictSet_c]
    by_cases h : a ∈ ps
    · simp [h]
    · by_cases h' : a = p
      · subst h'; simp [h]
      · simp [h, h']

/-! ## the invariant -/

/-- the entry of the dictionary is about this equation -/
structure Cur (net : Net K) (s : St K O F Fl) (i : ℕ) (p : Node) (r : ℕ → K) (idxs : List ℕ) : Prop where
  supp : ∀ j, j < s.waves.length → r j ≠ 0 → j ∈ idxs
  last : ∀ i', i < i' → s.eqns[i']? ≠ some (.C p)
  other : p ∉ net.used → ∃ o ∈ net.used, ∃ j, s.waves[j]? = some (.out, o) ∧ r j ≠ 0

/-- the entry of the dictionary is about a later equation of the same port -/
structure Stale (net : Net K) (s : St K O F Fl) (i : ℕ) (p : Node) (r : ℕ → K) (idxs : List ℕ) : Prop where
  used : p ∈ net.used
  later : ∃ i', i < i' ∧ s.eqns[i']? = some (.C p)
  missing : ∃ o ∈ net.used, ∃ j, s.waves[j]? = some (.out, o) ∧ r j ≠ 0 ∧ j ∉ idxs

structure InvC (net : Net K) (s : St K O F Fl) (C : CDict) : Prop where
  dD : ∀ (i : ℕ) (r : ℕ → K) (e : Eqn), s.rows[i]? = some r → s.eqns[i]? = some e → e.IsD → Unit3 s.waves.length r
  dC : ∀ (i : ℕ) (r : ℕ → K) (p : Node), s.rows[i]? = some r → s.eqns[i]? = some (.C p) → p ∈ net.nodes ∧
    ∃ A Bs, dictGet p C = some (A, Bs) ∧ (A :: Bs).Nodup ∧ (∀ j ∈ A :: Bs, j < s.waves.length) ∧
      (Cur net s i p r (A :: Bs) ∨ Stale net s i p r (A :: Bs))

theorem InvC.step {net' : Net K} (h : InvC net s C) (st : EqStep s s')
    (hn : ∀ p ∈ net.nodes, p ∈ net'.nodes) (hu : ∀ p ∈ net.used, p ∈ net'.used) : InvC net' s' C := by
  obtain ⟨ws, hws⟩ := st.waves
  have hget : ∀ (j : ℕ) (x : Wave), s.waves[j]? = some x → s'.waves[j]? = some x := by
    intro j x hx
    rw [hws, List.getElem?_append_left (List.getElem?_eq_some_iff.1 hx).1]; exact hx
  have hlen : s.waves.length ≤ s'.waves.length := by rw [hws]; simp
  refine ⟨?_, ?_⟩
  · intro i r e hr he hd
    rcases st.row i e r hd.core he hr with ⟨r0, h1, h2, h3⟩ | ⟨-, -, h3⟩
    · intro j hj
      by_cases hjl : j < s.waves.length
      · rw [h3.1 j hjl]; exact h.dD i r0 e h1 h2 hd j hjl
      · exact Or.inl (h3.2 j (by omega) hj)
    · exact h3
  · intro i r p hr he
    rcases st.row i (.C p) r trivial he hr with ⟨r0, h1, h2, h3⟩ | ⟨hd, -, -⟩
    · obtain ⟨hp, A, Bs, g1, g2, g3, g4⟩ := h.dC i r0 p h1 h2
      refine ⟨hn p hp, A, Bs, g1, g2, fun j hj => lt_of_lt_of_le (g3 j hj) hlen, ?_⟩
      have hval : ∀ (j : ℕ) (x : Wave), s.waves[j]? = some x → r j = r0 j := fun j x hx =>
        h3.1 j (List.getElem?_eq_some_iff.1 hx).1
      rcases g4 with g4 | g4
      · left
        refine ⟨?_, ?_, ?_⟩
        · intro j hj hne
          by_cases hjl : j < s.waves.length
          · rw [h3.1 j hjl] at hne; exact g4.supp j hjl hne
          · exact absurd (h3.2 j (by omega) hj) hne
        · intro i' hi' hc
          rcases st.back i' (.C p) trivial hc with hc | ⟨hc, _⟩
          · exact g4.last i' hi' hc
          · cases hc
        · intro hnu
          obtain ⟨o, ho, j, hj, hne⟩ := g4.other fun hc => hnu (hu p hc)
          exact ⟨o, hu o ho, j, hget j _ hj, by rw [hval j _ hj]; exact hne⟩
      · right
        refine ⟨hu p g4.used, ?_, ?_⟩
        · obtain ⟨i', hi', he'⟩ := g4.later
          exact ⟨i', hi', st.keep i' _ trivial he'⟩
        · obtain ⟨o, ho, j, hj, hne, hni⟩ := g4.missing
          exact ⟨o, hu o ho, j, hget j _ hj, by rw [hval j _ hj]; exact hne, hni⟩
    · cases hd

theorem idxs_nodup {waves : List Wave} {new ps : List Node} (hnd : ps.Nodup) {p : Node}
    (hB : ∀ q ∈ ps, waveB new q ∈ waves) :
    (idx waves (waveA new p) :: ps.map fun q => idx waves (waveB new q)).Nodup := by
  rw [List.nodup_cons]
  constructor
  · intro hc
    simp only [List.mem_map] at hc
    obtain ⟨q, hq, he⟩ := hc
    exact waveA_ne_waveB new p q ((idx_inj (hB q hq)).1 he).symm
  · refine List.Nodup.map_on ?_ hnd
    intro x hx y hy hxy
    exact waveB_inj new ((idx_inj (hB x hx)).1 hxy)

theorem InvC.connect [CharZero K] (h : InvC net s C) (hr : Rep ops net s) (hE : s.E = []) {ps : List Node}
    (hs : connectC ops s C ps = ((s', C'), .ok ())) : InvC (net.connect ps) s' C' := by
  obtain ⟨hs1, hC'⟩ := connectC_ok hs
  have hnew : ∀ p, p ∈ ps.filter (fun p => decide ((Dir.inn, p) ∉ s.waves)) ↔ p ∈ ps ∧ p ∉ net.nodes := by
    intro p
    have := hr.rep.wmem .inn p
    simp only [St.core] at this
    simp [this]
  have hcon := connected hr hs1
  generalize hnw : ps.filter (fun p => decide ((Dir.inn, p) ∉ s.waves)) = new at hcon hnew hC'
  obtain ⟨⟨ws, hws⟩, heq, hrows, hnd, hold, hA, hB, hone⟩ := hcon
  have hlw : s.waves.length = s.cols := hr.wlen
  have hel : s.eqns.length = s.rows.length := hr.rep.elen
  have hget : ∀ (j : ℕ) (x : Wave), s.waves[j]? = some x → s'.waves[j]? = some x := by
    intro j x hx
    rw [hws, List.getElem?_append_left (List.getElem?_eq_some_iff.1 hx).1]; exact hx
  have hlen : s.waves.length ≤ s'.waves.length := by rw [hws]; simp
  -- the dictionary
  have hdict : ∀ p, dictGet p C' = if p ∈ ps then some (idx s'.waves (waveA new p), ps.map fun q => idx s'.waves (waveB new q))
      else dictGet p C := by
    intro p
    rw [hC']
    exact dictGet_foldl_c (fun p => (idx s'.waves (waveA new p), ps.map fun q => idx s'.waves (waveB new q))) p ps C
  -- the network
  have hnodes : ∀ p ∈ net.nodes, p ∈ (net.connect ps).nodes := by
    intro p hp; rw [nodes_connect]; exact List.mem_append_left _ hp
  have hnodes' : ∀ p ∈ ps, p ∈ (net.connect ps).nodes := by
    intro p hp
    by_cases hq : p ∈ net.nodes
    · exact hnodes p hq
    · have h1 := connect_new hr hs1
      rw [hnw] at h1
      rw [nodes_connect, ← h1]
      exact List.mem_append_right _ ((hnew p).2 ⟨hp, hq⟩)
  have hused : ∀ p, p ∈ (net.connect ps).used ↔ p ∈ net.used ∨ (p ∈ ps ∧ p ∈ net.nodes) := by
    intro p
    have := (used_join net (ps.filter (· ∈ net.nodes)) (ps.find? (· ∉ net.nodes))).mem_iff (a := p)
    show p ∈ (net.join _ _).used ↔ _
    rw [this, List.mem_append]
    simp
  have hpfree : ∀ p ∈ ps, p ∉ new → p ∈ net.nodes ∧ p ∉ net.used := fun p hp hq => (hr.rep.pmem p).1 (hold p hp hq)
  have hidx : ∀ x ∈ s'.waves, idx s'.waves x < s'.waves.length := fun x hx => idx_lt hx
  have hlt : ∀ p ∈ ps, ∀ j ∈ idx s'.waves (waveA new p) :: ps.map (fun q => idx s'.waves (waveB new q)), j < s'.waves.length := by
    intro p hp j hj
    rcases List.mem_cons.1 hj with rfl | hj
    · exact hidx _ (hA p hp)
    · simp only [List.mem_map] at hj; obtain ⟨q, hq, rfl⟩ := hj; exact hidx _ (hB q hq)
  -- rows and labels
  have hlab : ∀ (i : ℕ) (e : Eqn), s'.eqns[i]? = some e → (i < s.eqns.length ∧ s.eqns[i]? = some e) ∨
      (s.eqns.length ≤ i ∧ ∃ p, ps[i - s.eqns.length]? = some p ∧ e = .C p) := by
    intro i e he
    rw [heq] at he
    by_cases hi : i < s.eqns.length
    · rw [List.getElem?_append_left hi] at he; exact Or.inl ⟨hi, he⟩
    · rw [List.getElem?_append_right (by omega), List.getElem?_map] at he
      cases hp : ps[i - s.eqns.length]? with
      | none => rw [hp] at he; simp at he
      | some p => rw [hp] at he; simp at he; exact Or.inr ⟨by omega, p, rfl, he.symm⟩
  have hrow : ∀ (i : ℕ) (r' : ℕ → K), i < s.eqns.length → s'.rows[i]? = some r' →
      ∃ r, s.rows[i]? = some r ∧ Agree s.waves.length s'.waves.length r r' := by
    intro i r' hi hr'
    rw [hrows, List.getElem?_append_left (by rw [List.length_map]; omega), List.getElem?_map] at hr'
    cases hrow : s.rows[i]? with
    | none => rw [hrow] at hr'; simp at hr'
    | some r =>
      rw [hrow] at hr'
      simp only [Option.map_some, Option.some.injEq] at hr'
      subst hr'
      rw [← hlw]
      exact ⟨r, rfl, fun j hj => by simp [padRow, hj], fun j hj _ => by simp [padRow, not_lt.2 hj]⟩
  refine ⟨?_, ?_⟩
  · intro i r e hri he hd
    rcases hlab i e he with ⟨hi, he'⟩ | ⟨-, p, -, rfl⟩
    · obtain ⟨r0, h1, h2⟩ := hrow i r hi hri
      intro j hj
      by_cases hjl : j < s.waves.length
      · rw [h2.1 j hjl]; exact h.dD i r0 e h1 he' hd j hjl
      · exact Or.inl (h2.2 j (by omega) hj)
    · cases hd
  · intro i r p hri he
    rcases hlab i _ he with ⟨hi, he'⟩ | ⟨hi, p', hp', hpe⟩
    · -- an equation that was there before
      obtain ⟨r0, h1, h2⟩ := hrow i r hi hri
      obtain ⟨hpn, A, Bs, g1, g2, g3, g4⟩ := h.dC i r0 p h1 he'
      have hval : ∀ (j : ℕ) (x : Wave), s.waves[j]? = some x → r j = r0 j := fun j x hx => h2.1 j (List.getElem?_eq_some_iff.1 hx).1
      refine ⟨hnodes p hpn, ?_⟩
      by_cases hp : p ∈ ps
      · -- its port is connected again
        have hpn' : p ∉ new := fun hc => ((hnew p).1 hc).2 hpn
        obtain ⟨-, hnu⟩ := hpfree p hp hpn'
        refine ⟨_, _, (hdict p).trans (if_pos hp), idxs_nodup hnd hB, hlt p hp, Or.inr ⟨?_, ?_, ?_⟩⟩
        · rw [hused]; exact Or.inr ⟨hp, hpn⟩
        · obtain ⟨m, hm⟩ := List.getElem?_of_mem hp
          refine ⟨s.eqns.length + m, by omega, ?_⟩
          rw [heq, List.getElem?_append_right (by omega), Nat.add_sub_cancel_left, List.getElem?_map, hm]; rfl
        · rcases g4 with g4 | g4
          · obtain ⟨o, ho, j, hj, hne⟩ := g4.other hnu
            refine ⟨o, (hused o).2 (Or.inl ho), j, hget j _ hj, by rw [hval j _ hj]; exact hne, ?_⟩
            have hjeq : j = idx s'.waves (.out, o) := by
              have h3 := hget j _ hj
              have hmem : (Dir.out, o) ∈ s'.waves := List.mem_of_getElem? h3
              have hnd' : s'.waves.Nodup := (rep_connect hr hE hs1).rep.wnd
              exact getElem?_inj_of_nodup hnd' h3 (getElem?_idx hmem)
            have hmo : (Dir.out, o) ∈ s'.waves := List.mem_of_getElem? (hget j _ hj)
            have hno : o ∈ net.nodes := hr.rep.usub o ho
            rw [hjeq]
            intro hc
            rcases List.mem_cons.1 hc with hc | hc
            · have := (idx_inj hmo).1 hc
              unfold waveA at this
              rw [if_neg hpn'] at this
              simp at this
            · simp only [List.mem_map] at hc
              obtain ⟨q, hq, hqe⟩ := hc
              have := (idx_inj (hB q hq)).1 hqe
              unfold waveB at this
              split at this
              · simp at this
              · rename_i hqn
                simp only [Prod.mk.injEq, true_and] at this
                subst this
                exact (hpfree q hq hqn).2 ho
          · exact absurd g4.used hnu
      · refine ⟨A, Bs, (hdict p).trans ((if_neg hp).trans g1), g2, fun j hj => lt_of_lt_of_le (g3 j hj) hlen, ?_⟩
        rcases g4 with g4 | g4
        · left
          refine ⟨?_, ?_, ?_⟩
          · intro j hj hne
            by_cases hjl : j < s.waves.length
            · rw [h2.1 j hjl] at hne; exact g4.supp j hjl hne
            · exact absurd (h2.2 j (by omega) hj) hne
          · intro i' hi' hc
            rcases hlab i' _ hc with ⟨-, hc⟩ | ⟨-, q, hq, hqe⟩
            · exact g4.last i' hi' hc
            · injection hqe with hqe; subst hqe; exact hp (List.mem_of_getElem? hq)
          · intro hnu
            obtain ⟨o, ho, j, hj, hne⟩ := g4.other fun hc => hnu ((hused p).2 (Or.inl hc))
            exact ⟨o, (hused o).2 (Or.inl ho), j, hget j _ hj, by rw [hval j _ hj]; exact hne⟩
        · right
          refine ⟨(hused p).2 (Or.inl g4.used), ?_, ?_⟩
          · obtain ⟨i', hi', he''⟩ := g4.later
            refine ⟨i', hi', ?_⟩
            rw [heq, List.getElem?_append_left (List.getElem?_eq_some_iff.1 he'').1]; exact he''
          · obtain ⟨o, ho, j, hj, hne, hni⟩ := g4.missing
            exact ⟨o, (hused o).2 (Or.inl ho), j, hget j _ hj, by rw [hval j _ hj]; exact hne, hni⟩
    · -- an equation of this junction
      injection hpe with hpe
      subst hpe
      have hp : p ∈ ps := List.mem_of_getElem? hp'
      have hrr : r = junctionRow ps.length (i - s.eqns.length) (idx s'.waves (waveA new p)) (ps.map fun q => idx s'.waves (waveB new q)) := by
        rw [hrows, List.getElem?_append_right (by rw [List.length_map]; omega), List.length_map, ← hel, junctionRows_get hp'] at hri
        injection hri with hri; exact hri.symm
      refine ⟨hnodes' p hp, _, _, (hdict p).trans (if_pos hp), idxs_nodup hnd hB, hlt p hp, Or.inl ⟨?_, ?_, ?_⟩⟩
      · intro j hj hne
        by_contra hc
        simp only [List.mem_cons, not_or] at hc
        exact hne (by rw [hrr]; exact junctionRow_off hc.1 hc.2)
      · intro i' hi' hc
        rcases hlab i' _ hc with ⟨hlt', -⟩ | ⟨-, q, hq, hqe⟩
        · omega
        · injection hqe with hqe
          subst hqe
          have hi1 := (List.getElem?_eq_some_iff.1 hp').1
          have hi2 := (List.getElem?_eq_some_iff.1 hq).1
          have := (List.getElem?_inj hi1 hnd).1 (hp'.trans hq.symm)
          omega
      · intro hnu
        have hpn : p ∈ new := by
          by_contra hpn
          exact hnu ((hused p).2 (Or.inr ⟨hp, (hpfree p hp hpn).1⟩))
        obtain ⟨o, ho, hon⟩ := hone p hp hpn
        refine ⟨o, (hused o).2 (Or.inr ⟨ho, (hpfree o ho hon).1⟩), idx s'.waves (.out, o), ?_, ?_⟩
        · have := hB o ho
          unfold waveB at this
          rw [if_neg hon] at this
          exact getElem?_idx this
        · obtain ⟨m, hm⟩ := List.getElem?_of_mem ho
          have hBs : (ps.map fun q => idx s'.waves (waveB new q)).Nodup :=
            (List.nodup_cons.1 (idxs_nodup (p := p) hnd hB)).2
          have hmi : m ≠ i - s.eqns.length := by
            rintro rfl
            rw [hp'] at hm; injection hm with hm; subst hm; exact hon hpn
          have hmm : (ps.map fun q => idx s'.waves (waveB new q))[m]? = some (idx s'.waves (.out, o)) := by
            rw [List.getElem?_map, hm]
            simp [waveB, hon]
          rw [hrr, junctionRow_on hBs hmm hmi]
          have hpl : (ps.length : K) ≠ 0 := by
            have : 0 < ps.length := List.length_pos_of_mem hp
            exact_mod_cast this.ne'
          exact div_ne_zero two_ne_zero hpl

end
end PyRFtk.Circuit
