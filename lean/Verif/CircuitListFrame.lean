import Verif.CircuitList

/-!
# Which equations the calls leave alone (proof infrastructure for the listing)
-/

set_option linter.unusedSectionVars false

namespace PyRFtk.Circuit

section
variable {K O F Fl : Type*} [Field K] [DecidableEq F] [DecidableEq Fl]
variable {ops : ObjOps K O F Fl} {beh : O → F → K → Fl → Except Err (SMat K)} {nan zb : K} {names : List Node}
variable {net : Net K} {bh : Behave K F Fl} {s s' : St K O F Fl} {ph : Phase} {C C' : CDict}

/-- a row with entries 0, 1, -1 only -/
def Unit3 (n : ℕ) (r : ℕ → K) : Prop := ∀ j, j < n → r j = 0 ∨ r j = 1 ∨ r j = -1

/-- a label of deembedding -/
def Eqn.IsD : Eqn → Prop
  | .Di _ => True | .De _ => True | _ => False

theorem Eqn.IsD.core {e : Eqn} (h : e.IsD) : e.IsCore := by cases e <;> trivial

/-- the new row is the old one, with zeros in the new columns -/
def Agree (n n' : ℕ) (r r' : ℕ → K) : Prop := (∀ j, j < n → r' j = r j) ∧ ∀ j, n ≤ j → j < n' → r' j = 0

/-- what a call other than `connect` does to the equations of junctions and deembeddings -/
structure EqStep (s s' : St K O F Fl) : Prop where
  waves : ∃ ws, s'.waves = s.waves ++ ws
  keep : ∀ (i : ℕ) (e : Eqn), e.IsCore → s.eqns[i]? = some e → s'.eqns[i]? = some e
  back : ∀ (i : ℕ) (e : Eqn), e.IsCore → s'.eqns[i]? = some e → s.eqns[i]? = some e ∨ e.IsD ∧ s.eqns[i]? = none
  row : ∀ (i : ℕ) (e : Eqn) (r' : ℕ → K), e.IsCore → s'.eqns[i]? = some e → s'.rows[i]? = some r' →
    (∃ r, s.rows[i]? = some r ∧ s.eqns[i]? = some e ∧ Agree s.waves.length s'.waves.length r r') ∨
      e.IsD ∧ s.eqns[i]? = none ∧ Unit3 s'.waves.length r'

theorem EqStep.refl' (hw : s'.waves = s.waves) (he : s'.eqns = s.eqns)
    (hr : ∀ (i : ℕ) (e : Eqn) (r' : ℕ → K), e.IsCore → s.eqns[i]? = some e → s'.rows[i]? = some r' → ∃ r, s.rows[i]? = some r ∧ ∀ j, j < s.waves.length → r' j = r j) :
    EqStep s s' := by
  refine ⟨⟨[], by simp [hw]⟩, fun i e _ h => by rw [he]; exact h, fun i e _ h => Or.inl (by rw [he] at h; exact h), ?_⟩
  intro i e r' hc h1 h2
  rw [he] at h1
  obtain ⟨r, h3, h4⟩ := hr i e r' hc h1 h2
  exact Or.inl ⟨r, h3, h1, h4, fun j hj hj' => by rw [hw] at hj'; omega⟩

/-- rows, waves and labels appended to the padded rows -/
theorem EqStep.append (hl : s.eqns.length = s.rows.length) {ws : List Wave} {es : List Eqn} {R : List (ℕ → K)}
    (hw : s'.waves = s.waves ++ ws) (he : s'.eqns = s.eqns ++ es)
    (hr : s'.rows = s.rows.map (padRow s.waves.length) ++ R ∨ (ws = [] ∧ s'.rows = s.rows ++ R))
    (hes : ∀ e ∈ es, e.IsCore → e.IsD) (hR : ∀ (i : ℕ) (e : Eqn) (r : ℕ → K), es[i]? = some e → e.IsD → R[i]? = some r → Unit3 s'.waves.length r) :
    EqStep s s' := by
  refine ⟨⟨ws, hw⟩, ?_, ?_, ?_⟩
  · intro i e hc h
    rw [he, List.getElem?_append_left (List.getElem?_eq_some_iff.1 h).1]; exact h
  · intro i e hc h
    rw [he] at h
    by_cases hi : i < s.eqns.length
    · rw [List.getElem?_append_left hi] at h; exact Or.inl h
    · rw [List.getElem?_append_right (by omega)] at h
      exact Or.inr ⟨hes e (List.mem_of_getElem? h) hc, List.getElem?_eq_none (by omega)⟩
  · intro i e r' hc h h'
    rw [he] at h
    by_cases hi : i < s.eqns.length
    · rw [List.getElem?_append_left hi] at h
      left
      rcases hr with hr | ⟨hws, hr⟩
      · rw [hr, List.getElem?_append_left (by rw [List.length_map]; omega), List.getElem?_map] at h'
        cases hrow : s.rows[i]? with
        | none => rw [hrow] at h'; simp at h'
        | some r =>
          rw [hrow] at h'
          simp only [Option.map_some, Option.some.injEq] at h'
          subst h'
          exact ⟨r, rfl, h, fun j hj => by simp [padRow, hj], fun j hj _ => by simp [padRow, not_lt.2 hj]⟩
      · rw [hr, List.getElem?_append_left (by omega)] at h'
        refine ⟨r', h', h, fun j _ => rfl, fun j hj hj' => ?_⟩
        rw [hw, hws] at hj'; simp at hj'; omega
    · rw [List.getElem?_append_right (by omega)] at h
      have hd := hes e (List.mem_of_getElem? h) hc
      refine Or.inr ⟨hd, List.getElem?_eq_none (by omega), hR (i - s.eqns.length) e r' h hd ?_⟩
      rcases hr with hr | ⟨hws, hr⟩
      · rw [hr, List.getElem?_append_right (by rw [List.length_map]; omega), List.length_map] at h'
        rwa [hl]
      · rw [hr, List.getElem?_append_right (by omega)] at h'
        rwa [hl]

theorem addblock_cases {name : String} {obj : O} {spec : PortSpec} {relpos : ℚ}
    (hs : addblock ops nan s name obj spec relpos = (s', .ok ())) :
    (s'.waves = s.waves ∧ s'.eqns = s.eqns ∧ s'.rows = s.rows) ∨
    ∃ ports : List String, s'.waves = s.waves ++ (ports.map (fun p => ((.inn, .blk name p) : Wave)) ++ ports.map (fun p => (.out, .blk name p))) ∧
      s'.eqns = s.eqns ++ ports.map (fun p => .S (.blk name p)) ∧ ∃ R, s'.rows = s.rows.map (padRow s.cols) ++ R := by
  unfold addblock at hs
  simp only at hs
  split at hs
  · rename_i b hb
    split at hs
    · simp at hs
    · simp only [Prod.mk.injEq, and_true] at hs; subst hs; exact Or.inl ⟨rfl, rfl, rfl⟩
  · split at hs
    · simp at hs
    · rename_i ports hres
      simp only [Prod.mk.injEq, and_true] at hs; subst hs
      refine Or.inr ⟨ports, by simp, rfl, _, rfl⟩

theorem step_addblock (hr : Rep ops net s) {name : String} {obj : O} {spec : PortSpec} {relpos : ℚ}
    (hs : addblock ops nan s name obj spec relpos = (s', .ok ())) : EqStep s s' := by
  rcases addblock_cases hs with ⟨h1, h2, h3⟩ | ⟨ports, h1, h2, R, h3⟩
  · exact EqStep.refl' h1 h2 fun i e r' _ _ h => ⟨r', by rw [h3] at h; exact h, fun _ _ => rfl⟩
  · refine EqStep.append hr.rep.elen h1 h2 (Or.inl (by rw [hr.wlen]; exact h3)) ?_ ?_
    · intro e he hc; simp only [List.mem_map] at he; obtain ⟨p, _, rfl⟩ := he; cases hc
    · intro i e r he hd _
      have := List.mem_of_getElem? he
      simp only [List.mem_map] at this; obtain ⟨p, _, rfl⟩ := this; cases hd

theorem TRep_of_mem {c : Core K O} {k : ℕ} (hr : RepD ops net c k) {p : Node} {a b e : ℕ} (h : (p, (a, b, e)) ∈ c.T) :
    ∃ l, TRep c l (p, (a, b, e)) := by
  obtain ⟨l, _, h1⟩ := forall₂_mem_right hr.tT h
  exact ⟨l, h1⟩

theorem step_terminate (hr : Rep ops net s) {p : Node} {args : TermArgs K} (hs : terminate s p args = (s', .ok ())) : EqStep s s' := by
  have hset : ∀ (rows : List (ℕ → K)) (m j : ℕ) (v : K) (i : ℕ), i ≠ m → (setEntry rows m j v)[i]? = rows[i]? := by
    intro rows m j v i hi
    exact modify_getElem?_ne (Ne.symm hi)
  unfold terminate at hs
  simp only at hs
  cases h1 : termRho s.zbase args with
  | error e => simp [h1] at hs
  | ok rho =>
    simp only [h1] at hs
    cases h2 : dictGet p s.T with
    | some t =>
      obtain ⟨a, b, e⟩ := t
      simp only [h2, Prod.mk.injEq, and_true] at hs
      subst hs
      obtain ⟨l, hl⟩ := TRep_of_mem hr.rep (dictGet_mem h2)
      have hte : s.eqns[e]? = some (.T l.1) := hl.2.2.2.1
      refine EqStep.refl' rfl rfl fun i f r' hc hf h => ⟨r', ?_, fun _ _ => rfl⟩
      have hne : i ≠ e := by rintro rfl; rw [hte] at hf; injection hf with hf; subst hf; cases hc
      rw [← h]; exact (hset _ _ _ _ _ hne).symm
    | none =>
      simp only [h2] at hs
      cases h3 : dictGet p s.E with
      | some e =>
        simp only [h3] at hs
        split at hs
        · simp at hs
        · rename_i a b hab
          cases h4 : pyIndex s.ports p with
          | error e => simp [h4] at hs
          | ok kp =>
            simp only [h4] at hs
            cases h5 : pyPop s.xpos kp with
            | error e => simp [h5] at hs
            | ok xs =>
              simp only [h5, Prod.mk.injEq, and_true] at hs
              subst hs
              have hte : s.eqns[e]? = some (.E p) := (hr.rep.eE p e (dictGet_mem h3)).1
              refine ⟨⟨[], by simp⟩, ?_, ?_, ?_⟩
              · intro i f hc hf
                have hne : e ≠ i := by rintro rfl; rw [hte] at hf; injection hf with hf; subst hf; cases hc
                show (s.eqns.set e (.T p))[i]? = _
                rw [set_getElem?_ne hne]; exact hf
              · intro i f hc hf
                change (s.eqns.set e (.T p))[i]? = _ at hf
                by_cases hne : e = i
                · subst hne; rw [set_getElem?_self hte] at hf; injection hf with hf; subst hf; cases hc
                · rw [set_getElem?_ne hne] at hf; exact Or.inl hf
              · intro i f r' hc hf hrow
                change (s.eqns.set e (.T p))[i]? = _ at hf
                by_cases hne : e = i
                · subst hne; rw [set_getElem?_self hte] at hf; injection hf with hf; subst hf; cases hc
                · rw [set_getElem?_ne hne] at hf
                  refine Or.inl ⟨r', ?_, hf, fun _ _ => rfl, fun j hj hj' => absurd hj' (not_lt.2 hj)⟩
                  rw [← hrow]
                  exact ((hset _ _ _ _ _ (Ne.symm hne)).trans (hset _ _ _ _ _ (Ne.symm hne))).symm
      | none =>
        simp only [h3] at hs
        cases h4 : pyIndex s.ports p with
        | error e => simp [h4] at hs
        | ok kp =>
          simp only [h4] at hs
          cases h5 : pyPop s.xpos kp with
          | error e => simp [h5] at hs
          | ok xs =>
            simp only [h5] at hs
            split at hs
            · simp at hs
            · simp only [Prod.mk.injEq, and_true] at hs
              subst hs
              refine EqStep.append (ws := []) (es := [.T p]) hr.rep.elen (by simp) rfl (Or.inr ⟨rfl, rfl⟩) ?_ ?_
              · intro e he hc; simp only [List.mem_singleton] at he; subst he; cases hc
              · intro i e r he hd _
                have := List.mem_of_getElem? he
                simp only [List.mem_singleton] at this; subst this; cases hd

/-- what one turn of the loops of `deembed` appends -/
structure GrowD (s s' : St K O F Fl) : Prop where
  app : ∃ ws es R, s'.waves = s.waves ++ ws ∧ s'.eqns = s.eqns ++ es ∧ s'.rows = s.rows ++ R ∧ es.length = R.length ∧
    (∀ e ∈ es, e.IsD) ∧ ∀ r ∈ R, ∀ j, r j = 0 ∨ r j = 1 ∨ r j = (-1 : K)

theorem GrowD.refl (s : St K O F Fl) : GrowD s s := ⟨[], [], [], by simp, by simp, by simp, rfl, by simp, by simp⟩

theorem GrowD.trans {s1 s2 s3 : St K O F Fl} (h : GrowD s1 s2) (h' : GrowD s2 s3) : GrowD s1 s3 := by
  obtain ⟨ws, es, R, a1, a2, a3, a4, a5, a6⟩ := h
  obtain ⟨ws', es', R', b1, b2, b3, b4, b5, b6⟩ := h'
  refine ⟨ws ++ ws', es ++ es', R ++ R', by rw [b1, a1, List.append_assoc], by rw [b2, a2, List.append_assoc],
    by rw [b3, a3, List.append_assoc], by simp [a4, b4], ?_, ?_⟩
  · intro e he; rcases List.mem_append.1 he with he | he
    · exact a5 e he
    · exact b5 e he
  · intro e he; rcases List.mem_append.1 he with he | he
    · exact a6 e he
    · exact b6 e he

theorem unit3_diff (a b : ℕ) (j : ℕ) : (setCol (setCol zeroRow a 1) b (-1) : ℕ → K) j = 0 ∨
    (setCol (setCol zeroRow a 1) b (-1) : ℕ → K) j = 1 ∨ (setCol (setCol zeroRow a 1) b (-1) : ℕ → K) j = -1 := by
  by_cases hb : j = b
  · subst hb; right; right; exact setCol_self
  · rw [setCol_ne hb]
    by_cases ha : j = a
    · subst ha; right; left; exact setCol_self
    · rw [setCol_ne ha]; left; rfl

theorem growD_int {dp ip : Node} (h : deembedInt s dp ip = (s', .ok ())) : GrowD s s' := by
  unfold deembedInt at h
  split at h
  · simp at h
  · simp only at h
    split at h
    · simp at h
    · split at h
      · simp at h
      · simp at h
      · rename_i a b ha hb
        simp only [Prod.mk.injEq, and_true] at h
        subst h
        refine ⟨_, _, _, rfl, rfl, rfl, rfl, ?_, ?_⟩
        · intro e he; simp only [List.mem_cons, List.not_mem_nil, or_false] at he
          rcases he with rfl | rfl <;> trivial
        · intro r hr; simp only [List.mem_cons, List.not_mem_nil, or_false] at hr
          rcases hr with rfl | rfl <;> exact unit3_diff _ _

theorem growD_ext {dp ep : Node} (h : deembedExt s dp ep = (s', .ok ())) : GrowD s s' := by
  unfold deembedExt at h
  split at h
  · simp at h
  · split at h
    · simp at h
    · simp only at h
      split at h
      · split at h
        · simp at h
        · simp only [Prod.mk.injEq, and_true] at h
          subst h
          refine ⟨[], _, _, by simp, rfl, rfl, rfl, ?_, ?_⟩
          · intro e he; simp only [List.mem_cons, List.not_mem_nil, or_false] at he
            rcases he with rfl | rfl <;> trivial
          · intro r hr; simp only [List.mem_cons, List.not_mem_nil, or_false] at hr
            rcases hr with rfl | rfl <;> exact unit3_diff _ _
      · simp at h

theorem growD_iter {g : St K O F Fl → Node × Node → St K O F Fl × Except Err Unit}
    (hg : ∀ s s' x, g s x = (s', .ok ()) → GrowD s s') : ∀ (l : List (Node × Node)) (s s' : St K O F Fl),
    iter g s l = (s', .ok ()) → GrowD s s'
  | [], s, s', h => by simp only [iter, Prod.mk.injEq, and_true] at h; subst h; exact .refl _
  | x :: l, s, s', h => by
    simp only [iter] at h
    cases hx : g s x with
    | mk t r =>
      cases r with
      | error e => simp [hx] at h
      | ok u => simp only [hx] at h; exact (hg s t x hx).trans (growD_iter hg l t s' h)

theorem step_deembed (hr : Rep ops net s) {int ext : List (Node × Node)} (hs : deembed s int ext = (s', .ok ())) : EqStep s s' := by
  unfold deembed at hs
  simp only at hs
  split at hs
  · simp at hs
  · rename_i s1 u h1
    have g1 := growD_iter (fun s s' x h => growD_int h) _ _ _ h1
    have g2 := growD_iter (fun s s' x h => growD_ext h) _ _ _ hs
    obtain ⟨ws, es, R, a1, a2, a3, a4, a5, a6⟩ := g1.trans g2
    refine EqStep.append (ws := ws) (es := es) (R := R) hr.rep.elen a1 a2 (Or.inl (by rw [hr.wlen]; exact a3)) (fun e he _ => a5 e he) ?_
    intro i e r _ _ hR j _
    exact a6 r (List.mem_of_getElem? hR) j

theorem step_solveE (s : St K O F Fl) : (solveE s).1.waves = s.waves ∧ (solveE s).1.eqns = s.eqns ∧ (solveE s).1.rows = s.rows := by
  unfold solveE
  split
  · exact ⟨rfl, rfl, rfl⟩
  · split
    · exact ⟨rfl, rfl, rfl⟩
    · exact ⟨rfl, rfl, rfl⟩
    · unfold solveWith
      split
      · exact ⟨rfl, rfl, rfl⟩
      · split
        · exact ⟨rfl, rfl, rfl⟩
        · simp only
          split
          · exact ⟨rfl, rfl, rfl⟩
          · split
            · exact ⟨rfl, rfl, rfl⟩
            · split <;> exact ⟨rfl, rfl, rfl⟩

theorem iter_addE_app : ∀ (ps : List Node) (s : St K O F Fl) {s' : St K O F Fl}, iter addE s ps = (s', .ok ()) →
    ∃ R, s'.waves = s.waves ∧ s'.eqns = s.eqns ++ ps.map .E ∧ s'.rows = s.rows ++ R
  | [], s, s', h => by
    simp only [iter, Prod.mk.injEq, and_true] at h; subst h; exact ⟨[], rfl, by simp, by simp⟩
  | p :: ps, s, s', h => by
    simp only [iter] at h
    unfold addE at h
    cases hw : pyIndex s.waves (.inn, p) with
    | error e => simp [hw] at h
    | ok j =>
      simp only [hw] at h
      by_cases hc : s.cols ≤ j
      · simp [hc] at h
      · simp only [if_neg hc] at h
        obtain ⟨R, h1, h2, h3⟩ := iter_addE_app ps _ h
        exact ⟨[setCol zeroRow j 1] ++ R, h1, by rw [h2]; simp, by rw [h3]; simp⟩

theorem squareUp_app (hr : Rep ops net s) : (squareUp s).1.waves = s.waves ∧ ∃ es R, (squareUp s).1.eqns = s.eqns ++ es ∧
    (squareUp s).1.rows = s.rows ++ R ∧ ∀ e ∈ es, ¬ e.IsCore := by
  obtain ⟨-, -, -, -, -, -, -, hok, -, hbad⟩ := squareUp_spec hr
  by_cases h : (squareUp s).2 = .ok ()
  · have hE : ∀ (t : St K O F Fl) (l : List Node), t.waves = s.waves → t.eqns = s.eqns → t.rows = s.rows →
        (iter addE t l).2 = .ok () → (iter addE t l).1.waves = s.waves ∧ ∃ es R, (iter addE t l).1.eqns = s.eqns ++ es ∧
          (iter addE t l).1.rows = s.rows ++ R ∧ ∀ e ∈ es, ¬ e.IsCore := by
      intro t l e1 e2 e3 hok
      obtain ⟨R, g1, g2, g3⟩ := iter_addE_app l t (s' := (iter addE t l).1) (Prod.ext rfl hok)
      refine ⟨by rw [g1, e1], _, R, by rw [g2, e2], by rw [g3, e3], ?_⟩
      intro e he; simp only [List.mem_map] at he; obtain ⟨p, _, rfl⟩ := he; exact fun h => h
    unfold squareUp at h ⊢
    by_cases hsq : s.rows.length = s.cols
    · rw [if_pos hsq]; exact ⟨rfl, [], [], by simp, by simp, by simp⟩
    · rw [if_neg hsq] at h ⊢
      simp only at h ⊢
      split at h <;> rename_i hn
      · rw [if_pos hn]
        split at h
        · simp at h
        · rename_i h2
          rw [if_neg h2]
          split at h
          · simp at h
          · rename_i h3
            rw [if_neg h3]
            exact hE _ _ rfl rfl rfl h
      · rw [if_neg hn]
        exact hE _ _ rfl rfl rfl h
  · obtain ⟨e, -⟩ := hbad h
    rw [e]
    exact ⟨rfl, [], [], by simp, by simp, by simp⟩

theorem step_recompute (hlaw : Lawful ops beh) (hr : Rep ops net s) (f : F) (fl : Fl) {r : Except Err (SMat K)}
    (hs : recompute ops s f fl = (s', r)) : EqStep s s' := by
  obtain ⟨f1, f2, f3, f4⟩ := fillBlocks_spec hlaw f s.zbase fl s.blocks s.rows hr.rep.blen hr.rep.rows_disjoint
  unfold recompute at hs
  simp only at hs
  generalize fillBlocks ops f s.zbase fl s.blocks s.rows = q at hs f1 f2 f3 f4
  have hlike : List.Forall₂ (Blk.Like ops) s.blocks q.1 := f2.imp fun _ _ x => x.1
  have hrep1 : Rep ops net { s with blocks := q.1, rows := q.2.1 } := by
    have := (Rep.used hr hlike)
    refine ⟨hr.rep.fill f1 hlike, hr.wlen, this.bnode⟩
  have harea : ∀ (i : ℕ) (e : Eqn) (r' : ℕ → K), e.IsCore → s.eqns[i]? = some e → q.2.1[i]? = some r' →
      ∃ r, s.rows[i]? = some r ∧ ∀ j, j < s.waves.length → r' j = r j := by
    intro i e r' hc he hrow
    obtain ⟨r0, g1, g2⟩ := f1.back hrow
    exact ⟨r0, g1, fun j _ => g2 j fun b hb => hr.rep.not_area he (by rintro n rfl; cases hc) b hb j⟩
  have hcore : ∀ t : St K O F Fl, t.waves = s.waves → (∃ es R, t.eqns = s.eqns ++ es ∧ t.rows = q.2.1 ++ R ∧ ∀ e ∈ es, ¬ e.IsCore) →
      EqStep s t := by
    rintro t hw ⟨es, R, h1, h2, h3⟩
    have hlen : q.2.1.length = s.eqns.length := by rw [f1.1]; exact hr.rep.elen.symm
    have hin : ∀ (i : ℕ) (e : Eqn), e.IsCore → t.eqns[i]? = some e → i < s.eqns.length ∧ s.eqns[i]? = some e := by
      intro i e hc he
      rw [h1] at he
      by_cases hi : i < s.eqns.length
      · rw [List.getElem?_append_left hi] at he; exact ⟨hi, he⟩
      · rw [List.getElem?_append_right (by omega)] at he
        exact absurd hc (h3 e (List.mem_of_getElem? he))
    refine ⟨⟨[], by simp [hw]⟩, ?_, fun i e hc he => Or.inl (hin i e hc he).2, ?_⟩
    · intro i e hc he
      rw [h1, List.getElem?_append_left (List.getElem?_eq_some_iff.1 he).1]; exact he
    · intro i e r' hc he hrow
      obtain ⟨hi, he'⟩ := hin i e hc he
      rw [h2, List.getElem?_append_left (by omega)] at hrow
      obtain ⟨r0, g1, g2⟩ := harea i e r' hc he' hrow
      exact Or.inl ⟨r0, g1, he', g2, fun j hj hj' => by rw [hw] at hj'; omega⟩
  cases hq : q.2.2 with
  | error e =>
    simp only [hq, Prod.mk.injEq] at hs
    obtain ⟨rfl, -⟩ := hs
    exact hcore _ rfl ⟨[], [], by simp, by simp, by simp⟩
  | ok u =>
    simp only [hq] at hs
    obtain ⟨w1, es, R, w2, w3, w4⟩ := squareUp_app hrep1
    have hext : ∀ t r', extS ({ s with blocks := q.1, rows := q.2.1 } : St K O F Fl) = (t, r') → t.waves = s.waves ∧ ∃ es R, t.eqns = s.eqns ++ es ∧ t.rows = q.2.1 ++ R ∧ ∀ e ∈ es, ¬ e.IsCore := by
      intro t r' ht
      unfold extS at ht
      cases hsq : squareUp ({ s with blocks := q.1, rows := q.2.1 } : St K O F Fl) with
      | mk t1 r1 =>
        rw [hsq] at w1 w2 w3
        cases r1 with
        | error e =>
          simp only [hsq, Prod.mk.injEq] at ht
          obtain ⟨rfl, -⟩ := ht
          exact ⟨w1, es, R, w2, w3, w4⟩
        | ok u =>
          simp only [hsq] at ht
          obtain ⟨k1, k2, k3⟩ := step_solveE t1
          rw [ht] at k1 k2 k3
          exact ⟨k1.trans w1, es, R, k2.trans w2, k3.trans w3, w4⟩
    cases hx : extS ({ s with blocks := q.1, rows := q.2.1 } : St K O F Fl) with
    | mk t r' =>
      obtain ⟨e1, e2⟩ := hext t r' hx
      cases r' with
      | error e =>
        simp only [hx, Prod.mk.injEq] at hs
        obtain ⟨rfl, -⟩ := hs
        exact hcore _ e1 e2
      | ok M =>
        simp only [hx, Prod.mk.injEq] at hs
        obtain ⟨rfl, -⟩ := hs
        exact hcore _ e1 e2

theorem EqStep.refl (s : St K O F Fl) : EqStep s s :=
  EqStep.refl' rfl rfl fun _ _ r' _ _ h => ⟨r', h, fun _ _ => rfl⟩

theorem step_getS (hlaw : Lawful ops beh) (hr : Rep ops net s) {f : F} {z : Option K} {fl : Fl} {r : Except Err (SMat K)}
    (hs : getS ops s f z fl = (s', r)) : EqStep s s' := by
  have h1 : ∀ t q, get1S ops s f fl = (t, q) → EqStep s t := by
    intro t q h
    rcases get1S_eq (ops := ops) s f fl with ⟨M, -, -, -, h2⟩ | ⟨-, h2⟩
    · rw [h2] at h; injection h with h; subst h; exact .refl _
    · rw [h2] at h; exact step_recompute hlaw hr f fl h
  unfold getS at hs
  cases hg : get1S ops s f fl with
  | mk t q =>
    have := h1 t q hg
    cases q with
    | error e => simp only [hg, Prod.mk.injEq] at hs; obtain ⟨rfl, -⟩ := hs; exact this
    | ok M =>
      simp only [hg] at hs
      cases z with
      | none => simp only [Prod.mk.injEq] at hs; obtain ⟨rfl, -⟩ := hs; exact this
      | some z =>
        simp only at hs
        split at hs
        · injection hs with hs _; subst hs; exact this
        · injection hs with hs _; subst hs; exact this

end
end PyRFtk.Circuit
