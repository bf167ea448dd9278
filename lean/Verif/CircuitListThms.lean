import Verif.CircuitListProps
import Verif.CircuitExtend

/-!
# The listing of a circuit: theorems (C68)
-/

set_option linter.unusedSectionVars false

namespace PyRFtk.Circuit

section
variable {K O F Fl : Type*} [Field K] [DecidableEq F] [DecidableEq Fl]
variable {ops : ObjOps K O F Fl} {beh : O → F → K → Fl → Except Err (SMat K)} {nan zb : K} {names : List Node}
variable {net : Net K} {bh : Behave K F Fl} {s s' : St K O F Fl} {ph : Phase} {C C' : CDict}

/-! ## specification -/

/-- the coefficients shown are coefficients of row `r`, each column once, in increasing order -/
structure Line.True (l : Line K) (cols : ℕ) (r : ℕ → K) : Prop where
  val : ∀ x ∈ l.coefs, x.1 < cols ∧ x.2 = r x.1
  incr : (l.coefs.map Prod.fst).Pairwise (· < ·)

/-- no coefficient of row `r` that is not zero is missing -/
def Line.Complete (l : Line K) (cols : ℕ) (r : ℕ → K) : Prop := ∀ j, j < cols → r j ≠ 0 → j ∈ l.coefs.map Prod.fst

/-- the left-hand side of the equation as shown: the sum of the coefficients shown times the unknowns of their columns -/
def Line.eval (waves : List Wave) (w : Wave → K) (l : Line K) : K :=
  (l.coefs.map fun x => x.2 * wv waves w x.1).sum

theorem Line.eval_eq {l : Line K} {waves : List Wave} {r : ℕ → K} (ht : l.True waves.length r)
    (hc : l.Complete waves.length r) (w : Wave → K) : l.eval waves w = rowEval waves r w := by
  have hnd : (l.coefs.map Prod.fst).Nodup := ht.incr.imp (fun h => ne_of_lt h)
  have h1 : l.eval waves w = ((l.coefs.map Prod.fst).map fun j => r j * wv waves w j).sum := by
    unfold Line.eval
    rw [List.map_map]
    congr 1
    refine List.map_congr_left fun x hx => ?_
    simp only [Function.comp]
    rw [(ht.val x hx).2]
  rw [h1, ← List.sum_toFinset _ hnd]
  unfold rowEval
  refine Finset.sum_subset ?_ ?_
  · intro j hj
    simp only [List.mem_toFinset, List.mem_map] at hj
    obtain ⟨x, hx, rfl⟩ := hj
    exact Finset.mem_range.2 (ht.val x hx).1
  · intro j hj hn
    have : r j = 0 := by
      by_contra hne
      exact hn (List.mem_toFinset.2 (hc j (Finset.mem_range.1 hj) hne))
    rw [this, zero_mul]

/-! ## the invariant in every history -/

theorem mem_used_deembed {net : Net K} {int ext : List (Node × Node)} {p : Node} (h : p ∈ net.used) : p ∈ (net.deembed int ext).used := by
  have h1 : ∀ (l : List (Node × Node)) (n : Net K), p ∈ n.used → p ∈ (l.foldl Net.cross n).used := by
    intro l
    induction l with
    | nil => intro n hn; exact hn
    | cons x l ih =>
      intro n hn
      exact ih _ ((used_cross n x).mem_iff.2 (List.mem_append_left _ hn))
  have h2 : ∀ (l : List (Node × Node)) (n : Net K), p ∈ n.used → p ∈ (l.foldl Net.same n).used := by
    intro l
    induction l with
    | nil => intro n hn; exact hn
    | cons x l ih =>
      intro n hn
      exact ih _ ((used_same n x).mem_iff.2 (List.mem_append_left _ hn))
  exact h2 _ _ (h1 _ _ h)

theorem mem_used_load {net : Net K} {p q : Node} {l : Load K} (h : p ∈ net.used) : p ∈ (net.load q l).used := by
  by_cases hq : q ∈ net.loads.map Prod.fst
  · rw [used_load_mem hq]; exact h
  · rw [used_load_not_mem hq]; exact List.mem_append_left _ h

theorem BuiltC.inv [CharZero K] (hlaw : Lawful ops beh) (h : BuiltC ops beh nan zb names net bh s C ph) : InvC net s C := by
  induction h with
  | init bh => exact ⟨by simp [St.init], by simp [St.init]⟩
  | addblock hb h1 h2 h3 h4 ih =>
    obtain ⟨hi, -, -⟩ := hb.built.all hlaw
    exact ih.step (step_addblock hi.rep h4) (fun p hp => List.mem_append_left _ hp) fun p hp => hp
  | replace hb h1 h2 ih =>
    obtain ⟨hi, -, -⟩ := hb.built.all hlaw
    exact ih.step (step_addblock hi.rep h2) (fun p hp => hp) fun p hp => hp
  | connect hb h1 ih =>
    obtain ⟨hi, hE, -⟩ := hb.built.all hlaw
    exact ih.connect hi.rep (hE rfl).1 h1
  | terminate hb h1 h2 ih =>
    obtain ⟨hi, -, -⟩ := hb.built.all hlaw
    exact ih.step (step_terminate hi.rep h2) (fun p hp => hp) fun p hp => mem_used_load hp
  | deembed hb h1 h2 h3 h4 ih =>
    obtain ⟨hi, -, -⟩ := hb.built.all hlaw
    exact ih.step (step_deembed hi.rep h4) (fun p hp => by rw [nodes_deembed]; exact List.mem_append_left _ hp)
      fun p hp => mem_used_deembed hp
  | eval hb h1 ih =>
    obtain ⟨hi, -, -⟩ := hb.built.all hlaw
    exact ih.step (step_getS hlaw hi.rep h1) (fun p hp => hp) fun p hp => hp
  | used hb h1 ih =>
    exact ih.step (EqStep.refl' rfl rfl fun _ _ r' _ _ h => ⟨r', h, fun _ _ => rfl⟩) (fun p hp => hp) fun p hp => hp

/-! ## one line -/

theorem pick_ok {cols : ℕ} {r : ℕ → K} {l : List ℕ} (h : ∀ j ∈ l, j < cols) : pick cols r l = .ok (l.map fun j => (j, r j)) :=
  mapE_ok_of_forall fun j hj => if_pos (h j hj)

theorem sort_lt {l : List ℕ} (h : l.Nodup) : (l.mergeSort (· ≤ ·)).Pairwise (· < ·) := by
  have h1 : (l.mergeSort (· ≤ ·)).Pairwise (· ≤ ·) := by
    have := List.pairwise_mergeSort (le := fun a b : ℕ => decide (a ≤ b)) (by intro a b c; simp; omega) (by intro a b; simp; omega) l
    exact this.imp (by simp)
  have h2 : (l.mergeSort (· ≤ ·)).Nodup := (List.mergeSort_perm l _).nodup_iff.2 h
  exact h1.imp₂ (fun a b hab hne => lt_of_le_of_ne hab hne) h2

/-- a line whose columns are a list without repetition -/
theorem line_sorted {cols : ℕ} {r : ℕ → K} {l : List ℕ} (hlt : ∀ j ∈ l, j < cols) (hnd : l.Nodup) :
    ∃ cs, pick cols r (l.mergeSort (· ≤ ·)) = .ok cs ∧ (∀ x ∈ cs, x.1 < cols ∧ x.2 = r x.1) ∧
      (cs.map Prod.fst).Pairwise (· < ·) ∧ ∀ j, j ∈ cs.map Prod.fst ↔ j ∈ l := by
  have hm : ∀ j, j ∈ l.mergeSort (· ≤ ·) ↔ j ∈ l := fun j => List.mem_mergeSort
  refine ⟨_, pick_ok fun j hj => hlt j ((hm j).1 hj), ?_, ?_, ?_⟩
  · intro x hx
    simp only [List.mem_map] at hx
    obtain ⟨j, hj, rfl⟩ := hx
    exact ⟨hlt j ((hm j).1 hj), rfl⟩
  · rw [List.map_map]
    have : (Prod.fst ∘ fun j => (j, r j)) = id := rfl
    rw [this, List.map_id]
    exact sort_lt hnd
  · intro j
    rw [List.map_map]
    have : (Prod.fst ∘ fun j => (j, r j)) = id := rfl
    rw [this, List.map_id]
    exact hm j

/-- every equation gets its line; which lines are complete -/
theorem coefs_spec [CharZero K] (near1 : K → Bool) (h1 : near1 1 = true) (h2 : near1 (-1) = true)
    (hr : Rep ops net s) (hc : InvC net s C) {k : ℕ} {r : ℕ → K} {e : Eqn} (hk : s.rows[k]? = some r) (he : s.eqns[k]? = some e) :
    ∃ cs, coefsOf near1 s C k r e = .ok cs ∧ (∀ x ∈ cs, x.1 < s.cols ∧ x.2 = r x.1) ∧ (cs.map Prod.fst).Pairwise (· < ·) ∧
      ((∀ p, e ≠ .C p) → ∀ j, j < s.cols → r j ≠ 0 → j ∈ cs.map Prod.fst) ∧
      (∀ p, e = .C p → ((∀ k', k < k' → s.eqns[k']? ≠ some (.C p)) ∧ ∀ j, j < s.cols → r j ≠ 0 → j ∈ cs.map Prod.fst) ∨
        ((∃ k', k < k' ∧ s.eqns[k']? = some (.C p)) ∧
          ∃ o ∈ net.used, ∃ j, s.waves[j]? = some (.out, o) ∧ r j ≠ 0 ∧ j ∉ cs.map Prod.fst)) := by
  have hlw : s.waves.length = s.cols := hr.wlen
  cases e with
  | S n =>
    obtain ⟨b, hb, i, hi, rfl⟩ := hr.rep.eS' k n he
    have hn := hr.rep.eS b hb i hi
    have hn' : s.eqns[b.loc.1 + i]? = some (.S (.blk b.name b.ports[i])) := hn
    rw [he] at hn'
    injection hn' with hn'; injection hn' with hn'
    subst hn'
    have hfind : s.blocks.find? (fun x => x.name = b.name) = some b := by
      cases hf : s.blocks.find? (fun x => x.name = b.name) with
      | none => exact absurd (List.find?_eq_none.1 hf b hb) (by simp)
      | some b' =>
        have e1 := List.find?_some hf
        have e2 := List.mem_of_find?_eq_some hf
        simp only [decide_eq_true_eq] at e1
        rw [List.inj_on_of_nodup_map hr.rep.bnd e2 hb e1]
    obtain ⟨r', g1, g2⟩ := hr.rep.brow b hb i hi
    have g1' : s.rows[b.loc.1 + i]? = some r' := g1
    rw [hk] at g1'; injection g1' with g1'; subst g1'
    have hlast : b.loc.2 + b.ports.length + i < s.cols := by
      rw [← hlw]; exact (List.getElem?_eq_some_iff.1 (hr.rep.bcol b hb i hi).2).1
    have hidx : b.loc.2 + b.ports.length + (b.loc.1 + i) - b.loc.1 = b.loc.2 + b.ports.length + i := by omega
    have hslice : (List.range' b.loc.2 b.ports.length).filter (· < s.cols) = List.range' b.loc.2 b.ports.length := by
      refine List.filter_eq_self.2 fun j hj => ?_
      simp only [List.mem_range'_1] at hj
      simp only [decide_eq_true_eq]; omega
    refine ⟨(List.range' b.loc.2 b.ports.length).map (fun j => (j, r j)) ++ [(b.loc.2 + b.ports.length + i, r (b.loc.2 + b.ports.length + i))], ?_, ?_, ?_, ?_, ?_⟩
    · have hfind' : s.blocks.find? (fun x => decide (x.name = (Node.blk b.name b.ports[i]).head)) = some b := hfind
      unfold coefsOf
      simp only
      rw [hfind']
      simp only [hidx, hslice]
      rw [pick_ok (by simpa using hlast)]
      rfl
    · intro x hx
      simp only [List.mem_append, List.mem_map, List.mem_range'_1, List.mem_singleton] at hx
      rcases hx with ⟨j, hj, rfl⟩ | rfl
      · exact ⟨by omega, rfl⟩
      · exact ⟨hlast, rfl⟩
    · have hm : ((List.range' b.loc.2 b.ports.length).map (fun j => (j, r j)) ++
          [(b.loc.2 + b.ports.length + i, r (b.loc.2 + b.ports.length + i))]).map Prod.fst
          = List.range' b.loc.2 b.ports.length ++ [b.loc.2 + b.ports.length + i] := by
        simp [List.map_map, Function.comp_def]
      rw [hm, List.pairwise_append]
      refine ⟨List.pairwise_lt_range', by simp, ?_⟩
      intro a ha c hc
      simp only [List.mem_range'_1] at ha
      simp only [List.mem_singleton] at hc
      omega
    · intro _ j hj hne
      simp only [List.map_append, List.map_map, List.mem_append, List.mem_map, List.mem_range'_1, Function.comp, List.map_cons,
        List.map_nil, List.mem_singleton]
      by_cases ha : b.loc.2 ≤ j ∧ j < b.loc.2 + b.ports.length
      · exact Or.inl ⟨j, ha, rfl⟩
      · right
        have := g2 j (by show j < s.waves.length; omega) ha
        by_contra hc'
        rw [if_neg hc'] at this
        exact hne this
    · intro p hp; cases hp
  | C p =>
    obtain ⟨hp, A, Bs, g1, g2, g3, g4⟩ := hc.dC k r p hk he
    rw [hlw] at g3
    obtain ⟨cs, c1, c2, c3, c4⟩ := line_sorted (r := r) g3 g2
    refine ⟨cs, ?_, c2, c3, fun hne => absurd rfl (hne p), ?_⟩
    · simp only [coefsOf, dictIndex, g1]; exact c1
    · intro q hq
      injection hq with hq; subst hq
      rcases g4 with g4 | g4
      · exact Or.inl ⟨g4.last, fun j hj hne => (c4 j).2 (g4.supp j (by omega) hne)⟩
      · obtain ⟨o, ho, j, hj, hne, hni⟩ := g4.missing
        exact Or.inr ⟨g4.later, o, ho, j, hj, hne, fun hc => hni ((c4 j).1 hc)⟩
  | T p =>
    obtain ⟨a, b, hT⟩ := hr.rep.tT' k p he
    obtain ⟨l, hl⟩ := TRep_of_mem hr.rep hT
    obtain ⟨t1, t2, t3, t4, rho, r', t5, t6, t7⟩ := hl
    have t6' : s.rows[k]? = some r' := t6
    rw [hk] at t6'; injection t6' with t6'; subst t6'
    have hget : dictGet p s.T = some (a, b, k) := dictGet_of_mem hr.rep.tnd hT
    have ha : a < s.cols := by rw [← hlw]; exact (List.getElem?_eq_some_iff.1 t2).1
    have hb : b < s.cols := by rw [← hlw]; exact (List.getElem?_eq_some_iff.1 t3).1
    have hab : a ≠ b := idx_ne_of_wave t2 t3
    obtain ⟨cs, c1, c2, c3, c4⟩ := line_sorted (r := r) (l := [a, b]) (cols := s.cols)
      (by intro j hj; simp at hj; rcases hj with rfl | rfl <;> assumption) (by simpa using hab)
    refine ⟨cs, ?_, c2, c3, ?_, fun q hq => by cases hq⟩
    · simp only [coefsOf, dictIndex, hget]; exact c1
    · intro _ j hj hne
      rw [c4]
      have := t7 j (by show j < s.waves.length; omega)
      by_contra hc'
      simp only [List.mem_cons, List.not_mem_nil, or_false, not_or] at hc'
      apply hne
      rw [this]
      unfold tRow
      rw [setCol_ne hc'.2, setCol_ne hc'.1]
      rfl
  | E p =>
    obtain ⟨e1, a, r', e2, e3, e4⟩ := hr.rep.eE p k (hr.rep.eE' k p he)
    have e3' : s.rows[k]? = some r' := e3
    rw [hk] at e3'; injection e3' with e3'; subst e3'
    have hmem : (Dir.inn, p) ∈ s.waves := List.mem_of_getElem? e2
    have hai : idx s.waves (.inn, p) = a := getElem?_inj_of_nodup hr.rep.wnd (getElem?_idx hmem) e2
    have ha : a < s.cols := by rw [← hlw]; exact (List.getElem?_eq_some_iff.1 e2).1
    refine ⟨[(a, r a)], ?_, ?_, by simp, ?_, fun q hq => by cases hq⟩
    · simp only [coefsOf, pyIndex_of_mem hmem, hai]
      rw [pick_ok (by simpa using ha)]; rfl
    · intro x hx; simp only [List.mem_singleton] at hx; subst hx; exact ⟨ha, rfl⟩
    · intro _ j hj hne
      have := e4 j (by show j < s.waves.length; omega)
      by_contra hc'
      simp only [List.map_cons, List.map_nil, List.mem_singleton] at hc'
      apply hne
      rw [this]
      unfold eRow
      rw [setCol_ne hc']; rfl
  | Di p =>
    refine ⟨_, rfl, ?_, ?_, ?_, fun q hq => by cases hq⟩
    · intro x hx
      simp only [List.mem_map, List.mem_filter, List.mem_range] at hx
      obtain ⟨j, ⟨hj, -⟩, rfl⟩ := hx
      exact ⟨hj, rfl⟩
    · rw [List.map_map]
      have : (Prod.fst ∘ fun j => (j, r j)) = id := rfl
      rw [this, List.map_id]
      exact List.pairwise_lt_range.filter _
    · intro _ j hj hne
      rw [List.map_map]
      have : (Prod.fst ∘ fun j => (j, r j)) = id := rfl
      rw [this, List.map_id, List.mem_filter, List.mem_range]
      refine ⟨hj, ?_⟩
      rcases hc.dD k r _ hk he trivial j (by omega) with h | h | h
      · exact absurd h hne
      · rw [h, h1]
      · rw [h, h2]
  | De p =>
    refine ⟨_, rfl, ?_, ?_, ?_, fun q hq => by cases hq⟩
    · intro x hx
      simp only [List.mem_map, List.mem_filter, List.mem_range] at hx
      obtain ⟨j, ⟨hj, -⟩, rfl⟩ := hx
      exact ⟨hj, rfl⟩
    · rw [List.map_map]
      have : (Prod.fst ∘ fun j => (j, r j)) = id := rfl
      rw [this, List.map_id]
      exact List.pairwise_lt_range.filter _
    · intro _ j hj hne
      rw [List.map_map]
      have : (Prod.fst ∘ fun j => (j, r j)) = id := rfl
      rw [this, List.map_id, List.mem_filter, List.mem_range]
      refine ⟨hj, ?_⟩
      rcases hc.dD k r _ hk he trivial j (by omega) with h | h | h
      · exact absurd h hne
      · rw [h, h1]
      · rw [h, h2]

/-! ## the list of equations -/

theorem forall₂_get {α β : Type*} {R : α → β → Prop} {l : List α} {m : List β} (h : List.Forall₂ R l m) {k : ℕ} {y : β}
    (hy : m[k]? = some y) : ∃ x, l[k]? = some x ∧ R x y := by
  induction h generalizing k with
  | nil => simp at hy
  | cons h1 _ ih =>
    cases k with
    | zero => simp only [List.getElem?_cons_zero, Option.some.injEq] at hy ⊢; subst hy; exact ⟨_, rfl, h1⟩
    | succ k => simp only [List.getElem?_cons_succ] at hy ⊢; exact ih hy

theorem lines_spec [CharZero K] (hlaw : Lawful ops beh) (h : BuiltC ops beh nan zb names net bh s C ph) (near1 : K → Bool)
    (h1 : near1 1 = true) (h2 : near1 (-1) = true) :
    ∃ ls, listEqs near1 s C = .ok ls ∧ ls.length = s.rows.length ∧
      ∀ (k : ℕ) (l : Line K), ls[k]? = some l → l.k = k ∧ s.waves[k]? = some l.wave ∧ s.eqns[k]? = some l.eqn ∧
        ∃ r, s.rows[k]? = some r ∧ l.True s.cols r ∧ ((∀ p, l.eqn ≠ .C p) → l.Complete s.cols r) ∧
        ∀ p, l.eqn = .C p → ((∀ k', k < k' → s.eqns[k']? ≠ some (.C p)) ∧ l.Complete s.cols r) ∨
          ((∃ k', k < k' ∧ s.eqns[k']? = some (.C p)) ∧
            ∃ o ∈ net.used, ∃ j, s.waves[j]? = some (.out, o) ∧ r j ≠ 0 ∧ j ∉ l.coefs.map Prod.fst) := by
  obtain ⟨hi, -, -⟩ := h.built.all hlaw
  have hc := h.inv hlaw
  have hr := hi.rep
  have hel : s.eqns.length = s.rows.length := hr.rep.elen
  have hcount : s.rows.length + s.ports.length + 0 = s.waves.length + s.E.length := hr.rep.count
  have hElen : s.E.length ≤ s.ports.length := by
    rcases hr.rep.ekeys with hE | ⟨-, hE⟩
    · have : s.E = [] := hE
      rw [this]; simp
    · have hsub : (s.E.map Prod.fst) ⊆ s.ports := fun p hp => (hE p).1 hp
      have := (List.subperm_of_subset hr.rep.ednd hsub).length_le
      rw [List.length_map] at this
      exact this
  have hall : ∀ x ∈ (s.rows.zip s.eqns).zipIdx, ∃ l, lineOf near1 s C x = .ok l := by
    rintro ⟨⟨r, e⟩, k⟩ hx
    rw [List.mem_zipIdx_iff_getElem?, List.getElem?_zip_eq_some] at hx
    obtain ⟨cs, c1, -⟩ := coefs_spec near1 h1 h2 hr hc hx.1 hx.2
    have hk : k < s.rows.length := (List.getElem?_eq_some_iff.1 hx.1).1
    have hkw : k < s.waves.length := by omega
    refine ⟨⟨k, s.waves[k], e, cs⟩, ?_⟩
    unfold lineOf
    simp only [List.getElem?_eq_getElem hkw, c1]
    rfl
  have hok : ∃ ls, listEqs near1 s C = .ok ls := by
    cases hL : listEqs near1 s C with
    | ok ls => exact ⟨ls, rfl⟩
    | error e =>
      obtain ⟨x, hx, he⟩ := mapE_eq_error hL
      obtain ⟨l, hl⟩ := hall x hx
      rw [he] at hl; cases hl
  obtain ⟨ls, hls⟩ := hok
  have hF := mapE_eq_ok.1 hls
  refine ⟨ls, hls, ?_, ?_⟩
  · rw [← hF.length_eq, List.length_zipIdx, List.length_zip, hel, min_self]
  · intro k l hl
    obtain ⟨⟨⟨r, e⟩, k'⟩, hx, hlo⟩ := forall₂_get hF hl
    rw [List.getElem?_zipIdx] at hx
    cases hz : (s.rows.zip s.eqns)[k]? with
    | none => rw [hz] at hx; simp at hx
    | some y =>
      rw [hz] at hx
      simp only [Option.map_some, Nat.zero_add, Option.some.injEq, Prod.mk.injEq] at hx
      obtain ⟨rfl, rfl⟩ := hx
      obtain ⟨hrk, hek⟩ := List.getElem?_zip_eq_some.1 hz
      obtain ⟨cs, c1, c2, c3, c4, c5⟩ := coefs_spec near1 h1 h2 hr hc hrk hek
      unfold lineOf at hlo
      simp only at hlo
      cases hw : s.waves[k]? with
      | none => rw [hw] at hlo; simp at hlo
      | some w =>
        rw [hw] at hlo
        simp only [c1] at hlo
        injection hlo with hlo
        subst hlo
        exact ⟨rfl, rfl, hek, r, hrk, ⟨c2, c3⟩, c4, c5⟩

/-- **C68.**  In every history the equations of a circuit can be listed: there is one line for each equation, in order, with the number
and the label of the equation; each coefficient shown is the coefficient the circuit solves with, no column is shown twice.  A line shows
all coefficients that are not zero, except (see `C68_reconnected_wrong`) when it belongs to a junction port that was connected again.
`near1` is the test of line 169, of which only is used that 1 and -1 pass. -/
theorem C68_lines_partial [CharZero K] (hlaw : Lawful ops beh) (h : BuiltC ops beh nan zb names net bh s C ph) (near1 : K → Bool)
    (h1 : near1 1 = true) (h2 : near1 (-1) = true) :
    ∃ ls, listEqs near1 s C = .ok ls ∧ ls.length = s.rows.length ∧
      ∀ (k : ℕ) (l : Line K), ls[k]? = some l → l.k = k ∧ s.waves[k]? = some l.wave ∧ s.eqns[k]? = some l.eqn ∧
        ∃ r, s.rows[k]? = some r ∧ l.True s.cols r ∧
        ((∀ p, l.eqn = .C p → ∀ k', k < k' → s.eqns[k']? ≠ some (.C p)) → l.Complete s.cols r) := by
  obtain ⟨ls, g1, g2, g3⟩ := lines_spec hlaw h near1 h1 h2
  refine ⟨ls, g1, g2, fun k l hl => ?_⟩
  obtain ⟨a1, a2, a3, r, a4, a5, a6, a7⟩ := g3 k l hl
  refine ⟨a1, a2, a3, r, a4, a5, fun hlast => ?_⟩
  by_cases hC : ∃ p, l.eqn = .C p
  · obtain ⟨p, hp⟩ := hC
    rcases a7 p hp with ⟨-, hcom⟩ | ⟨⟨k', hk', he'⟩, -⟩
    · exact hcom
    · exact absurd he' (hlast p hp k' hk')
  · exact a6 fun p hp => hC ⟨p, hp⟩

/-- **C68 is violated**: when a port that `connect` made is connected again, the line of its first equation takes the columns of the
second junction.  In every such circuit it leaves out a coefficient that is not zero, that of a port of the first junction. -/
theorem C68_reconnected_wrong [CharZero K] (hlaw : Lawful ops beh) (h : BuiltC ops beh nan zb names net bh s C ph) (near1 : K → Bool)
    (h1 : near1 1 = true) (h2 : near1 (-1) = true) {ls : List (Line K)} (hls : listEqs near1 s C = .ok ls) {k k' : ℕ} {p : Node}
    (hk : s.eqns[k]? = some (.C p)) (hk' : s.eqns[k']? = some (.C p)) (hlt : k < k') :
    ∃ l r, ls[k]? = some l ∧ s.rows[k]? = some r ∧ ¬ l.Complete s.cols r ∧
      ∃ o ∈ net.used, ∃ j, s.waves[j]? = some (.out, o) ∧ r j ≠ 0 ∧ j ∉ l.coefs.map Prod.fst := by
  obtain ⟨ls', g1, g2, g3⟩ := lines_spec hlaw h near1 h1 h2
  rw [hls] at g1; injection g1 with g1; subst g1
  obtain ⟨hi, -, -⟩ := h.built.all hlaw
  have hel : s.eqns.length = s.rows.length := hi.rep.rep.elen
  have hkl : k < ls.length := by rw [g2, ← hel]; exact (List.getElem?_eq_some_iff.1 hk).1
  obtain ⟨a1, a2, a3, r, a4, a5, a6, a7⟩ := g3 k ls[k] (List.getElem?_eq_getElem hkl)
  have hp : ls[k].eqn = .C p := by rw [hk] at a3; injection a3 with a3; exact a3.symm
  rcases a7 p hp with ⟨hl, -⟩ | ⟨-, o, ho, j, hj, hne, hni⟩
  · exact absurd hk' (hl k' hlt)
  · refine ⟨ls[k], r, List.getElem?_eq_getElem hkl, a4, fun hc => ?_, o, ho, j, hj, hne, hni⟩
    refine hni (hc j ?_ hne)
    rw [← hi.rep.wlen]; exact (List.getElem?_eq_some_iff.1 hj).1

/-- **C68.**  The equations shown are the laws of the network.  After an evaluation that had to compute and succeeded, in a circuit in which no
port was connected twice, waves satisfy all equations shown, those of the external ports aside, exactly when they satisfy the block
equations, Kirchhoff's laws, the loads and the deembedding ties of the network described by the calls. -/
theorem C68_equations_are_laws [CharZero K] (hlaw : Lawful ops beh) (h : BuiltC ops beh nan zb names net bh s C ph) (near1 : K → Bool)
    (h1 : near1 1 = true) (h2 : near1 (-1) = true) {f : F} {z : Option K} {fl : Fl} {M : SMat K} (hm : Misses s f fl)
    (hs : getS ops s f z fl = (s', .ok M)) (hlast0 : ∀ (k k' : ℕ) (p : Node), s.eqns[k]? = some (Eqn.C p) → s.eqns[k']? = some (Eqn.C p) → k = k')
    {Sof : String → SMat K} (hg : Given net bh f zb fl Sof) :
    ∃ ls, listEqs near1 s' C = .ok ls ∧
      ∀ w : Wave → K, (∀ l ∈ ls, (∀ p, l.eqn ≠ .E p) → l.eval s'.waves w = 0) ↔ net.Laws zb Sof w := by
  obtain ⟨hi, -, -⟩ := h.built.all hlaw
  have h' : BuiltC ops beh nan zb names net bh s' C (afterEval ph s f fl (.ok M)) := .eval h hs
  obtain ⟨ls, g1, g2, g3⟩ := C68_lines_partial hlaw h' near1 h1 h2
  obtain ⟨hi', -, -⟩ := h'.built.all hlaw
  have st := step_getS hlaw hi.rep hs
  have hback : ∀ (i : ℕ) (p : Node), s'.eqns[i]? = some (Eqn.C p) → s.eqns[i]? = some (Eqn.C p) := by
    intro i p hp
    rcases st.back i (Eqn.C p) trivial hp with hb | ⟨hd, -⟩
    · exact hb
    · exact hd.elim
  have hlast : ∀ (k k' : ℕ) (p : Node), s'.eqns[k]? = some (Eqn.C p) → s'.eqns[k']? = some (Eqn.C p) → k = k' :=
    fun k k' p ha hb => hlast0 k k' p (hback k p ha) (hback k' p hb)
  refine ⟨ls, g1, fun w => ?_⟩
  -- the matrices of the blocks are in place
  have hrec : ∃ M', recompute ops s f fl = (s', .ok M') := by
    have hg1 : get1S ops s f fl = recompute ops s f fl := by
      rcases get1S_eq (ops := ops) s f fl with ⟨M0, a, b, c, -⟩ | ⟨-, e⟩
      · rcases hm with hm | hm | hm
        · rw [hm] at a; cases a
        · exact absurd b hm
        · exact absurd c hm
      · exact e
    unfold getS at hs
    rw [hg1] at hs
    cases hx : recompute ops s f fl with
    | mk t q =>
      cases q with
      | error e => simp [hx] at hs
      | ok M' =>
        simp only [hx] at hs
        cases z with
        | none => simp only [Prod.mk.injEq] at hs; exact ⟨M', by rw [hs.1]⟩
        | some z =>
          simp only at hs
          split at hs
          · injection hs with hs _; exact ⟨M', by rw [hs]⟩
          · injection hs with hs _; exact ⟨M', by rw [hs]⟩
  obtain ⟨M', hrec⟩ := hrec
  obtain ⟨-, hok, -, -⟩ := recompute_spec hlaw hi f fl hrec
  obtain ⟨-, -, -, -, -, -, -, -, hfill⟩ := hok M' rfl
  obtain ⟨hf, -⟩ := hfill Sof hg
  have hlaws := hi'.rep.rep.laws_iff (c := s'.core) hf w
  have hzb : s'.core.zbase = zb := hi'.zb
  rw [hzb] at hlaws
  rw [← hlaws]
  have hel : s'.eqns.length = s'.rows.length := hi'.rep.rep.elen
  have hlw : s'.waves.length = s'.cols := hi'.rep.wlen
  have hline : ∀ (k : ℕ) (l : Line K), ls[k]? = some l → s'.eqns[k]? = some l.eqn ∧
      ∃ r, s'.rows[k]? = some r ∧ l.eval s'.waves w = rowEval s'.waves r w := by
    intro k l hl
    obtain ⟨-, -, a3, r, a4, a5, a6⟩ := g3 k l hl
    refine ⟨a3, r, a4, Line.eval_eq (by rw [hlw]; exact a5) ?_ w⟩
    rw [hlw]
    refine a6 fun p hp k' hk' hc => ?_
    have := hlast k k' p (by rw [a3, hp]) hc
    omega
  constructor
  · intro H i r e hr he hne
    have hil : i < ls.length := by rw [g2]; exact (List.getElem?_eq_some_iff.1 hr).1
    obtain ⟨b1, r', b2, b3⟩ := hline i ls[i] (List.getElem?_eq_getElem hil)
    have hr' : s'.rows[i]? = some r := hr
    have he' : s'.eqns[i]? = some e := he
    rw [hr'] at b2; injection b2 with b2; subst b2
    rw [he'] at b1; injection b1 with b1
    show rowEval s'.waves r w = 0
    rw [← b3]
    exact H ls[i] (List.getElem_mem hil) (by rw [← b1]; exact hne)
  · intro H l hl hne
    obtain ⟨k, hk⟩ := List.getElem?_of_mem hl
    obtain ⟨b1, r, b2, b3⟩ := hline k l hk
    rw [b3]
    exact H k r l.eqn b2 b1 hne

/-- **C68.**  The listing has a line for each unknown: as long as the circuit has not been evaluated, below the equations stand all open
ports, in order, numbered on; after an evaluation that got to the external ports there are as many equations as unknowns and no open
ports. -/
theorem C68_open_ports [CharZero K] (hlaw : Lawful ops beh) (h : BuiltC ops beh nan zb names net bh s C ph) :
    (s.E = [] → (openPorts s).map Prod.snd = s.ports ∧ (openPorts s).map (fun x => x.1.1) = List.range' s.rows.length s.ports.length ∧
      s.rows.length + (openPorts s).length = s.waves.length) ∧
    (s.E ≠ [] → openPorts s = [] ∧ s.rows.length = s.waves.length) ∧ (ph = .building → s.E = []) := by
  obtain ⟨hi, hb, -⟩ := h.built.all hlaw
  have hr := hi.rep
  have hcount : s.rows.length + s.ports.length + 0 = s.waves.length + s.E.length := hr.rep.count
  refine ⟨fun hE => ?_, fun hE => ?_, fun hp => (hb hp).1⟩
  · have hlen : s.rows.length + s.ports.length = s.waves.length := by rw [hE] at hcount; simpa using hcount
    have hl1 : (((s.waves.zipIdx).drop s.rows.length).map fun x => (x.2, x.1)).length = s.ports.length := by
      simp; omega
    refine ⟨?_, ?_, ?_⟩
    · unfold openPorts
      exact List.map_snd_zip hl1.ge
    · have : (openPorts s).map (fun x => x.1.1) = ((openPorts s).map Prod.fst).map Prod.fst := by rw [List.map_map]; rfl
      rw [this]
      unfold openPorts
      rw [List.map_fst_zip hl1.le, List.map_map]
      have e1 : (Prod.fst ∘ fun x : Wave × ℕ => (x.2, x.1)) = Prod.snd := rfl
      rw [e1, List.map_drop, List.zipIdx_map_snd]
      rw [List.drop_range']
      congr 1
      · omega
      · omega
    · unfold openPorts
      rw [List.length_zip, hl1, min_self]; exact hlen
  · rcases hr.rep.ekeys with hE' | ⟨-, hk⟩
    · exact absurd hE' hE
    · have hperm : List.Perm (s.E.map Prod.fst) s.ports := (List.perm_ext_iff_of_nodup hr.rep.ednd hr.rep.pnd).2 hk
      have := hperm.length_eq
      rw [List.length_map] at this
      have hlen : s.rows.length = s.waves.length := by omega
      refine ⟨?_, hlen⟩
      unfold openPorts
      rw [List.drop_eq_nil_of_le (by simp [hlen])]
      rfl

/-! ## the blocks -/

/-- **C68 is violated**: a circuit with a block given as an array (or a list) cannot be listed: the call raises. -/
theorem C68_array_raises [CharZero K] (hlaw : Lawful ops beh) (h : BuiltC ops beh nan zb names net bh s C ph) (near1 : K → Bool)
    (h1 : near1 1 = true) (h2 : near1 (-1) = true) (sh : ShowOps O) {b : Blk O} (hb : b ∈ s.blocks) (hp : b.ports ≠ [])
    (ha : sh.isArray b.obj = true) :
    (∃ e, listing near1 sh s C = .error e) ∧
    ((∀ b' ∈ s.blocks, sh.isArray b'.obj = false → ∃ t, showBlk sh b' = .ok t) → (∀ b' ∈ s.blocks, b'.ports ≠ []) →
      listing near1 sh s C = .error .typeError) := by
  obtain ⟨hi, -, -⟩ := h.built.all hlaw
  obtain ⟨ls, g1, -⟩ := lines_spec hlaw h near1 h1 h2
  have hrows : s.rows ≠ [] := by
    intro hc
    obtain ⟨r, hr, -⟩ := hi.rep.rep.brow b hb 0 (List.length_pos_iff.2 hp)
    have hr' : s.rows[b.loc.1 + 0]? = some r := hr
    rw [hc] at hr'; simp at hr'
  have hsb : showBlk sh b = .error .typeError := by
    unfold showBlk; rw [if_neg hp, if_pos ha]
  obtain ⟨e', he'⟩ := mapE_error_of_mem hb hsb
  constructor
  · refine ⟨e', ?_⟩
    unfold listing
    rw [if_neg hrows, g1]
    simp only [he']
  · intro hall hpo
    obtain ⟨x, hx, hxe⟩ := mapE_eq_error he'
    have : e' = .typeError := by
      cases hax : sh.isArray x.obj with
      | false => obtain ⟨t, ht⟩ := hall x hx hax; rw [hxe] at ht; cases ht
      | true =>
        unfold showBlk at hxe
        rw [if_neg (hpo x hx), if_pos hax] at hxe
        injection hxe with hxe; exact hxe.symm
    unfold listing
    rw [if_neg hrows, g1]
    simp only [he', this]

/-- **C68.**  In a circuit of objects that have positions and can show themselves the whole listing succeeds, with one entry for each block, in
the order they were added, and the position shown for a port is the one `getpos` gives. -/
theorem C68_blocks [CharZero K] (hlaw : Lawful ops beh) (h : BuiltC ops beh nan zb names net bh s C ph) (near1 : K → Bool)
    (h1 : near1 1 = true) (h2 : near1 (-1) = true) (sh : ShowOps O) (hne : s.rows ≠ [])
    (hobj : ∀ b ∈ s.blocks, b.ports ≠ [] ∧ sh.isArray b.obj = false ∧ (∃ xs, sh.xpos b.obj = some xs ∧ ops.xpos b.obj = some xs ∧ xs.length = b.ports.length) ∧
      (∀ ps, sh.ports b.obj = some ps → ps.length = b.ports.length) ∧ ∃ t, sh.str b.obj = .ok t) :
    ∃ ls bs, listEqs near1 s C = .ok ls ∧ listing near1 sh s C = .ok (ls, openPorts s, bs) ∧
      bs.map BlkText.name = s.blocks.map Blk.name ∧
      List.Forall₂ (fun (b : Blk O) (t : BlkText) => t.ports.map Prod.fst = b.ports ∧
        (∀ x ∈ t.ports, getpos ops s (.blk b.name x.1) = .ok x.2.2) ∧ sh.str b.obj = .ok t.text ∧
        t.ports.map (fun x => x.2.1) = (sh.ports b.obj).getD (b.ports.map fun _ => "-")) s.blocks bs := by
  obtain ⟨hi, -, -⟩ := h.built.all hlaw
  obtain ⟨ls, g1, -⟩ := lines_spec hlaw h near1 h1 h2
  have hnd : ∀ b ∈ s.blocks, b.ports.Nodup := by
    intro b hb
    rw [List.nodup_iff_injective_get]
    rintro ⟨i, hi1⟩ ⟨j, hj1⟩ hij
    have e1 := (hi.rep.rep.bcol b hb i hi1).1
    have e2 := (hi.rep.rep.bcol b hb j hj1).1
    have hij' : b.ports[i] = b.ports[j] := hij
    rw [hij'] at e1
    have := getElem?_inj_of_nodup hi.rep.rep.wnd e1 e2
    exact Fin.ext (by show i = j; omega)
  have hone : ∀ b ∈ s.blocks, ∃ t, showBlk sh b = .ok t ∧ t.name = b.name ∧ t.ports.map Prod.fst = b.ports ∧
      (∀ x ∈ t.ports, getpos ops s (.blk b.name x.1) = .ok x.2.2) ∧ sh.str b.obj = .ok t.text ∧
        t.ports.map (fun x => x.2.1) = (sh.ports b.obj).getD (b.ports.map fun _ => "-") := by
    intro b hb
    obtain ⟨hp, ha, ⟨xs, hx, hx', hxl⟩, hps, t, ht⟩ := hobj b hb
    have hol : ((sh.ports b.obj).getD (b.ports.map fun _ => "-")).length = b.ports.length := by
      cases hq : sh.ports b.obj with
      | none => simp
      | some ps => simpa using hps ps hq
    have hone : (sh.ports b.obj).getD (b.ports.map fun _ => "-") ≠ [] := by
      intro hc; rw [hc] at hol; exact hp (List.length_eq_zero_iff.1 hol.symm)
    refine ⟨⟨b.name, (b.ports.zip (((sh.ports b.obj).getD (b.ports.map fun _ => "-")).zip xs)).map fun x => (x.1, x.2.1, x.2.2 + b.relpos), t⟩,
      ?_, rfl, ?_, ?_, ht, ?_⟩
    · unfold showBlk
      rw [if_neg hp, if_neg (by simp [ha])]
      simp only
      rw [if_neg hone, hx]
      simp only [ht]
    · simp only [List.map_map]
      have e : (Prod.fst ∘ fun x : String × String × ℚ => (x.1, x.2.1, x.2.2 + b.relpos)) = Prod.fst := rfl
      rw [e, List.map_fst_zip (by rw [List.length_zip, hol, hxl, min_self])]
    · intro x hxm
      simp only [List.mem_map] at hxm
      obtain ⟨y, hy, rfl⟩ := hxm
      obtain ⟨m, hm⟩ := List.getElem?_of_mem hy
      rw [List.getElem?_zip_eq_some] at hm
      obtain ⟨hm1, hm2⟩ := hm
      obtain ⟨-, hm3⟩ := List.getElem?_zip_eq_some.1 hm2
      have hfind : s.blocks.find? (fun x => x.name = b.name) = some b := by
        cases hf : s.blocks.find? (fun x => x.name = b.name) with
        | none => exact absurd (List.find?_eq_none.1 hf b hb) (by simp)
        | some b' =>
          have e1 := List.find?_some hf
          have e2 := List.mem_of_find?_eq_some hf
          simp only [decide_eq_true_eq] at e1
          rw [List.inj_on_of_nodup_map hi.rep.rep.bnd e2 hb e1]
      have hmem : y.1 ∈ b.ports := List.mem_of_getElem? hm1
      have hix : idx b.ports y.1 = m := getElem?_inj_of_nodup (hnd b hb) (getElem?_idx hmem) hm1
      unfold getpos
      simp only [hfind, pyIndex_of_mem hmem, hix, hx', hm3]
      rw [add_comm]
    · simp only [List.map_map]
      have e : ((fun x : String × String × ℚ => x.2.1) ∘ fun x : String × String × ℚ => (x.1, x.2.1, x.2.2 + b.relpos))
          = Prod.fst ∘ Prod.snd := rfl
      rw [e, ← List.map_map, List.map_snd_zip (by rw [List.length_zip, hol, hxl, min_self]), List.map_fst_zip (by rw [hol, hxl])]
  have hok : ∃ bs, mapE (showBlk sh) s.blocks = .ok bs := by
    cases hL : mapE (showBlk sh) s.blocks with
    | ok ls => exact ⟨ls, rfl⟩
    | error e =>
      obtain ⟨x, hx, he⟩ := mapE_eq_error hL
      obtain ⟨t, ht, -⟩ := hone x hx
      rw [he] at ht; cases ht
  obtain ⟨bs, hbs⟩ := hok
  have hF := mapE_eq_ok.1 hbs
  refine ⟨ls, bs, g1, ?_, ?_, ?_⟩
  · unfold listing
    rw [if_neg hne, g1]
    simp only [hbs]
  · clear hbs
    have key : ∀ (l : List (Blk O)) (m : List BlkText), (∀ b ∈ l, b ∈ s.blocks) → List.Forall₂ (fun x y => showBlk sh x = .ok y) l m →
        m.map BlkText.name = l.map Blk.name := by
      intro l m hsub hF
      induction hF with
      | nil => rfl
      | @cons a c l m h1 _ ih =>
        obtain ⟨t, ht, hn, -⟩ := hone a (hsub a List.mem_cons_self)
        rw [h1] at ht; injection ht with ht; subst ht
        simp only [List.map_cons, hn, ih fun b hb => hsub b (List.mem_cons_of_mem _ hb)]
    exact key _ _ (fun b hb => hb) hF
  · have key : ∀ (l : List (Blk O)) (m : List BlkText), (∀ b ∈ l, b ∈ s.blocks) → List.Forall₂ (fun x y => showBlk sh x = .ok y) l m →
        List.Forall₂ (fun (b : Blk O) (t : BlkText) => t.ports.map Prod.fst = b.ports ∧
        (∀ x ∈ t.ports, getpos ops s (.blk b.name x.1) = .ok x.2.2) ∧ sh.str b.obj = .ok t.text ∧
        t.ports.map (fun x => x.2.1) = (sh.ports b.obj).getD (b.ports.map fun _ => "-")) l m := by
      intro l m hsub hF
      induction hF with
      | nil => exact .nil
      | @cons a c l m h1 _ ih =>
        obtain ⟨t, ht, -, hrest⟩ := hone a (hsub a List.mem_cons_self)
        rw [h1] at ht; injection ht with ht; subst ht
        exact .cons hrest (ih fun b hb => hsub b (List.mem_cons_of_mem _ hb))
    exact key _ _ (fun b hb => hb) hF

end
end PyRFtk.Circuit
