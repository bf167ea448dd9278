import Verif.CircuitProps

/-!
# Properties C21, C28, C29: building order, single use of ports, order of the external ports
-/

set_option linter.unusedSectionVars false

namespace PyRFtk.Circuit

section
variable {K O F Fl : Type*} [Field K] [DecidableEq F] [DecidableEq Fl]
variable {ops : ObjOps K O F Fl} {beh : O → F → K → Fl → Except Err (SMat K)} {nan zb : K} {names : List Node}
variable {net : Net K} {bh : Behave K F Fl} {s s' : St K O F Fl} {ph : Phase}

/-! ## C21 -/

/-- the same junction, its members possibly listed in another order -/
def Junction.Equiv (j j' : Junction) : Prop := j.members.Perm j'.members ∧ j.new = j'.new

/-- the same network: the same blocks, junctions, loads and deembeddings, listed in any order -/
structure Net.Same (net net' : Net K) : Prop where
  blks : net.blks.Perm net'.blks
  juncs : ∃ js, net.juncs.Perm js ∧ List.Forall₂ Junction.Equiv js net'.juncs
  loads : net.loads.Perm net'.loads
  crosses : net.crosses.Perm net'.crosses
  sames : net.sames.Perm net'.sames

theorem Junction.Equiv.law {j j' : Junction} (h : j.Equiv j') (w : Wave → K) : j.Law w ↔ j'.Law w := by
  obtain ⟨h1, h2⟩ := h
  unfold Junction.Law
  rw [← h2]
  have hp : (j.members ++ j.new.toList).Perm (j'.members ++ j.new.toList) := h1.append_right _
  refine and_congr ?_ ?_
  · constructor
    · intro H p hp' q hq; exact H p (hp.mem_iff.2 hp') q (hp.mem_iff.2 hq)
    · intro H p hp' q hq; exact H p (hp.mem_iff.1 hp') q (hp.mem_iff.1 hq)
  · rw [(h1.map (curr w)).sum_eq]

theorem Net.Same.juncs_left {net' : Net K} (h : net.Same net') {j : Junction} (hj : j ∈ net.juncs) :
    ∃ j' ∈ net'.juncs, j.Equiv j' := by
  obtain ⟨js, h1, h2⟩ := h.juncs
  exact forall₂_mem_left h2 (h1.mem_iff.1 hj)

theorem Net.Same.juncs_right {net' : Net K} (h : net.Same net') {j' : Junction} (hj : j' ∈ net'.juncs) :
    ∃ j ∈ net.juncs, j.Equiv j' := by
  obtain ⟨js, h1, h2⟩ := h.juncs
  obtain ⟨j, h3, h4⟩ := forall₂_mem_right h2 hj
  exact ⟨j, h1.mem_iff.2 h3, h4⟩

theorem Net.Same.laws {net' : Net K} (h : net.Same net') (zb : K) (Sof : String → SMat K) (w : Wave → K) :
    net.Laws zb Sof w ↔ net'.Laws zb Sof w := by
  unfold Net.Laws Net.CoreLaws
  refine and_congr ?_ (and_congr (and_congr ?_ (and_congr ?_ ?_)) ?_)
  · exact ⟨fun H x hx => H x (h.blks.mem_iff.2 hx), fun H x hx => H x (h.blks.mem_iff.1 hx)⟩
  · constructor
    · intro H j' hj'
      obtain ⟨j, hj, he⟩ := h.juncs_right hj'
      exact (he.law w).1 (H j hj)
    · intro H j hj
      obtain ⟨j', hj', he⟩ := h.juncs_left hj
      exact (he.law w).2 (H j' hj')
  · exact ⟨fun H x hx => H x (h.crosses.mem_iff.2 hx), fun H x hx => H x (h.crosses.mem_iff.1 hx)⟩
  · exact ⟨fun H x hx => H x (h.sames.mem_iff.2 hx), fun H x hx => H x (h.sames.mem_iff.1 hx)⟩
  · exact ⟨fun H x hx => H x (h.loads.mem_iff.2 hx), fun H x hx => H x (h.loads.mem_iff.1 hx)⟩

theorem Net.Same.used {net' : Net K} (h : net.Same net') (p : Node) : p ∈ net.used ↔ p ∈ net'.used := by
  unfold Net.used
  simp only [List.mem_append, List.mem_flatMap, List.mem_map]
  refine or_congr (or_congr (or_congr ?_ ?_) ?_) ?_
  · constructor
    · rintro ⟨j, hj, hp⟩
      obtain ⟨j', hj', he⟩ := h.juncs_left hj
      exact ⟨j', hj', he.1.mem_iff.1 hp⟩
    · rintro ⟨j', hj', hp⟩
      obtain ⟨j, hj, he⟩ := h.juncs_right hj'
      exact ⟨j, hj, he.1.mem_iff.2 hp⟩
  · simp only [h.crosses.mem_iff]
  · simp only [h.sames.mem_iff]
  · simp only [h.loads.mem_iff]

/-- the nodes come from blocks, junctions and deembeddings -/
def Net.Sourced (net : Net K) : Prop := ∀ n, n ∈ net.nodes ↔
  (∃ x ∈ net.blks, ∃ p ∈ x.2, n = .blk x.1 p) ∨ (∃ j ∈ net.juncs, j.new = some n) ∨ ∃ x ∈ net.crosses, n = x.2

theorem Net.Sourced.cross (h : net.Sourced) (x : Node × Node) : (net.cross x).Sourced := by
  intro n
  simp only [Net.cross, List.mem_append, List.mem_singleton, h n]
  constructor
  · rintro ((h1 | h1 | ⟨y, hy, h1⟩) | h1)
    · exact Or.inl h1
    · exact Or.inr (Or.inl h1)
    · exact Or.inr (Or.inr ⟨y, Or.inl hy, h1⟩)
    · exact Or.inr (Or.inr ⟨x, Or.inr rfl, h1⟩)
  · rintro (h1 | h1 | ⟨y, hy | rfl, h1⟩)
    · exact Or.inl (Or.inl h1)
    · exact Or.inl (Or.inr (Or.inl h1))
    · exact Or.inl (Or.inr (Or.inr ⟨y, hy, h1⟩))
    · exact Or.inr h1

theorem Built.sourced (h : Built ops beh nan zb names net bh s ph) : net.Sourced := by
  induction h with
  | init bh => intro n; simp [Net.empty]
  | @addblock net bh s s' name obj spec relpos ports _ _ _ _ _ ih =>
    intro n
    simp only [Net.addBlk, List.mem_append, List.mem_singleton, List.mem_map, ih n]
    constructor
    · rintro ((⟨x, hx, h1⟩ | h1) | ⟨p, hp, rfl⟩)
      · exact Or.inl ⟨x, Or.inl hx, h1⟩
      · exact Or.inr h1
      · exact Or.inl ⟨(name, ports), Or.inr rfl, p, hp, rfl⟩
    · rintro (⟨x, hx | rfl, h1⟩ | h1)
      · exact Or.inl (Or.inl ⟨x, hx, h1⟩)
      · obtain ⟨p, hp, rfl⟩ := h1
        exact Or.inr ⟨p, hp, rfl⟩
      · exact Or.inl (Or.inr h1)
  | replace _ _ _ ih => exact ih
  | @connect net bh s s' ps _ _ ih =>
    intro n
    simp only [Net.connect, Net.join, List.mem_append, List.mem_singleton, Option.mem_toList, ih n]
    constructor
    · rintro ((h1 | ⟨j, hj, h1⟩ | h1) | h1)
      · exact Or.inl h1
      · exact Or.inr (Or.inl ⟨j, Or.inl hj, h1⟩)
      · exact Or.inr (Or.inr h1)
      · exact Or.inr (Or.inl ⟨_, Or.inr rfl, h1⟩)
    · rintro (h1 | ⟨j, hj | rfl, h1⟩ | h1)
      · exact Or.inl (Or.inl h1)
      · exact Or.inl (Or.inr (Or.inl ⟨j, hj, h1⟩))
      · exact Or.inr h1
      · exact Or.inl (Or.inr (Or.inr h1))
  | terminate _ _ _ ih => exact ih
  | @deembed net bh s s' int ext _ _ _ _ _ ih =>
    have h1 : ∀ (int : List (Node × Node)) (net : Net K), net.Sourced → (int.foldl Net.cross net).Sourced := by
      intro int
      induction int with
      | nil => intro net h; exact h
      | cons x l ih2 => intro net h; exact ih2 _ (h.cross x)
    have h2 : ∀ (ext : List (Node × Node)) (net : Net K), net.Sourced → (ext.foldl Net.same net).Sourced := by
      intro ext
      induction ext with
      | nil => intro net h; exact h
      | cons x l ih2 => intro net h; exact ih2 _ h
    exact h2 ext _ (h1 int _ ih)
  | eval _ _ ih => exact ih
  | used _ _ ih => exact ih

theorem Net.Same.nodes {net' : Net K} (h : net.Same net') (h1 : net.Sourced) (h2 : net'.Sourced) (n : Node) :
    n ∈ net.nodes ↔ n ∈ net'.nodes := by
  rw [h1 n, h2 n]
  refine or_congr ?_ (or_congr ?_ ?_)
  · simp only [h.blks.mem_iff]
  · constructor
    · rintro ⟨j, hj, hn⟩
      obtain ⟨j', hj', he⟩ := h.juncs_left hj
      exact ⟨j', hj', he.2 ▸ hn⟩
    · rintro ⟨j', hj', hn⟩
      obtain ⟨j, hj, he⟩ := h.juncs_right hj'
      exact ⟨j, hj, he.2 ▸ hn⟩
  · simp only [h.crosses.mem_iff]

variable {O' : Type*} {ops' : ObjOps K O' F Fl} {beh' : O' → F → K → Fl → Except Err (SMat K)} {nan' : K}
  {names' : List Node} {net' : Net K} {bh' : Behave K F Fl} {t t' : St K O' F Fl} {ph' : Phase}

/-- **C21.** Two histories that describe the same network (the same blocks with the same answers at this frequency, junctions, loads,
deembeddings, in any order) have the same external ports and give the same S, entry by entry by port name. -/
theorem C21_same_S [CharZero K] (hlaw : Lawful ops beh) (hlaw' : Lawful ops' beh')
    (h : Built ops beh nan zb names net bh s ph) (h' : Built ops' beh' nan' zb names' net' bh' t ph')
    (hph : ph ≠ .reloaded) (hph' : ph' ≠ .reloaded) (hnet : net.Same net')
    {f : F} {fl : Fl} (hbh : ∀ x ∈ net.blks, bh x.1 f zb fl = bh' x.1 f zb fl) {S S' : SMat K} (hs : getS ops s f none fl = (s', .ok S))
    (ht : getS ops' t f none fl = (t', .ok S')) :
    s'.ports.Perm t'.ports ∧ S.n = s'.ports.length ∧ S'.n = t'.ports.length ∧
    ∀ (i j : Fin s'.ports.length) (i' j' : Fin t'.ports.length),
      s'.ports[i] = t'.ports[i'] → s'.ports[j] = t'.ports[j'] → S.at i j = S'.at i' j' := by
  have hr := (Built.eval h hs).inv hlaw
  have hr' := (Built.eval h' ht).inv hlaw'
  have hfree : net.free.Perm net'.free := by
    refine (List.perm_ext_iff_of_nodup (hr.rep.rep.nnd.filter _) (hr'.rep.rep.nnd.filter _)).2 fun p => ?_
    show p ∈ net.free ↔ p ∈ net'.free
    rw [mem_free, mem_free, hnet.nodes h.sourced h'.sourced, hnet.used]
  have hperm : s'.ports.Perm t'.ports := (hr.rep.ports_perm.trans hfree).trans hr'.rep.ports_perm.symm
  obtain ⟨⟨Sof, hSof⟩, h1⟩ := C20_getS_sound hlaw h hph hs
  obtain ⟨_, h2⟩ := C20_getS_sound hlaw' h' hph' ht
  have hSof' : Given net' bh' f zb fl Sof := by
    intro x hx
    have hx' := hnet.blks.mem_iff.2 hx
    rw [← hbh x hx']; exact hSof x hx'
  have g1 := h1 Sof hSof
  have g2 := h2 Sof hSof'
  refine ⟨hperm, g1.size, g2.size, fun i j i' j' hi hj => ?_⟩
  exact g1.entry g2 (hnet.laws zb Sof) hr.rep.rep.pnd hr'.rep.rep.pnd (fun p => hperm.mem_iff) i j i' j' hi hj

/-- **C21.** ... and one of them evaluates successfully iff the other does (when `Portnames`, if used, lists the external
ports). -/
theorem C21_same_success [CharZero K] (hlaw : Lawful ops beh) (hlaw' : Lawful ops' beh')
    (h : Built ops beh nan zb names net bh s ph) (h' : Built ops' beh' nan' zb names' net' bh' t ph')
    (hph : ph ≠ .reloaded) (hph' : ph' ≠ .reloaded) (hnet : net.Same net')
    {f : F} {fl : Fl} (hbh : ∀ x ∈ net.blks, bh x.1 f zb fl = bh' x.1 f zb fl) {Sof : String → SMat K} (hS : Given net bh f zb fl Sof)
    (hfree : net.free ≠ []) (hn : s.names = [] ∨ s.names.Perm net.free) (hn' : t.names = [] ∨ t.names.Perm net'.free) :
    (∃ s' S, getS ops s f none fl = (s', .ok S)) ↔ ∃ t' S', getS ops' t f none fl = (t', .ok S') := by
  have hr := h.inv hlaw
  have hr' := h'.inv hlaw'
  have hmem : ∀ p, p ∈ net.free ↔ p ∈ net'.free := fun p => by
    rw [mem_free, mem_free, hnet.nodes h.sourced h'.sourced, hnet.used]
  have hperm : net.free.Perm net'.free :=
    (List.perm_ext_iff_of_nodup (hr.rep.rep.nnd.filter _) (hr'.rep.rep.nnd.filter _)).2 hmem
  have hSof' : Given net' bh' f zb fl Sof := by
    intro x hx
    have hx' := hnet.blks.mem_iff.2 hx
    rw [← hbh x hx']; exact hS x hx'
  have hfree' : net'.free ≠ [] := fun e => hfree (by rw [e] at hperm; exact hperm.eq_nil)
  rw [C20_getS_complete hlaw h hph hS hfree hn, C20_getS_complete hlaw' h' hph' hSof' hfree' hn']
  have hl := hnet.laws zb Sof
  have hnodes := hnet.nodes h.sourced h'.sourced
  constructor
  · intro H
    refine ⟨fun a => ?_, fun w w' h1 h2 h3 n hn d => ?_⟩
    · obtain ⟨w, h1, h2⟩ := H.exists_sol a
      exact ⟨w, (hl w).1 h1, fun p hp => h2 p ((hmem p).2 hp)⟩
    · exact H.unique w w' ((hl w).2 h1) ((hl w').2 h2) (fun p hp => h3 p ((hmem p).1 hp)) n ((hnodes n).2 hn) d
  · intro H
    refine ⟨fun a => ?_, fun w w' h1 h2 h3 n hn d => ?_⟩
    · obtain ⟨w, h1, h2⟩ := H.exists_sol a
      exact ⟨w, (hl w).2 h1, fun p hp => h2 p ((hmem p).1 hp)⟩
    · exact H.unique w w' ((hl w).1 h1) ((hl w').1 h2) (fun p hp => h3 p ((hmem p).2 hp)) n ((hnodes n).1 hn) d

/-! ## C28 -/

/-- **C28.** In every reachable network each node has at most one function: the lists of junction members, deembedded and
loaded ports have no repetition, within one call or between calls. -/
theorem C28_no_port_twice [CharZero K] (hlaw : Lawful ops beh) (h : Built ops beh nan zb names net bh s ph) :
    (net.juncs.flatMap Junction.members ++ net.crosses.map Prod.fst ++ net.sames.flatMap (fun x => [x.1, x.2])
      ++ net.loads.map Prod.fst).Nodup ∧
    ∀ p, p ∈ s.ports ↔ p ∈ net.nodes ∧ p ∉ net.juncs.flatMap Junction.members ++ net.crosses.map Prod.fst
      ++ net.sames.flatMap (fun x => [x.1, x.2]) ++ net.loads.map Prod.fst := by
  have hinv := h.inv hlaw
  exact ⟨hinv.rep.rep.und, hinv.rep.rep.pmem⟩

/-- **C28.** A `connect` that succeeds named no port twice, and every port it named was free or is a new node without a
dot (at most one such); afterwards the old ones are no longer free.  So naming a port that already has a function, or
the same port twice, raises. -/
theorem C28_connect_free [CharZero K] (hlaw : Lawful ops beh) (h : Built ops beh nan zb names net bh s .building)
    {ps : List Node} (hs : connect ops s ps = (s', .ok ())) :
    ps.Nodup ∧ (∀ p ∈ ps, p ∈ net.free ∨ (p ∉ net.nodes ∧ ∃ n, p = .ext n)) ∧
    (∀ p ∈ ps, p ∈ net.free → p ∉ s'.ports) ∧
    (∀ p ∈ ps, p ∉ net.nodes → p ∈ s'.ports) := by
  obtain ⟨hinv, hb, _⟩ := h.all hlaw
  have hrep := hinv.rep
  have hE : s.E = [] := (hb rfl).1
  have hrep' := rep_connect hrep hE hs
  have hnewl := connect_new hrep hs
  have hlist : ps.filter (fun p => decide (p ∉ net.nodes)) = (ps.find? (· ∉ net.nodes)).toList := by
    rw [← hnewl]
    refine List.filter_congr fun p _ => ?_
    have := hrep.rep.wmem .inn p
    simp only [St.core] at this
    simp [this]
  have hused : ∀ p, p ∈ (net.connect ps).used ↔ p ∈ net.used ∨ (p ∈ ps ∧ p ∈ net.nodes) := by
    intro p
    unfold Net.connect
    rw [(used_join net _ _).mem_iff]
    simp [List.mem_filter]
  -- freeness of the old ones
  have hold : (ps.filter (fun p => decide (p ∈ net.nodes))).Nodup ∧ ∀ p ∈ ps, p ∈ net.nodes → p ∈ net.free := by
    have := hrep'.rep.und
    unfold Net.connect at this
    rw [(used_join net _ _).nodup_iff, List.nodup_append] at this
    obtain ⟨_, h2, h3⟩ := this
    refine ⟨h2, fun p hp hpn => ?_⟩
    rw [mem_free]
    exact ⟨hpn, fun hu => h3 p hu p (by simp [List.mem_filter, hp, hpn]) rfl⟩
  have hnd : ps.Nodup := by
    rw [List.nodup_iff_count_le_one]
    intro p
    by_cases hpn : p ∈ net.nodes
    · have : List.count p (ps.filter (fun p => decide (p ∈ net.nodes))) = List.count p ps := by
        rw [List.count_filter]; simpa using hpn
      rw [← this]
      exact List.nodup_iff_count_le_one.1 hold.1 p
    · have : List.count p (ps.filter (fun p => decide (p ∉ net.nodes))) = List.count p ps := by
        rw [List.count_filter]; simpa using hpn
      rw [← this, hlist]
      cases ps.find? (fun p => decide (p ∉ net.nodes)) with
      | none => simp
      | some x => simp only [Option.toList]; exact List.nodup_iff_count_le_one.1 (by simp) p
  refine ⟨hnd, ?_, ?_, ?_⟩
  · intro p hp
    by_cases hpn : p ∈ net.nodes
    · exact Or.inl (hold.2 p hp hpn)
    · right
      refine ⟨hpn, ?_⟩
      have hmem : p ∈ ps.filter (fun p => decide (p ∉ net.nodes)) := by simp [hp, hpn]
      have hfil : ps.filter (fun p => decide ((Dir.inn, p) ∉ s.waves)) = ps.filter (fun p => decide (p ∉ net.nodes)) := by
        rw [hnewl, hlist]
      cases p with
      | ext n => exact ⟨n, rfl⟩
      | blk b q =>
        exfalso
        unfold connect at hs
        rw [hfil] at hs
        match hn : ps.filter (fun p => decide (p ∉ net.nodes)) with
        | [] => rw [hn] at hmem; simp at hmem
        | [x] =>
          rw [hn] at hmem
          simp only [List.mem_singleton] at hmem
          subst hmem
          rw [hn] at hs
          simp at hs
        | _ :: _ :: _ => simp only [hn] at hs; cases hs
  · intro p hp hf hc
    have := (hrep'.rep.pmem p).1 hc
    exact this.2 ((hused p).2 (Or.inr ⟨hp, (mem_free.1 hf).1⟩))
  · intro p hp hpn
    refine (hrep'.rep.pmem p).2 ⟨?_, ?_⟩
    · show p ∈ net.nodes ++ (ps.find? (· ∉ net.nodes)).toList
      rw [← hlist]
      simp [hp, hpn]
    · rw [hused]
      rintro (h1 | h1)
      · exact hpn (hrep.rep.usub p h1)
      · exact hpn h1.2

/-- **C28.** A `terminate` that succeeds was on a free port or on a port that already had a load; afterwards the port is
not free. -/
theorem C28_terminate_free [CharZero K] (hlaw : Lawful ops beh) (h : Built ops beh nan zb names net bh s ph)
    {p : Node} {args : TermArgs K} (hs : terminate s p args = (s', .ok ())) :
    (p ∈ net.free ∨ p ∈ net.loads.map Prod.fst) ∧ p ∉ s'.ports := by
  have hinv := h.inv hlaw
  obtain ⟨l, hl, hrep'⟩ := rep_terminate hinv.rep hs
  by_cases hp : p ∈ net.loads.map Prod.fst
  · refine ⟨Or.inr hp, fun hc => ?_⟩
    have := ((hrep'.rep.pmem p).1 hc).2
    rw [used_load_mem hp] at this
    exact this (by unfold Net.used; exact List.mem_append_right _ hp)
  · have hu := used_load_not_mem (l := l) hp
    have hin : p ∈ (net.load p l).used := by rw [hu]; simp
    refine ⟨Or.inl ?_, fun hc => ((hrep'.rep.pmem p).1 hc).2 hin⟩
    rw [mem_free]
    refine ⟨?_, ?_⟩
    · have := hrep'.rep.usub p hin
      exact this
    · intro hc
      have := hrep'.rep.und
      rw [hu, List.nodup_append] at this
      exact this.2.2 p hc p (by simp) rfl

/-! ## C29 -/

theorem sublist_eq_filter {l m : List Node} {P : Node → Prop} [DecidablePred P] (hs : l.Sublist m) (hnd : m.Nodup)
    (hm : ∀ p, p ∈ l ↔ p ∈ m ∧ P p) : l = m.filter (fun p => decide (P p)) := by
  induction hs with
  | slnil => rfl
  | @cons l m a hs ih =>
    rw [List.nodup_cons] at hnd
    have ha : ¬ P a := by
      intro hP
      exact hnd.1 (hs.subset ((hm a).2 ⟨by simp, hP⟩))
    rw [List.filter_cons_of_neg (by simpa using ha)]
    refine ih hnd.2 fun p => ?_
    rw [hm p]
    constructor
    · rintro ⟨h1, h2⟩
      rcases List.mem_cons.1 h1 with rfl | h1
      · exact absurd h2 ha
      · exact ⟨h1, h2⟩
    · rintro ⟨h1, h2⟩; exact ⟨by simp [h1], h2⟩
  | @cons_cons l m a hs ih =>
    rw [List.nodup_cons] at hnd
    have ha : P a := ((hm a).1 (by simp)).2
    rw [List.filter_cons_of_pos (by simpa using ha)]
    congr 1
    refine ih hnd.2 fun p => ?_
    have := hm p
    simp only [List.mem_cons] at this
    constructor
    · intro h1
      obtain ⟨h2, h3⟩ := this.1 (Or.inr h1)
      rcases h2 with rfl | h2
      · exact absurd (hs.subset h1) hnd.1
      · exact ⟨h2, h3⟩
    · rintro ⟨h1, h2⟩
      rcases this.2 ⟨Or.inr h1, h2⟩ with rfl | h3
      · exact absurd h1 hnd.1
      · exact h3

/-- **C29.** The external ports are exactly the nodes never connected, deembedded or terminated.  Without `Portnames`, or
before an evaluation, they are in order of creation; with `Portnames` they follow, after an evaluation that got to the
port equations, the order of `Portnames`. -/
theorem C29_ports [CharZero K] (hlaw : Lawful ops beh) (h : Built ops beh nan zb names net bh s ph) :
    s.ports.Perm net.free ∧ (ph = .building ∨ names = [] → s.ports = net.free) ∧
    (s.ports = net.free ∨ s.ports.Sublist names) := by
  obtain ⟨hinv, hb, _⟩ := h.all hlaw
  have key : s.ports.Sublist net.nodes → s.ports = net.free := by
    intro hsub
    exact sublist_eq_filter hsub hinv.rep.rep.nnd (P := fun n => n ∉ net.used) fun p => hinv.rep.rep.pmem p
  refine ⟨hinv.rep.ports_perm, ?_, ?_⟩
  · rintro (hp | hn)
    · exact key (hinv.ord.1 (hb hp).2.1)
    · by_cases ha : s.aliased = true
      · have := hinv.ord.2 ha
        rw [hinv.nm, if_pos hn] at this
        exact key this
      · exact key (hinv.ord.1 (by simpa using ha))
  · by_cases ha : s.aliased = true
    · have := hinv.ord.2 ha
      rw [hinv.nm] at this
      by_cases hn : names = []
      · rw [if_pos hn] at this; exact Or.inl (key this)
      · rw [if_neg hn] at this; exact Or.inr this
    · exact Or.inl (key (hinv.ord.1 (by simpa using ha)))

/-- **C29.** When the first evaluation succeeds, the external ports (hence the rows and columns of S, see
`C20_getS_sound`) are in the order of `Portnames` if given, in order of creation otherwise. -/
theorem C29_first_eval [CharZero K] (hlaw : Lawful ops beh) (h : Built ops beh nan zb names net bh s .building)
    {f : F} {fl : Fl} {S : SMat K} (hs : getS ops s f none fl = (s', .ok S)) :
    s'.ports = if names = [] then net.free else names := by
  obtain ⟨hinv, hb, hc⟩ := h.all hlaw
  obtain ⟨hE, hal, hS⟩ := hb rfl
  have h' := Built.eval h hs
  by_cases hn : names = []
  · rw [if_pos hn]; exact (C29_ports hlaw h').2.1 (Or.inr hn)
  · rw [if_neg hn]
    have hinv' := h'.inv hlaw
    have hs1 : get1S ops s f fl = (s', .ok S) := by
      unfold getS at hs
      cases hg : get1S ops s f fl with
      | mk s1 r1 =>
        rw [hg] at hs
        cases r1 with
        | error e => simp at hs
        | ok M => simp only [Prod.mk.injEq, Except.ok.injEq] at hs; rw [hs.1, hs.2]
    rcases get1S_eq (ops := ops) s f fl with ⟨M, e1, _⟩ | ⟨e1, e2⟩
    · rw [hS] at e1; cases e1
    · rw [e2] at hs1
      obtain ⟨q1, q2, q3, _⟩ := recompute_spec hlaw hinv f fl hs1
      obtain ⟨a1, a2, a3, a4, a5, a6, a7, a8, a9⟩ := q2 S rfl
      have hsub := hinv'.ord.2 a5
      rw [hinv'.nm, if_neg hn] at hsub
      refine hsub.eq_of_length ?_
      -- the evaluation only succeeded because the lengths agreed
      have hcond := C17_square hlaw h
      by_contra hlen
      have hp1 : s'.ports.length = s.ports.length := by
        rw [hinv'.rep.ports_perm.length_eq, hinv.rep.ports_perm.length_eq]
      unfold recompute at hs1
      simp only at hs1
      generalize fillBlocks ops f s.zbase fl s.blocks s.rows = r at hs1
      cases hr : r.2.2 with
      | error e => rw [hr] at hs1; simp at hs1
      | ok u =>
        rw [hr] at hs1
        simp only [extS] at hs1
        have : squareUp { s with blocks := r.1, rows := r.2.1 } = ({ s with blocks := r.1, rows := r.2.1, S := none }, .error .valueError) ∨
            r.2.1.length = s.cols := by
          by_cases hq : r.2.1.length = s.cols
          · exact Or.inr hq
          · left
            unfold squareUp
            rw [if_neg hq]
            simp only
            have hnames : ({ s with blocks := r.1, rows := r.2.1, S := none } : St K O F Fl).names = names := by
              simp [St.names, hal, hinv.nm]
            rw [if_pos (by rw [hnames]; exact hn), if_pos (by rw [hnames]; show names.length ≠ s.ports.length; omega)]
        rcases this with h1 | h1
        · rw [h1] at hs1; simp at hs1
        · -- square without external equations: no ports, and then no evaluation succeeds
          have hsq : squareUp { s with blocks := r.1, rows := r.2.1 } = ({ s with blocks := r.1, rows := r.2.1 }, .ok ()) := by
            unfold squareUp; rw [if_pos h1]
          rw [hsq] at hs1
          simp only at hs1
          have hEk : solveE ({ s with blocks := r.1, rows := r.2.1 } : St K O F Fl) = ({ s with blocks := r.1, rows := r.2.1 }, .error .keyError) := by
            unfold solveE
            have hnames : ({ s with blocks := r.1, rows := r.2.1 } : St K O F Fl).names = names := by
              simp [St.names, hal, hinv.nm]
            rw [hnames]
            cases names with
            | nil => exact absurd rfl hn
            | cons x l =>
              simp [mapE, dictIndex, dictGet, hE]
          rw [hEk] at hs1
          simp at hs1

/-- **C29.** If `Portnames` is given and is not a listing of exactly the external ports, the first evaluation raises. -/
theorem C29_portnames_checked [CharZero K] (hlaw : Lawful ops beh) (h : Built ops beh nan zb names net bh s .building)
    (hn : names ≠ []) (hbad : ¬ names.Perm net.free) (f : F) (fl : Fl) :
    ∃ s' e, getS ops s f none fl = (s', .error e) := by
  cases hs : getS ops s f none fl with
  | mk s' r =>
    cases r with
    | error e => exact ⟨s', e, rfl⟩
    | ok S =>
      exfalso
      have h1 := C29_first_eval hlaw h hs
      rw [if_neg hn] at h1
      have h2 := ((Built.eval h hs).inv hlaw).rep.ports_perm
      rw [h1] at h2
      exact hbad h2

end
end PyRFtk.Circuit
