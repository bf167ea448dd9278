import Verif.CircuitExtend

/-!
# C27: what a refused call leaves behind

`addblock` and `terminate`: nothing that matters.  `connect`: nothing when it is refused because of its new names; when it
is refused because a port is already in use it has, in general, thrown away the free ports named before that one.
`deembed`: the pairs before the offending one stay.
-/

set_option linter.unusedSectionVars false

namespace PyRFtk.Circuit

section
variable {K O F Fl : Type*} [Field K] [DecidableEq F] [DecidableEq Fl]
variable {ops : ObjOps K O F Fl} {beh : O → F → K → Fl → Except Err (SMat K)} {nan zb : K} {names : List Node}
variable {net : Net K} {bh : Behave K F Fl} {s s' s'' : St K O F Fl} {ph : Phase}

/-! ## two histories of the same network -/

/-- Two reachable states of the same network whose external ports come in the same order answer alike. -/
theorem same_answers [CharZero K] (hlaw : Lawful ops beh) {t : St K O F Fl} {ph' : Phase}
    (h : Built ops beh nan zb names net bh s ph) (hph : ph ≠ .reloaded)
    (h' : Built ops beh nan zb names net bh t ph') (hph' : ph' ≠ .reloaded) (hfree : net.free ≠ [])
    (hk : Kept beh s t) (f' : F) (z' : Option K) (fl' : Fl) :
    (getS ops t f' z' fl').2 = (getS ops s f' z' fl').2 := by
  obtain ⟨hi, -, hc⟩ := h.all hlaw
  obtain ⟨hi', -, hc'⟩ := h'.all hlaw
  have hp : ∀ {t : St K O F Fl}, Inv ops beh zb names net bh t → t.ports ≠ [] := by
    intro t ht e
    have := ht.rep.ports_perm
    rw [e] at this
    exact hfree this.symm.eq_nil
  have key : (get1S ops t f' fl').2 = (get1S ops s f' fl').2 := by
    cases hg : get1S ops s f' fl' with
    | mk s1 r1 =>
      cases hg' : get1S ops t f' fl' with
      | mk s2 r2 =>
        have a1 := (get1S_answer hlaw hi (hc hph) (h.stored_aliased hlaw) (hp hi) f' fl' hg).1
        have a2 := (get1S_answer hlaw hi' (hc' hph') (h'.stored_aliased hlaw) (hp hi') f' fl' hg').1
        show r2 = r1
        by_cases hb : Bad s
        · cases hf : fillErr beh f' zb fl' s.blocks with
          | some e => rw [a1.fill e hf, a2.fill e (by rw [hk.err]; exact hf)]
          | none => rw [a1.names hf hb, a2.names (by rw [hk.err]; exact hf) (hk.bad.2 hb)]
        · have a2' : Answer beh net bh zb s.blocks (Bad s) (ordered s) f' fl' r2 := by
            rw [← hk.ord hb]
            refine ⟨fun e he => a2.fill e (by rw [hk.err]; exact he),
              fun he hbb => absurd hbb hb, fun he hbb => a2.solve (by rw [hk.err]; exact he) (fun x => hbb (hk.bad.1 x))⟩
          exact a2'.unique (ordered_nodup hi.rep hb) a1
  have hz : ∀ {t : St K O F Fl} {ph : Phase}, Built ops beh nan zb names net bh t ph → (get1S ops t f' fl').1.zbase = zb := by
    intro t ph ht
    cases hg : getS ops t f' none fl' with
    | mk t1 r1 =>
      rw [getS_state hg]
      exact ((Built.eval ht hg).inv hlaw).zb
  have hz1 := hz h
  have hz2 := hz h'
  unfold getS
  cases hg : get1S ops s f' fl' with
  | mk s1 r1 =>
    cases hg' : get1S ops t f' fl' with
    | mk s2 r2 =>
      rw [hg] at key hz1
      rw [hg'] at key hz2
      simp only at key hz1 hz2
      subst key
      cases r2 with
      | error e => rfl
      | ok M =>
        simp only
        cases z' with
        | none => rfl
        | some z' =>
          by_cases hc : z' ≠ 0 ∧ z' ≠ zb
          · simp only
            rw [if_pos (by rw [hz2]; exact hc), if_pos (by rw [hz1]; exact hc)]
            simp only [hz1, hz2]
          · simp only
            rw [if_neg (by rw [hz2]; exact hc), if_neg (by rw [hz1]; exact hc)]

/-! ## addblock -/

theorem addblock_refused {name : String} {obj : O} {spec : PortSpec} {relpos : ℚ} {e : Err}
    (h : addblock ops nan s name obj spec relpos = (s', .error e)) : s' = { s with S := none, invM := none } := by
  unfold addblock at h
  simp only at h
  split at h
  · split at h
    · simp only [Prod.mk.injEq] at h; exact h.1.symm
    · simp at h
  · split at h
    · simp only [Prod.mk.injEq] at h; exact h.1.symm
    · simp at h

/-- giving a block the object it already has only forgets the stored results -/
theorem replaceObj_self {b : Blk O} (hb : b ∈ s.blocks) (hnd : (s.blocks.map Blk.name).Nodup) :
    replaceObj b.name b.obj s.blocks = s.blocks := by
  unfold replaceObj
  conv_rhs => rw [← List.map_id s.blocks]
  refine List.map_congr_left fun x hx => ?_
  by_cases hn : x.name = b.name
  · rw [if_pos hn]
    have : x = b := List.inj_on_of_nodup_map hnd hx hb hn
    rw [this]; rfl
  · rw [if_neg hn]; rfl

/-- forgetting the stored results is a step a user could have made (replacing a block by itself) -/
theorem Built.forget [CharZero K] (hlaw : Lawful ops beh) (h : Built ops beh nan zb names net bh s ph)
    (hne : net.blks ≠ []) :
    Built ops beh nan zb names net bh { s with S := none, invM := none } (if ph = .reloaded then .evaluated else ph) := by
  have hi := h.inv hlaw
  have hb : s.blocks ≠ [] := by
    intro hc
    apply hne
    rw [hi.rep.rep.blks]
    show s.blocks.map _ = []
    rw [hc]; rfl
  obtain ⟨b, hb⟩ := List.exists_mem_of_ne_nil _ hb
  have hf : s.blocks.find? (fun x => x.name = b.name) = some b := by
    cases hf : s.blocks.find? (fun x => x.name = b.name) with
    | none => rw [List.find?_eq_none] at hf; exact absurd (by simp) (hf b hb)
    | some c =>
      have hc := List.mem_of_find?_eq_some hf
      have hn : c.name = b.name := by simpa using List.find?_some hf
      rw [List.inj_on_of_nodup_map hi.rep.rep.bnd hc hb hn]
  have hrep : Circuit.addblock ops nan s b.name b.obj .none 0 = ({ s with S := none, invM := none }, .ok ()) := by
    unfold Circuit.addblock
    simp only
    rw [hf]
    simp only [ne_eq, not_true_eq_false, if_false]
    rw [replaceObj_self hb hi.rep.rep.bnd]
  have hm : b.name ∈ net.blks.map Prod.fst := by
    rw [hi.rep.rep.blks, List.map_map]
    exact List.mem_map_of_mem hb
  have h1 := Built.replace h hm hrep
  have h2 : Function.update bh b.name (beh b.obj) = bh := by rw [hi.bhv b hb]; exact Function.update_eq_self _ _
  rw [h2] at h1
  exact h1

/-- **C27, addblock.**  Take any circuit (any history) with at least one block.  A refused `addblock` only makes it forget
stored results: the state it leaves is one that the same network could have been in, and every later `getS` answers as it
would have without the call, the same matrix or the same exception. -/
theorem C27_addblock_refused [CharZero K] (hlaw : Lawful ops beh) (h : Built ops beh nan zb names net bh s ph)
    (hne : net.blks ≠ []) {name : String} {obj : O} {spec : PortSpec} {relpos : ℚ} {e : Err}
    (hs : addblock ops nan s name obj spec relpos = (s', .error e)) :
    Built ops beh nan zb names net bh s' (if ph = .reloaded then .evaluated else ph) ∧
    s'.ports = s.ports ∧ s'.xpos = s.xpos ∧
    (ph ≠ .reloaded → net.free ≠ [] → ∀ f z fl, (getS ops s' f z fl).2 = (getS ops s f z fl).2) := by
  have he := addblock_refused hs
  subst he
  have hb := h.forget hlaw hne
  refine ⟨hb, rfl, rfl, fun hph hfree f z fl => ?_⟩
  refine same_answers hlaw h hph hb (by rw [if_neg hph]; exact hph) hfree ?_ f z fl
  exact Kept.of_shape (fun _ _ _ => rfl) rfl rfl rfl rfl

/-! ## positions -/

theorem consume_xpos {new : List Node} : ∀ {ps : List Node} {s s' : St K O F Fl} {r : Except Err Unit},
    s.ports.length ≤ s.xpos.length → consume new ps s = (s', r) → s'.ports.length ≤ s'.xpos.length
  | [], s, s', r, hx, h => by
    simp only [consume, Prod.mk.injEq] at h
    obtain ⟨rfl, _⟩ := h
    exact hx
  | p :: ps, s, s', r, hx, h => by
    unfold consume at h
    by_cases hp : p ∈ new
    · rw [if_pos hp] at h
      exact consume_xpos hx h
    · rw [if_neg hp] at h
      by_cases hm : p ∈ s.ports
      · rw [pyIndex_of_mem hm] at h
        simp only at h
        have hlt : idx s.ports p < s.ports.length := idx_lt_of_mem hm
        have hpop : pyPop s.xpos (idx s.ports p) = .ok (s.xpos.eraseIdx (idx s.ports p)) := by
          unfold pyPop; rw [if_pos (by omega)]
        rw [hpop] at h
        simp only at h
        refine consume_xpos ?_ h
        show (s.ports.eraseIdx _).length ≤ (s.xpos.eraseIdx _).length
        rw [List.length_eraseIdx_of_lt hlt, List.length_eraseIdx_of_lt (by omega)]
        omega
      · have : pyIndex s.ports p = .error .valueError := by unfold pyIndex; rw [if_neg hm]
        rw [this] at h
        simp only [Prod.mk.injEq] at h
        obtain ⟨rfl, _⟩ := h
        exact hx

theorem connectTail_xpos {new ps : List Node} (hx : s.ports.length ≤ s.xpos.length)
    (h : connectTail new ps s = (s', .ok ())) : s'.ports.length ≤ s'.xpos.length := by
  unfold connectTail at h
  split at h
  · simp at h
  · simp at h
  · cases h3 : consume new ps s with
    | mk s1 r =>
      cases r with
      | error e => simp [h3] at h
      | ok u =>
        simp only [h3, Prod.mk.injEq, and_true] at h
        rw [← h]
        have := consume_xpos hx h3
        exact this

theorem connect_xpos {ps : List Node} (hx : s.ports.length ≤ s.xpos.length)
    (h : connect ops s ps = (s', .ok ())) : s'.ports.length ≤ s'.xpos.length := by
  unfold connect at h
  match hn : ps.filter (fun p => decide ((Dir.inn, p) ∉ s.waves)) with
  | [] => simp only [hn] at h; exact connectTail_xpos hx h
  | [.blk _ _] => simp only [hn] at h; cases h
  | _ :: _ :: _ => simp only [hn] at h; cases h
  | [.ext n] =>
    simp only [hn] at h
    split at h
    · simp at h
    · split at h
      · simp at h
      · refine connectTail_xpos ?_ h
        simp only [List.length_append, List.length_cons, List.length_nil]; omega

theorem terminate_xpos {p : Node} {args : TermArgs K} (hx : s.ports.length ≤ s.xpos.length)
    (h : terminate s p args = (s', .ok ())) : s'.ports.length ≤ s'.xpos.length := by
  have hpop : ∀ kp xs, pyIndex s.ports p = .ok kp → pyPop s.xpos kp = .ok xs →
      (s.ports.eraseIdx kp).length ≤ xs.length := by
    intro kp xs h1 h2
    unfold pyIndex at h1
    split at h1
    · rename_i hm
      injection h1 with h1
      subst h1
      have hlt : idx s.ports p < s.ports.length := idx_lt_of_mem hm
      unfold pyPop at h2
      rw [if_pos (by omega)] at h2
      injection h2 with h2
      subst h2
      rw [List.length_eraseIdx_of_lt hlt, List.length_eraseIdx_of_lt (by omega)]
      omega
    · cases h1
  unfold terminate at h
  simp only at h
  cases h1 : termRho s.zbase args with
  | error e => simp [h1] at h
  | ok rho =>
    simp only [h1] at h
    cases h2 : dictGet p s.T with
    | some t =>
      simp only [h2, Prod.mk.injEq, and_true] at h
      rw [← h]; exact hx
    | none =>
      simp only [h2] at h
      cases h3 : dictGet p s.E with
      | some e =>
        simp only [h3] at h
        split at h
        · simp at h
        · cases h4 : pyIndex s.ports p with
          | error e => simp [h4] at h
          | ok kp =>
            simp only [h4] at h
            cases h5 : pyPop s.xpos kp with
            | error e => simp [h5] at h
            | ok xs =>
              simp only [h5, Prod.mk.injEq, and_true] at h
              rw [← h]; exact hpop kp xs h4 h5
      | none =>
        simp only [h3] at h
        cases h4 : pyIndex s.ports p with
        | error e => simp [h4] at h
        | ok kp =>
          simp only [h4] at h
          cases h5 : pyPop s.xpos kp with
          | error e => simp [h5] at h
          | ok xs =>
            simp only [h5] at h
            split at h
            · simp at h
            · simp only [Prod.mk.injEq, and_true] at h
              rw [← h]; exact hpop kp xs h4 h5

theorem deembedInt_xpos {dp ip : Node} (h : deembedInt s dp ip = (s', .ok ())) : s'.xpos = s.xpos := by
  unfold deembedInt at h
  split at h
  · simp at h
  · simp only at h
    split at h
    · simp at h
    · split at h
      · simp at h
      · simp at h
      · simp only [Prod.mk.injEq, and_true] at h
        rw [← h]

theorem deembedExt_xpos {dp ep : Node} (h : deembedExt s dp ep = (s', .ok ())) : s'.xpos = s.xpos := by
  unfold deembedExt at h
  split at h
  · simp at h
  · split at h
    · simp at h
    · simp only at h
      split at h
      · split at h
        · simp at h
        · simp only [Prod.mk.injEq, and_true] at h
          rw [← h]
      · simp at h

theorem iter_xpos {g : St K O F Fl → Node × Node → St K O F Fl × Except Err Unit}
    (hg : ∀ {s x s'}, g s x = (s', .ok ()) → s'.xpos = s.xpos) : ∀ {l : List (Node × Node)} {s s' : St K O F Fl},
    iter g s l = (s', .ok ()) → s'.xpos = s.xpos
  | [], s, s', h => by
    simp only [iter, Prod.mk.injEq, and_true] at h
    rw [h]
  | x :: l, s, s', h => by
    unfold iter at h
    cases h1 : g s x with
    | mk s1 r1 =>
      rw [h1] at h
      cases r1 with
      | error e => simp at h
      | ok u => exact (iter_xpos hg h).trans (hg h1)

theorem deembed_xpos {int ext : List (Node × Node)} (hx : s.ports.length ≤ s.xpos.length)
    (h : deembed s int ext = (s', .ok ())) : s'.ports.length ≤ s'.xpos.length := by
  unfold deembed at h
  simp only at h
  cases h1 : iter (fun s x => deembedInt s x.1 x.2) { s with S := none, invM := none, rows := s.rows.map (padRow s.cols), cols := s.cols + 2 * int.length } int with
  | mk s1 r1 =>
    rw [h1] at h
    cases r1 with
    | error e => simp at h
    | ok u =>
      simp only at h
      have a := (iter_deembedInt_count h1).2.2.1
      have b := (iter_deembedExt_count h).2.2.1
      have c := iter_xpos (g := fun s x => deembedInt s x.1 x.2) (fun h => deembedInt_xpos h) h1
      have d : s'.xpos = s1.xpos := iter_xpos (g := fun s x => deembedExt s x.1 x.2) (fun h => deembedExt_xpos h) h
      simp only at a c
      rw [d, c]; omega

/-- the objects of the blocks have a position for each of their ports (or none at all) -/
def Positioned (ops : ObjOps K O F Fl) : Prop := ∀ o xs, ops.xpos o = some xs → ops.len o ≤ xs.length

/-- each external port has a position -/
theorem Built.positions [CharZero K] (hlaw : Lawful ops beh) (hpos : Positioned ops)
    (h : Built ops beh nan zb names net bh s ph) : s.ports.length ≤ s.xpos.length := by
  induction h with
  | init bh => simp [St.init]
  | @addblock net bh s s' name obj spec relpos ports hb hname hres hnd hs ih =>
    have hi := hb.inv hlaw
    have hfind : s.blocks.find? (fun b => b.name = name) = none := by
      rw [List.find?_eq_none]
      intro b hb
      simp only [decide_eq_true_eq]
      rintro rfl
      apply hname
      rw [hi.rep.rep.blks, List.map_map]
      exact List.mem_map_of_mem hb
    have hlen := resolvePorts_length hres
    unfold Circuit.addblock at hs
    simp only [hfind, hres] at hs
    injection hs with hs _
    subst hs
    simp only [List.length_append, List.length_map, blockXpos]
    cases hxp : ops.xpos obj with
    | none => simp only [List.length_map]; omega
    | some xs =>
      have := hpos obj xs hxp
      simp only [List.length_map, List.length_zip]; omega
  | @replace net bh s s' ph name obj spec relpos hb hname hs ih =>
    obtain ⟨-, rfl⟩ := rep_replace (hb.inv hlaw).rep hname hs
    exact ih
  | @connect net bh s s' ps hb hs ih => exact connect_xpos ih hs
  | @terminate net bh s s' ph p args l hb hl hs ih => exact terminate_xpos ih hs
  | @deembed net bh s s' int ext hb hfresh hnd hdot hs ih => exact deembed_xpos ih hs
  | @used net bh s ph bs hb hu ih => exact ih
  | @eval net bh s s' ph f z fl r hb hs ih =>
    rw [getS_xpos hs]
    have h1 := ((Built.eval hb hs).inv hlaw).rep.ports_perm.length_eq
    have h2 := (hb.inv hlaw).rep.ports_perm.length_eq
    omega

/-! ## terminate -/

/-- **C27, terminate.**  In any circuit (any history) whose block objects have a position for each port, a refused
`terminate` changes nothing at all. -/
theorem C27_terminate_refused [CharZero K] (hlaw : Lawful ops beh) (hpos : Positioned ops)
    (h : Built ops beh nan zb names net bh s ph) {p : Node} {args : TermArgs K} {e : Err}
    (hs : terminate s p args = (s', .error e)) : s' = s := by
  have hx := h.positions hlaw hpos
  have hi := (h.inv hlaw).rep
  have hwp : ∀ d, p ∈ s.ports → (d, p) ∈ s.waves := fun d hp => (hi.rep.wmem d p).2 ((hi.rep.pmem p).1 hp).1
  have hpop : ∀ kp, pyIndex s.ports p = .ok kp → p ∈ s.ports ∧ pyPop s.xpos kp = .ok (s.xpos.eraseIdx kp) := by
    intro kp h1
    unfold pyIndex at h1
    split at h1
    · rename_i hm
      injection h1 with h1
      subst h1
      have hlt : idx s.ports p < s.ports.length := idx_lt_of_mem hm
      refine ⟨hm, ?_⟩
      unfold pyPop
      rw [if_pos (by omega)]
    · cases h1
  unfold terminate at hs
  simp only at hs
  cases h1 : termRho s.zbase args with
  | error e => simp only [h1, Prod.mk.injEq] at hs; exact hs.1.symm
  | ok rho =>
    simp only [h1] at hs
    cases h2 : dictGet p s.T with
    | some t => simp [h2] at hs
    | none =>
      simp only [h2] at hs
      cases h3 : dictGet p s.E with
      | some e =>
        exfalso
        have hE : p ∈ s.E.map Prod.fst := by
          by_contra hc
          rw [← dictGet_none] at hc
          rw [hc] at h3; cases h3
        have hp : p ∈ s.ports := by
          rcases hi.rep.ekeys with he | ⟨_, he⟩
          · have he' : s.E = [] := he
            rw [he'] at hE; simp at hE
          · exact (he p).1 hE
        simp only [h3, pyIndex_of_mem (hwp .inn hp), pyIndex_of_mem (hwp .out hp), pyIndex_of_mem hp] at hs
        rw [(hpop _ (pyIndex_of_mem hp)).2] at hs
        simp at hs
      | none =>
        simp only [h3] at hs
        cases h4 : pyIndex s.ports p with
        | error e => simp only [h4, Prod.mk.injEq] at hs; exact hs.1.symm
        | ok kp =>
          exfalso
          obtain ⟨hp, hpp⟩ := hpop kp h4
          simp only [h4, hpp, pyIndex_of_mem (hwp .inn hp), pyIndex_of_mem (hwp .out hp)] at hs
          simp at hs

/-! ## a circuit that cannot be evaluated any more -/

/-- every evaluation raises -/
def Unusable (ops : ObjOps K O F Fl) (s : St K O F Fl) : Prop := ∀ f z fl, ∃ e, (getS ops s f z fl).2 = .error e

theorem idx_append_not_mem {α : Type*} [DecidableEq α] {l m : List α} {x : α} (h : x ∉ l) :
    idx (l ++ m) x = l.length + idx m x := by
  unfold idx
  exact List.idxOf_append_of_notMem h

theorem iter_addE_bad : ∀ (ps : List Node) (s : St K O F Fl), (∃ p ∈ ps, s.cols ≤ idx s.waves (.inn, p)) →
    ∃ e, (iter addE s ps).2 = .error e
  | [], s, h => by simp at h
  | p :: ps, s, h => by
    unfold iter
    by_cases hc : s.cols ≤ idx s.waves (.inn, p)
    · have : ∃ e, (addE s p).2 = .error e := by
        unfold addE pyIndex
        by_cases hm : (Dir.inn, p) ∈ s.waves
        · rw [if_pos hm]
          simp only
          rw [if_pos hc]
          exact ⟨_, rfl⟩
        · rw [if_neg hm]; exact ⟨_, rfl⟩
      obtain ⟨e, he⟩ := this
      cases ha : addE s p with
      | mk s1 r1 =>
        rw [ha] at he
        simp only at he
        subst he
        exact ⟨e, rfl⟩
    · cases ha : addE s p with
      | mk s1 r1 =>
        cases r1 with
        | error e => exact ⟨e, rfl⟩
        | ok u =>
          simp only
          have hs : s1.cols = s.cols ∧ s1.waves = s.waves := by
            unfold addE at ha
            split at ha
            · simp at ha
            · split at ha
              · simp at ha
              · simp only [Prod.mk.injEq, and_true] at ha
                rw [← ha]; exact ⟨rfl, rfl⟩
          refine iter_addE_bad ps s1 ?_
          obtain ⟨q, hq, hq'⟩ := h
          rw [hs.1, hs.2]
          rcases List.mem_cons.1 hq with rfl | hq
          · exact absurd hq' hc
          · exact ⟨q, hq, hq'⟩

theorem iter_addE_rows : ∀ (ps : List Node) (s s' : St K O F Fl), iter addE s ps = (s', .ok ()) →
    s'.rows.length = s.rows.length + ps.length ∧ s'.cols = s.cols
  | [], s, s', h => by
    simp only [iter, Prod.mk.injEq, and_true] at h
    subst h; simp
  | p :: ps, s, s', h => by
    unfold iter at h
    cases ha : addE s p with
    | mk s1 r1 =>
      rw [ha] at h
      cases r1 with
      | error e => simp at h
      | ok u =>
        simp only at h
        have hs : s1.rows.length = s.rows.length + 1 ∧ s1.cols = s.cols := by
          unfold addE at ha
          split at ha
          · simp at ha
          · split at ha
            · simp at ha
            · simp only [Prod.mk.injEq, and_true] at ha
              rw [← ha]; simp
        obtain ⟨h1, h2⟩ := iter_addE_rows ps s1 s' h
        exact ⟨by rw [h1, hs.1, List.length_cons]; omega, h2.trans hs.2⟩

theorem solveE_nonsquare (h : s.rows.length ≠ s.cols) : ∃ e, (solveE s).2 = .error e := by
  unfold solveE
  split
  · exact ⟨_, rfl⟩
  · split
    · exact ⟨_, rfl⟩
    · exact ⟨_, rfl⟩
    · unfold solveWith
      rw [if_pos h]
      exact ⟨_, rfl⟩

theorem solveE_noE (h : s.E = []) : ∃ e, (solveE s).2 = .error e := by
  unfold solveE
  cases hn : s.names with
  | nil =>
    simp only [mapE]
    unfold solveWith
    split
    · exact ⟨_, rfl⟩
    · split
      · exact ⟨_, rfl⟩
      · simp only [List.length_nil, if_true]
        exact ⟨_, rfl⟩
  | cons p l =>
    obtain ⟨e, he⟩ := mapE_error_of_mem (g := dictIndex s.E) (l := p :: l) (x := p) (by simp) (e := .keyError)
      (by rw [h]; rfl)
    rw [he]; exact ⟨_, rfl⟩

/-- before the first evaluation: the number of equations does not fit, or an external port has no column -/
theorem unusable (hS : s.S = none) (ha : s.aliased = false) (hE : s.E = [])
    (hbad : (∃ p ∈ s.ports, s.cols ≤ idx s.waves (.inn, p)) ∨ s.rows.length + s.ports.length ≠ s.cols) :
    Unusable ops s := by
  intro f z fl
  suffices H : ∃ e, (recompute ops s f fl).2 = .error e by
    unfold getS get1S
    rw [hS]
    simp only
    cases hr : recompute ops s f fl with
    | mk s1 r1 =>
      rw [hr] at H
      obtain ⟨e, rfl⟩ := H
      exact ⟨e, rfl⟩
  unfold recompute
  simp only
  have hlen := fillBlocks_length (ops := ops) f s.zbase fl s.blocks s.rows
  generalize fillBlocks ops f s.zbase fl s.blocks s.rows = r0 at hlen
  cases hr : r0.2.2 with
  | error e => exact ⟨e, rfl⟩
  | ok u =>
    simp only
    suffices H : ∃ e, (extS { s with blocks := r0.1, rows := r0.2.1 }).2 = .error e by
      cases hr : extS { s with blocks := r0.1, rows := r0.2.1 } with
      | mk s2 r2 =>
        rw [hr] at H
        obtain ⟨e, rfl⟩ := H
        exact ⟨e, rfl⟩
    unfold extS
    -- the ports that get an equation
    have hgo : ∀ (ps : List Node) (al : Bool), (∀ p ∈ s.ports, p ∈ ps) → ps.length = s.ports.length → r0.2.1.length ≠ s.cols →
        ∃ e, (match iter addE { s with blocks := r0.1, rows := r0.2.1, S := none, ports := ps, aliased := al } ps with
          | (s, Except.error e) => (s, Except.error e)
          | (s, Except.ok _) => solveE s).2 = Except.error e := by
      intro ps al hsub hpl hne
      cases hi : iter addE { s with blocks := r0.1, rows := r0.2.1, S := none, ports := ps, aliased := al } ps with
      | mk s2 r2 =>
        cases r2 with
        | error e => exact ⟨e, rfl⟩
        | ok u =>
          simp only
          obtain ⟨g1, g2⟩ := iter_addE_rows _ _ _ hi
          simp only at g1 g2
          rcases hbad with ⟨p, hp, hpc⟩ | hcount
          · exfalso
            obtain ⟨e, he⟩ := iter_addE_bad ps { s with blocks := r0.1, rows := r0.2.1, S := none, ports := ps, aliased := al }
              ⟨p, hsub p hp, hpc⟩
            rw [hi] at he; cases he
          · exact solveE_nonsquare (by omega)
    unfold squareUp
    by_cases hsq : r0.2.1.length = s.cols
    · simp only [hsq, if_true]
      exact solveE_noE hE
    · simp only [hsq, if_false]
      have hnm : ({ s with blocks := r0.1, rows := r0.2.1, S := none } : St K O F Fl).names = s.portnames := by
        simp [St.names, ha]
      rw [hnm]
      by_cases hn : s.portnames = []
      · rw [if_neg (by simp [hn])]
        exact hgo s.ports true (fun p hp => hp) rfl hsq
      · rw [if_pos hn]
        by_cases hl : s.portnames.length ≠ s.ports.length
        · rw [if_pos hl]; exact ⟨_, rfl⟩
        · rw [if_neg hl]
          by_cases hm : ∃ p ∈ s.ports, p ∉ s.portnames
          · rw [if_pos hm]; exact ⟨_, rfl⟩
          · rw [if_neg hm]
            push Not at hl hm
            exact hgo s.portnames true hm hl hsq

/-! ## connect -/

theorem consume_refused {new : List Node} : ∀ {ps : List Node} {s s' : St K O F Fl} {e : Err},
    consume new ps s = (s', .error e) → s'.rows = s.rows ∧ s'.cols = s.cols ∧ s'.waves = s.waves ∧
    s'.ports.length ≤ s.ports.length ∧ (∀ p ∈ s.ports, p ∈ new → p ∈ s'.ports) ∧
    (∀ p l, ps = p :: l → p ∉ new → (p ∈ s.ports → s'.ports.length < s.ports.length) ∧ (p ∉ s.ports → s' = s))
  | [], s, s', e, h => by simp [consume] at h
  | p :: ps, s, s', e, h => by
    unfold consume at h
    by_cases hp : p ∈ new
    · rw [if_pos hp] at h
      obtain ⟨h1, h2, h3, h4, h5, h6⟩ := consume_refused h
      refine ⟨h1, h2, h3, h4, h5, ?_⟩
      rintro q l hq hqn
      injection hq with hq _
      exact absurd (hq ▸ hp) hqn
    · rw [if_neg hp] at h
      by_cases hm : p ∈ s.ports
      · have hlt : idx s.ports p < s.ports.length := idx_lt_of_mem hm
        have hpos : 0 < s.ports.length := List.length_pos_of_mem hm
        have hel := List.length_eraseIdx_of_lt hlt
        have hmem : ∀ q ∈ s.ports, q ∈ new → q ∈ s.ports.eraseIdx (idx s.ports p) := by
          intro q hq hqn
          have : s.ports.eraseIdx (idx s.ports p) = s.ports.erase p := by
            rw [List.erase_eq_eraseIdx_of_idxOf rfl]; rfl
          rw [this]
          exact (List.mem_erase_of_ne (by rintro rfl; exact hp hqn)).2 hq
        rw [pyIndex_of_mem hm] at h
        simp only at h
        cases hx : pyPop s.xpos (idx s.ports p) with
        | error e' =>
          rw [hx] at h
          simp only [Prod.mk.injEq] at h
          obtain ⟨rfl, _⟩ := h
          refine ⟨rfl, rfl, rfl, by simp only [hel]; omega, hmem, ?_⟩
          rintro q l hq hqn
          injection hq with hq _
          subst hq
          exact ⟨fun _ => by simp only [hel]; omega, fun hc => absurd hm hc⟩
        | ok xs =>
          rw [hx] at h
          simp only at h
          obtain ⟨h1, h2, h3, h4, h5, h6⟩ := consume_refused h
          simp only [hel] at h4
          refine ⟨h1, h2, h3, by omega, fun q hq hqn => h5 q (hmem q hq hqn) hqn, ?_⟩
          rintro q l hq hqn
          injection hq with hq _
          subst hq
          exact ⟨fun _ => by omega, fun hc => absurd hm hc⟩
      · have : pyIndex s.ports p = .error .valueError := by unfold pyIndex; rw [if_neg hm]
        rw [this] at h
        simp only [Prod.mk.injEq] at h
        obtain ⟨rfl, _⟩ := h
        refine ⟨rfl, rfl, rfl, le_refl _, fun q hq _ => hq, ?_⟩
        rintro q l hq hqn
        injection hq with hq _
        subst hq
        exact ⟨fun hc => absurd hc hm, fun _ => rfl⟩

theorem mapE_pyIndex_ok {l : List Wave} {g : Node → Wave} {ps : List Node} (h : ∀ p ∈ ps, g p ∈ l) :
    ∃ is, mapE (fun p => pyIndex l (g p)) ps = .ok is := by
  cases hm : mapE (fun p => pyIndex l (g p)) ps with
  | ok is => exact ⟨is, rfl⟩
  | error e =>
    exfalso
    obtain ⟨p, hp, he⟩ := mapE_eq_error hm
    rw [pyIndex_of_mem (h p hp)] at he; cases he

/-- when all named waves exist only the consumption of the ports can fail -/
theorem connectTail_refused {new ps : List Node} {e : Err} (hA : ∀ p ∈ ps, waveA new p ∈ s.waves)
    (hB : ∀ p ∈ ps, waveB new p ∈ s.waves) (h : connectTail new ps s = (s', .error e)) :
    consume new ps s = (s', .error e) := by
  obtain ⟨is, hi⟩ := mapE_pyIndex_ok hA
  obtain ⟨js, hj⟩ := mapE_pyIndex_ok hB
  unfold connectTail at h
  rw [hi, hj] at h
  simp only at h
  cases hc : consume new ps s with
  | mk s1 r1 =>
    rw [hc] at h
    cases r1 with
    | error e' => simpa using h
    | ok u => simp at h

/-- **C27, connect (the good part).**  A `connect` with two or more unknown names, or with an unknown name that has a dot, is
refused and changes nothing, whatever the state. -/
theorem C27_connect_unknown_refused {ps : List Node} {e : Err} (hs : connect ops s ps = (s', .error e))
    (hnew : 2 ≤ (ps.filter (fun p => decide ((Dir.inn, p) ∉ s.waves))).length ∨
      ∃ b p, Node.blk b p ∈ ps ∧ (Dir.inn, Node.blk b p) ∉ s.waves) : s' = s := by
  unfold connect at hs
  match hn : ps.filter (fun p => decide ((Dir.inn, p) ∉ s.waves)) with
  | [] =>
    exfalso
    rcases hnew with h | ⟨b, p, h1, h2⟩
    · rw [hn] at h; simp at h
    · have : Node.blk b p ∈ ps.filter (fun p => decide ((Dir.inn, p) ∉ s.waves)) := List.mem_filter.2 ⟨h1, by simpa using h2⟩
      rw [hn] at this; simp at this
  | [.blk _ _] => simp only [hn, Prod.mk.injEq] at hs; exact hs.1.symm
  | _ :: _ :: _ => simp only [hn, Prod.mk.injEq] at hs; exact hs.1.symm
  | [.ext n] =>
    exfalso
    rcases hnew with h | ⟨b, p, h1, h2⟩
    · rw [hn] at h; simp at h
    · have : Node.blk b p ∈ ps.filter (fun p => decide ((Dir.inn, p) ∉ s.waves)) := List.mem_filter.2 ⟨h1, by simpa using h2⟩
      rw [hn] at this; simp at this

/-- **C27, connect (the rest).**  Take any circuit that has not been evaluated yet.  A refused `connect` either changes
nothing, or leaves a circuit that can no longer be evaluated: every `getS` raises.  It is the latter exactly when at most
one name is unknown, it has no dot, and (if no name is unknown) the first port named is a free one. -/
theorem C27_connect_refused [CharZero K] (hlaw : Lawful ops beh) (h : Built ops beh nan zb names net bh s .building)
    {ps : List Node} {e : Err} (hs : connect ops s ps = (s', .error e)) :
    (s' = s ∧ (2 ≤ (ps.filter (· ∉ net.nodes)).length ∨ (∃ b p, Node.blk b p ∈ ps ∧ Node.blk b p ∉ net.nodes) ∨
      (ps ⊆ net.nodes ∧ ∃ p l, ps = p :: l ∧ p ∉ net.free))) ∨
    (Unusable ops s' ∧ ((∃ n, ps.filter (· ∉ net.nodes) = [.ext n]) ∨
      (ps ⊆ net.nodes ∧ ∃ p l, ps = p :: l ∧ p ∈ net.free))) := by
  obtain ⟨hinv, hb, -⟩ := h.all hlaw
  obtain ⟨hE, hal, hS⟩ := hb rfl
  have hr := hinv.rep
  have hfm : ∀ p, p ∈ net.free ↔ p ∈ s.ports := fun p => (hr.ports_perm.mem_iff).symm
  have hcount : s.rows.length + s.ports.length = s.cols := by
    have h1 := hr.rep.count
    have h2 := hr.wlen
    simp only [St.core, hE, List.length_nil] at h1
    omega
  have hnew : ps.filter (fun p => (Dir.inn, p) ∉ s.waves) = ps.filter (· ∉ net.nodes) := by
    refine List.filter_congr fun p _ => ?_
    have := hr.rep.wmem .inn p
    simp only [St.core] at this
    simp [this]
  have hwm : ∀ d n, (d, n) ∈ s.waves ↔ n ∈ net.nodes := hr.rep.wmem
  rw [← hnew]
  match hn : ps.filter (fun p => decide ((Dir.inn, p) ∉ s.waves)) with
  | _ :: _ :: _ =>
    left
    refine ⟨C27_connect_unknown_refused hs (Or.inl (by rw [hn]; simp)), Or.inl (by simp)⟩
  | [.blk b p] =>
    left
    have hm : Node.blk b p ∈ ps.filter (fun p => decide ((Dir.inn, p) ∉ s.waves)) := by rw [hn]; simp
    obtain ⟨h1, h2⟩ := List.mem_filter.1 hm
    have h2' : (Dir.inn, Node.blk b p) ∉ s.waves := by simpa using h2
    exact ⟨C27_connect_unknown_refused hs (Or.inr ⟨b, p, h1, h2'⟩),
      Or.inr (Or.inl ⟨b, p, h1, fun hc => h2' ((hwm _ _).2 hc)⟩)⟩
  | [] =>
    have hall : ps ⊆ net.nodes := by
      intro p hp
      by_contra hc
      have : p ∈ ps.filter (fun p => decide ((Dir.inn, p) ∉ s.waves)) :=
        List.mem_filter.2 ⟨hp, by simpa [hwm] using hc⟩
      rw [hn] at this; simp at this
    have hcon : consume [] ps s = (s', .error e) := by
      unfold connect at hs
      simp only [hn] at hs
      refine connectTail_refused (fun p hp => ?_) (fun p hp => ?_) hs
      · simp only [waveA, List.not_mem_nil, if_false]; exact (hwm _ _).2 (hall hp)
      · simp only [waveB, List.not_mem_nil, if_false]; exact (hwm _ _).2 (hall hp)
    obtain ⟨f1, -, f3, f4⟩ := consume_frame hcon
    obtain ⟨c1, c2, c3, c4, c5, c6⟩ := consume_refused hcon
    cases ps with
    | nil => simp [consume] at hcon
    | cons p l =>
      obtain ⟨d1, d2⟩ := c6 p l rfl (by simp)
      by_cases hp : p ∈ s.ports
      · right
        refine ⟨unusable (f4.trans hS) ?_ (f3.trans hE) (Or.inr ?_), Or.inr ⟨hall, p, l, rfl, (hfm p).2 hp⟩⟩
        · obtain ⟨a1, a2, a3, a4, a5, a6⟩ := f1
          exact a4.trans hal
        · have := d1 hp
          rw [c1, c2]; omega
      · left
        exact ⟨d2 hp, Or.inr (Or.inr ⟨hall, p, l, rfl, fun hc => hp ((hfm p).1 hc)⟩)⟩
  | [.ext n] =>
    right
    refine ⟨?_, Or.inl ⟨n, rfl⟩⟩
    have hm : Node.ext n ∈ ps.filter (fun p => decide ((Dir.inn, p) ∉ s.waves)) := by rw [hn]; simp
    have hnn : (Dir.inn, Node.ext n) ∉ s.waves := by simpa using (List.mem_filter.1 hm).2
    have hidx : s.cols ≤ idx (s.waves ++ [(Dir.inn, .ext n), (.out, .ext n)]) (.inn, .ext n) := by
      rw [idx_append_not_mem hnn, hr.wlen]
      omega
    unfold connect at hs
    simp only [hn] at hs
    cases ho : ps.filter (fun p => decide ((Dir.inn, p) ∈ s.waves)) with
    | nil =>
      simp only [ho, Prod.mk.injEq] at hs
      obtain ⟨rfl, _⟩ := hs
      exact unusable hS hal hE (Or.inl ⟨.ext n, by simp, hidx⟩)
    | cons o os =>
      simp only [ho] at hs
      cases hg : getpos ops { s with waves := s.waves ++ [(Dir.inn, .ext n), (.out, .ext n)], ports := s.ports ++ [.ext n] } o with
      | error e' =>
        simp only [hg, Prod.mk.injEq] at hs
        obtain ⟨rfl, _⟩ := hs
        exact unusable hS hal hE (Or.inl ⟨.ext n, by simp, hidx⟩)
      | ok x =>
        simp only [hg] at hs
        have hold : ∀ p ∈ ps, p ≠ .ext n → ∀ d, (d, p) ∈ s.waves := by
          intro p hp hpn d
          by_contra hc
          have : p ∈ ps.filter (fun p => decide ((Dir.inn, p) ∉ s.waves)) :=
            List.mem_filter.2 ⟨hp, by rw [hwm] at hc; simpa [hwm] using hc⟩
          rw [hn] at this
          exact hpn (by simpa using this)
        have hcon := connectTail_refused (fun p hp => ?_) (fun p hp => ?_) hs
        · obtain ⟨f1, -, f3, f4⟩ := consume_frame hcon
          obtain ⟨c1, c2, c3, c4, c5, c6⟩ := consume_refused hcon
          obtain ⟨a1, a2, a3, a4, a5, a6⟩ := f1
          refine unusable (f4.trans hS) (a4.trans hal) (f3.trans hE) (Or.inl ⟨.ext n, c5 _ (by simp) (by simp), ?_⟩)
          rw [c2, c3]; exact hidx
        · unfold waveA
          by_cases hpn : p = .ext n
          · subst hpn; simp
          · rw [if_neg (by simpa using hpn)]
            simp [hold p hp hpn]
        · unfold waveB
          by_cases hpn : p = .ext n
          · subst hpn; simp
          · rw [if_neg (by simpa using hpn)]
            simp [hold p hp hpn]

/-! ## deembed -/

theorem deembedInt_refused {dp ip : Node} {e : Err} (h : deembedInt s dp ip = (s', .error e)) :
    s'.rows = s.rows ∧ s'.cols = s.cols ∧ s'.E = s.E ∧ s'.S = s.S ∧ s'.aliased = s.aliased ∧
    (s'.ports.length = s.ports.length ∨ s'.ports.length = s.ports.length + 1) := by
  unfold deembedInt at h
  split at h
  · simp only [Prod.mk.injEq] at h
    obtain ⟨rfl, _⟩ := h; simp
  · simp only at h
    split at h
    · simp only [Prod.mk.injEq] at h
      obtain ⟨rfl, _⟩ := h; simp
    · split at h
      · simp only [Prod.mk.injEq] at h
        obtain ⟨rfl, _⟩ := h; simp
      · simp only [Prod.mk.injEq] at h
        obtain ⟨rfl, _⟩ := h; simp
      · simp at h

theorem iter_deembedInt_refused : ∀ {int : List (Node × Node)} {s s' : St K O F Fl} {e : Err},
    iter (fun s x => deembedInt s x.1 x.2) s int = (s', .error e) →
    ∃ k < int.length, s'.rows.length = s.rows.length + 2 * k ∧ s'.cols = s.cols ∧ s'.E = s.E ∧ s'.S = s.S ∧
      s'.aliased = s.aliased ∧ (s'.ports.length = s.ports.length ∨ s'.ports.length = s.ports.length + 1)
  | [], s, s', e, h => by simp [iter] at h
  | x :: int, s, s', e, h => by
    unfold iter at h
    cases h1 : deembedInt s x.1 x.2 with
    | mk s1 r1 =>
      rw [h1] at h
      cases r1 with
      | error e' =>
        simp only [Prod.mk.injEq] at h
        obtain ⟨rfl, _⟩ := h
        obtain ⟨a1, a2, a3, a4, a5, a6⟩ := deembedInt_refused h1
        exact ⟨0, by simp, by simp [a1], a2, a3, a4, a5, a6⟩
      | ok u =>
        simp only at h
        obtain ⟨b1, b2, b3, b4, -⟩ := deembedInt_count h1
        obtain ⟨⟨c1, c2, c3, c4, c5, c6⟩, c7, c8⟩ := deembedInt_frame h1
        obtain ⟨k, k0, k1, k2, k3, k4, k5, k6⟩ := iter_deembedInt_refused h
        refine ⟨k + 1, by simp; omega, by omega, k2.trans b2, k3.trans b4, k4.trans c8, k5.trans c4, by omega⟩

theorem deembedExt_refused {dp ep : Node} {e : Err} (hw : ∀ p ∈ s.ports, ∀ d, (d, p) ∈ s.waves)
    (h : deembedExt s dp ep = (s', .error e)) :
    s' = s ∨ (s'.rows.length = s.rows.length + 2 ∧ s'.cols = s.cols ∧ s'.E = s.E ∧ s'.S = s.S ∧ s'.aliased = s.aliased ∧
      s'.ports.length + 1 = s.ports.length) := by
  unfold deembedExt at h
  by_cases h1 : dp ∉ s.ports
  · rw [if_pos h1] at h
    simp only [Prod.mk.injEq] at h
    exact Or.inl h.1.symm
  · rw [if_neg h1] at h
    push Not at h1
    by_cases h2 : ep ∉ s.ports
    · rw [if_pos h2] at h
      simp only [Prod.mk.injEq] at h
      exact Or.inl h.1.symm
    · rw [if_neg h2] at h
      push Not at h2
      simp only [pyIndex_of_mem (hw dp h1 .inn), pyIndex_of_mem (hw dp h1 .out), pyIndex_of_mem (hw ep h2 .inn),
        pyIndex_of_mem (hw ep h2 .out)] at h
      split at h
      · simp only [Prod.mk.injEq] at h
        obtain ⟨rfl, _⟩ := h
        right
        have hl := List.length_erase_of_mem h1
        have hp := List.length_pos_of_mem h1
        simp only [List.length_append, List.length_cons, List.length_nil, true_and]
        omega
      · simp at h

theorem iter_deembedExt_refused : ∀ {ext : List (Node × Node)} {s s' : St K O F Fl} {e : Err},
    (∀ p ∈ s.ports, ∀ d, (d, p) ∈ s.waves) →
    iter (fun s x => deembedExt s x.1 x.2) s ext = (s', .error e) →
    (∃ done x rest, ext = done ++ x :: rest ∧ iter (fun s x => deembedExt s x.1 x.2) s done = (s', .ok ())) ∨
    (∃ k, s'.rows.length = s.rows.length + 2 * k ∧ s'.cols = s.cols ∧ s'.E = s.E ∧ s'.S = s.S ∧
      s'.aliased = s.aliased ∧ s'.ports.length + 2 * k = s.ports.length + 1)
  | [], s, s', e, hw, h => by simp [iter] at h
  | x :: ext, s, s', e, hw, h => by
    unfold iter at h
    cases h1 : deembedExt s x.1 x.2 with
    | mk s1 r1 =>
      rw [h1] at h
      cases r1 with
      | error e' =>
        simp only [Prod.mk.injEq] at h
        obtain ⟨rfl, _⟩ := h
        rcases deembedExt_refused hw h1 with rfl | ⟨a1, a2, a3, a4, a5, a6⟩
        · exact Or.inl ⟨[], x, ext, rfl, rfl⟩
        · exact Or.inr ⟨1, a1, a2, a3, a4, a5, by omega⟩
      | ok u =>
        simp only at h
        obtain ⟨b1, b2, b3, b4, b5⟩ := deembedExt_count h1
        obtain ⟨⟨c1, c2, c3, c4, c5, c6⟩, c7, c8⟩ := deembedExt_frame h1
        have hE : s1.E = s.E := by
          unfold deembedExt at h1
          split at h1
          · simp at h1
          · split at h1
            · simp at h1
            · simp only at h1
              split at h1
              · split at h1
                · simp at h1
                · simp only [Prod.mk.injEq, and_true] at h1
                  rw [← h1]
              · simp at h1
        rcases iter_deembedExt_refused (fun p hp d => b4 _ (hw p (b5 p hp) d)) h with ⟨done, y, rest, k1, k2⟩ | ⟨k, k1, k2, k3, k4, k5, k6⟩
        · left
          refine ⟨x :: done, y, rest, by rw [k1]; rfl, ?_⟩
          unfold iter
          rw [h1]
          exact k2
        · right
          exact ⟨k + 1, by omega, k2.trans b2, k3.trans hE, k4.trans c8, k5.trans c4, by omega⟩

theorem iter_deembedInt_waves : ∀ {int : List (Node × Node)} {s s' : St K O F Fl},
    (∀ p ∈ s.ports, ∀ d, (d, p) ∈ s.waves) → iter (fun s x => deembedInt s x.1 x.2) s int = (s', .ok ()) →
    (∀ p ∈ s'.ports, ∀ d, (d, p) ∈ s'.waves)
  | [], s, s', hw, h => by
    simp only [iter, Prod.mk.injEq, and_true] at h
    subst h; exact hw
  | x :: int, s, s', hw, h => by
    unfold iter at h
    cases h1 : deembedInt s x.1 x.2 with
    | mk s1 r1 =>
      rw [h1] at h
      cases r1 with
      | error e => simp at h
      | ok u =>
        simp only at h
        refine iter_deembedInt_waves ?_ h
        unfold deembedInt at h1
        split at h1
        · simp at h1
        · simp only at h1
          split at h1
          · simp at h1
          · split at h1
            · simp at h1
            · simp at h1
            · simp only [Prod.mk.injEq, and_true] at h1
              rw [← h1]
              intro p hp d
              have hp' : p ∈ s.ports ++ [x.2] := List.mem_of_mem_erase hp
              simp only [List.mem_append, List.mem_singleton] at hp'
              show (d, p) ∈ s.waves ++ [(Dir.inn, x.2), (.out, x.2)]
              rcases hp' with hp' | rfl
              · exact List.mem_append_left _ (hw p hp' d)
              · cases d <;> simp

/-- **C27, deembed.**  Take any circuit that has not been evaluated yet.  A refused `deembed` either leaves a circuit that can
no longer be evaluated, or one in which the internal pairs and the external pairs before the offending one *have been
deembedded*, exactly as by an accepted call with only those pairs. -/
theorem C27_deembed_refused [CharZero K] (hlaw : Lawful ops beh) (h : Built ops beh nan zb names net bh s .building)
    {int ext : List (Node × Node)} {e : Err} (hs : deembed s int ext = (s', .error e)) :
    Unusable ops s' ∨ ∃ done x rest, ext = done ++ x :: rest ∧ deembed s int done = (s', .ok ()) := by
  obtain ⟨hinv, hb, -⟩ := h.all hlaw
  obtain ⟨hE, hal, hS⟩ := hb rfl
  have hr := hinv.rep
  have hcount : s.rows.length + s.ports.length = s.cols := by
    have h1 := hr.rep.count
    have h2 := hr.wlen
    simp only [St.core, hE, List.length_nil] at h1
    omega
  have hw : ∀ p ∈ s.ports, ∀ d, (d, p) ∈ s.waves := fun p hp d => (hr.rep.wmem d p).2 ((hr.rep.pmem p).1 hp).1
  unfold deembed at hs ⊢
  simp only at hs ⊢
  cases h1 : iter (fun s x => deembedInt s x.1 x.2) { s with S := none, invM := none, rows := s.rows.map (padRow s.cols), cols := s.cols + 2 * int.length } int with
  | mk s1 r1 =>
    rw [h1] at hs
    cases r1 with
    | error e' =>
      left
      simp only [Prod.mk.injEq] at hs
      obtain ⟨rfl, _⟩ := hs
      obtain ⟨k, k0, k1, k2, k3, k4, k5, k6⟩ := iter_deembedInt_refused h1
      simp only [List.length_map] at k1 k2 k3 k4 k5 k6
      exact unusable k4 (k5.trans hal) (k3.trans hE) (Or.inr (by omega))
    | ok u =>
      simp only at hs ⊢
      obtain ⟨a1, a2, a3, a4, -⟩ := iter_deembedInt_count h1
      simp only [List.length_map] at a1 a2 a3 a4
      rcases iter_deembedExt_refused (iter_deembedInt_waves (by exact hw) h1) hs with hd | ⟨k, k1, k2, k3, k4, k5, k6⟩
      · exact Or.inr hd
      · left
        have hfr : s1.S = none ∧ s1.aliased = s.aliased := by
          have : deembed s int [] = (s1, .ok ()) := by
            unfold deembed
            simp only [h1, iter]
          obtain ⟨⟨f1, f2, f3, f4, f5, f6⟩, g2, g3⟩ := deembed_frame this
          exact ⟨g3, f4⟩
        exact unusable (k4.trans hfr.1) ((k5.trans hfr.2).trans hal) ((k3.trans a4).trans hE) (Or.inr (by omega))

/-- **C27, deembed (nothing done).**  When the first external pair is the offending one and there are no internal pairs,
nothing has changed: every later `getS` answers as without the call.  -/
theorem C27_deembed_first_refused [CharZero K] (hlaw : Lawful ops beh) (h : Built ops beh nan zb names net bh s .building)
    (hfree : net.free ≠ []) {x : Node × Node} {ext : List (Node × Node)} {e : Err}
    (hx : x.1 ∉ net.free ∨ x.2 ∉ net.free)
    (hs : deembed s [] (x :: ext) = (s', .error e)) :
    Built ops beh nan zb names net bh s' .building ∧ s'.ports = s.ports ∧
    ∀ f z fl, (getS ops s' f z fl).2 = (getS ops s f z fl).2 := by
  have hfm : ∀ p, p ∈ net.free ↔ p ∈ s.ports := fun p => ((h.inv hlaw).rep.ports_perm.mem_iff).symm
  have h0 : deembed s [] [] = (s', .ok ()) ∧ s'.ports = s.ports ∧ s'.rows.length = s.rows.length ∧ s'.cols = s.cols ∧
      s'.names = s.names ∧ s'.blocks = s.blocks := by
    unfold deembed at hs ⊢
    simp only [iter] at hs ⊢
    unfold deembedExt at hs
    by_cases h1 : x.1 ∉ s.ports
    · simp only [h1, not_false_eq_true, if_true, Prod.mk.injEq] at hs
      obtain ⟨rfl, _⟩ := hs
      simp [St.names]
    · have h2 : x.2 ∉ s.ports := by
        rcases hx with hx | hx
        · exact absurd (fun hc => hx ((hfm _).2 hc)) h1
        · exact fun hc => hx ((hfm _).2 hc)
      simp only [h1, h2, not_false_eq_true, if_true, if_false, Prod.mk.injEq] at hs
      obtain ⟨rfl, _⟩ := hs
      simp [St.names]
  obtain ⟨h1, h2, h3, h4, h5, h6⟩ := h0
  have hb : Built ops beh nan zb names (net.deembed [] []) bh s' .building :=
    Built.deembed h (by simp) (by simp) (by simp) h1
  have hb' : Built ops beh nan zb names net bh s' .building := hb
  refine ⟨hb', h2, fun f z fl => ?_⟩
  refine same_answers hlaw h (by decide) hb' (by decide) hfree ?_ f z fl
  exact Kept.of_shape (fun _ _ _ => by rw [h6]) h3 h4 h5 h2

/-! ## after an evaluation -/

/-- **C27, connect after an evaluation (violation).**  The circuit has been evaluated: it holds the matrix of its `n` external
ports.  A `connect` of existing ports, the first of them free, is refused.  Then `getS` at the same frequency still returns
that `n`-port matrix, while the circuit now has fewer than `n` external ports. -/
theorem C27_connect_refused_evaluated [CharZero K] (hlaw : Lawful ops beh) (h : Built ops beh nan zb names net bh s ph)
    {f : F} {fl : Fl} {M : SMat K} {s1 : St K O F Fl} (hev : getS ops s f none fl = (s1, .ok M)) (hph : ph ≠ .reloaded)
    {p : Node} {l : List Node} {e : Err} (hsub : p :: l ⊆ net.nodes) (hp : p ∈ net.free)
    (hs : connect ops s1 (p :: l) = (s', .error e)) :
    (getS ops s' f none fl).2 = .ok M ∧ M.n = net.free.length ∧ s'.ports.length < net.free.length := by
  have h1 := Built.eval h hev
  have hr := (h1.inv hlaw).rep
  have hwm : ∀ d n, (d, n) ∈ s1.waves ↔ n ∈ net.nodes := hr.rep.wmem
  have hpp : p ∈ s1.ports := hr.ports_perm.mem_iff.2 hp
  have hn : (p :: l).filter (fun p => decide ((Dir.inn, p) ∉ s1.waves)) = [] := by
    rw [List.filter_eq_nil_iff]
    intro q hq
    simp [hwm, hsub hq]
  have hcon : consume [] (p :: l) s1 = (s', .error e) := by
    unfold connect at hs
    simp only [hn] at hs
    refine connectTail_refused (fun p hp => ?_) (fun p hp => ?_) hs
    · simp only [waveA, List.not_mem_nil, if_false]; exact (hwm _ _).2 (hsub hp)
    · simp only [waveB, List.not_mem_nil, if_false]; exact (hwm _ _).2 (hsub hp)
  obtain ⟨f1, -, f3, f4⟩ := consume_frame hcon
  obtain ⟨a1, a2, a3, a4, a5, a6⟩ := f1
  obtain ⟨c1, c2, c3, c4, c5, c6⟩ := consume_refused hcon
  have hlt := (c6 p l rfl (by simp)).1 hpp
  have hlen := hr.ports_perm.length_eq
  -- what the evaluation has stored
  have hst : s1.S = some M ∧ s1.f = some f ∧ s1.flags = some fl := by
    unfold getS at hev
    cases hg : get1S ops s f fl with
    | mk s2 r2 =>
      rw [hg] at hev
      cases r2 with
      | error e => simp at hev
      | ok M' =>
        simp only [Prod.mk.injEq, Except.ok.injEq] at hev
        obtain ⟨rfl, rfl⟩ := hev
        rcases get1S_eq (ops := ops) s f fl with ⟨M, e1, e2, e3, e4⟩ | ⟨e1, e2⟩
        · rw [e4] at hg
          simp only [Prod.mk.injEq, Except.ok.injEq] at hg
          obtain ⟨rfl, rfl⟩ := hg
          exact ⟨e1, e2, e3⟩
        · rw [e2] at hg
          obtain ⟨q1, q2, q3, _⟩ := recompute_spec hlaw (h.inv hlaw) f fl hg
          obtain ⟨g1, g2, g3, -⟩ := q2 M' rfl
          exact ⟨g1, g2, g3⟩
  refine ⟨?_, ?_, by omega⟩
  · have e1 : s'.S = some M := f4.trans hst.1
    have e2 : s'.f = some f := a5.trans hst.2.1
    have e3 : s'.flags = some fl := a6.trans hst.2.2
    unfold getS get1S
    rw [e1]
    simp only
    rw [if_pos ⟨e2, e3⟩]
  · have hc := (h1.all hlaw).2.2 (by rw [afterEval_of_ne hph]; decide) M hst.1
    obtain ⟨-, f', fl', -, -, ⟨Sof, hS⟩, hsc⟩ := hc
    rw [(hsc Sof hS).size, hlen]

end

/-! ## witnesses -/

namespace Ex

theorem rho4 : termRho s3.zbase (.Z (100 : ℚ)) = .ok ((100 - s3.zbase) / (100 + s3.zbase)) := by
  have : s3.zbase = 50 := rfl
  simp only [termRho, this]
  norm_num

theorem s4_eq : s4 = { s3 with
    ports := [.blk "A" "1"], xpos := s3.xpos.eraseIdx 1, eqns := s3.eqns ++ [.T (.blk "B" "2")]
    rows := s3.rows ++ [setCol (setCol zeroRow 5 (-1)) 7 ((100 - s3.zbase) / (100 + s3.zbase))]
    T := [(.blk "B" "2", (5, 7, 6))] } := by
  unfold s4 terminate
  rw [rho4]
  rfl

/-- `A.2` and `B.1` are connected, `B.2` is loaded, `A.1` is free.  Connecting `A.1` to the used port `B.1` is refused,
and the circuit (which could be evaluated before) is unusable from then on. -/
theorem C27_connect_witness : ∃ t e, connect o s4 [.blk "A" "1", .blk "B" "1"] = (t, .error e) ∧ Unusable o t ∧
    ∃ t' M, getS o s4 () none () = (t', .ok M) := by
  have hr : ∃ t e, connect o s4 [.blk "A" "1", .blk "B" "1"] = (t, .error e) := by
    refine ⟨_, .valueError, Prod.ext rfl ?_⟩
    rw [s4_eq]
    rfl
  obtain ⟨t, e, hr⟩ := hr
  refine ⟨t, e, hr, ?_, ?_⟩
  · rcases C27_connect_refused (imm_lawful _ _ _) built hr with ⟨h1, h2⟩ | ⟨h1, _⟩
    · exfalso
      rcases h2 with h2 | ⟨b, p, h2, h3⟩ | ⟨_, p, l, h2, h3⟩
      · revert h2; decide
      · simp only [List.mem_cons, List.not_mem_nil, or_false] at h2
        rcases h2 with h2 | h2 <;> (rw [h2] at h3; revert h3; decide)
      · injection h2 with h2 _
        rw [← h2] at h3; revert h3; decide
    · exact h1
  · exact (C20_getS_complete (imm_lawful _ _ _) built (by decide) given (by decide) (Or.inl names)).2 solvable

theorem imm_positioned (K F Fl : Type*) : Positioned (immOps K F Fl) := fun o xs h => o.placed xs h

/-- terminating a used port is refused and (by `C27_terminate_refused`) changes nothing -/
theorem C27_terminate_refused_witness : ∃ t e, terminate s4 (.blk "A" "2") (.RC (1/2)) = (t, .error e) ∧ t = s4 := by
  have hr : ∃ t e, terminate s4 (.blk "A" "2") (.RC (1/2)) = (t, .error e) := by
    refine ⟨_, .valueError, Prod.ext rfl ?_⟩
    rw [s4_eq]
    unfold terminate
    simp only [termRho]
    rfl
  obtain ⟨t, e, hr⟩ := hr
  exact ⟨t, e, hr, C27_terminate_refused (imm_lawful _ _ _) (imm_positioned _ _ _) built hr⟩

/-- terminating a used port is refused and changes nothing -/
theorem C27_terminate_witness : terminate s4 (.blk "A" "2") (.RC (1/2)) = (s4, .error .valueError) := by
  rw [s4_eq]
  unfold terminate
  simp only [termRho]
  rfl

/-- a block whose list of ports has the wrong length is refused -/
theorem C27_addblock_witness : addblock o 0 s4 "D" (two mA) (.dict [("3", "x")]) 0 =
    ({ s4 with S := none, invM := none }, .error .valueError) := by
  rw [s4_eq]
  rfl

/-- deembedding with an internal name that is taken is refused, and the circuit is unusable -/
theorem C27_deembed_witness : ∃ t e, deembed s4 [(.blk "A" "1", .blk "A" "1")] [] = (t, .error e) ∧ Unusable o t := by
  have hr : ∃ t, deembed s4 [(.blk "A" "1", .blk "A" "1")] [] = (t, .error .valueError) := by
    rw [s4_eq]
    exact ⟨_, rfl⟩
  obtain ⟨t, hr⟩ := hr
  refine ⟨t, _, hr, ?_⟩
  rcases C27_deembed_refused (imm_lawful _ _ _) built hr with h | ⟨done, x, rest, h, _⟩
  · exact h
  · simp at h

end Ex
end PyRFtk.Circuit
