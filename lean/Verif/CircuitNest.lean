import Verif.CircuitPower

/-!
# Circuits as blocks of circuits (C22)

`circOps` makes a circuit an object that can be used as a block of another circuit.  `circ_lawful`: it meets what the
circuit theorems assume of block objects, so all theorems about circuits apply to circuits of circuits, at any depth
(`tower`).
-/

set_option linter.unusedSectionVars false

namespace PyRFtk.Circuit

section
variable {K O F Fl : Type*} [Field K] [DecidableEq F] [DecidableEq Fl]
variable {ops : ObjOps K O F Fl} {beh : O → F → K → Fl → Except Err (SMat K)} {nan zb : K} {names : List Node}
variable {net : Net K} {bh : Behave K F Fl} {s s' : St K O F Fl} {ph : Phase}

/-- error of the first block that does not deliver -/
def fillErr (beh : O → F → K → Fl → Except Err (SMat K)) (f : F) (zb : K) (fl : Fl) (bs : List (Blk O)) : Option Err :=
  bs.findSome? fun b => match beh b.obj f zb fl with | .error e => some e | .ok _ => none

theorem fillErr_congr {f : F} {fl : Fl} {bs bs' : List (Blk O)} {R : Blk O → Blk O → Prop}
    (h : List.Forall₂ (fun b b' => R b b' ∧ beh b'.obj = beh b.obj) bs bs') :
    fillErr beh f zb fl bs' = fillErr beh f zb fl bs := by
  induction h with
  | nil => rfl
  | cons h _ ih =>
    simp only [fillErr, List.findSome?_cons, h.2] at ih ⊢
    rw [ih]

theorem fillBlocks_err (hlaw : Lawful ops beh) (f : F) (zb : K) (fl : Fl) :
    ∀ (bs : List (Blk O)) (rows : List (ℕ → K)), (∀ b ∈ bs, b.ports.length = ops.len b.obj) →
    (fillBlocks ops f zb fl bs rows).2.2 = match fillErr beh f zb fl bs with | some e => .error e | none => .ok ()
  | [], rows, _ => rfl
  | b :: bs, rows, hlen => by
    have hres := hlaw.res b.obj f zb fl
    unfold fillBlocks
    simp only [fillErr, List.findSome?_cons]
    cases hg : ops.getS b.obj f zb fl with
    | mk o r =>
      rw [hg] at hres
      simp only at hres
      cases r with
      | error e => simp only [← hres]
      | ok S =>
        simp only [← hres]
        have hn : S.n = b.ports.length := by
          rw [hlaw.sized _ _ _ _ _ hres.symm]; exact (hlen b (by simp)).symm
        obtain ⟨rows1, e1, e2, e3⟩ := setBlock_ok (rows := rows) (loc := b.loc) hn
        rw [e1]
        simp only
        exact fillBlocks_err hlaw f zb fl bs rows1 fun x hx => hlen x (by simp [hx])

/-- `Portnames` does not name the external ports -/
def Bad (s : St K O F Fl) : Prop := s.rows.length ≠ s.cols ∧ s.names ≠ [] ∧ ¬ s.names.Perm s.ports

/-- the port order after the first evaluation -/
def ordered (s : St K O F Fl) : List Node := if s.rows.length = s.cols ∨ s.names = [] then s.ports else s.names

/-- what an evaluation answers -/
structure Answer (beh : O → F → K → Fl → Except Err (SMat K)) (net : Net K) (bh : Behave K F Fl) (zb : K)
    (bs : List (Blk O)) (bad : Prop) (ord : List Node) (f : F) (fl : Fl) (r : Except Err (SMat K)) : Prop where
  fill : ∀ e, fillErr beh f zb fl bs = some e → r = .error e
  names : fillErr beh f zb fl bs = none → bad → r = .error .valueError
  solve : fillErr beh f zb fl bs = none → ¬ bad → ∃ Sof, Given net bh f zb fl Sof ∧
    ((Solvable (net.Laws zb Sof) net.nodes ord ∧ ∃ S, r = .ok S ∧ IsScattering (net.Laws zb Sof) net.nodes ord S) ∨
     (¬ Solvable (net.Laws zb Sof) net.nodes ord ∧ r = .error .linAlg))

theorem Given.laws_congr {f : F} {fl : Fl} {Sof Sof' : String → SMat K} (h : Given net bh f zb fl Sof)
    (h' : Given net bh f zb fl Sof') (w : Wave → K) : net.Laws zb Sof w ↔ net.Laws zb Sof' w := by
  have e : ∀ x ∈ net.blks, Sof x.1 = Sof' x.1 := by
    intro x hx
    have h1 := h x hx
    have h2 := h' x hx
    rw [h1] at h2
    injection h2
  simp only [Net.Laws]
  refine and_congr_left fun _ => forall₂_congr fun x hx => ?_
  rw [e x hx]

theorem Solvable.congr {laws laws' : (Wave → K) → Prop} {nodes ports : List Node} (hl : ∀ w, laws w ↔ laws' w)
    (h : Solvable laws nodes ports) : Solvable laws' nodes ports :=
  ⟨fun a => by obtain ⟨w, h1, h2⟩ := h.exists_sol a; exact ⟨w, (hl w).1 h1, h2⟩,
    fun w w' h1 h2 => h.unique w w' ((hl w).2 h1) ((hl w').2 h2)⟩

/-- the answer is determined -/
theorem Answer.unique {bs : List (Blk O)} {bad : Prop} {ord : List Node} {f : F} {fl : Fl} {r r' : Except Err (SMat K)}
    (hnd : ord.Nodup)
    (h : Answer beh net bh zb bs bad ord f fl r) (h' : Answer beh net bh zb bs bad ord f fl r') : r = r' := by
  cases hf : fillErr beh f zb fl bs with
  | some e => rw [h.fill e hf, h'.fill e hf]
  | none =>
    by_cases hb : bad
    · rw [h.names hf hb, h'.names hf hb]
    · obtain ⟨Sof, hg, c⟩ := h.solve hf hb
      obtain ⟨Sof', hg', c'⟩ := h'.solve hf hb
      have hl := hg.laws_congr hg'
      rcases c with ⟨c1, S, rfl, c2⟩ | ⟨c1, rfl⟩ <;> rcases c' with ⟨c1', S', rfl, c2'⟩ | ⟨c1', rfl⟩
      · congr 1
        exact c2.unique_S c2' hl hnd
      · exact absurd (c1.congr hl) c1'
      · exact absurd (c1'.congr fun w => (hl w).symm) c1
      · rfl

theorem or3 {A B C : Prop} : (A ∨ B ∨ C) ↔ ¬ (¬ A ∧ ¬ B ∧ ¬ C) := by tauto

/-- what an evaluation keeps -/
structure Kept (beh : O → F → K → Fl → Except Err (SMat K)) (s s' : St K O F Fl) : Prop where
  err : ∀ f zb fl, fillErr beh f zb fl s'.blocks = fillErr beh f zb fl s.blocks
  bad : Bad s' ↔ Bad s
  ord : ¬ Bad s → ordered s' = ordered s
  ports : s'.ports = s.ports ∨ s'.ports = ordered s

theorem Kept.refl (s : St K O F Fl) : Kept beh s s := ⟨fun _ _ _ => rfl, Iff.rfl, fun _ => rfl, Or.inl rfl⟩

theorem Kept.of_shape (he : ∀ f zb fl, fillErr beh f zb fl s'.blocks = fillErr beh f zb fl s.blocks)
    (h1 : s'.rows.length = s.rows.length) (h2 : s'.cols = s.cols) (h3 : s'.names = s.names) (h4 : s'.ports = s.ports) :
    Kept beh s s' := by
  refine ⟨he, ?_, fun _ => ?_, Or.inl h4⟩
  · simp only [Bad, h1, h2, h3, h4]
  · simp only [ordered, h1, h2, h3, h4]

theorem recompute_answer (hlaw : Lawful ops beh) (h : Inv ops beh zb names net bh s) (hp : s.ports ≠ []) (f : F) (fl : Fl)
    {s' : St K O F Fl} {r : Except Err (SMat K)} (hrun : recompute ops s f fl = (s', r)) :
    Answer beh net bh zb s.blocks (Bad s) (ordered s) f fl r ∧ Kept beh s s' := by
  obtain ⟨i1, i2, i3, i4⟩ := recompute_spec hlaw h f fl hrun
  obtain ⟨hrep, hbhv, hzb, hnm, hord⟩ := h
  have hinv : Inv ops beh zb names net bh s := ⟨hrep, hbhv, hzb, hnm, hord⟩
  obtain ⟨f1, f2, f3, f4⟩ := fillBlocks_spec hlaw f s.zbase fl s.blocks s.rows hrep.rep.blen hrep.rep.rows_disjoint
  have ferr := fillBlocks_err hlaw f s.zbase fl s.blocks s.rows hrep.rep.blen
  unfold recompute at hrun
  simp only at hrun
  generalize fillBlocks ops f s.zbase fl s.blocks s.rows = q at hrun f1 f2 f3 f4 ferr
  have hke : ∀ f zb fl, fillErr beh f zb fl q.1 = fillErr beh f zb fl s.blocks := fun f zb fl => fillErr_congr f2
  rw [hzb] at ferr
  have hlike : List.Forall₂ (Blk.Like ops) s.blocks q.1 := f2.imp fun _ _ x => x.1
  set s1 : St K O F Fl := { s with blocks := q.1, rows := q.2.1 } with hs1
  have hrep1 : Rep ops net s1 := by
    refine ⟨hrep.rep.fill f1 hlike, hrep.wlen, ?_⟩
    intro b p hb
    have h1 := congrArg (List.map Prod.fst) (forall₂_like_map hlike)
    simp only [List.map_map] at h1
    have h3 : q.1.map Blk.name = s.blocks.map Blk.name := h1
    show b ∈ q.1.map Blk.name
    rw [h3]
    exact hrep.bnode b p hb
  have hlen : s1.rows.length = s.rows.length := f1.1
  cases hfe : fillErr beh f zb fl s.blocks with
  | some e =>
    rw [hfe] at ferr
    simp only at ferr
    rw [ferr] at hrun
    simp only [Prod.mk.injEq] at hrun
    obtain ⟨rfl, rfl⟩ := hrun
    refine ⟨⟨fun e' he' => ?_, fun hn => ?_, fun hn => ?_⟩, Kept.of_shape hke hlen rfl rfl rfl⟩
    · rw [hfe] at he'; injection he' with he'; rw [he']
    · rw [hfe] at hn; cases hn
    · rw [hfe] at hn; cases hn
  | none =>
    rw [hfe] at ferr
    simp only at ferr
    rw [ferr] at hrun
    simp only at hrun
    obtain ⟨g1, g2⟩ := f3 ferr
    have hgiven : ∃ Sof, Given net bh f zb fl Sof := by
      apply exists_given
      intro x hx
      have hb : net.blks = s.blocks.map fun b => (b.name, b.ports) := hrep.rep.blks
      rw [hb] at hx
      simp only [List.mem_map] at hx
      obtain ⟨b, hbm, rfl⟩ := hx
      obtain ⟨S, hS⟩ := g1 b hbm
      exact ⟨S, by rw [← hbhv b hbm, ← hzb]; exact hS⟩
    obtain ⟨q1, q2, q3, q4, q5, q6, q7, q8, q9, q10⟩ := squareUp_spec hrep1
    simp only [extS] at hrun
    have hbad : (squareUp s1).2 = .ok () ↔ ¬ Bad s := by
      rw [q9]
      simp only [Bad, hlen]
      exact or3
    cases hsu : squareUp s1 with
    | mk s2 r2 =>
      simp only [hsu] at hrun
      rw [hsu] at q1 q2 q3 q4 q5 q6 q7 q8 q9 q10 hbad
      simp only at q1 q2 q3 q4 q5 q6 q7 q8 q9 q10 hbad
      cases r2 with
      | error e =>
        obtain ⟨t1, t2⟩ := q10 (by simp)
        injection t2 with t2
        subst t2
        simp only [Prod.mk.injEq] at hrun
        obtain ⟨rfl, rfl⟩ := hrun
        have hb : Bad s := by by_contra hc; have := hbad.2 hc; simp at this
        subst t1
        refine ⟨⟨fun e' he' => ?_, fun _ _ => rfl, fun _ hn => absurd hb hn⟩, Kept.of_shape hke hlen rfl rfl rfl⟩
        rw [hfe] at he'; cases he'
      | ok u =>
        have hb : ¬ Bad s := hbad.1 rfl
        obtain ⟨t1, ⟨R, t2⟩, t3, t4⟩ := q8 rfl
        have hp2 : s2.ports = ordered s := by
          unfold ordered
          by_cases hsq : s.rows.length = s.cols
          · rw [if_pos (Or.inl hsq)]
            have : squareUp s1 = (s1, .ok ()) := by unfold squareUp; rw [if_pos (by rw [hlen]; exact hsq)]
            rw [hsu] at this
            injection this with this
            rw [this]
          · rw [t4 (by rw [hlen]; exact hsq)]
            by_cases hn : s.names = []
            · rw [if_pos (Or.inr hn), if_pos (show s1.names = [] from hn)]
            · rw [if_neg (not_or.2 ⟨hsq, hn⟩), if_neg (show ¬ s1.names = [] from hn)]; rfl
        have hp2ne : s2.ports ≠ [] := by
          have hport2 : List.Perm s2.ports s1.ports := by
            refine (List.perm_ext_iff_of_nodup q1.rep.pnd hrep1.rep.pnd).2 fun p => ?_
            exact (q1.rep.pmem p).trans (hrep1.rep.pmem p).symm
          intro hc
          rw [hc] at hport2
          exact hp hport2.symm.eq_nil
        have hkept : ∀ s3 : St K O F Fl, s3.blocks = s2.blocks → s3.rows.length = s2.rows.length → s3.cols = s2.cols →
            s3.ports = s2.ports → Kept beh s s3 := by
          intro s3 e1 e2 e3 e4
          have hsq : s3.rows.length = s3.cols := by rw [e2, e3]; exact t1
          refine ⟨fun f zb fl => ?_, ?_, fun _ => ?_, Or.inr (by rw [e4, hp2])⟩
          · rw [e1, q2]; exact hke f zb fl
          · simp only [Bad, hsq, ne_eq, not_true_eq_false, false_and, false_iff]
            exact hb
          · rw [← hp2]
            simp only [ordered, hsq, true_or, if_true, e4]
        obtain ⟨Sof, hSof⟩ := hgiven
        have hfill2 : Filled s2.blocks s2.rows Sof := by
          have hS := hSof
          rw [← hzb, hinv.delivers] at hS
          have hf1 := g2 Sof hS
          have hfill1 : Filled s1.blocks s1.rows Sof := by
            intro b' hb' i j har rr hrr'
            obtain ⟨b, hb, h1, h2⟩ := forall₂_mem_right f2 hb'
            obtain ⟨e1, e2, e3, _⟩ := h1
            have har' : b.Area i j := by simpa [Blk.Area, e2, e3] using har
            rw [e1, e3]
            exact hf1 b hb i j har' rr hrr'
          intro b hb i j har rr hrr'
          rw [q2] at hb
          have hb1 : i < s1.rows.length := by
            have e := hrep1.rep.eS b hb (i - b.loc.1) (by have := har.1; have := har.2.1; omega)
            have hi : b.loc.1 + (i - b.loc.1) = i := by have := har.1; omega
            rw [hi] at e
            have e1 := (List.getElem?_eq_some_iff.1 e).1
            have e2 : s1.eqns.length = s1.rows.length := hrep1.rep.elen
            have e3 : i < s1.eqns.length := e1
            omega
          rw [t2, List.getElem?_append_left hb1] at hrr'
          exact hfill1 b hb i j har rr hrr'
        have hzb2 : s2.zbase = zb := by rw [q3]; exact hzb
        simp only at hrun
        rcases solveE_spec q1 t1 hp2ne hfill2 with ⟨W, S, he, hS, hMW⟩ | ⟨he, hS⟩
        · rw [he] at hrun
          simp only [Prod.mk.injEq] at hrun
          obtain ⟨rfl, rfl⟩ := hrun
          rw [hzb2, hp2] at hS
          refine ⟨⟨fun e' he' => ?_, fun _ hn => absurd hn hb, fun _ _ => ⟨Sof, hSof, Or.inl ⟨hS.toSolvable, S, rfl, hS⟩⟩⟩,
            hkept _ rfl rfl rfl rfl⟩
          rw [hfe] at he'; cases he'
        · rw [he] at hrun
          simp only [Prod.mk.injEq] at hrun
          obtain ⟨rfl, rfl⟩ := hrun
          rw [hzb2, hp2] at hS
          refine ⟨⟨fun e' he' => ?_, fun _ hn => absurd hn hb, fun _ _ => ⟨Sof, hSof, Or.inr ⟨hS, rfl⟩⟩⟩,
            hkept _ rfl rfl rfl rfl⟩
          rw [hfe] at he'; cases he'

theorem ordered_nodup (h : Rep ops net s) (hb : ¬ Bad s) : (ordered s).Nodup := by
  unfold ordered
  split
  · exact h.rep.pnd
  · rename_i hc
    push Not at hc
    have : s.names.Perm s.ports := by
      by_contra hn; exact hb ⟨hc.1, hc.2, hn⟩
    exact this.nodup_iff.2 h.rep.pnd

/-! a stored matrix exists only after `Portnames` and `ports` have become one list -/

theorem iter_addE_aliased : ∀ (ps : List Node) (s : St K O F Fl), (iter addE s ps).1.aliased = s.aliased := by
  intro ps
  induction ps with
  | nil => intro s; rfl
  | cons p ps ih =>
    intro s
    unfold iter
    cases ha : addE s p with
    | mk sa ra =>
      have : sa.aliased = s.aliased := by
        unfold addE at ha
        split at ha <;> (try split at ha) <;> (simp only [Prod.mk.injEq] at ha; rw [← ha.1])
      cases ra with
      | error e => exact this
      | ok u => exact (ih sa).trans this

theorem squareUp_aliased (h : s.aliased = true) : (squareUp s).1.aliased = true := by
  unfold squareUp
  split
  · exact h
  · simp only
    split
    · split
      · exact h
      · split
        · exact h
        · rw [iter_addE_aliased]
    · rw [iter_addE_aliased]

theorem solveE_aliased (s : St K O F Fl) : (solveE s).1.aliased = s.aliased := by
  unfold solveE
  split
  · rfl
  · split
    · rfl
    · rfl
    · unfold solveWith
      split
      · rfl
      · split
        · rfl
        · simp only
          split
          · rfl
          · split
            · rfl
            · split <;> rfl

theorem recompute_aliased (h : s.aliased = true) (f : F) (fl : Fl) : (recompute ops s f fl).1.aliased = true := by
  unfold recompute
  simp only
  split
  · exact h
  · unfold extS
    cases hsq : squareUp { s with blocks := (fillBlocks ops f s.zbase fl s.blocks s.rows).1
                                  rows := (fillBlocks ops f s.zbase fl s.blocks s.rows).2.1 } with
    | mk s1 r1 =>
      have h1 : s1.aliased = true := by
        have := squareUp_aliased (s := { s with blocks := (fillBlocks ops f s.zbase fl s.blocks s.rows).1
                                                rows := (fillBlocks ops f s.zbase fl s.blocks s.rows).2.1 }) h
        rw [hsq] at this; exact this
      cases r1 with
      | error e => exact h1
      | ok u =>
        simp only
        cases hse : solveE s1 with
        | mk s2 r2 =>
          have h2 := solveE_aliased s1
          rw [hse] at h2
          cases r2 with
          | error e => exact h2.trans h1
          | ok M => exact h2.trans h1

theorem getS_state {f : F} {z : Option K} {fl : Fl} {r : Except Err (SMat K)} (hs : getS ops s f z fl = (s', r)) :
    (get1S ops s f fl).1 = s' := by
  unfold getS at hs
  cases hg : get1S ops s f fl with
  | mk s1 r1 =>
    rw [hg] at hs
    cases r1 with
    | error e => simp only [Prod.mk.injEq] at hs; exact hs.1
    | ok M =>
      simp only at hs
      cases z with
      | none => simp only [Prod.mk.injEq] at hs; exact hs.1
      | some z =>
        simp only at hs
        split at hs <;> (simp only [Prod.mk.injEq] at hs; exact hs.1)

theorem Built.stored_aliased [CharZero K] (hlaw : Lawful ops beh) (h : Built ops beh nan zb names net bh s ph) :
    s.S ≠ none → s.aliased = true := by
  induction h with
  | init bh => intro h; exact absurd rfl h
  | @addblock net bh s s' name obj spec relpos ports hb hname hres hnd hs ih =>
    intro h
    exfalso; apply h
    exact (((Built.addblock hb hname hres hnd hs).all hlaw).2.1 rfl).2.2
  | @replace net bh s s' ph name obj spec relpos hb hname hs ih =>
    intro h
    exfalso; apply h
    obtain ⟨-, rfl⟩ := rep_replace (hb.inv hlaw).rep hname hs
    rfl
  | @connect net bh s s' ps hb hs ih =>
    intro h
    exfalso; apply h
    exact (((Built.connect hb hs).all hlaw).2.1 rfl).2.2
  | @terminate net bh s s' ph p args l hb hl hs ih =>
    intro h
    obtain ⟨⟨f1, f2, f3, f4, f5, f6⟩, g2, g3⟩ := terminate_frame hs
    rcases g3 rfl with h1 | ⟨h1, h2, h3⟩
    · exact absurd h1 h
    · rw [f4]; exact ih (by rw [← h1]; exact h)
  | @deembed net bh s s' int ext hb hfresh hnd hdot hs ih =>
    intro h
    exfalso; apply h
    exact (((Built.deembed hb hfresh hnd hdot hs).all hlaw).2.1 rfl).2.2
  | @used net bh s ph bs hb hu ih => exact fun h => ih h
  | @eval net bh s s' ph f z fl r hb hs ih =>
    intro h
    have hst := getS_state hs
    rcases get1S_eq (ops := ops) s f fl with ⟨M, e1, e2, e3, e4⟩ | ⟨e1, e2⟩
    · rw [e4] at hst
      simp only at hst
      subst hst
      exact ih h
    · rw [e2] at hst
      cases hr : recompute ops s f fl with
      | mk s1 r1 =>
        rw [hr] at hst
        simp only at hst
        subst hst
        obtain ⟨q1, q2, q3, _⟩ := recompute_spec hlaw (hb.inv hlaw) f fl hr
        cases r1 with
        | ok M => exact (q2 M rfl).2.2.2.2.1
        | error e =>
          rcases (q3 e rfl).1 with h1 | ⟨h1, _⟩
          · exact absurd h1 h
          · have := recompute_aliased (ops := ops) (ih (by rw [← h1]; exact h)) f fl
            rw [hr] at this; exact this

/-- every evaluation, cached or not, gives the answer -/
theorem get1S_answer (hlaw : Lawful ops beh) (h : Inv ops beh zb names net bh s) (hc : CacheOK net bh s)
    (hal : s.S ≠ none → s.aliased = true)
    (hp : s.ports ≠ []) (f : F) (fl : Fl) {s' : St K O F Fl} {r : Except Err (SMat K)}
    (hrun : get1S ops s f fl = (s', r)) :
    Answer beh net bh zb s.blocks (Bad s) (ordered s) f fl r ∧ Kept beh s s' := by
  rcases get1S_eq (ops := ops) s f fl with ⟨M, e1, e2, e3, e4⟩ | ⟨_, e2⟩
  · rw [e4] at hrun
    simp only [Prod.mk.injEq] at hrun
    obtain ⟨rfl, rfl⟩ := hrun
    refine ⟨?_, Kept.refl _⟩
    obtain ⟨-, f', fl', g1, g2, ⟨Sof, g3⟩, g4⟩ := hc M e1
    rw [e2] at g1; rw [e3] at g2
    injection g1 with g1; injection g2 with g2
    subst g1 g2
    rw [h.zb] at g3 g4
    have hfe : fillErr beh f zb fl s.blocks = none := by
      have hd := g3
      rw [← h.zb, h.delivers, h.zb] at hd
      simp only [fillErr, List.findSome?_eq_none_iff]
      intro b hb
      rw [hd b hb]
    have ha := hal (by rw [e1]; simp)
    have hn : s.names = s.ports := by simp [St.names, ha]
    have hb : ¬ Bad s := fun hb => hb.2.2 (by rw [hn])
    have ho : ordered s = s.ports := by unfold ordered; rw [hn]; simp
    refine ⟨fun e he => ?_, fun _ hn => absurd hn hb, fun _ _ => ⟨Sof, g3, Or.inl ?_⟩⟩
    · rw [hfe] at he; cases he
    · rw [ho]; exact ⟨(g4 Sof g3).toSolvable, M, rfl, g4 Sof g3⟩
  · rw [e2] at hrun
    exact recompute_answer hlaw h hp f fl hrun

/-- **An evaluation does not change what later evaluations answer**, including which error they raise. -/
theorem getS_stable [CharZero K] (hlaw : Lawful ops beh) (h : Built ops beh nan zb names net bh s ph)
    (hph : ph ≠ .reloaded) (hfree : net.free ≠ []) {f : F} {z : Option K} {fl : Fl} {r : Except Err (SMat K)}
    (hs : getS ops s f z fl = (s', r)) (f' : F) (z' : Option K) (fl' : Fl) :
    (getS ops s' f' z' fl').2 = (getS ops s f' z' fl').2 := by
  obtain ⟨hi, -, hc⟩ := h.all hlaw
  have h' := Built.eval h hs
  have hph' : afterEval ph s f fl r ≠ .reloaded := by rw [afterEval_of_ne hph]; decide
  obtain ⟨hi', -, hc'⟩ := h'.all hlaw
  have hp : ∀ {t : St K O F Fl}, Inv ops beh zb names net bh t → t.ports ≠ [] := by
    intro t ht e
    have := ht.rep.ports_perm
    rw [e] at this
    exact hfree this.symm.eq_nil
  have hst := getS_state hs
  have hk : Kept beh s s' := by
    cases hg : get1S ops s f fl with
    | mk s1 r1 =>
      rw [hg] at hst
      simp only at hst
      subst hst
      exact (get1S_answer hlaw hi (hc hph) (h.stored_aliased hlaw) (hp hi) f fl hg).2
  have key : (get1S ops s' f' fl').2 = (get1S ops s f' fl').2 := by
    cases hg : get1S ops s f' fl' with
    | mk s1 r1 =>
      cases hg' : get1S ops s' f' fl' with
      | mk s2 r2 =>
        have a1 := (get1S_answer hlaw hi (hc hph) (h.stored_aliased hlaw) (hp hi) f' fl' hg).1
        have a2 := (get1S_answer hlaw hi' (hc' hph') (h'.stored_aliased hlaw) (hp hi') f' fl' hg').1
        show r2 = r1
        by_cases hb : Bad s
        · cases hf : fillErr beh f' zb fl' s.blocks with
          | some e => rw [a1.fill e hf, a2.fill e (by rw [hk.err]; exact hf)]
          | none => rw [a1.names hf hb, a2.names (by rw [hk.err]; exact hf) (hk.bad.2 hb)]
        · have a2' : Answer beh net bh zb s.blocks (Bad s) (ordered s) f' fl' r2 := by
            rw [← hk.ord hb]
            refine ⟨fun e he => a2.fill e (by rw [hk.err]; exact he),
              fun he hbb => absurd hbb hb, fun he hbb => a2.solve (by rw [hk.err]; exact he) (fun x => hbb (hk.bad.1 x))⟩
          exact a2'.unique (ordered_nodup hi.rep hb) a1
  have hz : ∀ {t : St K O F Fl} {ph : Phase}, Built ops beh nan zb names net bh t ph → (get1S ops t f' fl').1.zbase = zb := by
    intro t ph ht
    cases hg : getS ops t f' none fl' with
    | mk t1 r1 =>
      rw [getS_state hg]
      exact ((Built.eval ht hg).inv hlaw).zb
  have hz1 := hz h
  have hz2 := hz h'
  unfold getS
  cases hg : get1S ops s f' fl' with
  | mk s1 r1 =>
    cases hg' : get1S ops s' f' fl' with
    | mk s2 r2 =>
      rw [hg] at key hz1
      rw [hg'] at key hz2
      simp only at key hz1 hz2
      subst key
      cases r2 with
      | error e => rfl
      | ok M =>
        simp only
        cases z' with
        | none => rfl
        | some z' =>
          by_cases hc : z' ≠ 0 ∧ z' ≠ zb
          · simp only
            rw [if_pos (by rw [hz2]; exact hc), if_pos (by rw [hz1]; exact hc)]
            simp only [hz1, hz2]
          · simp only
            rw [if_neg (by rw [hz2]; exact hc), if_neg (by rw [hz1]; exact hc)]

/-! ## circuits as objects -/

/-- the string of a node -/
def Node.str : Node → String
  | .blk b p => b ++ "." ++ p
  | .ext n => n

/-- A circuit in use: reached by a history, with external ports, no load changed since the last evaluation. -/
structure Circ (ops : ObjOps K O F Fl) (beh : O → F → K → Fl → Except Err (SMat K)) where
  st : St K O F Fl
  ok : ∃ nan zb names net bh ph, Built ops beh nan zb names net bh st ph ∧ ph ≠ .reloaded ∧ net.free ≠ []

/-- evaluation of a circuit used as a block: `getS(f, Zbase=…, flags=…)` (rfCircuit.py:1249-1345) -/
noncomputable def Circ.getS (c : Circ ops beh) (f : F) (z : K) (fl : Fl) : Circ ops beh × Except Err (SMat K) :=
  (⟨(Circuit.getS ops c.st f (some z) fl).1, by
    obtain ⟨nan, zb, names, net, bh, ph, h, hph, hfree⟩ := c.ok
    refine ⟨nan, zb, names, net, bh, _, Built.eval h (r := (Circuit.getS ops c.st f (some z) fl).2) (Prod.ext rfl rfl), ?_, hfree⟩
    rw [afterEval_of_ne hph]; decide⟩,
   (Circuit.getS ops c.st f (some z) fl).2)

/-- a circuit as a block object: `len` (rfCircuit.py:259-260) and the attributes `ports` and `xpos` -/
noncomputable def circOps (ops : ObjOps K O F Fl) (beh : O → F → K → Fl → Except Err (SMat K)) :
    ObjOps K (Circ ops beh) F Fl where
  len c := c.st.ports.length
  ports c := some (c.st.ports.map Node.str)
  xpos c := some c.st.xpos
  portPos _ _ := .ok 0
  getS := Circ.getS

/-- what a circuit answers -/
noncomputable def circBeh (ops : ObjOps K O F Fl) (beh : O → F → K → Fl → Except Err (SMat K)) (c : Circ ops beh)
    (f : F) (z : K) (fl : Fl) : Except Err (SMat K) := (Circuit.getS ops c.st f (some z) fl).2

theorem convVV_n {z z1 : K} {M S : SMat K} (h : convVV z z1 M = .ok S) : S.n = M.n := by
  unfold convVV at h
  split at h
  · cases h
  · simp only at h
    cases hW : npInv ((2 : K)⁻¹ • (1 + M.m) + (z / 2) • z1⁻¹ • (1 - M.m)) with
    | error e => rw [hW] at h; cases h
    | ok W =>
      rw [hW] at h
      simp only [Except.map, Except.ok.injEq] at h
      rw [← h]

/-- **C22.** A circuit meets the requirements on block objects. -/
theorem C22_circuit_is_object [CharZero K] (hlaw : Lawful ops beh) : Lawful (circOps ops beh) (circBeh ops beh) where
  res _ _ _ _ := rfl
  stable c f z fl := by
    obtain ⟨nan, zb, names, net, bh, ph, h, hph, hfree⟩ := c.ok
    funext f' z' fl'
    exact getS_stable hlaw h hph hfree (s' := (Circuit.getS ops c.st f (some z) fl).1)
      (r := (Circuit.getS ops c.st f (some z) fl).2) (f := f) (z := some z) (fl := fl) rfl f' (some z') fl'
  len c f z fl := by
    obtain ⟨nan, zb, names, net, bh, ph, h, hph, hfree⟩ := c.ok
    have h' := Built.eval h (r := (Circuit.getS ops c.st f (some z) fl).2) (f := f) (z := some z) (fl := fl) (Prod.ext rfl rfl)
    exact ((h'.inv hlaw).rep.ports_perm.trans (h.inv hlaw).rep.ports_perm.symm).length_eq
  sized c f z fl S hS := by
    obtain ⟨nan, zb, names, net, bh, ph, h, hph, hfree⟩ := c.ok
    show S.n = c.st.ports.length
    have hS : (Circuit.getS ops c.st f (some z) fl).2 = .ok S := hS
    unfold Circuit.getS at hS
    cases hg : get1S ops c.st f fl with
    | mk s1 r1 =>
      rw [hg] at hS
      cases r1 with
      | error e => cases hS
      | ok M =>
        have hg' : Circuit.getS ops c.st f none fl = (s1, .ok M) := by unfold Circuit.getS; rw [hg]
        obtain ⟨⟨Sof, hSof⟩, h2⟩ := C20_getS_sound hlaw h hph hg'
        have h' := Built.eval h hg'
        have hlen := ((h'.inv hlaw).rep.ports_perm.trans (h.inv hlaw).rep.ports_perm.symm).length_eq
        have hn : M.n = c.st.ports.length := by rw [(h2 Sof hSof).size, hlen]
        simp only at hS
        split at hS
        · rw [convVV_n hS, hn]
        · injection hS with hS; rw [← hS, hn]

/-! ## flattening -/

/-- the conversion to another reference, both directions -/
theorem convVV_iff [CharZero K] {z z1 : K} {M S : SMat K} (h : convVV z z1 M = .ok S) (hz1 : z1 ≠ 0)
    (a' b' : Fin M.n → K) :
    (∀ i : Fin M.n, b' i = ∑ j : Fin M.n, S.at i j * a' j) ↔
      ∃ a b : Fin M.n → K, (∀ i : Fin M.n, b i = ∑ j : Fin M.n, M.at i j * a j) ∧
        ∀ i, a i + b i = a' i + b' i ∧ z * (a i - b i) = z1 * (a' i - b' i) := by
  have two : (2 : K) ≠ 0 := two_ne_zero
  unfold convVV at h
  rw [if_neg (fun hc => hz1 hc.1)] at h
  simp only at h
  set A2 := (2 : K)⁻¹ • (1 + M.m) + (z / 2) • z1⁻¹ • (1 - M.m) with hA2
  set B2 := (2 : K)⁻¹ • (1 + M.m) - (z / 2) • z1⁻¹ • (1 - M.m) with hB2
  cases hW : npInv A2 with
  | error e => rw [hW] at h; cases h
  | ok W =>
    rw [hW] at h
    simp only [Except.map, Except.ok.injEq] at h
    subst h
    rw [npInv_eq_ok] at hW
    have hWA : W * A2 = 1 := mul_eq_one_comm.1 hW
    have hMat : ∀ (a : Fin M.n → K) (i : Fin M.n), ∑ j : Fin M.n, M.at i j * a j = M.m.mulVec a i := by
      intro a i
      refine Finset.sum_congr rfl fun j _ => ?_
      rw [SMat.at, dif_pos ⟨i.2, j.2⟩]
    have hSat : ∀ (a : Fin M.n → K) (i : Fin M.n),
        ∑ j : Fin M.n, (⟨M.n, B2 * W⟩ : SMat K).at i j * a j = (B2 * W).mulVec a i := by
      intro a i
      refine Finset.sum_congr rfl fun j _ => ?_
      rw [SMat.at, dif_pos ⟨i.2, j.2⟩]
    simp only [hMat, hSat]
    have hA : ∀ (a : Fin M.n → K) i, A2.mulVec a i = 2⁻¹ * (a i + M.m.mulVec a i) + z / 2 * (z1⁻¹ * (a i - M.m.mulVec a i)) := by
      intro a i
      rw [hA2]
      simp only [Matrix.add_mulVec, Matrix.smul_mulVec, Matrix.sub_mulVec, Matrix.one_mulVec, Pi.add_apply,
        Pi.smul_apply, Pi.sub_apply, smul_eq_mul]
    have hB : ∀ (a : Fin M.n → K) i, B2.mulVec a i = 2⁻¹ * (a i + M.m.mulVec a i) - z / 2 * (z1⁻¹ * (a i - M.m.mulVec a i)) := by
      intro a i
      rw [hB2]
      simp only [Matrix.add_mulVec, Matrix.smul_mulVec, Matrix.sub_mulVec, Matrix.one_mulVec, Pi.add_apply,
        Pi.smul_apply, Pi.sub_apply, smul_eq_mul]
    constructor
    · intro hb
      refine ⟨W.mulVec a', M.m.mulVec (W.mulVec a'), fun i => rfl, fun i => ?_⟩
      have e1 : a' = A2.mulVec (W.mulVec a') := by rw [Matrix.mulVec_mulVec, hW, Matrix.one_mulVec]
      have e2 : b' i = B2.mulVec (W.mulVec a') i := by rw [Matrix.mulVec_mulVec]; exact hb i
      have e1 := congrFun e1 i
      rw [hA] at e1
      rw [hB] at e2
      rw [e1, e2]
      constructor
      · field_simp; ring
      · field_simp; ring
    · rintro ⟨a, b, hb, h2⟩ i
      have e1 : a' = A2.mulVec a := by
        funext j
        rw [hA, ← hb j]
        obtain ⟨k1, k2⟩ := h2 j
        field_simp
        linear_combination z1 * k1 * (-1 : K) - k2
      have e2 : b' i = B2.mulVec a i := by
        rw [hB, ← hb i]
        obtain ⟨k1, k2⟩ := h2 i
        field_simp
        linear_combination z1 * k1 * (-1 : K) + k2
      rw [e2, e1, Matrix.mulVec_mulVec, Matrix.mul_assoc, hWA, Matrix.mul_one]

/-- **C22 (flattening, external form).** A circuit evaluated on the reference `z` of its surroundings: waves `a`, `b` (on
`z`) at its ports satisfy `b = S a` exactly if they extend to waves inside that satisfy all inner laws, with equal
voltages and currents at the ports. -/
theorem C22_flatten_waves [CharZero K] (hlaw : Lawful ops beh) (h : Built ops beh nan zb names net bh s ph)
    (hph : ph ≠ .reloaded) (hzb : zb ≠ 0) {f : F} {fl : Fl} {z : K} (hz : z ≠ 0) {S : SMat K}
    (hs : getS ops s f (some z) fl = (s', .ok S)) {Sof : String → SMat K} (hS : Given net bh f zb fl Sof)
    (a b : Fin s'.ports.length → K) :
    (∀ i, b i = ∑ j : Fin s'.ports.length, S.at i j * a j) ↔
      ∃ v, net.Laws zb Sof v ∧ ∀ i : Fin s'.ports.length, volt v s'.ports[i] = a i + b i ∧
        curr v s'.ports[i] / zb = (a i - b i) / z := by
  have h0 := (h.inv hlaw).zb
  cases hg : get1S ops s f fl with
  | mk s1 r1 =>
    cases r1 with
    | error e => simp [getS, hg] at hs
    | ok M =>
      have hn : getS ops s f none fl = (s1, .ok M) := by simp [getS, hg]
      have hi1 := (Built.eval h hn).inv hlaw
      have hsc := (C20_getS_sound hlaw h hph hn).2 Sof hS
      have hst := getS_state hs
      rw [hg] at hst
      simp only at hst
      subst hst
      have hpnd : s1.ports.Nodup := hi1.rep.rep.pnd
      have hsz := hsc.size
      have key := fun a b => hsc.iff hpnd a b
      have eqv : ∀ x y c d : K, (x / zb = y / z) ↔ z * x = zb * y := by
        intro x y _ _
        rw [div_eq_div_iff hzb hz]
        constructor <;> intro e <;> linear_combination e
      unfold getS at hs
      simp only [hg] at hs
      by_cases hc : z ≠ 0 ∧ z ≠ s1.zbase
      · rw [if_pos hc] at hs
        simp only [Prod.mk.injEq, true_and] at hs
        rw [hi1.zb] at hs
        have cv := convVV_iff hs hzb
        clear hn hsc hs hg
        obtain ⟨n, m⟩ := M
        simp only at hsz
        subst hsz
        rw [cv a b]
        constructor
        · rintro ⟨x, y, h1, h2⟩
          obtain ⟨v, h3, h4, h5⟩ := (key x y).2 h1
          refine ⟨v, h3, fun i => ?_⟩
          rw [eqv _ _ 0 0]
          simp only [volt, curr, h4, h5]
          exact h2 i
        · rintro ⟨v, h1, h2⟩
          refine ⟨fun i => v (.inn, s1.ports[i]), fun i => v (.out, s1.ports[i]), (key _ _).1 ⟨v, h1, fun _ => rfl, fun _ => rfl⟩,
            fun i => ?_⟩
          have := h2 i
          rw [eqv _ _ 0 0] at this
          exact this
      · rw [if_neg hc] at hs
        simp only [Prod.mk.injEq, true_and, Except.ok.injEq] at hs
        subst hs
        have hzz : z = zb := by
          by_contra hne
          exact hc ⟨hz, by rw [hi1.zb]; exact hne⟩
        subst hzz
        rw [← key a b]
        refine exists_congr fun v => and_congr_right fun _ => ?_
        have two : (2 : K) ≠ 0 := two_ne_zero
        rw [← forall_and]
        refine forall_congr' fun i => ?_
        rw [eqv _ _ 0 0, mul_right_inj' hz]
        simp only [volt, curr]
        constructor
        · rintro ⟨e1, e2⟩; rw [e1, e2]; exact ⟨rfl, rfl⟩
        · rintro ⟨e1, e2⟩
          constructor
          · apply mul_left_cancel₀ two; linear_combination e1 + e2
          · apply mul_left_cancel₀ two; linear_combination e1 - e2

/-- **C22 (flattening).** The law a nested circuit imposes on its surroundings as a block (`b` with port names `pts`) is
that its inner network can be in a state that agrees with the outer one in all port voltages and currents. -/
theorem C22_flatten [CharZero K] (hlaw : Lawful ops beh) (h : Built ops beh nan zb names net bh s ph)
    (hph : ph ≠ .reloaded) (hzb : zb ≠ 0) {f : F} {fl : Fl} {z : K} (hz : z ≠ 0) {S : SMat K}
    (hs : getS ops s f (some z) fl = (s', .ok S)) {Sof : String → SMat K} (hS : Given net bh f zb fl Sof)
    (b : String) (pts : List String) (hlen : pts.length = s'.ports.length) (w : Wave → K) :
    BlockLaw S b pts w ↔
      ∃ v, net.Laws zb Sof v ∧ ∀ (k : ℕ) (h1 : k < pts.length) (h2 : k < s'.ports.length),
        volt v s'.ports[k] = volt w (.blk b pts[k]) ∧ curr v s'.ports[k] / zb = curr w (.blk b pts[k]) / z := by
  have := C22_flatten_waves hlaw h hph hzb hz hs hS (fun i => w (.inn, .blk b pts[Fin.cast hlen.symm i]))
    (fun i => w (.out, .blk b pts[Fin.cast hlen.symm i]))
  have e1 : BlockLaw S b pts w ↔ ∀ i : Fin s'.ports.length, w (.out, .blk b pts[Fin.cast hlen.symm i]) =
      ∑ j : Fin s'.ports.length, S.at i j * w (.inn, .blk b pts[Fin.cast hlen.symm j]) := by
    simp only [BlockLaw]
    constructor
    · intro H i
      rw [H (Fin.cast hlen.symm i)]
      exact Fintype.sum_equiv (finCongr hlen) _ _ fun j => rfl
    · intro H i
      have := H (Fin.cast hlen i)
      simp only [Fin.getElem_fin, Fin.val_cast] at this ⊢
      rw [this]
      exact Fintype.sum_equiv (finCongr hlen.symm) _ _ fun j => rfl
  rw [e1, this]
  refine exists_congr fun v => and_congr_right fun _ => ?_
  constructor
  · intro H k h1 h2
    exact H ⟨k, h2⟩
  · intro H i
    exact H i (by rw [hlen]; exact i.2) i.2

/-- **C22 (substitution).** Replacing a nested circuit by any object that answers the same at this frequency (e.g. a fixed
matrix) does not change the S of the surrounding circuit. -/
theorem C22_substitute [CharZero K] {O' : Type*} {ops' : ObjOps K O' F Fl} {beh' : O' → F → K → Fl → Except Err (SMat K)}
    {nan' zo : K} {onames onames' : List Node} {onet : Net K} {obh obh' : Behave K F Fl}
    {t t1 : St K (Circ ops beh) F Fl} {u u1 : St K O' F Fl} {pt pu : Phase}
    (hlaw : Lawful ops beh) (hlaw' : Lawful ops' beh')
    (ht : Built (circOps ops beh) (circBeh ops beh) nan zo onames onet obh t pt)
    (hu : Built ops' beh' nan' zo onames' onet obh' u pu) (hpt : pt ≠ .reloaded) (hpu : pu ≠ .reloaded)
    {f : F} {fl : Fl} (hsame : ∀ x ∈ onet.blks, obh x.1 f zo fl = obh' x.1 f zo fl) {S S' : SMat K}
    (hst : getS (circOps ops beh) t f none fl = (t1, .ok S)) (hsu : getS ops' u f none fl = (u1, .ok S')) :
    t1.ports.Perm u1.ports ∧ ∀ (i j : Fin t1.ports.length) (i' j' : Fin u1.ports.length),
      t1.ports[i] = u1.ports[i'] → t1.ports[j] = u1.ports[j'] → S.at i j = S'.at i' j' := by
  have hr : onet.Same onet := ⟨List.Perm.refl _, ⟨_, List.Perm.refl _, List.forall₂_same.2 fun j _ => ⟨List.Perm.refl _, rfl⟩⟩,
    List.Perm.refl _, List.Perm.refl _, List.Perm.refl _⟩
  obtain ⟨h1, -, -, h2⟩ := C21_same_S (C22_circuit_is_object hlaw) hlaw' ht hu hpt hpu hr hsame hst hsu
  exact ⟨h1, h2⟩

/-! ## port labels -/

/-- **C22 (labels).** The port names the surrounding circuit records when a circuit is added (`ports` at that time) label
the rows of the S it answers later, provided the circuit has no `Portnames` or has been evaluated before. -/
theorem C49_labels [CharZero K] (hlaw : Lawful ops beh) (h : Built ops beh nan zb names net bh s ph)
    (hph : ph ≠ .reloaded) (hfree : net.free ≠ []) (hn : s.names = [] ∨ s.aliased = true) {f : F} {z : Option K} {fl : Fl}
    {r : Except Err (SMat K)} (hs : getS ops s f z fl = (s', r)) : s'.ports = s.ports := by
  obtain ⟨hi, -, hc⟩ := h.all hlaw
  have hp : s.ports ≠ [] := by
    intro e
    have := hi.rep.ports_perm
    rw [e] at this
    exact hfree this.symm.eq_nil
  have hst := getS_state hs
  cases hg : get1S ops s f fl with
  | mk s1 r1 =>
    rw [hg] at hst
    simp only at hst
    subst hst
    have hk := (get1S_answer hlaw hi (hc hph) (h.stored_aliased hlaw) hp f fl hg).2
    have ho : ordered s = s.ports := by
      unfold ordered
      split
      · rfl
      · rename_i hnn
        rcases hn with h1 | h1
        · exact absurd (Or.inr h1) hnn
        · simp [St.names, h1]
    rcases hk.ports with e | e
    · exact e
    · rw [e, ho]

/-! ## any depth -/

/-- two kinds of objects -/
def sumOps {O₁ O₂ : Type*} (o₁ : ObjOps K O₁ F Fl) (o₂ : ObjOps K O₂ F Fl) : ObjOps K (O₁ ⊕ O₂) F Fl where
  len := Sum.elim o₁.len o₂.len
  ports := Sum.elim o₁.ports o₂.ports
  xpos := Sum.elim o₁.xpos o₂.xpos
  portPos := Sum.elim o₁.portPos o₂.portPos
  getS x f z fl := match x with
    | .inl a => ((.inl (o₁.getS a f z fl).1), (o₁.getS a f z fl).2)
    | .inr a => ((.inr (o₂.getS a f z fl).1), (o₂.getS a f z fl).2)

theorem sum_lawful {O₁ O₂ : Type*} {o₁ : ObjOps K O₁ F Fl} {o₂ : ObjOps K O₂ F Fl}
    {b₁ : O₁ → F → K → Fl → Except Err (SMat K)} {b₂ : O₂ → F → K → Fl → Except Err (SMat K)}
    (h₁ : Lawful o₁ b₁) (h₂ : Lawful o₂ b₂) : Lawful (sumOps o₁ o₂) (Sum.elim b₁ b₂) where
  res x f z fl := by cases x with
    | inl a => exact h₁.res a f z fl
    | inr a => exact h₂.res a f z fl
  stable x f z fl := by cases x with
    | inl a => exact h₁.stable a f z fl
    | inr a => exact h₂.stable a f z fl
  len x f z fl := by cases x with
    | inl a => exact h₁.len a f z fl
    | inr a => exact h₂.len a f z fl
  sized x f z fl S h := by cases x with
    | inl a => exact h₁.sized a f z fl S h
    | inr a => exact h₂.sized a f z fl S h

end

/-- a kind of block object meeting the requirements -/
structure Kind (K F Fl : Type) [Field K] where
  O : Type
  ops : ObjOps K O F Fl
  beh : O → F → K → Fl → Except Err (SMat K)
  lawful : Lawful ops beh

/-- objects nested up to depth `n`: unchanging objects, or circuits of objects of smaller depth -/
noncomputable def tower (K F Fl : Type) [Field K] [CharZero K] [DecidableEq F] [DecidableEq Fl] : ℕ → Kind K F Fl
  | 0 => ⟨Imm K F Fl, immOps K F Fl, Imm.beh, imm_lawful K F Fl⟩
  | n + 1 =>
    let k := tower K F Fl n
    ⟨k.O ⊕ Circ k.ops k.beh, sumOps k.ops (circOps k.ops k.beh), Sum.elim k.beh (circBeh k.ops k.beh),
      sum_lawful k.lawful (C22_circuit_is_object k.lawful)⟩

/-- **C22 (any depth).** A circuit whose blocks are objects nested to any depth solves its network laws. -/
theorem C22_any_depth {K F Fl : Type} [Field K] [CharZero K] [DecidableEq F] [DecidableEq Fl] (n : ℕ) {nan zb : K}
    {names : List Node} {net : Net K} {bh : Behave K F Fl} {s s' : St K (tower K F Fl n).O F Fl} {ph : Phase}
    (h : Built (tower K F Fl n).ops (tower K F Fl n).beh nan zb names net bh s ph) (hph : ph ≠ .reloaded)
    {f : F} {fl : Fl} {S : SMat K} (hs : getS (tower K F Fl n).ops s f none fl = (s', .ok S)) :
    (∃ Sof, Given net bh f zb fl Sof) ∧
    ∀ Sof, Given net bh f zb fl Sof → IsScattering (net.Laws zb Sof) net.nodes s'.ports S :=
  C20_getS_sound (tower K F Fl n).lawful h hph hs

/-! ## the labels are wrong for an unevaluated circuit with `Portnames` -/

namespace Ex

def pnames : List Node := [.blk "A" "2", .blk "A" "1"]
def i0 : E := St.init 50 pnames
def i1 : E := (addblock o 0 i0 "A" (two mB) .none 0).1
theorem stepi1 : addblock o 0 i0 "A" (two mB) .none 0 = (i1, .ok ()) := Prod.ext rfl rfl

def neti : Net ℚ where
  blks := [("A", ["1", "2"])]
  nodes := [.blk "A" "1", .blk "A" "2"]
  juncs := []
  loads := []
  crosses := []
  sames := []

def bhi : Behave ℚ Unit Unit := Function.update (fun _ _ _ _ => .error .valueError) "A" (two mB).beh

theorem builti : Built o Imm.beh 0 50 pnames neti bhi i1 .building := by
  have h0 : Built o Imm.beh 0 50 pnames Net.empty (fun _ _ _ _ => .error .valueError) i0 .building := Built.init _
  exact Built.addblock h0 (by decide) (ports := ["1", "2"]) rfl (by decide) stepi1

/-- the circuit as an object -/
noncomputable def inner : Circ o (Imm.beh (K := ℚ) (F := Unit) (Fl := Unit)) :=
  ⟨i1, 0, 50, pnames, neti, bhi, .building, builti, by decide, by decide⟩

theorem giveni : Given neti bhi () 50 () fun _ => ⟨2, mB⟩ := by
  intro x hx
  simp only [neti, List.mem_cons, List.not_mem_nil, or_false] at hx
  subst hx; rfl

theorem lawsi (w : Wave → ℚ) : neti.Laws 50 (fun _ => ⟨2, mB⟩) w ↔
    w (.out, .blk "A" "1") = 1/3 * w (.inn, .blk "A" "1") + 2/3 * w (.inn, .blk "A" "2") ∧
    w (.out, .blk "A" "2") = 2/3 * w (.inn, .blk "A" "1") + -1/3 * w (.inn, .blk "A" "2") := by
  have hB : BlockLaw (⟨2, mB⟩ : SMat ℚ) "A" ["1", "2"] w ↔
     w (.out, .blk "A" "1") = 1/3 * w (.inn, .blk "A" "1") + 2/3 * w (.inn, .blk "A" "2") ∧
     w (.out, .blk "A" "2") = 2/3 * w (.inn, .blk "A" "1") + -1/3 * w (.inn, .blk "A" "2") := by
    simp only [BlockLaw, List.length_cons, List.length_nil]
    rw [Fin.forall_fin_two]
    simp [SMat.at, mB, Fin.sum_univ_two]
  simp only [Net.Laws, Net.CoreLaws, neti, List.forall_mem_cons, List.not_mem_nil, false_implies, implies_true, and_true, hB]

theorem solvablei : Solvable (neti.Laws 50 (fun _ => ⟨2, mB⟩)) neti.nodes neti.free := by
  have hf : neti.free = [.blk "A" "1", .blk "A" "2"] := rfl
  rw [hf]
  constructor
  · intro a
    refine ⟨fun x => if x.1 = .inn then a x.2 else
      if x.2 = .blk "A" "1" then 1/3 * a (.blk "A" "1") + 2/3 * a (.blk "A" "2")
      else 2/3 * a (.blk "A" "1") + -1/3 * a (.blk "A" "2"), ?_, ?_⟩
    · rw [lawsi]; simp
    · simp
  · intro w w' h h' hi n hn d
    rw [lawsi] at h h'
    have h1 := hi (.blk "A" "1") (by simp)
    have h2 := hi (.blk "A" "2") (by simp)
    simp only [neti, List.mem_cons, List.not_mem_nil, or_false] at hn
    rcases hn with rfl | rfl <;> cases d <;> simp only [h.1, h.2, h'.1, h'.2, h1, h2]

/-- **C22 is violated for port labels.** A circuit with `Portnames = ["A.2", "A.1"]` that has not been evaluated tells the
circuit it is added to that its ports are `A.1, A.2`; the S it then answers has the rows in the order `A.2, A.1`: the entry
recorded under `A.1, A.1` is -1/3, while the reflection at `A.1` is 1/3. -/
theorem C49_portnames_mislabel :
    resolvePorts (circOps o Imm.beh) inner .none = .ok ["A.1", "A.2"] ∧
    ∃ S, circBeh o Imm.beh inner () 50 () = .ok S ∧ S.at 0 0 = -1/3 ∧
      (∀ w, neti.Laws 50 (fun _ => ⟨2, mB⟩) w → w (.inn, .blk "A" "2") = 0 →
        w (.out, .blk "A" "1") = 1/3 * w (.inn, .blk "A" "1")) := by
  refine ⟨rfl, ?_⟩
  have hl := imm_lawful ℚ Unit Unit
  obtain ⟨s', S, hs⟩ := (C20_getS_complete hl builti (by decide) giveni (by decide) (Or.inr (by decide))).2 solvablei
  have hp : s'.ports = pnames := by
    rw [C29_first_eval hl builti hs]; rfl
  have hsc := (C20_getS_sound hl builti (by decide) hs).2 _ giveni
  refine ⟨S, ?_, ?_, ?_⟩
  · show (getS o i1 () (some 50) ()).2 = .ok S
    unfold getS at hs ⊢
    cases hg : get1S o i1 () () with
    | mk s1 r1 =>
      rw [hg] at hs
      cases r1 with
      | error e => simp at hs
      | ok M =>
        simp only [Prod.mk.injEq, Except.ok.injEq] at hs
        have hz : s1.zbase = 50 := by
          have hn : getS o i1 () none () = (s1, .ok M) := by unfold getS; rw [hg]
          exact ((Built.eval builti hn).inv hl).zb
        simp only
        rw [if_neg (fun hc => hc.2 hz.symm), hs.2]
  · rw [hp] at hsc
    obtain ⟨w, hw, hwi⟩ := hsc.exists_sol fun p => if p = .blk "A" "2" then 1 else 0
    have h1 : w (.inn, .blk "A" "2") = 1 := by rw [hwi _ (by decide)]; rfl
    have h2 : w (.inn, .blk "A" "1") = 0 := by rw [hwi _ (by decide)]; rfl
    have ho := hsc.out w hw ⟨0, by decide⟩
    have hsum : ∑ j : Fin pnames.length, S.at 0 j * w (.inn, pnames[j]) = S.at 0 0 := by
      show ∑ j : Fin 2, S.at 0 j * w (.inn, pnames[j]) = S.at 0 0
      rw [Fin.sum_univ_two]
      show S.at 0 0 * w (.inn, .blk "A" "2") + S.at 0 1 * w (.inn, .blk "A" "1") = S.at 0 0
      rw [h1, h2]; ring
    have ho' : w (.out, .blk "A" "2") = S.at 0 0 := ho.trans hsum
    rw [lawsi] at hw
    rw [← ho', hw.2, h1, h2]; ring
  · intro w hw h0
    rw [lawsi] at hw
    rw [hw.1, h0]; ring

end Ex
end PyRFtk.Circuit
