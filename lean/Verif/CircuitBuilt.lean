import Verif.CircuitFrame

/-!
# Histories of a circuit

`Built`: the states a user can reach, with the network they describe.  `Built.inv`: the invariant holds in all of them.
-/

set_option linter.unusedSectionVars false

namespace PyRFtk.Circuit

section
variable {K O F Fl : Type*} [Field K] [DecidableEq F] [DecidableEq Fl]

/-- where a history stands: not evaluated yet; evaluated; an already loaded port was given another load after an
evaluation -/
inductive Phase | building | evaluated | reloaded
deriving DecidableEq

/-- the behaviour of the blocks by name -/
abbrev Behave (K F Fl : Type*) := String → F → K → Fl → Except Err (SMat K)

/-- the stored matrix cannot be used for `(f, fl)`: `getS` has to compute -/
def Misses (s : St K O F Fl) (f : F) (fl : Fl) : Prop := s.S = none ∨ s.f ≠ some f ∨ s.flags ≠ some fl

open Classical in
/-- an evaluation that really computes, and succeeds, makes up for a changed load -/
noncomputable def afterEval (ph : Phase) (s : St K O F Fl) (f : F) (fl : Fl) (r : Except Err (SMat K)) : Phase :=
  if ph = .reloaded ∧ ¬ (Misses s f fl ∧ ∃ M, r = .ok M) then .reloaded else .evaluated

/-- **Histories.**  `Built ops beh zb names net bh s ph`: starting from a new circuit with reference impedance `zb` and
`Portnames = names`, some sequence of calls that did not raise (evaluations may raise) has led to state `s`; the network
described by the calls is `net`, `bh b` is the behaviour of the object last given for block `b`.

The side conditions are the user's part of the deal: the names of a block's ports are distinct, deembedding introduces
new names without a dot, blocks/connections/deembeddings come before the first evaluation.  Objects may be used by others in
between (`used`: evaluated at other frequencies, …) as long as that does not change how they behave. -/
inductive Built (ops : ObjOps K O F Fl) (beh : O → F → K → Fl → Except Err (SMat K)) (nan zb : K) (names : List Node) :
    Net K → Behave K F Fl → St K O F Fl → Phase → Prop
  | init (bh) : Built ops beh nan zb names Net.empty bh (St.init zb names) .building
  | addblock {net bh s s' name obj spec relpos ports} :
      Built ops beh nan zb names net bh s .building →
      name ∉ net.blks.map Prod.fst → resolvePorts ops obj spec = .ok ports → ports.Nodup →
      addblock ops nan s name obj spec relpos = (s', .ok ()) →
      Built ops beh nan zb names (net.addBlk name ports) (Function.update bh name (beh obj)) s' .building
  | replace {net bh s s' ph name obj spec relpos} :
      Built ops beh nan zb names net bh s ph →
      name ∈ net.blks.map Prod.fst →
      Circuit.addblock ops nan s name obj spec relpos = (s', .ok ()) →
      Built ops beh nan zb names net (Function.update bh name (beh obj)) s' (if ph = .reloaded then .evaluated else ph)
  | connect {net bh s s' ps} :
      Built ops beh nan zb names net bh s .building →
      connect ops s ps = (s', .ok ()) → Built ops beh nan zb names (net.connect ps) bh s' .building
  | terminate {net bh s s' ph p args l} :
      Built ops beh nan zb names net bh s ph → args.load = some l →
      terminate s p args = (s', .ok ()) →
      Built ops beh nan zb names (net.load p l) bh s'
        (if ph ≠ .building ∧ p ∈ net.loads.map Prod.fst then .reloaded else if ph = .reloaded then .evaluated else ph)
  | deembed {net bh s s' int ext} :
      Built ops beh nan zb names net bh s .building →
      (∀ x ∈ int, x.2 ∉ net.nodes) → (int.map Prod.snd).Nodup → (∀ x ∈ int, ∀ b p, x.2 ≠ .blk b p) →
      deembed s int ext = (s', .ok ()) → Built ops beh nan zb names (net.deembed int ext) bh s' .building
  | eval {net bh s s' ph f z fl r} :
      Built ops beh nan zb names net bh s ph → getS ops s f z fl = (s', r) →
      Built ops beh nan zb names net bh s' (afterEval ph s f fl r)
  | used {net bh s ph bs} :
      Built ops beh nan zb names net bh s ph →
      List.Forall₂ (fun b b' => Blk.Like ops b b' ∧ beh b'.obj = beh b.obj) s.blocks bs →
      Built ops beh nan zb names net bh { s with blocks := bs } ph

theorem afterEval_of_ne {ph : Phase} (h : ph ≠ .reloaded) (s : St K O F Fl) (f : F) (fl : Fl) (r : Except Err (SMat K)) :
    afterEval ph s f fl r = .evaluated := by
  unfold afterEval; rw [if_neg]; exact fun hc => h hc.1

theorem afterEval_ne_building {ph : Phase} {s : St K O F Fl} {f : F} {fl : Fl} {r : Except Err (SMat K)} :
    afterEval ph s f fl r ≠ .building := by
  unfold afterEval; split <;> simp

theorem afterEval_ne_reloaded {ph : Phase} {s : St K O F Fl} {f : F} {fl : Fl} {r : Except Err (SMat K)}
    (h : afterEval ph s f fl r ≠ .reloaded) : ph ≠ .reloaded ∨ Misses s f fl ∧ ∃ M, r = .ok M := by
  by_contra hc
  push Not at hc
  apply h
  unfold afterEval
  rw [if_pos]
  exact ⟨hc.1, fun h => by obtain ⟨h1, M, h2⟩ := h; exact hc.2 h1 M h2⟩

/-- the matrices delivered by the blocks at one frequency -/
def Given (net : Net K) (bh : Behave K F Fl) (f : F) (zb : K) (fl : Fl) (Sof : String → SMat K) : Prop :=
  ∀ x ∈ net.blks, bh x.1 f zb fl = .ok (Sof x.1)

variable {ops : ObjOps K O F Fl} {beh : O → F → K → Fl → Except Err (SMat K)} {nan zb : K} {names : List Node}
variable {net : Net K} {bh : Behave K F Fl} {s s' : St K O F Fl} {ph : Phase}

/-- order of the external ports -/
def Ordered (net : Net K) (s : St K O F Fl) : Prop :=
  (s.aliased = false → s.ports.Sublist net.nodes) ∧
  (s.aliased = true → s.ports.Sublist (if s.portnames = [] then net.nodes else s.portnames))

structure Inv (ops : ObjOps K O F Fl) (beh : O → F → K → Fl → Except Err (SMat K)) (zb : K) (names : List Node)
    (net : Net K) (bh : Behave K F Fl) (s : St K O F Fl) : Prop where
  rep : Rep ops net s
  bhv : ∀ b ∈ s.blocks, beh b.obj = bh b.name
  zb : s.zbase = zb
  nm : s.portnames = names
  ord : Ordered net s

/-- the stored matrix is right for the network as it is now -/
def CacheOK (net : Net K) (bh : Behave K F Fl) (s : St K O F Fl) : Prop :=
  ∀ M, s.S = some M → s.ports ≠ [] ∧ ∃ f fl, s.f = some f ∧ s.flags = some fl ∧ (∃ Sof, Given net bh f s.zbase fl Sof) ∧
    ∀ Sof, Given net bh f s.zbase fl Sof → IsScattering (net.Laws s.zbase Sof) net.nodes s.ports M

/-- other objects in the blocks, of the same size -/
theorem Rep.used {bs : List (Blk O)} (h : Rep ops net s) (hb : List.Forall₂ (Blk.Like ops) s.blocks bs) :
    Rep ops net { s with blocks := bs } := by
  refine ⟨h.rep.fill (RowsAgree.refl _ _) hb, h.wlen, ?_⟩
  intro b p hbp
  have h1 := congrArg (List.map Prod.fst) (forall₂_like_map hb)
  simp only [List.map_map] at h1
  have h3 : bs.map Blk.name = s.blocks.map Blk.name := h1
  show b ∈ bs.map Blk.name
  rw [h3]
  exact h.bnode b p hbp

/-! ## one evaluation -/

theorem Inv.delivers (h : Inv ops beh zb names net bh s) (f : F) (fl : Fl) (Sof : String → SMat K) :
    Given net bh f s.zbase fl Sof ↔ Delivers beh s.blocks f s.zbase fl Sof := by
  have hb : net.blks = s.blocks.map fun b => (b.name, b.ports) := h.rep.rep.blks
  constructor
  · intro H b hbm
    rw [h.bhv b hbm]
    exact H (b.name, b.ports) (by rw [hb]; exact List.mem_map_of_mem hbm)
  · intro H x hx
    rw [hb] at hx
    simp only [List.mem_map] at hx
    obtain ⟨b, hbm, rfl⟩ := hx
    rw [← h.bhv b hbm]
    exact H b hbm

/-- if all blocks deliver there is a table of what they deliver -/
theorem exists_given (H : ∀ x ∈ net.blks, ∃ S, bh x.1 f zb fl = .ok S) : ∃ Sof, Given net bh f zb fl Sof := by
  classical
  refine ⟨fun n => if h : ∃ S, bh n f zb fl = .ok S then h.choose else ⟨0, 0⟩, fun x hx => ?_⟩
  have := H x hx
  simp only [dif_pos this]
  exact this.choose_spec

theorem get1S_eq (s : St K O F Fl) (f : F) (fl : Fl) :
    (∃ M, s.S = some M ∧ s.f = some f ∧ s.flags = some fl ∧ get1S ops s f fl = (s, .ok M)) ∨
    ((s.S = none ∨ s.f ≠ some f ∨ s.flags ≠ some fl) ∧ get1S ops s f fl = recompute ops s f fl) := by
  unfold get1S
  cases hS : s.S with
  | none => right; exact ⟨Or.inl rfl, rfl⟩
  | some M =>
    by_cases h : s.f = some f ∧ s.flags = some fl
    · left
      refine ⟨M, rfl, h.1, h.2, ?_⟩
      simp only
      rw [if_pos h]
    · right
      refine ⟨?_, ?_⟩
      · right; by_contra hc; push Not at hc; exact h hc
      · simp only
        rw [if_neg h]

/-- the port order after the external-port equations have been added -/
theorem squareUp_ports (h : Rep ops net s) : List.Perm (squareUp s).1.ports s.ports := by
  obtain ⟨h1, -⟩ := squareUp_spec h
  refine (List.perm_ext_iff_of_nodup h1.rep.pnd h.rep.pnd).2 fun p => ?_
  exact (h1.rep.pmem p).trans (h.rep.pmem p).symm

theorem solveE_noports (h : Rep ops net s) (hsq : s.rows.length = s.cols) (hp : s.ports = []) :
    ∃ e inv, solveE s = ({ s with invM := inv }, .error e) := by
  unfold solveE
  cases h1 : mapE (dictIndex s.E) s.names with
  | error e => exact ⟨e, s.invM, rfl⟩
  | ok Es =>
    simp only
    cases h2 : mapE (fun p => pyIndex s.waves (.inn, p)) s.names with
    | error e => exact ⟨e, s.invM, rfl⟩
    | ok As =>
      cases h3 : mapE (fun p => pyIndex s.waves (.out, p)) s.names with
      | error e => exact ⟨e, s.invM, rfl⟩
      | ok Bs =>
        simp only
        have hn : s.names = [] := by
          rcases (h.squared hsq).1 with ⟨_, hE⟩ | ha
          · rw [mapE_eq_ok, hE] at h1
            cases hn : s.names with
            | nil => rfl
            | cons p l =>
              rw [hn] at h1
              cases h1 with
              | cons g _ => simp [dictIndex, dictGet] at g
          · simp [St.names, ha, hp]
        unfold solveWith
        rw [if_neg (by simp [hsq])]
        cases h4 : npInv s.mat with
        | error e => exact ⟨e, s.invM, rfl⟩
        | ok W =>
          refine ⟨.indexError, some ⟨s.cols, W⟩, ?_⟩
          simp only [hn, List.length_nil, if_true]

/-- one evaluation that does not use the stored matrix -/
theorem recompute_spec (hlaw : Lawful ops beh) (h : Inv ops beh zb names net bh s) (f : F) (fl : Fl)
    {s' : St K O F Fl} {res : Except Err (SMat K)} (hrun : recompute ops s f fl = (s', res)) :
    Inv ops beh zb names net bh s' ∧
    (∀ M, res = .ok M →
      s'.S = some M ∧ s'.f = some f ∧ s'.flags = some fl ∧ s'.ports ≠ [] ∧ s'.aliased = true ∧
      (∃ W, s'.invM = some ⟨s'.cols, W⟩ ∧ s'.mat * W = 1) ∧ s'.rows.length = s'.cols ∧
      (∃ Sof, Given net bh f zb fl Sof) ∧
      ∀ Sof, Given net bh f zb fl Sof → Filled s'.blocks s'.rows Sof ∧
        IsScattering (net.Laws zb Sof) net.nodes s'.ports M) ∧
    (∀ e, res = .error e →
      (s'.S = none ∨ (s'.S = s.S ∧ s'.ports = s.ports)) ∧ s'.f = s.f ∧ s'.flags = s.flags) ∧
    (∀ Sof, Given net bh f zb fl Sof → s.ports ≠ [] → (s.rows.length = s.cols ∨ s.names = [] ∨ List.Perm s.names s.ports) →
      ((∃ M, res = .ok M) ↔ Solvable (net.Laws zb Sof) net.nodes s.ports)) := by
  obtain ⟨hrep, hbhv, hzb, hnm, hord⟩ := h
  have hfs := fillBlocks_spec hlaw f s.zbase fl s.blocks s.rows hrep.rep.blen hrep.rep.rows_disjoint
  obtain ⟨f1, f2, f3, f4⟩ := hfs
  unfold recompute at hrun
  simp only at hrun
  generalize fillBlocks ops f s.zbase fl s.blocks s.rows = r at hrun f1 f2 f3 f4
  set s1 : St K O F Fl := { s with blocks := r.1, rows := r.2.1 } with hs1
  have hlike : List.Forall₂ (Blk.Like ops) s.blocks r.1 := f2.imp fun _ _ x => x.1
  have hrep1 : Rep ops net s1 := by
    refine ⟨hrep.rep.fill f1 hlike, hrep.wlen, ?_⟩
    intro b p hb
    have h1 := congrArg (List.map Prod.fst) (forall₂_like_map hlike)
    simp only [List.map_map] at h1
    have h3 : r.1.map Blk.name = s.blocks.map Blk.name := h1
    show b ∈ r.1.map Blk.name
    rw [h3]
    exact hrep.bnode b p hb
  have hbhv1 : ∀ b ∈ s1.blocks, beh b.obj = bh b.name := by
    intro b' hb'
    obtain ⟨b, hb, h1, h2⟩ := forall₂_mem_right f2 hb'
    rw [h2, h1.1]; exact hbhv b hb
  have hinv : Inv ops beh zb names net bh s := ⟨hrep, hbhv, hzb, hnm, hord⟩
  have hinv1 : Inv ops beh zb names net bh s1 := ⟨hrep1, hbhv1, hzb, hnm, hord⟩
  have hgive : (∃ Sof, Given net bh f zb fl Sof) ↔ ∀ b ∈ s.blocks, ∃ S, beh b.obj f s.zbase fl = .ok S := by
    constructor
    · rintro ⟨Sof, H⟩ b hb
      rw [← hzb, hinv.delivers] at H
      exact ⟨_, H b hb⟩
    · intro H
      apply exists_given
      intro x hx
      have hb : net.blks = s.blocks.map fun b => (b.name, b.ports) := hrep.rep.blks
      rw [hb] at hx
      simp only [List.mem_map] at hx
      obtain ⟨b, hbm, rfl⟩ := hx
      obtain ⟨S, hS⟩ := H b hbm
      exact ⟨S, by rw [← hbhv b hbm, ← hzb]; exact hS⟩
  cases hrr : r.2.2 with
  | error e =>
    rw [hrr] at hrun
    simp only [Prod.mk.injEq] at hrun
    obtain ⟨rfl, rfl⟩ := hrun
    refine ⟨hinv1, fun M hM => (by cases hM), fun e' _ => ⟨Or.inr ⟨rfl, rfl⟩, rfl, rfl⟩, ?_⟩
    intro Sof hS _ _
    exfalso
    have := f4 (hgive.1 ⟨Sof, hS⟩)
    rw [hrr] at this; cases this
  | ok u =>
    rw [hrr] at hrun
    simp only at hrun
    obtain ⟨g1, g2⟩ := f3 hrr
    have hgiven := hgive.2 g1
    have hfill1 : ∀ Sof, Given net bh f zb fl Sof → Filled s1.blocks s1.rows Sof := by
      intro Sof hS
      rw [← hzb, hinv.delivers] at hS
      have := g2 Sof hS
      intro b' hb' i j har rr hrr'
      obtain ⟨b, hb, h1, h2⟩ := forall₂_mem_right f2 hb'
      obtain ⟨e1, e2, e3, _⟩ := h1
      have har' : b.Area i j := by simpa [Blk.Area, e2, e3] using har
      rw [e1, e3]
      exact this b hb i j har' rr hrr'
    obtain ⟨q1, q2, q3, q4, q5, q6, q7, q8, q9, q10⟩ := squareUp_spec hrep1
    simp only [extS] at hrun
    cases hsu : squareUp s1 with
    | mk s2 r2 =>
      simp only [hsu] at hrun
      rw [hsu] at q1 q2 q3 q4 q5 q6 q7 q8 q9 q10
      simp only at q1 q2 q3 q4 q5 q6 q7 q8 q9 q10
      cases r2 with
      | error e =>
        obtain ⟨t1, t2⟩ := q10 (by simp)
        simp only [Prod.mk.injEq] at hrun
        obtain ⟨rfl, rfl⟩ := hrun
        subst t1
        refine ⟨⟨q1, hbhv1, hzb, hnm, hord⟩, fun M hM => (by cases hM), fun e' _ => ⟨Or.inl rfl, rfl, rfl⟩, ?_⟩
        intro Sof hS hpne hcond
        exfalso
        have hl1 : s1.rows.length = s.rows.length := f1.1
        have : s1.rows.length = s1.cols ∨ s1.names = [] ∨ List.Perm s1.names s1.ports := by
          rw [hl1]; exact hcond
        have := q9.2 this
        simp at this
      | ok u2 =>
        simp only at hrun
        obtain ⟨t1, ⟨R, t2⟩, t3, t4⟩ := q8 rfl
        have hport2 : List.Perm s2.ports s1.ports := by
          refine (List.perm_ext_iff_of_nodup q1.rep.pnd hrep1.rep.pnd).2 fun p => ?_
          exact (q1.rep.pmem p).trans (hrep1.rep.pmem p).symm
        have hfill2 : ∀ Sof, Given net bh f zb fl Sof → Filled s2.blocks s2.rows Sof := by
          intro Sof hS b hb i j har rr hrr'
          rw [q2] at hb
          have hb1 : i < s1.rows.length := by
            have e := hrep1.rep.eS b hb (i - b.loc.1) (by have := har.1; have := har.2.1; omega)
            have hi : b.loc.1 + (i - b.loc.1) = i := by have := har.1; omega
            rw [hi] at e
            have e1 := (List.getElem?_eq_some_iff.1 e).1
            have e2 : s1.eqns.length = s1.rows.length := hrep1.rep.elen
            have e3 : i < s1.eqns.length := e1
            omega
          rw [t2, List.getElem?_append_left hb1] at hrr'
          exact hfill1 Sof hS b hb i j har rr hrr'
        have hsq : squareUp s1 = (s2, .ok u2) := hsu
        have hal2 : s2.rows.length = s2.cols → s1.rows.length = s1.cols → s2 = s1 := by
          intro _ h1
          have : squareUp s1 = (s1, .ok ()) := by unfold squareUp; rw [if_pos h1]
          rw [hsq] at this
          exact (Prod.mk.inj this).1
        have hnm2 : s2.portnames = names := by
          by_cases h1 : s1.rows.length = s1.cols
          · rw [hal2 t1 h1]; exact hnm
          · have : (squareUp s1).1.portnames = s1.portnames := by
              have aux : ∀ (ps : List Node) (s : St K O F Fl), (iter addE s ps).1.portnames = s.portnames := by
                intro ps
                induction ps with
                | nil => intro s; rfl
                | cons p ps ih =>
                  intro s
                  unfold iter
                  cases ha : addE s p with
                  | mk sa ra =>
                    have : sa.portnames = s.portnames := by
                      unfold addE at ha
                      split at ha <;> (try split at ha) <;> (simp only [Prod.mk.injEq] at ha; rw [← ha.1])
                    cases ra with
                    | error e => exact this
                    | ok u => exact (ih sa).trans this
              unfold squareUp
              rw [if_neg h1]
              simp only
              split
              · split
                · rfl
                · split
                  · rfl
                  · exact aux _ _
              · exact aux _ _
            rw [hsq] at this
            exact this.trans hnm
        have hord2 : Ordered net s2 := by
          by_cases h1 : s1.rows.length = s1.cols
          · rw [hal2 t1 h1]; exact hord
          · have ha2 : s2.aliased = true := t3.resolve_left h1
            refine ⟨fun hc => (by rw [ha2] at hc; cases hc), fun _ => ?_⟩
            rw [t4 h1, hnm2]
            have hnames1 : s1.names = s.names := rfl
            by_cases hn : s1.names = []
            · rw [if_pos hn]
              by_cases has : s.aliased = true
              · have := hord.2 has
                rw [hnm] at this
                exact this
              · have := hord.1 (by simpa using has)
                have hpn : s.portnames = [] := by
                  have : s.names = [] := hn
                  simpa [St.names, has] using this
                rw [hnm] at hpn
                simp only [hpn, if_true]
                exact this
            · rw [if_neg hn]
              by_cases has : s.aliased = true
              · have := hord.2 has
                rw [hnm] at this
                have e : s1.names = s.ports := by show s.names = s.ports; simp [St.names, has]
                rw [e]; exact this
              · have e : s1.names = names := by
                  show s.names = names
                  simp [St.names, has, hnm]
                rw [e] at hn ⊢
                rw [if_neg hn]
        have hbhv2 : ∀ b ∈ s2.blocks, beh b.obj = bh b.name := by rw [q2]; exact hbhv1
        have hzb2 : s2.zbase = zb := by rw [q3]; exact hzb
        by_cases hpe : s2.ports = []
        · obtain ⟨e, inv, he⟩ := solveE_noports q1 t1 hpe
          rw [he] at hrun
          simp only [Prod.mk.injEq] at hrun
          obtain ⟨rfl, rfl⟩ := hrun
          refine ⟨⟨⟨q1.rep, q1.wlen, q1.bnode⟩, hbhv2, hzb2, hnm2, hord2⟩, fun M hM => (by cases hM), fun e' _ => ⟨?_, q4, q5⟩, ?_⟩
          · rcases q6 with h | h
            · right
              refine ⟨h, ?_⟩
              have hp0 : s1.ports = [] := by
                rw [← List.length_eq_zero_iff]
                rw [← hport2.length_eq, hpe]; rfl
              rw [hpe]; exact hp0.symm
            · exact Or.inl h
          · intro Sof hS hpne hcond
            exfalso
            have hp0 : s1.ports = [] := by
              rw [← List.length_eq_zero_iff]
              rw [← hport2.length_eq, hpe]; rfl
            exact hpne hp0
        · obtain ⟨Sof0, hSof0⟩ := hgiven
          rcases solveE_spec q1 t1 hpe (hfill2 Sof0 hSof0) with ⟨W, S, he, hS, hMW⟩ | ⟨he, hS⟩
          · rw [he] at hrun
            simp only [Prod.mk.injEq] at hrun
            obtain ⟨rfl, rfl⟩ := hrun
            have hal : s2.aliased = true := ((q1.squared t1).1).resolve_left fun x => hpe x.1
            refine ⟨⟨⟨q1.rep, q1.wlen, q1.bnode⟩, hbhv2, hzb2, hnm2, hord2⟩, ?_, fun e h => (by cases h), ?_⟩
            · intro M hM
              injection hM with hM; subst hM
              refine ⟨rfl, rfl, rfl, hpe, hal, ⟨W, rfl, hMW⟩, t1, ⟨Sof0, hSof0⟩, fun Sof hSof => ⟨hfill2 Sof hSof, ?_⟩⟩
              rcases solveE_spec q1 t1 hpe (hfill2 Sof hSof) with ⟨W', S', he', hS', _⟩ | ⟨he', _⟩
              · rw [he] at he'
                simp only [Prod.mk.injEq, Except.ok.injEq] at he'
                rw [he'.2, ← hzb2]; exact hS'
              · rw [he] at he'; simp at he'
            · intro Sof hSof hpne hcond
              simp only [Except.ok.injEq, exists_eq', true_iff]
              have hsp : s2.ports.Perm s.ports := hport2
              rcases solveE_spec q1 t1 hpe (hfill2 Sof hSof) with ⟨W', S', he', hS', _⟩ | ⟨he', _⟩
              · rw [hzb2] at hS'
                exact ⟨fun a => by
                    obtain ⟨w, hw1, hw2⟩ := hS'.exists_sol a
                    exact ⟨w, hw1, fun p hp => hw2 p (hsp.mem_iff.2 hp)⟩,
                  fun w w' h1 h2 h3 => hS'.unique w w' h1 h2 fun p hp => h3 p (hsp.mem_iff.1 hp)⟩
              · rw [he] at he'; simp at he'
          · rw [he] at hrun
            simp only [Prod.mk.injEq] at hrun
            obtain ⟨rfl, rfl⟩ := hrun
            refine ⟨⟨⟨q1.rep, q1.wlen, q1.bnode⟩, hbhv2, hzb2, hnm2, hord2⟩, fun M hM => (by cases hM), fun e' _ => ⟨?_, q4, q5⟩, ?_⟩
            · rcases q6 with h | h
              · by_cases h1 : s1.rows.length = s1.cols
                · right; rw [hal2 t1 h1]; exact ⟨rfl, rfl⟩
                · left
                  have : (squareUp s1).1.S = none := by
                    have aux : ∀ (ps : List Node) (s : St K O F Fl), (iter addE s ps).1.S = s.S := by
                      intro ps
                      induction ps with
                      | nil => intro s; rfl
                      | cons p ps ih =>
                        intro s
                        unfold iter
                        cases ha : addE s p with
                        | mk sa ra =>
                          have : sa.S = s.S := by
                            unfold addE at ha
                            split at ha <;> (try split at ha) <;> (simp only [Prod.mk.injEq] at ha; rw [← ha.1])
                          cases ra with
                          | error e => exact this
                          | ok u => exact (ih sa).trans this
                    unfold squareUp
                    rw [if_neg h1]
                    simp only
                    split
                    · split
                      · rfl
                      · split
                        · rfl
                        · exact aux _ _
                    · exact aux _ _
                  rw [hsq] at this
                  exact this
              · exact Or.inl h
            · intro Sof hSof hpne hcond
              simp only [reduceCtorEq, exists_false, false_iff]
              have hsp : s2.ports.Perm s.ports := hport2
              intro hc
              rcases solveE_spec q1 t1 hpe (hfill2 Sof hSof) with ⟨W', S', he', hS', _⟩ | ⟨_, hns⟩
              · rw [he] at he'; simp at he'
              · apply hns
                rw [hzb2]
                exact ⟨fun a => by
                    obtain ⟨w, hw1, hw2⟩ := hc.exists_sol a
                    exact ⟨w, hw1, fun p hp => hw2 p (hsp.mem_iff.1 hp)⟩,
                  fun w w' h1 h2 h3 => hc.unique w w' h1 h2 fun p hp => h3 p (hsp.mem_iff.2 hp)⟩

end
end PyRFtk.Circuit
