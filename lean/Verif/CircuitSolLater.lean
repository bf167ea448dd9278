import Verif.CircuitSolStale

/-!
# `Solution` after several changes of loads and failed evaluations (C30)

An evaluation asks the blocks in turn and stores their answers in the equations of the circuit at once (rfCircuit.py:1283-1304); when a later
block fails, or the equations have no solution, the answers of the earlier blocks stay there while the stored matrix, its frequency and the
stored inverse are the old ones.  Changing a load discards the inverse (rfCircuit.py:773-777), so that the next `Solution` at the old
frequency solves the equations as they stand.
-/

set_option linter.unusedSectionVars false

namespace PyRFtk.Circuit

section
variable {K O F Fl : Type*} [Field K] [DecidableEq F] [DecidableEq Fl]
variable {ops : ObjOps K O F Fl} {beh : O → F → K → Fl → Except Err (SMat K)} {nan zb : K} {names : List Node}
variable {net : Net K} {bh : Behave K F Fl} {s s' s'' : St K O F Fl} {ph : Phase}

/-! ## Specification -/

/-- what the blocks named `bs`, asked in this order at `(g, gl)`, answered when last asked, if before that it was `Sof`: the answers count up
to the first block that fails -/
def lastAnswers (bh : Behave K F Fl) (g : F) (zb : K) (gl : Fl) : List String → (String → SMat K) → String → SMat K
  | [], Sof => Sof
  | b :: bs, Sof => match bh b g zb gl with
    | .error _ => Sof
    | .ok S => lastAnswers bh g zb gl bs (Function.update Sof b S)

/-- what can happen to a circuit `s0` that holds its matrix for `(f, fl)` without it losing that matrix: loads are changed, evaluations fail,
the stored matrix is asked for.  `Later … net Sof rel s`: the circuit is then `s`, the network `net`; `Sof b` is what block `b` answered when last
asked; `rel` tells whether a load was changed, `fs` lists the frequencies at which an evaluation failed.  (An evaluation on another reference impedance fails in the same cases and leaves the
same state unless it is the conversion that fails; then the circuit does hold another matrix.) -/
inductive Later (ops : ObjOps K O F Fl) (bh : Behave K F Fl) (zb : K) (f : F) (fl : Fl) (s0 : St K O F Fl) (net0 : Net K) :
    Net K → (String → SMat K) → Bool → List F → St K O F Fl → Prop
  | start {Sof} : Given net0 bh f zb fl Sof → Later ops bh zb f fl s0 net0 net0 Sof false [] s0
  | reload {net Sof rel fs s s' p args l} : Later ops bh zb f fl s0 net0 net Sof rel fs s → p ∈ net.loads.map Prod.fst →
      args.load = some l → terminate s p args = (s', .ok ()) → Later ops bh zb f fl s0 net0 (net.load p l) Sof true fs s'
  | failed {net Sof rel fs s s' g gl e} : Later ops bh zb f fl s0 net0 net Sof rel fs s → getS ops s g none gl = (s', .error e) →
      Later ops bh zb f fl s0 net0 net (lastAnswers bh g zb gl (net.blks.map Prod.fst) Sof) rel (g :: fs) s'
  | again {net Sof rel fs s s' z r} : Later ops bh zb f fl s0 net0 net Sof rel fs s → getS ops s f z fl = (s', r) →
      Later ops bh zb f fl s0 net0 net Sof rel fs s'

/-! ## Lemmas -/

theorem lastAnswers_notin {g : F} {gl : Fl} {b : String} : ∀ {bs : List String} {Sof : String → SMat K}, b ∉ bs →
    lastAnswers bh g zb gl bs Sof b = Sof b
  | [], _, _ => rfl
  | a :: bs, Sof, h => by
    unfold lastAnswers
    cases bh a g zb gl with
    | error _ => rfl
    | ok S => dsimp only; rw [lastAnswers_notin fun e => h (by simp [e]), Function.update_of_ne fun e => h (by simp [e])]

theorem fillBlocks_last (hlaw : Lawful ops beh) (f : F) (zb : K) (fl : Fl) :
    ∀ (bs : List (Blk O)) (rows : List (ℕ → K)), (∀ b ∈ bs, b.ports.length = ops.len b.obj) →
    (bs.Pairwise fun b b' => ∀ i, ¬ ((b.loc.1 ≤ i ∧ i < b.loc.1 + b.ports.length) ∧
      (b'.loc.1 ≤ i ∧ i < b'.loc.1 + b'.ports.length))) → (bs.map Blk.name).Nodup → (∀ b ∈ bs, beh b.obj = bh b.name) →
    ∀ {Sof : String → SMat K}, Filled bs rows Sof →
      Filled bs (fillBlocks ops f zb fl bs rows).2.1 (lastAnswers bh f zb fl (bs.map Blk.name) Sof)
  | [], rows, _, _, _, _, _, _ => by intro b hb; cases hb
  | b :: bs, rows, hlen, hdis, hnd, hbh, Sof, hf => by
    rw [List.pairwise_cons] at hdis
    rw [List.map_cons, List.nodup_cons] at hnd
    have hres := hlaw.res b.obj f zb fl
    rw [hbh b (by simp)] at hres
    unfold fillBlocks
    rw [List.map_cons]
    unfold lastAnswers
    cases hg : ops.getS b.obj f zb fl with
    | mk o r =>
      rw [hg] at hres
      simp only at hres
      cases r with
      | error e => simp only [← hres]; exact hf
      | ok S =>
        simp only [← hres]
        have hn : S.n = b.ports.length := by
          rw [hlaw.sized _ _ _ _ _ (by rw [hbh b (by simp)]; exact hres.symm)]; exact (hlen b (by simp)).symm
        obtain ⟨rows1, e1, e2, e3⟩ := setBlock_ok (rows := rows) (loc := b.loc) hn
        simp only [e1]
        have hra1 : RowsAgree [b] rows rows1 := by
          refine ⟨e2, fun i r hr => ?_⟩
          obtain ⟨r', g1, g2, _⟩ := e3 i r hr
          exact ⟨r', g1, fun j hj => g2 j (by simpa [Blk.Area] using hj)⟩
        have hf1 : Filled bs rows1 (Function.update Sof b.name S) := by
          intro x hx i j har r1 hr1
          have hxn : x.name ≠ b.name := fun e => hnd.1 (e ▸ List.mem_map_of_mem hx)
          rw [Function.update_of_ne hxn]
          obtain ⟨r0, k1, k2⟩ := hra1.back hr1
          rw [k2 j]
          · exact hf x (by simp [hx]) i j har r0 k1
          · intro y hy
            simp only [List.mem_singleton] at hy
            subst hy
            rintro ⟨a1, a2, _⟩
            exact hdis.1 x hx i ⟨⟨a1, a2⟩, har.1, har.2.1⟩
        have ih := fillBlocks_last hlaw f zb fl bs rows1 (fun x hx => hlen x (by simp [hx])) hdis.2 hnd.2
          (fun x hx => hbh x (by simp [hx])) hf1
        obtain ⟨i1, -⟩ := fillBlocks_spec hlaw f zb fl bs rows1 (fun x hx => hlen x (by simp [hx])) hdis.2
        intro x hx i j har r hr
        rcases List.mem_cons.1 hx with rfl | hx
        · rw [lastAnswers_notin hnd.1, Function.update_self]
          obtain ⟨r1, g1, g2⟩ := i1.back hr
          have hnot : ∀ y ∈ bs, ¬ y.Area i j := by
            rintro y hy ⟨a1, a2, _⟩
            exact hdis.1 y hy i ⟨⟨har.1, har.2.1⟩, a1, a2⟩
          rw [g2 j hnot]
          obtain ⟨r0, k1, _⟩ := hra1.back g1
          obtain ⟨r', k3, _, k5⟩ := e3 i r0 k1
          rw [g1] at k3; injection k3 with k3; subst k3
          exact k5 j har
        · exact ih x hx i j har r hr

/-- a failed evaluation of a circuit whose equations are complete -/
theorem recompute_failed (hlaw : Lawful ops beh) (hr : Rep ops net s) (hb : ∀ b ∈ s.blocks, beh b.obj = bh b.name) (hzb : s.zbase = zb)
    (hsq : s.rows.length = s.cols) (hp : s.ports ≠ []) {Sof : String → SMat K} (hf : Filled s.blocks s.rows Sof) {g : F} {gl : Fl} {e : Err}
    (h : recompute ops s g gl = (s', .error e)) :
    Rep ops net s' ∧ (∀ b ∈ s'.blocks, beh b.obj = bh b.name) ∧ s'.zbase = zb ∧ s'.rows.length = s'.cols ∧ s'.ports = s.ports ∧
      s'.S = s.S ∧ s'.f = s.f ∧ s'.flags = s.flags ∧ s'.invM = s.invM ∧
      Filled s'.blocks s'.rows (lastAnswers bh g zb gl (net.blks.map Prod.fst) Sof) := by
  have hname : net.blks.map Prod.fst = s.blocks.map Blk.name := by
    have : net.blks = s.blocks.map fun b => (b.name, b.ports) := hr.rep.blks
    rw [this, List.map_map]; rfl
  obtain ⟨f1, f2, -, -⟩ := fillBlocks_spec hlaw g s.zbase gl s.blocks s.rows hr.rep.blen hr.rep.rows_disjoint
  have f5 := fillBlocks_last hlaw g s.zbase gl s.blocks s.rows hr.rep.blen hr.rep.rows_disjoint hr.rep.bnd hb hf
  unfold recompute at h
  simp only at h
  generalize hR : fillBlocks ops g s.zbase gl s.blocks s.rows = R at h f1 f2 f5
  have hlike : List.Forall₂ (Blk.Like ops) s.blocks R.1 := f2.imp fun _ _ x => x.1
  set s1 : St K O F Fl := { s with blocks := R.1, rows := R.2.1 } with hs1
  have hr1 : Rep ops net s1 := by
    refine ⟨hr.rep.fill f1 hlike, hr.wlen, ?_⟩
    intro b p hb
    have h1 := congrArg (List.map Prod.fst) (forall₂_like_map hlike)
    simp only [List.map_map] at h1
    have h3 : R.1.map Blk.name = s.blocks.map Blk.name := h1
    show b ∈ R.1.map Blk.name
    rw [h3]
    exact hr.bnode b p hb
  have hb1 : ∀ b ∈ s1.blocks, beh b.obj = bh b.name := by
    intro b' hb'
    obtain ⟨b, hbm, h1, h2⟩ := forall₂_mem_right f2 hb'
    rw [h2, h1.1]; exact hb b hbm
  have hsq1 : s1.rows.length = s1.cols := by
    show R.2.1.length = s.cols
    rw [← hsq]; exact f1.1
  have hf1 : Filled s1.blocks s1.rows (lastAnswers bh g zb gl (net.blks.map Prod.fst) Sof) := by
    rw [hname, ← hzb]
    intro b' hb' i j har rr hrr'
    obtain ⟨b, hbm, h1, h2⟩ := forall₂_mem_right f2 hb'
    obtain ⟨e1, e2, e3, _⟩ := h1
    have har' : b.Area i j := by simpa [Blk.Area, e2, e3] using har
    rw [e1, e3]
    exact f5 b hbm i j har' rr hrr'
  have hend : s' = s1 := by
    cases hr2 : R.2.2 with
    | error e' =>
      rw [hr2] at h
      simp only [Prod.mk.injEq] at h
      exact h.1.symm
    | ok u =>
      rw [hr2] at h
      have hsu : squareUp s1 = (s1, .ok ()) := by unfold squareUp; rw [if_pos hsq1]
      simp only [extS, hsu] at h
      rcases solveE_spec hr1 hsq1 hp hf1 with ⟨W, S, he, -⟩ | ⟨he, -⟩
      · rw [he] at h; simp at h
      · rw [he] at h
        simp only [Prod.mk.injEq] at h
        exact h.1.symm
  subst hend
  exact ⟨hr1, hb1, hzb, hsq1, rfl, rfl, rfl, rfl, rfl, hf1⟩

/-- what is known of a circuit after any such history -/
structure Holds (ops : ObjOps K O F Fl) (beh : O → F → K → Fl → Except Err (SMat K)) (bh : Behave K F Fl) (zb : K) (f : F) (fl : Fl)
    (M0 : SMat K) (ports : List Node) (net : Net K) (Sof : String → SMat K) (rel : Bool) (s : St K O F Fl) : Prop where
  rep : Rep ops net s
  bhv : ∀ b ∈ s.blocks, beh b.obj = bh b.name
  zb : s.zbase = zb
  sq : s.rows.length = s.cols
  ports : s.ports = ports
  ne : s.ports ≠ []
  S : s.S = some M0
  f : s.f = some f
  flags : s.flags = some fl
  inv : rel = true → s.invM = none
  filled : Filled s.blocks s.rows Sof

theorem Later.holds (hlaw : Lawful ops beh) {f : F} {fl : Fl} {s0 : St K O F Fl} {net0 : Net K} {M0 : SMat K}
    (h0 : ∀ Sof, Given net0 bh f zb fl Sof → Holds ops beh bh zb f fl M0 s0.ports net0 Sof false s0) {Sof : String → SMat K} {rel : Bool}
    {fs : List F} (h : Later ops bh zb f fl s0 net0 net Sof rel fs s) : Holds ops beh bh zb f fl M0 s0.ports net Sof rel s ∧ net.nodes = net0.nodes ∧
      net.free = net0.free ∧ net.blks = net0.blks := by
  induction h with
  | start hS => exact ⟨h0 _ hS, rfl, rfl, rfl⟩
  | @reload net Sof rel fs s s' p args l _ hp hl ht ih =>
    obtain ⟨ih, i1, i2, i3⟩ := ih
    obtain ⟨l', hl', hrep'⟩ := rep_terminate ih.rep ht
    rw [hl] at hl'
    injection hl' with hl'
    subst hl'
    have hT : ∃ v, dictGet p s.T = some v := by
      have hp' := hp
      rw [ih.rep.rep.loads_keys] at hp'
      cases hd : dictGet p s.T with
      | some v => exact ⟨v, rfl⟩
      | none => exact absurd hp' (dictGet_none.1 hd)
    obtain ⟨⟨ia, ib, ie⟩, hT⟩ := hT
    have ht' : ∃ rho, s' = { s with rows := setEntry s.rows ie ib rho, invM := none } := by
      unfold terminate at ht
      cases hr : termRho s.zbase args with
      | error e => rw [hr] at ht; simp at ht
      | ok rho =>
        rw [hr] at ht
        simp only [hT, Prod.mk.injEq, and_true] at ht
        exact ⟨rho, ht.symm⟩
    obtain ⟨rho, rfl⟩ := ht'
    refine ⟨⟨hrep', ih.bhv, ih.zb, ?_, ih.ports, ih.ne, ih.S, ih.f, ih.flags, fun _ => rfl, ih.filled.reload ih.rep hT rho⟩, i1, ?_, i3⟩
    · show (setEntry s.rows ie ib rho).length = s.cols
      unfold setEntry
      rw [List.length_modify]; exact ih.sq
    · rw [← i2]
      have h1 := ih.rep.rep.pmem
      have h2 := hrep'.rep.pmem
      have h3 : ∀ q ∈ net.nodes, (q ∉ net.used ↔ q ∉ (Net.load net p l).used) := by
        intro q hq
        have a := h1 q
        have b := h2 q
        constructor
        · intro hu
          exact ((b.1 (a.2 ⟨hq, hu⟩))).2
        · intro hu
          exact ((a.1 (b.2 ⟨hq, hu⟩))).2
      show (Net.load net p l).nodes.filter _ = net.nodes.filter _
      refine List.filter_congr fun q hq => ?_
      have := h3 q hq
      simp only [decide_eq_decide]
      exact this.symm
  | @failed net Sof rel fs s s' g gl e _ hg ih =>
    obtain ⟨ih, i1, i2, i3⟩ := ih
    have hrec : recompute ops s g gl = (s', .error e) := by
      have hg1 : get1S ops s g gl = (s', .error e) := by
        unfold getS at hg
        cases hx : get1S ops s g gl with
        | mk t q =>
          rw [hx] at hg
          cases q with
          | error e' => simpa using hg
          | ok M => simp at hg
      rcases get1S_eq (ops := ops) s g gl with ⟨M1, a, b, c, d⟩ | ⟨-, e1⟩
      · rw [d] at hg1; simp at hg1
      · rw [← e1]; exact hg1
    obtain ⟨a1, a2, a3, a4, a5, a6, a7, a8, a9, a10⟩ := recompute_failed hlaw ih.rep ih.bhv ih.zb ih.sq ih.ne ih.filled hrec
    exact ⟨⟨a1, a2, a3, a4, a5.trans ih.ports, by rw [a5]; exact ih.ne, a6.trans ih.S, a7.trans ih.f, a8.trans ih.flags,
      fun h => a9.trans (ih.inv h), a10⟩, i1, i2, i3⟩
  | @again net Sof rel fs s s' z r _ hg ih =>
    have : s' = s := by
      unfold getS get1S at hg
      simp only [ih.1.S, ih.1.f, ih.1.flags, and_self, if_true] at hg
      split at hg
      · exact (Prod.mk.inj hg).1.symm
      · split at hg <;> exact (Prod.mk.inj hg).1.symm
    rw [this]
    exact ih

/-- what `Solution` does when the matrix is stored and the inverse is not -/
theorem Holds.solution {f : F} {fl : Fl} {M0 : SMat K} {ports : List Node} {Sof : String → SMat K} (hzb : zb ≠ 0)
    (h : Holds ops beh bh zb f fl M0 ports net Sof true s) {E : List (Node × K)} {z : Option K} {t : List (Node × Quad K)}
    (hs : solution ops s f E z fl = (s', .ok t)) :
    ∃ S, getS ops s f (some (z.getD zb)) fl = (s, .ok S) ∧ z.getD zb ≠ 0 ∧ ∃ w, net.Laws zb Sof w ∧
      (∀ n, dictGet n t = if n ∈ net.nodes then some ((stateOf zb w).quad (z.getD zb) n) else none) ∧
      (∃ Ea : List K, List.Forall₂ (fun p v => dictGet p E = some v) ports Ea ∧
        ∀ i (hi : i < ports.length), w (.inn, ports[i]) = onOwn zb (z.getD zb) (Ea.getD i 0) (∑ j : Fin S.n, S.at i j * Ea.getD j 0)) ∧
      ∃ S', getS ops s' f none fl = (s', .ok S') ∧ IsScattering (net.Laws zb Sof) net.nodes ports S' := by
  classical
  obtain ⟨hrep, -, hz2, hsq, hports, hne, hS, hff, hfl, hinv, hfill⟩ := h
  subst hports
  have hget : ∀ z', getS ops s f (some z') fl = (s, if z' ≠ 0 ∧ z' ≠ s.zbase then convVV z' s.zbase M0 else .ok M0) := by
    intro z'
    unfold getS get1S
    simp only [hS, hff, hfl, and_self, if_true]
    split <;> rfl
  set zz := z.getD zb with hzz
  unfold Circuit.solution at hs
  rw [hz2] at hs
  cases hsol : solve ops s f E z fl with
  | mk s4 r4 =>
    rw [hsol] at hs
    cases r4 with
    | error e => simp at hs
    | ok sol =>
      simp only at hs
      unfold solve at hsol
      simp only [hz2] at hsol
      cases hEa : mapE (dictIndex E) s.ports with
      | error e => rw [hEa] at hsol; simp at hsol
      | ok Ea =>
        rw [hEa, hget] at hsol
        simp only [hz2] at hsol
        generalize hSS : (if zz ≠ 0 ∧ zz ≠ zb then convVV zz zb M0 else .ok M0) = rS at hsol
        cases rS with
        | error e => simp at hsol
        | ok S =>
          simp only at hsol
          cases hEb : applyS S Ea with
          | error e => rw [hEb] at hsol; simp at hsol
          | ok Eb =>
            rw [hEb] at hsol
            simp only at hsol
            by_cases hz : zz = 0
            · rw [if_pos (show z.getD zb = 0 from hz)] at hsol; simp at hsol
            rw [if_neg (show ¬ z.getD zb = 0 from hz)] at hsol
            rw [hz2] at hsol
            set Ei := (Ea.zip Eb).map fun x => onOwn zb zz x.1 x.2 with hEi
            cases hEs : fillEs s.E s.rows.length (s.ports.zip Ei) (fun _ => 0) with
            | error e => rw [hEs] at hsol; simp at hsol
            | ok Es =>
              rw [hEs] at hsol
              simp only at hsol
              rw [mapE_eq_ok] at hEa
              have hEal : Ea.length = s.ports.length := hEa.length_eq.symm
              unfold applyS at hEb
              by_cases hSn : S.n = Ea.length
              · rw [if_pos hSn] at hEb
                injection hEb with hEb
                have hEbl : Eb.length = Ea.length := by rw [← hEb]; simp [hSn]
                have hEil : Ei.length = s.ports.length := by
                  rw [hEi]; simp only [List.length_map, List.length_zip, hEbl, min_self]; exact hEal
                obtain ⟨W, S', rfl, hS', hn, hw1, hw2⟩ := applyInv_fresh hrep hsq hne hfill (hinv rfl) hEil hEs hsol
                rw [hz2] at hS' hw1
                have hrep4 : Rep ops net { s with invM := some ⟨s.cols, W⟩, S := some S' } :=
                  ⟨hrep.rep, hrep.wlen, hrep.bnode⟩
                obtain ⟨q, hq1, hq2⟩ := table_spec hrep4 (by rw [show ({ s with invM := some ⟨s.cols, W⟩, S := some S' } : St K O F Fl).zbase = zb from hz2]; exact hzb) zz hn
                rw [hq1] at hs
                simp only [Prod.mk.injEq, Except.ok.injEq] at hs
                obtain ⟨rfl, rfl⟩ := hs
                refine ⟨S, ?_, hz, _, hw1, ?_, ⟨Ea, ?_, ?_⟩, S', ?_, hS'⟩
                · rw [hget, hz2, hSS]
                · intro n
                  rw [hq2 n]
                  rw [show ({ s with invM := some ⟨s.cols, W⟩, S := some S' } : St K O F Fl).zbase = zb from hz2]
                · exact hEa.imp fun _ _ hx => dictIndex_eq_ok.1 hx
                · intro i hii
                  have := hw2 i hii
                  have hiEa : i < Ea.length := by rw [hEal]; exact hii
                  rw [hEi, List.getElem?_map] at this
                  have hzip : (Ea.zip Eb)[i]? = some (Ea.getD i 0, ∑ j : Fin S.n, S.at i j * Ea.getD j 0) := by
                    rw [List.getElem?_zip_eq_some]
                    refine ⟨by simp [List.getD_eq_getElem?_getD, hiEa], ?_⟩
                    rw [← hEb, List.getElem?_map, List.getElem?_range (by rw [hSn]; exact hiEa)]
                    rfl
                  rw [hzip] at this
                  simp only [Option.map_some, Option.some.injEq] at this
                  exact this.symm
                · unfold getS get1S
                  simp only [hff, hfl, and_self, if_true]
              · rw [if_neg hSn] at hEb; cases hEb

/-- the evaluation the histories start with -/
theorem eval_holds [CharZero K] (hlaw : Lawful ops beh) (h : Built ops beh nan zb names net bh s ph)
    {f : F} {fl : Fl} (hm : Misses s f fl) {z0 : Option K} {M : SMat K} (hg : getS ops s f z0 fl = (s', .ok M)) :
    ∃ M0, ∀ Sof, Given net bh f zb fl Sof → Holds ops beh bh zb f fl M0 s'.ports net Sof false s' := by
  have hi := h.inv hlaw
  have hg1 : get1S ops s f fl = recompute ops s f fl := by
    rcases get1S_eq (ops := ops) s f fl with ⟨M0, a, b, c, -⟩ | ⟨-, e⟩
    · rcases hm with hm | hm | hm
      · rw [hm] at a; cases a
      · exact absurd b hm
      · exact absurd c hm
    · exact e
  have hrec : ∃ M, recompute ops s f fl = (s', .ok M) := by
    unfold getS at hg
    rw [hg1] at hg
    cases hx : recompute ops s f fl with
    | mk t q =>
      cases q with
      | error e => simp [hx] at hg
      | ok M' =>
        simp only [hx] at hg
        split at hg
        · injection hg with hg _; exact ⟨M', by rw [hg]⟩
        · split at hg
          all_goals (injection hg with hg _; exact ⟨M', by rw [hg]⟩)
  obtain ⟨M0, hrec⟩ := hrec
  obtain ⟨hi', hq, -⟩ := recompute_spec hlaw hi f fl hrec
  obtain ⟨a1, a2, a3, a4, a5, -, a7, -, a9⟩ := hq M0 rfl
  exact ⟨M0, fun Sof hS => ⟨hi'.rep, hi'.bhv, hi'.zb, a7, rfl, a4, a1, a2, a3, fun e => (by cases e), (a9 Sof hS).1⟩⟩

/-! ## C30 -/

/-- **C30 (after any number of changed loads and failed evaluations).**  The circuit was evaluated at `f`; since then loads were changed (at least
once), evaluations at other frequencies failed, in any order and number.  What `Solution` reports at `f` is, at every node, a state of the
network with the present loads in which each block counts with the matrix it answered when last asked; the waves that enter the ports (on
the circuit's own reference) are computed from the requested ones with the stored matrix `S`; after the call the circuit holds the matrix
that belongs to that network. -/
theorem C30_later [CharZero K] (hlaw : Lawful ops beh) {net0 : Net K} {s0 : St K O F Fl} (h : Built ops beh nan zb names net0 bh s0 ph) (hzb : zb ≠ 0)
    {f : F} {fl : Fl} (hm : Misses s0 f fl) {z0 : Option K} {M : SMat K} (hg : getS ops s0 f z0 fl = (s, .ok M))
    {Sof : String → SMat K} {fs : List F} (hl : Later ops bh zb f fl s net0 net Sof true fs s')
    {E : List (Node × K)} {z : Option K} {t : List (Node × Quad K)} (hs : solution ops s' f E z fl = (s'', .ok t)) :
    ∃ S, getS ops s f (some (z.getD zb)) fl = (s, .ok S) ∧ z.getD zb ≠ 0 ∧ ∃ w, net.Laws zb Sof w ∧
      (∀ n, dictGet n t = if n ∈ net.nodes then some ((stateOf zb w).quad (z.getD zb) n) else none) ∧
      (∃ Ea : List K, List.Forall₂ (fun p v => dictGet p E = some v) s.ports Ea ∧
        ∀ i (hi : i < s.ports.length), w (.inn, s.ports[i]) = onOwn zb (z.getD zb) (Ea.getD i 0) (∑ j : Fin S.n, S.at i j * Ea.getD j 0)) ∧
      ∃ S', getS ops s'' f none fl = (s'', .ok S') ∧ IsScattering (net.Laws zb Sof) net.nodes s.ports S' := by
  classical
  obtain ⟨M0, h0⟩ := eval_holds hlaw h hm hg
  have hh := (hl.holds hlaw h0).1
  obtain ⟨S, h1, h2, h3⟩ := hh.solution hzb hs
  refine ⟨S, ?_, h2, h3⟩
  obtain ⟨Sof0, hS0⟩ : ∃ Sof0, Given net0 bh f zb fl Sof0 := by
    clear h1 h3 hs hh
    generalize true = rel at hl
    induction hl with
    | start h => exact ⟨_, h⟩
    | reload _ _ _ _ ih => exact ih
    | failed _ _ ih => exact ih
    | again _ _ ih => exact ih
  have hb := h0 Sof0 hS0
  unfold getS get1S at h1 ⊢
  simp only [hb.S, hb.f, hb.flags, and_self, if_true]
  simp only [hh.S, hh.f, hh.flags, and_self, if_true] at h1
  rw [hb.zb]
  rw [hh.zb] at h1
  split at h1
  · rename_i hc
    rw [if_pos hc]
    simp only [Prod.mk.injEq, true_and] at h1 ⊢
    exact h1
  · rename_i hc
    rw [if_neg hc]
    simp only [Prod.mk.injEq, true_and] at h1 ⊢
    exact h1

/-- nothing failed: the blocks count with their matrices at `f` -/
theorem Later.given {f : F} {fl : Fl} {net0 : Net K} {s0 : St K O F Fl} {Sof : String → SMat K} {rel : Bool} {fs : List F}
    (h : Later ops bh zb f fl s0 net0 net Sof rel fs s) : fs = [] → Given net bh f zb fl Sof := by
  induction h with
  | start h => exact fun _ => h
  | reload _ _ _ _ ih => exact fun h x hx => ih h x hx
  | failed _ _ ih => exact fun h => by cases h
  | again _ _ ih => exact ih

/-- **C30 (after any number of changed loads, own reference).**  Asked on the circuit's own reference impedance, `Solution` reports the state with
exactly the requested waves entering the named ports, of the network with the present loads, in which each block counts with the matrix it answered when last asked; if no evaluation failed since,
these are the matrices at `f` and the report is right. -/
theorem C30_later_own [CharZero K] (hlaw : Lawful ops beh) {net0 : Net K} {s0 : St K O F Fl} (h : Built ops beh nan zb names net0 bh s0 ph) (hzb : zb ≠ 0)
    {f : F} {fl : Fl} (hm : Misses s0 f fl) {z0 : Option K} {M : SMat K} (hg : getS ops s0 f z0 fl = (s, .ok M))
    {Sof : String → SMat K} {fs : List F} (hl : Later ops bh zb f fl s net0 net Sof true fs s')
    {E : List (Node × K)} {z : Option K} (hz : z.getD zb = zb) {t : List (Node × Quad K)} (hs : solution ops s' f E z fl = (s'', .ok t)) :
    ∃ w, net.Laws zb Sof w ∧ (∀ q ∈ net.free, dictGet q E = some ((stateOf zb w).fwd zb q)) ∧
      (∀ n, dictGet n t = if n ∈ net.nodes then some ((stateOf zb w).quad zb n) else none) ∧ (fs = [] → Given net bh f zb fl Sof) := by
  obtain ⟨M0, h0⟩ := eval_holds hlaw h hm hg
  obtain ⟨hh, -, -, -⟩ := hl.holds hlaw h0
  obtain ⟨S, -, -, w, h1, h2, ⟨Ea, hEa, h3⟩, -⟩ := C30_later hlaw h hzb hm hg hl hs
  rw [hz] at h2 h3
  refine ⟨w, h1, fun q hq => ?_, h2, hl.given⟩
  have hq' : q ∈ s.ports := by
    rw [← hh.ports]; exact hh.rep.ports_perm.mem_iff.2 hq
  obtain ⟨i, hi, rfl⟩ := List.getElem_of_mem hq'
  have hi' : i < Ea.length := by rw [← hEa.length_eq]; exact hi
  have e1 := (List.forall₂_iff_get.1 hEa).2 i hi hi'
  simp only [List.get_eq_getElem] at e1
  rw [e1]
  have e2 := h3 i hi
  rw [onOwn_self hzb] at e2
  have e3 := inn_eq_onOwn hzb hzb w s.ports[i]
  rw [onOwn_self hzb] at e3
  rw [← e3, e2]
  simp [List.getD_eq_getElem?_getD, hi']

/-- **C30 (after any number of changed loads and failed evaluations: answers).**  `Solution` answers then whenever that mixture of the blocks' answers
with the present loads has a solution, every external port is given a wave and the stored matrix exists on the reference asked for. -/
theorem C30_later_answers [CharZero K] (hlaw : Lawful ops beh) {net0 : Net K} {s0 : St K O F Fl} (h : Built ops beh nan zb names net0 bh s0 ph)
    (hzb : zb ≠ 0) {f : F} {fl : Fl} (hm : Misses s0 f fl) {z0 : Option K} {M : SMat K} (hg : getS ops s0 f z0 fl = (s, .ok M))
    {Sof : String → SMat K} {fs : List F} (hl : Later ops bh zb f fl s net0 net Sof true fs s')
    {E : List (Node × K)} {z : Option K} (hz : z.getD zb ≠ 0) (hE : ∀ q ∈ net.free, dictGet q E ≠ none)
    {S : SMat K} (hS : getS ops s' f (some (z.getD zb)) fl = (s', .ok S)) (hSn : S.n = net.free.length)
    (hsolv : Solvable (net.Laws zb Sof) net.nodes s.ports) : ∃ s'' t, solution ops s' f E z fl = (s'', .ok t) := by
  obtain ⟨M0, h0⟩ := eval_holds hlaw h hm hg
  obtain ⟨⟨hrep, -, hz2, hsq, hports, hne, hS0, hff, hfl, hinv, hfill⟩, -, -, -⟩ := hl.holds hlaw h0
  rw [← hports] at hsolv
  have hSn : S.n = s'.ports.length := by rw [hSn]; exact hrep.ports_perm.length_eq.symm
  have hEa : mapE (dictIndex E) s'.ports = .ok (s'.ports.map fun p => (dictGet p E).getD 0) := by
    apply mapE_ok_of_forall
    intro q hq
    have := hE q (hrep.ports_perm.mem_iff.1 hq)
    rw [dictIndex_eq_ok]
    cases hd : dictGet q E with
    | none => exact absurd hd this
    | some v => rfl
  have hSt : S.n = (s'.ports.map fun p => (dictGet p E).getD 0).length := by rw [hSn]; simp
  obtain ⟨-, iA, iB, iE, q⟩ := hrep.squared hsq
  set Ea := s'.ports.map fun p => (dictGet p E).getD 0 with hEad
  set Eb := (List.range S.n).map fun i => ∑ j : Fin S.n, S.at i j * Ea.getD j 0 with hEbd
  obtain ⟨Es, hEs⟩ : ∃ Es, fillEs s'.E s'.rows.length
      (s'.ports.zip ((Ea.zip Eb).map fun x => onOwn s'.zbase (z.getD zb) x.1 x.2)) (fun _ => 0) = .ok Es := by
    apply fillEs_ok
    intro x hx
    have hp : x.1 ∈ s'.ports := (List.of_mem_zip hx).1
    obtain ⟨j, hj, e⟩ := List.getElem_of_mem hp
    refine ⟨iE ⟨j, hj⟩, by rw [hsq]; exact (iE ⟨j, hj⟩).2, ?_⟩
    rw [← e]; exact q.hE ⟨j, hj⟩
  have hsu : squareUp s' = (s', .ok ()) := by unfold squareUp; rw [if_pos hsq]
  rcases solveE_spec hrep hsq hne hfill with ⟨W, S', he, -, -⟩ | ⟨-, hc⟩
  · have hsol : solve ops s' f E z fl = ({ s' with invM := some ⟨s'.cols, W⟩, S := some S' }, .ok ⟨s'.cols, W.mulVec fun i => Es i⟩) := by
      unfold solve
      simp only [hEa]
      rw [hz2, hS]
      simp only
      unfold applyS
      rw [if_pos hSt]
      simp only
      rw [if_neg (show ¬ z.getD zb = 0 from hz)]
      rw [hEs]
      simp only
      unfold applyInv
      simp only [hinv rfl, extS, hsu, he]
      rw [if_pos hsq, hz2]
    have hrep4 : Rep ops net { s' with invM := some ⟨s'.cols, W⟩, S := some S' } := ⟨hrep.rep, hrep.wlen, hrep.bnode⟩
    obtain ⟨q, hq1, -⟩ := table_spec hrep4 (by rw [show ({ s' with invM := some ⟨s'.cols, W⟩, S := some S' } : St K O F Fl).zbase = zb from hz2]; exact hzb)
      (z.getD zb) (sol := ⟨s'.cols, W.mulVec fun i => Es i⟩) rfl
    unfold solution
    rw [hz2, hsol]
    simp only
    rw [hq1]
    exact ⟨_, _, rfl⟩
  · rw [hz2] at hc
    exact absurd hsolv hc

end

/-! ## A violation -/

namespace Ex.Mix

/-- a 2-port that transmits half at `true` and everything at `false` -/
def oA : Imm ℚ Bool Unit where
  len := 2
  ports := some ["1", "2"]
  xpos := some [0, 1]
  beh f _ _ := .ok ⟨2, if f then !![0, 1/2; 1/2, 0] else !![0, 1; 1, 0]⟩
  sized _ _ _ S h := by injection h with h; rw [← h]
  placed xs h := by injection h with h; rw [← h]; decide

/-- a matched 1-port known at `true` only (e.g. a measured one, asked outside its range) -/
def oB : Imm ℚ Bool Unit where
  len := 1
  ports := some ["1"]
  xpos := some [0]
  beh f _ _ := if f then .ok ⟨1, 0⟩ else .error .valueError
  sized f _ _ S h := by cases f <;> simp at h; rw [← h]
  placed xs h := by injection h with h; rw [← h]; decide

abbrev o := immOps ℚ Bool Unit
abbrev E := St ℚ (Imm ℚ Bool Unit) Bool Unit
def s0 : E := St.init 50 []
def s1 : E := (addblock o 0 s0 "A" oA .none 0).1
def s2 : E := (addblock o 0 s1 "B" oB .none 0).1
noncomputable def s3 : E := (terminate s2 (.blk "A" "2") (.Z 100)).1

theorem step1 : addblock o 0 s0 "A" oA .none 0 = (s1, .ok ()) := by
  refine Prod.ext rfl ?_
  decide
theorem step2 : addblock o 0 s1 "B" oB .none 0 = (s2, .ok ()) := by
  refine Prod.ext rfl ?_
  rfl
theorem step3 : terminate s2 (.blk "A" "2") (.Z 100) = (s3, .ok ()) := by
  refine Prod.ext rfl ?_
  have h : termRho s2.zbase (.Z (100 : ℚ)) = .ok ((100 - s2.zbase) / (100 + s2.zbase)) := by
    have : s2.zbase = 50 := rfl
    simp only [termRho, this]
    norm_num
  unfold terminate
  rw [h]
  rfl

def net (Z : ℚ) : Net ℚ where
  blks := [("A", ["1", "2"]), ("B", ["1"])]
  nodes := [.blk "A" "1", .blk "A" "2", .blk "B" "1"]
  juncs := []
  loads := [(.blk "A" "2", .Z Z)]
  crosses := []
  sames := []

def bh : Behave ℚ Bool Unit :=
  Function.update (Function.update (fun _ _ _ _ => .error .valueError) "A" oA.beh) "B" oB.beh

theorem built : Built o Imm.beh 0 50 [] (net 100) bh s3 .building := by
  have h0 : Built o Imm.beh 0 50 [] Net.empty (fun _ _ _ _ => .error .valueError) s0 .building := Built.init _
  have h1 := Built.addblock h0 (by decide) (ports := ["1", "2"]) (by decide) (by decide) step1
  have h2 := Built.addblock h1 (by decide) (ports := ["1"]) (by decide) (by decide) step2
  have h3 := Built.terminate h2 (l := .Z 100) rfl step3
  exact h3

/-- block A transmits `a`, block B absorbs -/
def Sof (a : ℚ) : String → SMat ℚ := fun b => if b = "A" then ⟨2, !![0, a; a, 0]⟩ else ⟨1, 0⟩

theorem given (Z : ℚ) : Given (net Z) bh true 50 () (Sof (1/2)) := by
  intro x hx
  simp only [net, List.mem_cons, List.not_mem_nil, or_false] at hx
  rcases hx with rfl | rfl
  · rfl
  · rfl

theorem free (Z : ℚ) : (net Z).free = [.blk "A" "1", .blk "B" "1"] := rfl

theorem laws_iff {S : String → SMat ℚ} {a Z : ℚ} (hA : S "A" = ⟨2, !![0, a; a, 0]⟩) (hB : S "B" = ⟨1, 0⟩) (w : Wave → ℚ) :
    (net Z).Laws 50 S w ↔ (w (.out, .blk "A" "1") = a * w (.inn, .blk "A" "2") ∧ w (.out, .blk "A" "2") = a * w (.inn, .blk "A" "1") ∧
      w (.out, .blk "B" "1") = 0) ∧ (Z + 50) * w (.inn, .blk "A" "2") = (Z - 50) * w (.out, .blk "A" "2") := by
  have h1 : BlockLaw (S "A") "A" ["1", "2"] w ↔ w (.out, .blk "A" "1") = a * w (.inn, .blk "A" "2") ∧
      w (.out, .blk "A" "2") = a * w (.inn, .blk "A" "1") := by
    rw [hA]
    simp only [BlockLaw, List.length_cons, List.length_nil]
    rw [Fin.forall_fin_two]
    simp [SMat.at, Fin.sum_univ_two]
  have h2 : BlockLaw (S "B") "B" ["1"] w ↔ w (.out, .blk "B" "1") = 0 := by
    rw [hB]
    simp only [BlockLaw, List.length_cons, List.length_nil]
    simp [SMat.at]
  simp only [Net.Laws, Net.CoreLaws, net, List.forall_mem_cons, List.not_mem_nil, false_implies, implies_true, and_true,
    h1, h2, Load.Law]
  constructor
  · rintro ⟨⟨⟨x, y⟩, c⟩, e6⟩
    refine ⟨⟨x, y, c⟩, ?_⟩; linarith
  · rintro ⟨⟨x, y, c⟩, e6⟩
    refine ⟨⟨⟨x, y⟩, c⟩, trivial, ?_⟩; linear_combination e6

theorem solvable (a : ℚ) {Z : ℚ} (hZ : Z + 50 ≠ 0) {ps : List Node} (hp : ps.Perm [.blk "A" "1", .blk "B" "1"]) :
    Solvable ((net Z).Laws 50 (Sof a)) (net Z).nodes ps := by
  constructor
  · intro x
    refine ⟨fun y => if y = (.inn, .blk "A" "1") then x (.blk "A" "1") else if y = (.inn, .blk "B" "1") then x (.blk "B" "1")
      else if y = (.out, .blk "A" "2") then a * x (.blk "A" "1")
      else if y = (.inn, .blk "A" "2") then (Z - 50) / (Z + 50) * (a * x (.blk "A" "1"))
      else if y = (.out, .blk "A" "1") then a * ((Z - 50) / (Z + 50) * (a * x (.blk "A" "1"))) else 0, ?_, ?_⟩
    · rw [laws_iff rfl rfl]
      simp
      field_simp
    · intro p hpp
      have := hp.mem_iff.1 hpp
      simp only [List.mem_cons, List.not_mem_nil, or_false] at this
      rcases this with rfl | rfl <;> simp
  · intro w w' h h' hi n hn d
    rw [laws_iff rfl rfl] at h h'
    have h1 := hi (.blk "A" "1") (hp.mem_iff.2 (by simp))
    have h2 := hi (.blk "B" "1") (hp.mem_iff.2 (by simp))
    obtain ⟨⟨a1, a2, a3⟩, a4⟩ := h
    obtain ⟨⟨b1, b2, b3⟩, b4⟩ := h'
    have h3 : w (.out, .blk "A" "2") = w' (.out, .blk "A" "2") := by rw [a2, b2, h1]
    have h4 : w (.inn, .blk "A" "2") = w' (.inn, .blk "A" "2") := by
      apply mul_left_cancel₀ hZ; rw [a4, b4, h3]
    simp only [net, List.mem_cons, List.not_mem_nil, or_false] at hn
    rcases hn with rfl | rfl | rfl <;> cases d
    · exact h1
    · rw [a1, b1, h4]
    · exact h4
    · exact h3
    · exact h2
    · rw [a3, b3]

/-- **C30 and C25 are violated**: the circuit is evaluated at `true`; an evaluation at `false` fails because block B does not answer; the load of
`A.2` is changed to 150 Ohm.  The `Solution` at `true` (own reference) is no state of the network at `true`; the matrix returned afterwards at
`true` is not its scattering matrix: block A counts with its matrix at `false`. -/
theorem C30_later_witness : ∃ (s s' t t' : E) (e : Err) (M : SMat ℚ) (ph : Phase) (tab : List (Node × Quad ℚ)),
    getS o s3 true none () = (s, .ok M) ∧ getS o s false none () = (s', .error e) ∧
    terminate s' (.blk "A" "2") (.Z 150) = (t, .ok ()) ∧ Built o Imm.beh 0 50 [] (net 150) bh t ph ∧
    solution o t true [(.blk "A" "1", 1), (.blk "B" "1", 0)] none () = (t', .ok tab) ∧
    (∃ x, dictGet (.blk "A" "1") tab = some x ∧ ∀ Sf w, Given (net 150) bh true 50 () Sf → (net 150).Laws 50 Sf w →
      (stateOf 50 w).quad 50 (.blk "A" "1") ≠ x) ∧
    ∃ S', getS o t' true none () = (t', .ok S') ∧
      ∀ Sf, Given (net 150) bh true 50 () Sf → ¬ IsScattering ((net 150).Laws 50 Sf) (net 150).nodes s.ports S' := by
  have hl := imm_lawful ℚ Bool Unit
  have hnm : s3.names = [] := by
    obtain ⟨hi, hb, -⟩ := built.all hl
    obtain ⟨-, ha, -⟩ := hb rfl
    simp [St.names, ha, hi.nm]
  obtain ⟨s, M, hs⟩ := (C20_getS_complete hl built (by decide) (given 100) (by rw [free]; simp) (Or.inl hnm)).2
    (solvable _ (by norm_num) (by rw [free]))
  have hmiss : Misses s3 true () := Or.inl ((built.all hl).2.1 rfl).2.2
  obtain ⟨M0, h0⟩ := eval_holds hl built hmiss hs
  have hH := h0 _ (given 100)
  have hb1 := Built.eval built hs
  have hfail : ∃ s' e, getS o s false none () = (s', .error e) := by
    cases hg : getS o s false none () with
    | mk s' r =>
      cases r with
      | error e => exact ⟨s', e, rfl⟩
      | ok S =>
        obtain ⟨Sf, hSf⟩ := (C20_getS_sound hl hb1 (by rw [afterEval_of_ne (by decide)]; decide) hg).1
        have := hSf ("B", ["1"]) (by simp [net])
        cases this
  obtain ⟨s', e, hf⟩ := hfail
  have hb2 := Built.eval hb1 hf
  have hl1 := Later.failed (Later.start (ops := o) (s0 := s) (given 100)) hf
  have hH1 := (hl1.holds hl h0).1
  have hSm : lastAnswers bh false 50 () ((net 100).blks.map Prod.fst) (Sof (1/2)) =
      Function.update (Sof (1/2)) "A" ⟨2, !![0, 1; 1, 0]⟩ := rfl
  have hterm : ∃ t, terminate s' (.blk "A" "2") (.Z 150) = (t, .ok ()) := by
    have hrho : termRho s'.zbase (.Z (150 : ℚ)) = .ok (1/2) := by
      have h3 : s'.zbase = 50 := hH1.zb
      simp only [termRho, h3]; norm_num
    have hT : ∃ v, dictGet (.blk "A" "2") s'.T = some v := by
      cases hd : dictGet (Node.blk "A" "2") s'.T with
      | some v => exact ⟨v, rfl⟩
      | none =>
        have h4 := hH1.rep.rep.loads_keys
        exact absurd (show Node.blk "A" "2" ∈ s'.T.map Prod.fst by
          have : s'.T.map Prod.fst = (net 100).loads.map Prod.fst := h4.symm
          rw [this]; decide) (dictGet_none.1 hd)
    obtain ⟨v, hv⟩ := hT
    unfold terminate
    rw [hrho]
    simp only [hv]
    exact ⟨_, rfl⟩
  obtain ⟨t, ht⟩ := hterm
  have hb3 := Built.terminate hb2 (l := .Z 150) rfl ht
  have hl2 : Later o bh 50 true () s (net 100) (net 150) (Function.update (Sof (1/2)) "A" ⟨2, !![0, 1; 1, 0]⟩) true [false] t :=
    Later.reload hl1 (p := .blk "A" "2") (l := .Z 150) (by decide) rfl ht
  have hHt := (hl2.holds hl h0).1
  have hmix : Function.update (Sof (1/2)) "A" ⟨2, !![0, 1; 1, 0]⟩ = Sof 1 := by
    funext b
    unfold Function.update Sof
    split <;> simp_all
  rw [hmix] at hl2 hHt
  have hperm : s.ports.Perm [.blk "A" "1", .blk "B" "1"] := by
    have := hH.rep.ports_perm
    rwa [free] at this
  have hM : M0.n = s.ports.length := by
    have hg : getS o s true none () = (s, .ok M0) := by
      unfold getS get1S
      simp only [hH.S, hH.f, hH.flags, and_self, if_true]
    exact ((C20_getS_sound hl hb1 (by rw [afterEval_of_ne (by decide)]; decide) hg).2 _ (given 100)).size
  have hget : getS o t true (some ((none : Option ℚ).getD 50)) () = (t, .ok M0) := by
    unfold getS get1S
    simp only [hHt.S, hHt.f, hHt.flags, and_self, if_true, hHt.zb]
    simp
  obtain ⟨t', tab, htab⟩ := C30_later_answers hl built (by norm_num) hmiss hs hl2 (E := [(.blk "A" "1", 1), (.blk "B" "1", 0)]) (z := none)
    (by norm_num) (by rw [free]; simp [dictGet]) hget (by rw [free, hM, hperm.length_eq])
    (solvable 1 (by norm_num) hperm)
  obtain ⟨w, hw1, hw2, hw3, -⟩ := C30_later_own hl built (by norm_num) hmiss hs hl2 rfl htab
  obtain ⟨-, -, -, -, -, -, -, S', hS'1, hS'2⟩ := C30_later hl built (by norm_num) hmiss hs hl2 htab
  refine ⟨s, s', t, t', e, M, _, tab, hs, hf, ht, hb3, htab, ⟨_, (hw3 (.blk "A" "1")).trans (if_pos (by simp [net])), ?_⟩, S', hS'1, ?_⟩
  · intro Sf v hSf hv hq
    rw [hSf.laws_congr (given 150), laws_iff rfl rfl] at hv
    rw [laws_iff rfl rfl] at hw1
    have hf1 := hw2 (.blk "A" "1") (by rw [free]; simp)
    simp only [dictGet, Field.State.quad, Quad.mk.injEq, Field.State.fwd, Field.State.rev, stateOf, volt, curr] at hq hf1
    simp at hf1
    obtain ⟨q1, q2, -, -⟩ := hq
    obtain ⟨⟨a1, a2, a3⟩, a4⟩ := hv
    obtain ⟨⟨b1, b2, b3⟩, b4⟩ := hw1
    linarith
  · intro Sf hSf hsc
    obtain ⟨w1, hl1, he1⟩ := (solvable 1 (Z := 150) (by norm_num) hperm).exists_sol fun _ => 1
    obtain ⟨w2, hl2, he2⟩ := (solvable (1/2) (Z := 150) (by norm_num) hperm).exists_sol fun _ => 1
    obtain ⟨i, hi, hiA⟩ := List.getElem_of_mem (hperm.mem_iff.2 (show Node.blk "A" "1" ∈ _ by simp))
    have h1 := hS'2.out w1 hl1 ⟨i, hi⟩
    have h2 := hsc.out w2 ((hSf.laws_congr (given 150) _).2 hl2) ⟨i, hi⟩
    have h3 : w1 (.out, s.ports[i]) = w2 (.out, s.ports[i]) := by
      refine h1.trans (Eq.trans ?_ h2.symm)
      refine Finset.sum_congr rfl fun j _ => ?_
      have g1 := he1 s.ports[j] (List.getElem_mem _)
      have g2 := he2 s.ports[j] (List.getElem_mem _)
      rw [g1, g2]
    rw [hiA] at h3
    have e1 := he1 (.blk "A" "1") (hperm.mem_iff.2 (by simp))
    have e2 := he2 (.blk "A" "1") (hperm.mem_iff.2 (by simp))
    rw [laws_iff rfl rfl] at hl1 hl2
    obtain ⟨⟨a1, a2, a3⟩, a4⟩ := hl1
    obtain ⟨⟨b1, b2, b3⟩, b4⟩ := hl2
    linarith

end Ex.Mix
end PyRFtk.Circuit
