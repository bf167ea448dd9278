import Verif.CircuitSolProps
import Verif.CircuitStale

/-!
# `Solution` after a load was changed (C30)
-/

set_option linter.unusedSectionVars false

namespace PyRFtk.Circuit

section
variable {K O F Fl : Type*} [Field K] [DecidableEq F] [DecidableEq Fl]
variable {ops : ObjOps K O F Fl} {beh : O → F → K → Fl → Except Err (SMat K)} {nan zb : K} {names : List Node}
variable {net : Net K} {bh : Behave K F Fl} {s s' s'' : St K O F Fl} {ph : Phase}

/-- the reply of `Solution` is a function of these parts of the circuit, when the matrix is stored -/
theorem solution_again {s1 : St K O F Fl} {f : F} {fl : Fl} {E : List (Node × K)} {z : Option K} {t : List (Node × Quad K)}
    (hp : s1.ports = s.ports) (hzb : s1.zbase = s.zbase)
    (hget : ∀ S, getS ops s f (some (z.getD s.zbase)) fl = (s1, .ok S) → getS ops s1 f (some (z.getD s.zbase)) fl = (s1, .ok S))
    (hst : ∀ r, (getS ops s f (some (z.getD s.zbase)) fl) = r → r.1 = s1)
    (hs : solution ops s f E z fl = (s', .ok t)) : solution ops s1 f E z fl = (s', .ok t) := by
  unfold solution solve at hs ⊢
  rw [hzb, hp]
  simp only at hs ⊢
  cases hE : mapE (dictIndex E) s.ports with
  | error e => simp [hE] at hs
  | ok Ea =>
    simp only [hE] at hs ⊢
    cases hg : getS ops s f (some (z.getD s.zbase)) fl with
    | mk s2 r2 =>
      have h2 := hst _ hg
      simp only at h2
      subst h2
      cases r2 with
      | error e => simp [hg] at hs
      | ok S =>
        rw [hget S hg]
        rw [hg] at hs
        exact hs

/-- **C30 (fresh).**  Whatever the history — also after loads were changed — when the circuit holds no matrix for this frequency and these
flags, `Solution` reports the state of the network as it is now, with the requested waves entering the named ports. -/
theorem C30_solution_fresh [CharZero K] (hlaw : Lawful ops beh) (h : Built ops beh nan zb names net bh s ph)
    (hzb : zb ≠ 0) (hord : names = [] ∨ names = s.ports ∨ s.aliased = true)
    {f : F} {fl : Fl} (hm : Misses s f fl) {E : List (Node × K)} {z : Option K} {t : List (Node × Quad K)}
    (hs : solution ops s f E z fl = (s', .ok t)) :
    ∃ Sof, Given net bh f zb fl Sof ∧ ∃ w, net.Laws zb Sof w ∧
      (∀ p ∈ net.free, dictGet p E = some ((stateOf zb w).fwd (z.getD zb) p)) ∧
      ∀ n, dictGet n t = if n ∈ net.nodes then some ((stateOf zb w).quad (z.getD zb) n) else none := by
  have hi := h.inv hlaw
  have hz0 : s.zbase = zb := hi.zb
  -- the evaluation inside
  cases hg : getS ops s f (some (z.getD s.zbase)) fl with
  | mk s1 r1 =>
    have hg1 : get1S ops s f fl = recompute ops s f fl := by
      rcases get1S_eq (ops := ops) s f fl with ⟨M0, a, b, c, -⟩ | ⟨-, e⟩
      · rcases hm with hm | hm | hm
        · rw [hm] at a; cases a
        · exact absurd b hm
        · exact absurd c hm
      · exact e
    have hok : ∃ S, r1 = .ok S := by
      cases r1 with
      | ok S => exact ⟨S, rfl⟩
      | error e =>
        unfold solution solve at hs
        simp only at hs
        cases hE : mapE (dictIndex E) s.ports with
        | error e => simp [hE] at hs
        | ok Ea => simp [hE, hg] at hs
    obtain ⟨S, rfl⟩ := hok
    have hrec : ∃ M, recompute ops s f fl = (s1, .ok M) := by
      unfold getS at hg
      rw [hg1] at hg
      cases hx : recompute ops s f fl with
      | mk t q =>
        cases q with
        | error e => simp [hx] at hg
        | ok M' =>
          simp only [hx] at hg
          split at hg
          · injection hg with hg _; exact ⟨M', by rw [hg]⟩
          · injection hg with hg _; exact ⟨M', by rw [hg]⟩
    obtain ⟨M, hrec⟩ := hrec
    obtain ⟨-, hq, -⟩ := recompute_spec hlaw hi f fl hrec
    obtain ⟨a1, a2, a3, a4, a5, -⟩ := hq M rfl
    have h1 := Built.eval h hg
    have hph : afterEval ph s f fl (.ok S) ≠ .reloaded := by
      unfold afterEval
      rw [if_neg]
      · decide
      · rintro ⟨_, hc⟩; exact hc ⟨hm, S, rfl⟩
    have hpne : s.ports ≠ [] := by
      intro e
      have hl := getS_ports_length hlaw h hg
      rw [e, List.length_nil, List.length_eq_zero_iff] at hl
      exact a4 hl
    have hnm : s.names = [] ∨ s.names = s.ports := by
      unfold St.names
      by_cases ha : s.aliased = true
      · rw [if_pos ha]; exact Or.inr rfl
      · rw [if_neg ha, hi.nm]
        rcases hord with h | h | h
        · exact Or.inl h
        · exact Or.inr h
        · exact absurd h ha
    have ho : ordered s = s.ports := by
      unfold ordered
      rcases hnm with h | h
      · rw [if_pos (Or.inr h)]
      · rw [h]; simp
    have hp : s1.ports = s.ports := by
      rcases (recompute_answer hlaw hi hpne f fl hrec).2.ports with e | e
      · exact e
      · rw [e, ho]
    have hz1 : s1.zbase = s.zbase := by rw [(h1.inv hlaw).zb, hz0]
    have hsame : getS ops s1 f (some (z.getD s.zbase)) fl = (s1, .ok S) := by
      have e1 : get1S ops s1 f fl = (s1, .ok M) := by
        unfold get1S
        rw [a1]
        simp only [a2, a3, and_self, if_true]
      have hg' := hg
      unfold getS at hg' ⊢
      rw [hg1, hrec] at hg'
      rw [e1]
      exact hg'
    have hs1 : solution ops s1 f E z fl = (s', .ok t) :=
      solution_again hp hz1 (fun S' hS' => by rw [hg] at hS'; injection hS' with _ hS'; injection hS' with hS'; subst hS'; exact hsame)
        (fun r hr => by rw [hg] at hr; rw [← hr]) hs
    exact C30_solution hlaw h1 hph hzb (Or.inr (Or.inr (getS_aliased hlaw h hg))) hs1

/-- the inverse is missing, everything else is up to date: the waves are computed from the equations as they are now -/
theorem applyInv_fresh (h : Rep ops net s) (hsq : s.rows.length = s.cols) (hp : s.ports ≠ []) {Sof : String → SMat K}
    (hf : Filled s.blocks s.rows Sof) (hinv : s.invM = none) {Ei : List K} (hEil : Ei.length = s.ports.length) {Es : ℕ → K}
    (hEs : fillEs s.E s.rows.length (s.ports.zip Ei) (fun _ => 0) = .ok Es) {sol : SVec K}
    (hs : applyInv s s.rows.length Es = (s', .ok sol)) :
    ∃ W S, s' = { s with invM := some ⟨s.cols, W⟩, S := some S } ∧ IsScattering (net.Laws s.zbase Sof) net.nodes s.ports S ∧
      ∃ hn : sol.n = s'.cols, net.Laws s.zbase Sof (wOf s' fun i => sol.v (Fin.cast hn.symm i)) ∧
        ∀ i (hi : i < s.ports.length), Ei[i]? = some (wOf s' (fun i => sol.v (Fin.cast hn.symm i)) (.inn, s.ports[i])) := by
  unfold applyInv at hs
  rw [hinv] at hs
  have hsu : squareUp s = (s, .ok ()) := by unfold squareUp; rw [if_pos hsq]
  simp only [extS, hsu] at hs
  rcases solveE_spec h hsq hp hf with ⟨W, S, he, hS, hMW⟩ | ⟨he, -⟩
  · rw [he] at hs
    simp only at hs
    rw [if_pos hsq] at hs
    simp only [Prod.mk.injEq, Except.ok.injEq] at hs
    obtain ⟨rfl, rfl⟩ := hs
    refine ⟨W, S, rfl, hS, rfl, ?_⟩
    obtain ⟨-, iA, iB, iE, q⟩ := h.squared hsq
    obtain ⟨g1, g2⟩ := fillEs_spec hEs
    have hkeys : (s.ports.zip Ei).map Prod.fst = s.ports := by
      rw [List.map_fst_zip]; omega
    have hpw : ((s.ports.zip Ei).map Prod.fst).Pairwise
        (fun p q => ∀ k, dictGet p s.E = some k → dictGet q s.E ≠ some k) := by
      rw [hkeys, List.pairwise_iff_getElem]
      intro i j hi hj hij k hk hc
      have e1 := q.hE ⟨i, hi⟩
      have e2 := q.hE ⟨j, hj⟩
      simp only [Fin.getElem_fin] at e1 e2
      rw [e1] at hk; rw [e2] at hc
      injection hk with hk; injection hc with hc
      have := q.inj (Fin.ext (hk.trans hc.symm))
      simp only [Fin.mk.injEq] at this
      omega
    have hpnd : s.ports.Nodup := h.rep.pnd
    have hex : Excites s (fun p => Ei.getD (s.ports.idxOf p) 0) (fun i => Es i) := by
      constructor
      · intro p hp
        obtain ⟨j, hj, rfl⟩ := List.getElem_of_mem hp
        have hj' : j < Ei.length := by rw [hEil]; exact hj
        obtain ⟨k, k1, k2, k3⟩ := g2 hpw (s.ports[j], Ei[j])
          (zip_mem (List.getElem?_eq_getElem hj) (List.getElem?_eq_getElem hj'))
        refine ⟨⟨k, by rw [← hsq]; exact k1⟩, k2, ?_⟩
        show Es k = Ei.getD (List.idxOf s.ports[j] s.ports) 0
        rw [k3, hpnd.idxOf_getElem j hj]
        simp [List.getD_eq_getElem?_getD, hj']
      · intro e he
        apply g1
        intro x hx hc
        have : x.1 ∈ s.ports := by
          have := List.mem_map_of_mem (f := Prod.fst) hx
          rw [hkeys] at this; exact this
        exact he x.1 this hc
    obtain ⟨w1, w2⟩ := q.solution h hf hMW hex
    refine ⟨w1, fun i hi => ?_⟩
    have hi' : i < Ei.length := by rw [hEil]; exact hi
    have := w2 s.ports[i] (List.getElem_mem hi)
    rw [hpnd.idxOf_getElem i hi] at this
    rw [List.getElem?_eq_getElem hi']
    simp only [List.getD_eq_getElem?_getD, List.getElem?_eq_getElem hi', Option.getD_some] at this
    rw [← this]
    rfl
  · rw [he] at hs
    simp at hs

/-- the coefficients of the blocks do not notice a new load -/
theorem Filled.reload (h : Rep ops net s) {Sof : String → SMat K} (hf : Filled s.blocks s.rows Sof) {p : Node} {a b e : ℕ}
    (hT : dictGet p s.T = some (a, b, e)) (v : K) : Filled s.blocks (setEntry s.rows e b v) Sof := by
  intro blk hb i j har r hr
  have hTm : (p, (a, b, e)) ∈ s.T := dictGet_mem hT
  have he : s.eqns[e]? = some (.T p) := by
    obtain ⟨x, hx, hx2⟩ := forall₂_mem_right h.rep.tT hTm
    have h3 := hx2.2.2.2.1
    rw [hx2.1] at h3
    exact h3
  have hne : e ≠ i := by
    rintro rfl
    obtain ⟨h1, h2, -⟩ := har
    have := h.rep.eS blk hb (e - blk.loc.1) (by omega)
    rw [show blk.loc.1 + (e - blk.loc.1) = e by omega] at this
    rw [show s.core.eqns = s.eqns from rfl, he] at this
    cases this
  unfold setEntry at hr
  rw [List.getElem?_modify] at hr
  simp only [if_neg hne, id_map'] at hr
  exact hf blk hb i j har r hr

/-- **C30 (after a load was changed).**  The circuit was evaluated, then the load of a loaded port `p` was replaced, then `Solution` is asked at
that frequency.  What it reports is a state of the network with the *new* load, at every node; but the waves that enter the ports (on the circuit's
own reference) are computed from the requested ones with the matrix `S` of the *old* load.  After the call the circuit holds the matrix of the new
load. -/
theorem C30_reloaded [CharZero K] (hlaw : Lawful ops beh) (h : Built ops beh nan zb names net bh s ph) (hzb : zb ≠ 0)
    {f : F} {fl : Fl} (hm : Misses s f fl) {z0 : Option K} {M : SMat K} (hg : getS ops s f z0 fl = (s', .ok M))
    {p : Node} (hp : p ∈ net.loads.map Prod.fst) {args : TermArgs K} {l : Load K} (hl : args.load = some l)
    (ht : terminate s' p args = (s'', .ok ()))
    {E : List (Node × K)} {z : Option K} {s3 : St K O F Fl} {t : List (Node × Quad K)} (hs : solution ops s'' f E z fl = (s3, .ok t)) :
    ∃ S, getS ops s' f (some (z.getD zb)) fl = (s', .ok S) ∧ z.getD zb ≠ 0 ∧
    ∃ Sof, Given (net.load p l) bh f zb fl Sof ∧ ∃ w, (net.load p l).Laws zb Sof w ∧
      (∀ n, dictGet n t = if n ∈ net.nodes then some ((stateOf zb w).quad (z.getD zb) n) else none) ∧
      (∃ Ea : List K, List.Forall₂ (fun p v => dictGet p E = some v) s'.ports Ea ∧
        ∀ i (hi : i < s'.ports.length), w (.inn, s'.ports[i]) =
          onOwn zb (z.getD zb) (Ea.getD i 0) (∑ j : Fin S.n, S.at i j * Ea.getD j 0)) ∧
      ∃ S', getS ops s3 f none fl = (s3, .ok S') ∧ IsScattering ((net.load p l).Laws zb Sof) net.nodes s'.ports S' := by
  have hi := h.inv hlaw
  have hg1 : get1S ops s f fl = recompute ops s f fl := by
    rcases get1S_eq (ops := ops) s f fl with ⟨M0, a, b, c, -⟩ | ⟨-, e⟩
    · rcases hm with hm | hm | hm
      · rw [hm] at a; cases a
      · exact absurd b hm
      · exact absurd c hm
    · exact e
  have hrec : ∃ M, recompute ops s f fl = (s', .ok M) := by
    unfold getS at hg
    rw [hg1] at hg
    cases hx : recompute ops s f fl with
    | mk t q =>
      cases q with
      | error e => simp [hx] at hg
      | ok M' =>
        simp only [hx] at hg
        split at hg
        · injection hg with hg _; exact ⟨M', by rw [hg]⟩
        · split at hg
          all_goals (injection hg with hg _; exact ⟨M', by rw [hg]⟩)
  obtain ⟨M0, hrec⟩ := hrec
  obtain ⟨hi', hq, -⟩ := recompute_spec hlaw hi f fl hrec
  obtain ⟨a1, a2, a3, a4, a5, -, a7, ⟨Sof, hSof⟩, a9⟩ := hq M0 rfl
  have hfill := (a9 Sof hSof).1
  have hrep' : Rep ops net s' := hi'.rep
  have hz' : s'.zbase = zb := hi'.zb
  -- the new load
  obtain ⟨l', hl', hrep''⟩ := rep_terminate hrep' ht
  rw [hl] at hl'
  injection hl' with hl'
  subst hl'
  have hT : ∃ v, dictGet p s'.T = some v := by
    rw [hrep'.rep.loads_keys] at hp
    cases hd : dictGet p s'.T with
    | some v => exact ⟨v, rfl⟩
    | none => exact absurd hp (dictGet_none.1 hd)
  obtain ⟨⟨ia, ib, ie⟩, hT⟩ := hT
  have ht' : ∃ rho, s'' = { s' with rows := setEntry s'.rows ie ib rho, invM := none } := by
    unfold terminate at ht
    cases hr : termRho s'.zbase args with
    | error e => rw [hr] at ht; simp at ht
    | ok rho =>
      rw [hr] at ht
      simp only [hT, Prod.mk.injEq, and_true] at ht
      exact ⟨rho, ht.symm⟩
  obtain ⟨rho, rfl⟩ := ht'
  set s2 : St K O F Fl := { s' with rows := setEntry s'.rows ie ib rho, invM := none } with hs2
  have hfill2 : Filled s2.blocks s2.rows Sof := hfill.reload hrep' hT rho
  have hsq2 : s2.rows.length = s2.cols := by
    show (setEntry s'.rows ie ib rho).length = s'.cols
    unfold setEntry
    rw [List.length_modify]; exact a7
  have hnodes : (net.load p l).nodes = net.nodes := rfl
  have hSof2 : Given (net.load p l) bh f zb fl Sof := hSof
  classical
  have hget : ∀ (u : St K O F Fl), u.S = some M0 → u.f = some f → u.flags = some fl → ∀ z', getS ops u f (some z') fl
      = (u, if z' ≠ 0 ∧ z' ≠ u.zbase then convVV z' u.zbase M0 else .ok M0) := by
    intro u h1 h2 h3 z'
    unfold getS get1S
    simp only [h1, h2, h3, and_self, if_true]
    split <;> rfl
  set zz := z.getD zb with hzz
  have hz2 : s2.zbase = zb := hz'
  unfold solution at hs
  rw [hz2] at hs
  cases hsol : solve ops s2 f E z fl with
  | mk s4 r4 =>
    rw [hsol] at hs
    cases r4 with
    | error e => simp at hs
    | ok sol =>
      simp only at hs
      unfold solve at hsol
      simp only [hz2] at hsol
      cases hEa : mapE (dictIndex E) s2.ports with
      | error e => rw [hEa] at hsol; simp at hsol
      | ok Ea =>
        rw [hEa, hget s2 a1 a2 a3] at hsol
        simp only [hz2] at hsol
        generalize hS : (if zz ≠ 0 ∧ zz ≠ zb then convVV zz zb M0 else .ok M0) = rS at hsol
        cases rS with
        | error e => simp at hsol
        | ok S =>
          simp only at hsol
          cases hEb : applyS S Ea with
          | error e => rw [hEb] at hsol; simp at hsol
          | ok Eb =>
            rw [hEb] at hsol
            simp only at hsol
            by_cases hz : zz = 0
            · rw [if_pos (show z.getD zb = 0 from hz)] at hsol; simp at hsol
            rw [if_neg (show ¬ z.getD zb = 0 from hz)] at hsol
            rw [hz2] at hsol
            set Ei := (Ea.zip Eb).map fun x => onOwn zb zz x.1 x.2 with hEi
            cases hEs : fillEs s2.E s2.rows.length (s2.ports.zip Ei) (fun _ => 0) with
            | error e => rw [hEs] at hsol; simp at hsol
            | ok Es =>
              rw [hEs] at hsol
              simp only at hsol
              rw [mapE_eq_ok] at hEa
              have hEal : Ea.length = s'.ports.length := hEa.length_eq.symm
              unfold applyS at hEb
              by_cases hSn : S.n = Ea.length
              · rw [if_pos hSn] at hEb
                injection hEb with hEb
                have hEbl : Eb.length = Ea.length := by rw [← hEb]; simp [hSn]
                have hEil : Ei.length = s2.ports.length := by
                  rw [hEi]; simp only [List.length_map, List.length_zip, hEbl, min_self]; exact hEal
                obtain ⟨W, S', rfl, hS', hn, hw1, hw2⟩ := applyInv_fresh hrep'' hsq2 a4 hfill2 rfl hEil hEs hsol
                rw [hz2] at hS' hw1
                have hrep4 : Rep ops (net.load p l) { s2 with invM := some ⟨s2.cols, W⟩, S := some S' } :=
                  ⟨hrep''.rep, hrep''.wlen, hrep''.bnode⟩
                obtain ⟨q, hq1, hq2⟩ := table_spec hrep4 (by rw [show ({ s2 with invM := some ⟨s2.cols, W⟩, S := some S' } : St K O F Fl).zbase = zb from hz2]; exact hzb) zz hn
                rw [hq1] at hs
                simp only [Prod.mk.injEq, Except.ok.injEq] at hs
                obtain ⟨rfl, rfl⟩ := hs
                refine ⟨S, ?_, hz, Sof, hSof2, _, hw1, ?_, ⟨Ea, ?_, ?_⟩, S', ?_, hS'⟩
                · rw [hget s' a1 a2 a3, hz', hS]
                · intro n
                  rw [hq2 n]
                  rw [show ({ s2 with invM := some ⟨s2.cols, W⟩, S := some S' } : St K O F Fl).zbase = zb from hz2]
                  rfl
                · exact hEa.imp fun _ _ hx => dictIndex_eq_ok.1 hx
                · intro i hii
                  have := hw2 i hii
                  have hiEa : i < Ea.length := by rw [hEal]; exact hii
                  rw [hEi, List.getElem?_map] at this
                  have hzip : (Ea.zip Eb)[i]? = some (Ea.getD i 0, ∑ j : Fin S.n, S.at i j * Ea.getD j 0) := by
                    rw [List.getElem?_zip_eq_some]
                    refine ⟨by simp [List.getD_eq_getElem?_getD, hiEa], ?_⟩
                    rw [← hEb, List.getElem?_map, List.getElem?_range (by rw [hSn]; exact hiEa)]
                    rfl
                  rw [hzip] at this
                  simp only [Option.map_some, Option.some.injEq] at this
                  exact this.symm
                · unfold getS get1S
                  simp only [show s2.f = some f from a2, show s2.flags = some fl from a3, and_self, if_true]
              · rw [if_neg hSn] at hEb; cases hEb

theorem onOwn_self {zb a b : K} [CharZero K] (hzb : zb ≠ 0) : onOwn zb zb a b = a := by
  have two : (2 : K) ≠ 0 := two_ne_zero
  unfold onOwn
  field_simp
  ring

theorem inn_eq_onOwn [CharZero K] {zz : K} (hzb : zb ≠ 0) (hz : zz ≠ 0) (w : Wave → K) (n : Node) :
    w (.inn, n) = onOwn zb zz ((stateOf zb w).fwd zz n) ((stateOf zb w).rev zz n) := by
  have two : (2 : K) ≠ 0 := two_ne_zero
  unfold onOwn Field.State.fwd Field.State.rev stateOf volt curr
  field_simp
  ring

/-- **C30 (after a load was changed, own reference).**  Asked on the circuit's own reference impedance (the default) `Solution` is right also then:
the state of the network with the new load, the requested waves entering the named ports. -/
theorem C30_reloaded_own [CharZero K] (hlaw : Lawful ops beh) (h : Built ops beh nan zb names net bh s ph) (hzb : zb ≠ 0)
    {f : F} {fl : Fl} (hm : Misses s f fl) {z0 : Option K} {M : SMat K} (hg : getS ops s f z0 fl = (s', .ok M))
    {p : Node} (hp : p ∈ net.loads.map Prod.fst) {args : TermArgs K} {l : Load K} (hl : args.load = some l)
    (ht : terminate s' p args = (s'', .ok ()))
    {E : List (Node × K)} {z : Option K} (hz : z.getD zb = zb) {s3 : St K O F Fl} {t : List (Node × Quad K)}
    (hs : solution ops s'' f E z fl = (s3, .ok t)) :
    ∃ Sof, Given (net.load p l) bh f zb fl Sof ∧ ∃ w, (net.load p l).Laws zb Sof w ∧
      (∀ q ∈ net.free, dictGet q E = some ((stateOf zb w).fwd zb q)) ∧
      ∀ n, dictGet n t = if n ∈ net.nodes then some ((stateOf zb w).quad zb n) else none := by
  obtain ⟨S, hS, -, Sof, h1, w, h2, h3, ⟨Ea, hEa, h4⟩, -⟩ := C30_reloaded hlaw h hzb hm hg hp hl ht hs
  rw [hz] at h3 h4
  refine ⟨Sof, h1, w, h2, fun q hq => ?_, h3⟩
  have hq' : q ∈ s'.ports := ((Built.eval h hg).inv hlaw).rep.ports_perm.mem_iff.2 hq
  obtain ⟨i, hi, rfl⟩ := List.getElem_of_mem hq'
  have hi' : i < Ea.length := by rw [← hEa.length_eq]; exact hi
  have e1 := (List.forall₂_iff_get.1 hEa).2 i hi hi'
  simp only [List.get_eq_getElem] at e1
  have e2 := h4 i hi
  rw [onOwn_self hzb] at e2
  have e3 := inn_eq_onOwn hzb hzb w s'.ports[i]
  rw [onOwn_self hzb] at e3
  rw [e1, ← e3, e2]
  simp [List.getD_eq_getElem?_getD, hi']

/-- **C30 is violated** after a load was changed, on another reference impedance: let `S` be the matrix the circuit still returns and `S'` any matrix
that relates the waves of the network with the new load.  If they reflect the requested waves differently, `Solution` reports a state in which
some port is entered by another wave than the one requested.  For every circuit, port, load, reference and excitation. -/
theorem C30_reloaded_wrong [CharZero K] (hlaw : Lawful ops beh) (h : Built ops beh nan zb names net bh s ph) (hzb : zb ≠ 0)
    {f : F} {fl : Fl} (hm : Misses s f fl) {z0 : Option K} {M : SMat K} (hg : getS ops s f z0 fl = (s', .ok M))
    {p : Node} (hp : p ∈ net.loads.map Prod.fst) {args : TermArgs K} {l : Load K} (hl : args.load = some l)
    (ht : terminate s' p args = (s'', .ok ()))
    {E : List (Node × K)} {z : Option K} (hz : z.getD zb ≠ zb) {S S' : SMat K}
    (hS : getS ops s'' f (some (z.getD zb)) fl = (s'', .ok S))
    (hS' : ∀ Sof w, Given (net.load p l) bh f zb fl Sof → (net.load p l).Laws zb Sof w → ∀ i (hi : i < s'.ports.length),
      (stateOf zb w).rev (z.getD zb) s'.ports[i] = ∑ j : Fin s'.ports.length, S'.at i j * (stateOf zb w).fwd (z.getD zb) s'.ports[j])
    {i : ℕ} (hi : i < s'.ports.length) (hSn : S.n = s'.ports.length)
    (hdiff : ∑ j : Fin s'.ports.length, S.at i j * (dictGet s'.ports[j] E).getD 0 ≠
      ∑ j : Fin s'.ports.length, S'.at i j * (dictGet s'.ports[j] E).getD 0)
    {s3 : St K O F Fl} {t : List (Node × Quad K)} (hs : solution ops s'' f E z fl = (s3, .ok t)) :
    ∃ q ∈ net.free, ∃ x e, dictGet q t = some x ∧ dictGet q E = some e ∧ x.Vf ≠ e := by
  obtain ⟨S0, hS0, hz0, Sof, h1, w, h2, h3, ⟨Ea, hEa, h4⟩, -⟩ := C30_reloaded hlaw h hzb hm hg hp hl ht hs
  have hi1 := (Built.eval h hg).inv hlaw
  have hT : ∃ v, dictGet p s'.T = some v := by
    rw [hi1.rep.rep.loads_keys] at hp
    cases hd : dictGet p s'.T with
    | some v => exact ⟨v, rfl⟩
    | none => exact absurd hp (dictGet_none.1 hd)
  obtain ⟨⟨ia, ib, ie⟩, hT⟩ := hT
  have ht' : ∃ rho, s'' = { s' with rows := setEntry s'.rows ie ib rho, invM := none } := by
    unfold terminate at ht
    cases hr : termRho s'.zbase args with
    | error e => rw [hr] at ht; simp at ht
    | ok rho =>
      rw [hr] at ht
      simp only [hT, Prod.mk.injEq, and_true] at ht
      exact ⟨rho, ht.symm⟩
  have hSS : S0 = S := by
    obtain ⟨rho, rfl⟩ := ht'
    obtain ⟨M0, m1, m2, m3⟩ : ∃ M0, s'.S = some M0 ∧ s'.f = some f ∧ s'.flags = some fl := by
      have hst := getS_state hg
      rcases get1S_eq (ops := ops) s f fl with ⟨M', e1, e2, e3, e4⟩ | ⟨_, e2⟩
      · rw [e4] at hst
        simp only at hst
        subst hst
        exact ⟨M', e1, e2, e3⟩
      · cases hr : recompute ops s f fl with
        | mk s1 r1 =>
          rw [e2, hr] at hst
          simp only at hst
          subst hst
          cases r1 with
          | error e => unfold getS at hg; rw [e2, hr] at hg; simp at hg
          | ok M' =>
            obtain ⟨_, q2, _⟩ := recompute_spec hlaw (h.inv hlaw) f fl hr
            obtain ⟨a1, a2, a3, _⟩ := q2 M' rfl
            exact ⟨M', a1, a2, a3⟩
    unfold getS get1S at hS hS0
    simp only [m1, m2, m3, and_self, if_true] at hS hS0
    classical
    by_cases hc : z.getD zb ≠ 0 ∧ z.getD zb ≠ s'.zbase
    · rw [if_pos hc] at hS hS0
      simp only [Prod.mk.injEq, true_and] at hS hS0
      rw [hS0] at hS
      injection hS
    · rw [if_neg hc] at hS hS0
      simp only [Prod.mk.injEq, true_and, Except.ok.injEq] at hS hS0
      rw [← hS, ← hS0]
  subst hSS
  by_contra hcon
  push Not at hcon
  have hEal : s'.ports.length = Ea.length := hEa.length_eq
  have hfwd : ∀ j (hj : j < s'.ports.length), dictGet s'.ports[j] E = some (Ea.getD j 0) ∧ (stateOf zb w).fwd (z.getD zb) s'.ports[j] = Ea.getD j 0 := by
    intro j hj
    have hj' : j < Ea.length := hEal ▸ hj
    have e1 := (List.forall₂_iff_get.1 hEa).2 j hj hj'
    simp only [List.get_eq_getElem] at e1
    have e0 : Ea.getD j 0 = Ea[j] := by simp [List.getD_eq_getElem?_getD, hj']
    rw [e0]
    refine ⟨e1, ?_⟩
    have hf : s'.ports[j] ∈ net.free := hi1.rep.ports_perm.mem_iff.1 (List.getElem_mem hj)
    have hn : s'.ports[j] ∈ net.nodes := ((hi1.rep.rep.pmem _).1 (List.getElem_mem hj)).1
    have := hcon s'.ports[j] hf _ _ (by rw [h3, if_pos hn]) e1
    exact this
  have h5 := h4 i hi
  have h6 := inn_eq_onOwn hzb hz0 w s'.ports[i]
  rw [h5, (hfwd i hi).2, hS' Sof w h1 h2 i hi] at h6
  have e1 : ∑ j : Fin S0.n, S0.at i j * Ea.getD j 0 = ∑ j : Fin s'.ports.length, S0.at i j * (dictGet s'.ports[j] E).getD 0 := by
    have g : ∀ n (hn : n = s'.ports.length), ∑ j : Fin n, S0.at i j * Ea.getD j 0 = ∑ j : Fin s'.ports.length, S0.at i j * (dictGet s'.ports[j] E).getD 0 := by
      rintro n rfl
      refine Finset.sum_congr rfl fun j _ => ?_
      simp only [Fin.getElem_fin]
      rw [(hfwd j j.2).1]; rfl
    exact g _ hSn
  have e2 : ∑ j : Fin s'.ports.length, S'.at i j * (stateOf zb w).fwd (z.getD zb) s'.ports[j] =
      ∑ j : Fin s'.ports.length, S'.at i j * (dictGet s'.ports[j] E).getD 0 := by
    refine Finset.sum_congr rfl fun j _ => ?_
    simp only [Fin.getElem_fin]
    rw [(hfwd j j.2).1, (hfwd j j.2).2]; rfl
  rw [e1, e2] at h6
  apply hdiff
  generalize ∑ j : Fin s'.ports.length, S0.at i j * (dictGet s'.ports[j] E).getD 0 = A at h6
  generalize ∑ j : Fin s'.ports.length, S'.at i j * (dictGet s'.ports[j] E).getD 0 = B at h6
  have two : (2 : K) ≠ 0 := two_ne_zero
  unfold onOwn at h6
  field_simp at h6
  have h7 : (z.getD zb - zb) * (A - B) = 0 := by linear_combination h6
  rcases mul_eq_zero.1 h7 with h8 | h8
  · exact absurd (sub_eq_zero.1 h8) hz
  · exact sub_eq_zero.1 h8

/-- **C30 (after a load was changed: answers).**  `Solution` answers then whenever the network with the new load has a solution, every external port is
given a wave, and the old matrix exists on the reference asked for. -/
theorem C30_reloaded_answers [CharZero K] (hlaw : Lawful ops beh) (h : Built ops beh nan zb names net bh s ph) (hzb : zb ≠ 0)
    {f : F} {fl : Fl} (hm : Misses s f fl) {z0 : Option K} {M : SMat K} (hg : getS ops s f z0 fl = (s', .ok M))
    {p : Node} (hp : p ∈ net.loads.map Prod.fst) {args : TermArgs K} {l : Load K} (hl : args.load = some l)
    (ht : terminate s' p args = (s'', .ok ()))
    {E : List (Node × K)} {z : Option K} (hz : z.getD zb ≠ 0) (hE : ∀ q ∈ net.free, dictGet q E ≠ none)
    {S : SMat K} (hS : getS ops s'' f (some (z.getD zb)) fl = (s'', .ok S))
    {Sof : String → SMat K} (hSof : Given (net.load p l) bh f zb fl Sof)
    (hsolv : Solvable ((net.load p l).Laws zb Sof) net.nodes s'.ports) :
    ∃ s3 t, solution ops s'' f E z fl = (s3, .ok t) := by
  have hi := h.inv hlaw
  have hg1 : get1S ops s f fl = recompute ops s f fl := by
    rcases get1S_eq (ops := ops) s f fl with ⟨M0, a, b, c, -⟩ | ⟨-, e⟩
    · rcases hm with hm | hm | hm
      · rw [hm] at a; cases a
      · exact absurd b hm
      · exact absurd c hm
    · exact e
  have hrec : ∃ M, recompute ops s f fl = (s', .ok M) := by
    unfold getS at hg
    rw [hg1] at hg
    cases hx : recompute ops s f fl with
    | mk t q =>
      cases q with
      | error e => simp [hx] at hg
      | ok M' =>
        simp only [hx] at hg
        split at hg
        · injection hg with hg _; exact ⟨M', by rw [hg]⟩
        · split at hg
          all_goals (injection hg with hg _; exact ⟨M', by rw [hg]⟩)
  obtain ⟨M0, hrec⟩ := hrec
  obtain ⟨hi', hq, -⟩ := recompute_spec hlaw hi f fl hrec
  obtain ⟨a1, a2, a3, a4, a5, -, a7, -, a9⟩ := hq M0 rfl
  obtain ⟨hfill, hM0⟩ := a9 Sof hSof
  have hrep' : Rep ops net s' := hi'.rep
  have hz' : s'.zbase = zb := hi'.zb
  obtain ⟨l', hl', hrep''⟩ := rep_terminate hrep' ht
  rw [hl] at hl'
  injection hl' with hl'
  subst hl'
  have hT : ∃ v, dictGet p s'.T = some v := by
    rw [hrep'.rep.loads_keys] at hp
    cases hd : dictGet p s'.T with
    | some v => exact ⟨v, rfl⟩
    | none => exact absurd hp (dictGet_none.1 hd)
  obtain ⟨⟨ia, ib, ie⟩, hT⟩ := hT
  have ht' : ∃ rho, s'' = { s' with rows := setEntry s'.rows ie ib rho, invM := none } := by
    unfold terminate at ht
    cases hr : termRho s'.zbase args with
    | error e => rw [hr] at ht; simp at ht
    | ok rho =>
      rw [hr] at ht
      simp only [hT, Prod.mk.injEq, and_true] at ht
      exact ⟨rho, ht.symm⟩
  obtain ⟨rho, rfl⟩ := ht'
  set s2 : St K O F Fl := { s' with rows := setEntry s'.rows ie ib rho, invM := none } with hs2
  have hfill2 : Filled s2.blocks s2.rows Sof := hfill.reload hrep' hT rho
  have hsq2 : s2.rows.length = s2.cols := by
    show (setEntry s'.rows ie ib rho).length = s'.cols
    unfold setEntry
    rw [List.length_modify]; exact a7
  have hz2 : s2.zbase = zb := hz'
  have hSn : S.n = s2.ports.length := by
    have e : M0.n = s2.ports.length := hM0.size
    unfold getS get1S at hS
    simp only [show s2.S = some M0 from a1, show s2.f = some f from a2, show s2.flags = some fl from a3, and_self, if_true] at hS
    split at hS
    · simp only [Prod.mk.injEq, true_and] at hS
      rw [convVV_n hS, e]
    · simp only [Prod.mk.injEq, true_and, Except.ok.injEq] at hS
      rw [← hS, e]
  have hEa : mapE (dictIndex E) s2.ports = .ok (s2.ports.map fun p => (dictGet p E).getD 0) := by
    apply mapE_ok_of_forall
    intro q hq
    have := hE q (hrep'.ports_perm.mem_iff.1 hq)
    rw [dictIndex_eq_ok]
    cases hd : dictGet q E with
    | none => exact absurd hd this
    | some v => rfl
  have hSt : S.n = (s2.ports.map fun p => (dictGet p E).getD 0).length := by rw [hSn]; simp
  obtain ⟨-, iA, iB, iE, q⟩ := hrep''.squared hsq2
  set Ea := s2.ports.map fun p => (dictGet p E).getD 0 with hEad
  set Eb := (List.range S.n).map fun i => ∑ j : Fin S.n, S.at i j * Ea.getD j 0 with hEbd
  obtain ⟨Es, hEs⟩ : ∃ Es, fillEs s2.E s2.rows.length
      (s2.ports.zip ((Ea.zip Eb).map fun x => onOwn s2.zbase (z.getD zb) x.1 x.2)) (fun _ => 0) = .ok Es := by
    apply fillEs_ok
    intro x hx
    have hp : x.1 ∈ s2.ports := (List.of_mem_zip hx).1
    obtain ⟨j, hj, e⟩ := List.getElem_of_mem hp
    refine ⟨iE ⟨j, hj⟩, by rw [hsq2]; exact (iE ⟨j, hj⟩).2, ?_⟩
    rw [← e]; exact q.hE ⟨j, hj⟩
  have hsu : squareUp s2 = (s2, .ok ()) := by unfold squareUp; rw [if_pos hsq2]
  rcases solveE_spec hrep'' hsq2 a4 hfill2 with ⟨W, S', he, -, -⟩ | ⟨-, hc⟩
  · have hsol : solve ops s2 f E z fl = ({ s2 with invM := some ⟨s2.cols, W⟩, S := some S' }, .ok ⟨s2.cols, W.mulVec fun i => Es i⟩) := by
      unfold solve
      simp only [hEa]
      rw [hz2, hS]
      simp only
      unfold applyS
      rw [if_pos hSt]
      simp only
      rw [if_neg (show ¬ z.getD zb = 0 from hz)]
      rw [hEs]
      simp only
      unfold applyInv
      simp only [show s2.invM = none from rfl, extS, hsu, he]
      rw [if_pos hsq2, hz2]
    have hrep4 : Rep ops (net.load p l) { s2 with invM := some ⟨s2.cols, W⟩, S := some S' } := ⟨hrep''.rep, hrep''.wlen, hrep''.bnode⟩
    obtain ⟨q, hq1, -⟩ := table_spec hrep4 (by rw [show ({ s2 with invM := some ⟨s2.cols, W⟩, S := some S' } : St K O F Fl).zbase = zb from hz2]; exact hzb)
      (z.getD zb) (sol := ⟨s2.cols, W.mulVec fun i => Es i⟩) rfl
    unfold solution
    rw [hz2, hsol]
    simp only
    rw [hq1]
    exact ⟨_, _, rfl⟩
  · rw [hz2] at hc
    exact absurd hsolv hc

end

namespace Ex

/-- **C30 is violated**: in the example circuit (evaluate, change the load of `B.2` from 100 to 50 Ohm) a wave 1 on 100 Ohm is requested at `A.1`; the
wave reported there is another one. -/
theorem C30_reloaded_witness : ∃ (t t' : E) (ph : Phase) (tab : List (Node × Quad ℚ)), Built o Imm.beh 0 50 [] net' bh t ph ∧
    solution o t () [(.blk "A" "1", 1)] (some 100) () = (t', .ok tab) ∧
    ∃ x, dictGet (.blk "A" "1") tab = some x ∧ x.Vf ≠ 1 := by
  have hl := imm_lawful ℚ Unit Unit
  obtain ⟨s', M, hs⟩ := (C20_getS_complete hl built (by decide) given (by decide) (Or.inl names)).2 solvable
  have hb1 := Built.eval built hs
  have hi1 := hb1.inv hl
  have hM := (C20_getS_sound hl built (by decide) hs).2 Sof given
  have hports : s'.ports = [.blk "A" "1"] := by
    have h2 := hi1.rep.ports_perm
    rw [free] at h2
    exact List.perm_singleton.1 h2
  have hrho : termRho s'.zbase (.Z (50 : ℚ)) = .ok 0 := by
    have h3 : s'.zbase = 50 := hi1.zb
    simp only [termRho, h3]; norm_num
  have hmem : Node.blk "B" "2" ∈ net.loads.map Prod.fst := by decide
  have hT : ∃ v, dictGet (.blk "B" "2") s'.T = some v := by
    cases hd : dictGet (Node.blk "B" "2") s'.T with
    | some v => exact ⟨v, rfl⟩
    | none =>
      have h4 := hi1.rep.rep.loads_keys
      exact absurd (show Node.blk "B" "2" ∈ s'.T.map Prod.fst by
        have : s'.T.map Prod.fst = net.loads.map Prod.fst := h4.symm
        rw [this]; decide) (dictGet_none.1 hd)
  obtain ⟨v, hv⟩ := hT
  have ht : ∃ t, terminate s' (.blk "B" "2") (.Z 50) = (t, .ok ()) := by
    unfold terminate
    rw [hrho]
    simp only [hv]
    exact ⟨_, rfl⟩
  obtain ⟨t, ht⟩ := ht
  have hb2 := Built.terminate hb1 (l := .Z 50) rfl ht
  have hg := C25_reterminate_stale hl built hs (p := .blk "B" "2") hmem ht
  have hMn : M.n = 1 := by rw [hM.size, hports]; rfl
  have hM00 : M.at 0 0 = 7/60 := by
    obtain ⟨w, h1, h2⟩ := hM.exists_sol fun _ => 1
    have h3 := hM.out w h1 ⟨0, by simp [hports]⟩
    rw [laws_iff] at h1
    obtain ⟨⟨a, b, c, e⟩, e1, e2, e3⟩ := h1
    have h4 := h2 (.blk "A" "1") (by simp [hports])
    have h5 : ∀ (l : List Node), l = [.blk "A" "1"] → ∑ j : Fin l.length, M.at 0 j * w (.inn, l[j]) =
          M.at 0 0 * w (.inn, .blk "A" "1") := by
        rintro l rfl; simp
    have h6 : w (.out, .blk "A" "1") = M.at 0 0 * w (.inn, .blk "A" "1") := by
      rw [← h5 _ hports, ← h3]; simp [hports]
    rw [h4] at h6
    linarith
  -- the old matrix on 100 Ohm
  have hconv : ∃ S, convVV 100 (50 : ℚ) M = .ok S ∧ S.n = 1 ∧ S.at 0 0 = -39/173 := by
    clear hg hs ht hb1 hb2 hM
    obtain ⟨n, m⟩ := M
    simp only at hMn
    subst hMn
    have hm : m 0 0 = 7/60 := by rw [← hM00]; simp [SMat.at]
    unfold convVV
    rw [if_neg (by rintro ⟨h, -⟩; norm_num at h)]
    simp only
    unfold npInv
    rw [if_neg]
    · refine ⟨_, rfl, rfl, ?_⟩
      simp only [SMat.at]
      rw [dif_pos (by decide)]
      simp only [Matrix.mul_apply, Fin.sum_univ_one, Matrix.inv_def, Matrix.det_fin_one, Matrix.adjugate_fin_one, Fin.isValue, Fin.zero_eta, Matrix.smul_apply,
        Matrix.sub_apply, Matrix.add_apply, Matrix.one_apply_eq, smul_eq_mul, hm, Ring.inverse_eq_inv']
      norm_num
    · simp only [Matrix.det_fin_one, Matrix.smul_apply, Matrix.sub_apply, Matrix.add_apply, Matrix.one_apply_eq, smul_eq_mul, hm]
      norm_num
  obtain ⟨S, hconv, hSn, hS00⟩ := hconv
  have htz : t.zbase = 50 := (hb2.inv hl).zb
  have hS : getS o t () (some ((some (100 : ℚ)).getD 50)) () = (t, .ok S) := by
    have hg' := hg
    unfold getS at hg' ⊢
    cases hx : get1S o t () () with
    | mk t1 r =>
      rw [hx] at hg'
      cases r with
      | error e => simp at hg'
      | ok M' =>
        simp only [Prod.mk.injEq, Except.ok.injEq] at hg'
        obtain ⟨rfl, rfl⟩ := hg'
        simp only [Option.getD_some]
        rw [if_pos (by rw [htz]; norm_num), htz, hconv]
  have hsolv : Solvable (net'.Laws 50 Sof) net'.nodes s'.ports := by
    rw [hports]
    constructor
    · intro a
      set α := a (.blk "A" "1") with hα
      refine ⟨fun x =>
        if x = (.inn, .blk "A" "1") then α
        else if x = (.out, .blk "A" "2") ∨ x = (.inn, .blk "B" "1") then α / 2
        else if x = (.out, .blk "B" "2") then 2/3 * (α / 2)
        else if x = (.out, .blk "B" "1") ∨ x = (.inn, .blk "A" "2") then 1/3 * (α / 2)
        else if x = (.out, .blk "A" "1") then 1/2 * (1/3 * (α / 2)) else 0, ?_, ?_⟩
      · rw [laws_iff']; simp; ring
      · simp [hα]
    · intro w w' h h' hi n hn d
      rw [laws_iff'] at h h'
      have hi := hi (.blk "A" "1") (by simp)
      obtain ⟨⟨a, b, c, e⟩, e1, e2, e3⟩ := h
      obtain ⟨⟨a', b', c', e'⟩, e1', e2', e3'⟩ := h'
      simp only [net', Net.load, net, List.mem_cons, List.not_mem_nil, or_false] at hn
      rcases hn with rfl | rfl | rfl | rfl <;> cases d <;> linarith
  have hmiss : Misses s4 () () := Or.inl ((built.all hl).2.1 rfl).2.2
  obtain ⟨t', tab, htab⟩ := C30_reloaded_answers hl built (by norm_num) hmiss hs hmem (l := .Z 50) rfl ht (E := [(.blk "A" "1", (1 : ℚ))])
    (z := some 100) (by norm_num) (by rw [free]; simp [dictGet]) hS given hsolv
  have hdiff := C30_reloaded_wrong hl built (by norm_num) hmiss hs hmem (l := .Z 50) rfl ht (E := [(.blk "A" "1", (1 : ℚ))])
    (z := some 100) (by norm_num) hS (S' := ⟨1, fun _ _ => -9/35⟩) (by
      intro Sf w hSf hw i hi
      have hg' : Given net' bh () 50 () Sof := given
      have hSfe : net'.Laws 50 Sof w := (hSf.laws_congr hg' w).1 hw
      rw [laws_iff'] at hSfe
      obtain ⟨⟨a, b, c, e⟩, e1, e2, e3⟩ := hSfe
      have hgen : ∀ (l : List Node), l = [.blk "A" "1"] → ∀ i (hi : i < l.length), (stateOf 50 w).rev 100 l[i] =
          ∑ j : Fin l.length, (⟨1, fun _ _ => -9/35⟩ : SMat ℚ).at i j * (stateOf 50 w).fwd 100 l[j] := by
        rintro l rfl i hi
        have hi0 : i = 0 := by simpa using hi
        subst hi0
        simp only [List.length_singleton, Fin.sum_univ_one, SMat.at, stateOf, Field.State.rev, Field.State.fwd, volt, curr]
        simp
        linarith
      exact hgen _ hports i hi) (i := 0) (by rw [hports]; decide) (by rw [hSn, hports]; rfl) (by
      have hgen : ∀ (l : List Node), l = [.blk "A" "1"] →
          ∑ j : Fin l.length, S.at 0 j * (dictGet l[j] [(Node.blk "A" "1", (1 : ℚ))]).getD 0 ≠
          ∑ j : Fin l.length, (⟨1, fun _ _ => -9/35⟩ : SMat ℚ).at 0 j * (dictGet l[j] [(Node.blk "A" "1", (1 : ℚ))]).getD 0 := by
        rintro l rfl
        simp [hS00, dictGet]
        simp only [SMat.at]
        norm_num
      exact hgen _ hports) htab
  obtain ⟨q, hq, x, e, h1, h2, h3⟩ := hdiff
  rw [free, List.mem_singleton] at hq
  subst hq
  refine ⟨t, t', _, tab, hb2, htab, x, h1, ?_⟩
  have : e = 1 := by simpa [dictGet] using h2.symm
  rw [← this]; exact h3

end Ex
end PyRFtk.Circuit
