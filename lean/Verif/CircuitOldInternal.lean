import Verif.CircuitOldProps
import Verif.CircuitInternalProps

/-!
# The legacy class `circuit`: `Get_internalSmatrix` (C71)

circuit.py:817-857.  Unlike its successor (rfCircuit.py:1351-1408, C58) the legacy method does not evaluate the circuit first, and inverts whatever
matrix it gets.
-/

set_option linter.unusedSectionVars false

namespace PyRFtk.Circuit.Old

section
variable {K O F Fl : Type*} [Field K] [DecidableEq F] [DecidableEq Fl]

/-! ## model -/

/-- the loop 831-834: one `Solution` for each port; `ps` is what is left of the list the loop started with, the excitation is made from the ports
the circuit has when its turn comes -/
noncomputable def unitSols (ops : ObjOps K O F Fl) (sub : SubSol K O F Fl) (f : F) (z : K) (nodes : List String) (fl : Fl) :
    List Node → OSt K O F Fl → OSt K O F Fl × Except Err (List (List (Node × Quad K)))
  | [], s => (s, .ok [])
  | p :: ps, s => match mapE readDir nodes with                                                           -- 833
    | .error e => (s, .error e)
    | .ok ts => match solution ops sub s f (unitE s.ports p) (some z) (some (ts.map Prod.snd)) fl with    -- 832, 834
      | (s, .error e) => (s, .error e)
      | (s, .ok t) => match unitSols ops sub f z nodes fl ps s with
        | (s, .error e) => (s, .error e)
        | (s, .ok l) => (s, .ok (t :: l))

/-- `Get_internalSmatrix(f, nodes, Zbase)` (circuit.py:817-857); the loop 842-853 is that of the new class (`waveRow`); `np.linalg.inv` (855) refuses
a matrix that is not square, and the one of no nodes. `fl` is the empty flags dict. -/
noncomputable def internalS (ops : ObjOps K O F Fl) (sub : SubSol K O F Fl) (s : OSt K O F Fl) (f : F) (nodes : List String) (z : Option K) (fl : Fl) :
    OSt K O F Fl × Except Err (SMat K) :=
  match unitSols ops sub f (z.getD s.zbase) nodes fl s.ports s with                                       -- 821, 830-834
  | (s, .error e) => (s, .error e)
  | (s, .ok sols) => match mapE (waveRow sols) nodes with                                                 -- 842-853
    | .error e => (s, .error e)
    | .ok rows =>
      if nodes = [] then (s, .error .linAlg) else                                                         -- 855
      let A : Matrix (Fin nodes.length) (Fin sols.length) K := fun i j => entry rows Prod.fst i j
      let B : Matrix (Fin nodes.length) (Fin sols.length) K := fun i j => entry rows Prod.snd i j
      if h : nodes.length = sols.length then
        match npInv (A.submatrix id (Fin.cast h)) with
        | .error e => (s, .error e)
        | .ok W => (s, .ok ⟨nodes.length, B.submatrix id (Fin.cast h) * W⟩)
      else (s, .error .linAlg)

/-! ## the same solutions as the new class -/

variable {ops : ObjOps K O F Fl} {beh : O → F → K → Fl → Except Err (SMat K)} {sub : SubSol K O F Fl} {ins : Insides K O F Fl}
variable {nan zb : K} {names : List Node} {net : Net K} {bh : Behave K F Fl} {s s' : St K O F Fl} {o : OSt K O F Fl} {ph : Phase}

theorem solution_built [CharZero K] (hlaw : Lawful ops beh) (hk : Keeps ops beh sub) (hb : Built ops beh nan zb names net bh s ph) (hph : ph ≠ .reloaded)
    (f : F) (E : List (Node × K)) (z : Option K) (n : Option (List String)) (fl : Fl) :
    ∃ ph', Built ops beh nan zb names net bh (solutionAll ops sub s f E z n fl).1 ph' ∧ ph' ≠ .reloaded := by
  obtain ⟨bs, h4, h5⟩ := solution_state (sub := sub) hk s f E z n fl
  have hb' : ∃ ph', ph' ≠ Phase.reloaded ∧ Built ops beh nan zb names net bh (Circuit.solve ops s f E z fl).1 ph' := by
    rcases solve_state hlaw hb hph f E z fl with h3 | h3
    · rw [h3]; exact ⟨ph, hph, hb⟩
    · have hb' := Built.eval hb (show Circuit.getS ops s f (some (z.getD s.zbase)) fl = ((Circuit.getS ops s f (some (z.getD s.zbase)) fl).1,
        (Circuit.getS ops s f (some (z.getD s.zbase)) fl).2) from rfl)
      rw [afterEval_of_ne hph] at hb'
      rw [h3]; exact ⟨_, by simp, hb'⟩
  obtain ⟨ph', hne, hb'⟩ := hb'
  rw [h4]
  exact ⟨ph', Built.used hb' h5, hne⟩

theorem built_ports_ne (hlaw : Lawful ops beh) [CharZero K] (hb : Built ops beh nan zb names net bh s ph) (hf : net.free ≠ []) : s.ports ≠ [] := by
  intro h
  have := (hb.inv hlaw).rep.ports_perm
  rw [h] at this
  exact hf this.symm.eq_nil

theorem unitSols_old [CharZero K] (hlaw : Lawful ops beh) (hk : Keeps ops beh sub) (hf : net.free ≠ []) (f : F) (z : K) (nodes : List String) (fl : Fl) :
    ∀ (ps : List Node) {s : St K O F Fl} {o : OSt K O F Fl} {ph : Phase}, Built ops beh nan zb names net bh s ph → ph ≠ .reloaded → Sim s o →
    (unitSols ops sub f z nodes fl ps o).2 = (Circuit.unitSols ops sub f z nodes fl ps s).2
  | [], _, _, _, _, _, _ => rfl
  | p :: ps, s, o, ph, hb, hph, hs => by
    have hpo : o.ports = s.ports := by obtain ⟨i, rfl, -⟩ := hs; rfl
    unfold unitSols Circuit.unitSols
    cases mapE readDir nodes with
    | error e => rfl
    | ok ts =>
      simp only
      rw [hpo]
      obtain ⟨h1, h2⟩ := solution_old (sub := sub) hlaw (hb.inv hlaw) (built_ports_ne hlaw hb hf) hs f (unitE s.ports p) (some z) (ts.map Prod.snd) fl
      obtain ⟨ph', hb', hph'⟩ := solution_built hlaw hk hb hph f (unitE s.ports p) (some z) (some (ts.map Prod.snd)) fl
      cases hx : solutionAll ops sub s f (unitE s.ports p) (some z) (some (ts.map Prod.snd)) fl with
      | mk t q =>
        cases hy : solution ops sub o f (unitE s.ports p) (some z) (some (ts.map Prod.snd)) fl with
        | mk t' q' =>
          rw [hx, hy] at h1 h2
          rw [hx] at hb'
          simp only at h1 h2
          subst h2
          cases q' with
          | error e => rfl
          | ok l =>
            simp only
            have ih := unitSols_old hlaw hk hf f z nodes fl ps hb' hph' h1
            cases hx : Circuit.unitSols ops sub f z nodes fl ps t with
            | mk u v =>
              cases hy : unitSols ops sub f z nodes fl ps t' with
              | mk u' v' =>
                rw [hx, hy] at ih
                simp only at ih
                subst ih
                cases v' <;> rfl

/-! ## the first solution -/

theorem getS_none_state {f : F} {fl : Fl} {M : SMat K} (h : Circuit.getS ops s f none fl = (s', .ok M)) : Circuit.get1S ops s f fl = (s', .ok M) := by
  unfold Circuit.getS at h
  cases hg : Circuit.get1S ops s f fl with
  | mk t r =>
    rw [hg] at h
    cases r with
    | error e => simp at h
    | ok M' => simpa using h

theorem get1S_again (hlaw : Lawful ops beh) [CharZero K] (hb : Built ops beh nan zb names net bh s ph) {f : F} {fl : Fl} {M : SMat K}
    (h : Circuit.get1S ops s f fl = (s', .ok M)) : Circuit.get1S ops s' f fl = (s', .ok M) := by
  have key : s'.S = some M ∧ s'.f = some f ∧ s'.flags = some fl := by
    rcases get1S_eq (ops := ops) s f fl with ⟨M', e1, e2, e3, e4⟩ | ⟨e1, e2⟩
    · rw [e4] at h
      simp only [Prod.mk.injEq, Except.ok.injEq] at h
      obtain ⟨rfl, rfl⟩ := h
      exact ⟨e1, e2, e3⟩
    · rw [e2] at h
      obtain ⟨-, b, -⟩ := recompute_spec hlaw (hb.inv hlaw) f fl h
      obtain ⟨k1, k2, k3, -⟩ := b M rfl
      exact ⟨k1, k2, k3⟩
  unfold Circuit.get1S
  rw [key.1]
  simp only
  rw [if_pos ⟨key.2.1, key.2.2⟩]

/-- solving a circuit that was not evaluated yet: the excitations are read in the order the ports have before the evaluation, and used in the order
they have after it -/
theorem solve_first [CharZero K] (hlaw : Lawful ops beh) (hb : Built ops beh nan zb names net bh s ph) {f : F} {fl : Fl} {M : SMat K}
    (h : Circuit.getS ops s f none fl = (s', .ok M)) {E E' : List (Node × K)} {Ea : List K} (hE : mapE (dictIndex E) s.ports = .ok Ea)
    (hE' : mapE (dictIndex E') s'.ports = .ok Ea) (z : K) :
    Circuit.solve ops s f E (some z) fl = Circuit.solve ops s' f E' (some z) fl := by
  have h1 := getS_none_state h
  have h2 := get1S_again hlaw hb h1
  have h3 : Circuit.getS ops s f (some z) fl = Circuit.getS ops s' f (some z) fl := by
    unfold Circuit.getS
    rw [h1, h2]
  unfold Circuit.solve
  simp only [hE, hE', Option.getD_some, h3]

theorem unitE_mapE [CharZero K] {p : Node} {l : List Node} (h : (p :: l).Nodup) : mapE (dictIndex (unitE (K := K) (p :: l) p)) (p :: l) = .ok (1 :: List.replicate l.length 0) := by
  rw [mapE_ok_of_forall (h := fun q => if q = p then 1 else 0)]
  · congr 1
    rw [List.map_cons, if_pos rfl]
    congr 1
    rw [List.eq_replicate_iff]
    refine ⟨by simp, fun x hx => ?_⟩
    obtain ⟨q, hq, rfl⟩ := List.mem_map.1 hx
    rw [if_neg]
    rintro rfl
    exact (List.nodup_cons.1 h).1 hq
  · intro q hq
    unfold dictIndex
    rw [unitE_get hq]

/-- the loop over the ports, started on a circuit that was not evaluated: the first solution is that of the first port after the evaluation -/
theorem unitSols_first [CharZero K] (hlaw : Lawful ops beh) (hb : Built ops beh nan zb names net bh s ph) {f : F} {fl : Fl} {M : SMat K}
    (h : Circuit.getS ops s f none fl = (s', .ok M)) {p q : Node} {ps qs : List Node} (hp : s.ports = p :: ps) (hq : s'.ports = q :: qs)
    (z : K) (nodes : List String) (rs : List Node) :
    Circuit.unitSols ops sub f z nodes fl (p :: rs) s = Circuit.unitSols ops sub f z nodes fl (q :: rs) s' ∨
      ∃ e, mapE readDir nodes = .error e := by
  cases hr : mapE readDir nodes with
  | error e => exact Or.inr ⟨e, rfl⟩
  | ok ts =>
    left
    unfold Circuit.unitSols
    simp only [hr]
    have hlen : ps.length = qs.length := by
      have := getS_ports_length hlaw hb h
      rw [hp, hq] at this
      simpa using this.symm
    have hi := hb.inv hlaw
    have hi' := (Built.eval hb h).inv hlaw
    have e1 : mapE (dictIndex (unitE (K := K) s.ports p)) s.ports = .ok (1 :: List.replicate ps.length 0) := by
      have : s.ports.Nodup := hi.rep.rep.pnd
      rw [hp] at this ⊢
      exact unitE_mapE this
    have e2 : mapE (dictIndex (unitE (K := K) s'.ports q)) s'.ports = .ok (1 :: List.replicate ps.length 0) := by
      have : s'.ports.Nodup := hi'.rep.rep.pnd
      rw [hq] at this ⊢
      rw [hlen]
      exact unitE_mapE this
    have e3 : solutionAll ops sub s f (unitE s.ports p) (some z) (some (ts.map Prod.snd)) fl =
        solutionAll ops sub s' f (unitE s'.ports q) (some z) (some (ts.map Prod.snd)) fl := by
      unfold solutionAll Circuit.solution
      simp only [solve_first hlaw hb h e1 e2 z, Option.getD_some]
    rw [e3]

theorem unitSols_length (f : F) (z : K) (nodes : List String) (fl : Fl) : ∀ (ps : List Node) {s s' : St K O F Fl} {l : List (List (Node × Quad K))},
    Circuit.unitSols ops sub f z nodes fl ps s = (s', .ok l) → l.length = ps.length
  | [], s, s', l, h => by
    simp only [Circuit.unitSols, Prod.mk.injEq, Except.ok.injEq] at h
    rw [← h.2]; rfl
  | p :: ps, s, s', l, h => by
    unfold Circuit.unitSols at h
    split at h
    · simp at h
    · split at h
      · simp at h
      · split at h
        · simp at h
        · rename_i hx
          simp only [Prod.mk.injEq, Except.ok.injEq] at h
          rw [← h.2, List.length_cons, unitSols_length f z nodes fl ps hx]; rfl

/-! ## the answers -/

theorem readDir_answers {nodes : List String} (h : "" ∉ nodes) : ∃ ts, mapE readDir nodes = .ok ts := by
  refine mapE_answers fun n hm => ?_
  unfold readDir
  cases hn : n.toList with
  | nil => exact absurd (String.toList_eq_nil_iff.1 hn) (fun e => h (e ▸ hm))
  | cons a l => exact ⟨_, rfl⟩

/-- the first solution of a circuit that cannot be evaluated -/
theorem unitSols_error [CharZero K] {f : F} {fl : Fl} {e : Err}
    (h : (Circuit.getS ops s f none fl).2 = .error e) {p : Node} (rs : List Node) {nodes : List String} (hn : "" ∉ nodes) (z : K) :
    (Circuit.unitSols ops sub f z nodes fl (p :: rs) s).2 = .error e := by
  obtain ⟨ts, hts⟩ := readDir_answers hn
  have h1 : (Circuit.get1S ops s f fl).2 = .error e := by
    unfold Circuit.getS at h
    cases hg : Circuit.get1S ops s f fl with
    | mk t r =>
      rw [hg] at h
      cases r with
      | error e => simpa using h
      | ok M => simp at h
  have h2 : (Circuit.getS ops s f (some z) fl) = ((Circuit.get1S ops s f fl).1, .error e) := by
    unfold Circuit.getS
    rw [show Circuit.get1S ops s f fl = ((Circuit.get1S ops s f fl).1, .error e) from Prod.ext rfl h1]
  obtain ⟨Ea, hE⟩ : ∃ Ea, mapE (dictIndex (unitE (K := K) s.ports p)) s.ports = .ok Ea := by
    refine mapE_answers fun q hq => ?_
    unfold dictIndex
    rw [unitE_get hq]
    exact ⟨_, rfl⟩
  have h3 : Circuit.solve ops s f (unitE s.ports p) (some z) fl = ((Circuit.get1S ops s f fl).1, .error e) := by
    unfold Circuit.solve
    simp only [hE, Option.getD_some, h2]
  unfold Circuit.unitSols
  simp only [hts]
  unfold solutionAll Circuit.solution
  simp only [h3]

/-- C71: asked for the matrix between as many nodes as there are ports, the legacy class answers what `rfCircuit` does, matrix or exception, after any
regular list of calls — provided evaluating the circuit does not change the order of its ports, which is so when no order was asked for or the
circuit was evaluated before (`C71_internal_order`). -/
theorem C71_internal_same [CharZero K] (hlaw : Lawful ops beh) (hk : Keeps ops beh sub) {cs : List (Call K O F Fl)}
    (h : Regular ops sub nan false (St.init zb names) cs) {s : St K O F Fl} {o : OSt K O F Fl} (hs : s = run (stepR ops sub nan) (St.init zb names) cs)
    (ho : o = run (stepO ops sub nan) (OSt.init zb names) cs) (hp : s.ports ≠ []) {f : F} {nodes : List String} {z : Option K} {fl : Fl}
    (hord : (Circuit.getS ops s f none fl).1.ports = s.ports) (hn : "" ∉ nodes) (hlen : nodes.length = s.ports.length)
    (pinv : ∀ {n m : ℕ}, Matrix (Fin n) (Fin m) K → Matrix (Fin m) (Fin n) K) :
    (internalS ops sub o f nodes z fl).2 = (Circuit.internalS ops sub pinv s f nodes z fl).2 := by
  obtain ⟨-, net, bh, ph, hb, hph, hsim⟩ := regular_answers (beh := beh) hlaw hk cs false Net.empty (fun _ _ _ _ => .error .valueError) .building
    (St.init zb names) (OSt.init zb names) (Built.init _) (by simp) (fun _ => ⟨rfl, rfl⟩) ⟨[], rfl, fun _ h => absurd rfl h⟩ h
  rw [← hs] at hb hsim
  rw [← ho] at hsim
  have hfree : net.free ≠ [] := by
    intro e
    have := (hb.inv hlaw).rep.ports_perm
    rw [e] at this
    exact hp this.eq_nil
  have hzp : o.zbase = s.zbase ∧ o.ports = s.ports := by obtain ⟨i, rfl, -⟩ := hsim; exact ⟨rfl, rfl⟩
  have hu := unitSols_old hlaw hk hfree f (z.getD s.zbase) nodes fl s.ports hb hph hsim
  unfold internalS Circuit.internalS
  rw [hzp.1, hzp.2]
  generalize z.getD s.zbase = z at hu ⊢
  obtain ⟨p, ps, hps⟩ := List.exists_cons_of_ne_nil hp
  simp only
  cases hg : Circuit.getS ops s f none fl with
  | mk s1 r1 =>
    cases r1 with
    | error e =>
      simp only
      rw [hps, unitSols_error (by rw [hg]) ps hn z] at hu
      rw [hps]
      cases hy : unitSols ops sub f z nodes fl (p :: ps) o with
      | mk t q =>
        rw [hy] at hu
        simp only at hu
        subst hu
        rfl
    | ok M =>
      simp only
      rw [hg] at hord
      simp only at hord
      rw [hord]
      rw [hps, (unitSols_first hlaw hb hg hps (hord.trans hps) z nodes ps).resolve_right (by
        rintro ⟨e, he⟩
        obtain ⟨ts, hts⟩ := readDir_answers hn
        rw [hts] at he
        cases he)] at hu
      rw [hps]
      cases hx : Circuit.unitSols ops sub f z nodes fl (p :: ps) s1 with
      | mk t q =>
        cases hy : unitSols ops sub f z nodes fl (p :: ps) o with
        | mk t' q' =>
          rw [hx, hy] at hu
          simp only at hu
          subst hu
          cases q' with
          | error e => rfl
          | ok sols =>
            simp only
            have hsl := unitSols_length f z nodes fl _ hx
            rw [← hps, ← hlen] at hsl
            have hne : nodes ≠ [] := by
              rintro rfl
              exact hp (List.length_eq_zero_iff.1 hlen.symm)
            cases mapE (waveRow sols) nodes with
            | error e => rfl
            | ok rows =>
              simp only
              rw [if_neg hne, if_neg hne, dif_pos hsl.symm, dif_pos hsl.symm]
              split <;> (rename_i hW; simp only [hW])

/-- … which is so when no order was asked for, or an evaluation has put the ports in that order (`aliased`) -/
theorem C71_internal_order [CharZero K] (hlaw : Lawful ops beh) (hk : Keeps ops beh sub) {cs : List (Call K O F Fl)}
    (h : Regular ops sub nan false (St.init zb names) cs) {s : St K O F Fl} (hs : s = run (stepR ops sub nan) (St.init zb names) cs)
    (hp : s.ports ≠ []) (f : F) (z : Option K) (fl : Fl) (hn : names = [] ∨ s.aliased = true) : (Circuit.getS ops s f z fl).1.ports = s.ports := by
  obtain ⟨-, net, bh, ph, hb, hph, hsim⟩ := regular_answers (beh := beh) hlaw hk cs false Net.empty (fun _ _ _ _ => .error .valueError) .building
    (St.init zb names) (OSt.init zb names) (Built.init _) (by simp) (fun _ => ⟨rfl, rfl⟩) ⟨[], rfl, fun _ h => absurd rfl h⟩ h
  rw [← hs] at hb
  have hfree : net.free ≠ [] := by
    intro e
    have := (hb.inv hlaw).rep.ports_perm
    rw [e] at this
    exact hp this.eq_nil
  refine C49_labels hlaw hb hph hfree ?_ rfl
  by_cases ha : s.aliased = true
  · exact Or.inr ha
  · left
    unfold St.names
    rw [if_neg ha, (hb.inv hlaw).nm, hn.resolve_right ha]

/-- VIOLATION: the legacy class raises LinAlgError when the number of nodes is not that of the ports (`rfCircuit` answers for fewer nodes), and when it
has never been evaluated and the order of ports asked for begins with another port than the circuit had so far (`rfCircuit` answers). -/
theorem C71_internal_refused [CharZero K] (hlaw : Lawful ops beh) (hv : Solves ops beh sub ins) (hl : Linear ops beh sub ins)
    {cs : List (Call K O F Fl)} (h : Regular ops sub nan false (St.init zb names) cs) {s : St K O F Fl} {o : OSt K O F Fl}
    (hs : s = run (stepR ops sub nan) (St.init zb names) cs) (ho : o = run (stepO ops sub nan) (OSt.init zb names) cs)
    (c : SolCirc ops beh sub) {f : F} {fl : Fl} {S0 : SMat K} (h0 : Circuit.getS ops s f none fl = (c.st, .ok S0)) {z : Option K}
    (hz : z.getD s.zbase ≠ 0) (hr : solReady sub ins c f (z.getD s.zbase) fl) {nodes : List String}
    (hin : ∀ n ∈ nodes, n ≠ "" ∧ (dirOf n).2 ∈ solNodes sub ins c)
    (hbad : nodes.length ≠ s.ports.length ∨ s.ports.head? ≠ c.st.ports.head?) :
    (internalS ops sub o f nodes z fl).2 = .error .linAlg := by
  have hk : Keeps ops beh sub := fun o m hm f E z left fl => ⟨(hv.used o m hm f E z left fl).len, (hv.used o m hm f E z left fl).beh⟩
  obtain ⟨-, net, bh, ph, hb, hph, hsim⟩ := regular_answers (beh := beh) hlaw hk cs false Net.empty (fun _ _ _ _ => .error .valueError) .building
    (St.init zb names) (OSt.init zb names) (Built.init _) (by simp) (fun _ => ⟨rfl, rfl⟩) ⟨[], rfl, fun _ h => absurd rfl h⟩ h
  rw [← hs] at hb hsim
  rw [← ho] at hsim
  have hb1 := Built.eval hb h0
  have hperm : c.st.ports.Perm s.ports := (hb1.inv hlaw).rep.ports_perm.trans (hb.inv hlaw).rep.ports_perm.symm
  have hpnd : s.ports.Nodup := (hb.inv hlaw).rep.rep.pnd
  have hcne : c.st.ports ≠ [] := by
    obtain ⟨nan, names, ph, hb, -, -⟩ := c.built
    exact built_ports_ne hlaw hb c.hfree
  have hp : s.ports ≠ [] := fun e => hcne (by rw [e] at hperm; exact hperm.eq_nil)
  have hfree : net.free ≠ [] := by
    intro e
    have := (hb.inv hlaw).rep.ports_perm
    rw [e] at this
    exact hp this.eq_nil
  have hzp : o.zbase = s.zbase ∧ o.ports = s.ports := by obtain ⟨i, rfl, -⟩ := hsim; exact ⟨rfl, rfl⟩
  have hu := unitSols_old hlaw hk hfree f (z.getD s.zbase) nodes fl s.ports hb hph hsim
  unfold internalS
  rw [hzp.1, hzp.2]
  generalize z.getD s.zbase = z at *
  obtain ⟨p, ps, hps⟩ := List.exists_cons_of_ne_nil hp
  obtain ⟨q, qs, hqs⟩ := List.exists_cons_of_ne_nil hcne
  have hne : "" ∉ nodes := fun e => (hin _ e).1 rfl
  obtain ⟨ts, hts⟩ := readDir_answers hne
  rw [hps, (unitSols_first hlaw hb h0 hps hqs z nodes ps).resolve_right (by rintro ⟨e, he⟩; rw [hts] at he; cases he)] at hu
  obtain ⟨s2, sols, h2⟩ := unitSols_answers hlaw hv c hz hr (fun n hn => (hin n hn).1) (q :: ps) (Next.refl c)
  have hsl := unitSols_length f z nodes fl _ h2
  have hsp := unitSols_spec hlaw hv c hz (Next.refl c) h2
  rw [h2] at hu
  rw [hps]
  cases hy : unitSols ops sub f z nodes fl (p :: ps) o with
  | mk t' q' =>
    rw [hy] at hu
    simp only at hu
    subst hu
    simp only
    have hw : ∃ rows, mapE (waveRow sols) nodes = .ok rows := by
      refine mapE_answers fun n hn => ?_
      unfold waveRow
      have hd : ∃ r, readDir n = .ok r := by
        unfold readDir
        cases h : n.toList with
        | nil => exact absurd (String.toList_eq_nil_iff.1 h) (hin n hn).1
        | cons a l => exact ⟨_, rfl⟩
      obtain ⟨r, hd⟩ := hd
      obtain ⟨r, n'⟩ := r
      have hdir := readDir_ok hd
      simp only [hd]
      refine mapE_answers fun t ht => ?_
      obtain ⟨p, -, -, x, hx⟩ := forall₂_mem_right hsp ht
      obtain ⟨m, hm, hms⟩ := hx.all _ (hin n hn).2 (List.mem_map.2 ⟨n, hn, rfl⟩)
      unfold lookStr
      cases hfd : t.find? fun x => x.1.str = n' with
      | none =>
        exfalso
        rw [List.find?_eq_none] at hfd
        obtain ⟨y, hy, rfl⟩ := List.mem_map.1 hm
        have : (dirOf n).2 = n' := by rw [← hdir]
        exact hfd y hy (by simpa using hms.trans this)
      | some y => exact ⟨_, rfl⟩
    obtain ⟨rows, hrows⟩ := hw
    simp only [hrows]
    by_cases hn0 : nodes = []
    · rw [if_pos hn0]
    rw [if_neg hn0]
    by_cases hlen : nodes.length = sols.length
    swap
    · rw [dif_neg hlen]
    rw [dif_pos hlen]
    have hpq : p ≠ q := by
      rcases hbad with hbad | hbad
      · rw [hps] at hbad
        simp only [List.length_cons] at hbad hsl
        omega
      · rw [hps, hqs] at hbad
        simpa using hbad
    have hqm : q ∈ ps := by
      have : q ∈ s.ports := hperm.mem_iff.1 (by rw [hqs]; simp)
      rw [hps] at this
      exact (List.mem_cons.1 this).resolve_left fun e => hpq e.symm
    obtain ⟨k, hk, hkq⟩ := List.getElem_of_mem hqm
    -- the states of the solutions
    have hx : ∃ xs, List.Forall₂ (fun (pt : Node × List (Node × Quad K)) x => UnitSol sub ins c f fl z nodes pt.1 pt.2 x) ((q :: ps).zip sols) xs := by
      clear hrows h2 hlen hsl hy
      generalize (q :: ps) = l at hsp
      induction hsp with
      | nil => exact ⟨[], .nil⟩
      | cons a _ ih =>
        obtain ⟨xs, hxs⟩ := ih
        exact ⟨a.2.choose :: xs, .cons a.2.choose_spec hxs⟩
    obtain ⟨xs, hx⟩ := hx
    have hxl : xs.length = sols.length := by rw [← hx.length_eq, List.length_zip, hsl, Nat.min_self]
    have hun : ∀ j (hj : j < xs.length), ∃ t, UnitSol sub ins c f fl z nodes ((q :: ps)[j]'(by rw [← hsl, ← hxl]; exact hj)) t xs[j] := by
      intro j hj
      have := (List.forall₂_iff_get.1 hx).2 j (by rw [hx.length_eq]; exact hj) hj
      simp only [List.get_eq_getElem, List.getElem_zip] at this
      exact ⟨_, this⟩
    have hrows' : List.Forall₂ (fun n row => row = xs.map fun x : Inner K => (x.inc z n, x.ref z n)) nodes rows :=
      (mapE_eq_ok.1 hrows).imp fun n row h => (waveRow_spec h hx hsl.symm).1
    have hl0 : 0 < xs.length := by rw [hxl, hsl]; simp
    have hlk : k + 1 < xs.length := by rw [hxl, hsl]; simpa using hk
    obtain ⟨t0, u0⟩ := hun 0 hl0
    obtain ⟨tk, uk⟩ := hun (k + 1) hlk
    simp only [List.getElem_cons_zero] at u0
    simp only [List.getElem_cons_succ, hkq] at uk
    obtain ⟨S, hS⟩ := hr.1
    have hsame := superpose (C30_nested hlaw hv) (sol_linear hlaw hv hl) (o := c) rfl (ps := c.st.ports.map Node.str) rfl (f := f) (fl := fl)
      hz hS (xs := fun _ : Fin 1 => xs[0]) (fun _ => u0.phys) (x := xs[k + 1]) uk.phys (fun _ => 1) (by
        intro r' hr'
        obtain ⟨r, hr2, rfl⟩ := List.mem_map.1 hr'
        simp [u0.ports r hr2, uk.ports r hr2])
    have hcol : ∀ i : Fin nodes.length, xs[k + 1].inc z nodes[i] = xs[0].inc z nodes[i] := by
      intro i
      obtain ⟨e1, e2⟩ := hsame _ (hin nodes[i] (List.getElem_mem _)).2
      simp only [Finset.univ_unique, Finset.sum_const, Finset.card_singleton, one_smul, one_mul] at e1 e2
      unfold Inner.inc Inner.rev Inner.fwd
      rw [e1, e2]
    cases hW : npInv (Matrix.submatrix (fun (i : Fin nodes.length) (j : Fin sols.length) => entry rows Prod.fst i j) id (Fin.cast hlen)) with
    | error e =>
      have : e = .linAlg := by
        unfold npInv at hW
        split at hW
        · injection hW with hW; exact hW.symm
        · cases hW
      rw [this]
    | ok W =>
      exfalso
      have hW := mul_eq_one_comm.1 (npInv_eq_ok.1 hW)
      have j0 : 0 < nodes.length := by rw [hlen, ← hxl]; exact hl0
      have jk : k + 1 < nodes.length := by rw [hlen, ← hxl]; exact hlk
      have e0 := congrFun (congrFun hW ⟨0, j0⟩) ⟨0, j0⟩
      have e1 := congrFun (congrFun hW ⟨0, j0⟩) ⟨k + 1, jk⟩
      rw [Matrix.mul_apply] at e0 e1
      rw [Matrix.one_apply_eq] at e0
      rw [Matrix.one_apply_ne (by simp)] at e1
      refine one_ne_zero (α := K) (e0.symm.trans (Eq.trans ?_ e1))
      refine Finset.sum_congr rfl fun i _ => ?_
      congr 1
      have g0 := entry_spec (g := Prod.fst) hrows' i ⟨0, hl0⟩
      have gk := entry_spec (g := Prod.fst) hrows' i ⟨k + 1, hlk⟩
      exact g0.trans ((hcol i).symm.trans gk.symm)

end
end PyRFtk.Circuit.Old

namespace PyRFtk.Circuit.Ex
open Old

/-- one two-port; the order of ports asked for is not the one of the block -/
noncomputable def intCalls : List (Old.Call ℚ (Imm ℚ Bool Unit) Bool Unit) := [.addblock "A" (Shared.twoB mB) .none 0]

theorem intCalls_regular (names : List Node) : Regular Shared.ob (fun _ => none) 0 false (St.init 50 names) intCalls := by
  unfold intCalls
  simp only [Regular, and_true]
  refine ⟨rfl, Or.inr ⟨by trivial, ?_⟩⟩
  intro l hl
  rw [show resolvePorts Shared.ob (Shared.twoB mB) .none = .ok ["1", "2"] from by decide] at hl
  injection hl with hl
  rw [← hl]; decide

/-- the hypotheses of `C71_internal_refused` are met: `rfCircuit` answers, the legacy class raises LinAlgError -/
theorem C71_internal_witness (pinv : ∀ {n m : ℕ}, Matrix (Fin n) (Fin m) ℚ → Matrix (Fin m) (Fin n) ℚ) :
    (run (stepR Shared.ob (fun _ => none) 0) (St.init 50 Shared.nms) intCalls).ports.head? ≠ Shared.nms.head? ∧
    (∃ S, (Circuit.internalS Shared.ob (fun _ => none) pinv (run (stepR Shared.ob (fun _ => none) 0) (St.init 50 Shared.nms) intCalls) false
      ["A.1", "A.2"] none ()).2 = .ok S) ∧
    (Old.internalS Shared.ob (fun _ => none) (run (stepO Shared.ob (fun _ => none) 0) (OSt.init 50 Shared.nms) intCalls) false
      ["A.1", "A.2"] none ()).2 = .error .linAlg := by
  have hl := imm_lawful ℚ Bool Unit
  have hrun : run (stepR Shared.ob (fun _ => none) 0) (St.init 50 Shared.nms) intCalls = Shared.c1 := rfl
  have hfree : Shared.netB.free ≠ [] := by rw [Shared.freeB]; simp
  have hcomp := C20_getS_complete hl Shared.c1_built (by decide) (Shared.givenB false) hfree (Or.inr (by
    rw [Shared.freeB]; exact List.Perm.swap _ _ _))
  obtain ⟨s', S, hg⟩ := hcomp.2 Shared.solvableB
  have hb := Built.eval Shared.c1_built hg
  rw [afterEval_of_ne (by decide)] at hb
  have hi2 := hb.inv hl
  have hal : s'.aliased = true := by
    obtain ⟨-, q2, -⟩ := recompute_spec hl (Shared.c1_built.inv hl) false () (s' := s') (res := .ok S) (by
      have := getS_none_state hg
      have e : get1S Shared.ob Shared.c1 false () = recompute Shared.ob Shared.c1 false () := rfl
      rw [← e]; exact this)
    exact (q2 S rfl).2.2.2.2.1
  have hports : s'.ports = Shared.nms := by
    have := hi2.ord.2 hal
    rw [hi2.nm, if_neg (by decide)] at this
    refine this.eq_of_length ?_
    rw [hi2.rep.ports_perm.length_eq, Shared.freeB]; rfl
  let c : SolCirc Shared.ob Imm.beh (fun _ => none) := ⟨s', 50, Shared.netB, Shared.bhB, ⟨0, Shared.nms, .evaluated, hb, by decide, Or.inr hal⟩, by norm_num,
    hfree, ⟨by decide, by intro n hn; simp [Shared.netB] at hn⟩, fun b _ h => by cases h⟩
  have hr : solReady (fun _ => none) (leafIns ℚ (Imm ℚ Bool Unit) Bool Unit) c false 50 () := by
    refine ⟨⟨S, ?_⟩, fun b _ h => by cases h⟩
    have h1 := get1S_again hl Shared.c1_built (getS_none_state hg)
    show (getS Shared.ob s' false (some 50) ()).2 = _
    unfold getS
    rw [h1]
    simp only
    rw [if_neg]
    intro hc
    exact hc.2 hi2.zb.symm
  have hin : ∀ n ∈ ["A.1", "A.2"], n ≠ "" ∧ (dirOf n).2 ∈ solNodes (fun _ => none) (leafIns ℚ (Imm ℚ Bool Unit) Bool Unit) c := by
    intro n hn
    simp only [List.mem_cons, List.not_mem_nil, or_false] at hn
    have key : ∀ m ∈ ["A.1", "A.2"], m ∈ solNodes (fun _ => none) (leafIns ℚ (Imm ℚ Bool Unit) Bool Unit) c := by
      intro m hm
      unfold solNodes
      refine List.mem_append_left _ ?_
      show m ∈ Shared.netB.nodes.map Node.str
      have e : Shared.netB.nodes.map Node.str = ["A.1", "A.2"] := by decide
      rw [e]; exact hm
    rcases hn with rfl | rfl
    · refine ⟨by decide, ?_⟩
      rw [show dirOf "A.1" = (false, "A.1") from by decide]
      exact key _ (by simp)
    · refine ⟨by decide, ?_⟩
      rw [show dirOf "A.2" = (false, "A.2") from by decide]
      exact key _ (by simp)
  have hz : (none : Option ℚ).getD Shared.c1.zbase = 50 := rfl
  rw [hrun]
  refine ⟨by decide, ?_, ?_⟩
  · have h := (C58_answers hl (leaf_solves hl) leaf_linear c hg (z := none) (by rw [hz]; norm_num) (by rw [hz]; exact hr) (by simp) hin pinv).1 (by
      show 2 = Shared.netB.free.length
      rw [Shared.freeB]; rfl)
    refine h.1 fun v => ?_
    obtain ⟨w, w1, w2⟩ := Shared.solvableB.exists_sol fun p => if p = .blk "A" "1" then v 0 else v 1
    have e1 := w2 (.blk "A" "1") (by rw [Shared.freeB]; simp)
    have e2 := w2 (.blk "A" "2") (by rw [Shared.freeB]; simp)
    let nd : String → Node := fun n => if n = "A.1" then .blk "A" "1" else .blk "A" "2"
    refine ⟨⟨fun n => volt w (nd n), fun n => curr w (nd n) / 50⟩, ⟨Shared.SofB, w, Shared.givenB false, w1, ?_, fun b _ h => by cases h⟩, ?_⟩
    · intro n hn
      have hn : n ∈ [Node.blk "A" "1", Node.blk "A" "2"] := hn
      simp only [List.mem_cons, List.not_mem_nil, or_false] at hn
      have k1 : nd (Node.blk "A" "1").str = .blk "A" "1" := by decide
      have k2 : nd (Node.blk "A" "2").str = .blk "A" "2" := by decide
      rcases hn with rfl | rfl
      · simp only [k1]; exact ⟨by trivial, by trivial⟩
      · simp only [k2]; exact ⟨by trivial, by trivial⟩
    · rw [hz]
      have d1 : dirOf "A.1" = (false, "A.1") := by decide
      have d2 : dirOf "A.2" = (false, "A.2") := by decide
      have k1 : nd "A.1" = .blk "A" "1" := by decide
      have k2 : nd "A.2" = .blk "A" "2" := by decide
      intro i
      fin_cases i
      · simp only [Inner.inc, Inner.fwd]
        show (if (dirOf "A.1").1 = true then _ else _) = v 0
        rw [d1]
        simp only [Bool.false_eq_true, if_false]
        show (volt w (nd "A.1") + 50 * (curr w (nd "A.1") / 50)) / 2 = _
        rw [k1]
        simp only [volt, curr]
        rw [if_pos rfl] at e1
        rw [e1]; ring
      · simp only [Inner.inc, Inner.fwd]
        show (if (dirOf "A.2").1 = true then _ else _) = v 1
        rw [d2]
        simp only [Bool.false_eq_true, if_false]
        show (volt w (nd "A.2") + 50 * (curr w (nd "A.2") / 50)) / 2 = _
        rw [k2]
        simp only [volt, curr]
        rw [if_neg (by decide)] at e2
        rw [e2]; ring
  · exact C71_internal_refused hl (leaf_solves hl) leaf_linear (intCalls_regular Shared.nms) rfl rfl c (f := false) (fl := ()) (S0 := S) hg
      (by rw [hrun, hz]; norm_num) (by rw [hrun, hz]; exact hr) hin (Or.inr (by
        rw [hrun]
        show Shared.c1.ports.head? ≠ s'.ports.head?
        rw [hports]; decide))

/-- the hypotheses of `C71_internal_same` are met by the same circuit when no order of ports is asked for -/
theorem C71_internal_same_witness : Regular Shared.ob (fun _ => none) 0 false (St.init 50 []) intCalls ∧
    (run (stepR Shared.ob (fun _ => none) 0) (St.init 50 []) intCalls).ports = [.blk "A" "1", .blk "A" "2"] ∧
    (getS Shared.ob (run (stepR Shared.ob (fun _ => none) 0) (St.init 50 []) intCalls) false none ()).1.ports = [.blk "A" "1", .blk "A" "2"] := by
  have hl := imm_lawful ℚ Bool Unit
  have hk : Keeps Shared.ob Imm.beh (fun _ => none) := fun o m h => by cases h
  have hp : (run (stepR Shared.ob (fun _ => none) 0) (St.init 50 []) intCalls).ports = [.blk "A" "1", .blk "A" "2"] := rfl
  refine ⟨intCalls_regular [], hp, ?_⟩
  rw [C71_internal_order hl hk (intCalls_regular []) rfl (by rw [hp]; simp) false none () (Or.inl rfl), hp]

end PyRFtk.Circuit.Ex
