import Verif.CircuitSolution

/-!
# `Solution` reports the state of the network (C30)
-/

set_option linter.unusedSectionVars false

namespace PyRFtk.Circuit

section
variable {K O F Fl : Type*} [Field K] [DecidableEq F] [DecidableEq Fl]
variable {ops : ObjOps K O F Fl} {beh : O → F → K → Fl → Except Err (SMat K)} {nan zb : K} {names : List Node}
variable {net : Net K} {bh : Behave K F Fl} {s s' : St K O F Fl} {ph : Phase}

/-! ## the table -/

theorem foldl_dictSet {α β : Type*} [DecidableEq α] : ∀ {l d : List (α × β)}, ((d ++ l).map Prod.fst).Nodup →
    l.foldl (fun d x => dictSet x.1 x.2 d) d = d ++ l
  | [], d, _ => by simp
  | x :: l, d, h => by
    rw [List.foldl_cons, dictSet_not_mem]
    · rw [foldl_dictSet (by simpa using h)]; simp
    · intro hx
      rw [List.map_append, List.nodup_append] at h
      exact h.2.2 _ hx _ (by simp) rfl

/-- the entry of the table made for one wave -/
noncomputable def quadOf (s : St K O F Fl) (z : K) (w : Wave → K) (v : Wave) : List (Node × Quad K) :=
  match v with
  | (.out, _) => []
  | (.inn, n) => [(n, (stateOf s.zbase w).quad z n)]

theorem wOf_of_getElem {sol : Fin s.cols → K} (hnd : s.waves.Nodup) {k : ℕ} {v : Wave}
    (hk : s.waves[k]? = some v) (hc : k < s.cols) : wOf s sol v = sol ⟨k, hc⟩ := by
  have hm : v ∈ s.waves := List.mem_of_getElem? hk
  have : idx s.waves v = k := getElem?_inj_of_nodup hnd (getElem?_idx hm) hk
  unfold wOf
  rw [dif_pos (by rw [this]; exact hc)]
  congr 1
  exact Fin.ext this

theorem nodeQuad_spec (h : Rep ops net s) (hz : s.zbase ≠ 0) (z : K) {sol : SVec K} (hn : sol.n = s.cols) {v : Wave} {k : ℕ}
    (hk : s.waves[k]? = some v) :
    nodeQuad s z sol (v, k) = .ok (quadOf s z (wOf s fun i => sol.v (Fin.cast hn.symm i)) v) := by
  obtain ⟨d, n⟩ := v
  cases d with
  | out => rfl
  | inn =>
    have hlw : s.waves.length = s.cols := h.wlen
    have hwnd : s.waves.Nodup := h.rep.wnd
    have hm : (Dir.inn, n) ∈ s.waves := List.mem_of_getElem? hk
    have hm' : (Dir.out, n) ∈ s.waves := (h.rep.wmem .out n).2 ((h.rep.wmem .inn n).1 hm)
    have hkc : k < s.cols := by rw [← hlw]; exact (List.getElem?_eq_some_iff.1 hk).1
    have hkr : idx s.waves (.out, n) < s.cols := by rw [← hlw]; exact idx_lt hm'
    unfold nodeQuad
    simp only [pyIndex_of_mem hm']
    have g1 : sol.get k = .ok (wOf s (fun i => sol.v (Fin.cast hn.symm i)) (.inn, n)) := by
      rw [wOf_of_getElem hwnd hk hkc]
      unfold SVec.get
      rw [dif_pos (by omega)]
      rfl
    have g2 : sol.get (idx s.waves (.out, n)) = .ok (wOf s (fun i => sol.v (Fin.cast hn.symm i)) (.out, n)) := by
      rw [wOf_of_getElem hwnd (getElem?_idx hm') hkr]
      unfold SVec.get
      rw [dif_pos (by omega)]
      rfl
    rw [g1, g2]
    simp only
    rw [if_neg hz]
    rfl

theorem quadOf_keys (s : St K O F Fl) (z : K) (w : Wave → K) (l : List Wave) :
    (l.flatMap (quadOf s z w)).map Prod.fst = l.filterMap fun v => if v.1 = .inn then some v.2 else none := by
  induction l with
  | nil => rfl
  | cons v l ih =>
    obtain ⟨d, n⟩ := v
    cases d <;> simp [quadOf, ih]

/-- the table made from a vector of waves -/
theorem table_spec (h : Rep ops net s) (hz : s.zbase ≠ 0) (z : K) {sol : SVec K} (hn : sol.n = s.cols) :
    ∃ l, mapE (nodeQuad s z sol) s.waves.zipIdx = .ok l ∧
      ∀ n, dictGet n (l.flatten.foldl (fun d x => dictSet x.1 x.2 d) []) =
        if n ∈ net.nodes then some ((stateOf s.zbase (wOf s fun i => sol.v (Fin.cast hn.symm i))).quad z n) else none := by
  set w := wOf s fun i => sol.v (Fin.cast hn.symm i) with hw
  have hwnd : s.waves.Nodup := h.rep.wnd
  refine ⟨s.waves.zipIdx.map fun x => quadOf s z w x.1, ?_, ?_⟩
  · apply mapE_ok_of_forall
    rintro ⟨v, k⟩ hx
    have := List.mem_zipIdx_iff_getElem?.1 hx
    exact nodeQuad_spec h hz z hn this
  · have e1 : (s.waves.zipIdx.map fun x => quadOf s z w x.1).flatten = s.waves.flatMap (quadOf s z w) := by
      rw [List.flatMap_def]
      congr 1
      have : (s.waves.zipIdx.map fun x => quadOf s z w x.1) = (s.waves.zipIdx.map Prod.fst).map (quadOf s z w) := by
        rw [List.map_map]; rfl
      rw [this, List.zipIdx_map_fst]
    have hkeys := quadOf_keys s z w s.waves
    have hnd : ((s.waves.flatMap (quadOf s z w)).map Prod.fst).Nodup := by
      rw [hkeys]
      refine List.Nodup.filterMap ?_ hwnd
      rintro ⟨d, n⟩ ⟨d', n'⟩ m hm hm'
      simp only [Option.mem_def] at hm hm'
      cases d <;> cases d' <;> simp_all
    intro n
    rw [e1, foldl_dictSet (by simpa using hnd), List.nil_append]
    by_cases hnn : n ∈ net.nodes
    · rw [if_pos hnn]
      have hm : (Dir.inn, n) ∈ s.waves := (h.rep.wmem .inn n).2 hnn
      apply dictGet_of_mem hnd
      rw [List.mem_flatMap]
      exact ⟨(.inn, n), hm, by simp [quadOf]⟩
    · rw [if_neg hnn, dictGet_none, hkeys]
      intro hc
      rw [List.mem_filterMap] at hc
      obtain ⟨⟨d, m⟩, h1, h2⟩ := hc
      cases d
      · simp only [if_true, Option.some.injEq] at h2
        subst h2
        exact hnn ((h.rep.wmem .inn m).1 h1)
      · simp at h2

/-! ## the property -/

/-- **C30 (what is reported).** Whatever `Solution` returns is the state of the network for *some* excitation of its
external ports: there are waves `w` that satisfy every law of the network (blocks at the frequency asked for, junctions,
loads), the table lists exactly the nodes of the network with their voltage, current and waves, and the wave entering the
`k`-th external port is the one given for the port that was in `k`-th position *before* the call. -/
theorem C30_solution_positions [CharZero K] (hlaw : Lawful ops beh) (h : Built ops beh nan zb names net bh s ph)
    (hph : ph ≠ .reloaded) (hzb : zb ≠ 0) {f : F} {fl : Fl} {E : List (Node × K)} {z : Option K} {t : List (Node × Quad K)}
    (hs : solution ops s f E z fl = (s', .ok t)) :
    ∃ Sof, Given net bh f zb fl Sof ∧ ∃ w, net.Laws zb Sof w ∧
      (∀ i (hi : i < s.ports.length) (hi' : i < s'.ports.length),
        dictGet s.ports[i] E = some ((stateOf zb w).fwd (z.getD zb) s'.ports[i])) ∧
      ∀ n, dictGet n t = if n ∈ net.nodes then some ((stateOf zb w).quad (z.getD zb) n) else none := by
  have hz0 : s.zbase = zb := (h.inv hlaw).zb
  unfold solution at hs
  rw [hz0] at hs
  cases hsol : solve ops s f E z fl with
  | mk s1 r1 =>
    rw [hsol] at hs
    cases r1 with
    | error e => simp at hs
    | ok sol =>
      simp only at hs
      obtain ⟨⟨S, hS⟩, hz, Sof, hSof, w, hw1, hw2, hn, hw3⟩ := solve_spec hlaw h hph hzb hsol
      have hi1 := (Built.eval h hS).inv hlaw
      obtain ⟨l, hl1, hl2⟩ := table_spec hi1.rep (by rw [hi1.zb]; exact hzb) (z.getD zb) hn
      rw [hl1] at hs
      simp only [Prod.mk.injEq, Except.ok.injEq] at hs
      obtain ⟨rfl, rfl⟩ := hs
      refine ⟨Sof, hSof, w, hw1, hw2, fun n => ?_⟩
      rw [hl2 n]
      by_cases hnn : n ∈ net.nodes
      · rw [if_pos hnn, if_pos hnn, hi1.zb]
        have e1 := hw3 n hnn .inn
        have e2 := hw3 n hnn .out
        simp only [Field.State.quad, stateOf, Field.State.fwd, Field.State.rev, volt, curr, e1, e2]
      · rw [if_neg hnn, if_neg hnn]

/-- the list of external ports is not reordered by an evaluation if there are no `Portnames`, or they are in order
already, or an evaluation has put them in order -/
theorem getS_keeps_order [CharZero K] (hlaw : Lawful ops beh) (h : Built ops beh nan zb names net bh s ph)
    (hph : ph ≠ .reloaded) (hord : names = [] ∨ names = s.ports ∨ s.aliased = true)
    {f : F} {z : Option K} {fl : Fl} {S : SMat K} (hs : getS ops s f z fl = (s', .ok S)) : s'.ports = s.ports := by
  obtain ⟨hi, -, hc⟩ := h.all hlaw
  have hnm : s.names = [] ∨ s.names = s.ports := by
    unfold St.names
    by_cases ha : s.aliased = true
    · rw [if_pos ha]; exact Or.inr rfl
    · rw [if_neg ha, hi.nm]
      rcases hord with h | h | h
      · exact Or.inl h
      · exact Or.inr h
      · exact absurd h ha
  have ho : ordered s = s.ports := by
    unfold ordered
    rcases hnm with h | h
    · rw [if_pos (Or.inr h)]
    · rw [h]; simp
  have hst := getS_state hs
  have hsize := getS_size hlaw h hph hs
  have hpne : s.ports ≠ [] := by
    intro e
    have hl := getS_ports_length hlaw h hs
    rw [e, List.length_nil, List.length_eq_zero_iff] at hl
    rcases get1S_eq (ops := ops) s f fl with ⟨M', e1, e2, e3, e4⟩ | ⟨e1, e2⟩
    · exact (hc hph M' e1).1 e
    · cases hr : recompute ops s f fl with
      | mk s1 r1 =>
        rw [e2, hr] at hst
        simp only at hst
        subst hst
        cases r1 with
        | error e => unfold getS at hs; rw [e2, hr] at hs; simp at hs
        | ok M => exact ((recompute_spec hlaw hi f fl hr).2.1 M rfl).2.2.2.1 hl
  cases hg : get1S ops s f fl with
  | mk s1 r1 =>
    rw [hg] at hst
    simp only at hst
    subst hst
    rcases (get1S_answer hlaw hi (hc hph) (h.stored_aliased hlaw) hpne f fl hg).2.ports with h1 | h1
    · exact h1
    · rw [h1, ho]

/-- after a successful evaluation the ports are in their final order -/
theorem getS_aliased [CharZero K] (hlaw : Lawful ops beh) (h : Built ops beh nan zb names net bh s ph)
    {f : F} {z : Option K} {fl : Fl} {S : SMat K} (hs : getS ops s f z fl = (s', .ok S)) : s'.aliased = true := by
  have hst := getS_state hs
  rcases get1S_eq (ops := ops) s f fl with ⟨M, e1, e2, e3, e4⟩ | ⟨e1, e2⟩
  · rw [e4] at hst
    simp only at hst
    subst hst
    exact h.stored_aliased hlaw (by rw [e1]; simp)
  · cases hr : recompute ops s f fl with
    | mk s1 r1 =>
      rw [e2, hr] at hst
      simp only at hst
      subst hst
      cases r1 with
      | error e => unfold getS at hs; rw [e2, hr] at hs; simp at hs
      | ok M => exact ((recompute_spec hlaw (h.inv hlaw) f fl hr).2.1 M rfl).2.2.2.2.1

theorem solution_getS [CharZero K] (hlaw : Lawful ops beh) (h : Built ops beh nan zb names net bh s ph)
    (hph : ph ≠ .reloaded) (hzb : zb ≠ 0) {f : F} {fl : Fl} {E : List (Node × K)} {z : Option K} {t : List (Node × Quad K)}
    (hs : solution ops s f E z fl = (s', .ok t)) : ∃ S, getS ops s f (some (z.getD zb)) fl = (s', .ok S) := by
  unfold solution at hs
  cases hsol : solve ops s f E z fl with
  | mk s1 r1 =>
    rw [hsol] at hs
    cases r1 with
    | error e => simp at hs
    | ok sol =>
      simp only at hs
      obtain ⟨⟨S, hS⟩, -⟩ := solve_spec hlaw h hph hzb hsol
      split at hs
      · simp at hs
      · simp only [Prod.mk.injEq] at hs
        exact ⟨S, by rw [hS, hs.1]⟩

/-- **C30.** If no `Portnames` were given, or they are in the order in which the ports were created, or the circuit has
been evaluated before, `Solution` reports the state of the network with exactly the requested waves (on the reference
impedance asked for) entering the named ports. -/
theorem C30_solution [CharZero K] (hlaw : Lawful ops beh) (h : Built ops beh nan zb names net bh s ph)
    (hph : ph ≠ .reloaded) (hzb : zb ≠ 0) (hord : names = [] ∨ names = s.ports ∨ s.aliased = true)
    {f : F} {fl : Fl} {E : List (Node × K)} {z : Option K} {t : List (Node × Quad K)}
    (hs : solution ops s f E z fl = (s', .ok t)) :
    ∃ Sof, Given net bh f zb fl Sof ∧ ∃ w, net.Laws zb Sof w ∧
      (∀ p ∈ net.free, dictGet p E = some ((stateOf zb w).fwd (z.getD zb) p)) ∧
      ∀ n, dictGet n t = if n ∈ net.nodes then some ((stateOf zb w).quad (z.getD zb) n) else none := by
  obtain ⟨S, hS⟩ := solution_getS hlaw h hph hzb hs
  have hp := getS_keeps_order hlaw h hph hord hS
  obtain ⟨Sof, h1, w, h2, h3, h4⟩ := C30_solution_positions hlaw h hph hzb hs
  refine ⟨Sof, h1, w, h2, fun p hpf => ?_, h4⟩
  have hps : p ∈ s.ports := (h.inv hlaw).rep.ports_perm.mem_iff.2 hpf
  obtain ⟨j, hj, rfl⟩ := List.getElem_of_mem hps
  have := h3 j hj (by rw [hp]; exact hj)
  rw [this]
  simp only [hp]

/-- **C30 (later calls).** Once a call of `getS` or `Solution` has succeeded, every later `Solution` reports the state
with exactly the requested waves entering the named ports, whatever `Portnames`. -/
theorem C30_solution_again [CharZero K] (hlaw : Lawful ops beh) {s0 : St K O F Fl} {ph0 : Phase} {net0 : Net K}
    {bh0 : Behave K F Fl} (h0 : Built ops beh nan zb names net0 bh0 s0 ph0)
    {f0 : F} {z0 : Option K} {fl0 : Fl} {S0 : SMat K} (hs0 : getS ops s0 f0 z0 fl0 = (s, .ok S0))
    (hph : ph0 ≠ .reloaded) (hzb : zb ≠ 0)
    {f : F} {fl : Fl} {E : List (Node × K)} {z : Option K} {t : List (Node × Quad K)}
    (hs : solution ops s f E z fl = (s', .ok t)) :
    ∃ Sof, Given net0 bh0 f zb fl Sof ∧ ∃ w, net0.Laws zb Sof w ∧
      (∀ p ∈ net0.free, dictGet p E = some ((stateOf zb w).fwd (z.getD zb) p)) ∧
      ∀ n, dictGet n t = if n ∈ net0.nodes then some ((stateOf zb w).quad (z.getD zb) n) else none := by
  have h' := Built.eval h0 hs0
  refine C30_solution hlaw h' (by rw [afterEval_of_ne hph]; decide) hzb (Or.inr (Or.inr (getS_aliased hlaw h0 hs0))) hs

/-- **C30 (answers).** `Solution` answers whenever every external port is given a wave and `getS` answers on the
reference asked for. -/
theorem C30_solution_answers [CharZero K] (hlaw : Lawful ops beh) (h : Built ops beh nan zb names net bh s ph)
    (hph : ph ≠ .reloaded) (hzb : zb ≠ 0) {f : F} {fl : Fl} {E : List (Node × K)} {z : Option K} (hz : z.getD zb ≠ 0)
    (hE : ∀ p ∈ net.free, dictGet p E ≠ none) {S : SMat K} (hS : getS ops s f (some (z.getD zb)) fl = (s', .ok S)) :
    ∃ t, solution ops s f E z fl = (s', .ok t) := by
  have hz0 : s.zbase = zb := (h.inv hlaw).zb
  have hi1 := (Built.eval h hS).inv hlaw
  have hperm := (h.inv hlaw).rep.ports_perm
  have hEa : mapE (dictIndex E) s.ports = .ok (s.ports.map fun p => (dictGet p E).getD 0) := by
    apply mapE_ok_of_forall
    intro p hp
    have := hE p (hperm.mem_iff.1 hp)
    rw [dictIndex_eq_ok]
    cases hd : dictGet p E with
    | none => exact absurd hd this
    | some v => rfl
  obtain ⟨-, hSn⟩ := getS_size hlaw h hph hS
  have hlen := getS_ports_length hlaw h hS
  obtain ⟨c1, W, c2, -⟩ := getS_inverse hlaw h hph hS
  obtain ⟨-, iA, iB, iE, q⟩ := hi1.rep.squared c1
  have hSt : S.n = (s.ports.map fun p => (dictGet p E).getD 0).length := by rw [hSn, hlen]; simp
  set Ea := s.ports.map fun p => (dictGet p E).getD 0 with hEad
  set Eb := (List.range S.n).map fun i => ∑ j : Fin S.n, S.at i j * Ea.getD j 0 with hEbd
  obtain ⟨Es, hEs⟩ : ∃ Es, fillEs s'.E s'.rows.length
      (s'.ports.zip ((Ea.zip Eb).map fun x => onOwn s'.zbase (z.getD zb) x.1 x.2)) (fun _ => 0) = .ok Es := by
    apply fillEs_ok
    intro x hx
    have hp : x.1 ∈ s'.ports := (List.of_mem_zip hx).1
    obtain ⟨j, hj, e⟩ := List.getElem_of_mem hp
    refine ⟨iE ⟨j, hj⟩, by rw [c1]; exact (iE ⟨j, hj⟩).2, ?_⟩
    rw [← e]; exact q.hE ⟨j, hj⟩
  have hsol : solve ops s f E z fl = (s', .ok ⟨s'.cols, W.mulVec fun i => Es i⟩) := by
    unfold solve
    simp only [hEa, hz0, hS]
    unfold applyS
    rw [if_pos hSt]
    simp only
    rw [if_neg (show ¬ z.getD s.zbase = 0 by rw [hz0]; exact hz)]
    rw [hEs]
    simp only
    unfold applyInv
    rw [c2]
    simp only
    rw [if_pos c1]
  obtain ⟨l, hl1, -⟩ := table_spec hi1.rep (by rw [hi1.zb]; exact hzb) (z.getD zb)
    (sol := ⟨s'.cols, W.mulVec fun i => Es i⟩) rfl
  refine ⟨l.flatten.foldl (fun d x => dictSet x.1 x.2 d) [], ?_⟩
  unfold solution
  rw [hsol, hz0]
  simp only [hl1]

/-- **C30 (missing port).** An excitation that does not mention an external port is refused, and nothing changes. -/
theorem C30_missing_port [CharZero K] (hlaw : Lawful ops beh) (h : Built ops beh nan zb names net bh s ph)
    {f : F} {fl : Fl} {E : List (Node × K)} {z : Option K} {p : Node} (hp : p ∈ net.free) (hE : dictGet p E = none) :
    solution ops s f E z fl = (s, .error .keyError) := by
  have hps : p ∈ s.ports := (h.inv hlaw).rep.ports_perm.mem_iff.2 hp
  have : mapE (dictIndex E) s.ports = .error .keyError := by
    clear h
    generalize s.ports = ps at hps
    induction ps with
    | nil => simp at hps
    | cons q l ih =>
      unfold mapE
      cases hq : dictIndex E q with
      | error e =>
        have : e = .keyError := by
          unfold dictIndex at hq
          cases hd : dictGet q E with
          | none => rw [hd] at hq; simpa using hq.symm
          | some v => rw [hd] at hq; cases hq
        simp only [this]
      | ok v =>
        simp only
        have hne : p ∈ l := by
          rw [List.mem_cons] at hps
          rcases hps with rfl | hps
          · rw [dictIndex_eq_ok, hE] at hq; cases hq
          · exact hps
        rw [ih hne]
  unfold solution solve
  simp only [this]

/-- **C30 is violated on the first call with `Portnames` in another order.** The wave given for the port created in
`k`-th position is sent into the `k`-th port of `Portnames`. -/
theorem C30_first_call_misplaced [CharZero K] (hlaw : Lawful ops beh) (h : Built ops beh nan zb names net bh s .building)
    (hzb : zb ≠ 0) (hn : names ≠ []) {f : F} {fl : Fl} {E : List (Node × K)} {z : Option K} {t : List (Node × Quad K)}
    (hs : solution ops s f E z fl = (s', .ok t)) :
    ∃ hl : names.length = net.free.length, ∀ i (hi : i < net.free.length),
      ∃ x, dictGet names[i] t = some x ∧ dictGet net.free[i] E = some x.Vf := by
  obtain ⟨S, hS⟩ := solution_getS hlaw h (by decide) hzb hs
  obtain ⟨S', hS'⟩ : ∃ M, getS ops s f none fl = (s', .ok M) := by
    unfold getS at hS ⊢
    cases hg1 : get1S ops s f fl with
    | mk s2 r2 =>
      rw [hg1] at hS
      cases r2 with
      | error e => simp at hS
      | ok M =>
        refine ⟨M, ?_⟩
        have : s2 = s' := by
          simp only at hS
          split at hS <;> simp only [Prod.mk.injEq] at hS <;> exact hS.1
        simp only [this]
  have hp : s'.ports = names := by rw [C29_first_eval hlaw h hS', if_neg hn]
  have hf : s.ports = net.free := by
    have hi := h.inv hlaw
    exact (C29_ports hlaw h).2.1 (Or.inl rfl)
  have hl : names.length = net.free.length := by
    rw [← hp, ← hf]; exact getS_ports_length hlaw h hS
  refine ⟨hl, fun i hi => ?_⟩
  obtain ⟨Sof, h1, w, h2, h3, h4⟩ := C30_solution_positions hlaw h (by decide) hzb hs
  have := h3 i (by rw [hf]; exact hi) (by rw [hp, hl]; exact hi)
  simp only [hf, hp] at this
  refine ⟨(stateOf zb w).quad (z.getD zb) names[i], ?_, this⟩
  rw [h4, if_pos]
  have hmem : names[i] ∈ s'.ports := by rw [hp]; exact List.getElem_mem _
  have := ((Built.eval h hS).inv hlaw).rep.ports_perm.mem_iff.1 hmem
  exact (mem_free.1 this).1

/-- nodes named after a block are ports of that block -/
theorem Built.blk_node [CharZero K] (hlaw : Lawful ops beh) (h : Built ops beh nan zb names net bh s ph) {b p : String}
    (hn : Node.blk b p ∈ net.nodes) : ∃ ps, (b, ps) ∈ net.blks ∧ p ∈ ps := by
  induction h with
  | init bh => simp [Net.empty] at hn
  | @addblock net bh s s' name obj spec relpos ports hb hname hres hnd hs ih =>
    simp only [Net.addBlk, List.mem_append, List.mem_map] at hn
    rcases hn with hn | ⟨q, hq, e⟩
    · obtain ⟨ps, h1, h2⟩ := ih hn
      exact ⟨ps, by simp [Net.addBlk, h1], h2⟩
    · injection e with e1 e2
      subst e1 e2
      exact ⟨ports, by simp [Net.addBlk], hq⟩
  | replace hb hname hs ih => exact ih hn
  | @connect net bh s s' ps hb hs ih =>
    rw [nodes_connect, List.mem_append, Option.mem_toList] at hn
    rcases hn with hn | hn
    · exact ih hn
    · exfalso
      have hr := (hb.inv hlaw).rep
      have hq : Node.blk b p ∈ ps.filter (fun q => decide ((Dir.inn, q) ∉ s.waves)) := by
        rw [List.mem_filter]
        have h1 := List.mem_of_find?_eq_some hn
        have h2 := List.find?_some hn
        simp only [decide_eq_true_eq] at h2 ⊢
        exact ⟨h1, fun hc => h2 ((hr.rep.wmem .inn _).1 hc)⟩
      unfold Circuit.connect at hs
      match hnew : ps.filter (fun q => decide ((Dir.inn, q) ∉ s.waves)) with
      | [] => rw [hnew] at hq; simp at hq
      | [.blk _ _] => simp only [hnew] at hs; cases hs
      | _ :: _ :: _ => simp only [hnew] at hs; cases hs
      | [.ext n] => rw [hnew] at hq; simp at hq
  | terminate hb hl hs ih => exact ih hn
  | @deembed net bh s s' int ext hb hf hnd hdot hs ih =>
    have e1 : ∀ (l : List (Node × Node)) (m : Net K), (l.foldl Net.same m).nodes = m.nodes ∧
        (l.foldl Net.same m).blks = m.blks := by
      intro l
      induction l with
      | nil => intro m; exact ⟨rfl, rfl⟩
      | cons x l ih => intro m; exact ih (m.same x)
    have e2 : ∀ (l : List (Node × Node)) (m : Net K), (l.foldl Net.cross m).nodes = m.nodes ++ l.map Prod.snd ∧
        (l.foldl Net.cross m).blks = m.blks := by
      intro l
      induction l with
      | nil => intro m; simp
      | cons x l ih =>
        intro m
        obtain ⟨a, b⟩ := ih (m.cross x)
        exact ⟨by rw [List.foldl_cons, a]; simp [Net.cross], b⟩
    simp only [Net.deembed] at hn ⊢
    rw [(e1 ext _).1, (e2 int _).1, List.mem_append, List.mem_map] at hn
    rw [(e1 ext _).2, (e2 int _).2]
    rcases hn with hn | ⟨x, hx, e⟩
    · exact ih hn
    · exact absurd e (hdot x hx b p)
  | eval hb hs ih => exact ih hn
  | used hb hu ih => exact ih hn

end
/-! ## examples -/

namespace Ex

/-- the hypotheses of `C30_solution` and `C30_solution_answers` are met by the example circuit -/
theorem C30_solution_witness : ∃ (s' : E) (t : List (Node × Quad ℚ)) (S : SMat ℚ),
    solution o s4 () (net.free.map fun p => (p, 1)) none () = (s', .ok t) ∧
    getS o s4 () (some 50) () = (s', .ok S) := by
  have hl := imm_lawful ℚ Unit Unit
  obtain ⟨s', S, hs⟩ := (C20_getS_complete hl built (by decide) given (by decide) (Or.inl names)).2 solvable
  have hz : s'.zbase = 50 := ((Built.eval built hs).inv hl).zb
  have hs' : getS o s4 () (some 50) () = (s', .ok S) := by
    unfold getS at hs ⊢
    cases hg : get1S o s4 () () with
    | mk s1 r1 =>
      rw [hg] at hs
      cases r1 with
      | error e => simp at hs
      | ok M =>
        simp only [Prod.mk.injEq, Except.ok.injEq] at hs
        obtain ⟨rfl, rfl⟩ := hs
        simp only
        rw [if_neg (fun hc => hc.2 hz.symm)]
  obtain ⟨t, ht⟩ := C30_solution_answers hl built (by decide) (by norm_num) (z := none)
    (E := net.free.map fun p => (p, 1)) (by norm_num) (by
      intro p hp
      rw [Ne, dictGet_none]
      simp only [List.map_map, not_not]
      simpa using hp) hs'
  exact ⟨s', t, S, ht, hs'⟩

/-- **The violation, concretely.**  A two-port with `Portnames = ["A.2", "A.1"]`: the first `Solution` with 1 V into `A.1`
and nothing into `A.2` reports 1 V entering `A.2` and nothing entering `A.1`; asked again it answers correctly. -/
theorem C30_first_call_wrong : ∃ (s' s'' : E) (t t' : List (Node × Quad ℚ)) (x1 x2 y1 y2 : Quad ℚ),
    solution o i1 () [(.blk "A" "1", 1), (.blk "A" "2", 0)] none () = (s', .ok t) ∧
    dictGet (.blk "A" "1") t = some x1 ∧ x1.Vf = 0 ∧ dictGet (.blk "A" "2") t = some x2 ∧ x2.Vf = 1 ∧
    solution o s' () [(.blk "A" "1", 1), (.blk "A" "2", 0)] none () = (s'', .ok t') ∧
    dictGet (.blk "A" "1") t' = some y1 ∧ y1.Vf = 1 ∧ dictGet (.blk "A" "2") t' = some y2 ∧ y2.Vf = 0 := by
  have hl := imm_lawful ℚ Unit Unit
  obtain ⟨s', S, hs⟩ := (C20_getS_complete hl builti (by decide) giveni (by decide) (Or.inr (by decide))).2 solvablei
  have hz : s'.zbase = 50 := ((Built.eval builti hs).inv hl).zb
  have hs' : getS o i1 () (some 50) () = (s', .ok S) := by
    unfold getS at hs ⊢
    cases hg : get1S o i1 () () with
    | mk s1 r1 =>
      rw [hg] at hs
      cases r1 with
      | error e => simp at hs
      | ok M =>
        simp only [Prod.mk.injEq, Except.ok.injEq] at hs
        obtain ⟨rfl, rfl⟩ := hs
        simp only
        rw [if_neg (fun hc => hc.2 hz.symm)]
  have h50 : (50 : ℚ) ≠ 0 := by norm_num
  have hf : neti.free = [.blk "A" "1", .blk "A" "2"] := rfl
  have hcov : ∀ p ∈ neti.free, dictGet p [(Node.blk "A" "1", (1 : ℚ)), (.blk "A" "2", 0)] ≠ none := by decide
  obtain ⟨t, ht⟩ := C30_solution_answers hl builti (by decide) h50 (z := none)
    (E := [(.blk "A" "1", 1), (.blk "A" "2", 0)]) h50 hcov hs'
  obtain ⟨_, hm⟩ := C30_first_call_misplaced hl builti h50 (by decide) ht
  obtain ⟨x2, a1, a2⟩ := hm 0 (by decide)
  obtain ⟨x1, b1, b2⟩ := hm 1 (by decide)
  have h2 := Built.eval builti hs'
  have hph2 : afterEval .building i1 () () (.ok S) ≠ .reloaded := by rw [afterEval_of_ne (by decide)]; decide
  have hgot := getS_stable hl builti (by decide) (by decide) hs' () (some 50) ()
  rw [hs'] at hgot
  cases hgg : getS o s' () (some 50) () with
  | mk s'' r =>
    rw [hgg] at hgot
    simp only at hgot
    subst hgot
    obtain ⟨t', ht'⟩ := C30_solution_answers hl h2 hph2 h50 (z := none)
      (E := [(.blk "A" "1", 1), (.blk "A" "2", 0)]) h50 hcov hgg
    obtain ⟨Sof, -, w, -, g1, g2⟩ := C30_solution_again hl builti hs' (by decide) h50 ht'
    have e1 := g1 (.blk "A" "1") (by decide)
    have e2 := g1 (.blk "A" "2") (by decide)
    have k1 := g2 (.blk "A" "1")
    have k2 := g2 (.blk "A" "2")
    rw [if_pos (by decide)] at k1 k2
    refine ⟨s', s'', t, t', x1, x2, _, _, ht, b1, ?_, a1, ?_, ht', k1, ?_, k2, ?_⟩
    · have : some (0 : ℚ) = some x1.Vf := b2
      injection this with this; exact this.symm
    · have : some (1 : ℚ) = some x2.Vf := a2
      injection this with this; exact this.symm
    · have : some (1 : ℚ) = _ := e1
      injection this with this; exact this.symm
    · have : some (0 : ℚ) = _ := e2
      injection this with this; exact this.symm

end Ex
end PyRFtk.Circuit
