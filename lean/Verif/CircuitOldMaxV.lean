import Verif.CircuitOldProps
import Verif.CircuitMaxV

/-!
# The legacy class `circuit`: `maxV` (C71)

circuit.py:1058-1233; as in `CircuitMaxV` the table of voltages is left out.
-/

set_option linter.unusedSectionVars false

namespace PyRFtk.Circuit.Old

section
variable {O F Fl : Type*} [DecidableEq F] [DecidableEq Fl]

/-- one pass of the loop 1137-1154: the position of a node is that of the external port of this name, or None, and is never refused -/
noncomputable def maxNode (waves : List Wave) (sol : SVec ℂ) (best : Option (ℝ × Place)) (wk : Wave × ℕ) : Except Err (Option (ℝ × Place)) :=
  match wk with
  | ((.out, _), _) => .ok best
  | ((.inn, n), k) => match pyIndex waves (.out, n) with                                    -- 1139
    | .error e => .error e
    | .ok k1 => match sol.get k, sol.get k1 with
      | .error e, _ => .error e
      | _, .error e => .error e
      | .ok a, .ok b => .ok (better best ‖a + b‖ (.node n))                                 -- 1140, 1152-1153

/-- one pass of the loop 1166-1230 -/
noncomputable def maxBlock (ops : ObjOps ℂ O F Fl) (sub : SubMax O F Fl) (s : OSt ℂ O F Fl) (sol : SVec ℂ) (f : F) (fl : Fl)
    (best : Option (ℝ × Place)) (b : OBlk O) : Except Err (Option (ℝ × Place)) :=
  match ops.ports b.obj, sub b.obj with                                                     -- 1169, 1203
  | some ps, some mx => match mx f (blockE s.waves sol b.name ps) s.zbase fl with           -- 1184-1207
    | .error e => .error e
    | .ok (t1, n1) => .ok (better best t1 (.inside b.name n1))                              -- 1226-1227
  | _, _ => .ok best

/-- `maxV(f, E, Zbase, flags=…)` without `xpos` (circuit.py:1058-1233): maximum and place (`none` stands for `-inf, 'N/A'`).  The lines 1103-1128 are
those of `solve`, with ValueError for a port without excitation. -/
noncomputable def maxV (ops : ObjOps ℂ O F Fl) (sub : SubMax O F Fl) (s : OSt ℂ O F Fl) (f : F) (E : List (Node × ℂ)) (z : Option ℂ) (fl : Fl) :
    OSt ℂ O F Fl × Except Err (Option (ℝ × Place)) :=
  match mapE (dictIndex E) s.ports with                                                     -- 1105-1111
  | .error _ => (s, .error .valueError)
  | .ok _ => match solve ops s f E z fl with                                                -- 1114-1128
    | (s, .error e) => (s, .error e)
    | (s, .ok sol) => match foldE (maxNode s.waves sol) none s.waves.zipIdx with
      | .error e => (s, .error e)
      | .ok best => (s, foldE (maxBlock ops sub s sol f fl) best s.blocks)

variable {ops : ObjOps ℂ O F Fl} {beh : O → F → ℂ → Fl → Except Err (SMat ℂ)} {nan zb : ℂ} {names : List Node} {subS : SubSol ℂ O F Fl}
variable {sub : SubMax O F Fl}

theorem maxNodes_old (s : St ℂ O F Fl) (sol : SVec ℂ) : ∀ {l : List (Wave × ℕ)} {b c : Option (ℝ × Place)},
    foldE (Circuit.maxNode ops s sol) b l = .ok c → foldE (maxNode s.waves sol) b l = .ok c
  | [], b, c, h => h
  | wk :: l, b, c, h => by
    unfold foldE at h ⊢
    have key : ∀ d, Circuit.maxNode ops s sol b wk = .ok d → maxNode s.waves sol b wk = .ok d := by
      intro d hd
      obtain ⟨⟨d', n⟩, k⟩ := wk
      cases d' with
      | out => exact hd
      | inn =>
        simp only [Circuit.maxNode] at hd
        simp only [maxNode]
        cases h1 : pyIndex s.waves (.out, n) with
        | error e => rw [h1] at hd; cases hd
        | ok k1 =>
          rw [h1] at hd
          simp only at hd ⊢
          cases h2 : sol.get k with
          | error e => rw [h2] at hd; cases hd
          | ok a =>
            cases h3 : sol.get k1 with
            | error e => rw [h2, h3] at hd; cases hd
            | ok a' =>
              rw [h2, h3] at hd
              simp only at hd ⊢
              split at hd
              · cases hd
              · exact hd
    cases hx : Circuit.maxNode ops s sol b wk with
    | error e => rw [hx] at h; cases h
    | ok d =>
      rw [hx] at h
      rw [key d hx]
      exact maxNodes_old s sol h

theorem maxBlocks_old (s : St ℂ O F Fl) (i : List ℕ) (sol : SVec ℂ) (f : F) (fl : Fl) : ∀ (l : List (Blk O)) (b : Option (ℝ × Place)),
    foldE (maxBlock ops sub (ofSt s i) sol f fl) b (l.map toOld) = foldE (Circuit.maxBlock ops sub s sol f fl) b l
  | [], b => rfl
  | x :: l, b => by
    rw [List.map_cons]
    unfold foldE
    have : maxBlock ops sub (ofSt s i) sol f fl b (toOld x) = Circuit.maxBlock ops sub s sol f fl b x := rfl
    rw [this]
    cases Circuit.maxBlock ops sub s sol f fl b x with
    | error e => rfl
    | ok d => exact maxBlocks_old s i sol f fl l d

/-- C71: after any regular list of calls the legacy class finds the maximum, and the place, that `rfCircuit` finds, whenever the latter answers.
(`rfCircuit` also refuses when it has lost the position of a node; the legacy class does not keep positions of nodes.) -/
theorem C71_maxV_same (hlaw : Lawful ops beh) (hk : Keeps ops beh subS) {cs : List (Call ℂ O F Fl)} (h : Regular ops subS nan false (St.init zb names) cs)
    {s s' : St ℂ O F Fl} {o : OSt ℂ O F Fl} (hs : s = run (stepR ops subS nan) (St.init zb names) cs)
    (ho : o = run (stepO ops subS nan) (OSt.init zb names) cs) (hp : s.ports ≠ []) {f : F} {E : List (Node × ℂ)} {z : Option ℂ} {fl : Fl}
    {r : Option (ℝ × Place)} (hm : Circuit.maxV ops sub s f E z fl = (s', .ok r)) : (maxV ops sub o f E z fl).2 = .ok r := by
  obtain ⟨-, net, bh, ph, hb, hph, hsim⟩ := regular_answers (beh := beh) hlaw hk cs false Net.empty (fun _ _ _ _ => .error .valueError) .building
    (St.init zb names) (OSt.init zb names) (Built.init _) (by simp) (fun _ => ⟨rfl, rfl⟩) ⟨[], rfl, fun _ h => absurd rfl h⟩ h
  rw [← hs] at hb hsim
  rw [← ho] at hsim
  have hpo : o.ports = s.ports := by obtain ⟨i, rfl, -⟩ := hsim; rfl
  obtain ⟨h1, h2⟩ := solve_old hlaw (hb.inv hlaw) hp hsim f E z fl
  unfold Circuit.maxV at hm
  unfold maxV
  rw [hpo]
  split at hm
  · simp at hm
  · cases hE : mapE (dictIndex E) s.ports with
    | error e => rw [hE] at hm; simp at hm
    | ok Ea =>
      rw [hE] at hm
      simp only at hm ⊢
      cases hx : Circuit.solve ops s f E z fl with
      | mk t q =>
        cases hy : solve ops o f E z fl with
        | mk t' q' =>
          rw [hx, hy] at h1 h2
          rw [hx] at hm
          simp only at h1 h2
          subst h2
          cases q' with
          | error e => simp at hm
          | ok sol =>
            simp only at hm ⊢
            obtain ⟨i, rfl, -⟩ := h1
            rw [show (ofSt t i).waves = t.waves from rfl, show (ofSt t i).blocks = t.blocks.map toOld from rfl]
            cases hn : foldE (Circuit.maxNode ops t sol) none t.waves.zipIdx with
            | error e => rw [hn] at hm; simp at hm
            | ok best =>
              rw [hn] at hm
              simp only [Prod.mk.injEq] at hm
              rw [maxNodes_old t sol hn]
              simp only [maxBlocks_old]
              exact hm.2

/-- C71: unlike `rfCircuit` (`C48_circuit_inner_node`) the legacy class answers whatever nodes the circuit has: the circuit can be solved and the blocks
asked answer. -/
theorem C71_maxV_answers (hlaw : Lawful ops beh) (hk : Keeps ops beh subS) {cs : List (Call ℂ O F Fl)} (h : Regular ops subS nan false (St.init zb names) cs)
    {s s' : St ℂ O F Fl} {o : OSt ℂ O F Fl} (hs : s = run (stepR ops subS nan) (St.init zb names) cs)
    (ho : o = run (stepO ops subS nan) (OSt.init zb names) cs) (hp : s.ports ≠ []) (hzb : zb ≠ 0) {f : F} {E : List (Node × ℂ)} {z : Option ℂ} {fl : Fl}
    {sol : SVec ℂ} (hm : Circuit.solve ops s f E z fl = (s', .ok sol))
    (hsub : ∀ x ps mx, ops.ports x = some ps → sub x = some mx → ∀ Ek, ∃ r, mx f Ek zb fl = .ok r) : ∃ r, (maxV ops sub o f E z fl).2 = .ok r := by
  obtain ⟨-, net, bh, ph, hb, hph, hsim⟩ := regular_answers (beh := beh) hlaw hk cs false Net.empty (fun _ _ _ _ => .error .valueError) .building
    (St.init zb names) (OSt.init zb names) (Built.init _) (by simp) (fun _ => ⟨rfl, rfl⟩) ⟨[], rfl, fun _ h => absurd rfl h⟩ h
  rw [← hs] at hb hsim
  rw [← ho] at hsim
  have hpo : o.ports = s.ports := by obtain ⟨i, rfl, -⟩ := hsim; rfl
  obtain ⟨h1, h2⟩ := solve_old hlaw (hb.inv hlaw) hp hsim f E z fl
  obtain ⟨⟨S, hS⟩, -, -, -, -, -, -, hnn, -⟩ := solve_spec hlaw hb hph hzb hm
  have hi1 := (Built.eval hb hS).inv hlaw
  have hlw : s'.waves.length = s'.cols := hi1.rep.wlen
  have hEa : ∃ Ea, mapE (dictIndex E) s.ports = .ok Ea := by
    unfold Circuit.solve at hm
    cases he : mapE (dictIndex E) s.ports with
    | error e => simp [he] at hm
    | ok Ea => exact ⟨Ea, rfl⟩
  obtain ⟨Ea, hEa⟩ := hEa
  unfold maxV
  rw [hpo, hEa]
  rw [hm] at h1 h2
  simp only
  cases hy : solve ops o f E z fl with
  | mk t' q' =>
    rw [hy] at h1 h2
    simp only at h1 h2
    subst h2
    obtain ⟨i, rfl, -⟩ := h1
    simp only
    rw [show (ofSt s' i).waves = s'.waves from rfl, show (ofSt s' i).blocks = s'.blocks.map toOld from rfl]
    obtain ⟨best, hbest⟩ := foldE_ok (g := maxNode s'.waves sol) (l := s'.waves.zipIdx) (by
      rintro best ⟨⟨d, n⟩, k⟩ hk
      rw [List.mem_zipIdx_iff_getElem?] at hk
      simp only at hk
      have hnm : n ∈ net.nodes := (hi1.rep.rep.wmem d n).1 (List.mem_of_getElem? hk)
      have hkc : k < s'.cols := by rw [← hlw]; exact (List.getElem?_eq_some_iff.1 hk).1
      cases d with
      | out => exact ⟨best, rfl⟩
      | inn =>
        have hm' : (Dir.out, n) ∈ s'.waves := (hi1.rep.rep.wmem .out n).2 hnm
        have hkr : idx s'.waves (.out, n) < s'.cols := by rw [← hlw]; exact idx_lt hm'
        unfold maxNode
        simp only [pyIndex_of_mem hm', SVec.get]
        rw [dif_pos (show k < sol.n by omega), dif_pos (show idx s'.waves (Dir.out, n) < sol.n by omega)]
        exact ⟨_, rfl⟩) none
    simp only [hbest, maxBlocks_old]
    refine foldE_ok (fun best b _ => ?_) best
    unfold Circuit.maxBlock
    cases hp : ops.ports b.obj with
    | none => exact ⟨best, rfl⟩
    | some ps =>
      cases hx : sub b.obj with
      | none => exact ⟨best, rfl⟩
      | some mx =>
        obtain ⟨r, hr⟩ := hsub _ _ _ hp hx (blockE s'.waves sol b.name ps)
        have hzz : s'.zbase = zb := hi1.zb
        simp only [hzz, hr]
        exact ⟨_, rfl⟩

/-- C71: both classes refuse a port that is not mentioned in the excitation with the same exception, and nothing changes (`maxV` of the legacy class in
any state, that of `rfCircuit` when it knows the position of every port). -/
theorem C71_maxV_missing {s : St ℂ O F Fl} {o : OSt ℂ O F Fl} (hs : s.ports = o.ports) (hx : s.ports.length ≤ s.xpos.length) {f : F} {E : List (Node × ℂ)}
    {z : Option ℂ} {fl : Fl} {p : Node} (hp : p ∈ o.ports) (hE : dictGet p E = none) :
    maxV ops sub o f E z fl = (o, .error .valueError) ∧ Circuit.maxV ops sub s f E z fl = (s, .error .valueError) := by
  have : ∃ e, mapE (dictIndex E) o.ports = .error e := by
    cases hEa : mapE (dictIndex E) o.ports with
    | error e => exact ⟨e, rfl⟩
    | ok Ea =>
      exfalso
      rw [mapE_eq_ok] at hEa
      obtain ⟨v, _, hv⟩ := forall₂_mem_left hEa hp
      rw [dictIndex_eq_ok, hE] at hv
      cases hv
  obtain ⟨e, he⟩ := this
  unfold maxV Circuit.maxV
  rw [hs, he, if_neg (by rw [← hs]; omega)]
  exact ⟨rfl, rfl⟩

end
end PyRFtk.Circuit.Old

namespace PyRFtk.Circuit.Ex
open Old

/-- the loaded through line of `CircuitPower.lean` -/
noncomputable def maxCalls : List (Old.Call ℂ (Imm ℂ Unit Unit) Unit Unit) := [.addblock "A" thru .none 0, .terminate (.blk "A" "2") (.RC (1/2))]

/-- the hypotheses of `C71_maxV_same` and `C71_maxV_answers` are met: both classes find the same maximum -/
theorem C71_maxV_witness : Regular oc (fun _ => none) 0 false (St.init ((50 : ℝ) : ℂ) []) maxCalls ∧ ∃ t pl,
    (Circuit.maxV oc (fun _ => some fun _ _ _ _ => .ok (7, "middle")) (run (stepR oc (fun _ => none) 0) (St.init ((50 : ℝ) : ℂ) []) maxCalls) ()
      [(.blk "A" "1", 1)] none ()).2 = .ok (some (t, pl)) ∧
    (Old.maxV oc (fun _ => some fun _ _ _ _ => .ok (7, "middle")) (run (stepO oc (fun _ => none) 0) (OSt.init ((50 : ℝ) : ℂ) []) maxCalls) ()
      [(.blk "A" "1", 1)] none ()).2 = .ok (some (t, pl)) ∧ 7 ≤ t := by
  have hreg : Regular oc (fun _ => none) 0 false (St.init ((50 : ℝ) : ℂ) []) maxCalls := by
    unfold maxCalls
    simp only [Regular]
    refine ⟨⟨rfl, Or.inr ⟨by trivial, ?_⟩⟩, ⟨rfl, by trivial, ?_⟩, by trivial⟩
    · intro l hl
      rw [show resolvePorts oc thru .none = .ok ["1", "2"] from rfl] at hl
      injection hl with hl
      rw [← hl]; decide
    · show Node.blk "A" "2" ∈ [Node.blk "A" "1", Node.blk "A" "2"]
      simp
  have hk : Keeps oc Imm.beh (fun _ => none) := fun o m h => by cases h
  obtain ⟨s', t, pl, h1, h2⟩ := C48_circuit_maxV_witness
  have hrun : run (stepR oc (fun _ => none) 0) (St.init ((50 : ℝ) : ℂ) []) maxCalls = c2 := rfl
  refine ⟨hreg, t, pl, ?_, ?_, h2⟩
  · rw [hrun, h1]
  · exact C71_maxV_same (imm_lawful ℂ Unit Unit) hk hreg hrun.symm rfl (by
      intro h
      have : c2.ports = [.blk "A" "1"] := rfl
      rw [this] at h
      cases h) h1

end PyRFtk.Circuit.Ex
