import Verif.CircuitOld
import Verif.CircuitShare

/-!
# The legacy class `circuit`: properties (C71)
-/

set_option linter.unusedSectionVars false

namespace PyRFtk.Circuit.Old

section
variable {K O F Fl : Type*} [Field K] [DecidableEq F] [DecidableEq Fl]

/-! ## The same calls on both classes -/

/-- a call on a circuit; both classes have these methods with the same parameters -/
inductive Call (K O F Fl : Type*)
  | addblock (name : String) (obj : O) (ports : PortSpec) (relpos : ℚ)
  | connect (ps : List Node)
  | terminate (p : Node) (args : TermArgs K)
  | getS (f : F) (z : Option K) (fl : Fl)
  | solve (f : F) (E : List (Node × K)) (z : Option K) (fl : Fl)
  | solution (f : F) (E : List (Node × K)) (z : Option K) (nodes : Option (List String)) (fl : Fl)

/-- what a call answers -/
inductive Ans (K : Type*)
  | done
  | S (M : SMat K)
  | sol (v : SVec K)
  | table (t : List (Node × Quad K))

/-- a call on an `rfCircuit` -/
noncomputable def stepR (ops : ObjOps K O F Fl) (sub : SubSol K O F Fl) (nan : K) (s : St K O F Fl) : Call K O F Fl → St K O F Fl × Except Err (Ans K)
  | .addblock name obj ports relpos => let r := Circuit.addblock ops nan s name obj ports relpos; (r.1, r.2.map fun _ => .done)
  | .connect ps => let r := Circuit.connect ops s ps; (r.1, r.2.map fun _ => .done)
  | .terminate p args => let r := Circuit.terminate s p args; (r.1, r.2.map fun _ => .done)
  | .getS f z fl => let r := Circuit.getS ops s f z fl; (r.1, r.2.map .S)
  | .solve f E z fl => let r := Circuit.solve ops s f E z fl; (r.1, r.2.map .sol)
  | .solution f E z nodes fl => let r := solutionAll ops sub s f E z nodes fl; (r.1, r.2.map .table)

/-- the same call on a `circuit` (positions are left out) -/
noncomputable def stepO (ops : ObjOps K O F Fl) (sub : SubSol K O F Fl) (nan : K) (o : OSt K O F Fl) : Call K O F Fl → OSt K O F Fl × Except Err (Ans K)
  | .addblock name obj ports _ => let r := addblock ops nan o name obj ports; (r.1, r.2.map fun _ => .done)
  | .connect ps => let r := connect o ps; (r.1, r.2.map fun _ => .done)
  | .terminate p args => let r := terminate o p args; (r.1, r.2.map fun _ => .done)
  | .getS f z fl => let r := getS ops o f z fl; (r.1, r.2.map .S)
  | .solve f E z fl => let r := solve ops o f E z fl; (r.1, r.2.map .sol)
  | .solution f E z nodes fl => let r := solution ops sub o f E z nodes fl; (r.1, r.2.map .table)

/-- the answers of a list of calls (a call that raises does not stop the caller) -/
def answers {σ C A : Type*} (step : σ → C → σ × Except Err A) : σ → List C → List (Except Err A)
  | _, [] => []
  | s, c :: cs => (step s c).2 :: answers step (step s c).1 cs

/-- the object after a list of calls -/
def run {σ C A : Type*} (step : σ → C → σ × Except Err A) : σ → List C → σ
  | s, [] => s
  | s, c :: cs => run step (step s c).1 cs

/-- the calls are what both classes are meant for: first the circuit is built — blocks with distinct port names, `connect`, `terminate` of a free port, none
of them refused by `rfCircuit` — and then it is evaluated and solved any number of times, always with at least one free port and with a list of nodes for `Solution`, and objects of existing
blocks may be replaced at any time.  `ev`: an evaluation took place -/
def Regular (ops : ObjOps K O F Fl) (sub : SubSol K O F Fl) (nan : K) : Bool → St K O F Fl → List (Call K O F Fl) → Prop
  | _, _, [] => True
  | ev, s, c :: cs =>
    (match c with
      | .addblock name obj ports _ => (stepR ops sub nan s c).2 = .ok .done ∧
          ((∃ b ∈ s.blocks, b.name = name) ∨ ev = false ∧ ∀ l, resolvePorts ops obj ports = .ok l → l.Nodup)
      | .connect _ => (stepR ops sub nan s c).2 = .ok .done ∧ ev = false
      | .terminate p _ => (stepR ops sub nan s c).2 = .ok .done ∧ ev = false ∧ p ∈ s.ports
      | .getS _ _ _ => s.ports ≠ []
      | .solve _ _ _ _ => s.ports ≠ []
      | .solution _ _ _ nodes _ => s.ports ≠ [] ∧ nodes ≠ none) ∧
    Regular ops sub nan (match c with | .getS _ _ _ => true | .solve _ _ _ _ => true | .solution _ _ _ _ _ => true | _ => ev) (stepR ops sub nan s c).1 cs

/-! ## The correspondence of the states (proof) -/

/-- an entry without its position -/
def toOld (b : Blk O) : OBlk O := ⟨b.name, b.ports, b.loc, b.obj⟩

/-- the attributes both classes have -/
def ofSt (s : St K O F Fl) (i : List ℕ) : OSt K O F Fl :=
  ⟨s.zbase, s.rows, s.cols, s.waves, s.ports, s.blocks.map toOld, s.eqns, s.E, i, s.portnames, s.aliased, s.f, s.flags, s.S, s.invM⟩

theorem find_old (name : String) (bs : List (Blk O)) :
    (bs.map toOld).find? (fun b => b.name = name) = (bs.find? (fun b => b.name = name)).map toOld := by
  rw [List.find?_map]; rfl

theorem addblock_old (ops : ObjOps K O F Fl) (nan : K) (s : St K O F Fl) (i : List ℕ) (name : String) (obj : O) (ports : PortSpec) (relpos : ℚ) :
    addblock ops nan (ofSt s i) name obj ports =
      (ofSt (Circuit.addblock ops nan s name obj ports relpos).1 i, (Circuit.addblock ops nan s name obj ports relpos).2) := by
  unfold addblock Circuit.addblock
  simp only [ofSt]
  rw [find_old]
  cases hf : s.blocks.find? (fun b => b.name = name) with
  | some b =>
    simp only [Option.map_some]
    by_cases hl : ops.len obj ≠ ops.len b.obj
    · rw [if_pos (show ops.len obj ≠ ops.len (toOld b).obj from hl), if_pos hl]
      refine Prod.ext rfl ?_
      simp only [List.any_map]
      rfl
    · rw [if_neg (show ¬ ops.len obj ≠ ops.len (toOld b).obj from hl), if_neg hl]
      refine Prod.ext ?_ rfl
      simp only [OSt.mk.injEq, true_and, and_true, replaceObj, List.map_map]
      refine List.map_congr_left fun b _ => ?_
      simp only [Function.comp_apply]
      by_cases hb : b.name = name
      · rw [if_pos hb, if_pos (show (toOld b).name = name from hb)]; rfl
      · rw [if_neg hb, if_neg (show ¬ (toOld b).name = name from hb)]
  | none =>
    simp only [Option.map_none]
    cases hr : resolvePorts ops obj ports with
    | error e => rfl
    | ok l => simp [toOld]

theorem consume_old {new : List Node} : ∀ {ps : List Node} {s s' : St K O F Fl}, consume new ps s = (s', .ok ()) →
    removeAll new ps s.ports = .ok s'.ports ∧ ∃ xs, s' = { s with ports := s'.ports, xpos := xs }
  | [], s, s', h => by
    simp only [consume, Prod.mk.injEq, and_true] at h
    subst h
    exact ⟨rfl, _, rfl⟩
  | p :: ps, s, s', h => by
    unfold consume at h
    unfold removeAll
    by_cases hp : p ∈ new
    · rw [if_pos hp] at h ⊢
      exact consume_old h
    · rw [if_neg hp] at h ⊢
      cases hk : pyIndex s.ports p with
      | error e => simp [hk] at h
      | ok kp =>
        have hm := pyIndex_isOk hk
        rw [if_pos hm]
        rw [pyIndex_of_mem hm] at hk
        injection hk with hk
        rw [pyIndex_of_mem hm] at h
        simp only at h
        cases hx : pyPop s.xpos (idx s.ports p) with
        | error e => simp [hx] at h
        | ok xs =>
          simp only [hx] at h
          obtain ⟨h1, ys, h2⟩ := consume_old h
          rw [eraseIdx_idxOf] at h1
          exact ⟨h1, ys, h2⟩

theorem connectTail_old {new ps : List Node} {s s' : St K O F Fl} (h : connectTail new ps s = (s', .ok ())) :
    ∃ idxAs idxBs xs l, mapE (fun p => pyIndex s.waves (waveA new p)) ps = .ok idxAs ∧
      mapE (fun p => pyIndex s.waves (waveB new p)) ps = .ok idxBs ∧ removeAll new ps s.ports = .ok l ∧
      s' = { s with ports := l, xpos := xs, S := none, invM := none
                    rows := s.rows.map (padRow s.cols) ++ (idxAs.zipIdx).map (fun a => junctionRow idxAs.length a.2 a.1 idxBs)
                    cols := s.cols + 2 * new.length, eqns := s.eqns ++ ps.map .C } := by
  unfold connectTail at h
  cases h1 : mapE (fun p => pyIndex s.waves (waveA new p)) ps with
  | error e => simp [h1] at h
  | ok idxAs =>
    cases h2 : mapE (fun p => pyIndex s.waves (waveB new p)) ps with
    | error e => simp [h1, h2] at h
    | ok idxBs =>
      simp only [h1, h2] at h
      cases h3 : consume new ps s with
      | mk t r =>
        cases r with
        | error e => simp [h3] at h
        | ok u =>
          simp only [h3, Prod.mk.injEq, and_true] at h
          obtain ⟨h4, xs, h5⟩ := consume_old h3
          refine ⟨idxAs, idxBs, xs, t.ports, rfl, rfl, h4, ?_⟩
          rw [← h, h5]

theorem connect_old {ops : ObjOps K O F Fl} {s s' : St K O F Fl} {ps : List Node} (hS : s.S = none) (hi : s.invM = none) (i : List ℕ)
    (h : Circuit.connect ops s ps = (s', .ok ())) : connect (ofSt s i) ps = (ofSt s' i, .ok ()) ∧ s'.S = none ∧ s'.invM = none := by
  unfold Circuit.connect at h
  simp only at h
  unfold connect
  have hw : (ofSt s i).waves = s.waves := rfl
  simp only [hw]
  cases hn : ps.filter (fun p => (Dir.inn, p) ∉ s.waves) with
  | nil =>
    simp only [hn] at h
    obtain ⟨A, B, xs, l, h1, h2, h3, rfl⟩ := connectTail_old h
    simp only [List.flatMap_nil, List.append_nil, h1, h2]
    rw [show (ofSt s i).ports = s.ports from rfl, h3]
    refine ⟨?_, by trivial, by trivial⟩
    simp only [ofSt, hS, hi]
  | cons a as =>
    cases as with
    | cons b bs => rw [hn] at h; simp at h
    | nil =>
      cases a with
      | blk b p => simp only [hn] at h; simp at h
      | ext n =>
        simp only [hn] at h
        cases ho : ps.filter (fun p => (Dir.inn, p) ∈ s.waves) with
        | nil => simp [ho] at h
        | cons o os =>
          simp only [ho] at h
          split at h
          · simp at h
          · rename_i x hx
            obtain ⟨A, B, xs, l, h1, h2, h3, rfl⟩ := connectTail_old h
            simp only at h1 h2 h3
            have hf : (List.flatMap (fun p => [(Dir.inn, p), (Dir.out, p)]) [Node.ext n]) = [(Dir.inn, .ext n), (Dir.out, .ext n)] := rfl
            simp only [hf, h1, h2]
            rw [show (ofSt s i).ports = s.ports from rfl, h3]
            refine ⟨?_, by trivial, by trivial⟩
            simp only [ofSt, hS, hi]

theorem termRho_old {zb : K} {args : TermArgs K} {rho : K} (h : Circuit.termRho zb args = .ok rho) :
    termRho zb args = .ok rho ∧ args ≠ .several := by
  cases args <;> simp_all [Circuit.termRho, termRho]

theorem terminate_old {ops : ObjOps K O F Fl} {net : Net K} {s s' : St K O F Fl} {p : Node} {args : TermArgs K} (hr : Rep ops net s)
    (hE : s.E = []) (hp : p ∈ s.ports) (hS : s.S = none) (hi : s.invM = none) (i : List ℕ)
    (h : Circuit.terminate s p args = (s', .ok ())) : terminate (ofSt s i) p args = (ofSt s' i, .ok ()) ∧ s'.S = none ∧ s'.invM = none := by
  have hidx : pyIndex s.ports p = .ok (idx s.ports p) := pyIndex_of_mem hp
  unfold Circuit.terminate at h
  simp only at h
  cases hrho : Circuit.termRho s.zbase args with
  | error e => rw [hrho] at h; simp at h
  | ok rho =>
    rw [hrho] at h
    simp only at h
    obtain ⟨ho, hsev⟩ := termRho_old hrho
    cases hT : dictGet p s.T with
    | some t =>
      exfalso
      have h4 := hr.rep.loads_keys
      have : p ∈ net.loads.map Prod.fst := by
        rw [h4]; exact List.mem_map_of_mem (f := Prod.fst) (dictGet_mem hT)
      refine ((hr.rep.pmem p).1 hp).2 ?_
      unfold Net.used
      simp only [List.mem_append]
      tauto
    | none =>
      rw [hT] at h
      simp only [hE] at h
      rw [show dictGet p ([] : List (Node × ℕ)) = none from rfl] at h
      simp only [hidx] at h
      cases hx : pyPop s.xpos (idx s.ports p) with
      | error e => simp [hx] at h
      | ok xs =>
        simp only [hx] at h
        cases ha : pyIndex s.waves (.inn, p) with
        | error e => simp [ha] at h
        | ok a =>
          cases hb : pyIndex s.waves (.out, p) with
          | error e => simp [ha, hb] at h
          | ok b =>
            simp only [ha, hb, Prod.mk.injEq, and_true] at h
            subst h
            refine ⟨?_, rfl, rfl⟩
            rw [eraseIdx_idxOf]
            have key : terminate (ofSt s i) p args =
                if p ∉ s.ports then (ofSt s i, .error .valueError) else
                let s := { ofSt s i with ports := s.ports.erase p }
                match termRho s.zbase args with
                | .error e => (s, .error e)
                | .ok rho => match pyIndex s.waves (.inn, p), pyIndex s.waves (.out, p) with
                  | .ok idxA, .ok idxB =>
                    ({ s with rows := s.rows ++ [setCol (setCol zeroRow idxA (-1)) idxB rho]
                              eqns := s.eqns ++ [.T p] }, .ok ())
                  | _, _ => (s, .error .unboundLocal) := by
              cases args <;> first | exact absurd rfl hsev | rfl
            rw [key, if_neg (by simpa using hp)]
            simp only [ofSt, ho, ha, hb, hS, hi, hE]

/-! ### evaluation -/

theorem addE_old (s : St K O F Fl) (i : List ℕ) (p : Node) :
    ∃ j, addE (ofSt s i) p = (ofSt (Circuit.addE s p).1 j, (Circuit.addE s p).2) ∧ ((Circuit.addE s p).2 = .ok () → j = i ++ [s.rows.length]) := by
  unfold addE Circuit.addE
  rw [show (ofSt s i).waves = s.waves from rfl, show (ofSt s i).cols = s.cols from rfl]
  cases pyIndex s.waves (.inn, p) with
  | error e => exact ⟨i, rfl, by simp⟩
  | ok a =>
    simp only
    by_cases hc : s.cols ≤ a
    · simp only [if_pos hc]; exact ⟨i, rfl, by simp⟩
    · simp only [if_neg hc]; exact ⟨i ++ [s.rows.length], rfl, by simp⟩

theorem addE_rows {s : St K O F Fl} {p : Node} (_ : (Circuit.addE s p).2 = .ok ()) : (Circuit.addE s p).1.rows.length = s.rows.length + 1 := by
  unfold Circuit.addE
  cases hp : pyIndex s.waves (.inn, p) with
  | error e => simp
  | ok a =>
    simp only
    by_cases hc : s.cols ≤ a
    · rw [if_pos hc]; simp
    · rw [if_neg hc]; simp

theorem iter_old : ∀ (ps : List Node) (s : St K O F Fl) (i : List ℕ),
    ∃ j, iter addE (ofSt s i) ps = (ofSt (iter Circuit.addE s ps).1 j, (iter Circuit.addE s ps).2) ∧
      ((iter Circuit.addE s ps).2 = .ok () → j = i ++ List.range' s.rows.length ps.length)
  | [], s, i => ⟨i, rfl, fun _ => by simp⟩
  | p :: ps, s, i => by
    unfold iter
    obtain ⟨j0, g1, g2⟩ := addE_old s i p
    rw [g1]
    cases h : Circuit.addE s p with
    | mk t r =>
      rw [h] at g2
      cases r with
      | error e => exact ⟨j0, by simp, by simp⟩
      | ok u =>
        simp only
        rw [g2 rfl]
        obtain ⟨j, h1, h2⟩ := iter_old ps t (i ++ [s.rows.length])
        refine ⟨j, h1, fun hk => ?_⟩
        have h3 := addE_rows (s := s) (p := p) (by rw [h])
        rw [h] at h3
        rw [h2 hk, h3]
        simp [List.range'_succ]

theorem names_old (s : St K O F Fl) (i : List ℕ) : (ofSt s i).names = s.names := rfl

theorem mapE_zipIdx : ∀ {ps : List Node} (n : ℕ), ps.Nodup → mapE (dictIndex (ps.zipIdx n)) ps = .ok (List.range' n ps.length) := by
  intro ps n hnd
  rw [mapE_ok_of_forall (h := fun p => n + ps.idxOf p)]
  · congr 1
    apply List.ext_getElem
    · simp
    · intro k h1 h2
      simp only [List.length_map] at h1
      simp [hnd.idxOf_getElem]
  · intro p hp
    have hm : (p, n + ps.idxOf p) ∈ ps.zipIdx n := by
      rw [List.mem_zipIdx_iff_le_and_getElem?_sub]
      refine ⟨by simp, ?_⟩
      simp only [Nat.add_sub_cancel_left]
      exact getElem?_idx hp
    have hnd' : ((ps.zipIdx n).map Prod.fst).Nodup := by
      simpa using hnd
    have := dictGet_of_mem hnd' hm
    unfold dictIndex
    rw [this]

/-- the rows of the external ports -/
theorem squareUp_old {ops : ObjOps K O F Fl} {net : Net K} {s : St K O F Fl} (h : Rep ops net s) (i : List ℕ) :
    ∃ j, squareUp (ofSt s i) = (ofSt (Circuit.squareUp s).1 j, (Circuit.squareUp s).2) ∧ (s.rows.length = s.cols → j = i) ∧
      (s.rows.length ≠ s.cols → (Circuit.squareUp s).2 = .ok () →
        mapE (dictIndex (Circuit.squareUp s).1.E) (Circuit.squareUp s).1.ports = .ok j) := by
  by_cases hsq : s.rows.length = s.cols
  · refine ⟨i, ?_, fun _ => rfl, fun hn => absurd hsq hn⟩
    unfold squareUp Circuit.squareUp
    rw [if_pos hsq, if_pos (show (ofSt s i).rows.length = (ofSt s i).cols from hsq)]
  · have hlw : s.waves.length = s.cols := h.wlen
    have hE : s.E = [] := h.rep.lenE (by show s.rows.length ≠ s.waves.length; omega)
    have hpnd : s.ports.Nodup := h.rep.pnd
    have key : ∀ ps : List Node, ps.Nodup → (∀ p ∈ ps, p ∈ s.ports) →
        ∃ j, iter addE { ofSt s i with S := none, idxEs := [], ports := ps, aliased := true } ps =
            (ofSt (iter Circuit.addE { s with S := none, ports := ps, aliased := true } ps).1 j,
             (iter Circuit.addE { s with S := none, ports := ps, aliased := true } ps).2) ∧
          mapE (dictIndex (iter Circuit.addE { s with S := none, ports := ps, aliased := true } ps).1.E)
            (iter Circuit.addE { s with S := none, ports := ps, aliased := true } ps).1.ports = .ok j := by
      intro ps hnd hps
      obtain ⟨j, h1, h2⟩ := iter_old ps { s with S := none, ports := ps, aliased := true } []
      refine ⟨j, h1, ?_⟩
      have h3 := iter_addE ps ({ s with S := none, ports := ps, aliased := true } : St K O F Fl)
        (fun p hp => (h.rep.wmem .inn p).2 ((h.rep.pmem p).1 (hps p hp)).1) (le_of_eq hlw) hnd (by simp [hE])
      rw [h3] at h2 ⊢
      rw [h2 rfl]
      simp only [hE, List.nil_append]
      exact mapE_zipIdx _ hnd
    unfold squareUp Circuit.squareUp
    rw [if_neg hsq, if_neg (show ¬ (ofSt s i).rows.length = (ofSt s i).cols from hsq)]
    simp only
    have e1 : ({ ofSt s i with S := none, idxEs := [] } : OSt K O F Fl).names = s.names := rfl
    have e2 : ({ s with S := none } : St K O F Fl).names = s.names := rfl
    rw [e1, e2]
    by_cases hn : s.names = []
    · rw [if_neg (by simpa using hn), if_neg (by simpa using hn)]
      obtain ⟨j, h1, h2⟩ := key s.ports hpnd fun p hp => hp
      exact ⟨j, h1, fun hc => absurd hc hsq, fun _ _ => h2⟩
    · rw [if_pos hn, if_pos hn]
      by_cases hl : s.names.length ≠ s.ports.length
      · rw [if_pos hl, if_pos (show s.names.length ≠ (ofSt s i).ports.length from hl)]
        exact ⟨[], rfl, fun hc => absurd hc hsq, fun _ hk => by simp at hk⟩
      · rw [if_neg hl, if_neg (show ¬ s.names.length ≠ (ofSt s i).ports.length from hl)]
        by_cases hq : ∃ p ∈ s.ports, p ∉ s.names
        · rw [if_pos hq, if_pos (show ∃ p ∈ (ofSt s i).ports, p ∉ s.names from hq)]
          exact ⟨[], rfl, fun hc => absurd hc hsq, fun _ hk => by simp at hk⟩
        · rw [if_neg hq, if_neg (show ¬ ∃ p ∈ (ofSt s i).ports, p ∉ s.names from hq)]
          push Not at hq hl
          have hperm : List.Perm s.ports s.names :=
            ((List.subperm_of_subset hpnd hq).perm_of_length_le (le_of_eq hl))
          obtain ⟨j, h1, h2⟩ := key s.names (hperm.nodup_iff.1 hpnd) fun p hp => hperm.mem_iff.2 hp
          exact ⟨j, h1, fun hc => absurd hc hsq, fun _ _ => h2⟩

theorem solveWith_old (s : St K O F Fl) {A B i : List ℕ} {n : ℕ} (hn : n ≠ 0) (hA : A.length = n) (hi : i.length = n) :
    solveWith (ofSt s i) A B = (ofSt (Circuit.solveWith s n A B i).1 i, (Circuit.solveWith s n A B i).2) := by
  unfold solveWith Circuit.solveWith
  by_cases hsq : s.rows.length ≠ s.cols
  · rw [if_pos hsq, if_pos (show (ofSt s i).rows.length ≠ (ofSt s i).cols from hsq)]
  · rw [if_neg hsq, if_neg (show ¬ (ofSt s i).rows.length ≠ (ofSt s i).cols from hsq)]
    cases hW : npInv s.mat with
    | error e =>
      have hW' : npInv (ofSt s i).mat = .error e := hW
      simp only [hW']
    | ok W =>
      have hW' : npInv (ofSt s i).mat = .ok W := hW
      simp only [hW']
      have hA0 : A ≠ [] := fun e => hn (by rw [← hA, e]; rfl)
      have hi0 : i ≠ [] := fun e => hn (by rw [← hi, e]; rfl)
      rw [if_neg (by simp [ofSt, hA0, hi0]), if_neg hn]
      rw [show (ofSt s i).idxEs = i from rfl]
      by_cases hr : ∃ k ∈ A ++ B ++ i, ¬ k < s.cols
      · rw [if_pos hr, if_pos (show ∃ k ∈ A ++ B ++ i, ¬ k < (ofSt s i).cols from hr)]; rfl
      · rw [if_neg hr, if_neg (show ¬ ∃ k ∈ A ++ B ++ i, ¬ k < (ofSt s i).cols from hr), if_neg (by rw [hA, hi]; simp)]
        subst hA
        have hc : npInv (cut (L := (ofSt s i).cols) W A.length A i) = npInv (cut W A.length A i) := rfl
        cases hQ : npInv (cut W A.length A i) with
        | error e => rw [hQ] at hc; simp only [hc]; rfl
        | ok Q => rw [hQ] at hc; simp only [hc]; rfl

/-- the correspondence of an `rfCircuit` and a `circuit` -/
def Sim (s : St K O F Fl) (o : OSt K O F Fl) : Prop :=
  ∃ i, o = ofSt s i ∧ (s.rows.length = s.cols → s.ports ≠ [] → mapE (dictIndex s.E) s.ports = .ok i)

theorem mapE_length {α β : Type*} {g : α → Except Err β} {l : List α} {r : List β} (h : mapE g l = .ok r) : r.length = l.length :=
  (List.Forall₂.length_eq (mapE_eq_ok.1 h)).symm

theorem solveE_idx (s : St K O F Fl) : (solveE s).1.rows = s.rows ∧ (solveE s).1.cols = s.cols ∧ (solveE s).1.E = s.E ∧
    (solveE s).1.ports = s.ports := by
  unfold solveE Circuit.solveWith
  split
  · exact ⟨rfl, rfl, rfl, rfl⟩
  · split
    · exact ⟨rfl, rfl, rfl, rfl⟩
    · exact ⟨rfl, rfl, rfl, rfl⟩
    · split
      · exact ⟨rfl, rfl, rfl, rfl⟩
      · split
        · exact ⟨rfl, rfl, rfl, rfl⟩
        · simp only
          split
          · exact ⟨rfl, rfl, rfl, rfl⟩
          · split
            · exact ⟨rfl, rfl, rfl, rfl⟩
            · split <;> exact ⟨rfl, rfl, rfl, rfl⟩

theorem extS_old {ops : ObjOps K O F Fl} {net : Net K} {s : St K O F Fl} {o : OSt K O F Fl} (h : Rep ops net s) (hp : s.ports ≠ []) (hs : Sim s o) :
    Sim (Circuit.extS s).1 (extS o).1 ∧ (extS o).2 = (Circuit.extS s).2 := by
  obtain ⟨i, rfl, hi⟩ := hs
  obtain ⟨j, h1, h2, h3⟩ := squareUp_old h i
  obtain ⟨q1, q2, q3, q4, q5, q6, q7, q8, q9, q10⟩ := squareUp_spec h
  unfold extS Circuit.extS
  rw [h1]
  cases hq : Circuit.squareUp s with
  | mk t r =>
    rw [hq] at q1 q8 q9 q10 h3
    cases r with
    | error e =>
      refine ⟨⟨j, rfl, fun hc _ => ?_⟩, rfl⟩
      exfalso
      have := (q10 (by simp)).1
      simp only at this
      subst this
      simp only [reduceCtorEq, false_iff, not_or] at q9
      exact q9.1 hc
    | ok u =>
      obtain ⟨k1, -, k2, k3⟩ := q8 rfl
      simp only at k1 k2 k3 q1 h3 ⊢
      have hpt : t.ports ≠ [] := by
        by_cases hsq : s.rows.length = s.cols
        · have : Circuit.squareUp s = (s, .ok ()) := by unfold Circuit.squareUp; rw [if_pos hsq]
          rw [hq] at this; injection this with this _; rw [this]; exact hp
        · rw [k3 hsq]
          split
          · exact hp
          · assumption
      have hal : t.aliased = true := (q1.squared k1).1.resolve_left fun x => hpt x.1
      have hidx : mapE (dictIndex t.E) t.ports = .ok j := by
        by_cases hsq : s.rows.length = s.cols
        · have : Circuit.squareUp s = (s, .ok ()) := by unfold Circuit.squareUp; rw [if_pos hsq]
          rw [hq] at this; injection this with this _; rw [this, h2 hsq]; exact hi hsq hp
        · exact h3 hsq (by trivial)
      have hn : t.names = t.ports := by simp [St.names, hal]
      have hwm : ∀ (d : Dir), ∀ p ∈ t.ports, (d, p) ∈ t.waves := by
        intro d p hp
        exact (q1.rep.wmem d p).2 ((q1.rep.pmem p).1 hp).1
      have m2 : ∀ d, mapE (fun p => pyIndex t.waves (d, p)) t.ports = .ok (t.ports.map fun p => idx t.waves (d, p)) := by
        intro d
        exact mapE_ok_of_forall fun p hp => pyIndex_of_mem (hwm d p hp)
      have e1 : solveE t = Circuit.solveWith t t.ports.length (t.ports.map fun p => idx t.waves (Dir.inn, p))
          (t.ports.map fun p => idx t.waves (Dir.out, p)) j := by
        unfold solveE
        simp only [hn, hidx, m2]
      have hw : (ofSt t j).waves = t.waves := rfl
      have hpp : (ofSt t j).ports = t.ports := rfl
      simp only [hw, hpp, m2]
      rw [solveWith_old t (n := t.ports.length) (fun e => hpt (List.length_eq_zero_iff.1 e)) (by simp) (mapE_length hidx), ← e1]
      obtain ⟨r1, r2, r3, r4⟩ := solveE_idx t
      refine ⟨⟨j, rfl, fun _ _ => ?_⟩, rfl⟩
      rw [r3, r4]; exact hidx

theorem fill_old (ops : ObjOps K O F Fl) (f : F) (zb : K) (fl : Fl) : ∀ (bs : List (Blk O)) (rows : List (ℕ → K)),
    fill ops f zb fl (bs.map toOld) rows =
      ((fillBlocks ops f zb fl bs rows).1.map toOld, (fillBlocks ops f zb fl bs rows).2.1, (fillBlocks ops f zb fl bs rows).2.2)
  | [], rows => rfl
  | b :: bs, rows => by
    rw [List.map_cons]
    unfold fill fillBlocks
    rw [show (toOld b).obj = b.obj from rfl, show (toOld b).loc = b.loc from rfl, show (toOld b).ports = b.ports from rfl]
    cases hg : ops.getS b.obj f zb fl with
    | mk o r =>
      cases r with
      | error e => rfl
      | ok S =>
        simp only
        cases hb : setBlock rows b.loc b.ports.length S with
        | error e => rfl
        | ok rows' =>
          simp only
          rw [fill_old ops f zb fl bs rows']
          rfl

variable {ops : ObjOps K O F Fl} {beh : O → F → K → Fl → Except Err (SMat K)} {nan zb : K} {names : List Node}
variable {net : Net K} {bh : Behave K F Fl} {s s' : St K O F Fl} {o : OSt K O F Fl} {ph : Phase}

theorem recompute_old (hlaw : Lawful ops beh) (h : Inv ops beh zb names net bh s) (hp : s.ports ≠ []) (hs : Sim s o) (f : F) (fl : Fl) :
    Sim (Circuit.recompute ops s f fl).1 (recompute ops o f fl).1 ∧ (recompute ops o f fl).2 = (Circuit.recompute ops s f fl).2 := by
  obtain ⟨hrep, hbhv, hzb, hnm, hord⟩ := h
  obtain ⟨i, rfl, hi⟩ := hs
  have hlen := fillBlocks_length (ops := ops) f s.zbase fl s.blocks s.rows
  obtain ⟨f1, f2, f3, f4⟩ := fillBlocks_spec hlaw f s.zbase fl s.blocks s.rows hrep.rep.blen hrep.rep.rows_disjoint
  have hfo := fill_old ops f s.zbase fl s.blocks s.rows
  unfold recompute Circuit.recompute
  rw [show (ofSt s i).blocks = s.blocks.map toOld from rfl, show (ofSt s i).rows = s.rows from rfl, show (ofSt s i).zbase = s.zbase from rfl, hfo]
  generalize fillBlocks ops f s.zbase fl s.blocks s.rows = r at f1 f2 f3 f4 hlen
  have hlike : List.Forall₂ (Blk.Like ops) s.blocks r.1 := f2.imp fun _ _ x => x.1
  have hrep1 : Rep ops net ({ s with blocks := r.1, rows := r.2.1 } : St K O F Fl) := by
    refine ⟨hrep.rep.fill f1 hlike, hrep.wlen, ?_⟩
    intro b p hb
    have h1 := congrArg (List.map Prod.fst) (forall₂_like_map hlike)
    simp only [List.map_map] at h1
    have h3 : r.1.map Blk.name = s.blocks.map Blk.name := h1
    show b ∈ r.1.map Blk.name
    rw [h3]
    exact hrep.bnode b p hb
  have hsim : Sim ({ s with blocks := r.1, rows := r.2.1 } : St K O F Fl) { ofSt s i with blocks := r.1.map toOld, rows := r.2.1 } :=
    ⟨i, rfl, fun h1 h2 => hi (by rw [← hlen]; exact h1) h2⟩
  obtain ⟨e1, e2⟩ := extS_old hrep1 hp hsim
  simp only
  cases hr : r.2.2 with
  | error e => exact ⟨hsim, rfl⟩
  | ok u =>
    simp only
    have e1' := e1
    cases hx : Circuit.extS ({ s with blocks := r.1, rows := r.2.1 } : St K O F Fl) with
    | mk t q =>
      cases hy : extS ({ ofSt s i with blocks := r.1.map toOld, rows := r.2.1 } : OSt K O F Fl) with
      | mk t' q' =>
        have hy' : extS ({ zbase := s.zbase, rows := r.2.1, cols := (ofSt s i).cols, waves := (ofSt s i).waves, ports := (ofSt s i).ports, blocks := r.1.map toOld, eqns := (ofSt s i).eqns, E := (ofSt s i).E, idxEs := (ofSt s i).idxEs, portnames := (ofSt s i).portnames, aliased := (ofSt s i).aliased, f := (ofSt s i).f, flags := (ofSt s i).flags, S := (ofSt s i).S, invM := (ofSt s i).invM } : OSt K O F Fl) = (t', q') := hy
        rw [hx, hy] at e1 e2
        simp only at e1 e2
        subst e2
        rw [hy']
        cases q' with
        | error e => exact ⟨e1, rfl⟩
        | ok M =>
          obtain ⟨j, rfl, hj⟩ := e1
          exact ⟨⟨j, rfl, hj⟩, rfl⟩

theorem get1S_old (hlaw : Lawful ops beh) (h : Inv ops beh zb names net bh s) (hp : s.ports ≠ []) (hs : Sim s o) (f : F) (fl : Fl) :
    Sim (Circuit.get1S ops s f fl).1 (get1S ops o f fl).1 ∧ (get1S ops o f fl).2 = (Circuit.get1S ops s f fl).2 := by
  have hr := recompute_old hlaw h hp hs f fl
  have hs' := hs
  obtain ⟨i, rfl, hi⟩ := hs
  unfold get1S Circuit.get1S
  rw [show (ofSt s i).S = s.S from rfl, show (ofSt s i).f = s.f from rfl, show (ofSt s i).flags = s.flags from rfl]
  cases s.S with
  | none => exact hr
  | some M =>
    simp only
    by_cases hc : s.f = some f ∧ s.flags = some fl
    · rw [if_pos hc, if_pos hc]; exact ⟨hs', rfl⟩
    · rw [if_neg hc, if_neg hc]; exact hr

theorem getS_old (hlaw : Lawful ops beh) (h : Inv ops beh zb names net bh s) (hp : s.ports ≠ []) (hs : Sim s o) (f : F) (z : Option K) (fl : Fl) :
    Sim (Circuit.getS ops s f z fl).1 (getS ops o f z fl).1 ∧ (getS ops o f z fl).2 = (Circuit.getS ops s f z fl).2 := by
  obtain ⟨h1, h2⟩ := get1S_old hlaw h hp hs f fl
  unfold getS Circuit.getS
  cases hx : Circuit.get1S ops s f fl with
  | mk t q =>
    cases hy : get1S ops o f fl with
    | mk t' q' =>
      rw [hx, hy] at h1 h2
      simp only at h1 h2
      subst h2
      cases q' with
      | error e => exact ⟨h1, rfl⟩
      | ok M =>
        cases z with
        | none => exact ⟨h1, rfl⟩
        | some z =>
          have h1' := h1
          obtain ⟨j, rfl, hj⟩ := h1
          simp only
          rw [show (ofSt t j).zbase = t.zbase from rfl]
          by_cases hc : z ≠ 0 ∧ z ≠ t.zbase
          · rw [if_pos hc, if_pos hc]; exact ⟨h1', rfl⟩
          · rw [if_neg hc, if_neg hc]; exact ⟨h1', rfl⟩

theorem applyInv_old (h : Rep ops net s) (hp : s.ports ≠ []) (hs : Sim s o) (N : ℕ) (Es : ℕ → K) :
    Sim (Circuit.applyInv s N Es).1 (applyInv o N Es).1 ∧ (applyInv o N Es).2 = (Circuit.applyInv s N Es).2 := by
  obtain ⟨e1, e2⟩ := extS_old h hp hs
  have hs' := hs
  obtain ⟨i, rfl, hi⟩ := hs
  unfold applyInv Circuit.applyInv
  rw [show (ofSt s i).invM = s.invM from rfl]
  cases s.invM with
  | some W =>
    simp only
    by_cases hc : N = W.n
    · rw [if_pos hc, if_pos hc]; exact ⟨hs', rfl⟩
    · rw [if_neg hc, if_neg hc]; exact ⟨hs', rfl⟩
  | none =>
    simp only
    cases hx : Circuit.extS s with
    | mk t q =>
      cases hy : extS (ofSt s i) with
      | mk t' q' =>
        rw [hx, hy] at e1 e2
        simp only at e1 e2
        subst e2
        cases q' with
        | error e => exact ⟨e1, rfl⟩
        | ok M =>
          have e1' := e1
          obtain ⟨j, rfl, hj⟩ := e1
          simp only
          rw [show (ofSt t j).invM = t.invM from rfl]
          cases t.invM with
          | none => exact ⟨e1', rfl⟩
          | some W =>
            simp only
            by_cases hc : N = W.n
            · rw [if_pos hc, if_pos hc]; exact ⟨e1', rfl⟩
            · rw [if_neg hc, if_neg hc]; exact ⟨e1', rfl⟩

theorem getS_ports_ne (hlaw : Lawful ops beh) (h : Inv ops beh zb names net bh s) (hp : s.ports ≠ []) {f : F} {z : Option K} {fl : Fl} {M : SMat K}
    (hg : Circuit.getS ops s f z fl = (s', .ok M)) : Inv ops beh zb names net bh s' ∧ s'.ports ≠ [] := by
  have h1 := getS_state hg
  rcases get1S_eq (ops := ops) s f fl with ⟨M', e1, e2, e3, e4⟩ | ⟨e1, e2⟩
  · rw [e4] at h1
    simp only at h1
    subst h1
    exact ⟨h, hp⟩
  · rw [e2] at h1
    obtain ⟨a, b, -⟩ := recompute_spec hlaw h f fl (s' := s') (res := (Circuit.recompute ops s f fl).2) (Prod.ext h1 rfl)
    refine ⟨a, ?_⟩
    have : ∃ M', (Circuit.recompute ops s f fl).2 = .ok M' := by
      cases hr : (Circuit.recompute ops s f fl).2 with
      | ok M' => exact ⟨M', rfl⟩
      | error e =>
        exfalso
        unfold Circuit.getS at hg
        rw [e2, show Circuit.recompute ops s f fl = ((Circuit.recompute ops s f fl).1, .error e) from Prod.ext rfl hr] at hg
        simp at hg
    obtain ⟨M', hM⟩ := this
    exact (b M' hM).2.2.2.1

theorem solve_old (hlaw : Lawful ops beh) (h : Inv ops beh zb names net bh s) (hp : s.ports ≠ []) (hs : Sim s o) (f : F) (E : List (Node × K))
    (z : Option K) (fl : Fl) :
    Sim (Circuit.solve ops s f E z fl).1 (solve ops o f E z fl).1 ∧ (solve ops o f E z fl).2 = (Circuit.solve ops s f E z fl).2 := by
  have hs0 := hs
  have hzp : o.zbase = s.zbase ∧ o.ports = s.ports := by obtain ⟨i, rfl, hi⟩ := hs; exact ⟨rfl, rfl⟩
  unfold solve Circuit.solve
  rw [hzp.1, hzp.2]
  obtain ⟨h1, h2⟩ := getS_old hlaw h hp hs f (some (z.getD s.zbase)) fl
  cases he : mapE (dictIndex E) s.ports with
  | error e => exact ⟨hs0, rfl⟩
  | ok Ea =>
    simp only
    cases hx : Circuit.getS ops s f (some (z.getD s.zbase)) fl with
    | mk t q =>
      cases hy : getS ops o f (some (z.getD s.zbase)) fl with
      | mk t' q' =>
        rw [hx, hy] at h1 h2
        simp only at h1 h2
        subst h2
        cases q' with
        | error e => exact ⟨h1, rfl⟩
        | ok M =>
          simp only
          obtain ⟨a1, a2⟩ := getS_ports_ne hlaw h hp hx
          cases ha : applyS M Ea with
          | error e => exact ⟨h1, rfl⟩
          | ok Eb =>
            simp only
            by_cases hz : z.getD s.zbase = 0
            · rw [if_pos hz, if_pos hz]; exact ⟨h1, rfl⟩
            · rw [if_neg hz, if_neg hz]
              have hall := fun N Es => applyInv_old a1.rep a2 h1 N Es
              have h1' := h1
              obtain ⟨j, rfl, hj⟩ := h1
              rw [show (ofSt t j).zbase = t.zbase from rfl, show (ofSt t j).E = t.E from rfl, show (ofSt t j).rows = t.rows from rfl,
                show (ofSt t j).ports = t.ports from rfl]
              cases hf : fillEs t.E t.rows.length (t.ports.zip ((Ea.zip Eb).map fun x => onOwn t.zbase (z.getD s.zbase) x.1 x.2)) (fun _ => 0) with
              | error e => exact ⟨h1', rfl⟩
              | ok Es => exact hall _ _

theorem applyInv_state {W : SMat K} (h : s.invM = some W) (N : ℕ) (Es : ℕ → K) : (Circuit.applyInv s N Es).1 = s := by
  unfold Circuit.applyInv
  rw [h]
  simp only
  split <;> rfl

/-- a call of `solve` leaves the circuit as it is, or as the evaluation left it -/
theorem solve_state [CharZero K] (hlaw : Lawful ops beh) (h : Built ops beh nan zb names net bh s ph) (hph : ph ≠ .reloaded) (f : F) (E : List (Node × K))
    (z : Option K) (fl : Fl) : (Circuit.solve ops s f E z fl).1 = s ∨
      (Circuit.solve ops s f E z fl).1 = (Circuit.getS ops s f (some (z.getD s.zbase)) fl).1 := by
  unfold Circuit.solve
  simp only
  cases he : mapE (dictIndex E) s.ports with
  | error e => exact Or.inl rfl
  | ok Ea =>
    right
    simp only
    cases hx : Circuit.getS ops s f (some (z.getD s.zbase)) fl with
    | mk t q =>
      cases q with
      | error e => rfl
      | ok M =>
        simp only
        obtain ⟨-, W, hW, -⟩ := getS_inverse hlaw h hph hx
        cases ha : applyS M Ea with
        | error e => rfl
        | ok Eb =>
          simp only
          split
          · rfl
          · split
            · rfl
            · exact applyInv_state hW _ _

/-- the `Solution` methods of the objects do not change how they behave -/
def Keeps (ops : ObjOps K O F Fl) (beh : O → F → K → Fl → Except Err (SMat K)) (sub : SubSol K O F Fl) : Prop :=
  ∀ o m, sub o = some m → ∀ f E z left fl, ops.len (m f E z left fl).1 = ops.len o ∧ beh (m f E z left fl).1 = beh o

variable {sub : SubSol K O F Fl}

theorem deeper_like (hk : Keeps ops beh sub) (f : F) (z : K) (fl : Fl) (left : Option (List String)) :
    ∀ (bs : List (Blk O)) (t : List (Node × Quad K)), List.Forall₂ (fun b b' => Blk.Like ops b b' ∧ beh b'.obj = beh b.obj) bs
      (Circuit.deeper ops sub f z fl left bs t).1
  | [], t => .nil
  | b :: bs, t => by
    have hrefl : ∀ bs : List (Blk O), List.Forall₂ (fun b b' => Blk.Like ops b b' ∧ beh b'.obj = beh b.obj) bs bs := fun bs =>
      List.forall₂_same.2 fun b _ => ⟨⟨rfl, rfl, rfl, rfl⟩, rfl⟩
    unfold Circuit.deeper
    cases hm : sub b.obj with
    | none => exact .cons ⟨⟨rfl, rfl, rfl, rfl⟩, rfl⟩ (deeper_like hk f z fl left bs t)
    | some m =>
      simp only
      split
      · exact .cons ⟨⟨rfl, rfl, rfl, rfl⟩, rfl⟩ (deeper_like hk f z fl left bs t)
      · cases ops.ports b.obj with
        | none => exact hrefl _
        | some ps =>
          simp only
          cases mapE (fun p => (dictIndex t (.blk b.name p)).map fun q => (p, q.Vf)) ps with
          | error e => exact hrefl _
          | ok Ek =>
            simp only
            have hu := hk b.obj m hm f Ek z (subNodes left b.name) fl
            cases hr : m f Ek z (subNodes left b.name) fl with
            | mk o r =>
              rw [hr] at hu
              have h1 : Blk.Like ops b { b with obj := o } ∧ beh o = beh b.obj := ⟨⟨rfl, rfl, rfl, hu.1⟩, hu.2⟩
              cases r with
              | error e => exact .cons h1 (hrefl bs)
              | ok tr => exact .cons h1 (deeper_like hk f z fl left bs _)

theorem deeper_old (f : F) (z : K) (fl : Fl) (l : List String) :
    ∀ (bs : List (Blk O)) (t : List (Node × Quad K)), deeper ops sub f z fl (some l) (bs.map toOld) t =
      ((Circuit.deeper ops sub f z fl (some l) bs t).1.map toOld, (Circuit.deeper ops sub f z fl (some l) bs t).2)
  | [], t => rfl
  | b :: bs, t => by
    rw [List.map_cons]
    unfold deeper Circuit.deeper
    rw [show (toOld b).obj = b.obj from rfl, show (toOld b).name = b.name from rfl]
    cases hm : sub b.obj with
    | none => simp only [deeper_old f z fl l bs t]; rfl
    | some m =>
      simp only
      have hiff : (subNodes (some l) b.name).getD [] = [] ↔ subNodes (some l) b.name = some [] := by simp [subNodes]
      by_cases hc : subNodes (some l) b.name = some []
      · rw [if_pos hc, if_pos (hiff.2 hc)]
        simp only [deeper_old f z fl l bs t]; rfl
      · rw [if_neg hc, if_neg (fun h => hc (hiff.1 h))]
        cases ops.ports b.obj with
        | none => rfl
        | some ps =>
          simp only
          cases mapE (fun p => (dictIndex t (.blk b.name p)).map fun q => (p, q.Vf)) ps with
          | error e => rfl
          | ok Ek =>
            simp only
            cases hr : m f Ek z (subNodes (some l) b.name) fl with
            | mk o r =>
              cases r with
              | error e => rfl
              | ok tr => simp only [deeper_old f z fl l bs _]; rfl

theorem nodeQuad_old (s : St K O F Fl) (i : List ℕ) (z : K) (sol : SVec K) : nodeQuad (ofSt s i) z sol = Circuit.nodeQuad s z sol := rfl

theorem solution_old (hlaw : Lawful ops beh) (h : Inv ops beh zb names net bh s) (hp : s.ports ≠ []) (hs : Sim s o) (f : F) (E : List (Node × K))
    (z : Option K) (l : List String) (fl : Fl) :
    Sim (solutionAll ops sub s f E z (some l) fl).1 (solution ops sub o f E z (some l) fl).1 ∧
      (solution ops sub o f E z (some l) fl).2 = (solutionAll ops sub s f E z (some l) fl).2 := by
  obtain ⟨h1, h2⟩ := solve_old hlaw h hp hs f E z fl
  have hzb : o.zbase = s.zbase := by obtain ⟨i, rfl, hi⟩ := hs; rfl
  unfold solution solutionAll Circuit.solution
  rw [hzb]
  cases hx : Circuit.solve ops s f E z fl with
  | mk t q =>
    cases hy : solve ops o f E z fl with
    | mk t' q' =>
      rw [hx, hy] at h1 h2
      simp only at h1 h2
      subst h2
      cases q' with
      | error e => exact ⟨h1, rfl⟩
      | ok v =>
        simp only
        have h1' := h1
        obtain ⟨j, rfl, hj⟩ := h1
        rw [nodeQuad_old, show (ofSt t j).waves = t.waves from rfl, show (ofSt t j).blocks = t.blocks.map toOld from rfl]
        cases hm : mapE (Circuit.nodeQuad t (z.getD s.zbase) v) t.waves.zipIdx with
        | error e => exact ⟨h1', rfl⟩
        | ok r =>
          simp only
          unfold nodesLeft
          simp only
          rw [deeper_old]
          exact ⟨⟨j, rfl, hj⟩, rfl⟩

/-- `Solution` leaves the circuit as `solve` does, except that objects were used -/
theorem solution_state (hk : Keeps ops beh sub) (s : St K O F Fl) (f : F) (E : List (Node × K)) (z : Option K) (n : Option (List String)) (fl : Fl) :
    ∃ bs, (solutionAll ops sub s f E z n fl).1 = { (Circuit.solve ops s f E z fl).1 with blocks := bs } ∧
      List.Forall₂ (fun b b' => Blk.Like ops b b' ∧ beh b'.obj = beh b.obj) (Circuit.solve ops s f E z fl).1.blocks bs := by
  have hrefl : ∀ bs : List (Blk O), List.Forall₂ (fun b b' => Blk.Like ops b b' ∧ beh b'.obj = beh b.obj) bs bs := fun bs =>
    List.forall₂_same.2 fun b _ => ⟨⟨rfl, rfl, rfl, rfl⟩, rfl⟩
  unfold solutionAll Circuit.solution
  cases hx : Circuit.solve ops s f E z fl with
  | mk t q =>
    cases q with
    | error e => exact ⟨_, rfl, hrefl _⟩
    | ok v =>
      simp only
      cases hm : mapE (Circuit.nodeQuad t (z.getD s.zbase) v) t.waves.zipIdx with
      | error e => exact ⟨_, rfl, hrefl _⟩
      | ok r =>
        simp only
        exact ⟨_, rfl, deeper_like hk _ _ _ _ _ _⟩

/-- the correspondence is kept by every regular list of calls, with the same answers -/
theorem regular_answers [CharZero K] (hlaw : Lawful ops beh) (hk : Keeps ops beh sub) : ∀ (cs : List (Call K O F Fl)) (ev : Bool) (net : Net K) (bh : Behave K F Fl) (ph : Phase)
    (s : St K O F Fl) (o : OSt K O F Fl), Built ops beh nan zb names net bh s ph → ph ≠ .reloaded → (ev = false → ph = .building ∧ s.invM = none) → Sim s o →
    Regular ops sub nan ev s cs → answers (stepO ops sub nan) o cs = answers (stepR ops sub nan) s cs ∧
      ∃ net' bh' ph', Built ops beh nan zb names net' bh' (run (stepR ops sub nan) s cs) ph' ∧ ph' ≠ .reloaded ∧
        Sim (run (stepR ops sub nan) s cs) (run (stepO ops sub nan) o cs) := by
  intro cs
  induction cs with
  | nil => intro ev net bh ph s o hb hph hev hsim hreg; exact ⟨rfl, net, bh, ph, hb, hph, hsim⟩
  | cons c cs ih =>
    intro ev net bh ph s o hb hph hev hsim hreg
    obtain ⟨hc, hreg⟩ := hreg
    unfold answers run
    have hinv := hb.inv hlaw
    cases c with
    | addblock name obj ports relpos =>
      obtain ⟨hok, hname⟩ := hc
      have hok' : (Circuit.addblock ops nan s name obj ports relpos).2 = .ok () := by
        simp only [stepR] at hok
        cases hr : (Circuit.addblock ops nan s name obj ports relpos).2 with
        | error e => rw [hr] at hok; simp [Except.map] at hok
        | ok u => rfl
      have hrun : Circuit.addblock ops nan s name obj ports relpos = ((Circuit.addblock ops nan s name obj ports relpos).1, .ok ()) := Prod.ext rfl hok'
      generalize ht : (Circuit.addblock ops nan s name obj ports relpos).1 = t at hrun
      have hmem : name ∈ net.blks.map Prod.fst ↔ ∃ b ∈ s.blocks, b.name = name := by
        rw [hinv.rep.rep.blks, List.map_map]; simp [St.core]
      obtain ⟨i, rfl, hi⟩ := hsim
      have e := addblock_old ops nan s i name obj ports relpos
      rw [hrun] at e
      simp only at e
      have e1 : stepO ops sub nan (ofSt s i) (.addblock name obj ports relpos) = (ofSt t i, .ok .done) := by simp only [stepO, e]; rfl
      have e2 : stepR ops sub nan s (.addblock name obj ports relpos) = (t, .ok .done) := by simp only [stepR, hrun]; rfl
      rw [e1, e2]
      simp only [List.cons.injEq, true_and]
      rw [e2] at hreg
      by_cases hin : name ∈ net.blks.map Prod.fst
      · have hb' := Built.replace hb hin hrun
        have ht' := (rep_replace hinv.rep hin hrun).2
        refine ih ev _ _ _ t _ hb' ?_ ?_ ?_ hreg
        · rw [if_neg hph]; exact hph
        · intro h; rw [if_neg hph]; refine ⟨(hev h).1, ?_⟩; rw [ht']
        · refine ⟨i, rfl, ?_⟩; rw [ht']; exact hi
      · have hev' := (hname.resolve_left fun hx => hin (hmem.2 hx))
        obtain ⟨rfl, hnd⟩ := hev'
        obtain ⟨rfl, hinvM⟩ := hev rfl
        have hfind : s.blocks.find? (fun b => b.name = name) = none := by
          rw [List.find?_eq_none]
          intro b hb hbn
          exact hin (hmem.2 ⟨b, hb, by simpa using hbn⟩)
        obtain ⟨l, hl⟩ : ∃ l, resolvePorts ops obj ports = .ok l := by
          cases hr : resolvePorts ops obj ports with
          | ok l => exact ⟨l, rfl⟩
          | error e => exfalso; unfold Circuit.addblock at hrun; simp [hfind, hr] at hrun
        have hb' := Built.addblock hb hin hl (hnd l hl) hrun
        have hall := (hb'.all hlaw).2.1 rfl
        refine ih false _ _ _ t _ hb' (by simp) ?_ ?_ hreg
        · intro _
          refine ⟨rfl, ?_⟩
          unfold Circuit.addblock at hrun
          simp only [hfind, hl, Prod.mk.injEq, and_true] at hrun
          rw [← hrun]
        · refine ⟨i, rfl, fun hsq hp => ?_⟩
          have := ((hb'.inv hlaw).rep.squared hsq).1.resolve_left fun x => hp x.1
          rw [hall.2.1] at this; cases this
    | connect ps =>
      obtain ⟨hok, rfl⟩ := hc
      obtain ⟨rfl, hinvM⟩ := hev rfl
      have hS := ((hb.all hlaw).2.1 rfl).2.2
      have hok' : (Circuit.connect ops s ps).2 = .ok () := by
        simp only [stepR] at hok
        cases hr : (Circuit.connect ops s ps).2 with
        | error e => rw [hr] at hok; simp [Except.map] at hok
        | ok u => rfl
      have hrun : Circuit.connect ops s ps = ((Circuit.connect ops s ps).1, .ok ()) := Prod.ext rfl hok'
      generalize ht : (Circuit.connect ops s ps).1 = t at hrun
      obtain ⟨i, rfl, hi⟩ := hsim
      obtain ⟨e, k1, k2⟩ := connect_old hS hinvM i hrun
      have e1 : stepO ops sub nan (ofSt s i) (.connect ps) = (ofSt t i, .ok .done) := by simp only [stepO, e]; rfl
      have e2 : stepR ops sub nan s (.connect ps) = (t, .ok .done) := by simp only [stepR, hrun]; rfl
      rw [e1, e2]
      simp only [List.cons.injEq, true_and]
      rw [e2] at hreg
      have hb' := Built.connect hb hrun
      have hall := (hb'.all hlaw).2.1 rfl
      refine ih false _ _ _ t _ hb' (by simp) (fun _ => ⟨rfl, k2⟩) ⟨i, rfl, fun hsq hp => ?_⟩ hreg
      have := ((hb'.inv hlaw).rep.squared hsq).1.resolve_left fun x => hp x.1
      rw [hall.2.1] at this; cases this
    | terminate p args =>
      obtain ⟨hok, rfl, hp⟩ := hc
      obtain ⟨rfl, hinvM⟩ := hev rfl
      obtain ⟨hE, -, hS⟩ := (hb.all hlaw).2.1 rfl
      have hok' : (Circuit.terminate s p args).2 = .ok () := by
        simp only [stepR] at hok
        cases hr : (Circuit.terminate s p args).2 with
        | error e => rw [hr] at hok; simp [Except.map] at hok
        | ok u => rfl
      have hrun : Circuit.terminate s p args = ((Circuit.terminate s p args).1, .ok ()) := Prod.ext rfl hok'
      generalize ht : (Circuit.terminate s p args).1 = t at hrun
      obtain ⟨i, rfl, hi⟩ := hsim
      obtain ⟨e, k1, k2⟩ := terminate_old hinv.rep hE hp hS hinvM i hrun
      have e1 : stepO ops sub nan (ofSt s i) (.terminate p args) = (ofSt t i, .ok .done) := by simp only [stepO, e]; rfl
      have e2 : stepR ops sub nan s (.terminate p args) = (t, .ok .done) := by simp only [stepR, hrun]; rfl
      rw [e1, e2]
      simp only [List.cons.injEq, true_and]
      rw [e2] at hreg
      obtain ⟨l, hl, -⟩ := rep_terminate hinv.rep hrun
      have hb' := Built.terminate hb hl hrun
      simp only [ne_eq, not_true_eq_false, false_and, if_false, reduceCtorEq] at hb'
      have hall := (hb'.all hlaw).2.1 rfl
      refine ih false _ _ _ t _ hb' (by simp) (fun _ => ⟨rfl, k2⟩) ⟨i, rfl, fun hsq hp => ?_⟩ hreg
      have := ((hb'.inv hlaw).rep.squared hsq).1.resolve_left fun x => hp x.1
      rw [hall.2.1] at this; cases this
    | getS f z fl =>
      obtain ⟨h1, h2⟩ := getS_old hlaw hinv hc hsim f z fl
      have hb' := Built.eval hb (show Circuit.getS ops s f z fl = ((Circuit.getS ops s f z fl).1, (Circuit.getS ops s f z fl).2) from rfl)
      rw [afterEval_of_ne hph] at hb'
      simp only [stepO, stepR, h2, List.cons.injEq, true_and]
      exact ih true _ _ _ _ _ hb' (by simp) (by simp) h1 hreg
    | solve f E z fl =>
      obtain ⟨h1, h2⟩ := solve_old hlaw hinv hc hsim f E z fl
      simp only [stepO, stepR, h2, List.cons.injEq, true_and]
      rcases solve_state hlaw hb hph f E z fl with h3 | h3
      · rw [h3] at h1 ⊢
        refine ih true _ _ _ _ _ hb hph (by simp) h1 ?_
        simp only [stepR, h3] at hreg
        exact hreg
      · have hb' := Built.eval hb (show Circuit.getS ops s f (some (z.getD s.zbase)) fl = ((Circuit.getS ops s f (some (z.getD s.zbase)) fl).1,
          (Circuit.getS ops s f (some (z.getD s.zbase)) fl).2) from rfl)
        rw [afterEval_of_ne hph] at hb'
        rw [h3] at h1 ⊢
        refine ih true _ _ _ _ _ hb' (by simp) (by simp) h1 ?_
        simp only [stepR, h3] at hreg
        exact hreg
    | solution f E z n fl =>
      obtain ⟨hp, hn⟩ := hc
      obtain ⟨l, rfl⟩ := Option.ne_none_iff_exists'.1 hn
      obtain ⟨h1, h2⟩ := solution_old (sub := sub) hlaw hinv hp hsim f E z l fl
      obtain ⟨bs, h4, h5⟩ := solution_state (sub := sub) hk s f E z (some l) fl
      simp only [stepO, stepR, h2, List.cons.injEq, true_and]
      have hb' : ∃ ph', ph' ≠ Phase.reloaded ∧ Built ops beh nan zb names net bh (Circuit.solve ops s f E z fl).1 ph' := by
        rcases solve_state hlaw hb hph f E z fl with h3 | h3
        · rw [h3]; exact ⟨ph, hph, hb⟩
        · have hb' := Built.eval hb (show Circuit.getS ops s f (some (z.getD s.zbase)) fl = ((Circuit.getS ops s f (some (z.getD s.zbase)) fl).1,
            (Circuit.getS ops s f (some (z.getD s.zbase)) fl).2) from rfl)
          rw [afterEval_of_ne hph] at hb'
          rw [h3]; exact ⟨_, by simp, hb'⟩
      obtain ⟨ph', hne, hb'⟩ := hb'
      have hb'' := Built.used hb' h5
      simp only [stepR] at hreg
      rw [h4] at h1 hreg ⊢
      exact ih true _ _ _ _ _ hb'' hne (by simp) h1 hreg

/-! ## What the legacy class does -/

/-- C71: a list of calls that is regular in the sense of `Regular` gets from the legacy class exactly the answers it gets from `rfCircuit`: every matrix,
every solution, every table of nodes, and every exception. -/
theorem C71_same_answers [CharZero K] (hlaw : Lawful ops beh) (hk : Keeps ops beh sub) (cs : List (Call K O F Fl)) (h : Regular ops sub nan false (St.init zb names) cs) :
    answers (stepO ops sub nan) (OSt.init zb names) cs = answers (stepR ops sub nan) (St.init zb names) cs :=
  (regular_answers (beh := beh) hlaw hk cs false Net.empty (fun _ _ _ _ => .error .valueError) .building (St.init zb names) (OSt.init zb names)
    (Built.init _) (by simp) (fun _ => ⟨rfl, rfl⟩) ⟨[], rfl, fun _ h => absurd rfl h⟩ h).1

/-- VIOLATION: asked for all nodes (`nodes=None`, the default) the legacy class reports the nodes of its own level only and asks no block -/
theorem C71_solution_shallow (o : OSt K O F Fl) (f : F) (E : List (Node × K)) (z : Option K) (fl : Fl) :
    solution ops sub o f E z none fl = solution ops (fun _ => none) o f E z (some []) fl := by
  have key : ∀ (left : Option (List String)) (_ : left.getD [] = []) (bs : List (OBlk O)) (t : List (Node × Quad K)) (z : K),
      deeper ops sub f z fl left bs t = (bs, .ok t) := by
    intro left hl bs
    induction bs with
    | nil => intros; rfl
    | cons b bs ih =>
      intro t z
      unfold deeper
      cases sub b.obj with
      | none => simp only [ih]
      | some m =>
        simp only
        rw [if_pos (by cases left <;> simp_all [subNodes])]
        simp only [ih]
  have key2 : ∀ (left : Option (List String)) (bs : List (OBlk O)) (t : List (Node × Quad K)) (z : K),
      deeper ops (fun _ => none) f z fl left bs t = (bs, .ok t) := by
    intro left bs
    induction bs with
    | nil => intros; rfl
    | cons b bs ih => intro t z; unfold deeper; simp only [ih]
  unfold solution
  cases solve ops o f E z fl with
  | mk t q =>
    cases q with
    | error e => rfl
    | ok v =>
      simp only
      cases mapE (nodeQuad t (z.getD o.zbase) v) t.waves.zipIdx with
      | error e => rfl
      | ok r => simp only [key _ (show (nodesLeft none _).getD [] = [] from rfl), key2]

/-- the constructor needs a numpy with `np.complex` and a caller that is itself called -/
theorem C71_constructor (npComplex : Bool) (depth : ℕ) (zb : K) (names : List Node) :
    (∃ o : OSt K O F Fl, new npComplex depth zb names = .ok o) ↔ npComplex = true ∧ 2 ≤ depth := by
  unfold new
  by_cases h : depth < 2
  · rw [if_pos h]; simp; omega
  · rw [if_neg h]
    cases npComplex
    · simp
    · simp; omega

theorem solveWith_ok {o o' : OSt K O F Fl} {A B : List ℕ} {M : SMat K} (h : solveWith o A B = (o', .ok M)) :
    o'.rows.length = o'.cols ∧ M.n = A.length ∧ o'.ports = o.ports := by
  unfold solveWith at h
  by_cases hsq : o.rows.length ≠ o.cols
  · rw [if_pos hsq] at h; simp at h
  · rw [if_neg hsq] at h
    split at h
    · simp at h
    · simp only at h
      split at h
      · simp at h
      · split at h
        · simp at h
        · split at h
          · simp at h
          · split at h
            · simp at h
            · simp only [Prod.mk.injEq, Except.ok.injEq] at h
              obtain ⟨rfl, rfl⟩ := h
              exact ⟨by simpa using hsq, rfl, rfl⟩

/-- what a successful evaluation stores -/
theorem recompute_ok {o o' : OSt K O F Fl} {f : F} {fl : Fl} {M : SMat K} (h : recompute ops o f fl = (o', .ok M)) :
    o'.S = some M ∧ o'.f = some f ∧ o'.flags = some fl ∧ o'.rows.length = o'.cols ∧ M.n = o'.ports.length := by
  unfold recompute at h
  simp only at h
  split at h
  · simp at h
  · split at h
    · simp at h
    · rename_i t M' hx
      simp only [Prod.mk.injEq, Except.ok.injEq] at h
      obtain ⟨rfl, rfl⟩ := h
      refine ⟨rfl, rfl, rfl, ?_⟩
      unfold extS at hx
      split at hx
      · simp at hx
      · split at hx
        · simp at hx
        · simp at hx
        · rename_i h1 h2
          obtain ⟨k1, k2, k3⟩ := solveWith_ok hx
          refine ⟨k1, ?_⟩
          rw [k2, mapE_length h1, ← k3]

open Classical in
/-- the conversion at the end of `getS` (778-779) -/
noncomputable def onBase (zb : K) (z : Option K) (M : SMat K) : Except Err (SMat K) :=
  match z with
  | none => .ok M
  | some z => if z ≠ 0 ∧ z ≠ zb then convVV z zb M else .ok M

theorem get1S_of_getS {o o' : OSt K O F Fl} {f : F} {z : Option K} {fl : Fl} {M : SMat K} (h : getS ops o f z fl = (o', .ok M)) :
    ∃ M', get1S ops o f fl = (o', .ok M') ∧ onBase o'.zbase z M' = .ok M := by
  unfold onBase
  unfold getS at h
  cases hg : get1S ops o f fl with
  | mk t r =>
    rw [hg] at h
    cases r with
    | error e => simp at h
    | ok M' =>
      cases z with
      | none => simp only [Prod.mk.injEq] at h; exact ⟨M', by rw [h.1], h.2⟩
      | some z =>
        simp only at h
        by_cases hc : z ≠ 0 ∧ z ≠ t.zbase
        · rw [if_pos hc] at h
          simp only [Prod.mk.injEq] at h
          refine ⟨M', by rw [h.1], ?_⟩
          simp only
          rw [← h.1, if_pos hc]; exact h.2
        · rw [if_neg hc] at h
          simp only [Prod.mk.injEq] at h
          refine ⟨M', by rw [h.1], ?_⟩
          simp only
          rw [← h.1, if_neg hc]; exact h.2

theorem get1S_ok {o o' : OSt K O F Fl} {f : F} {fl : Fl} {M : SMat K} (h : get1S ops o f fl = (o', .ok M)) :
    o'.S = some M ∧ o'.f = some f ∧ o'.flags = some fl := by
  unfold get1S at h
  cases hS : o.S with
  | none =>
    rw [hS] at h
    exact ⟨(recompute_ok h).1, (recompute_ok h).2.1, (recompute_ok h).2.2.1⟩
  | some M' =>
    rw [hS] at h
    simp only at h
    split at h
    · rename_i hc
      simp only [Prod.mk.injEq, Except.ok.injEq] at h
      obtain ⟨rfl, rfl⟩ := h
      exact ⟨hS, hc⟩
    · exact ⟨(recompute_ok h).1, (recompute_ok h).2.1, (recompute_ok h).2.2.1⟩

/-- a stored matrix is given back whatever happened to the rest of the circuit -/
theorem getS_kept {o o1 o2 : OSt K O F Fl} {f : F} {z : Option K} {fl : Fl} {M : SMat K} (h : getS ops o f z fl = (o1, .ok M))
    (hS : o2.S = o1.S) (hf : o2.f = o1.f) (hfl : o2.flags = o1.flags) (hz : o2.zbase = o1.zbase) : getS ops o2 f z fl = (o2, .ok M) := by
  obtain ⟨M', h1, h2⟩ := get1S_of_getS h
  obtain ⟨k1, k2, k3⟩ := get1S_ok h1
  have h3 : get1S ops o2 f fl = (o2, .ok M') := by
    unfold get1S
    rw [hS, k1]
    simp only
    rw [if_pos ⟨hf.trans k2, hfl.trans k3⟩]
  unfold getS
  rw [h3]
  unfold onBase at h2
  cases z with
  | none => simp only at h2 ⊢; rw [h2]
  | some z =>
    simp only at h2 ⊢
    rw [hz]
    by_cases hc : z ≠ 0 ∧ z ≠ o1.zbase
    · rw [if_pos hc] at h2 ⊢; rw [h2]
    · rw [if_neg hc] at h2 ⊢; rw [h2]

theorem connect_keeps (o : OSt K O F Fl) (ps : List Node) : (connect o ps).1.S = o.S ∧ (connect o ps).1.f = o.f ∧ (connect o ps).1.flags = o.flags ∧
    (connect o ps).1.zbase = o.zbase := by
  unfold connect
  simp only
  split
  · exact ⟨rfl, rfl, rfl, rfl⟩
  · exact ⟨rfl, rfl, rfl, rfl⟩
  · split <;> exact ⟨rfl, rfl, rfl, rfl⟩

theorem terminate_ok {o o' : OSt K O F Fl} {p : Node} {args : TermArgs K} (h : terminate o p args = (o', .ok ())) :
    p ∈ o.ports ∧ o'.ports = o.ports.erase p ∧ o'.rows.length = o.rows.length + 1 ∧ o'.cols = o.cols ∧ o'.S = o.S ∧ o'.f = o.f ∧
      o'.flags = o.flags ∧ o'.zbase = o.zbase := by
  have key : args ≠ .several → terminate o p args =
      if p ∉ o.ports then (o, .error .valueError) else
      let s := { o with ports := o.ports.erase p }
      match termRho s.zbase args with
      | .error e => (s, .error e)
      | .ok rho => match pyIndex s.waves (.inn, p), pyIndex s.waves (.out, p) with
        | .ok idxA, .ok idxB =>
          ({ s with rows := s.rows ++ [setCol (setCol zeroRow idxA (-1)) idxB rho]
                    eqns := s.eqns ++ [.T p] }, .ok ())
        | _, _ => (s, .error .unboundLocal) := by
    cases args <;> first | exact fun h => absurd rfl h | exact fun _ => rfl
  have hsev : args ≠ .several := by rintro rfl; simp [terminate] at h
  rw [key hsev] at h
  by_cases hp : p ∈ o.ports
  · rw [if_neg (by simpa using hp)] at h
    simp only at h
    split at h
    · simp at h
    · split at h
      · simp only [Prod.mk.injEq, and_true] at h
        subst h
        exact ⟨hp, rfl, by simp, rfl, rfl, rfl, rfl, rfl⟩
      · simp at h
  · rw [if_pos hp] at h; simp at h

/-- C71: `connect` after an evaluation leaves the stored matrix in place: the same request gets the old answer, for every circuit -/
theorem C71_connect_stale {o o1 o2 : OSt K O F Fl} {f : F} {z : Option K} {fl : Fl} {M : SMat K} {ps : List Node} {r : Except Err Unit}
    (h : getS ops o f z fl = (o1, .ok M)) (hc : connect o1 ps = (o2, r)) : (getS ops o2 f z fl).2 = .ok M := by
  have := connect_keeps o1 ps
  rw [hc] at this
  rw [getS_kept h this.1 this.2.1 this.2.2.1 this.2.2.2]

/-- C71: the same for `terminate`; the answer has one port more than the circuit -/
theorem C71_terminate_stale {o o1 o2 : OSt K O F Fl} {f : F} {z : Option K} {fl : Fl} {M : SMat K} {p : Node} {args : TermArgs K}
    (h : getS ops o f z fl = (o1, .ok M)) (ht : terminate o1 p args = (o2, .ok ())) : (getS ops o2 f z fl).2 = .ok M ∧
      (o.S = none → M.n = o2.ports.length + 1) := by
  obtain ⟨hp, h1, -, -, h4, h5, h6, h7⟩ := terminate_ok ht
  refine ⟨by rw [getS_kept h h4 h5 h6 h7], fun hS => ?_⟩
  obtain ⟨M', g1, g2⟩ := get1S_of_getS h
  have g3 : recompute ops o f fl = (o1, .ok M') := by
    unfold get1S at g1; rw [hS] at g1; exact g1
  have hn : M.n = M'.n := by
    unfold onBase at g2
    cases z with
    | none => simp only [Except.ok.injEq] at g2; rw [g2]
    | some z =>
      simp only at g2
      split at g2
      · unfold convVV at g2
        simp only at g2
        split at g2
        · simp at g2
        · unfold Except.map at g2
          split at g2
          · simp at g2
          · simp only [Except.ok.injEq] at g2
            rw [← g2]
      · simp only [Except.ok.injEq] at g2; rw [g2]
  rw [hn, (recompute_ok g3).2.2.2.2, h1, List.length_erase_of_mem hp]
  have := List.length_pos_of_mem hp
  omega

theorem fill_length (f : F) (zb : K) (fl : Fl) : ∀ (bs : List (OBlk O)) (rows : List (ℕ → K)), (fill ops f zb fl bs rows).2.1.length = rows.length
  | [], rows => rfl
  | b :: bs, rows => by
    unfold fill
    cases hg : ops.getS b.obj f zb fl with
    | mk o r =>
      cases r with
      | error e => rfl
      | ok S =>
        simp only
        cases hset : setBlock rows b.loc b.ports.length S with
        | error e => rfl
        | ok rows' =>
          simp only
          rw [fill_length f zb fl bs rows']
          unfold setBlock at hset
          split at hset
          · injection hset with hset; rw [← hset]; simp
          · cases hset

theorem addE_grow (o : OSt K O F Fl) (p : Node) : (addE o p).1.cols = o.cols ∧ o.rows.length ≤ (addE o p).1.rows.length ∧ (addE o p).1.S = o.S := by
  unfold addE
  split
  · exact ⟨rfl, by simp, rfl⟩
  · split <;> exact ⟨rfl, by simp, rfl⟩

theorem iter_addE_grow : ∀ (ps : List Node) (o : OSt K O F Fl), (iter addE o ps).1.cols = o.cols ∧ o.rows.length ≤ (iter addE o ps).1.rows.length ∧
    (iter addE o ps).1.S = o.S
  | [], o => ⟨rfl, le_rfl, rfl⟩
  | p :: ps, o => by
    unfold iter
    have h := addE_grow o p
    cases hx : addE o p with
    | mk t r =>
      rw [hx] at h
      cases r with
      | error e => exact h
      | ok u =>
        have h' := iter_addE_grow ps t
        exact ⟨h'.1.trans h.1, h.2.1.trans h'.2.1, h'.2.2.trans h.2.2⟩

/-- more equations than unknowns: nothing can be evaluated any more -/
theorem squareUp_dead {o : OSt K O F Fl} (h : o.cols < o.rows.length) : (squareUp o).1.cols < (squareUp o).1.rows.length ∧ (squareUp o).1.S = none := by
  unfold squareUp
  rw [if_neg (by omega)]
  simp only
  have key : ∀ (t : OSt K O F Fl) (ps : List Node), t.cols = o.cols → t.rows = o.rows → t.S = none →
      (iter addE t ps).1.cols < (iter addE t ps).1.rows.length ∧ (iter addE t ps).1.S = none := by
    intro t ps h1 h2 h3
    obtain ⟨k1, k2, k3⟩ := iter_addE_grow ps t
    rw [k1, k3]
    exact ⟨by rw [h1]; rw [h2] at k2; omega, h3⟩
  split
  · split
    · exact ⟨h, rfl⟩
    · split
      · exact ⟨h, rfl⟩
      · exact key _ _ rfl rfl rfl
  · exact key _ _ rfl rfl rfl

theorem extS_dead {o : OSt K O F Fl} (h : o.cols < o.rows.length) :
    (extS o).1.cols < (extS o).1.rows.length ∧ (extS o).1.S = none ∧ ∃ e, (extS o).2 = .error e := by
  have hd := squareUp_dead h
  unfold extS
  cases hq : squareUp o with
  | mk t r =>
    rw [hq] at hd
    cases r with
    | error e => exact ⟨hd.1, hd.2, e, rfl⟩
    | ok u =>
      simp only at hd ⊢
      split
      · exact ⟨hd.1, hd.2, _, rfl⟩
      · exact ⟨hd.1, hd.2, _, rfl⟩
      · unfold solveWith
        rw [if_pos (by have := hd.1; omega)]
        exact ⟨hd.1, hd.2, _, rfl⟩

theorem recompute_dead {o : OSt K O F Fl} (h : o.cols < o.rows.length) (f : F) (fl : Fl) :
    (recompute ops o f fl).1.cols < (recompute ops o f fl).1.rows.length ∧
      ((recompute ops o f fl).1.S = o.S ∧ (recompute ops o f fl).1.f = o.f ∧ (recompute ops o f fl).1.flags = o.flags ∨ (recompute ops o f fl).1.S = none) ∧
      ∃ e, (recompute ops o f fl).2 = .error e := by
  have hl := fill_length (ops := ops) f o.zbase fl o.blocks o.rows
  unfold recompute
  simp only
  generalize fill ops f o.zbase fl o.blocks o.rows = r at hl
  have h1 : ({ o with blocks := r.1, rows := r.2.1 } : OSt K O F Fl).cols < ({ o with blocks := r.1, rows := r.2.1 } : OSt K O F Fl).rows.length := by
    show o.cols < r.2.1.length
    omega
  cases hr : r.2.2 with
  | error e => exact ⟨h1, Or.inl ⟨rfl, rfl, rfl⟩, e, rfl⟩
  | ok u =>
    simp only
    obtain ⟨e1, e2, e, e3⟩ := extS_dead h1
    cases hx : extS ({ o with blocks := r.1, rows := r.2.1 } : OSt K O F Fl) with
    | mk t q =>
      rw [hx] at e1 e2 e3
      simp only at e3
      subst e3
      exact ⟨e1, Or.inr e2, e, rfl⟩

theorem getS_fst (o : OSt K O F Fl) (f : F) (z : Option K) (fl : Fl) : (getS ops o f z fl).1 = (get1S ops o f fl).1 := by
  unfold getS
  cases hg : get1S ops o f fl with
  | mk t r =>
    cases r with
    | error e => rfl
    | ok M =>
      cases z with
      | none => rfl
      | some z => simp only; split <;> rfl

/-- too many equations, and a stored matrix only for `f`, `fl` -/
def Dead (f : F) (fl : Fl) (o : OSt K O F Fl) : Prop :=
  o.cols < o.rows.length ∧ ∀ M, o.S = some M → o.f = some f ∧ o.flags = some fl

theorem Dead.get1S {f : F} {fl : Fl} {o : OSt K O F Fl} (h : Dead f fl o) (f' : F) (fl' : Fl) : Dead f fl (Old.get1S ops o f' fl').1 ∧
    (f' ≠ f ∨ fl' ≠ fl → ∃ e, (Old.get1S ops o f' fl').2 = .error e) := by
  obtain ⟨k1, k2, k3⟩ := recompute_dead (ops := ops) h.1 f' fl'
  have hd : Dead f fl (recompute ops o f' fl').1 := by
    refine ⟨k1, fun M hM => ?_⟩
    rcases k2 with ⟨a, b, c⟩ | a
    · rw [b, c]; rw [a] at hM; exact h.2 M hM
    · rw [a] at hM; cases hM
  unfold Old.get1S
  cases hS : o.S with
  | none => exact ⟨hd, fun _ => k3⟩
  | some M =>
    simp only
    obtain ⟨a, b⟩ := h.2 M hS
    split
    · rename_i hc
      refine ⟨h, fun hne => ?_⟩
      rw [a, b] at hc
      simp only [Option.some.injEq] at hc
      rcases hne with hne | hne
      · exact absurd hc.1.symm hne
      · exact absurd hc.2.symm hne
    · exact ⟨hd, fun _ => k3⟩

/-- C71: a port closed by `terminate` after an evaluation makes every evaluation at another frequency (or with other flags) fail, for good -/
theorem C71_terminate_fatal {o o1 o2 : OSt K O F Fl} {f : F} {z : Option K} {fl : Fl} {M : SMat K} {p : Node} {args : TermArgs K} (hS : o.S = none)
    (h : getS ops o f z fl = (o1, .ok M)) (ht : terminate o1 p args = (o2, .ok ())) (qs : List (F × Option K × Fl)) (f' : F) (z' : Option K) (fl' : Fl)
    (hne : f' ≠ f ∨ fl' ≠ fl) :
    ∃ e, (getS ops (qs.foldl (fun t q => (getS ops t q.1 q.2.1 q.2.2).1) o2) f' z' fl').2 = .error e := by
  obtain ⟨M', g1, g2⟩ := get1S_of_getS h
  have g3 : recompute ops o f fl = (o1, .ok M') := by
    unfold get1S at g1; rw [hS] at g1; exact g1
  obtain ⟨-, r2, r3, r4, -⟩ := recompute_ok g3
  obtain ⟨hp, h1, h2, h3, h4, h5, h6, h7⟩ := terminate_ok ht
  have hd : Dead f fl o2 := ⟨by omega, fun _ _ => ⟨h5.trans r2, h6.trans r3⟩⟩
  have hd' : ∀ (qs : List (F × Option K × Fl)) (t : OSt K O F Fl), Dead f fl t → Dead f fl (qs.foldl (fun t q => (getS ops t q.1 q.2.1 q.2.2).1) t) := by
    intro qs
    induction qs with
    | nil => intro t h; exact h
    | cons q qs ih =>
      intro t h
      rw [List.foldl_cons]
      refine ih _ ?_
      rw [getS_fst]
      exact (h.get1S q.1 q.2.2).1
  have hd3 := hd' qs o2 hd
  generalize qs.foldl (fun t q => (getS ops t q.1 q.2.1 q.2.2).1) o2 = o3 at hd3
  obtain ⟨e, he⟩ := (hd3.get1S (ops := ops) f' fl').2 hne
  refine ⟨e, ?_⟩
  unfold getS
  cases hg : get1S ops o3 f' fl' with
  | mk t r =>
    rw [hg] at he
    simp only at he
    subst he
    rfl

/-- C71: a keyword `terminate` does not know means a matched load, where `rfCircuit` raises -/
theorem C71_unknown_keyword (o : OSt K O F Fl) (s : St K O F Fl) (p : Node) :
    terminate o p .unknown = terminate o p .default ∧ (Circuit.terminate s p .unknown).2 = .error .valueError := by
  refine ⟨rfl, ?_⟩
  simp [Circuit.terminate, Circuit.termRho]

/-- C71: a load can be given once: a second `terminate` of the port raises, whatever the load -/
theorem C71_terminate_twice {o o1 : OSt K O F Fl} (hnd : o.ports.Nodup) {p : Node} {a b : TermArgs K} (h : terminate o p a = (o1, .ok ())) :
    terminate o1 p b = (o1, .error .valueError) := by
  obtain ⟨-, h1, -⟩ := terminate_ok h
  have hp : p ∉ o1.ports := by rw [h1]; exact fun hc => (hnd.mem_erase_iff.1 hc).1 rfl
  cases b with
  | several => rfl
  | _ => unfold terminate; simp only; rw [if_pos hp]

theorem removeAll_mem {new : List Node} {ps : List Node} : ∀ {l l' : List Node}, removeAll new ps l = .ok l' → ∀ p ∈ ps, p ∉ new → p ∈ l := by
  induction ps with
  | nil => intro l l' _ p hp; cases hp
  | cons q ps ih =>
    intro l l' h p hp hn
    rw [removeAll] at h
    by_cases hq : q ∈ new
    · rw [if_pos hq] at h
      rcases List.mem_cons.1 hp with rfl | hp
      · exact absurd hq hn
      · exact ih h p hp hn
    · rw [if_neg hq] at h
      by_cases hl : q ∈ l
      · rw [if_pos hl] at h
        rcases List.mem_cons.1 hp with rfl | hp
        · exact hl
        · exact List.mem_of_mem_erase (ih h p hp hn)
      · rw [if_neg hl] at h; cases h

/-- C71: a port that is connected or terminated already is refused by `connect` -/
theorem C71_connect_used {o : OSt K O F Fl} {ps : List Node} {p : Node} (hp : p ∈ ps) (hin : (Dir.inn, p) ∈ o.waves) (hno : p ∉ o.ports) :
    ∃ e, (connect o ps).2 = .error e := by
  have hnew : p ∉ ps.filter fun p => (Dir.inn, p) ∉ o.waves := by simp [hin]
  unfold connect
  simp only
  generalize ps.filter (fun p => (Dir.inn, p) ∉ o.waves) = new at hnew
  split
  · exact ⟨_, rfl⟩
  · exact ⟨_, rfl⟩
  · split
    · exact ⟨_, rfl⟩
    · rename_i l hl
      exfalso
      rcases List.mem_append.1 (removeAll_mem hl p hp hnew) with h | h
      · exact hno h
      · exact hnew h

/-- C71: a name that does not exist is taken for a new port by `connect`, also the name of a port of a block, which `rfCircuit` refuses -/
theorem C71_connect_misspelt {o : OSt K O F Fl} {p : Node} {b q : String} (hp : p ∈ o.ports) (hin : (Dir.inn, p) ∈ o.waves)
    (hout : (Dir.out, p) ∈ o.waves) (hq : (Dir.inn, Node.blk b q) ∉ o.waves) :
    ∃ o', connect o [p, .blk b q] = (o', .ok ()) ∧ o'.ports = o.ports.erase p ++ [.blk b q] ∧
      ∀ s : St K O F Fl, s.waves = o.waves → (Circuit.connect ops s [p, .blk b q]).2 = .error .valueError := by
  have hf : [p, Node.blk b q].filter (fun p => (Dir.inn, p) ∉ o.waves) = [.blk b q] := by
    simp [hin, hq]
  have hpq : p ≠ .blk b q := by rintro rfl; exact hq hin
  have hrem : removeAll [.blk b q] [p, .blk b q] (o.ports ++ [.blk b q]) = .ok (o.ports.erase p ++ [.blk b q]) := by
    unfold removeAll
    rw [if_neg (by simpa using hpq), if_pos (by simp [hp])]
    unfold removeAll
    rw [if_pos (by simp)]
    unfold removeAll
    rw [List.erase_append_left _ hp]
  have hA : ∀ d : Dir, pyIndex (o.waves ++ [(Dir.inn, .blk b q), (Dir.out, .blk b q)]) (d, p) =
      .ok (idx (o.waves ++ [(Dir.inn, .blk b q), (Dir.out, .blk b q)]) (d, p)) := by
    intro d
    apply pyIndex_of_mem
    cases d <;> simp [hin, hout]
  have hB : ∀ d : Dir, pyIndex (o.waves ++ [(Dir.inn, .blk b q), (Dir.out, .blk b q)]) (d, .blk b q) =
      .ok (idx (o.waves ++ [(Dir.inn, .blk b q), (Dir.out, .blk b q)]) (d, .blk b q)) := by
    intro d
    apply pyIndex_of_mem
    cases d <;> simp
  have w1 : waveA [.blk b q] p = (.inn, p) := by simp [waveA, hpq]
  have w2 : waveB [.blk b q] p = (.out, p) := by simp [waveB, hpq]
  have w3 : waveA [.blk b q] (.blk b q) = (.out, .blk b q) := by simp [waveA]
  have w4 : waveB [.blk b q] (.blk b q) = (.inn, .blk b q) := by simp [waveB]
  have h1 := mapE_ok_of_forall (l := [p, Node.blk b q]) (g := fun x => pyIndex (o.waves ++ [(Dir.inn, Node.blk b q), (Dir.out, .blk b q)]) (waveA [.blk b q] x))
    (h := fun x => idx (o.waves ++ [(Dir.inn, Node.blk b q), (Dir.out, .blk b q)]) (waveA [.blk b q] x)) (by
      intro x hx
      simp only [List.mem_cons, List.not_mem_nil, or_false] at hx
      rcases hx with rfl | rfl
      · rw [w1]; exact hA _
      · rw [w3]; exact hB _)
  have h2 := mapE_ok_of_forall (l := [p, Node.blk b q]) (g := fun x => pyIndex (o.waves ++ [(Dir.inn, Node.blk b q), (Dir.out, .blk b q)]) (waveB [.blk b q] x))
    (h := fun x => idx (o.waves ++ [(Dir.inn, Node.blk b q), (Dir.out, .blk b q)]) (waveB [.blk b q] x)) (by
      intro x hx
      simp only [List.mem_cons, List.not_mem_nil, or_false] at hx
      rcases hx with rfl | rfl
      · rw [w2]; exact hA _
      · rw [w4]; exact hB _)
  have hrun : ∃ o', connect o [p, .blk b q] = (o', .ok ()) ∧ o'.ports = o.ports.erase p ++ [.blk b q] := by
    unfold connect
    simp only [hf]
    have hfl : (List.flatMap (fun p => [(Dir.inn, p), (Dir.out, p)]) [Node.blk b q]) = [(Dir.inn, .blk b q), (Dir.out, .blk b q)] := rfl
    rw [hfl]
    simp only [h1, h2, hrem]
    exact ⟨_, rfl, rfl⟩
  obtain ⟨o', k1, k2⟩ := hrun
  refine ⟨o', k1, k2, fun s hs => ?_⟩
  unfold Circuit.connect
  simp only [hs, hf]

/-- C71: `set` never reaches a block: it raises as soon as a keyword names one, and changes none -/
theorem C71_set_never (o : OSt K O F Fl) (keys : List String) :
    (set o keys).1.blocks = o.blocks ∧ ((set o keys).2 = .ok () ↔ ∀ b ∈ o.blocks, b.name ∉ keys) := by
  unfold set
  split
  · rename_i h
    obtain ⟨b, hb, hk⟩ := h
    exact ⟨rfl, by simp; exact ⟨b, hb, hk⟩⟩
  · rename_i h
    push Not at h
    exact ⟨rfl, by simpa using h⟩

end
end PyRFtk.Circuit.Old

namespace PyRFtk.Circuit.Ex
open Old

/-- objects with a `Solution` method that reports a node `x` inside -/
def anySub : SubSol ℚ (Imm ℚ Unit Unit) Unit Unit := fun o => some fun _ _ _ _ _ => (o, .ok [("x", ⟨1, 2, 3, 4⟩)])

/-- two blocks joined, one end loaded; evaluated and solved -/
noncomputable def oldCalls : List (Old.Call ℚ (Imm ℚ Unit Unit) Unit Unit) :=
  [.addblock "A" (two mA) .none 0, .addblock "B" (two mB) .none 1, .connect [.blk "A" "2", .blk "B" "1"], .terminate (.blk "B" "2") (.Z 100),
   .getS () none (), .solve () [(.blk "A" "1", 1)] (some 75) (), .addblock "B" (two mA) .none 0, .solution () [(.blk "A" "1", 1)] none (some ["A.x"]) ()]

/-- a list of calls as `C71_same_answers` wants it; the evaluation answers with a matrix -/
theorem C71_same_witness : Lawful o Imm.beh ∧ Keeps o Imm.beh anySub ∧ Regular o anySub 0 false (St.init 50 []) oldCalls ∧
    ∃ M, (answers (stepR o anySub 0) (St.init 50 []) oldCalls)[4]? = some (.ok (.S M)) := by
  have hl := imm_lawful ℚ Unit Unit
  have e1 : stepR o anySub 0 s0 (.addblock "A" (two mA) .none 0) = (s1, .ok .done) := by simp only [stepR, step1]; rfl
  have e2 : stepR o anySub 0 s1 (.addblock "B" (two mB) .none 1) = (s2, .ok .done) := by simp only [stepR, step2]; rfl
  have e3 : stepR o anySub 0 s2 (.connect [.blk "A" "2", .blk "B" "1"]) = (s3, .ok .done) := by simp only [stepR, step3]; rfl
  have e4 : stepR o anySub 0 s3 (.terminate (.blk "B" "2") (.Z 100)) = (s4, .ok .done) := by simp only [stepR, step4]; rfl
  have hfree : net.free ≠ [] := by rw [free]; simp
  obtain ⟨t, S, hg⟩ := (C20_getS_complete hl built (by decide) given hfree (Or.inl names)).2 solvable
  have e5 : stepR o anySub 0 s4 (.getS () none ()) = (t, .ok (.S S)) := by simp only [stepR, hg]; rfl
  have hp4 : s4.ports ≠ [] := by
    intro h
    have := (built.inv hl).rep.ports_perm.length_eq
    rw [h, free] at this
    simp at this
  obtain ⟨hi, hp5⟩ := getS_ports_ne hl (built.inv hl) hp4 hg
  have hb5 := Built.eval built hg
  rw [afterEval_of_ne (by decide)] at hb5
  have hs5 : ∃ t6, (stepR o anySub 0 t (.solve () [(.blk "A" "1", 1)] (some 75) ())).1 = t6 ∧ Built o Imm.beh 0 50 [] net bh t6 .evaluated := by
    refine ⟨_, rfl, ?_⟩
    show Built o Imm.beh 0 50 [] net bh (solve o t () [(.blk "A" "1", 1)] (some 75) ()).1 .evaluated
    rcases solve_state hl hb5 (by decide) () [(.blk "A" "1", 1)] (some 75) () with h | h
    · rw [h]; exact hb5
    · rw [h]
      have := Built.eval hb5 (show getS o t () (some ((some (75 : ℚ)).getD t.zbase)) () = ((getS o t () (some ((some (75 : ℚ)).getD t.zbase)) ()).1, (getS o t () (some ((some (75 : ℚ)).getD t.zbase)) ()).2) from rfl)
      rw [afterEval_of_ne (by decide)] at this
      exact this
  obtain ⟨t6, h6, hb6⟩ := hs5
  have hi6 := hb6.inv hl
  have hB : ∃ b ∈ t6.blocks, b.name = "B" := by
    have := hi6.rep.rep.blks
    have h2 : "B" ∈ net.blks.map Prod.fst := by decide
    rw [this, List.map_map] at h2
    simpa [St.core] using h2
  have h7 : ∃ t7, addblock o 0 t6 "B" (two mA) .none 0 = (t7, .ok ()) := by
    unfold addblock
    simp only
    cases hf : t6.blocks.find? (fun b => b.name = "B") with
    | none =>
      exfalso
      rw [List.find?_eq_none] at hf
      obtain ⟨b, h1, h2⟩ := hB
      exact hf b h1 (by simpa using h2)
    | some b =>
      simp only
      have hb := List.mem_of_find?_eq_some hf
      have hbn : b.name = "B" := by simpa using List.find?_some hf
      have h1 : b.ports.length = o.len b.obj := hi6.rep.rep.blen b hb
      have h2 : (b.name, b.ports) ∈ net.blks := by
        rw [hi6.rep.rep.blks]
        exact List.mem_map_of_mem (f := fun b : Blk _ => (b.name, b.ports)) hb
      have h3 : b.ports.length = 2 := by
        simp only [net, List.mem_cons, List.not_mem_nil, or_false, Prod.mk.injEq] at h2
        rcases h2 with h2 | h2 <;> rw [h2.2] <;> rfl
      rw [if_neg (by rw [← h1, h3]; exact fun h => h rfl)]
      exact ⟨_, rfl⟩
  obtain ⟨t7, h7⟩ := h7
  have hb7 := Built.replace hb6 (by decide) h7
  have e7 : stepR o anySub 0 t6 (.addblock "B" (two mA) .none 0) = (t7, .ok .done) := by simp only [stepR, h7]; rfl
  have hp7 : t7.ports ≠ [] := by
    intro h
    have := (hb7.inv hl).rep.ports_perm.length_eq
    rw [h, free] at this
    simp at this
  refine ⟨hl, fun _ _ h _ _ _ _ _ => by injection h with h; rw [← h]; exact ⟨rfl, rfl⟩, ?_, S, ?_⟩
  · show Regular o anySub 0 false s0 oldCalls
    unfold oldCalls
    simp only [Regular, e1, e2, e3, e4, e5, h6, e7, true_and, and_true]
    refine ⟨Or.inr ?_, Or.inr ?_, by decide, hp4, hp5, Or.inl hB, hp7, by simp⟩
    · intro l hl; rw [show resolvePorts o (two mA) .none = .ok ["1", "2"] from by decide] at hl; injection hl with hl; rw [← hl]; decide
    · intro l hl; rw [show resolvePorts o (two mB) .none = .ok ["1", "2"] from by decide] at hl; injection hl with hl; rw [← hl]; decide
  · show (answers (stepR o anySub 0) s0 oldCalls)[4]? = _
    unfold oldCalls
    simp only [answers, e1, e2, e3, e4, e5]
    rfl

/-- a circuit that is evaluated and then gets a load: the hypotheses of `C71_connect_stale`, `C71_terminate_stale`, `C71_terminate_fatal`,
`C71_terminate_twice` and `C71_connect_misspelt` -/
theorem C71_stale_witness : ∃ (b b1 b2 : OSt ℚ (Imm ℚ Bool Unit) Bool Unit) (M : SMat ℚ), b.S = none ∧ b1.ports.Nodup ∧
    Old.getS Shared.ob b false none () = (b1, .ok M) ∧ Old.terminate b1 (.blk "A" "2") (.Z 50) = (b2, .ok ()) ∧
    (∀ d, (d, Node.blk "A" "2") ∈ b1.waves) ∧ (Dir.inn, Node.blk "A" "3") ∉ b1.waves := by
  have hl := imm_lawful ℚ Bool Unit
  have hfree : Shared.netB.free ≠ [] := by rw [Shared.freeB]; simp
  obtain ⟨t, S, hg⟩ := (C20_getS_complete hl Shared.c1_built (by decide) (Shared.givenB false) hfree (Or.inr (by
    rw [Shared.freeB]; exact List.Perm.swap _ _ _))).2 Shared.solvableB
  have hsim : Sim Shared.c1 (ofSt Shared.c1 []) := by
    refine ⟨[], rfl, fun h => ?_⟩
    exact absurd h (by decide)
  obtain ⟨h1, h2⟩ := getS_old hl (Shared.c1_built.inv hl) (by decide) hsim false none ()
  rw [hg] at h1 h2
  obtain ⟨i, h3, -⟩ := h1
  obtain ⟨hi, hp⟩ := getS_ports_ne hl (Shared.c1_built.inv hl) (by decide) hg
  have hmem : Node.blk "A" "2" ∈ t.ports := by
    rw [hi.rep.ports_perm.mem_iff, Shared.freeB]; simp
  have hw : ∀ d, (d, Node.blk "A" "2") ∈ t.waves := fun d => (hi.rep.rep.wmem d _).2 (by decide)
  have ht : ∃ b2, Old.terminate (ofSt t i) (.blk "A" "2") (.Z (50 : ℚ)) = (b2, .ok ()) := by
    unfold Old.terminate
    simp only
    rw [if_neg (by simpa [ofSt] using hmem)]
    have hrho : Old.termRho (ofSt t i).zbase (.Z (50 : ℚ)) = .ok ((50 - t.zbase) / (50 + t.zbase)) := by
      have : t.zbase = 50 := hi.zb
      simp only [Old.termRho, ofSt, this]; norm_num
    have hA : ∀ d, pyIndex (ofSt t i).waves (d, .blk "A" "2") = .ok (idx t.waves (d, .blk "A" "2")) := fun d => pyIndex_of_mem (hw d)
    simp only [hrho, hA]
    exact ⟨_, rfl⟩
  obtain ⟨b2, hb2⟩ := ht
  refine ⟨ofSt Shared.c1 [], ofSt t i, b2, S, rfl, hi.rep.rep.pnd, Prod.ext h3 h2, hb2, hw, ?_⟩
  intro h
  have := (hi.rep.rep.wmem .inn _).1 h
  exact absurd this (by decide)

end PyRFtk.Circuit.Ex
