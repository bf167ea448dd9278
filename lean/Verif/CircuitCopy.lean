import Verif.CircuitSolution
import Verif.CircuitRefuse

/-!
# C31: a copied circuit

`copy` is `rfBase.__deepcopy__` (rfBase.py:190-206) on a circuit: every attribute is deep-copied *separately*.  Two
consequences are visible: the block objects are replaced by their copies, and the lists `self.Portnames` and `self.ports`,
which are one and the same list after an evaluation (rfCircuit.py:1027, 1030), become two lists with the same contents.
-/

set_option linter.unusedSectionVars false

namespace PyRFtk.Circuit

section
variable {K O F Fl : Type*} [Field K] [DecidableEq F] [DecidableEq Fl]

/-- `copy.deepcopy(circuit)`, `circuit.copy()` (rfBase.py:184-206); `cp` copies a block object.  Simplification: the
identifier, which only occurs in messages, is left out. -/
def copy (cp : O → O) (s : St K O F Fl) : St K O F Fl :=
  { s with blocks := s.blocks.map (fun b => { b with obj := cp b.obj }), portnames := s.names, aliased := false }

/-! ## specification -/

/-- `R` relates objects that cannot be told apart by using them: same size, ports, positions and answers, also after any
further use. -/
structure Bisim (ops : ObjOps K O F Fl) (R : O → O → Prop) : Prop where
  refl : ∀ o, R o o
  len : ∀ o o', R o o' → ops.len o' = ops.len o
  ports : ∀ o o', R o o' → ops.ports o' = ops.ports o
  xpos : ∀ o o', R o o' → ops.xpos o' = ops.xpos o
  res : ∀ o o' f z fl, R o o' → (ops.getS o' f z fl).2 = (ops.getS o f z fl).2
  nxt : ∀ o o' f z fl, R o o' → R (ops.getS o f z fl).1 (ops.getS o' f z fl).1

/-- a call of one of the methods of a circuit -/
inductive Call (K O F Fl : Type*)
  | addblock (name : String) (obj : O) (spec : PortSpec) (relpos : ℚ)
  | connect (ps : List Node)
  | terminate (p : Node) (args : TermArgs K)
  | deembed (int ext : List (Node × Node))
  | getS (f : F) (z : Option K) (fl : Fl)
  | solve (f : F) (E : List (Node × K)) (z : Option K) (fl : Fl)
  | solution (f : F) (E : List (Node × K)) (z : Option K) (fl : Fl)

/-- what the caller sees: the value returned or the exception -/
inductive Reply (K : Type*)
  | unit (r : Except Err Unit)
  | mat (r : Except Err (SMat K))
  | vec (r : Except Err (SVec K))
  | table (r : Except Err (List (Node × Quad K)))

/-- one call -/
noncomputable def step (ops : ObjOps K O F Fl) (nan : K) (s : St K O F Fl) : Call K O F Fl → St K O F Fl × Reply K
  | .addblock name obj spec relpos => let r := addblock ops nan s name obj spec relpos; (r.1, .unit r.2)
  | .connect ps => let r := connect ops s ps; (r.1, .unit r.2)
  | .terminate p args => let r := terminate s p args; (r.1, .unit r.2)
  | .deembed int ext => let r := deembed s int ext; (r.1, .unit r.2)
  | .getS f z fl => let r := getS ops s f z fl; (r.1, .mat r.2)
  | .solve f E z fl => let r := solve ops s f E z fl; (r.1, .vec r.2)
  | .solution f E z fl => let r := solution ops s f E z fl; (r.1, .table r.2)

/-- the replies to a sequence of calls (the caller goes on after an exception) -/
noncomputable def replies (ops : ObjOps K O F Fl) (nan : K) : St K O F Fl → List (Call K O F Fl) → List (Reply K)
  | _, [] => []
  | s, c :: cs => (step ops nan s c).2 :: replies ops nan (step ops nan s c).1 cs

/-! ## circuits that cannot be told apart -/

variable {ops : ObjOps K O F Fl} {R : O → O → Prop} {nan : K}

/-- same block, with an indistinguishable object -/
def Blk.Twin (R : O → O → Prop) (b b' : Blk O) : Prop :=
  b'.name = b.name ∧ b'.ports = b.ports ∧ b'.loc = b.loc ∧ b'.relpos = b.relpos ∧ R b.obj b'.obj

abbrev Twins (R : O → O → Prop) (bs bs' : List (Blk O)) : Prop := List.Forall₂ (Blk.Twin R) bs bs'

/-- replacing the blocks -/
abbrev St.wb (s : St K O F Fl) (bs : List (Blk O)) : St K O F Fl := { s with blocks := bs }
/-- replacing the blocks and the `Portnames` -/
abbrev St.wp (s : St K O F Fl) (bs : List (Blk O)) (pn : List Node) (al : Bool) : St K O F Fl :=
  { s with blocks := bs, portnames := pn, aliased := al }

theorem fillBlocks_twin (hb : Bisim ops R) (f : F) (z : K) (fl : Fl) {bs bs' : List (Blk O)} (h : Twins R bs bs') :
    ∀ rows, Twins R (fillBlocks ops f z fl bs rows).1 (fillBlocks ops f z fl bs' rows).1 ∧
      (fillBlocks ops f z fl bs' rows).2 = (fillBlocks ops f z fl bs rows).2 := by
  induction h with
  | nil => intro rows; exact ⟨.nil, rfl⟩
  | @cons b b' bs bs' hbb htl ih =>
    intro rows
    obtain ⟨h1, h2, h3, h4, h5⟩ := hbb
    have e1 := hb.res _ _ f z fl h5
    have e2 := hb.nxt _ _ f z fl h5
    unfold fillBlocks
    cases hg : ops.getS b.obj f z fl with
    | mk o r =>
      cases hg' : ops.getS b'.obj f z fl with
      | mk o' r' =>
        rw [hg, hg'] at e1 e2
        simp only at e1 e2
        subst e1
        have hh : Blk.Twin R { b with obj := o } { b' with obj := o' } := ⟨h1, h2, h3, h4, e2⟩
        cases r' with
        | error e => exact ⟨.cons hh htl, rfl⟩
        | ok S =>
          have e3 : setBlock rows b'.loc b'.ports.length S = setBlock rows b.loc b.ports.length S := by rw [h2, h3]
          simp only [e3]
          cases hs : setBlock rows b.loc b.ports.length S with
          | error e => exact ⟨.cons hh htl, rfl⟩
          | ok rows1 =>
            obtain ⟨i1, i2⟩ := ih rows1
            refine ⟨.cons hh i1, ?_⟩
            rw [i2]

theorem solveWith_wp (s : St K O F Fl) (bs : List (Blk O)) (pn : List Node) (al : Bool) (n : ℕ) (a b e : List ℕ) :
    solveWith (s.wp bs pn al) n a b e = (((solveWith s n a b e).1).wp bs pn al, (solveWith s n a b e).2) := by
  unfold solveWith
  have hm : (s.wp bs pn al).mat = s.mat := rfl
  simp only [hm]
  split
  · rfl
  · cases npInv s.mat with
    | error e => rfl
    | ok W =>
      simp only
      split
      · rfl
      · split
        · rfl
        · cases npInv (cut W n a e) <;> rfl

theorem solveE_wp (s : St K O F Fl) (bs : List (Blk O)) (pn : List Node) (al : Bool) (hn : (s.wp bs pn al).names = s.names) :
    solveE (s.wp bs pn al) = (((solveE s).1).wp bs pn al, (solveE s).2) := by
  unfold solveE
  simp only [hn]
  cases mapE (dictIndex s.E) s.names with
  | error e => rfl
  | ok i =>
    simp only
    cases mapE (fun p => pyIndex s.waves (Dir.inn, p)) s.names with
    | error e => rfl
    | ok j =>
      cases mapE (fun p => pyIndex s.waves (Dir.out, p)) s.names with
      | error e => rfl
      | ok k => exact solveWith_wp s bs pn al _ _ _ _

theorem iter_addE_wb (bs : List (Blk O)) : ∀ (ps : List Node) (s : St K O F Fl),
    iter addE (s.wb bs) ps = (((iter addE s ps).1).wb bs, (iter addE s ps).2)
  | [], s => rfl
  | p :: ps, s => by
    have h1 : addE (s.wb bs) p = (((addE s p).1).wb bs, (addE s p).2) := by
      unfold addE
      simp only
      cases pyIndex s.waves (Dir.inn, p) with
      | error e => rfl
      | ok i => simp only; split <;> rfl
    unfold iter
    rw [h1]
    cases ha : addE s p with
    | mk s1 r1 =>
      cases r1 with
      | error e => rfl
      | ok u => exact iter_addE_wb bs ps s1

theorem squareUp_wb (s : St K O F Fl) (bs : List (Blk O)) : squareUp (s.wb bs) = (((squareUp s).1).wb bs, (squareUp s).2) := by
  have e1 : (({ s with S := none } : St K O F Fl).wb bs).names = s.names := rfl
  have e2 : ({ s with S := none } : St K O F Fl).names = s.names := rfl
  have e3 : ({ s.wb bs with S := none } : St K O F Fl).names = s.names := rfl
  unfold squareUp
  by_cases h1 : s.rows.length = s.cols
  · rw [if_pos h1, if_pos (show (s.wb bs).rows.length = (s.wb bs).cols from h1)]
  · rw [if_neg h1, if_neg (show ¬ (s.wb bs).rows.length = (s.wb bs).cols from h1)]
    simp only [e2, e3]
    generalize s.names = nm
    by_cases h2 : nm ≠ []
    · simp only [if_pos h2]
      by_cases h3 : nm.length ≠ s.ports.length
      · simp only [if_pos h3]
      · simp only [if_neg h3]
        by_cases h4 : ∃ p ∈ s.ports, p ∉ nm
        · simp only [if_pos h4]
        · simp only [if_neg h4]
          exact iter_addE_wb bs _ { s with S := none, ports := nm, aliased := true }
    · simp only [if_neg h2]
      exact iter_addE_wb bs _ { s with S := none, aliased := true }

theorem solveE_names (s : St K O F Fl) : (solveE s).1.portnames = s.portnames ∧ (solveE s).1.aliased = s.aliased := by
  unfold solveE solveWith
  split
  · exact ⟨rfl, rfl⟩
  · split
    · exact ⟨rfl, rfl⟩
    · exact ⟨rfl, rfl⟩
    · split
      · exact ⟨rfl, rfl⟩
      · split
        · exact ⟨rfl, rfl⟩
        · simp only
          split
          · exact ⟨rfl, rfl⟩
          · split
            · exact ⟨rfl, rfl⟩
            · split <;> exact ⟨rfl, rfl⟩

theorem solveE_wb (s : St K O F Fl) (bs : List (Blk O)) : solveE (s.wb bs) = (((solveE s).1).wb bs, (solveE s).2) := by
  have h := solveE_wp s bs s.portnames s.aliased rfl
  have e := solveE_names s
  have h2 : s.wp bs s.portnames s.aliased = s.wb bs := rfl
  rw [h2] at h
  rw [h]
  refine Prod.ext ?_ rfl
  simp only [St.wp, St.wb]
  rw [← e.1, ← e.2]

theorem extS_wb (s : St K O F Fl) (bs : List (Blk O)) : extS (s.wb bs) = (((extS s).1).wb bs, (extS s).2) := by
  unfold extS
  rw [squareUp_wb]
  cases squareUp s with
  | mk s1 r1 => cases r1 with
    | error e => rfl
    | ok u => exact solveE_wb s1 bs

theorem extS_wp (s : St K O F Fl) (bs : List (Blk O)) (pn : List Node) (al : Bool) (hn : (s.wp bs pn al).names = s.names)
    (hsq : s.rows.length = s.cols) :
    extS (s.wp bs pn al) = (((extS s).1).wp bs pn al, (extS s).2) := by
  unfold extS squareUp
  rw [if_pos hsq, if_pos (show (s.wp bs pn al).rows.length = (s.wp bs pn al).cols from hsq)]
  exact solveE_wp s bs pn al hn

/-- Two circuit states that cannot be told apart by further calls (`plain`), or by further calls that do not extend the
circuit or consume a free port (`frozen`). -/
inductive Twin (R : O → O → Prop) (fr : Bool) (s : St K O F Fl) : St K O F Fl → Prop
  | plain (bs : List (Blk O)) : fr = false → Twins R s.blocks bs → Twin R fr s (s.wb bs)
  | frozen (bs : List (Blk O)) (pn : List Node) (al : Bool) : fr = true → Twins R s.blocks bs →
      (s.wp bs pn al).names = s.names → s.rows.length = s.cols → Twin R fr s (s.wp bs pn al)

theorem Twin.ports {fr : Bool} {s t : St K O F Fl} (h : Twin R fr s t) : t.ports = s.ports := by cases h <;> rfl
theorem Twin.zbase {fr : Bool} {s t : St K O F Fl} (h : Twin R fr s t) : t.zbase = s.zbase := by cases h <;> rfl
theorem Twin.E {fr : Bool} {s t : St K O F Fl} (h : Twin R fr s t) : t.E = s.E := by cases h <;> rfl
theorem Twin.rows {fr : Bool} {s t : St K O F Fl} (h : Twin R fr s t) : t.rows = s.rows := by cases h <;> rfl
theorem Twin.waves {fr : Bool} {s t : St K O F Fl} (h : Twin R fr s t) : t.waves = s.waves := by cases h <;> rfl
theorem Twin.invM {fr : Bool} {s t : St K O F Fl} (h : Twin R fr s t) : t.invM = s.invM := by cases h <;> rfl

theorem extS_blk (s : St K O F Fl) : (extS s).1.blocks = s.blocks := congrArg (fun x => x.1.blocks) (extS_wb s s.blocks)

theorem extS_twin {fr : Bool} {s t : St K O F Fl} (h : Twin R fr s t) :
    Twin R fr (extS s).1 (extS t).1 ∧ (extS t).2 = (extS s).2 := by
  cases h with
  | plain bs hf hb =>
    have e := extS_wb s bs
    rw [e]
    refine ⟨.plain bs hf ?_, rfl⟩
    rw [extS_blk]; exact hb
  | frozen bs pn al hf hb hn hsq =>
    rw [extS_wp s bs pn al hn hsq]
    have e : extS s = solveE s := by unfold extS squareUp; rw [if_pos hsq]
    obtain ⟨k1, k2, k3, k4, k5, k6, k7⟩ := solveE_frame s
    refine ⟨.frozen bs pn al hf (by rw [extS_blk]; exact hb) ?_ ?_, rfl⟩
    · rw [e]
      simp only [St.names, k3, k6, (solveE_names s).1] at hn ⊢
      exact hn
    · rw [e, k1, k2]; exact hsq

theorem recompute_twin (hb : Bisim ops R) {fr : Bool} {s t : St K O F Fl} (h : Twin R fr s t) (f : F) (fl : Fl) :
    Twin R fr (recompute ops s f fl).1 (recompute ops t f fl).1 ∧ (recompute ops t f fl).2 = (recompute ops s f fl).2 := by
  have key : ∀ s1 t1 : St K O F Fl, ∀ q : Except Err Unit, Twin R fr s1 t1 →
      Twin R fr (match q with
        | .error e => (s1, Except.error e)
        | .ok _ => match extS s1 with
          | (s, .error e) => (s, .error e)
          | (s, .ok M) => ({ s with f := some f, S := some M, flags := some fl }, .ok M)).1
       (match q with
        | .error e => (t1, Except.error e)
        | .ok _ => match extS t1 with
          | (s, .error e) => (s, .error e)
          | (s, .ok M) => ({ s with f := some f, S := some M, flags := some fl }, .ok M)).1 ∧
      (match q with
        | .error e => (t1, Except.error e)
        | .ok _ => match extS t1 with
          | (s, .error e) => (s, .error e)
          | (s, .ok M) => ({ s with f := some f, S := some M, flags := some fl }, .ok M)).2 =
      (match q with
        | .error e => (s1, Except.error e)
        | .ok _ => match extS s1 with
          | (s, .error e) => (s, .error e)
          | (s, .ok M) => ({ s with f := some f, S := some M, flags := some fl }, .ok M)).2 := by
    intro s1 t1 q htw
    cases q with
    | error e => exact ⟨htw, rfl⟩
    | ok u =>
      obtain ⟨x1, x2⟩ := extS_twin htw
      simp only
      cases hs : extS s1 with
      | mk s2 r2 =>
        cases ht : extS t1 with
        | mk t2 r2' =>
          rw [hs, ht] at x1 x2
          simp only at x1 x2
          subst x2
          cases r2' with
          | error e => exact ⟨x1, rfl⟩
          | ok M =>
            refine ⟨?_, rfl⟩
            cases x1 with
            | plain bs hf hb => exact .plain (s := { s2 with f := some f, S := some M, flags := some fl }) bs hf hb
            | frozen bs pn al hf hb hn hsq =>
              exact .frozen (s := { s2 with f := some f, S := some M, flags := some fl }) bs pn al hf hb hn hsq
  unfold recompute
  simp only
  cases h with
  | plain bs hf hbs =>
    obtain ⟨y1, y2⟩ := fillBlocks_twin hb f s.zbase fl hbs s.rows
    rw [y2]
    exact key { s with blocks := _, rows := _ } _ _ (.plain _ hf y1)
  | frozen bs pn al hf hbs hn hsq =>
    obtain ⟨y1, y2⟩ := fillBlocks_twin hb f s.zbase fl hbs s.rows
    rw [y2]
    have hl := fillBlocks_length (ops := ops) f s.zbase fl s.blocks s.rows
    refine key { s with blocks := _, rows := _ } _ _ (.frozen _ pn al hf y1 hn ?_)
    exact hl.trans hsq

theorem get1S_twin (hb : Bisim ops R) {fr : Bool} {s t : St K O F Fl} (h : Twin R fr s t) (f : F) (fl : Fl) :
    Twin R fr (get1S ops s f fl).1 (get1S ops t f fl).1 ∧ (get1S ops t f fl).2 = (get1S ops s f fl).2 := by
  have e : t.S = s.S ∧ t.f = s.f ∧ t.flags = s.flags := by cases h <;> exact ⟨rfl, rfl, rfl⟩
  have hr := recompute_twin hb h f fl
  unfold get1S
  rw [e.1, e.2.1, e.2.2]
  cases s.S with
  | none => exact hr
  | some M =>
    simp only
    split
    · exact ⟨h, rfl⟩
    · exact hr

theorem getS_twin (hb : Bisim ops R) {fr : Bool} {s t : St K O F Fl} (h : Twin R fr s t) (f : F) (z : Option K) (fl : Fl) :
    Twin R fr (getS ops s f z fl).1 (getS ops t f z fl).1 ∧ (getS ops t f z fl).2 = (getS ops s f z fl).2 := by
  obtain ⟨x1, x2⟩ := get1S_twin hb h f fl
  unfold getS
  cases hs : get1S ops s f fl with
  | mk s1 r1 =>
    cases ht : get1S ops t f fl with
    | mk t1 r1' =>
      rw [hs, ht] at x1 x2
      simp only at x1 x2
      subst x2
      cases r1' with
      | error e => exact ⟨x1, rfl⟩
      | ok M =>
        cases z with
        | none => exact ⟨x1, rfl⟩
        | some z =>
          by_cases hz : z ≠ 0 ∧ z ≠ s1.zbase
          · have hz' : z ≠ 0 ∧ z ≠ t1.zbase := by rw [x1.zbase]; exact hz
            simp only [if_pos hz, if_pos hz', x1.zbase]
            exact ⟨x1, trivial⟩
          · have hz' : ¬ (z ≠ 0 ∧ z ≠ t1.zbase) := by rw [x1.zbase]; exact hz
            simp only [if_neg hz, if_neg hz']
            exact ⟨x1, trivial⟩

theorem applyInv_twin {fr : Bool} {s t : St K O F Fl} (h : Twin R fr s t) (N : ℕ) (Es : ℕ → K) :
    Twin R fr (applyInv s N Es).1 (applyInv t N Es).1 ∧ (applyInv t N Es).2 = (applyInv s N Es).2 := by
  obtain ⟨x1, x2⟩ := extS_twin h
  unfold applyInv
  rw [h.invM]
  cases s.invM with
  | some W =>
    simp only
    split
    · exact ⟨h, rfl⟩
    · exact ⟨h, rfl⟩
  | none =>
    simp only
    cases hs : extS s with
    | mk s2 r2 =>
      cases ht : extS t with
      | mk t2 r2' =>
        rw [hs, ht] at x1 x2
        simp only at x1 x2
        subst x2
        cases r2' with
        | error e => exact ⟨x1, rfl⟩
        | ok M =>
          simp only [x1.invM]
          cases s2.invM with
          | none => exact ⟨x1, rfl⟩
          | some W =>
            simp only
            split
            · exact ⟨x1, rfl⟩
            · exact ⟨x1, rfl⟩

theorem solve_twin (hb : Bisim ops R) {fr : Bool} {s t : St K O F Fl} (h : Twin R fr s t) (f : F) (E : List (Node × K))
    (z : Option K) (fl : Fl) :
    Twin R fr (solve ops s f E z fl).1 (solve ops t f E z fl).1 ∧ (solve ops t f E z fl).2 = (solve ops s f E z fl).2 := by
  unfold solve
  simp only [h.ports, h.zbase]
  cases mapE (dictIndex E) s.ports with
  | error e => exact ⟨h, rfl⟩
  | ok Ea =>
    simp only
    obtain ⟨x1, x2⟩ := getS_twin hb h f (some (z.getD s.zbase)) fl
    cases hs : getS ops s f (some (z.getD s.zbase)) fl with
    | mk s1 r1 =>
      cases ht : getS ops t f (some (z.getD s.zbase)) fl with
      | mk t1 r1' =>
        rw [hs, ht] at x1 x2
        simp only at x1 x2
        subst x2
        cases r1' with
        | error e => exact ⟨x1, rfl⟩
        | ok M =>
          simp only
          cases applyS M Ea with
          | error e => exact ⟨x1, rfl⟩
          | ok Eb =>
            simp only [x1.zbase, x1.E, x1.rows, x1.ports]
            by_cases hz : z.getD s.zbase = 0
            · have hz' : z.getD t.zbase = 0 := by rw [h.zbase]; exact hz
              rw [if_pos hz, if_pos hz']
              exact ⟨x1, rfl⟩
            · have hz' : ¬ z.getD t.zbase = 0 := by rw [h.zbase]; exact hz
              rw [if_neg hz, if_neg hz']
              cases fillEs s1.E s1.rows.length (s1.ports.zip ((Ea.zip Eb).map fun x => onOwn s1.zbase (z.getD s.zbase) x.1 x.2))
                  (fun _ => 0) with
              | error e => exact ⟨x1, rfl⟩
              | ok Es => exact applyInv_twin x1 _ _

theorem solution_twin (hb : Bisim ops R) {fr : Bool} {s t : St K O F Fl} (h : Twin R fr s t) (f : F) (E : List (Node × K))
    (z : Option K) (fl : Fl) :
    Twin R fr (solution ops s f E z fl).1 (solution ops t f E z fl).1 ∧
      (solution ops t f E z fl).2 = (solution ops s f E z fl).2 := by
  obtain ⟨x1, x2⟩ := solve_twin hb h f E z fl
  unfold solution
  cases hs : solve ops s f E z fl with
  | mk s1 r1 =>
    cases ht : solve ops t f E z fl with
    | mk t1 r1' =>
      rw [hs, ht] at x1 x2
      simp only at x1 x2
      subst x2
      cases r1' with
      | error e => exact ⟨x1, rfl⟩
      | ok sol =>
        have e : nodeQuad t1 (z.getD t.zbase) sol = nodeQuad s1 (z.getD s.zbase) sol := by
          funext wk
          unfold nodeQuad
          rw [x1.waves, x1.zbase, h.zbase]
        simp only [e, x1.waves]
        cases mapE (nodeQuad s1 (z.getD s.zbase) sol) s1.waves.zipIdx with
        | error e => exact ⟨x1, rfl⟩
        | ok l => exact ⟨x1, rfl⟩

/-! ## the calls that build -/

theorem find_twin {bs bs' : List (Blk O)} (h : Twins R bs bs') (name : String) :
    (bs.find? (fun b => b.name = name) = none ∧ bs'.find? (fun b => b.name = name) = none) ∨
    ∃ b b', bs.find? (fun b => b.name = name) = some b ∧ bs'.find? (fun b => b.name = name) = some b' ∧ Blk.Twin R b b' := by
  induction h with
  | nil => exact Or.inl ⟨rfl, rfl⟩
  | @cons b b' bs bs' hb _ ih =>
    by_cases hn : b.name = name
    · right
      exact ⟨b, b', by simp [hn], by simp [hb.1, hn], hb⟩
    · have hn' : ¬ b'.name = name := by rw [hb.1]; exact hn
      simp only [List.find?_cons, hn, hn', decide_false]
      exact ih

theorem any_twin {bs bs' : List (Blk O)} (h : Twins R bs bs') (name : String) :
    bs'.any (fun b => b.name = name) = bs.any (fun b => b.name = name) := by
  induction h with
  | nil => rfl
  | @cons b b' bs bs' hb _ ih => simp only [List.any_cons, hb.1, ih]

theorem replaceObj_twin (hr : ∀ o, R o o) {bs bs' : List (Blk O)} (h : Twins R bs bs') (name : String) (obj : O) :
    Twins R (replaceObj name obj bs) (replaceObj name obj bs') := by
  induction h with
  | nil => exact .nil
  | @cons b b' bs bs' hb _ ih =>
    refine .cons ?_ ih
    obtain ⟨h1, h2, h3, h4, h5⟩ := hb
    by_cases hn : b.name = name
    · have hn' : b'.name = name := by rw [h1]; exact hn
      simp only [if_pos hn, if_pos hn']
      exact ⟨h1, h2, h3, h4, hr _⟩
    · have hn' : ¬ b'.name = name := by rw [h1]; exact hn
      simp only [if_neg hn, if_neg hn']
      exact ⟨h1, h2, h3, h4, h5⟩

theorem addblock_twin (hb : Bisim ops R) {fr : Bool} {s t : St K O F Fl} (h : Twin R fr s t) (name : String) (obj : O)
    (spec : PortSpec) (relpos : ℚ) (hex : fr = true → name ∈ s.blocks.map Blk.name) :
    Twin R fr (addblock ops nan s name obj spec relpos).1 (addblock ops nan t name obj spec relpos).1 ∧
      (addblock ops nan t name obj spec relpos).2 = (addblock ops nan s name obj spec relpos).2 := by
  have hbs : Twins R s.blocks t.blocks := by cases h <;> assumption
  unfold addblock
  simp only
  rcases find_twin hbs name with ⟨e1, e2⟩ | ⟨b, b', e1, e2, e3⟩
  · have hfr : fr = false := by
      cases fr with
      | false => rfl
      | true =>
        exfalso
        obtain ⟨x, hx, hxn⟩ := List.mem_map.1 (hex rfl)
        have := List.find?_eq_none.1 e1 x hx
        simp [hxn] at this
    rw [e1, e2]
    simp only
    cases hres : resolvePorts ops obj spec with
    | error e =>
      refine ⟨?_, rfl⟩
      cases h with
      | plain bs hf hb => exact .plain (s := { s with S := none, invM := none }) bs hf hb
      | frozen bs pn al hf => rw [hf] at hfr; cases hfr
    | ok oports =>
      refine ⟨?_, rfl⟩
      cases h with
      | frozen bs pn al hf => rw [hf] at hfr; cases hfr
      | plain bs hf hbs =>
        refine .plain (s := { s with S := none, invM := none, blocks := _, waves := _, ports := _, rows := _, cols := _, eqns := _, xpos := _ }) (bs ++ [⟨name, oports, (s.rows.length, s.cols), obj, relpos⟩]) hf ?_
        exact List.rel_append hbs (.cons ⟨rfl, rfl, rfl, rfl, hb.refl _⟩ .nil)
  · rw [e1, e2]
    simp only [hb.len _ _ e3.2.2.2.2, any_twin hbs]
    split
    · refine ⟨?_, rfl⟩
      cases h with
      | plain bs hf hb => exact .plain (s := { s with S := none, invM := none }) bs hf hb
      | frozen bs pn al hf hb hn hsq =>
        exact .frozen (s := { s with S := none, invM := none }) bs pn al hf hb hn hsq
    · refine ⟨?_, rfl⟩
      have hre := replaceObj_twin hb.refl hbs name obj
      cases h with
      | plain bs hf hb =>
        exact .plain (s := { s with S := none, invM := none, blocks := replaceObj name obj s.blocks }) _ hf hre
      | frozen bs pn al hf hb hn hsq =>
        exact .frozen (s := { s with S := none, invM := none, blocks := replaceObj name obj s.blocks }) _ pn al hf hre hn hsq

theorem consume_wb (bs : List (Blk O)) (new : List Node) : ∀ (ps : List Node) (s : St K O F Fl),
    consume new ps (s.wb bs) = (((consume new ps s).1).wb bs, (consume new ps s).2)
  | [], s => rfl
  | p :: ps, s => by
    unfold consume
    simp only
    split
    · exact consume_wb bs new ps s
    · cases pyIndex s.ports p with
      | error e => rfl
      | ok kp =>
        simp only
        cases pyPop s.xpos kp with
        | error e => rfl
        | ok xs => exact consume_wb bs new ps { s with ports := s.ports.eraseIdx kp, xpos := xs }

theorem connectTail_wb (bs : List (Blk O)) (new ps : List Node) (s : St K O F Fl) :
    connectTail new ps (s.wb bs) = (((connectTail new ps s).1).wb bs, (connectTail new ps s).2) := by
  unfold connectTail
  simp only
  cases mapE (fun p => pyIndex s.waves (waveA new p)) ps with
  | error e => rfl
  | ok i =>
    cases mapE (fun p => pyIndex s.waves (waveB new p)) ps with
    | error e => rfl
    | ok j =>
      simp only [consume_wb]
      cases consume new ps s with
      | mk s1 r1 => cases r1 <;> rfl

theorem getpos_wb (hb : Bisim ops R) {s : St K O F Fl} {bs : List (Blk O)} (h : Twins R s.blocks bs) (n : Node) :
    getpos ops (s.wb bs) n = getpos ops s n := by
  cases n with
  | ext n => rfl
  | blk b p =>
    unfold getpos
    simp only
    rcases find_twin h b with ⟨e1, e2⟩ | ⟨x, x', e1, e2, e3⟩
    · rw [e1, e2]
    · rw [e1, e2]
      simp only [e3.2.1, hb.xpos _ _ e3.2.2.2.2, e3.2.2.2.1]

theorem connect_wb (hb : Bisim ops R) {s : St K O F Fl} {bs : List (Blk O)} (h : Twins R s.blocks bs) (ps : List Node) :
    connect ops (s.wb bs) ps = (((connect ops s ps).1).wb bs, (connect ops s ps).2) := by
  unfold connect
  simp only
  generalize ps.filter (fun p => decide ((Dir.inn, p) ∉ s.waves)) = new
  generalize ps.filter (fun p => decide ((Dir.inn, p) ∈ s.waves)) = old
  match new with
  | [] => exact connectTail_wb bs [] ps s
  | _ :: _ :: _ => rfl
  | [.blk _ _] => rfl
  | [.ext n] =>
    match old with
    | [] => rfl
    | o :: _ =>
      have e := getpos_wb (s := { s with waves := s.waves ++ [(.inn, .ext n), (.out, .ext n)], ports := s.ports ++ [.ext n] }) hb h o
      simp only [St.wb] at e ⊢
      rw [e]
      cases getpos ops { s with waves := s.waves ++ [(.inn, .ext n), (.out, .ext n)], ports := s.ports ++ [.ext n] } o with
      | error e => rfl
      | ok x =>
        exact connectTail_wb bs [.ext n] ps { s with waves := s.waves ++ [(.inn, .ext n), (.out, .ext n)],
                                                      ports := s.ports ++ [.ext n], xpos := s.xpos ++ [x] }

theorem terminate_wb (s : St K O F Fl) (bs : List (Blk O)) (p : Node) (args : TermArgs K) :
    terminate (s.wb bs) p args = (((terminate s p args).1).wb bs, (terminate s p args).2) := by
  unfold terminate
  simp only
  cases termRho s.zbase args with
  | error e => rfl
  | ok rho =>
    simp only
    cases dictGet p s.T with
    | some v => rfl
    | none =>
      simp only
      cases pyIndex s.waves (Dir.inn, p) <;> cases pyIndex s.waves (Dir.out, p) <;> cases dictGet p s.E <;>
        cases pyIndex s.ports p <;> try rfl
      all_goals
        simp only
        rename_i k
        cases pyPop s.xpos k <;> rfl

theorem deembedInt_wb (s : St K O F Fl) (bs : List (Blk O)) (dp ip : Node) :
    deembedInt (s.wb bs) dp ip = (((deembedInt s dp ip).1).wb bs, (deembedInt s dp ip).2) := by
  unfold deembedInt
  simp only
  split
  · rfl
  · split
    · rfl
    · cases pyIndex (s.waves ++ [(Dir.inn, ip), (Dir.out, ip)]) (Dir.inn, dp) <;>
        cases pyIndex (s.waves ++ [(Dir.inn, ip), (Dir.out, ip)]) (Dir.out, dp) <;> rfl

theorem deembedExt_wb (s : St K O F Fl) (bs : List (Blk O)) (dp ep : Node) :
    deembedExt (s.wb bs) dp ep = (((deembedExt s dp ep).1).wb bs, (deembedExt s dp ep).2) := by
  unfold deembedExt
  simp only
  split
  · rfl
  · split
    · rfl
    · cases pyIndex s.waves (Dir.inn, dp) <;> cases pyIndex s.waves (Dir.out, dp) <;>
        cases pyIndex s.waves (Dir.inn, ep) <;> cases pyIndex s.waves (Dir.out, ep) <;> try rfl
      simp only
      cases pyIndex (s.ports.erase dp) ep <;> rfl

theorem iter_wb {α : Type*} {g : St K O F Fl → α → St K O F Fl × Except Err Unit} (bs : List (Blk O))
    (hg : ∀ s x, g (s.wb bs) x = (((g s x).1).wb bs, (g s x).2)) : ∀ (l : List α) (s : St K O F Fl),
    iter g (s.wb bs) l = (((iter g s l).1).wb bs, (iter g s l).2)
  | [], s => rfl
  | x :: l, s => by
    unfold iter
    rw [hg]
    cases g s x with
    | mk s1 r1 => cases r1 with
      | error e => rfl
      | ok u => exact iter_wb bs hg l s1

theorem deembed_wb (s : St K O F Fl) (bs : List (Blk O)) (int ext : List (Node × Node)) :
    deembed (s.wb bs) int ext = (((deembed s int ext).1).wb bs, (deembed s int ext).2) := by
  unfold deembed
  simp only
  have h1 := iter_wb (g := fun s (x : Node × Node) => deembedInt s x.1 x.2) bs (fun s x => deembedInt_wb s bs x.1 x.2) int
    { s with S := none, invM := none, rows := s.rows.map (padRow s.cols), cols := s.cols + 2 * int.length }
  rw [h1]
  cases iter (fun s (x : Node × Node) => deembedInt s x.1 x.2)
    { s with S := none, invM := none, rows := s.rows.map (padRow s.cols), cols := s.cols + 2 * int.length } int with
  | mk s1 r1 => cases r1 with
    | error e => rfl
    | ok u => exact iter_wb (g := fun s (x : Node × Node) => deembedExt s x.1 x.2) bs (fun s x => deembedExt_wb s bs x.1 x.2) ext s1

/-- the call does not extend the circuit and does not take away one of its free ports -/
def Keeping (s : St K O F Fl) : Call K O F Fl → Prop
  | .addblock name _ _ _ => name ∈ s.blocks.map Blk.name
  | .connect _ => False
  | .terminate p _ => p ∈ s.T.map Prod.fst
  | .deembed _ _ => False
  | .getS _ _ _ => True
  | .solve _ _ _ _ => True
  | .solution _ _ _ _ => True

/-- no call of the sequence extends the circuit or takes away a free port -/
def KeepingAll (ops : ObjOps K O F Fl) (nan : K) : St K O F Fl → List (Call K O F Fl) → Prop
  | _, [] => True
  | s, c :: cs => Keeping s c ∧ KeepingAll ops nan (step ops nan s c).1 cs

theorem twins_refl (hb : Bisim ops R) (bs : List (Blk O)) : Twins R bs bs := by
  induction bs with
  | nil => exact .nil
  | cons b bs ih => exact .cons ⟨rfl, rfl, rfl, rfl, hb.refl _⟩ ih

theorem step_twin (hb : Bisim ops R) {fr : Bool} {s t : St K O F Fl} (h : Twin R fr s t) (c : Call K O F Fl)
    (hk : fr = true → Keeping s c) :
    Twin R fr (step ops nan s c).1 (step ops nan t c).1 ∧ (step ops nan t c).2 = (step ops nan s c).2 := by
  cases c with
  | addblock name obj spec relpos =>
    obtain ⟨h1, h2⟩ := addblock_twin (nan := nan) hb h name obj spec relpos hk
    exact ⟨h1, congrArg Reply.unit h2⟩
  | connect ps =>
    cases h with
    | plain bs hf hbs =>
      simp only [step]
      have e := connect_wb hb hbs ps
      rw [e]
      exact ⟨.plain bs hf (by rw [show (connect ops s ps).1.blocks = s.blocks from
        congrArg (fun x => x.1.blocks) (connect_wb (bs := s.blocks) hb (s := s) (twins_refl hb _) ps)]; exact hbs), rfl⟩
    | frozen bs pn al hf => exact absurd (hk hf) id
  | terminate p args =>
    cases h with
    | plain bs hf hbs =>
      simp only [step]
      have e := terminate_wb s bs p args
      rw [e]
      exact ⟨.plain bs hf (by rw [show (terminate s p args).1.blocks = s.blocks from
        congrArg (fun x => x.1.blocks) (terminate_wb s s.blocks p args)]; exact hbs), rfl⟩
    | frozen bs pn al hf hbs hn hsq =>
      have hT : ∃ v, dictGet p s.T = some v := by
        cases hd : dictGet p s.T with
        | some v => exact ⟨v, rfl⟩
        | none => exact absurd (hk hf) (dictGet_none.1 hd)
      obtain ⟨v, hv⟩ := hT
      simp only [step]
      unfold terminate
      simp only [hv]
      cases termRho s.zbase args with
      | error e => exact ⟨.frozen bs pn al hf hbs hn hsq, rfl⟩
      | ok rho =>
        refine ⟨.frozen (s := { s with rows := setEntry s.rows v.2.2 v.2.1 rho, invM := none }) bs pn al hf hbs hn ?_, rfl⟩
        simpa [setEntry] using hsq
  | deembed int ext =>
    cases h with
    | plain bs hf hbs =>
      simp only [step]
      have e := deembed_wb s bs int ext
      rw [e]
      exact ⟨.plain bs hf (by rw [show (deembed s int ext).1.blocks = s.blocks from
        congrArg (fun x => x.1.blocks) (deembed_wb s s.blocks int ext)]; exact hbs), rfl⟩
    | frozen bs pn al hf => exact absurd (hk hf) id
  | getS f z fl =>
    obtain ⟨h1, h2⟩ := getS_twin hb h f z fl
    exact ⟨h1, congrArg Reply.mat h2⟩
  | solve f E z fl =>
    obtain ⟨h1, h2⟩ := solve_twin hb h f E z fl
    exact ⟨h1, congrArg Reply.vec h2⟩
  | solution f E z fl =>
    obtain ⟨h1, h2⟩ := solution_twin hb h f E z fl
    exact ⟨h1, congrArg Reply.table h2⟩

theorem replies_twin (hb : Bisim ops R) {fr : Bool} : ∀ (cs : List (Call K O F Fl)) {s t : St K O F Fl}, Twin R fr s t →
    (fr = true → KeepingAll ops nan s cs) → replies ops nan t cs = replies ops nan s cs
  | [], _, _, _, _ => rfl
  | c :: cs, s, t, h, hk => by
    obtain ⟨h1, h2⟩ := step_twin (nan := nan) hb h c (fun hf => (hk hf).1)
    simp only [replies, h2]
    rw [replies_twin hb cs h1 (fun hf => (hk hf).2)]

theorem twins_copy {cp : O → O} (bs : List (Blk O)) (hcp : ∀ b ∈ bs, R b.obj (cp b.obj)) :
    Twins R bs (bs.map fun b => { b with obj := cp b.obj }) := by
  induction bs with
  | nil => exact .nil
  | cons b bs ih => exact .cons ⟨rfl, rfl, rfl, rfl, hcp b (by simp)⟩ (ih fun x hx => hcp x (by simp [hx]))

/-! ## the property -/

/-- **C31 (before an evaluation).**  The copy of a circuit whose external ports are not fixed yet (no evaluation has got as
far as the port equations) cannot be told apart from the original: every sequence of calls — blocks, connections, loads,
deembeddings, evaluations, solutions, refused calls included — gets the same replies. -/
theorem C31_copy_unevaluated (hb : Bisim ops R) {cp : O → O} {s : St K O F Fl} (hcp : ∀ b ∈ s.blocks, R b.obj (cp b.obj))
    (ha : s.aliased = false) (cs : List (Call K O F Fl)) : replies ops nan (copy cp s) cs = replies ops nan s cs := by
  have e : copy cp s = s.wb (s.blocks.map fun b => { b with obj := cp b.obj }) := by
    simp only [copy, St.names, ha, St.wb, Bool.false_eq_true, if_false]
  rw [e]
  exact replies_twin hb cs (.plain (fr := false) _ rfl (twins_copy _ hcp)) (by simp)

/-- **C31 (after an evaluation).**  The copy of an evaluated circuit (square system of equations) answers every sequence of
calls that neither extends the circuit nor loads a free port — evaluations, solutions, changed loads, replaced objects, in
any order — exactly as the original. -/
theorem C31_copy_evaluated (hb : Bisim ops R) {cp : O → O} {s : St K O F Fl} (hcp : ∀ b ∈ s.blocks, R b.obj (cp b.obj))
    (hsq : s.rows.length = s.cols) (cs : List (Call K O F Fl)) (hk : KeepingAll ops nan s cs) :
    replies ops nan (copy cp s) cs = replies ops nan s cs := by
  refine replies_twin hb cs (s := s) (t := copy cp s) (fr := true) ?_ (fun _ => hk)
  exact .frozen _ s.names false rfl (twins_copy _ hcp) rfl hsq

variable {beh : O → F → K → Fl → Except Err (SMat K)} {zb : K} {names : List Node}
variable {net : Net K} {bh : Behave K F Fl} {s s' s'' : St K O F Fl} {ph : Phase}

/-- In every state a user can reach, the system of equations is square once the ports are fixed. -/
theorem Built.alias_square [CharZero K] (hlaw : Lawful ops beh) (h : Built ops beh nan zb names net bh s ph) :
    s.aliased = true → s.rows.length = s.cols := by
  induction h with
  | init bh => intro h; cases h
  | @addblock net bh s s' name obj spec relpos ports hb hname hres hnd hs ih =>
    intro h
    rw [(((Built.addblock hb hname hres hnd hs).all hlaw).2.1 rfl).2.1] at h; cases h
  | @replace net bh s s' ph name obj spec relpos hb hname hs ih =>
    intro h
    obtain ⟨-, rfl⟩ := rep_replace (hb.inv hlaw).rep hname hs
    exact ih h
  | @connect net bh s s' ps hb hs ih =>
    intro h
    rw [(((Built.connect hb hs).all hlaw).2.1 rfl).2.1] at h; cases h
  | @terminate net bh s s' ph p args l hb hl hs ih =>
    intro h
    obtain ⟨⟨-, -, -, g4, -⟩, -, -⟩ := terminate_frame hs
    have hi := (hb.inv hlaw).rep
    have hal : s.aliased = true := g4.symm.trans h
    have hsq := ih hal
    have hw := hi.wlen
    have hc := hi.rep.count
    simp only [St.core] at hc
    unfold Circuit.terminate at hs
    cases hr : termRho s.zbase args with
    | error e => simp [hr] at hs
    | ok rho =>
      simp only [hr] at hs
      cases hT : dictGet p s.T with
      | some v =>
        simp only [hT, Prod.mk.injEq, and_true] at hs
        rw [← hs]
        simpa [setEntry] using hsq
      | none =>
        simp only [hT] at hs
        cases hE : dictGet p s.E with
        | some eqn =>
          simp only [hE] at hs
          split at hs
          · cases hs
          · cases hk : pyIndex s.ports p with
            | error e => simp [hk] at hs
            | ok kp =>
              simp only [hk] at hs
              cases hx : pyPop s.xpos kp with
              | error e => simp [hx] at hs
              | ok xs =>
                simp only [hx, Prod.mk.injEq, and_true] at hs
                rw [← hs]
                simpa [setEntry] using hsq
        | none =>
          exfalso
          simp only [hE] at hs
          cases hk : pyIndex s.ports p with
          | error e => simp [hk] at hs
          | ok kp =>
            have hp : p ∈ s.ports := by
              unfold pyIndex at hk
              by_contra hc; rw [if_neg hc] at hk; cases hk
            have hlen : s.E.length = s.ports.length := by omega
            rcases hi.rep.ekeys with h1 | ⟨_, h1⟩
            · have h1' : s.E = [] := h1
              rw [h1'] at hlen
              have : s.ports = [] := List.length_eq_zero_iff.1 hlen.symm
              rw [this] at hp; cases hp
            · exact dictGet_none.1 hE ((h1 p).2 hp)
  | @deembed net bh s s' int ext hb hfresh hnd hdot hs ih =>
    intro h
    rw [(((Built.deembed hb hfresh hnd hdot hs).all hlaw).2.1 rfl).2.1] at h; cases h
  | @used net bh s ph bs hb hu ih => exact fun h => ih h
  | @eval net bh s s' ph f z fl r hb hs ih =>
    intro h
    have hst := getS_state hs
    rcases get1S_eq (ops := ops) s f fl with ⟨M, e1, e2, e3, e4⟩ | ⟨e1, e2⟩
    · rw [e4] at hst
      simp only at hst
      subst hst
      exact ih h
    · rw [e2] at hst
      by_cases ha : s.aliased = true
      · have := recompute_square (ops := ops) (ih ha) f fl
        rw [hst] at this
        rw [this.1, this.2]; exact ih ha
      · rw [← hst] at h ⊢
        have hrep := (hb.inv hlaw).rep
        obtain ⟨f1, f2, f3, f4⟩ := fillBlocks_spec hlaw f s.zbase fl s.blocks s.rows hrep.rep.blen hrep.rep.rows_disjoint
        unfold recompute at h ⊢
        simp only at h ⊢
        generalize fillBlocks ops f s.zbase fl s.blocks s.rows = q at h f1 f2 f3 f4 ⊢
        have hlike : List.Forall₂ (Blk.Like ops) s.blocks q.1 := f2.imp fun _ _ x => x.1
        have hrep1 : Rep ops net ({ s with blocks := q.1, rows := q.2.1 } : St K O F Fl) := by
          refine ⟨hrep.rep.fill f1 hlike, hrep.wlen, ?_⟩
          intro b p hb
          have h1 := congrArg (List.map Prod.fst) (forall₂_like_map hlike)
          simp only [List.map_map] at h1
          have h3 : q.1.map Blk.name = s.blocks.map Blk.name := h1
          show b ∈ q.1.map Blk.name
          rw [h3]
          exact hrep.bnode b p hb
        cases hq : q.2.2 with
        | error e => rw [hq] at h; exact absurd h ha
        | ok u =>
          rw [hq] at h
          obtain ⟨q1, q2, q3, q4, q5, q6, q7, q8, q9, q10⟩ := squareUp_spec hrep1
          simp only [extS] at h ⊢
          cases hu : squareUp ({ s with blocks := q.1, rows := q.2.1 } : St K O F Fl) with
          | mk s2 r2 =>
            rw [hu] at h q8 q10
            cases r2 with
            | error e =>
              simp only at h q10
              rw [(q10 (by simp)).1] at h
              exact absurd h ha
            | ok u =>
              have hsq := (q8 rfl).1
              simp only at hsq ⊢
              obtain ⟨k1, k2, -⟩ := solveE_frame s2
              cases hE : solveE s2 with
              | mk s3 r3 =>
                rw [hE] at k1 k2
                simp only at k1 k2
                cases r3 with
                | error e => simp only; rw [k1, k2]; exact hsq
                | ok M => simp only; rw [k1, k2]; exact hsq

/-- a circuit that can never be evaluated again because `Portnames` names a port without equation -/
structure Lost (s : St K O F Fl) : Prop where
  noS : s.S = none
  sq : s.rows.length = s.cols
  bad : ∃ p ∈ s.names, p ∉ s.E.map Prod.fst

theorem Lost.getS (h : Lost s) (f : F) (z : Option K) (fl : Fl) :
    Lost (getS ops s f z fl).1 ∧ ∃ e, (getS ops s f z fl).2 = .error e := by
  obtain ⟨hS, hsq, p, hp, hpE⟩ := h
  suffices H : Lost (recompute ops s f fl).1 ∧ ∃ e, (recompute ops s f fl).2 = .error e by
    unfold Circuit.getS get1S
    rw [hS]
    simp only
    cases hr : recompute ops s f fl with
    | mk s1 r1 =>
      rw [hr] at H
      obtain ⟨hb, e, he⟩ := H
      simp only at he
      subst he
      exact ⟨hb, e, rfl⟩
  unfold recompute
  simp only
  have hlen := fillBlocks_length (ops := ops) f s.zbase fl s.blocks s.rows
  generalize fillBlocks ops f s.zbase fl s.blocks s.rows = r0 at hlen
  have hl : Lost ({ s with blocks := r0.1, rows := r0.2.1 } : St K O F Fl) := ⟨hS, hlen.trans hsq, p, hp, hpE⟩
  cases r0.2.2 with
  | error e => exact ⟨hl, e, rfl⟩
  | ok u =>
    have hx : ∃ e, extS ({ s with blocks := r0.1, rows := r0.2.1 } : St K O F Fl) =
        (({ s with blocks := r0.1, rows := r0.2.1 } : St K O F Fl), .error e) := by
      obtain ⟨e, he⟩ := mapE_error_of_mem (g := dictIndex s.E) hp (e := .keyError) (by
        unfold dictIndex; rw [dictGet_none.2 hpE])
      refine ⟨e, ?_⟩
      unfold extS squareUp
      rw [if_pos (by exact hlen.trans hsq)]
      simp only
      unfold solveE
      have hn : ({ s with blocks := r0.1, rows := r0.2.1 } : St K O F Fl).names = s.names := rfl
      simp only [hn, he]
    obtain ⟨e, he⟩ := hx
    simp only [he]
    exact ⟨hl, e, rfl⟩

/-- **C31 (every history).**  For every circuit a user can have built, evaluated or not: the copy gets the same replies
as the original to every sequence of calls if the circuit was not evaluated, and to every sequence of calls that neither
extends the circuit nor loads a free port if it was. -/
theorem C31_copy_partial [CharZero K] (hlaw : Lawful ops beh) (h : Built ops beh nan zb names net bh s ph)
    (hb : Bisim ops R) {cp : O → O} (hcp : ∀ b ∈ s.blocks, R b.obj (cp b.obj)) (cs : List (Call K O F Fl))
    (hk : ph = .building ∨ KeepingAll ops nan s cs) : replies ops nan (copy cp s) cs = replies ops nan s cs := by
  by_cases ha : s.aliased = true
  · rcases hk with hk | hk
    · subst hk
      rw [((h.all hlaw).2.1 rfl).2.1] at ha; cases ha
    · exact C31_copy_evaluated hb hcp (h.alias_square hlaw ha) cs hk
  · exact C31_copy_unevaluated hb hcp (by simpa using ha) cs

/-- a circuit as a block object of another circuit (see `circOps`), without the side conditions on its history -/
noncomputable def rawOps (ops : ObjOps K O F Fl) : ObjOps K (St K O F Fl) F Fl where
  len s := s.ports.length
  ports s := some (s.ports.map Node.str)
  xpos s := some s.xpos
  portPos _ _ := .ok 0
  getS s f z fl := getS ops s f (some z) fl

/-- **C31 (nesting).**  A circuit and its copy are indistinguishable *as blocks of a larger circuit*, evaluated or not.
With `C31_copy_partial` the copies of circuits of circuits are covered, at any depth. -/
theorem C31_nested (hb : Bisim ops R) : Bisim (rawOps ops) (fun s t => ∃ fr, Twin R fr s t) ∧
    ∀ (cp : O → O) (s : St K O F Fl), (∀ b ∈ s.blocks, R b.obj (cp b.obj)) → (s.aliased = true → s.rows.length = s.cols) →
      ∃ fr, Twin R fr s (copy cp s) := by
  refine ⟨⟨fun s => ⟨false, .plain s.blocks rfl (twins_refl hb _)⟩, ?_, ?_, ?_, ?_, ?_⟩, ?_⟩
  · rintro s t ⟨fr, h⟩
    simp only [rawOps, h.ports]
  · rintro s t ⟨fr, h⟩
    simp only [rawOps, h.ports]
  · rintro s t ⟨fr, h⟩
    have : t.xpos = s.xpos := by cases h <;> rfl
    simp only [rawOps, this]
  · rintro s t f z fl ⟨fr, h⟩
    exact (getS_twin hb h f (some z) fl).2
  · rintro s t f z fl ⟨fr, h⟩
    exact ⟨fr, (getS_twin hb h f (some z) fl).1⟩
  · intro cp s hcp hsq
    by_cases ha : s.aliased = true
    · exact ⟨true, .frozen _ s.names false rfl (twins_copy _ hcp) rfl (hsq ha)⟩
    · have ha : s.aliased = false := by simpa using ha
      have e : copy cp s = s.wb (s.blocks.map fun b => { b with obj := cp b.obj }) := by
        simp only [copy, St.names, ha, St.wb, Bool.false_eq_true, if_false]
      exact ⟨false, e ▸ .plain _ rfl (twins_copy _ hcp)⟩

/-- **C31 (violation).**  Evaluate any circuit, copy it, and load one of the free ports: both the original and the copy
accept the call, but from then on *every* evaluation of the copy raises, however often it is repeated, whereas the original
goes on working (it answers whenever the loaded network has an answer). -/
theorem C31_copy_terminate [CharZero K] (hlaw : Lawful ops beh) (h : Built ops beh nan zb names net bh s ph)
    (cp : O → O) {f : F} {z : Option K} {fl : Fl} {M : SMat K} (hs : getS ops s f z fl = (s', .ok M)) {p : Node}
    (hp : p ∈ s'.ports) {args : TermArgs K} {l : Load K} (hl : args.load = some l) {u : St K O F Fl}
    (hu : terminate s' p args = (u, .ok ())) :
    (∃ t, terminate (copy cp s') p args = (t, .ok ()) ∧
      ∀ (calls : List (F × Option K × Fl)) (f' : F) (z' : Option K) (fl' : Fl),
        ∃ e, (getS ops (calls.foldl (fun s c => (getS ops s c.1 c.2.1 c.2.2).1) t) f' z' fl').2 = .error e) ∧
    ∀ f' fl' Sof, Given net bh f' zb fl' Sof → (net.load p l).free ≠ [] →
      Solvable ((net.load p l).Laws zb Sof) (net.load p l).nodes (net.load p l).free →
      ∃ u' M', getS ops u f' none fl' = (u', .ok M') := by
  have hf := h.frozen hlaw hs
  have hb' := Built.eval h hs
  have hi := hb'.inv hlaw
  have hpu : p ∉ net.loads.map Prod.fst := by
    intro hc
    refine ((hi.rep.rep.pmem p).1 hp).2 ?_
    simp only [Net.used, List.mem_append, hc, or_true]
  have hT : dictGet p s'.T = none := by
    rw [dictGet_none]
    intro hc; apply hpu
    rw [hi.rep.rep.loads_keys]; exact hc
  have hE : ∃ k, dictGet p s'.E = some k := by
    cases hd : dictGet p s'.E with
    | some k => exact ⟨k, rfl⟩
    | none => exact absurd ((hf.keys p).2 hp) (dictGet_none.1 hd)
  obtain ⟨k, hk⟩ := hE
  have hnm : s'.names = s'.ports := by simp [St.names, hf.al]
  have e : copy cp s' = s'.wp (s'.blocks.map fun b => { b with obj := cp b.obj }) s'.ports false := by
    simp only [copy, hnm]
  constructor
  · rw [e]
    unfold terminate at hu ⊢
    cases hr : termRho s'.zbase args with
    | error x => simp [hr] at hu
    | ok rho =>
      have hpi : pyIndex s'.ports p = .ok (idx s'.ports p) := by unfold pyIndex; rw [if_pos hp]
      have hwA : pyIndex s'.waves (Dir.inn, p) = .ok (idx s'.waves (Dir.inn, p)) := by
        unfold pyIndex; rw [if_pos ((hf.wm _ _).2 (hf.pn p hp))]
      have hwB : pyIndex s'.waves (Dir.out, p) = .ok (idx s'.waves (Dir.out, p)) := by
        unfold pyIndex; rw [if_pos ((hf.wm _ _).2 (hf.pn p hp))]
      simp only [hr, hT, hk, hpi, hwA, hwB] at hu ⊢
      cases hx : pyPop s'.xpos (idx s'.ports p) with
      | error x => simp [hx] at hu
      | ok xs =>
        refine ⟨_, rfl, ?_⟩
        intro calls f' z' fl'
        have hb' : ∀ (calls : List (F × Option K × Fl)) (s : St K O F Fl), Lost s →
            Lost (calls.foldl (fun s c => (getS ops s c.1 c.2.1 c.2.2).1) s) := by
          intro calls
          induction calls with
          | nil => exact fun _ h => h
          | cons c cs ih => exact fun s h => ih _ (h.getS c.1 c.2.1 c.2.2).1
        refine ((hb' calls _ ?_).getS f' z' fl').2
        refine ⟨rfl, ?_, p, hp, ?_⟩
        · simpa [setEntry] using hf.sq
        · simp [dictPop]
  · intro f' fl' Sof hG hfree hsol
    have hbu := Built.terminate hb' hl hu
    refine (C20_getS_complete hlaw hbu ?_ (Sof := Sof) hG hfree ?_).2 hsol
    · rw [if_neg (fun hc => hpu hc.2)]
      split <;> simp_all
    · right
      have hi := hbu.inv hlaw
      have hal : u.aliased = true := (terminate_frame hu).1.2.2.2.1.trans hf.al
      have : u.names = u.ports := by simp [St.names, hal]
      rw [this]; exact hi.rep.ports_perm

end

/-! ## witnesses -/

namespace Ex

/-- objects that do not change are copied by value -/
theorem imm_bisim (K F Fl : Type*) [Field K] [DecidableEq F] [DecidableEq Fl] : Bisim (immOps K F Fl) Eq :=
  ⟨fun _ => rfl, fun _ _ h => h ▸ rfl, fun _ _ h => h ▸ rfl, fun _ _ h => h ▸ rfl, fun _ _ _ _ _ h => h ▸ rfl,
    fun _ _ _ _ _ h => h⟩

/-- `C31_copy_partial` applies to the example circuit: evaluating, loading and extending its copy -/
theorem C31_copy_witness : replies o 0 (copy id s4)
      [.getS () none (), .terminate (.blk "A" "1") .default, .connect [.blk "A" "1"], .getS () (some 30) ()] =
    replies o 0 s4
      [.getS () none (), .terminate (.blk "A" "1") .default, .connect [.blk "A" "1"], .getS () (some 30) ()] :=
  C31_copy_partial (imm_lawful _ _ _) built (imm_bisim _ _ _) (fun _ _ => rfl) _ (Or.inl rfl)

theorem solvable1t : Solvable ((net1.load (.blk "A" "2") (.RC 0)).Laws 50 Sof) (net1.load (.blk "A" "2") (.RC 0)).nodes
    (net1.load (.blk "A" "2") (.RC 0)).free := by
  have hf : (net1.load (.blk "A" "2") (.RC 0)).free = [.blk "A" "1"] := by decide
  have hl : ∀ w, (net1.load (.blk "A" "2") (.RC 0)).Laws 50 Sof w ↔ (w (.out, .blk "A" "1") = 1/2 * w (.inn, .blk "A" "2") ∧
     w (.out, .blk "A" "2") = 1/2 * w (.inn, .blk "A" "1")) ∧ w (.inn, .blk "A" "2") = 0 := by
    intro w
    simp only [Net.Laws, Net.CoreLaws, Net.load, dictSet, net1, List.forall_mem_cons, List.not_mem_nil, false_implies,
      implies_true, and_true, lawA, Load.Law, zero_mul, true_and]
  rw [hf]
  constructor
  · intro a
    refine ⟨fun x => if x = (.inn, .blk "A" "1") then a (.blk "A" "1") else
      if x = (.out, .blk "A" "2") then 1/2 * a (.blk "A" "1") else 0, ?_, ?_⟩
    · rw [hl]; simp
    · simp
  · intro w w' h h' hi n hn d
    rw [hl] at h h'
    have h1 := hi (.blk "A" "1") (by simp)
    obtain ⟨⟨a, b⟩, c⟩ := h
    obtain ⟨⟨a', b'⟩, c'⟩ := h'
    have hn : n = .blk "A" "1" ∨ n = .blk "A" "2" := by simpa [Net.load, net1] using hn
    rcases hn with rfl | rfl <;> cases d <;> linarith

/-- **C31 (violation, witness).**  One block: evaluate, copy, load port 2 with its reference: the copy raises, the original
answers. -/
theorem C31_copy_terminate_witness : ∃ s' M u t e u' M', getS o s1 () none () = (s', .ok M) ∧
    terminate s' (.blk "A" "2") .default = (u, .ok ()) ∧ terminate (copy id s') (.blk "A" "2") .default = (t, .ok ()) ∧
    (getS o t () none ()).2 = .error e ∧ getS o u () none () = (u', .ok M') := by
  have hl := imm_lawful ℚ Unit Unit
  have hnm : s1.names = [] := rfl
  obtain ⟨s', M, hs⟩ := (C20_getS_complete hl built1 (by decide) given1 (by decide) (Or.inl hnm)).2 solvable1
  have hfz := built1.frozen hl hs
  have hx : s'.xpos = [0, 1] := by
    rw [getS_xpos hs]
    show [(0:ℚ) + 0, 0 + 1] = [0, 1]
    norm_num
  have hp : s'.ports = [.blk "A" "1", .blk "A" "2"] := by
    have := (C29_ports hl (Built.eval built1 hs)).2.1 (Or.inr rfl)
    rw [this]; decide
  have hi := (Built.eval built1 hs).inv hl
  have hw : ∀ d, (d, Node.blk "A" "2") ∈ s'.waves := fun d => (hfz.wm d _).2 (by decide)
  have hT : dictGet (.blk "A" "2") s'.T = none := by
    rw [dictGet_none]
    intro hc
    have h1 := hi.rep.rep.loads_keys
    have h2 : (Node.blk "A" "2") ∈ net1.loads.map Prod.fst := by rw [h1]; exact hc
    exact absurd h2 (by decide)
  have hE : ∃ k, dictGet (.blk "A" "2") s'.E = some k := by
    cases hd : dictGet (.blk "A" "2") s'.E with
    | some k => exact ⟨k, rfl⟩
    | none => exact absurd ((hfz.keys (.blk "A" "2")).2 (by rw [hp]; decide)) (dictGet_none.1 hd)
  obtain ⟨k, hk⟩ := hE
  have hacc : ∃ u, terminate s' (.blk "A" "2") .default = (u, .ok ()) := by
    have hidx : idx ([.blk "A" "1", .blk "A" "2"] : List Node) (.blk "A" "2") = 1 := by decide
    unfold terminate
    simp only [termRho, hT, hk, pyIndex, hw, if_true, hp, hidx, hx]
    simp [pyPop]
  obtain ⟨u, hu⟩ := hacc
  obtain ⟨⟨t, ht, hbad⟩, hgood⟩ := C31_copy_terminate hl built1 id hs (p := .blk "A" "2") (by rw [hp]; decide) (l := .RC 0) rfl hu
  obtain ⟨e, he⟩ := hbad [] () none ()
  obtain ⟨u', M', hg⟩ := hgood () () Sof given1 (by decide) solvable1t
  exact ⟨s', M, u, t, e, u', M', hs, hu, ht, he, hg⟩

end Ex
end PyRFtk.Circuit
