import Verif.CircuitStale
import Verif.CircuitListFrame
import Verif.CircuitExtend

/-!
# Who owns a returned matrix: circuits (C69)

numpy arrays are mutable and `rfCircuit.getS` returns the array it keeps (`M = self.S`, rfCircuit.py:1310, or `M = self.extS()` which is stored,
1306-1307), unless it converts it (1312-1313) or was asked for several frequencies (`np.array(Ss)`, 1322).  This file puts the matrices of
`CircuitModel` into a memory.
-/

set_option linter.unusedSectionVars false

namespace PyRFtk.Circuit

section
variable {K O F Fl : Type*} [Field K] [DecidableEq F] [DecidableEq Fl]

/-! ## the model -/

/-- `M[i, j] = v` on an array (out of range: nothing, the assignment raises) -/
def SMat.put (M : SMat K) (i j : ℕ) (v : K) : SMat K := ⟨M.n, fun a b => if (a : ℕ) = i ∧ (b : ℕ) = j then v else M.m a b⟩

/-- a circuit and the arrays it has handed out: `mem[a]` is the content of array `a`; `self.S` is the array `at` (the field `S` of `c` is
not used) -/
structure HSt (K O F Fl : Type*) where
  c : St K O F Fl
  at' : Option ℕ
  mem : List (SMat K)

/-- the circuit as its methods see it -/
def HSt.view (h : HSt K O F Fl) : St K O F Fl := { h.c with S := h.at'.bind (h.mem[·]?) }

/-- the stored matrix is used (rfCircuit.py:1279) -/
def St.Hit (s : St K O F Fl) (f : F) (fl : Fl) : Prop := s.S.isSome = true ∧ s.f = some f ∧ s.flags = some fl

open Classical in
/-- `get1S(f)` before the conversion (rfCircuit.py:1259-1310): the array that is `M` afterwards, if there is no exception -/
noncomputable def hget1 (ops : ObjOps K O F Fl) (h : HSt K O F Fl) (f : F) (fl : Fl) : HSt K O F Fl × Except Err ℕ :=
  if h.view.Hit f fl then (h, .ok (h.at'.getD 0))                                            -- 1309-1310: M = self.S
  else match get1S ops h.view f fl with
    | (s, .error e) => (⟨s, if s.S.isSome then h.at' else none, h.mem⟩, .error e)
    | (s, .ok M) => (⟨s, some h.mem.length, h.mem ++ [M]⟩, .ok h.mem.length)                 -- 1306-1307: a new array, kept in self.S

open Classical in
/-- `getS(f, Zbase, flags)` for a single frequency (1249-1345): the array returned -/
noncomputable def hget (ops : ObjOps K O F Fl) (h : HSt K O F Fl) (f : F) (z : Option K) (fl : Fl) : HSt K O F Fl × Except Err ℕ :=
  match hget1 ops h f fl with
  | (h, .error e) => (h, .error e)
  | (h, .ok a) => match z with
    | none => (h, .ok a)
    | some z => if z ≠ 0 ∧ z ≠ h.c.zbase then                                                -- 1312-1313: a new array, not kept
        match h.mem[a]? with
        | none => (h, .error .runtimeError)
        | some M => match convVV z h.c.zbase M with
          | .error e => (h, .error e)
          | .ok M' => ({ h with mem := h.mem ++ [M'] }, .ok h.mem.length)
      else (h, .ok a)

/-- the loop of `getS` over several frequencies (1318-1321) -/
noncomputable def hgetLoop (ops : ObjOps K O F Fl) (z : Option K) (fl : Fl) : HSt K O F Fl → List F → HSt K O F Fl × Except Err (List ℕ)
  | h, [] => (h, .ok [])
  | h, f :: fs => match hget ops h f z fl with
    | (h, .error e) => (h, .error e)
    | (h, .ok a) => match hgetLoop ops z fl h fs with
      | (h, .error e) => (h, .error e)
      | (h, .ok as) => (h, .ok (a :: as))

/-- `getS([f1, f2, …])`: `np.array(Ss)` copies the matrices into one new array (1322), here one new array for each -/
noncomputable def hgets (ops : ObjOps K O F Fl) (h : HSt K O F Fl) (fs : List F) (z : Option K) (fl : Fl) : HSt K O F Fl × Except Err (List ℕ) :=
  match hgetLoop ops z fl h fs with
  | (h, .error e) => (h, .error e)
  | (h, .ok as) => ({ h with mem := h.mem ++ as.filterMap (h.mem[·]?) }, .ok ((List.range as.length).map (h.mem.length + ·)))

/-- what the caller does: ask for one matrix, ask for several, assign to an element of any array, change a load -/
inductive HCall (K F Fl : Type*)
  | get (f : F) (z : Option K) (fl : Fl)
  | gets (fs : List F) (z : Option K) (fl : Fl)
  | write (a i j : ℕ) (v : K)
  | load (p : Node) (args : TermArgs K)

/-- what the caller sees at a call, copied at that moment -/
inductive HAns (K : Type*)
  | mat (r : Except Err (SMat K))
  | mats (r : Except Err (List (SMat K)))
  | unit (r : Except Err Unit)

noncomputable def hstep (ops : ObjOps K O F Fl) (h : HSt K O F Fl) : HCall K F Fl → HSt K O F Fl × HAns K
  | .get f z fl => let r := hget ops h f z fl
    (r.1, .mat (r.2.map fun a => (r.1.mem[a]?).getD ⟨0, 0⟩))
  | .gets fs z fl => let r := hgets ops h fs z fl
    (r.1, .mats (r.2.map fun as => as.map fun a => (r.1.mem[a]?).getD ⟨0, 0⟩))
  | .write a i j v => ({ h with mem := h.mem.modify a (·.put i j v) }, .unit (.ok ()))
  | .load p args => let r := terminate h.view p args
    (⟨r.1, if r.1.S.isSome then h.at' else none, h.mem⟩, .unit r.2)

noncomputable def hrun (ops : ObjOps K O F Fl) : HSt K O F Fl → List (HCall K F Fl) → HSt K O F Fl × List (HAns K)
  | h, [] => (h, [])
  | h, c :: cs => let r := hstep ops h c
    let q := hrun ops r.1 cs
    (q.1, r.2 :: q.2)

/-! ## the same calls on a circuit whose matrices nobody can change -/

noncomputable def pgets (ops : ObjOps K O F Fl) (z : Option K) (fl : Fl) : St K O F Fl → List F → St K O F Fl × Except Err (List (SMat K))
  | s, [] => (s, .ok [])
  | s, f :: fs => match getS ops s f z fl with
    | (s, .error e) => (s, .error e)
    | (s, .ok M) => match pgets ops z fl s fs with
      | (s, .error e) => (s, .error e)
      | (s, .ok Ms) => (s, .ok (M :: Ms))

/-- the answers the model `CircuitModel` (without memory) gives; assignments of the caller do nothing -/
noncomputable def pstep (ops : ObjOps K O F Fl) (s : St K O F Fl) : HCall K F Fl → St K O F Fl × HAns K
  | .get f z fl => let r := getS ops s f z fl; (r.1, .mat r.2)
  | .gets fs z fl => let r := pgets ops z fl s fs; (r.1, .mats r.2)
  | .write _ _ _ _ => (s, .unit (.ok ()))
  | .load p args => let r := terminate s p args; (r.1, .unit r.2)

noncomputable def prun (ops : ObjOps K O F Fl) : St K O F Fl → List (HCall K F Fl) → St K O F Fl × List (HAns K)
  | s, [] => (s, [])
  | s, c :: cs => let r := pstep ops s c
    let q := prun ops r.1 cs
    (q.1, r.2 :: q.2)

/-! ## proofs -/

variable {ops : ObjOps K O F Fl} {h h' : HSt K O F Fl}

/-- the memory is as it should be: `self.S` is an array that exists -/
def HSt.OK (h : HSt K O F Fl) : Prop := ∀ a, h.at' = some a → a < h.mem.length

theorem view_of (h : HSt K O F Fl) (hok : h.OK) : h.view.S.isSome = h.at'.isSome := by
  unfold HSt.view
  cases ha : h.at' with
  | none => rfl
  | some a => simp [hok a ha]

theorem iter_addE_S : ∀ (ps : List Node) (s : St K O F Fl), (iter addE s ps).1.S = s.S := by
  intro ps
  induction ps with
  | nil => intro s; rfl
  | cons p ps ih =>
    intro s
    have h1 : (addE s p).1.S = s.S := by
      unfold addE
      split
      · rfl
      · split <;> rfl
    unfold iter
    cases hA : addE s p with
    | mk s1 r =>
      rw [hA] at h1
      cases r with
      | error e => exact h1
      | ok u => exact (ih s1).trans h1

theorem squareUp_S (s : St K O F Fl) : (squareUp s).1.S = none ∨ (squareUp s).1.S = s.S := by
  unfold squareUp
  split
  · exact .inr rfl
  · left
    simp only
    split
    · split
      · rfl
      · split
        · rfl
        · rw [iter_addE_S]
    · rw [iter_addE_S]

/-- `get1S` never makes up a stored matrix when it fails -/
theorem get1S_error_S {s s' : St K O F Fl} {f : F} {fl : Fl} {e : Err} (hs : get1S ops s f fl = (s', .error e)) : s'.S = none ∨ s'.S = s.S := by
  rcases get1S_eq (ops := ops) s f fl with ⟨M, _, _, _, h⟩ | ⟨-, h⟩
  · rw [h] at hs; simp at hs
  · rw [h] at hs
    unfold recompute at hs
    simp only at hs
    split at hs
    · simp only [Prod.mk.injEq] at hs; right; rw [← hs.1]
    · split at hs
      · rename_i s1 e1 hx
        simp only [Prod.mk.injEq] at hs
        rw [← hs.1]
        unfold extS at hx
        split at hx
        · rename_i s2 e2 hq
          simp only [Prod.mk.injEq] at hx
          rw [← hx.1]
          have := squareUp_S ({ s with blocks := (fillBlocks ops f s.zbase fl s.blocks s.rows).1, rows := (fillBlocks ops f s.zbase fl s.blocks s.rows).2.1 } : St K O F Fl)
          rw [hq] at this
          exact this
        · rename_i s2 u hq
          have := squareUp_S ({ s with blocks := (fillBlocks ops f s.zbase fl s.blocks s.rows).1, rows := (fillBlocks ops f s.zbase fl s.blocks s.rows).2.1 } : St K O F Fl)
          rw [hq] at this
          have h2 := (solveE_frame s2).2.2.2.2.2.2 e1 (by rw [hx])
          rw [hx] at h2
          rw [h2]
          exact this
      · simp at hs

theorem get1S_ok_S {s s' : St K O F Fl} {f : F} {fl : Fl} {M : SMat K} (hs : get1S ops s f fl = (s', .ok M)) :
    s'.S = some M ∧ s'.f = some f ∧ s'.flags = some fl := by
  rcases get1S_eq (ops := ops) s f fl with ⟨M, h1, h2, h3, h⟩ | ⟨-, h⟩
  · rw [h] at hs; simp only [Prod.mk.injEq, Except.ok.injEq] at hs
    obtain ⟨rfl, rfl⟩ := hs
    exact ⟨h1, h2, h3⟩
  · rw [h] at hs
    unfold recompute at hs
    simp only at hs
    split at hs
    · simp at hs
    · split at hs
      · simp at hs
      · simp only [Prod.mk.injEq, Except.ok.injEq] at hs
        obtain ⟨rfl, rfl⟩ := hs
        exact ⟨rfl, rfl, rfl⟩

theorem terminate_S (s : St K O F Fl) (p : Node) (args : TermArgs K) : (terminate s p args).1.S = none ∨ (terminate s p args).1.S = s.S := by
  unfold terminate
  repeat' (first | split | simp)

theorem iter_addE_zbase : ∀ (ps : List Node) (s : St K O F Fl), (iter addE s ps).1.zbase = s.zbase := by
  intro ps
  induction ps with
  | nil => intro s; rfl
  | cons p ps ih =>
    intro s
    have h1 : (addE s p).1.zbase = s.zbase := by
      unfold addE
      split
      · rfl
      · split <;> rfl
    unfold iter
    cases hA : addE s p with
    | mk s1 r =>
      rw [hA] at h1
      cases r with
      | error e => exact h1
      | ok u => exact (ih s1).trans h1

theorem extS_zbase (s : St K O F Fl) : (extS s).1.zbase = s.zbase := by
  have h1 : (squareUp s).1.zbase = s.zbase := by
    unfold squareUp
    split
    · rfl
    · simp only
      split
      · split
        · rfl
        · split
          · rfl
          · rw [iter_addE_zbase]
      · rw [iter_addE_zbase]
  have h2 : ∀ t : St K O F Fl, (solveE t).1.zbase = t.zbase := by
    intro t
    unfold solveE
    split
    · rfl
    · split
      · rfl
      · rfl
      · unfold solveWith
        split
        · rfl
        · split
          · rfl
          · simp only
            split
            · rfl
            · split
              · rfl
              · split <;> rfl
  unfold extS
  cases hq : squareUp s with
  | mk s1 r =>
    rw [hq] at h1
    cases r with
    | error e => exact h1
    | ok u => exact (h2 s1).trans h1

theorem get1S_zbase (s : St K O F Fl) (f : F) (fl : Fl) : (get1S ops s f fl).1.zbase = s.zbase := by
  rcases get1S_eq (ops := ops) s f fl with ⟨M, _, _, _, h⟩ | ⟨-, h⟩
  · rw [h]
  · rw [h]
    unfold recompute
    simp only
    split
    · rfl
    · have := extS_zbase ({ s with blocks := (fillBlocks ops f s.zbase fl s.blocks s.rows).1, rows := (fillBlocks ops f s.zbase fl s.blocks s.rows).2.1 } : St K O F Fl)
      split
      · rename_i s1 e1 hx
        rw [hx] at this; exact this
      · rename_i s1 e1 hx
        rw [hx] at this; exact this

theorem view_zbase (h : HSt K O F Fl) : h.view.zbase = h.c.zbase := rfl

/-- a state whose stored matrix is absent or still the one of before -/
theorem view_mk {s : St K O F Fl} (hok : h.OK) (hS : s.S = none ∨ s.S = h.view.S) :
    (⟨s, if s.S.isSome then h.at' else none, h.mem⟩ : HSt K O F Fl).view = s ∧
    (⟨s, if s.S.isSome then h.at' else none, h.mem⟩ : HSt K O F Fl).OK := by
  cases hs : s.S with
  | none =>
    refine ⟨?_, fun a ha => by simp at ha⟩
    unfold HSt.view
    cases s; simp_all
  | some M =>
    have hS' : h.view.S = some M := by
      rcases hS with e | e
      · rw [hs] at e; simp at e
      · rw [← e, hs]
    refine ⟨?_, fun a ha => hok a (by simpa using ha)⟩
    have : h.at'.bind (h.mem[·]?) = some M := hS'
    unfold HSt.view
    simp only [Option.isSome_some, if_true]
    rw [this, ← hs]

theorem hget1_sim (hok : h.OK) (f : F) (fl : Fl) {r : Except Err ℕ} (hr : hget1 ops h f fl = (h', r)) :
    h'.OK ∧ h.mem <+: h'.mem ∧ (h'.at' = h.at' ∨ h'.at' = none ∨ h'.at' = some h.mem.length) ∧
    (∀ e, r = .error e → get1S ops h.view f fl = (h'.view, .error e)) ∧
    (∀ a, r = .ok a → h'.at' = some a ∧ ∃ M, h'.mem[a]? = some M ∧ get1S ops h.view f fl = (h'.view, .ok M)) := by
  unfold hget1 at hr
  by_cases hh : h.view.Hit f fl
  · rw [if_pos hh] at hr
    simp only [Prod.mk.injEq] at hr
    obtain ⟨rfl, rfl⟩ := hr
    refine ⟨hok, List.prefix_refl _, .inl rfl, by simp, ?_⟩
    rintro a ha
    simp only [Except.ok.injEq] at ha
    subst ha
    obtain ⟨h1, h2, h3⟩ := hh
    rw [view_of h hok] at h1
    obtain ⟨a, ha⟩ := Option.isSome_iff_exists.1 h1
    have hlt := hok a ha
    refine ⟨by rw [ha]; rfl, h.mem[a], by simp [ha, hlt], ?_⟩
    have hS : h.view.S = some h.mem[a] := by simp [HSt.view, ha, hlt]
    rcases get1S_eq (ops := ops) h.view f fl with ⟨M, g1, _, _, g⟩ | ⟨g, -⟩
    · rw [g]; rw [hS] at g1; simp only [Option.some.injEq] at g1; rw [g1]
    · rw [hS] at g; simp [h2, h3] at g
  · rw [if_neg hh] at hr
    cases hg : get1S ops h.view f fl with
    | mk s q =>
      rw [hg] at hr
      cases q with
      | error e =>
        simp only [Prod.mk.injEq] at hr
        obtain ⟨rfl, rfl⟩ := hr
        obtain ⟨v1, v2⟩ := view_mk (s := s) hok (get1S_error_S hg)
        refine ⟨v2, List.prefix_refl _, ?_, ?_, by simp⟩
        · simp only
          split
          · exact .inl rfl
          · exact .inr (.inl rfl)
        · rintro e' he
          simp only [Except.error.injEq] at he
          rw [v1, he]
      | ok M =>
        simp only [Prod.mk.injEq] at hr
        obtain ⟨rfl, rfl⟩ := hr
        refine ⟨?_, List.prefix_append _ _, .inr (.inr rfl), by simp, ?_⟩
        · intro a ha; simp only [Option.some.injEq] at ha; subst ha; simp
        · rintro a ha
          simp only [Except.ok.injEq] at ha
          subst ha
          refine ⟨rfl, M, by simp, ?_⟩
          have : (⟨s, some h.mem.length, h.mem ++ [M]⟩ : HSt K O F Fl).view = s := by
            unfold HSt.view
            have := (get1S_ok_S hg).1
            simp only [Option.bind_some]
            rw [List.getElem?_append_right (le_refl _)]
            simp only [Nat.sub_self, List.getElem?_cons_zero]
            rw [← this]
          rw [this]

theorem view_append (h : HSt K O F Fl) (hok : h.OK) (l : List (SMat K)) :
    ({ h with mem := h.mem ++ l } : HSt K O F Fl).view = h.view ∧ ({ h with mem := h.mem ++ l } : HSt K O F Fl).OK := by
  constructor
  · unfold HSt.view
    cases ha : h.at' with
    | none => rfl
    | some a =>
      have := hok a ha
      simp only [Option.bind_some]
      rw [List.getElem?_append_left this]
  · intro a ha
    have := hok a ha
    simp only [List.length_append]; omega

/-- assigning to an array the circuit does not hold -/
theorem view_write (h : HSt K O F Fl) (a i j : ℕ) (v : K) (hn : h.at' ≠ some a) :
    ({ h with mem := h.mem.modify a (·.put i j v) } : HSt K O F Fl).view = h.view := by
  unfold HSt.view
  cases ha : h.at' with
  | none => rfl
  | some b =>
    have hb : b ≠ a := fun e => hn (by rw [ha, e])
    simp only [Option.bind_some]
    rw [List.getElem?_modify]
    simp [Ne.symm hb]

theorem hget_sim (hok : h.OK) (f : F) (z : Option K) (fl : Fl) {r : Except Err ℕ} (hr : hget ops h f z fl = (h', r)) :
    h'.OK ∧ h.mem <+: h'.mem ∧ (∀ b, h'.at' = some b → h.at' = some b ∨ h.mem.length ≤ b) ∧
    (∀ e, r = .error e → getS ops h.view f z fl = (h'.view, .error e)) ∧
    (∀ a, r = .ok a → ∃ M, h'.mem[a]? = some M ∧ getS ops h.view f z fl = (h'.view, .ok M) ∧
      (((∀ y, z = some y → y = 0 ∨ y = h.c.zbase) ∧ h'.at' = some a) ∨
        ((∃ y, z = some y ∧ y ≠ 0 ∧ y ≠ h.c.zbase) ∧ h.mem.length ≤ a ∧ h'.at' ≠ some a))) := by
  unfold hget at hr
  cases hg : hget1 ops h f fl with
  | mk h1 q =>
    rw [hg] at hr
    obtain ⟨k1, k2, k3, k4, k5⟩ := hget1_sim hok f fl hg
    have k3' : ∀ b, h1.at' = some b → h.at' = some b ∨ h.mem.length ≤ b := by
      intro b hb
      rcases k3 with e | e | e
      · left; rw [← e, hb]
      · rw [e] at hb; simp at hb
      · rw [e] at hb; simp only [Option.some.injEq] at hb; right; omega
    cases q with
    | error e =>
      simp only [Prod.mk.injEq] at hr
      obtain ⟨rfl, rfl⟩ := hr
      refine ⟨k1, k2, k3', ?_, by simp⟩
      intro e' he
      unfold getS
      rw [k4 e rfl]
      simp only [Except.error.injEq] at he
      rw [he]
    | ok a =>
      obtain ⟨ka, M, kM, kg⟩ := k5 a rfl
      have hz : h1.c.zbase = h.c.zbase := by
        have e1 := (get1S_zbase (ops := ops) h.view f fl)
        rw [kg] at e1
        exact e1
      cases z with
      | none =>
        simp only [Prod.mk.injEq] at hr
        obtain ⟨rfl, rfl⟩ := hr
        refine ⟨k1, k2, k3', by simp, ?_⟩
        intro b hb
        simp only [Except.ok.injEq] at hb
        subst hb
        refine ⟨M, kM, ?_, .inl ⟨by simp, ka⟩⟩
        unfold getS
        rw [kg]
      | some z =>
        simp only at hr
        by_cases hc : z ≠ 0 ∧ z ≠ h1.c.zbase
        · rw [if_pos hc, kM] at hr
          simp only at hr
          have hgs : getS ops h.view f (some z) fl = (h1.view, convVV z h1.c.zbase M) := by
            unfold getS
            rw [kg]
            simp only
            rw [if_pos (show z ≠ 0 ∧ z ≠ h1.view.zbase from hc), view_zbase]
          cases hv : convVV z h1.c.zbase M with
          | error e =>
            rw [hv] at hr hgs
            simp only [Prod.mk.injEq] at hr
            obtain ⟨rfl, rfl⟩ := hr
            refine ⟨k1, k2, k3', ?_, by simp⟩
            intro e' he
            simp only [Except.error.injEq] at he
            rw [hgs, he]
          | ok M' =>
            rw [hv] at hr hgs
            simp only [Prod.mk.injEq] at hr
            obtain ⟨rfl, rfl⟩ := hr
            obtain ⟨v1, v2⟩ := view_append h1 k1 [M']
            refine ⟨v2, k2.trans (List.prefix_append _ _), k3', by simp, ?_⟩
            intro b hb
            simp only [Except.ok.injEq] at hb
            subst hb
            refine ⟨M', by simp, by rw [hgs, v1], .inr ⟨⟨z, rfl, hc.1, by rw [← hz]; exact hc.2⟩, k2.length_le, ?_⟩⟩
            intro hx
            have := k1 _ hx
            omega
        · rw [if_neg hc] at hr
          simp only [Prod.mk.injEq] at hr
          obtain ⟨rfl, rfl⟩ := hr
          refine ⟨k1, k2, k3', by simp, ?_⟩
          intro b hb
          simp only [Except.ok.injEq] at hb
          subst hb
          refine ⟨M, kM, ?_, .inl ⟨?_, ka⟩⟩
          · unfold getS
            rw [kg]
            simp only
            rw [if_neg (show ¬ (z ≠ 0 ∧ z ≠ h1.view.zbase) from hc)]
          · intro y hy
            simp only [Option.some.injEq] at hy
            subst hy
            by_contra hne
            push Not at hne
            exact hc ⟨hne.1, by rw [hz]; exact hne.2⟩

theorem hgetLoop_sim (z : Option K) (fl : Fl) : ∀ (fs : List F) {h h' : HSt K O F Fl}, h.OK → ∀ {r : Except Err (List ℕ)},
    hgetLoop ops z fl h fs = (h', r) →
    h'.OK ∧ h.mem <+: h'.mem ∧ (∀ b, h'.at' = some b → h.at' = some b ∨ h.mem.length ≤ b) ∧
    (∀ e, r = .error e → pgets ops z fl h.view fs = (h'.view, .error e)) ∧
    (∀ as, r = .ok as → as.length = fs.length ∧ ∃ Ms, List.Forall₂ (fun (a : ℕ) M => h'.mem[a]? = some M) as Ms ∧
      pgets ops z fl h.view fs = (h'.view, .ok Ms)) := by
  intro fs
  induction fs with
  | nil =>
    intro h h' hok r hr
    simp only [hgetLoop, Prod.mk.injEq] at hr
    obtain ⟨rfl, rfl⟩ := hr
    refine ⟨hok, List.prefix_refl _, fun b hb => .inl hb, by simp, ?_⟩
    intro as ha
    simp only [Except.ok.injEq] at ha
    subst ha
    exact ⟨rfl, [], .nil, rfl⟩
  | cons f fs ih =>
    intro h h' hok r hr
    unfold hgetLoop at hr
    cases hg : hget ops h f z fl with
    | mk h1 q =>
      rw [hg] at hr
      obtain ⟨k1, k2, k3, k4, k5⟩ := hget_sim hok f z fl hg
      cases q with
      | error e =>
        simp only [Prod.mk.injEq] at hr
        obtain ⟨rfl, rfl⟩ := hr
        refine ⟨k1, k2, k3, ?_, by simp⟩
        intro e' he
        simp only [Except.error.injEq] at he
        subst he
        unfold pgets
        rw [k4 e rfl]
      | ok a =>
        obtain ⟨M, kM, kg, -⟩ := k5 a rfl
        simp only at hr
        cases hl : hgetLoop ops z fl h1 fs with
        | mk h2 q2 =>
          rw [hl] at hr
          obtain ⟨j1, j2, j3, j4, j5⟩ := ih k1 hl
          have hat : ∀ b, h2.at' = some b → h.at' = some b ∨ h.mem.length ≤ b := by
            intro b hb
            rcases j3 b hb with e | e
            · exact k3 b e
            · exact .inr (k2.length_le.trans e)
          cases q2 with
          | error e =>
            simp only [Prod.mk.injEq] at hr
            obtain ⟨rfl, rfl⟩ := hr
            refine ⟨j1, k2.trans j2, hat, ?_, by simp⟩
            intro e' he
            simp only [Except.error.injEq] at he
            subst he
            unfold pgets
            rw [kg]
            simp only
            rw [j4 e rfl]
          | ok as =>
            simp only [Prod.mk.injEq] at hr
            obtain ⟨rfl, rfl⟩ := hr
            refine ⟨j1, k2.trans j2, hat, by simp, ?_⟩
            intro as' he
            simp only [Except.ok.injEq] at he
            subst he
            obtain ⟨g1, Ms, g2, g3⟩ := j5 as rfl
            refine ⟨by simp [g1], M :: Ms, .cons ?_ g2, ?_⟩
            · obtain ⟨l, hl'⟩ := j2
              rw [← hl', List.getElem?_append_left (by
                by_contra hx; push Not at hx; rw [List.getElem?_eq_none hx] at kM; simp at kM)]
              exact kM
            · unfold pgets
              rw [kg]
              simp only
              rw [g3]

theorem filterMap_mem {mem : List (SMat K)} : ∀ {as : List ℕ} {Ms : List (SMat K)},
    List.Forall₂ (fun (a : ℕ) M => mem[a]? = some M) as Ms → as.filterMap (mem[·]?) = Ms := by
  intro as Ms hf
  induction hf with
  | nil => rfl
  | cons h1 h2 ih => simp only [List.filterMap_cons, h1, ih]

theorem read_back (mem Ms : List (SMat K)) (d : SMat K) :
    ((List.range Ms.length).map (mem.length + ·)).map (fun a => ((mem ++ Ms)[a]?).getD d) = Ms := by
  rw [List.map_map]
  refine List.ext_getElem (by simp) ?_
  intro i h1 h2
  simp [h2]

/-- one call does what the model without memory does, provided the caller did not assign to the array the circuit holds -/
theorem hstep_sim (hok : h.OK) (c : HCall K F Fl) (hc : ∀ a i j v, c = .write a i j v → h.at' ≠ some a) :
    (hstep ops h c).1.OK ∧ (hstep ops h c).1.view = (pstep ops h.view c).1 ∧ (hstep ops h c).2 = (pstep ops h.view c).2 := by
  cases c with
  | get f z fl =>
    cases hg : hget ops h f z fl with
    | mk h1 q =>
      obtain ⟨k1, k2, k3, k4, k5⟩ := hget_sim hok f z fl hg
      simp only [hstep, pstep, hg]
      cases q with
      | error e => rw [k4 e rfl]; exact ⟨k1, rfl, rfl⟩
      | ok a =>
        obtain ⟨M, kM, kg, -⟩ := k5 a rfl
        rw [kg]
        exact ⟨k1, rfl, by simp [Except.map, kM]⟩
  | gets fs z fl =>
    cases hg : hgetLoop ops z fl h fs with
    | mk h1 q =>
      obtain ⟨k1, k2, k3, k4, k5⟩ := hgetLoop_sim z fl fs hok hg
      simp only [hstep, pstep, hgets, hg]
      cases q with
      | error e => rw [k4 e rfl]; exact ⟨k1, rfl, rfl⟩
      | ok as =>
        obtain ⟨g1, Ms, g2, g3⟩ := k5 as rfl
        rw [g3]
        simp only
        rw [filterMap_mem g2]
        obtain ⟨v1, v2⟩ := view_append h1 k1 Ms
        refine ⟨v2, v1, ?_⟩
        simp only [Except.map, g2.length_eq]
        rw [read_back]
  | write a i j v =>
    have hn := hc a i j v rfl
    refine ⟨?_, view_write h a i j v hn, rfl⟩
    intro b hb
    have := hok b hb
    simpa [hstep] using this
  | load p args =>
    obtain ⟨v1, v2⟩ := view_mk (s := (terminate h.view p args).1) hok (terminate_S h.view p args)
    exact ⟨v2, v1, rfl⟩

/-! ## the property -/

/-- during the history the caller never assigns to an element of the array that the circuit keeps as its last result -/
def Untouched (ops : ObjOps K O F Fl) : HSt K O F Fl → List (HCall K F Fl) → Prop
  | _, [] => True
  | h, c :: cs => (∀ a i j v, c = .write a i j v → h.at' ≠ some a) ∧ Untouched ops (hstep ops h c).1 cs

theorem hrun_sim : ∀ (cs : List (HCall K F Fl)) {h : HSt K O F Fl}, h.OK → Untouched ops h cs →
    (hrun ops h cs).2 = (prun ops h.view cs).2 := by
  intro cs
  induction cs with
  | nil => intro h _ _; rfl
  | cons c cs ih =>
    intro h hok hu
    obtain ⟨k1, k2, k3⟩ := hstep_sim (ops := ops) hok c hu.1
    have := ih k1 hu.2
    simp only [hrun, prun]
    rw [this, k2, k3]

/-- a circuit not evaluated yet, or whose result was discarded -/
def fresh (s : St K O F Fl) : HSt K O F Fl := ⟨s, none, []⟩

theorem fresh_ok (s : St K O F Fl) : (fresh s).OK := fun a ha => by simp [fresh] at ha
theorem fresh_view (s : St K O F Fl) (hS : s.S = none) : (fresh s).view = s := by
  cases s; simp only at hS; subst hS; rfl

/-- **C69 (circuit), the arrays the circuit keeps left alone**: every answer is the answer of a circuit whose matrices nobody can change,
whatever else the caller writes into the arrays he was given. -/
theorem C69_circuit_history_partial {s : St K O F Fl} (hS : s.S = none) (cs : List (HCall K F Fl)) (hu : Untouched ops (fresh s) cs) :
    (hrun ops (fresh s) cs).2 = (prun ops s cs).2 := by
  rw [hrun_sim cs (fresh_ok s) hu, fresh_view s hS]

/-- the arrays returned by calls that copy: a list of frequencies, or another reference impedance -/
noncomputable def copies (ops : ObjOps K O F Fl) (h : HSt K O F Fl) : HCall K F Fl → List ℕ
  | .get f (some z) fl => open Classical in
    if z ≠ 0 ∧ z ≠ h.c.zbase then (match (hget ops h f (some z) fl).2 with | .ok a => [a] | .error _ => []) else []
  | .gets fs z fl => match (hgets ops h fs z fl).2 with | .ok as => as | .error _ => []
  | _ => []

/-- the caller assigns only to arrays that were returned by calls that copy -/
def CopiesOnly (ops : ObjOps K O F Fl) : HSt K O F Fl → List ℕ → List (HCall K F Fl) → Prop
  | _, _, [] => True
  | h, own, c :: cs => (∀ a i j v, c = .write a i j v → a ∈ own) ∧ CopiesOnly ops (hstep ops h c).1 (own ++ copies ops h c) cs

/-- no array of the caller is the array the circuit holds, now or later -/
theorem copies_step (hok : h.OK) {own : List ℕ} (ho : ∀ a ∈ own, a < h.mem.length ∧ h.at' ≠ some a) (c : HCall K F Fl) :
    ∀ a ∈ own ++ copies ops h c, a < (hstep ops h c).1.mem.length ∧ (hstep ops h c).1.at' ≠ some a := by
  have keep : ∀ h' : HSt K O F Fl, h.mem.length ≤ h'.mem.length → (∀ b, h'.at' = some b → h.at' = some b ∨ h.mem.length ≤ b) →
      ∀ a ∈ own, a < h'.mem.length ∧ h'.at' ≠ some a := by
    intro h' hl hb a ha
    obtain ⟨o1, o2⟩ := ho a ha
    refine ⟨o1.trans_le hl, fun hx => ?_⟩
    rcases hb a hx with e | e
    · exact o2 e
    · omega
  cases c with
  | get f z fl =>
    cases hg : hget ops h f z fl with
    | mk h1 q =>
      obtain ⟨k1, k2, k3, k4, k5⟩ := hget_sim hok f z fl hg
      have hs : (hstep ops h (.get f z fl)).1 = h1 := by simp only [hstep, hg]
      rw [hs]
      intro a ha
      rw [List.mem_append] at ha
      rcases ha with ha | ha
      · exact keep h1 k2.length_le k3 a ha
      · cases z with
        | none => simp [copies] at ha
        | some z =>
          simp only [copies, hg] at ha
          split at ha
          · rename_i hz
            cases q with
            | error e => simp at ha
            | ok b =>
              simp only [List.mem_singleton] at ha
              subst ha
              obtain ⟨M, kM, -, kk⟩ := k5 a rfl
              rcases kk with ⟨e, -⟩ | ⟨-, e1, e2⟩
              · exfalso
                rcases e z rfl with e | e
                · exact hz.1 e
                · exact hz.2 e
              · refine ⟨?_, e2⟩
                by_contra hx; push Not at hx; rw [List.getElem?_eq_none hx] at kM; simp at kM
          · simp at ha
  | gets fs z fl =>
    cases hg : hgetLoop ops z fl h fs with
    | mk h1 q =>
      obtain ⟨k1, k2, k3, k4, k5⟩ := hgetLoop_sim z fl fs hok hg
      intro a ha
      rw [List.mem_append] at ha
      simp only [hstep, hgets, hg, copies] at ha ⊢
      cases q with
      | error e =>
        rcases ha with ha | ha
        · exact keep h1 k2.length_le k3 a ha
        · simp at ha
      | ok as =>
        obtain ⟨g1, Ms, g2, g3⟩ := k5 as rfl
        simp only [filterMap_mem g2, List.length_append]
        rcases ha with ha | ha
        · obtain ⟨o1, o2⟩ := keep h1 k2.length_le k3 a ha
          exact ⟨by omega, o2⟩
        · simp only [List.mem_map, List.mem_range] at ha
          obtain ⟨i, hi, rfl⟩ := ha
          have := g2.length_eq
          refine ⟨by omega, fun hx => ?_⟩
          have := k1 _ hx
          omega
  | write a i j v =>
    intro b hb
    simp only [copies, List.append_nil] at hb
    simpa [hstep] using ho b hb
  | load p args =>
    intro b hb
    simp only [copies, List.append_nil] at hb
    obtain ⟨o1, o2⟩ := ho b hb
    refine ⟨o1, ?_⟩
    simp only [hstep]
    split
    · exact o2
    · simp

theorem copies_untouched : ∀ (cs : List (HCall K F Fl)) {h : HSt K O F Fl} (own : List ℕ), h.OK → (∀ a ∈ own, a < h.mem.length ∧ h.at' ≠ some a) →
    CopiesOnly ops h own cs → Untouched ops h cs := by
  intro cs
  induction cs with
  | nil => intro h own _ _ _; trivial
  | cons c cs ih =>
    intro h own hok ho hc
    have hn : ∀ a i j v, c = .write a i j v → h.at' ≠ some a := fun a i j v e => (ho a (hc.1 a i j v e)).2
    exact ⟨hn, ih _ (hstep_sim hok c hn).1 (copies_step hok ho c) hc.2⟩

/-- **C69 (circuit), copies**: matrices got at a list of frequencies or on another reference impedance are the caller's own: whatever he
assigns to them, at any time and however often, no answer of the circuit changes. -/
theorem C69_circuit_copies {s : St K O F Fl} (hS : s.S = none) (cs : List (HCall K F Fl)) (hc : CopiesOnly ops (fresh s) [] cs) :
    (hrun ops (fresh s) cs).2 = (prun ops s cs).2 :=
  C69_circuit_history_partial hS cs (copies_untouched cs [] (fresh_ok s) (by simp) hc)

/-- the stored matrix is handed out again -/
theorem hget_hit {a : ℕ} {f : F} {fl : Fl} {z : Option K} (ha : h.at' = some a) (hh : h.view.Hit f fl)
    (hz : ∀ y, z = some y → y = 0 ∨ y = h.c.zbase) : hget ops h f z fl = (h, .ok a) := by
  unfold hget hget1
  rw [if_pos hh]
  simp only [ha, Option.getD_some]
  cases z with
  | none => rfl
  | some z =>
    simp only
    rw [if_neg]
    rintro ⟨h1, h2⟩
    rcases hz z rfl with e | e
    · exact h1 e
    · exact h2 e

/-- what the caller gets on the circuit's own reference is the array the circuit holds -/
theorem hget_own (hok : h.OK) {f : F} {fl : Fl} {z : Option K} (hz : ∀ y, z = some y → y = 0 ∨ y = h.c.zbase) {a : ℕ}
    (hr : hget ops h f z fl = (h', .ok a)) : h'.at' = some a ∧ a < h'.mem.length ∧ h'.c.f = some f ∧ h'.c.flags = some fl ∧ h'.c.zbase = h.c.zbase ∧
      ∃ M, h'.mem[a]? = some M ∧ getS ops h.view f z fl = (h'.view, .ok M) := by
  obtain ⟨k1, k2, k3, k4, k5⟩ := hget_sim hok f z fl hr
  obtain ⟨M, kM, kg, kk⟩ := k5 a rfl
  have hst := getS_state kg
  have hzb := get1S_zbase (ops := ops) h.view f fl
  have h1 : ∃ M', get1S ops h.view f fl = (h'.view, .ok M') := by
    cases hq : get1S ops h.view f fl with
    | mk s1 q =>
      rw [hq] at hst
      cases q with
      | error e => unfold getS at kg; rw [hq] at kg; simp at kg
      | ok M' => exact ⟨M', Prod.ext hst rfl⟩
  obtain ⟨M', h1⟩ := h1
  have h2 := get1S_ok_S h1
  rw [h1] at hzb
  rcases kk with ⟨-, e⟩ | ⟨⟨y, e1, e2, e3⟩, -⟩
  · exact ⟨e, k1 a e, h2.2.1, h2.2.2, hzb, M, kM, kg⟩
  · rcases hz y e1 with e | e
    · exact absurd e e2
    · exact absurd e e3

theorem corrupted_aux {s : St K O F Fl} (hS : s.S = none) {f : F} {fl : Fl} {z z' : Option K} {M : SMat K}
    (hz : ∀ y, z = some y → y = 0 ∨ y = s.zbase) (hz' : ∀ y, z' = some y → y = 0 ∨ y = s.zbase)
    (hg : (getS ops s f z fl).2 = .ok M) (i j : Fin M.n) (v : K) :
    ∃ a, (hget ops (fresh s) f z fl).2 = .ok a ∧
      (hrun ops (fresh s) [.get f z fl, .write a i j v, .get f z' fl]).2 = [.mat (.ok M), .unit (.ok ()), .mat (.ok (M.put i j v))] ∧
      (M.put i j v).m i j = v := by
  have hput : (M.put i j v).m i j = v := by simp [SMat.put]
  cases hq : hget ops (fresh s) f z fl with
  | mk h1 q =>
    have hsim := hget_sim (fresh_ok s) f z fl hq
    rw [fresh_view s hS] at hsim
    cases q with
    | error e => have := hsim.2.2.2.1 e rfl; rw [this] at hg; simp at hg
    | ok a =>
      obtain ⟨k1, k2, k3, k4, k5, M', k6, k7⟩ := hget_own (fresh_ok s) hz hq
      rw [fresh_view s hS] at k7
      rw [k7] at hg
      simp only [Except.ok.injEq] at hg
      subst hg
      refine ⟨a, rfl, ?_, hput⟩
      let h2 : HSt K O F Fl := { h1 with mem := h1.mem.modify a (·.put i j v) }
      have hm : h2.mem[a]? = some (M'.put i j v) := by
        show (h1.mem.modify a _)[a]? = _
        rw [List.getElem?_modify, k6]; simp
      have hhit : h2.view.Hit f fl := by
        refine ⟨?_, k3, k4⟩
        show (h1.at'.bind (h2.mem[·]?)).isSome = true
        rw [k1]; simp only [Option.bind_some]; rw [hm]; rfl
      have hlast : hget ops h2 f z' fl = (h2, .ok a) := hget_hit k1 hhit (by
        intro y hy; rw [show h2.c.zbase = (fresh s).c.zbase from k5]; exact hz' y hy)
      have e1 : hstep ops (fresh s) (.get f z fl) = (h1, .mat (.ok M')) := by
        simp only [hstep, hq, Except.map, k6, Option.getD_some]
      have e2 : hstep ops h1 (.write a i j v) = (h2, .unit (.ok ())) := rfl
      have e3 : hstep ops h2 (.get f z' fl) = (h2, .mat (.ok (M'.put i j v))) := by
        simp only [hstep, hlast, Except.map, hm, Option.getD_some]
      simp only [hrun, e1, e2, e3]

/-- an answer of the circuit whose matrices nobody can change, asked twice (what the user relies on) -/
theorem prun_twice {s : St K O F Fl} {f : F} {fl : Fl} {z z' : Option K} {M : SMat K}
    (hz : ∀ y, z = some y → y = 0 ∨ y = s.zbase) (hz' : ∀ y, z' = some y → y = 0 ∨ y = s.zbase)
    (hg : (getS ops s f z fl).2 = .ok M) (a i j : ℕ) (v : K) :
    (prun ops s [.get f z fl, .write a i j v, .get f z' fl]).2 = [.mat (.ok M), .unit (.ok ()), .mat (.ok M)] := by
  have own : ∀ (t : St K O F Fl) (y : Option K), t.zbase = s.zbase → (∀ x, y = some x → x = 0 ∨ x = s.zbase) →
      getS ops t f y fl = get1S ops t f fl := by
    intro t y ht hy
    have hzb := get1S_zbase (ops := ops) t f fl
    unfold getS
    cases hq : get1S ops t f fl with
    | mk t1 q =>
      rw [hq] at hzb
      cases q with
      | error e => rfl
      | ok M =>
        cases y with
        | none => rfl
        | some y =>
          simp only
          rw [if_neg]
          rintro ⟨h1, h2⟩
          rcases hy y rfl with e | e
          · exact h1 e
          · exact h2 (e.trans (ht.symm.trans hzb.symm))
  have e0 := own s z rfl hz
  rw [e0] at hg
  cases hq : get1S ops s f fl with
  | mk s1 q =>
    rw [hq] at hg
    simp only at hg
    subst hg
    have hzb := get1S_zbase (ops := ops) s f fl
    rw [hq] at hzb
    obtain ⟨g1, g2, g3⟩ := get1S_ok_S hq
    have e1 := own s1 z' hzb hz'
    have e2 : get1S ops s1 f fl = (s1, .ok M) := by
      rcases get1S_eq (ops := ops) s1 f fl with ⟨M', x1, _, _, x⟩ | ⟨x, -⟩
      · rw [x]; rw [g1] at x1; simp only [Option.some.injEq] at x1; rw [x1]
      · rw [g1, g2, g3] at x; simp at x
    simp only [prun, pstep, e0, hq, e1, e2]

/-- **C69 (circuit), violated for every circuit**: a matrix got at one frequency on the circuit's own reference is the circuit's; after an
assignment to one element the same question is answered with the changed matrix, where a circuit that owned its matrices would have repeated
its answer. -/
theorem C69_circuit_corrupted {s : St K O F Fl} (hS : s.S = none) {f : F} {fl : Fl} {z z' : Option K} {M : SMat K}
    (hz : ∀ y, z = some y → y = 0 ∨ y = s.zbase) (hz' : ∀ y, z' = some y → y = 0 ∨ y = s.zbase)
    (hg : (getS ops s f z fl).2 = .ok M) (i j : Fin M.n) (v : K) :
    ∃ a, (hget ops (fresh s) f z fl).2 = .ok a ∧
      (hrun ops (fresh s) [.get f z fl, .write a i j v, .get f z' fl]).2 = [.mat (.ok M), .unit (.ok ()), .mat (.ok (M.put i j v))] ∧
      (M.put i j v).m i j = v ∧
      (prun ops s [.get f z fl, .write a i j v, .get f z' fl]).2 = [.mat (.ok M), .unit (.ok ()), .mat (.ok M)] := by
  obtain ⟨a, h1, h2, h3⟩ := corrupted_aux hS hz hz' hg i j v
  exact ⟨a, h1, h2, h3, prun_twice hz hz' hg a i j v⟩

/-- **C69 (circuit), released**: once the circuit was evaluated at another frequency or with other flags, the matrices returned before are
the caller's own again. -/
theorem C69_circuit_released {f : F} {fl : Fl} {z : Option K} (hmiss : ¬ (h.c.f = some f ∧ h.c.flags = some fl)) {a : ℕ}
    (hr : hget ops h f z fl = (h', .ok a)) : ∀ b, b < h.mem.length → h'.at' ≠ some b := by
  have hm : ¬ h.view.Hit f fl := fun hx => hmiss hx.2
  unfold hget at hr
  cases hg : hget1 ops h f fl with
  | mk h1 q =>
    rw [hg] at hr
    have h1at : ∀ c, q = .ok c → h1.at' = some h.mem.length := by
      unfold hget1 at hg
      rw [if_neg hm] at hg
      split at hg
      · simp only [Prod.mk.injEq] at hg; intro c hc; rw [hc] at hg; simp at hg
      · simp only [Prod.mk.injEq] at hg; intro c _; rw [← hg.1]
    cases q with
    | error e => simp at hr
    | ok c =>
      have hat : h'.at' = h1.at' := by
        simp only at hr
        split at hr
        · simp only [Prod.mk.injEq] at hr; rw [hr.1]
        · split at hr
          · split at hr
            · simp at hr
            · split at hr
              · simp at hr
              · simp only [Prod.mk.injEq] at hr; rw [← hr.1]
          · simp only [Prod.mk.injEq] at hr; rw [hr.1]
      intro b hb hx
      rw [hat, h1at c rfl] at hx
      simp only [Option.some.injEq] at hx
      omega

end

/-! ## witnesses -/

namespace Ex

theorem s4_S : s4.S = none := by
  rcases terminate_S s3 (.blk "B" "2") (.Z 100) with h | h
  · exact h
  · exact h.trans rfl

/-- the matrix the example circuit returns -/
theorem s4_get : ∃ s' M, getS o s4 () none () = (s', .ok M) ∧ M.n = 1 ∧ M.at 0 0 = 7/60 := by
  have hl := imm_lawful ℚ Unit Unit
  obtain ⟨s', M, hs⟩ := (C20_getS_complete hl built (by decide) given (by decide) (Or.inl names)).2 solvable
  have hb1 := Built.eval built hs
  have hM := (C20_getS_sound hl built (by decide) hs).2 Sof given
  have hi1 := hb1.inv hl
  have hports : s'.ports = [.blk "A" "1"] := by
    have h2 := hi1.rep.ports_perm
    rw [free] at h2
    exact List.perm_singleton.1 h2
  refine ⟨s', M, hs, by have := hM.size; rw [this, hports]; rfl, ?_⟩
  obtain ⟨w, h1, h2⟩ := hM.exists_sol fun _ => 1
  have h3 := hM.out w h1 ⟨0, by simp [hports]⟩
  rw [laws_iff] at h1
  obtain ⟨⟨a, b, c, e⟩, e1, e2, e3⟩ := h1
  have h4 := h2 (.blk "A" "1") (by simp [hports])
  have h5 : ∑ j : Fin s'.ports.length, M.at 0 j * w (.inn, s'.ports[j]) = M.at 0 0 * w (.inn, .blk "A" "1") := by
    have : ∀ (l : List Node), l = [.blk "A" "1"] → ∑ j : Fin l.length, M.at 0 j * w (.inn, l[j]) =
        M.at 0 0 * w (.inn, .blk "A" "1") := by
      rintro l rfl; simp
    exact this _ hports
  have h6 : w (.out, .blk "A" "1") = M.at 0 0 * w (.inn, .blk "A" "1") := by
    rw [← h5, ← h3]; simp [hports]
  rw [h4] at h6
  linarith

/-- the example circuit: `7/60` is the reflection at its port; after `S[0,0] = 0` by the caller it answers `0` -/
theorem C69_circuit_corrupted_witness : ∃ (t : E) (a : ℕ) (M : SMat ℚ), Built o Imm.beh 0 50 [] net bh t .building ∧ M.at 0 0 = 7/60 ∧
    (hrun o (fresh t) [.get () none (), .write a 0 0 0, .get () none ()]).2 = [.mat (.ok M), .unit (.ok ()), .mat (.ok (M.put 0 0 0))] ∧
    (M.put 0 0 0).at 0 0 = 0 := by
  obtain ⟨s', M, hs, hn, hv⟩ := s4_get
  obtain ⟨a, -, h2, h3, -⟩ := C69_circuit_corrupted (ops := o) s4_S (z := none) (z' := none) (by simp) (by simp)
    (show (getS o s4 () none ()).2 = .ok M by rw [hs]) ⟨0, by omega⟩ ⟨0, by omega⟩ 0
  refine ⟨s4, a, M, built, hv, h2, ?_⟩
  have hn' : 0 < (M.put 0 0 (0 : ℚ)).n := by show 0 < M.n; omega
  simp only [SMat.at, hn', and_self, dite_true]
  exact h3

/-- a history that assigns to a copy: the frequency asked for as a list, the array returned overwritten, the frequency asked for again -/
theorem C69_circuit_copies_witness : ∃ (t : E) (M : SMat ℚ) (a : ℕ), Built o Imm.beh 0 50 [] net bh t .building ∧
    CopiesOnly o (fresh t) [] [.gets [()] none (), .write a 0 0 0, .get () none ()] ∧
    (hrun o (fresh t) [.gets [()] none (), .write a 0 0 0, .get () none ()]).2 = [.mats (.ok [M]), .unit (.ok ()), .mat (.ok M)] ∧
    M.at 0 0 = 7/60 := by
  obtain ⟨s', M, hs, hn, hv⟩ := s4_get
  cases hq : hget o (fresh s4) () none () with
  | mk h1 q =>
    have hsim := hget_sim (fresh_ok s4) () none () hq
    rw [fresh_view s4 s4_S] at hsim
    cases q with
    | error e => have := hsim.2.2.2.1 e rfl; rw [this] at hs; simp at hs
    | ok b =>
      obtain ⟨k1, k2, k3, k4, k5, M', k6, k7⟩ := hget_own (fresh_ok s4) (by simp) hq
      have hloop : hgetLoop o none () (fresh s4) [()] = (h1, .ok [b]) := by simp [hgetLoop, hq]
      have hcop : copies o (fresh s4) (.gets [()] none ()) = [h1.mem.length] := by
        simp [copies, hgets, hloop]
      have hco : CopiesOnly o (fresh s4) [] [.gets [()] none (), .write h1.mem.length 0 0 0, .get () none ()] := by
        refine ⟨by simp, ⟨?_, ⟨by simp, trivial⟩⟩⟩
        intro a i j v e
        simp only [HCall.write.injEq] at e
        rw [hcop, ← e.1]; simp
      refine ⟨s4, M, h1.mem.length, built, hco, ?_, hv⟩
      rw [C69_circuit_copies s4_S _ hco]
      have := prun_twice (ops := o) (s := s4) (f := ()) (fl := ()) (z := none) (z' := none) (by simp) (by simp)
        (show (getS o s4 () none ()).2 = .ok M by rw [hs]) 0 0 0 0
      simp only [prun, pstep, hs] at this
      simp only [prun, pstep, pgets, hs]
      simpa using this

end Ex
end PyRFtk.Circuit
