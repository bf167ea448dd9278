import Verif.CircuitSolEx

/-!
# `rfGTL` with a touchstone file (C60)

rfGTL.py:433-489 (`getSgtl`, `getS`), rfCircuit.py:1488-1512 (`Solution` with a file).
-/

set_option linter.unusedSectionVars false

namespace PyRFtk.Circuit

section
variable {K O F Fl D : Type*} [Field K] [DecidableEq F] [DecidableEq Fl]

/-! ## model -/

/-- the object read from the file (`self.sNp`, an rfObject): its `getS` (rfObject.py:523-565) -/
structure FileOps (K D F : Type*) where
  getS : D → F → K → D × Except Err (SMat K)

/-- the flags: `flags.get('sNp', True)`, `dict(flags, sNp=False)`, `{}` -/
structure FlagOps (Fl : Type*) where
  useFile : Fl → Bool
  own : Fl → Fl
  none : Fl

/-- the flags are those of a dict -/
structure FlagOps.Lawful (fo : FlagOps Fl) : Prop where
  own : ∀ fl, fo.useFile (fo.own fl) = false
  none : fo.useFile fo.none = true

/-- an rfGTL: the circuit and the file if there is one (rfGTL.py:79-87) -/
structure Gtl (K O F Fl D : Type*) where
  st : St K O F Fl
  file : Option D

/-- `getSgtl(f, Zbase, flags)` (rfGTL.py:437-449) -/
noncomputable def Gtl.getSgtl (ops : ObjOps K O F Fl) (fo : FlagOps Fl) (g : Gtl K O F Fl D) (f : F) (z : Option K) (fl : Fl) :
    Gtl K O F Fl D × Except Err (SMat K) :=
  match getS ops g.st f (some (z.getD g.st.zbase)) (fo.own fl) with
  | (s, r) => ({ g with st := s }, r)

/-- `getS(f, Zbase, flags)` (rfGTL.py:455-489).  `hasattr(super(), 'E')` is False, so that the circuit is evaluated first in every call. -/
noncomputable def Gtl.getS (ops : ObjOps K O F Fl) (dops : FileOps K D F) (fo : FlagOps Fl) (g : Gtl K O F Fl D) (f : F) (z : Option K) (fl : Fl) :
    Gtl K O F Fl D × Except Err (SMat K) :=
  match g.getSgtl ops fo f (some (z.getD g.st.zbase)) fo.none with                                          -- 471-475
  | (g, .error e) => (g, .error e)
  | (g, .ok _) =>
    match (if fo.useFile fl then g.file else Option.none) with                                                 -- 478
    | some d => match dops.getS d f (z.getD g.st.zbase) with                                                -- 481
      | (d, r) => ({ g with file := some d }, r)
    | Option.none => match Circuit.getS ops g.st f (some (z.getD g.st.zbase)) fl with                          -- 485
      | (s, r) => ({ g with st := s }, r)

/-- a list of frequencies: the first one is used for the evaluation of the circuit (473); then one answer per frequency, by the file or by the
circuit (rfCircuit.py:1318-1325, rfObject.py:548-556) -/
noncomputable def Gtl.each (ops : ObjOps K O F Fl) (dops : FileOps K D F) (fo : FlagOps Fl) (z : K) (fl : Fl) : List F → Gtl K O F Fl D →
    Gtl K O F Fl D × Except Err (List (SMat K))
  | [], g => (g, .ok [])
  | f :: fs, g =>
    match (match (if fo.useFile fl then g.file else Option.none) with
      | some d => match dops.getS d f z with | (d, r) => (({ g with file := some d } : Gtl K O F Fl D), r)
      | Option.none => match Circuit.getS ops g.st f (some z) fl with | (s, r) => ({ g with st := s }, r)) with
    | (g, .error e) => (g, .error e)
    | (g, .ok S) => match Gtl.each ops dops fo z fl fs g with
      | (g, .error e) => (g, .error e)
      | (g, .ok l) => (g, .ok (S :: l))

/-- `getS` for a list of frequencies -/
noncomputable def Gtl.getSs (ops : ObjOps K O F Fl) (dops : FileOps K D F) (fo : FlagOps Fl) (g : Gtl K O F Fl D) (fs : List F) (z : Option K) (fl : Fl) :
    Gtl K O F Fl D × Except Err (List (SMat K)) :=
  match fs with
  | [] => (g, .error .indexError)
  | f :: _ => match g.getSgtl ops fo f (some (z.getD g.st.zbase)) fo.none with
    | (g, .error e) => (g, .error e)
    | (g, .ok _) => Gtl.each ops dops fo (z.getD g.st.zbase) fl fs g

/-- `Solution(f, E, Zbase, flags)` of an rfGTL at its own level (rfCircuit.py:1488-1540): with the file only the external ports.  `Zbase = 0`
raises (numpy would return nan). -/
noncomputable def Gtl.solution (ops : ObjOps K O F Fl) (dops : FileOps K D F) (fo : FlagOps Fl) (g : Gtl K O F Fl D) (f : F) (E : List (Node × K))
    (z : Option K) (fl : Fl) : Gtl K O F Fl D × Except Err (List (Node × Quad K)) := by
  classical exact
  match mapE (dictIndex E) g.st.ports with                                                                  -- 1488
  | .error e => (g, .error e)
  | .ok Ea => match (if fo.useFile fl then g.file else Option.none) with
    | some _ => match g.getS ops dops fo f (some (z.getD g.st.zbase)) fl with                               -- 1492
      | (g, .error e) => (g, .error e)
      | (g, .ok S) => match applyS S Ea with
        | .error e => (g, .error e)
        | .ok Eb =>
          let zb := z.getD g.st.zbase
          if zb = 0 then (g, .error .nonFinite) else
          (g, .ok ((g.st.ports.zip (Ea.zip Eb)).foldl (fun d x => dictSet x.1 ⟨x.2.1 + x.2.2, (x.2.1 - x.2.2) / zb, x.2.1, x.2.2⟩ d) []))  -- 1497-1502
    | Option.none => match g.getSgtl ops fo f (some (z.getD g.st.zbase)) fo.none with                         -- 471-475 of rfGTL.py
      | (g, .error e) => (g, .error e)
      | (g, .ok _) => match Circuit.solution ops g.st f E z fl with
        | (s, r) => ({ g with st := s }, r)

/-! ## properties -/

variable {ops : ObjOps K O F Fl} {beh : O → F → K → Fl → Except Err (SMat K)} {dops : FileOps K D F} {fo : FlagOps Fl}
variable {nan zb : K} {names : List Node} {net : Net K} {bh : Behave K F Fl} {g g' : Gtl K O F Fl D} {ph : Phase}

/-- what the file says, and that asking does not change it (proved of rfObject in `RfObjectProps`: C34) -/
structure FileLawful (dops : FileOps K D F) (tells : D → F → K → Except Err (SMat K)) : Prop where
  res : ∀ d f z, (dops.getS d f z).2 = tells d f z
  stable : ∀ d f z, tells (dops.getS d f z).1 = tells d

/-- an rfGTL in use: its circuit is a circuit of the network `net`, with external ports, whose ports are in the order asked for -/
structure Gtl.Of (ops : ObjOps K O F Fl) (beh : O → F → K → Fl → Except Err (SMat K)) (net : Net K) (bh : Behave K F Fl) (zb : K)
    (g : Gtl K O F Fl D) : Prop where
  built : ∃ nan names ph, Built ops beh nan zb names net bh g.st ph ∧ ph ≠ .reloaded ∧ (names = [] ∨ g.st.aliased = true)
  free : net.free ≠ []

/-- the same circuit and file, as far as answers go -/
structure Gtl.Same (ops : ObjOps K O F Fl) (tells : D → F → K → Except Err (SMat K)) (g g' : Gtl K O F Fl D) : Prop where
  own : ∀ f z fl, (Circuit.getS ops g'.st f z fl).2 = (Circuit.getS ops g.st f z fl).2
  base : g'.st.zbase = g.st.zbase
  ports : g'.st.ports = g.st.ports
  file : g'.file.map tells = g.file.map tells

theorem Gtl.Same.refl {tells : D → F → K → Except Err (SMat K)} (g : Gtl K O F Fl D) : Gtl.Same ops tells g g := ⟨fun _ _ _ => rfl, rfl, rfl, rfl⟩

theorem Gtl.Same.trans {tells : D → F → K → Except Err (SMat K)} {g g' g'' : Gtl K O F Fl D} (h : Gtl.Same ops tells g g') (h' : Gtl.Same ops tells g' g'') :
    Gtl.Same ops tells g g'' :=
  ⟨fun f z fl => (h'.own f z fl).trans (h.own f z fl), h'.base.trans h.base, h'.ports.trans h.ports, h'.file.trans h.file⟩

theorem Gtl.eval [CharZero K] {tells : D → F → K → Except Err (SMat K)} (hlaw : Lawful ops beh) (h : g.Of ops beh net bh zb) {f : F} {z : Option K} {fl : Fl}
    {s' : St K O F Fl} {r : Except Err (SMat K)} (hs : Circuit.getS ops g.st f z fl = (s', r)) :
    Gtl.Of ops beh net bh zb ({ g with st := s' } : Gtl K O F Fl D) ∧ Gtl.Same ops tells g { g with st := s' } := by
  obtain ⟨⟨nan, names, ph, hb, hph, ho⟩, hf⟩ := h
  refine ⟨⟨⟨nan, names, _, Built.eval hb hs, by rw [afterEval_of_ne hph]; decide, ?_⟩, hf⟩, fun f' z' fl' => getS_stable hlaw hb hph hf hs f' z' fl', ?_, ?_,
    rfl⟩
  · rcases ho with ho | ho
    · exact Or.inl ho
    · right
      have hst := getS_state hs
      rcases get1S_eq (ops := ops) g.st f fl with ⟨M, e1, e2, e3, e4⟩ | ⟨e1, e2⟩
      · rw [e4] at hst
        simp only at hst
        rw [← hst]; exact ho
      · rw [e2] at hst
        rw [← hst]
        exact recompute_aliased ho f fl
  · rw [((Built.eval hb hs).inv hlaw).zb, (hb.inv hlaw).zb]
  · refine C49_labels hlaw hb hph hf ?_ hs
    rcases ho with ho | ho
    · by_cases ha : g.st.aliased = true
      · exact Or.inr ha
      · left
        unfold St.names
        rw [if_neg ha, (hb.inv hlaw).nm, ho]
    · exact Or.inr ho

/-- what `getS` should answer: with the file (if there is one and it is not switched off) what the file says, otherwise what the circuit says;
always on the reference asked for, by default the circuit's -/
noncomputable def Gtl.answer (ops : ObjOps K O F Fl) (tells : D → F → K → Except Err (SMat K)) (fo : FlagOps Fl) (g : Gtl K O F Fl D) (f : F) (z : Option K)
    (fl : Fl) : Except Err (SMat K) :=
  match (if fo.useFile fl then g.file else Option.none) with
  | some d => tells d f (z.getD g.st.zbase)
  | Option.none => (Circuit.getS ops g.st f (some (z.getD g.st.zbase)) fl).2

theorem Gtl.Same.answer {tells : D → F → K → Except Err (SMat K)} (h : Gtl.Same ops tells g g') (f : F) (z : Option K) (fl : Fl) :
    Gtl.answer ops tells fo g' f z fl = Gtl.answer ops tells fo g f z fl := by
  unfold Gtl.answer
  have hf := h.file
  rw [h.base]
  split
  · rename_i d hd
    split at hd
    · rename_i hu
      rw [hd] at hf
      cases hg : g.file with
      | none => rw [hg] at hf; cases hf
      | some d' =>
        rw [hg] at hf
        simp only [Option.map_some, Option.some.injEq] at hf
        simp only [hu, if_true, hf]
    · cases hd
  · rename_i hd
    split at hd
    · rename_i hu
      rw [hd] at hf
      cases hg : g.file with
      | none => simp only [hu, if_true]; exact h.own _ _ _
      | some d' => rw [hg] at hf; cases hf
    · rename_i hu
      simp only [hu]
      exact h.own _ _ _

/-- **C60**: `getSgtl` is the matrix of the circuit, file or not -/
theorem C60_getSgtl (f : F) (z : Option K) (fl : Fl) :
    (g.getSgtl ops fo f z fl).2 = (Circuit.getS ops g.st f (some (z.getD g.st.zbase)) (fo.own fl)).2 := rfl

/-- **C60**: `getS`.  If the circuit itself can be evaluated at that frequency, the answer is that of the file on the reference asked for, or,
without a file or with `flags = {'sNp': False}`, that of the circuit. -/
theorem C60_getS [CharZero K] {tells : D → F → K → Except Err (SMat K)} (hlaw : Lawful ops beh) (hd : FileLawful dops tells) (h : g.Of ops beh net bh zb)
    {f : F} {z : Option K} {fl : Fl} {S : SMat K} (hS : (g.getSgtl ops fo f z fo.none).2 = .ok S) :
    (g.getS ops dops fo f z fl).2 = g.answer ops tells fo f z fl := by
  unfold Gtl.getS Gtl.answer
  unfold Gtl.getSgtl at hS ⊢
  simp only [Option.getD_some] at hS ⊢
  cases hs : Circuit.getS ops g.st f (some (z.getD g.st.zbase)) (fo.own fo.none) with
  | mk s' r =>
    obtain ⟨h1, h2⟩ := Gtl.eval (tells := tells) hlaw h hs
    rw [hs] at hS
    simp only at hS
    subst hS
    simp only
    have hb : s'.zbase = g.st.zbase := h2.base
    rw [hb]
    split
    · exact hd.res _ _ _
    · exact h2.own _ _ _

/-- **C60 is violated when the circuit cannot be evaluated**: then `getS` raises, even though the file is there and would answer. -/
theorem C60_circuit_needed {f : F} {z : Option K} {fl : Fl} {e : Err} (hS : (g.getSgtl ops fo f z fo.none).2 = .error e) :
    (g.getS ops dops fo f z fl).2 = .error e := by
  unfold Gtl.getS
  unfold Gtl.getSgtl at hS ⊢
  simp only [Option.getD_some] at hS ⊢
  cases hs : Circuit.getS ops g.st f (some (z.getD g.st.zbase)) (fo.own fo.none) with
  | mk s' r =>
    rw [hs] at hS
    simp only at hS
    subst hS
    rfl

/-- one call of `getS`, `getSgtl` or `Solution` -/
inductive Gtl.Uses (ops : ObjOps K O F Fl) (dops : FileOps K D F) (fo : FlagOps Fl) : Gtl K O F Fl D → Gtl K O F Fl D → Prop
  | refl (a : Gtl K O F Fl D) : Gtl.Uses ops dops fo a a
  | getS {a b : Gtl K O F Fl D} (f z fl) : Gtl.Uses ops dops fo a b → Gtl.Uses ops dops fo a (b.getS ops dops fo f z fl).1
  | getSgtl {a b : Gtl K O F Fl D} (f z fl) : Gtl.Uses ops dops fo a b → Gtl.Uses ops dops fo a (b.getSgtl ops fo f z fl).1
  | solution {a b : Gtl K O F Fl D} (f E z fl) : Gtl.Uses ops dops fo a b → Gtl.Uses ops dops fo a (b.solution ops dops fo f E z fl).1

theorem Gtl.getSgtl_same [CharZero K] {tells : D → F → K → Except Err (SMat K)} (hlaw : Lawful ops beh) (h : g.Of ops beh net bh zb) (f : F) (z : Option K) (fl : Fl) :
    Gtl.Of ops beh net bh zb (g.getSgtl ops fo f z fl).1 ∧ Gtl.Same ops tells g (g.getSgtl ops fo f z fl).1 := by
  unfold Gtl.getSgtl
  cases hs : Circuit.getS ops g.st f (some (z.getD g.st.zbase)) (fo.own fl) with
  | mk s' r => exact Gtl.eval hlaw h hs

theorem Gtl.getS_same [CharZero K] {tells : D → F → K → Except Err (SMat K)} (hlaw : Lawful ops beh) (hd : FileLawful dops tells) (h : g.Of ops beh net bh zb)
    (f : F) (z : Option K) (fl : Fl) :
    Gtl.Of ops beh net bh zb (g.getS ops dops fo f z fl).1 ∧ Gtl.Same ops tells g (g.getS ops dops fo f z fl).1 := by
  unfold Gtl.getS
  obtain ⟨h1, h2⟩ := Gtl.getSgtl_same (tells := tells) (fo := fo) hlaw h f (some (z.getD g.st.zbase)) fo.none
  cases hs : g.getSgtl ops fo f (some (z.getD g.st.zbase)) fo.none with
  | mk g1 r1 =>
    rw [hs] at h1 h2
    simp only at h1 h2
    cases r1 with
    | error e => exact ⟨h1, h2⟩
    | ok S =>
      simp only
      split
      · rename_i d hu
        split at hu
        · refine ⟨⟨h1.built, h1.free⟩, h2.trans ⟨fun _ _ _ => rfl, rfl, rfl, ?_⟩⟩
          simp only [hu, Option.map_some, hd.stable]
        · cases hu
      · cases hs2 : Circuit.getS ops g1.st f (some (z.getD g1.st.zbase)) fl with
        | mk s' r =>
          obtain ⟨k1, k2⟩ := Gtl.eval (tells := tells) hlaw h1 hs2
          exact ⟨k1, h2.trans k2⟩

theorem Gtl.solution_same [CharZero K] {tells : D → F → K → Except Err (SMat K)} (hlaw : Lawful ops beh) (hd : FileLawful dops tells) (h : g.Of ops beh net bh zb)
    (f : F) (E : List (Node × K)) (z : Option K) (fl : Fl) :
    Gtl.Of ops beh net bh zb (g.solution ops dops fo f E z fl).1 ∧ Gtl.Same ops tells g (g.solution ops dops fo f E z fl).1 := by
  unfold Gtl.solution
  cases hEa : mapE (dictIndex E) g.st.ports with
  | error e => exact ⟨h, Gtl.Same.refl g⟩
  | ok Ea =>
    simp only
    split
    · have h1 := Gtl.getS_same (tells := tells) (fo := fo) hlaw hd h f (some (z.getD g.st.zbase)) fl
      cases hs : g.getS ops dops fo f (some (z.getD g.st.zbase)) fl with
      | mk g1 r1 =>
        rw [hs] at h1
        cases r1 with
        | error e => exact h1
        | ok S =>
          simp only
          cases applyS S Ea with
          | error e => exact h1
          | ok Eb =>
            simp only
            split
            · exact h1
            · exact h1
    · obtain ⟨h1, h2⟩ := Gtl.getSgtl_same (tells := tells) (fo := fo) hlaw h f (some (z.getD g.st.zbase)) fo.none
      cases hs : g.getSgtl ops fo f (some (z.getD g.st.zbase)) fo.none with
      | mk g1 r1 =>
        rw [hs] at h1 h2
        simp only at h1 h2
        cases r1 with
        | error e => exact ⟨h1, h2⟩
        | ok S =>
          simp only
          cases hs2 : Circuit.solution ops g1.st f E z fl with
          | mk s' r =>
            obtain ⟨nan, names, ph, hb, hph, ho⟩ := h1.built
            rcases solution_state hlaw hb hph hs2 with rfl | ⟨r', hr⟩
            · exact ⟨h1, h2⟩
            · obtain ⟨k1, k2⟩ := Gtl.eval (tells := tells) hlaw h1 hr
              exact ⟨k1, h2.trans k2⟩

theorem Gtl.uses_same [CharZero K] {tells : D → F → K → Except Err (SMat K)} (hlaw : Lawful ops beh) (hd : FileLawful dops tells) (h : g.Of ops beh net bh zb)
    (hu : Gtl.Uses ops dops fo g g') : g'.Of ops beh net bh zb ∧ Gtl.Same ops tells g g' := by
  induction hu with
  | refl => exact ⟨h, Gtl.Same.refl _⟩
  | getS f z fl hu ih =>
    obtain ⟨i1, i2⟩ := ih
    obtain ⟨k1, k2⟩ := Gtl.getS_same (tells := tells) (fo := fo) hlaw hd i1 f z fl
    exact ⟨k1, i2.trans k2⟩
  | getSgtl f z fl hu ih =>
    obtain ⟨i1, i2⟩ := ih
    obtain ⟨k1, k2⟩ := Gtl.getSgtl_same (tells := tells) (fo := fo) hlaw i1 f z fl
    exact ⟨k1, i2.trans k2⟩
  | solution f E z fl hu ih =>
    obtain ⟨i1, i2⟩ := ih
    obtain ⟨k1, k2⟩ := Gtl.solution_same (tells := tells) (fo := fo) hlaw hd i1 f E z fl
    exact ⟨k1, i2.trans k2⟩

/-- **C60**: whatever calls of `getS`, `getSgtl` and `Solution` were made before, with or without the file, `getS` answers as it would have at
first -/
theorem C60_history [CharZero K] {tells : D → F → K → Except Err (SMat K)} (hlaw : Lawful ops beh) (hd : FileLawful dops tells) (h : g.Of ops beh net bh zb)
    (hu : Gtl.Uses ops dops fo g g') (f : F) (z : Option K) (fl : Fl) :
    (g'.getS ops dops fo f z fl).2 = (g.getS ops dops fo f z fl).2 ∧ (g'.getSgtl ops fo f z fl).2 = (g.getSgtl ops fo f z fl).2 ∧
      g'.st.ports = g.st.ports := by
  obtain ⟨h', hsame⟩ := Gtl.uses_same (tells := tells) hlaw hd h hu
  have hg : ∀ fl, (g'.getSgtl ops fo f z fl).2 = (g.getSgtl ops fo f z fl).2 := fun fl => by
    rw [C60_getSgtl, C60_getSgtl, hsame.base]; exact hsame.own _ _ _
  refine ⟨?_, hg fl, hsame.ports⟩
  cases hS : (g.getSgtl ops fo f z fo.none).2 with
  | error e => rw [C60_circuit_needed hS, C60_circuit_needed ((hg _).trans hS)]
  | ok S => rw [C60_getS hlaw hd h hS, C60_getS hlaw hd h' ((hg _).trans hS)]; exact hsame.answer f z fl

theorem Gtl.each_spec [CharZero K] {tells : D → F → K → Except Err (SMat K)} (hlaw : Lawful ops beh) (hd : FileLawful dops tells) (z : K) (fl : Fl) :
    ∀ (fs : List F) {g0 g : Gtl K O F Fl D}, g.Of ops beh net bh zb → Gtl.Same ops tells g0 g →
      (∀ f ∈ fs, ∃ S, g0.answer ops tells fo f (some z) fl = .ok S) →
      ∃ l, (Gtl.each ops dops fo z fl fs g).2 = .ok l ∧ List.Forall₂ (fun f S => g0.answer ops tells fo f (some z) fl = .ok S) fs l := by
  intro fs
  induction fs with
  | nil => intro g0 g _ _ _; exact ⟨[], rfl, .nil⟩
  | cons f fs ih =>
    intro g0 g h hs hall
    obtain ⟨S, hS⟩ := hall f (by simp)
    have hS' := (hs.answer (fo := fo) f (some z) fl).trans hS
    unfold Gtl.each
    unfold Gtl.answer at hS'
    simp only [Option.getD_some] at hS'
    split
    all_goals rename_i hstep
    all_goals split at hstep
    · rename_i d hu
      rw [hu] at hS'
      simp only at hS'
      have hr := hd.res d f z
      rw [hS'] at hr
      injection hstep with _ e2
      rw [hr] at e2; cases e2
    · rename_i hu
      rw [hu] at hS'
      simp only at hS'
      injection hstep with _ e2
      cases hS'.symm.trans e2
    · rename_i d hu
      have hu' := hu
      rw [hu] at hS'
      simp only at hS'
      have hr := hd.res d f z
      rw [hS'] at hr
      injection hstep with e1 e2
      rw [hr] at e2; cases e2
      split at hu'
      · have h1 : Gtl.Of ops beh net bh zb ({ g with file := some (dops.getS d f z).1 } : Gtl K O F Fl D) := ⟨h.built, h.free⟩
        have h2 : Gtl.Same ops tells g ({ g with file := some (dops.getS d f z).1 } : Gtl K O F Fl D) :=
          ⟨fun _ _ _ => rfl, rfl, rfl, by simp only [hu', Option.map_some, hd.stable]⟩
        rw [e1] at h1 h2
        obtain ⟨l, hl, hf⟩ := ih h1 (hs.trans h2) fun f' hf' => hall f' (by simp [hf'])
        split
        · rename_i he; rw [he] at hl; cases hl
        · rename_i he; rw [he] at hl; cases hl; exact ⟨_, rfl, .cons hS hf⟩
      · cases hu'
    · rename_i hu
      rw [hu] at hS'
      simp only at hS'
      injection hstep with e1 e2
      cases hS'.symm.trans e2
      obtain ⟨h1, h2⟩ := Gtl.eval (tells := tells) hlaw h (Prod.ext rfl rfl : Circuit.getS ops g.st f (some z) fl = (_, _))
      rw [e1] at h1 h2
      obtain ⟨l, hl, hf⟩ := ih h1 (hs.trans h2) fun f' hf' => hall f' (by simp [hf'])
      split
      · rename_i he; rw [he] at hl; cases hl
      · rename_i he; rw [he] at hl; cases hl; exact ⟨_, rfl, .cons hS hf⟩

/-- **C60**: a list of frequencies gives the answers for the single frequencies, in that order -/
theorem C60_getSs [CharZero K] {tells : D → F → K → Except Err (SMat K)} (hlaw : Lawful ops beh) (hd : FileLawful dops tells) (h : g.Of ops beh net bh zb)
    {f : F} {fs : List F} {z : Option K} {fl : Fl} (hall : ∀ f' ∈ f :: fs, ∃ S, (g.getS ops dops fo f' z fl).2 = .ok S) :
    ∃ l, (g.getSs ops dops fo (f :: fs) z fl).2 = .ok l ∧ List.Forall₂ (fun f' S => (g.getS ops dops fo f' z fl).2 = .ok S) (f :: fs) l := by
  have hans : ∀ f' ∈ f :: fs, (g.getS ops dops fo f' z fl).2 = g.answer ops tells fo f' z fl := by
    intro f' hf'
    obtain ⟨S, hS⟩ := hall f' hf'
    cases hq : (g.getSgtl ops fo f' z fo.none).2 with
    | error e => rw [C60_circuit_needed hq] at hS; cases hS
    | ok S' => exact C60_getS hlaw hd h hq
  obtain ⟨h1, h2⟩ := Gtl.getSgtl_same (tells := tells) (fo := fo) hlaw h f (some (z.getD g.st.zbase)) fo.none
  have hz : ∀ f', g.answer ops tells fo f' (some (z.getD g.st.zbase)) fl = g.answer ops tells fo f' z fl := fun f' => rfl
  unfold Gtl.getSs
  simp only
  cases hs : g.getSgtl ops fo f (some (z.getD g.st.zbase)) fo.none with
  | mk g1 r1 =>
    rw [hs] at h1 h2
    simp only at h1 h2
    cases r1 with
    | error e =>
      obtain ⟨S, hS⟩ := hall f (by simp)
      have : (g.getSgtl ops fo f z fo.none).2 = .error e := congrArg Prod.snd hs
      rw [C60_circuit_needed this] at hS; cases hS
    | ok S0 =>
      simp only
      rw [h2.base]
      obtain ⟨l, hl, hf⟩ := Gtl.each_spec hlaw hd (z.getD g.st.zbase) fl (f :: fs) h1 h2 fun f' hf' => by
        obtain ⟨S, hS⟩ := hall f' hf'
        exact ⟨S, by rw [hz, ← hans f' hf', hS]⟩
      refine ⟨l, hl, ?_⟩
      refine (List.forall₂_iff_get.2 ⟨hf.length_eq, fun i h1 h2 => ?_⟩)
      rw [hans _ (List.get_mem _ _), ← hz]
      exact hf.get h1 h2

/-- **C60 is violated for an empty list of frequencies**: IndexError (a circuit returns an empty array) -/
theorem C60_getSs_empty (z : Option K) (fl : Fl) : (g.getSs ops dops fo [] z fl).2 = .error .indexError := rfl

/-- **C60**: `Solution` with the file: at every port the forward wave is the excitation of that port, the reverse wave is what the matrix of the
file makes of the excitations, and the voltage and current are made of the two waves on the reference asked for. -/
theorem C60_solution [CharZero K] {tells : D → F → K → Except Err (SMat K)} (hlaw : Lawful ops beh) (hd : FileLawful dops tells) (h : g.Of ops beh net bh zb)
    {d : D} (hfile : g.file = some d) {f : F} {E : List (Node × K)} {z : Option K} {fl : Fl} (hfl : fo.useFile fl = true) {t : List (Node × Quad K)}
    (hs : (g.solution ops dops fo f E z fl).2 = .ok t) :
    ∃ S, tells d f (z.getD zb) = .ok S ∧ S.n = g.st.ports.length ∧ (∀ n, n ∉ g.st.ports → dictGet n t = none) ∧
      ∀ i (hi : i < g.st.ports.length), ∃ q, dictGet g.st.ports[i] t = some q ∧ dictGet g.st.ports[i] E = some q.Vf ∧
        (∃ e : ℕ → K, (∀ j (hj : j < g.st.ports.length), dictGet g.st.ports[j] E = some (e j)) ∧
          q.Vr = ∑ j ∈ Finset.range g.st.ports.length, S.at i j * e j) ∧
        q.V = q.Vf + q.Vr ∧ z.getD zb * q.I = q.Vf - q.Vr := by
  have hz0 : g.st.zbase = zb := by
    obtain ⟨nan, names, ph, hb, -⟩ := h.built
    exact (hb.inv hlaw).zb
  have hnd : g.st.ports.Nodup := by
    obtain ⟨nan, names, ph, hb, -⟩ := h.built
    have hr := (hb.inv hlaw).rep
    exact hr.rep.pnd
  have hsm := Gtl.getS_same (tells := tells) (fo := fo) hlaw hd h f (some (z.getD g.st.zbase)) fl
  unfold Gtl.solution at hs
  cases hEa : mapE (dictIndex E) g.st.ports with
  | error e => rw [hEa] at hs; cases hs
  | ok Ea =>
    simp only [hEa, hfl, if_true, hfile] at hs
    have hans : ∀ S, (g.getS ops dops fo f (some (z.getD g.st.zbase)) fl).2 = .ok S → tells d f (z.getD zb) = .ok S := by
      intro S hS
      cases hq : (g.getSgtl ops fo f (some (z.getD g.st.zbase)) fo.none).2 with
      | error e => rw [C60_circuit_needed hq] at hS; cases hS
      | ok S' =>
        rw [C60_getS hlaw hd h hq] at hS
        unfold Gtl.answer at hS
        simp only [hfl, if_true, hfile, Option.getD_some, hz0] at hS
        exact hS
    cases hg : g.getS ops dops fo f (some (z.getD g.st.zbase)) fl with
    | mk g1 r1 =>
      rw [hg] at hs hsm hans
      simp only at hsm hans
      cases r1 with
      | error e => cases hs
      | ok S =>
        simp only at hs
        cases hap : applyS S Ea with
        | error e => rw [hap] at hs; cases hs
        | ok Eb =>
          simp only [hap] at hs
          split at hs
          · cases hs
          · rename_i hz
            rw [hsm.2.base, hz0] at hz
            simp only [Except.ok.injEq] at hs
            rw [hsm.2.base, hz0, hsm.2.ports] at hs
            have hFa := mapE_eq_ok.1 hEa
            have hla := hFa.length_eq
            unfold applyS at hap
            split at hap
            · rename_i hn
              injection hap with hap
              have hget : ∀ j (hj : j < g.st.ports.length), dictGet g.st.ports[j] E = some (Ea.getD j 0) := by
                intro j hj
                have := hFa.get hj (by omega)
                rw [dictIndex_eq_ok] at this
                simp only [List.get_eq_getElem] at this
                rw [this]
                simp [List.getD, List.getElem?_eq_getElem (show j < Ea.length by omega)]
              have hlb : Eb.length = g.st.ports.length := by rw [← hap]; simp; omega
              set l := (g.st.ports.zip (Ea.zip Eb)).map fun x => (x.1, (⟨x.2.1 + x.2.2, (x.2.1 - x.2.2) / z.getD zb, x.2.1, x.2.2⟩ : Quad K)) with hl
              have hkeys : l.map Prod.fst = g.st.ports := by
                rw [hl, List.map_map]
                have : (Prod.fst ∘ fun x : Node × K × K => (x.1, (⟨x.2.1 + x.2.2, (x.2.1 - x.2.2) / z.getD zb, x.2.1, x.2.2⟩ : Quad K))) = Prod.fst := rfl
                rw [this, List.map_fst_zip]
                simp; omega
              have ht : t = l := by
                rw [← hs]
                have := foldl_dictSet (l := l) (d := []) (by rw [List.nil_append, hkeys]; exact hnd)
                rw [List.nil_append] at this
                rw [← this, hl, List.foldl_map]
              refine ⟨S, hans S rfl, by omega, fun n hn => ?_, fun i hi => ?_⟩
              · rw [ht]
                exact dictGet_none.2 (by rw [hkeys]; exact hn)
              · have hi1 : i < Ea.length := by omega
                have hi2 : i < Eb.length := by omega
                refine ⟨⟨Ea[i] + Eb[i], (Ea[i] - Eb[i]) / z.getD zb, Ea[i], Eb[i]⟩, ?_, ?_, ⟨fun j => Ea.getD j 0, hget, ?_⟩, rfl, ?_⟩
                · rw [ht]
                  refine dictGet_of_mem (by rw [hkeys]; exact hnd) ?_
                  rw [hl, List.mem_map]
                  refine ⟨(g.st.ports[i], Ea[i], Eb[i]), ?_, rfl⟩
                  refine zip_mem (List.getElem?_eq_getElem hi) ?_
                  rw [List.getElem?_eq_getElem (by simp; omega)]
                  simp
                · rw [hget i hi]
                  simp [List.getD, List.getElem?_eq_getElem hi1]
                · have : Eb[i] = ∑ j : Fin S.n, S.at i j * Ea.getD j 0 := by
                    subst hap
                    simp
                  rw [this, hla, ← hn, Finset.sum_range]
                · rw [mul_div_cancel₀ _ hz]
            · cases hap

/-- **C60**: `Solution` without the file (there is none, or `flags = {'sNp': False}`) is the solution of the circuit at all its nodes -/
theorem C60_solution_circuit [CharZero K] (hlaw : Lawful ops beh) (h : g.Of ops beh net bh zb) (hzb : zb ≠ 0)
    {f : F} {E : List (Node × K)} {z : Option K} {fl : Fl} (hfl : g.file = Option.none ∨ fo.useFile fl = false) {t : List (Node × Quad K)}
    (hs : (g.solution ops dops fo f E z fl).2 = .ok t) :
    ∃ Sof, Given net bh f zb fl Sof ∧ ∃ w, net.Laws zb Sof w ∧
      (∀ p ∈ net.free, dictGet p E = some ((stateOf zb w).fwd (z.getD zb) p)) ∧
      ∀ n, dictGet n t = if n ∈ net.nodes then some ((stateOf zb w).quad (z.getD zb) n) else none := by
  have hno : (if fo.useFile fl then g.file else Option.none) = Option.none := by
    rcases hfl with e | e
    · simp [e]
    · simp [e]
  have h1 := (Gtl.getSgtl_same (tells := fun _ _ _ => .error .valueError) (fo := fo) hlaw h f (some (z.getD g.st.zbase)) fo.none).1
  unfold Gtl.solution at hs
  cases hEa : mapE (dictIndex E) g.st.ports with
  | error e => rw [hEa] at hs; cases hs
  | ok Ea =>
    simp only [hEa, hno] at hs
    cases hg : g.getSgtl ops fo f (some (z.getD g.st.zbase)) fo.none with
    | mk g1 r1 =>
      rw [hg] at hs h1
      cases r1 with
      | error e => cases hs
      | ok S =>
        simp only at hs h1
        obtain ⟨nan, names, ph, hb, hph, ho⟩ := h1.built
        cases hq : Circuit.solution ops g1.st f E z fl with
        | mk s' r =>
          rw [hq] at hs
          simp only at hs
          subst hs
          exact C30_solution hlaw hb hph hzb (by tauto) hq

/-- **C60**: `getS(f, flags=dict(flags, sNp=False))` and `getSgtl(f, flags=flags)` are the same, the circuit's matrix; so the file can be
switched off call by call. -/
theorem C60_switch [CharZero K] {tells : D → F → K → Except Err (SMat K)} (hfo : fo.Lawful) (hlaw : Lawful ops beh) (hd : FileLawful dops tells)
    (h : g.Of ops beh net bh zb) {f : F} {z : Option K} {fl : Fl} {S : SMat K} (hS : (g.getSgtl ops fo f z fo.none).2 = .ok S) :
    (g.getS ops dops fo f z (fo.own fl)).2 = (g.getSgtl ops fo f z fl).2 ∧
      (∀ d, g.file = some d → (g.getS ops dops fo f z fo.none).2 = tells d f (z.getD zb)) := by
  have hz0 : g.st.zbase = zb := by
    obtain ⟨nan, names, ph, hb, -⟩ := h.built
    exact (hb.inv hlaw).zb
  constructor
  · rw [C60_getS hlaw hd h hS, C60_getSgtl]
    unfold Gtl.answer
    simp only [hfo.own]
    rfl
  · intro d hfile
    rw [C60_getS hlaw hd h hS]
    unfold Gtl.answer
    simp only [hfo.none, if_true, hfile, hz0]

/-! ## a concrete rfGTL with a file -/

namespace ExFile
open Ex

abbrev ob := immOps ℚ Unit Bool

/-- a 2-port with the matrix given at every frequency, or with none -/
def two' (r : Except Err (Matrix (Fin 2) (Fin 2) ℚ)) : Imm ℚ Unit Bool where
  len := 2
  ports := some ["1", "2"]
  xpos := some [0, 1]
  beh _ _ _ := r.map fun m => ⟨2, m⟩
  sized _ _ _ S h := by
    cases r with
    | error e => cases h
    | ok m => injection h with h; rw [← h]
  placed xs h := by injection h with h; rw [← h]; decide

/-- the circuit of one block -/
def st' (r : Except Err (Matrix (Fin 2) (Fin 2) ℚ)) : St ℚ (Imm ℚ Unit Bool) Unit Bool :=
  (addblock ob 0 (St.init 50 []) "A" (two' r) .none 0).1

def bh' (r : Except Err (Matrix (Fin 2) (Fin 2) ℚ)) : Behave ℚ Unit Bool :=
  Function.update (fun _ _ _ _ => .error .valueError) "A" (two' r).beh

theorem built' (r : Except Err (Matrix (Fin 2) (Fin 2) ℚ)) : Built ob Imm.beh 0 50 [] neti (bh' r) (st' r) .building := by
  have h0 : Built ob Imm.beh 0 50 [] Net.empty (fun _ _ _ _ => .error .valueError) (St.init 50 [] : St ℚ (Imm ℚ Unit Bool) Unit Bool) .building :=
    Built.init _
  exact Built.addblock h0 (by decide) (ports := ["1", "2"]) rfl (by decide) (Prod.ext rfl rfl)

/-- flags: `True` unless `sNp = False` -/
def fo' : FlagOps Bool := ⟨id, fun _ => false, true⟩
theorem fo'_lawful : fo'.Lawful := ⟨fun _ => rfl, rfl⟩

/-- a file with the same matrix at all frequencies -/
def dops' : FileOps ℚ (Matrix (Fin 2) (Fin 2) ℚ) Unit := ⟨fun d _ _ => (d, .ok ⟨2, d⟩)⟩
theorem dops'_lawful : FileLawful dops' fun d _ _ => .ok ⟨2, d⟩ := ⟨fun _ _ _ => rfl, fun _ _ _ => rfl⟩

/-- the circuit says mB, the file says mA -/
def g0 : Gtl ℚ (Imm ℚ Unit Bool) Unit Bool (Matrix (Fin 2) (Fin 2) ℚ) := ⟨st' (.ok mB), some mA⟩

theorem g0_of (r : Except Err (Matrix (Fin 2) (Fin 2) ℚ)) :
    Gtl.Of ob Imm.beh neti (bh' r) 50 (⟨st' r, some mA⟩ : Gtl ℚ (Imm ℚ Unit Bool) Unit Bool (Matrix (Fin 2) (Fin 2) ℚ)) :=
  ⟨⟨0, [], .building, built' r, by decide, Or.inl rfl⟩, by decide⟩

theorem given' (fl : Bool) : Given neti (bh' (.ok mB)) () 50 fl fun _ => ⟨2, mB⟩ := by
  intro x hx
  simp only [neti, List.mem_cons, List.not_mem_nil, or_false] at hx
  subst hx; rfl

/-- the circuit can be evaluated -/
theorem g0_answers (fl : Bool) : ∃ s' S, getS ob g0.st () (some 50) fl = (s', .ok S) := by
  have hl := imm_lawful ℚ Unit Bool
  have hb := built' (.ok mB)
  obtain ⟨s', S, hs⟩ := (C20_getS_complete hl hb (by decide) (given' fl) (by decide) (Or.inl rfl)).2 solvablei
  have hz : s'.zbase = 50 := ((Built.eval hb hs).inv hl).zb
  refine ⟨s', S, ?_⟩
  show getS ob (st' (.ok mB)) () (some 50) fl = (s', .ok S)
  unfold getS at hs ⊢
  cases hg : get1S ob (st' (.ok mB)) () fl with
  | mk s1 r1 =>
    rw [hg] at hs
    cases r1 with
    | error e => simp at hs
    | ok M =>
      simp only [Prod.mk.injEq, Except.ok.injEq] at hs
      obtain ⟨rfl, rfl⟩ := hs
      simp only
      rw [if_neg]
      rw [hz]; simp

theorem g0_sgtl (fl : Bool) : ∃ S, (g0.getSgtl ob fo' () none fl).2 = .ok S := by
  obtain ⟨s', S, h⟩ := g0_answers (fo'.own fl)
  exact ⟨S, congrArg Prod.snd h⟩

/-- with the file: the file's matrix.  Without: not the file's. -/
theorem C60_witness : (g0.getS ob dops' fo' () none true).2 = .ok ⟨2, mA⟩ ∧ (∃ S, (g0.getS ob dops' fo' () none false).2 = .ok S) ∧
    ∃ l, (g0.getSs ob dops' fo' [(), ()] none true).2 = .ok l ∧ l.length = 2 := by
  have hl := imm_lawful ℚ Unit Bool
  obtain ⟨S, hS⟩ := g0_sgtl true
  have h1 := C60_getS (fl := true) hl dops'_lawful (g0_of (.ok mB)) hS
  have h2 := (C60_switch (fl := true) fo'_lawful hl dops'_lawful (g0_of (.ok mB)) hS).1
  obtain ⟨l, hl1, hl2⟩ := C60_getSs (f := ()) (fs := [()]) (z := none) (fl := true) hl dops'_lawful (g0_of (.ok mB)) (fun f' _ => ⟨_, h1⟩)
  exact ⟨h1, ⟨S, h2.trans hS⟩, l, hl1, hl2.length_eq.symm⟩

/-- `Solution` with the file answers: 1 V into the first port; the second port sees 1/2 -/
theorem C60_solution_witness : ∃ t q, (g0.solution ob dops' fo' () [(.blk "A" "1", 1), (.blk "A" "2", 0)] none true).2 = .ok t ∧
    dictGet (.blk "A" "2") t = some q ∧ q.Vr = 1/2 := by
  have hl := imm_lawful ℚ Unit Bool
  have h1 : (g0.getS ob dops' fo' () (some 50) true).2 = .ok ⟨2, mA⟩ := by
    obtain ⟨S, hS⟩ := g0_sgtl true
    exact C60_getS (z := some 50) (fl := true) hl dops'_lawful (g0_of (.ok mB)) hS
  have hsm := (Gtl.getS_same (fo := fo') hl dops'_lawful (g0_of (.ok mB)) () (some 50) true).2
  have hs : ∃ t, (g0.solution ob dops' fo' () [(.blk "A" "1", 1), (.blk "A" "2", 0)] none true).2 = .ok t := by
    unfold Gtl.solution
    have e1 : mapE (dictIndex [(Node.blk "A" "1", (1 : ℚ)), (.blk "A" "2", 0)]) g0.st.ports = .ok [1, 0] := rfl
    rw [e1]
    cases hg : g0.getS ob dops' fo' () (some 50) true with
    | mk g1 r1 =>
      have hsm' : g1.st.zbase = 50 := by
        have : (g0.getS ob dops' fo' () (some 50) true).1.st.zbase = 50 := hsm.base
        rw [hg] at this; exact this
      rw [hg] at h1
      simp only at h1
      subst h1
      have e2 : g0.getS ob dops' fo' () (some ((none : Option ℚ).getD g0.st.zbase)) true = (g1, .ok ⟨2, mA⟩) := hg
      simp only [e2]
      have e3 : (if fo'.useFile true = true then g0.file else Option.none) = some mA := rfl
      rw [e3]
      have e4 : ∃ Eb, applyS (⟨2, mA⟩ : SMat ℚ) [1, 0] = .ok Eb := ⟨_, rfl⟩
      obtain ⟨Eb, e4⟩ := e4
      simp only [e4]
      rw [if_neg (by rw [Option.getD_none, hsm']; norm_num)]
      exact ⟨_, rfl⟩
  obtain ⟨t, ht⟩ := hs
  obtain ⟨S, c1, c2, -, c3⟩ := C60_solution hl dops'_lawful (g0_of (.ok mB)) rfl rfl ht
  obtain ⟨q, q1, q2, ⟨e, e1, e2⟩, -⟩ := c3 1 (by decide)
  refine ⟨t, q, ht, q1, ?_⟩
  injection c1 with c1
  rw [e2]
  have k0 : e 0 = 1 := by have := e1 0 (by decide); injection this with this; exact this.symm
  have k1 : e 1 = 0 := by have := e1 1 (by decide); injection this with this; exact this.symm
  have hlen : (⟨st' (.ok mB), some mA⟩ : Gtl ℚ (Imm ℚ Unit Bool) Unit Bool (Matrix (Fin 2) (Fin 2) ℚ)).st.ports.length = 2 := rfl
  rw [hlen, Finset.sum_range_succ, Finset.sum_range_one, k0, k1, ← c1]
  simp [SMat.at, mA]

/-- the block cannot be evaluated: `getS` raises, though the file has the answer -/
theorem C60_circuit_needed_witness :
    ((⟨st' (.error .valueError), some mA⟩ : Gtl ℚ (Imm ℚ Unit Bool) Unit Bool (Matrix (Fin 2) (Fin 2) ℚ)).getS ob dops' fo' () none true).2 =
      .error .valueError := by
  apply C60_circuit_needed
  rfl

end ExFile

end
end PyRFtk.Circuit
