import Verif.CircuitCopy
import Verif.GTLFile
import Verif.GTLProps
import Verif.GTLEx

/-!
# C79: copies of an rfGTL

`rfGTL.copy`, `__copy__`, `__deepcopy__` (rfGTL.py:336-370) first make a new rfGTL from the arguments of the original, which reads the model file (and
the touchstone it names) again and evaluates the new circuit, and then replace every attribute of it by a deep copy of the original's.
-/

set_option linter.unusedSectionVars false

namespace PyRFtk.Circuit

section
variable {K O F Fl D : Type*} [Field K] [DecidableEq F] [DecidableEq Fl]

/-! ## model -/

/-- what a model file says for the arguments of the object (GTLVars, GTLElem): ports, positions, elements and touchstone -/
structure GModel (K O D : Type*) where
  portnames : List String
  relpos : List (String × ℚ)
  elems : List (GBlk K O)
  file : Option D

/-- `rfGTL(path2model, objkey, variables, …)` (rfGTL.py:28-328); `m` is what is found at `path2model`: nothing (60: `open` raises), something that cannot
be used (an exception of 61-101, 113-185), or a model -/
noncomputable def gtlMake (ops : ObjOps K O F Fl) (nan zb : K) (f0 : F) (fl0 : Fl) (m : Option (Except Err (GModel K O D))) : Except Err (Gtl K O F Fl D) :=
  match m with
  | none => .error .ioError
  | some (.error e) => .error e
  | some (.ok m) => match gtlInit ops nan zb f0 fl0 m.portnames m.relpos m.elems with
    | (_, .error e) => .error e
    | (s, .ok _) => .ok ⟨s, m.file⟩

/-- `copy()`, `copy.copy`, `copy.deepcopy` (rfGTL.py:336-370) when `now` is found at `path2model`; `cp`, `cpd` copy a block object and the file object -/
noncomputable def gtlCopy (ops : ObjOps K O F Fl) (nan zb : K) (f0 : F) (fl0 : Fl) (cp : O → O) (cpd : D → D) (now : Option (Except Err (GModel K O D)))
    (g : Gtl K O F Fl D) : Except Err (Gtl K O F Fl D) :=
  match gtlMake ops nan zb f0 fl0 now with                                                                -- 360
  | .error e => .error e
  | .ok _ => .ok ⟨copy cp g.st, g.file.map cpd⟩                                                           -- 361-364

/-- `copy.deepcopy(circuit)` (rfBase.py:184-206) when copying a block can fail -/
def copyE (cp : O → Except Err O) (s : St K O F Fl) : Except Err (St K O F Fl) :=
  match mapE (fun b => (cp b.obj).map fun o => { b with obj := o }) s.blocks with
  | .error e => .error e
  | .ok bs => .ok { s with blocks := bs, portnames := s.names, aliased := false }

/-- a call on an rfGTL -/
inductive GCall (K O F Fl : Type*)
  | addblock (name : String) (obj : O) (spec : PortSpec) (relpos : ℚ)
  | terminate (p : Node) (args : TermArgs K)
  | getS (f : F) (z : Option K) (fl : Fl)
  | getSs (fs : List F) (z : Option K) (fl : Fl)
  | getSgtl (f : F) (z : Option K) (fl : Fl)
  | solution (f : F) (E : List (Node × K)) (z : Option K) (fl : Fl)

/-- what the caller sees -/
inductive GReply (K : Type*)
  | unit (r : Except Err Unit)
  | mat (r : Except Err (SMat K))
  | mats (r : Except Err (List (SMat K)))
  | table (r : Except Err (List (Node × Quad K)))

/-- one call -/
noncomputable def gstep (ops : ObjOps K O F Fl) (dops : FileOps K D F) (fo : FlagOps Fl) (nan : K) (g : Gtl K O F Fl D) :
    GCall K O F Fl → Gtl K O F Fl D × GReply K
  | .addblock name obj spec relpos => let r := addblock ops nan g.st name obj spec relpos; ({ g with st := r.1 }, .unit r.2)
  | .terminate p args => let r := terminate g.st p args; ({ g with st := r.1 }, .unit r.2)
  | .getS f z fl => let r := g.getS ops dops fo f z fl; (r.1, .mat r.2)
  | .getSs fs z fl => let r := g.getSs ops dops fo fs z fl; (r.1, .mats r.2)
  | .getSgtl f z fl => let r := g.getSgtl ops fo f z fl; (r.1, .mat r.2)
  | .solution f E z fl => let r := g.solution ops dops fo f E z fl; (r.1, .table r.2)

/-- the replies to a list of calls -/
noncomputable def greplies (ops : ObjOps K O F Fl) (dops : FileOps K D F) (fo : FlagOps Fl) (nan : K) : Gtl K O F Fl D → List (GCall K O F Fl) → List (GReply K)
  | _, [] => []
  | g, c :: cs => (gstep ops dops fo nan g c).2 :: greplies ops dops fo nan (gstep ops dops fo nan g c).1 cs

/-- the object after a list of calls -/
noncomputable def grun (ops : ObjOps K O F Fl) (dops : FileOps K D F) (fo : FlagOps Fl) (nan : K) : Gtl K O F Fl D → List (GCall K O F Fl) → Gtl K O F Fl D
  | g, [] => g
  | g, c :: cs => grun ops dops fo nan (gstep ops dops fo nan g c).1 cs

/-! ## specification -/

/-- the call asks, replaces an element or changes a load that is there already -/
def GKeeping (g : Gtl K O F Fl D) : GCall K O F Fl → Prop
  | .addblock name _ _ _ => name ∈ g.st.blocks.map Blk.name
  | .terminate p _ => p ∈ g.st.T.map Prod.fst
  | _ => True

/-- every call of the list is one of these -/
def GKeepingAll (ops : ObjOps K O F Fl) (dops : FileOps K D F) (fo : FlagOps Fl) (nan : K) : Gtl K O F Fl D → List (GCall K O F Fl) → Prop
  | _, [] => True
  | g, c :: cs => GKeeping g c ∧ GKeepingAll ops dops fo nan (gstep ops dops fo nan g c).1 cs

/-- `RD` relates file objects that cannot be told apart by asking them -/
structure FileBisim (dops : FileOps K D F) (RD : D → D → Prop) : Prop where
  refl : ∀ d, RD d d
  res : ∀ d d' f z, RD d d' → (dops.getS d' f z).2 = (dops.getS d f z).2
  nxt : ∀ d d' f z, RD d d' → RD (dops.getS d f z).1 (dops.getS d' f z).1

/-! ## proofs -/

variable {ops : ObjOps K O F Fl} {dops : FileOps K D F} {fo : FlagOps Fl} {nan zb : K} {R : O → O → Prop} {RD : D → D → Prop}

/-- circuits and files that cannot be told apart -/
structure GTwin (R : O → O → Prop) (RD : D → D → Prop) (g g' : Gtl K O F Fl D) : Prop where
  st : Twin R true g.st g'.st
  file : Option.Rel RD g.file g'.file

theorem getSgtl_twin (hb : Bisim ops R) {g g' : Gtl K O F Fl D} (h : GTwin R RD g g') (f : F) (z : Option K) (fl : Fl) :
    GTwin R RD (g.getSgtl ops fo f z fl).1 (g'.getSgtl ops fo f z fl).1 ∧ (g'.getSgtl ops fo f z fl).2 = (g.getSgtl ops fo f z fl).2 := by
  obtain ⟨h1, h2⟩ := getS_twin hb h.st f (some (z.getD g.st.zbase)) (fo.own fl)
  unfold Gtl.getSgtl
  rw [h.st.zbase]
  exact ⟨⟨h1, h.file⟩, h2⟩

/-- one answer by the file or by the circuit -/
noncomputable def oneS (ops : ObjOps K O F Fl) (dops : FileOps K D F) (fo : FlagOps Fl) (z : K) (fl : Fl) (f : F) (g : Gtl K O F Fl D) :
    Gtl K O F Fl D × Except Err (SMat K) :=
  match (if fo.useFile fl then g.file else Option.none) with
  | some d => match dops.getS d f z with | (d, r) => (({ g with file := some d } : Gtl K O F Fl D), r)
  | Option.none => match Circuit.getS ops g.st f (some z) fl with | (s, r) => ({ g with st := s }, r)

theorem oneS_twin (hb : Bisim ops R) (hd : FileBisim dops RD) {g g' : Gtl K O F Fl D} (h : GTwin R RD g g') (z : K) (fl : Fl) (f : F) :
    GTwin R RD (oneS ops dops fo z fl f g).1 (oneS ops dops fo z fl f g').1 ∧ (oneS ops dops fo z fl f g').2 = (oneS ops dops fo z fl f g).2 := by
  obtain ⟨h1, h2⟩ := getS_twin hb h.st f (some z) fl
  unfold oneS
  have hf := h.file
  cases fo.useFile fl with
  | false => simp only [Bool.false_eq_true, if_false]; exact ⟨⟨h1, hf⟩, h2⟩
  | true =>
    simp only [if_true]
    cases hg : g.file with
    | none =>
      rw [hg] at hf
      cases hg' : g'.file with
      | none => simp only; exact ⟨⟨h1, by simp⟩, h2⟩
      | some d => rw [hg'] at hf; cases hf
    | some d =>
      rw [hg] at hf
      cases hg' : g'.file with
      | none => rw [hg'] at hf; cases hf
      | some d' =>
        rw [hg'] at hf
        cases hf with
        | some hr => exact ⟨⟨h.st, .some (hd.nxt _ _ f z hr)⟩, hd.res _ _ f z hr⟩

theorem gS_eq (g : Gtl K O F Fl D) (f : F) (z : Option K) (fl : Fl) : g.getS ops dops fo f z fl =
    match g.getSgtl ops fo f (some (z.getD g.st.zbase)) fo.none with
    | (g, .error e) => (g, .error e)
    | (g, .ok _) => oneS ops dops fo (z.getD g.st.zbase) fl f g := rfl

theorem gS_twin (hb : Bisim ops R) (hd : FileBisim dops RD) {g g' : Gtl K O F Fl D} (h : GTwin R RD g g') (f : F) (z : Option K) (fl : Fl) :
    GTwin R RD (g.getS ops dops fo f z fl).1 (g'.getS ops dops fo f z fl).1 ∧ (g'.getS ops dops fo f z fl).2 = (g.getS ops dops fo f z fl).2 := by
  obtain ⟨h1, h2⟩ := getSgtl_twin (fo := fo) hb h f (some (z.getD g.st.zbase)) fo.none
  rw [gS_eq, gS_eq, h.st.zbase]
  cases hx : g.getSgtl ops fo f (some (z.getD g.st.zbase)) fo.none with
  | mk a r =>
    cases hy : g'.getSgtl ops fo f (some (z.getD g.st.zbase)) fo.none with
    | mk a' r' =>
      rw [hx, hy] at h1 h2
      simp only at h1 h2
      subst h2
      cases r' with
      | error e => exact ⟨h1, rfl⟩
      | ok S =>
        simp only [h1.st.zbase]
        exact oneS_twin hb hd h1 _ fl f

theorem each_twin (hb : Bisim ops R) (hd : FileBisim dops RD) (z : K) (fl : Fl) : ∀ (fs : List F) {g g' : Gtl K O F Fl D}, GTwin R RD g g' →
    GTwin R RD (Gtl.each ops dops fo z fl fs g).1 (Gtl.each ops dops fo z fl fs g').1 ∧
    (Gtl.each ops dops fo z fl fs g').2 = (Gtl.each ops dops fo z fl fs g).2
  | [], _, _, h => ⟨h, rfl⟩
  | f :: fs, g, g', h => by
    have e : ∀ g : Gtl K O F Fl D, Gtl.each ops dops fo z fl (f :: fs) g = match oneS ops dops fo z fl f g with
      | (g, .error e) => (g, .error e)
      | (g, .ok S) => match Gtl.each ops dops fo z fl fs g with
        | (g, .error e) => (g, .error e)
        | (g, .ok l) => (g, .ok (S :: l)) := fun g => rfl
    rw [e, e]
    obtain ⟨h1, h2⟩ := oneS_twin (fo := fo) hb hd h z fl f
    cases hx : oneS ops dops fo z fl f g with
    | mk a r =>
      cases hy : oneS ops dops fo z fl f g' with
      | mk a' r' =>
        rw [hx, hy] at h1 h2
        simp only at h1 h2
        subst h2
        cases r' with
        | error e => exact ⟨h1, rfl⟩
        | ok S =>
          simp only
          obtain ⟨k1, k2⟩ := each_twin hb hd z fl fs h1
          cases hx : Gtl.each ops dops fo z fl fs a with
          | mk b q =>
            cases hy : Gtl.each ops dops fo z fl fs a' with
            | mk b' q' =>
              rw [hx, hy] at k1 k2
              simp only at k1 k2
              subst k2
              cases q' with
              | error e => exact ⟨k1, rfl⟩
              | ok l => exact ⟨k1, rfl⟩

theorem gSs_twin (hb : Bisim ops R) (hd : FileBisim dops RD) {g g' : Gtl K O F Fl D} (h : GTwin R RD g g') (fs : List F) (z : Option K) (fl : Fl) :
    GTwin R RD (g.getSs ops dops fo fs z fl).1 (g'.getSs ops dops fo fs z fl).1 ∧ (g'.getSs ops dops fo fs z fl).2 = (g.getSs ops dops fo fs z fl).2 := by
  cases fs with
  | nil => exact ⟨h, rfl⟩
  | cons f fs =>
    unfold Gtl.getSs
    simp only
    obtain ⟨h1, h2⟩ := getSgtl_twin (fo := fo) hb h f (some (z.getD g.st.zbase)) fo.none
    rw [h.st.zbase]
    cases hx : g.getSgtl ops fo f (some (z.getD g.st.zbase)) fo.none with
    | mk a r =>
      cases hy : g'.getSgtl ops fo f (some (z.getD g.st.zbase)) fo.none with
      | mk a' r' =>
        rw [hx, hy] at h1 h2
        simp only at h1 h2
        subst h2
        cases r' with
        | error e => exact ⟨h1, rfl⟩
        | ok S =>
          simp only [h1.st.zbase]
          exact each_twin hb hd _ fl (f :: fs) h1

theorem gsolution_twin (hb : Bisim ops R) (hd : FileBisim dops RD) {g g' : Gtl K O F Fl D} (h : GTwin R RD g g') (f : F) (E : List (Node × K))
    (z : Option K) (fl : Fl) : GTwin R RD (g.solution ops dops fo f E z fl).1 (g'.solution ops dops fo f E z fl).1 ∧
    (g'.solution ops dops fo f E z fl).2 = (g.solution ops dops fo f E z fl).2 := by
  unfold Gtl.solution
  rw [h.st.ports, h.st.zbase]
  cases mapE (dictIndex E) g.st.ports with
  | error e => exact ⟨h, rfl⟩
  | ok Ea =>
    simp only
    have hsome : (if fo.useFile fl then g'.file else Option.none).isSome = (if fo.useFile fl then g.file else Option.none).isSome := by
      have hf := h.file
      split
      · cases hg : g.file <;> cases hg' : g'.file <;> rw [hg, hg'] at hf <;> first | rfl | cases hf
      · rfl
    cases hq : (if fo.useFile fl then g.file else Option.none) with
    | some d =>
      cases hq' : (if fo.useFile fl then g'.file else Option.none) with
      | none => rw [hq, hq'] at hsome; cases hsome
      | some d' =>
        simp only
        obtain ⟨h1, h2⟩ := gS_twin (fo := fo) hb hd h f (some (z.getD g.st.zbase)) fl
        cases hx : g.getS ops dops fo f (some (z.getD g.st.zbase)) fl with
        | mk a r =>
          cases hy : g'.getS ops dops fo f (some (z.getD g.st.zbase)) fl with
          | mk a' r' =>
            rw [hx, hy] at h1 h2
            simp only at h1 h2
            subst h2
            cases r' with
            | error e => exact ⟨h1, rfl⟩
            | ok S =>
              simp only
              cases applyS S Ea with
              | error e => exact ⟨h1, rfl⟩
              | ok Eb =>
                simp only [h1.st.zbase, h1.st.ports]
                by_cases hz : z.getD a.st.zbase = 0
                · rw [if_pos hz, if_pos (show z.getD a'.st.zbase = 0 by rw [h1.st.zbase]; exact hz)]
                  exact ⟨h1, rfl⟩
                · rw [if_neg hz, if_neg (show ¬ z.getD a'.st.zbase = 0 by rw [h1.st.zbase]; exact hz)]
                  exact ⟨h1, rfl⟩
    | none =>
      cases hq' : (if fo.useFile fl then g'.file else Option.none) with
      | some d => rw [hq, hq'] at hsome; cases hsome
      | none =>
        simp only
        obtain ⟨h1, h2⟩ := getSgtl_twin (fo := fo) hb h f (some (z.getD g.st.zbase)) fo.none
        cases hx : g.getSgtl ops fo f (some (z.getD g.st.zbase)) fo.none with
        | mk a r =>
          cases hy : g'.getSgtl ops fo f (some (z.getD g.st.zbase)) fo.none with
          | mk a' r' =>
            rw [hx, hy] at h1 h2
            simp only at h1 h2
            subst h2
            cases r' with
            | error e => exact ⟨h1, rfl⟩
            | ok S =>
              simp only
              obtain ⟨k1, k2⟩ := solution_twin hb h1.st f E z fl
              exact ⟨⟨k1, h1.file⟩, k2⟩

theorem gstep_twin (hb : Bisim ops R) (hd : FileBisim dops RD) {g g' : Gtl K O F Fl D} (h : GTwin R RD g g') (c : GCall K O F Fl) (hk : GKeeping g c) :
    GTwin R RD (gstep ops dops fo nan g c).1 (gstep ops dops fo nan g' c).1 ∧ (gstep ops dops fo nan g' c).2 = (gstep ops dops fo nan g c).2 := by
  cases c with
  | addblock name obj spec relpos =>
    obtain ⟨h1, h2⟩ := step_twin (nan := nan) hb h.st (.addblock name obj spec relpos) (fun _ => hk)
    simp only [step, Reply.unit.injEq] at h1 h2
    exact ⟨⟨h1, h.file⟩, congrArg GReply.unit h2⟩
  | terminate p args =>
    obtain ⟨h1, h2⟩ := step_twin (nan := nan) hb h.st (.terminate p args) (fun _ => hk)
    simp only [step, Reply.unit.injEq] at h1 h2
    exact ⟨⟨h1, h.file⟩, congrArg GReply.unit h2⟩
  | getS f z fl =>
    obtain ⟨h1, h2⟩ := gS_twin (fo := fo) hb hd h f z fl
    exact ⟨h1, congrArg GReply.mat h2⟩
  | getSs fs z fl =>
    obtain ⟨h1, h2⟩ := gSs_twin (fo := fo) hb hd h fs z fl
    exact ⟨h1, congrArg GReply.mats h2⟩
  | getSgtl f z fl =>
    obtain ⟨h1, h2⟩ := getSgtl_twin (fo := fo) hb h f z fl
    exact ⟨h1, congrArg GReply.mat h2⟩
  | solution f E z fl =>
    obtain ⟨h1, h2⟩ := gsolution_twin (fo := fo) hb hd h f E z fl
    exact ⟨h1, congrArg GReply.table h2⟩

theorem greplies_twin (hb : Bisim ops R) (hd : FileBisim dops RD) : ∀ (cs : List (GCall K O F Fl)) {g g' : Gtl K O F Fl D}, GTwin R RD g g' →
    GKeepingAll ops dops fo nan g cs → greplies ops dops fo nan g' cs = greplies ops dops fo nan g cs
  | [], _, _, _, _ => rfl
  | c :: cs, g, g', h, hk => by
    obtain ⟨h1, h2⟩ := gstep_twin (fo := fo) (nan := nan) hb hd h c hk.1
    simp only [greplies, h2]
    rw [greplies_twin hb hd cs h1 hk.2]

theorem grun_twin (hb : Bisim ops R) (hd : FileBisim dops RD) : ∀ (cs : List (GCall K O F Fl)) {g g' : Gtl K O F Fl D}, GTwin R RD g g' →
    GKeepingAll ops dops fo nan g cs → GTwin R RD (grun ops dops fo nan g cs) (grun ops dops fo nan g' cs)
  | [], _, _, h, _ => h
  | c :: cs, _, _, h, hk => grun_twin hb hd cs (gstep_twin (fo := fo) (nan := nan) hb hd h c hk.1).1 hk.2

theorem twin_square {g g' : Gtl K O F Fl D} (h : GTwin R RD g g') : g.st.rows.length = g.st.cols := by
  have := h.st
  generalize g'.st = t at this
  generalize hfr : true = fr at this
  cases this with
  | plain bs hf _ => rw [← hfr] at hf; cases hf
  | frozen bs pn al _ _ _ hsq => exact hsq

theorem gtwin_self (hb : Bisim ops R) (hd : FileBisim dops RD) {g : Gtl K O F Fl D} (hsq : g.st.rows.length = g.st.cols) : GTwin R RD g g := by
  refine ⟨?_, ?_⟩
  · exact Twin.frozen (s := g.st) g.st.blocks g.st.portnames g.st.aliased rfl (twins_refl hb _) rfl hsq
  · cases g.file with
    | none => exact .none
    | some d => exact .some (hd.refl d)

theorem gtwin_copy {cp : O → O} {cpd : D → D} {g : Gtl K O F Fl D} (hsq : g.st.rows.length = g.st.cols) (hcp : ∀ b ∈ g.st.blocks, R b.obj (cp b.obj))
    (hcd : ∀ d ∈ g.file, RD d (cpd d)) : GTwin R RD g ⟨copy cp g.st, g.file.map cpd⟩ := by
  refine ⟨.frozen _ g.st.names false rfl (twins_copy _ hcp) rfl hsq, ?_⟩
  cases hg : g.file with
  | none => exact .none
  | some d => exact .some (hcd d (by rw [hg]; rfl))

variable {beh : O → F → K → Fl → Except Err (SMat K)} {f0 : F} {fl0 : Fl} {m : GModel K O D} {g : Gtl K O F Fl D}

theorem gtlMake_ok {now : Option (Except Err (GModel K O D))} (h : gtlMake ops nan zb f0 fl0 now = .ok g) : ∃ m, now = some (.ok m) ∧
    gtlInit ops nan zb f0 fl0 m.portnames m.relpos m.elems = (g.st, .ok ()) ∧ g.file = m.file := by
  unfold gtlMake at h
  split at h
  · cases h
  · cases h
  · rename_i m
    split at h
    · cases h
    · rename_i s u hs
      cases h
      exact ⟨m, rfl, hs, rfl⟩

theorem gtlMake_frozen [CharZero K] (hlaw : Lawful ops beh) (hok : GOK m.elems) (h : gtlMake ops nan zb f0 fl0 (some (.ok m)) = .ok g) :
    ∃ net bh s₀ f z fl S, Built ops beh nan zb (m.portnames.map .ext) net bh s₀ .building ∧ getS ops s₀ f z fl = (g.st, .ok S) ∧
      g.st.ports = m.portnames.map .ext := by
  obtain ⟨m', hm, h1, -⟩ := gtlMake_ok h
  cases hm
  obtain ⟨pl, bh, hm⟩ := gtlInit_made hlaw hok h1
  obtain ⟨s₀, f, z, fl, S, hb, hs⟩ := hm.prime
  exact ⟨_, bh, s₀, f, z, fl, S, hb, hs, hm.ports hlaw hm.built⟩

/-! ## C79 -/

/-- **C79 (the copy behaves as the original).** An rfGTL is made from a model file, used (asked, elements replaced, loads changed), and copied while the
file is as it was: the copy is made, and from then on gets the same reply as the original to every call of every such list. -/
theorem C79_copy [CharZero K] (hlaw : Lawful ops beh) (hb : Bisim ops R) (hd : FileBisim dops RD) (hok : GOK m.elems)
    (h : gtlMake ops nan zb f0 fl0 (some (.ok m)) = .ok g) {cs : List (GCall K O F Fl)} (hk : GKeepingAll ops dops fo nan g cs) {u : Gtl K O F Fl D}
    (hu : u = grun ops dops fo nan g cs) {cp : O → O} {cpd : D → D} (hcp : ∀ b ∈ u.st.blocks, R b.obj (cp b.obj)) (hcd : ∀ d ∈ u.file, RD d (cpd d)) :
    ∃ c, gtlCopy ops nan zb f0 fl0 cp cpd (some (.ok m)) u = .ok c ∧
      ∀ cs', GKeepingAll ops dops fo nan u cs' → greplies ops dops fo nan c cs' = greplies ops dops fo nan u cs' := by
  obtain ⟨net, bh, s₀, f, z, fl, S, hbu, hs, -⟩ := gtlMake_frozen hlaw hok h
  have hsq := (hbu.frozen hlaw hs).sq
  have ht := grun_twin (fo := fo) (nan := nan) hb hd cs (gtwin_self (RD := RD) hb hd hsq) hk
  rw [← hu] at ht
  refine ⟨⟨copy cp u.st, u.file.map cpd⟩, ?_, fun cs' hk' => greplies_twin hb hd cs' (gtwin_copy (twin_square ht) hcp hcd) hk'⟩
  unfold gtlCopy
  rw [h]

/-- **C79 (the model file).** Copying reads the file again, whatever the object: it raises exactly when an rfGTL cannot be made from what is at the path
now, with the same exception (IOError when there is nothing); and when one can be made, what the file says has no effect on the copy. -/
theorem C79_file_needed (u : Gtl K O F Fl D) (cp : O → O) (cpd : D → D) :
    gtlCopy ops nan zb f0 fl0 cp cpd none u = .error .ioError ∧
    (∀ now e, gtlCopy ops nan zb f0 fl0 cp cpd now u = .error e ↔ gtlMake ops nan zb f0 fl0 now = .error e) ∧
    ∀ now now' c c', gtlCopy ops nan zb f0 fl0 cp cpd now u = .ok c → gtlCopy ops nan zb f0 fl0 cp cpd now' u = .ok c' → c = c' := by
  refine ⟨rfl, ?_, ?_⟩
  · intro now e
    unfold gtlCopy
    cases gtlMake ops nan zb f0 fl0 now with
    | error e' => exact ⟨fun h => by cases h; rfl, fun h => by cases h; rfl⟩
    | ok g => exact ⟨fun h => (by cases h), fun h => (by cases h)⟩
  · intro now now' c c' h h'
    unfold gtlCopy at h h'
    cases hg : gtlMake ops nan zb f0 fl0 now with
    | error e => rw [hg] at h; cases h
    | ok g =>
      cases hg' : gtlMake ops nan zb f0 fl0 now' with
      | error e => rw [hg'] at h'; cases h'
      | ok g' => rw [hg] at h; rw [hg'] at h'; cases h; cases h'; rfl

/-- **C79 (nested).** A circuit with a block that cannot be copied (an rfGTL whose model file is gone: IOError) cannot be copied; if all can, the copy is
that of C31. -/
theorem C79_nested (cp : O → Except Err O) (s : St K O F Fl) :
    (∀ b ∈ s.blocks, (∃ e, cp b.obj = .error e) → ∃ e, copyE cp s = .error e) ∧
    (∀ e, copyE cp s = .error e → ∃ b ∈ s.blocks, cp b.obj = .error e) ∧
    ∀ cp' : O → O, (∀ b ∈ s.blocks, cp b.obj = .ok (cp' b.obj)) → copyE cp s = .ok (copy cp' s) := by
  refine ⟨?_, ?_, ?_⟩
  · rintro b hb ⟨e, he⟩
    obtain ⟨e', h⟩ := mapE_error_of_mem (g := fun b : Blk O => (cp b.obj).map fun o => { b with obj := o }) hb (e := e) (by rw [he]; rfl)
    exact ⟨e', by unfold copyE; rw [h]⟩
  · intro e he
    unfold copyE at he
    split at he
    · rename_i e' h
      cases he
      obtain ⟨b, hb, hx⟩ := mapE_eq_error h
      refine ⟨b, hb, ?_⟩
      cases hc : cp b.obj with
      | error e'' => rw [hc] at hx; cases hx; rfl
      | ok o => rw [hc] at hx; cases hx
    · cases he
  · intro cp' hc
    have : mapE (fun b => (cp b.obj).map fun o => ({ b with obj := o } : Blk O)) s.blocks = .ok (s.blocks.map fun b => { b with obj := cp' b.obj }) := by
      generalize s.blocks = bs at hc
      induction bs with
      | nil => rfl
      | cons b bs ih =>
        rw [List.map_cons]
        unfold mapE
        rw [hc b (by simp), ih fun b hb => hc b (by simp [hb])]
        rfl
    unfold copyE
    rw [this]
    rfl

/-- **C79 (violation).** For every rfGTL: load one of the declared ports of a copy of it.  The call is accepted, as it is by the original, but from then on
the copy raises at every evaluation, by the circuit or by its file, however often it is repeated. -/
theorem C79_copy_terminate [CharZero K] (hlaw : Lawful ops beh) (hok : GOK m.elems) (h : gtlMake ops nan zb f0 fl0 (some (.ok m)) = .ok g)
    {cp : O → O} {cpd : D → D} {c : Gtl K O F Fl D} (hc : gtlCopy ops nan zb f0 fl0 cp cpd (some (.ok m)) g = .ok c) {p : String} (hp : p ∈ m.portnames)
    {args : TermArgs K} {l : Load K} (hl : args.load = some l) {u : St K O F Fl} (hu : terminate g.st (.ext p) args = (u, .ok ())) :
    ∃ t, terminate c.st (.ext p) args = (t, .ok ()) ∧ ∀ (calls : List (F × Option K × Fl)) (f : F) (z : Option K) (fl : Fl) (d : Option D),
      ∃ t', t' = calls.foldl (fun s c => (getS ops s c.1 c.2.1 c.2.2).1) t ∧
      (∃ e, (Gtl.getSgtl ops fo ⟨t', d⟩ f z fl).2 = .error e) ∧ ∃ e, (Gtl.getS ops dops fo ⟨t', d⟩ f z fl).2 = .error e := by
  obtain ⟨net, bh, s₀, f, z, fl, S, hbu, hs, hpo⟩ := gtlMake_frozen hlaw hok h
  have hcs : c.st = copy cp g.st := by
    unfold gtlCopy at hc
    rw [h] at hc
    cases hc; rfl
  obtain ⟨⟨t, ht, hbad⟩, -⟩ := C31_copy_terminate hlaw hbu cp hs (p := .ext p) (by rw [hpo]; exact List.mem_map_of_mem hp) hl hu
  refine ⟨t, by rw [hcs]; exact ht, fun calls f z fl d => ⟨_, rfl, ?_, ?_⟩⟩
  · obtain ⟨e, he⟩ := hbad calls f (some (z.getD (calls.foldl (fun s c => (getS ops s c.1 c.2.1 c.2.2).1) t).zbase)) (fo.own fl)
    exact ⟨e, he⟩
  · obtain ⟨e, he⟩ := hbad calls f (some (z.getD (calls.foldl (fun s c => (getS ops s c.1 c.2.1 c.2.2).1) t).zbase)) (fo.own fo.none)
    exact ⟨e, C60_circuit_needed (g := ⟨_, d⟩) he⟩

/-- a load of a port that had none takes the port off the list -/
theorem terminate_ports_length {s u : St K O F Fl} {p : Node} {args : TermArgs K} (hT : p ∉ s.T.map Prod.fst) (hu : terminate s p args = (u, .ok ())) :
    s.ports.length = u.ports.length + 1 := by
  have hT : dictGet p s.T = none := dictGet_none.2 hT
  unfold terminate at hu
  dsimp only at hu
  split at hu
  · cases hu
  · simp only [hT] at hu
    have key : ∀ kp, pyIndex s.ports p = .ok kp → s.ports.length = (s.ports.eraseIdx kp).length + 1 := by
      intro kp h
      unfold pyIndex at h
      split at h
      · rename_i hm
        cases h
        have h2 : idx s.ports p < s.ports.length := idx_lt hm
        rw [List.length_eraseIdx_of_lt h2]
        omega
      · cases h
    split at hu
    · split at hu
      · cases hu
      · split at hu
        · cases hu
        · rename_i kp hkp
          split at hu
          · cases hu
          · cases hu
            exact key _ hkp
    · split at hu
      · cases hu
      · rename_i kp hkp
        split at hu
        · cases hu
        · split at hu
          · cases hu
          · cases hu
            exact key _ hkp

/-- **C60 is violated by loads.** Load a port of an rfGTL with a touchstone: the object has one port less, but `getS` goes on returning the matrix of the
file, which has still one row for every port there was, as long as the circuit can be evaluated. -/
theorem C60_load_ignored {g : Gtl K O F Fl D} {d : D} (hfile : g.file = some d) {p : Node} (hp : p ∉ g.st.T.map Prod.fst) {args : TermArgs K}
    {u : St K O F Fl} (hu : terminate g.st p args = (u, .ok ())) {f : F} {z : K} {fl : Fl} (hfl : fo.useFile fl = true) {S M : SMat K}
    (hM : (dops.getS d f z).2 = .ok M) (hn : M.n = g.st.ports.length) (hS : (Gtl.getSgtl ops fo ⟨u, g.file⟩ f (some z) fo.none).2 = .ok S) :
    (Gtl.getS ops dops fo ⟨u, g.file⟩ f (some z) fl).2 = .ok M ∧ M.n = u.ports.length + 1 := by
  refine ⟨?_, hn.trans (terminate_ports_length hp hu)⟩
  rw [← hM, gS_eq]
  cases hx : Gtl.getSgtl ops fo ⟨u, g.file⟩ f (some (Option.getD (some z) u.zbase)) fo.none with
  | mk a r =>
    have hr : r = .ok S := by
      have h2 : (Gtl.getSgtl ops fo ⟨u, g.file⟩ f (some z) fo.none).2 = r := congrArg Prod.snd hx
      rw [← h2]; exact hS
    have ha : a.file = g.file := by
      have := congrArg (fun x => x.1.file) hx
      exact this.symm
    subst hr
    simp only [Option.getD_some]
    unfold oneS
    rw [ha, hfile, if_pos hfl]

end

namespace Ex

/-- a file answers with a matrix; the flags say to use it -/
def fileOps (K F : Type) : FileOps K (SMat K) F := ⟨fun d _ _ => (d, .ok d)⟩
def unitFlags : FlagOps Unit := ⟨fun _ => true, id, ()⟩
def fD : SMat ℚ := ⟨1, fun _ _ => 1/3⟩
def gmodel : GModel ℚ (Imm ℚ Unit Unit) (SMat ℚ) := ⟨["in"], [], [gA, gB], some fD⟩

theorem fileBisim (K F : Type) : FileBisim (fileOps K F) Eq := ⟨fun _ => rfl, fun _ _ _ _ h => (by rw [h]), fun _ _ _ _ h => by rw [h]⟩

theorem gmade : ∃ g, gtlMake o 0 50 () () (some (.ok gmodel)) = .ok g ∧ ∃ S, getS o g6 () none () = (g.st, .ok S) := by
  obtain ⟨s', S, hs, hi⟩ := ginit
  refine ⟨⟨s', some fD⟩, ?_, S, hs⟩
  unfold gtlMake
  have : gtlInit o 0 50 () () gmodel.portnames gmodel.relpos gmodel.elems = (s', .ok ()) := hi
  simp only [this]
  rfl

theorem getS_own {K O F Fl : Type*} [Field K] [DecidableEq F] [DecidableEq Fl] {ops : ObjOps K O F Fl} {s s' : St K O F Fl} {f : F} {fl : Fl} {M : SMat K}
    {z : K} (h : getS ops s f none fl = (s', .ok M)) (hz : s'.zbase = z) : getS ops s f (some z) fl = (s', .ok M) := by
  unfold getS at h ⊢
  cases hg : get1S ops s f fl with
  | mk s1 r1 =>
    rw [hg] at h
    cases r1 with
    | error e => simp at h
    | ok M' =>
      simp only [Prod.mk.injEq, Except.ok.injEq] at h
      obtain ⟨rfl, rfl⟩ := h
      simp [hz]

theorem file_answers {K O F : Type} [Field K] [DecidableEq F] {ops : ObjOps K O F Unit} {g : Gtl K O F Unit (SMat K)} {d S : SMat K} (hg : g.file = some d)
    {f : F} {z : Option K} (h : (getS ops g.st f (some (z.getD g.st.zbase)) ()).2 = .ok S) :
    (Gtl.getS ops (fileOps K F) unitFlags g f z ()).2 = .ok d := by
  rw [gS_eq]
  cases hx : Gtl.getSgtl ops unitFlags g f (some (z.getD g.st.zbase)) unitFlags.none with
  | mk a r =>
    have hr : r = .ok S := by
      have h2 : (Gtl.getSgtl ops unitFlags g f (some (z.getD g.st.zbase)) unitFlags.none).2 = r := congrArg Prod.snd hx
      rw [← h2]; exact h
    have ha : a.file = g.file := (congrArg (fun x => x.1.file) hx).symm
    subst hr
    simp only
    unfold oneS
    rw [ha, hg, if_pos (by rfl)]
    rfl

/-- **C79 (witness).** the rfGTL of C54_witness, with a touchstone: its copy answers with the matrix of the file, as the original does -/
theorem C79_copy_witness : ∃ g c, gtlMake o 0 50 () () (some (.ok gmodel)) = .ok g ∧
    gtlCopy o 0 50 () () id id (some (.ok gmodel)) g = .ok c ∧
    greplies o (fileOps ℚ Unit) unitFlags 0 c [.getS () none ()] = [.mat (.ok fD)] := by
  obtain ⟨g, hg, S, hs⟩ := gmade
  obtain ⟨c, hc, hr⟩ := C79_copy (fo := unitFlags) (imm_lawful _ _ _) (imm_bisim _ _ _) (fileBisim ℚ Unit) gOK hg
    (cs := []) trivial rfl (cp := id) (cpd := id) (fun _ _ => rfl) (fun _ _ => rfl)
  refine ⟨g, c, hg, hc, ?_⟩
  have hr := hr [.getS () none ()] ⟨trivial, trivial⟩
  refine hr.trans ?_
  have hf : g.file = some fD := by
    obtain ⟨m, hm, -, h⟩ := gtlMake_ok hg
    cases hm; exact h
  have hz : g.st.zbase = 50 := ((Built.eval gbuilt hs).inv (imm_lawful _ _ _)).zb
  have h1 := getS_stable (imm_lawful _ _ _) gbuilt (by decide) (by rw [gfree]; simp) hs () (some 50) ()
  rw [getS_own hs hz] at h1
  have h2 := file_answers (ops := o) hf (f := ()) (z := none) (S := S) (by rw [Option.getD_none, hz]; exact h1)
  simp only [greplies, gstep, grun, List.cons.injEq, and_true, GReply.mat.injEq]
  exact h2

/-- **C79 (violation, witness).** the hypotheses of C79_copy_terminate hold for it -/
theorem C79_copy_terminate_witness : ∃ g c u, gtlMake o 0 50 () () (some (.ok gmodel)) = .ok g ∧
    gtlCopy o 0 50 () () id id (some (.ok gmodel)) g = .ok c ∧ terminate g.st (.ext "in") .default = (u, .ok ()) := by
  obtain ⟨g, hg, S, hs⟩ := gmade
  obtain ⟨c, hc, -⟩ := C79_copy (fo := unitFlags) (imm_lawful _ _ _) (imm_bisim _ _ _) (fileBisim ℚ Unit) gOK hg
    (cs := []) trivial rfl (cp := id) (cpd := id) (fun _ _ => rfl) (fun _ _ => rfl)
  refine ⟨g, c, _, hg, hc, Prod.ext rfl ?_⟩
  have hl := imm_lawful ℚ Unit Unit
  have hfz := gbuilt.frozen hl hs
  have hx : g.st.xpos.length = 1 := by
    rw [getS_xpos hs]
    rfl
  have hp : g.st.ports = [.ext "in"] := by
    obtain ⟨-, -, -, -, -, -, -, -, -, h⟩ := gtlMake_frozen hl gOK hg
    exact h
  have hi := (Built.eval gbuilt hs).inv hl
  have hw : ∀ d, (d, Node.ext "in") ∈ g.st.waves := fun d => (hfz.wm d _).2 (by decide)
  have hT : dictGet (.ext "in") g.st.T = none := by
    rw [dictGet_none]
    intro hc
    have h1 := hi.rep.rep.loads_keys
    have h2 : (Node.ext "in") ∈ gnet.loads.map Prod.fst := by rw [h1]; exact hc
    exact absurd h2 (by decide)
  have hE : ∃ k, dictGet (.ext "in") g.st.E = some k := by
    cases hd : dictGet (.ext "in") g.st.E with
    | some k => exact ⟨k, rfl⟩
    | none => exact absurd ((hfz.keys (.ext "in")).2 (by rw [hp]; decide)) (dictGet_none.1 hd)
  obtain ⟨k, hk⟩ := hE
  have hidx : idx ([.ext "in"] : List Node) (.ext "in") = 0 := by decide
  unfold terminate
  simp only [termRho, hT, hk, pyIndex, hw, if_true, hp, hidx]
  simp [pyPop, hx]

/-- **C60 (violation, witness).** a line with a load of reflection 1/2 at its second port and a touchstone of two ports -/
theorem C60_load_ignored_witness : ∃ d S, terminate c1 (.blk "A" "2") (.RC (1/2)) = (c2, .ok ()) ∧ d.n = c1.ports.length ∧
    (.blk "A" "2") ∉ c1.T.map Prod.fst ∧ (Gtl.getSgtl oc unitFlags ⟨c2, some d⟩ () (some c2.zbase) ()).2 = .ok S ∧
    (Gtl.getS oc (fileOps ℂ Unit) unitFlags ⟨c2, some d⟩ () (some c2.zbase) ()).2 = .ok d ∧ d.n = c2.ports.length + 1 := by
  obtain ⟨s', S, hs⟩ := getS_c2
  have hz : s'.zbase = c2.zbase := by
    rw [((Built.eval builtc hs).inv (imm_lawful _ _ _)).zb, (builtc.inv (imm_lawful _ _ _)).zb]
  have h1 := getS_own hs hz
  have hT : Node.blk "A" "2" ∉ c1.T.map Prod.fst := by
    have : c1.T = [] := rfl
    rw [this]; simp
  have hn : c1.ports.length = 2 := rfl
  let d : SMat ℂ := ⟨2, fun _ _ => 0⟩
  have h3 : (Gtl.getSgtl oc unitFlags ⟨c2, some d⟩ () (some c2.zbase) ()).2 = .ok S := congrArg Prod.snd h1
  have h4 := C60_load_ignored (ops := oc) (dops := fileOps ℂ Unit) (fo := unitFlags) (g := ⟨c1, some d⟩) rfl hT stepc2 (f := ()) (z := c2.zbase) (fl := ())
    rfl (M := d) rfl hn.symm h3
  exact ⟨d, S, stepc2, hn.symm, hT, h3, h4⟩

end Ex
end PyRFtk.Circuit
