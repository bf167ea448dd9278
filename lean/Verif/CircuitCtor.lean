import Verif.CircuitPos

/-!
# C74: ports and positions given when a circuit is made

`rfCircuit(ports=[...], xpos=[...])` is accepted without a warning: both are taken by `rfBase.__init__` (rfBase.py:96-122) and
not reset (rfCircuit.py:74-88).
-/

set_option linter.unusedSectionVars false

namespace PyRFtk.Circuit.Ctor

open Circuit

/-! ## Model -/

section
variable {K O F Fl : Type*} [Field K] [DecidableEq F] [DecidableEq Fl]

/-- `rfCircuit(Zbase=…, Portnames=…, ports=…, xpos=…)`, rfBase.py:96-122, rfCircuit.py:59-112: the two lists are stored as they are -/
def initWith (zbase : K) (portnames ports0 : List Node) (xpos0 : List ℚ) : St K O F Fl :=
  { (St.init zbase portnames : St K O F Fl) with ports := ports0, xpos := xpos0 }

/-- the default of `xpos` (rfBase.py:122): one zero for each port given -/
def xposDefault (ports0 : List Node) : List ℚ := List.replicate ports0.length 0

/-- a call that builds a circuit -/
inductive Op (K O : Type*)
  | add (name : String) (obj : O) (ports : PortSpec) (relpos : ℚ)
  | con (ps : List Node)
  | term (p : Node) (args : TermArgs K)
  | dee (int ext : List (Node × Node))

/-- the call made on a circuit (rfCircuit.py:538, 769, 870, 386) -/
noncomputable def apply (ops : ObjOps K O F Fl) (nan : K) (s : St K O F Fl) : Op K O → St K O F Fl × Except Err Unit
  | .add name obj ports relpos => addblock ops nan s name obj ports relpos
  | .con ps => connect ops s ps
  | .term p args => terminate s p args
  | .dee int ext => deembed s int ext

/-- evaluations one after the other, each at a frequency, for a reference and with flags: the answers -/
noncomputable def evals (ops : ObjOps K O F Fl) : St K O F Fl → List (F × Option K × Fl) → List (Except Err (SMat K))
  | _, [] => []
  | s, (f, z, fl) :: qs => (getS ops s f z fl).2 :: evals ops (getS ops s f z fl).1 qs

end

/-! ## Building: one equation too many for each port given -/

section
variable {K O F Fl : Type*} [Field K] [DecidableEq F] [DecidableEq Fl]
variable {ops : ObjOps K O F Fl} {nan : K} {s s' : St K O F Fl} {k : ℕ}

/-- a circuit under construction with `k` ports too many -/
structure Excess (k : ℕ) (s : St K O F Fl) : Prop where
  count : s.rows.length + s.ports.length = s.cols + k
  E : s.E = []
  al : s.aliased = false
  S : s.S = none

theorem Excess.addblock (h : Excess k s) {name : String} {obj : O} {spec : PortSpec} {relpos : ℚ}
    (hs : addblock ops nan s name obj spec relpos = (s', .ok ())) : Excess k s' := by
  obtain ⟨h1, h2, h3, h4⟩ := h
  unfold Circuit.addblock at hs
  simp only at hs
  cases hf : s.blocks.find? (fun b => b.name = name) with
  | some b =>
    simp only [hf] at hs
    split at hs
    · simp at hs
    · simp only [Prod.mk.injEq, and_true] at hs
      rw [← hs]; exact ⟨h1, h2, h3, rfl⟩
  | none =>
    simp only [hf] at hs
    cases hr : resolvePorts ops obj spec with
    | error e => simp [hr] at hs
    | ok ps =>
      simp only [hr, Prod.mk.injEq, and_true] at hs
      have hl := resolvePorts_length hr
      rw [← hs]
      refine ⟨?_, h2, h3, rfl⟩
      simp only [List.length_append, List.length_map, blockRows, List.length_range, hl]
      omega

theorem Excess.connect (h : Excess k s) {ps : List Node} (hs : connect ops s ps = (s', .ok ())) : Excess k s' := by
  obtain ⟨h1, h2, h3, h4⟩ := h
  obtain ⟨⟨f1, f2, f3, f4, f5, f6⟩, g2, g3, g4⟩ := connect_frame hs
  refine ⟨?_, g3.trans h2, f4.trans h3, g4⟩
  unfold Circuit.connect at hs
  match hn : ps.filter (fun p => decide ((Dir.inn, p) ∉ s.waves)) with
  | [] =>
    simp only [hn] at hs
    obtain ⟨c1, c2, c3, c4, c5⟩ := connectTail_count hs
    have hfl : (ps.filter (fun p => p ∉ ([] : List Node))).length = ps.length := by simp
    rw [hfl] at c3
    simp only [List.length_nil] at c2
    omega
  | [.blk _ _] => simp only [hn] at hs; cases hs
  | _ :: _ :: _ => simp only [hn] at hs; cases hs
  | [.ext n] =>
    simp only [hn] at hs
    cases ho : ps.filter (fun p => decide ((Dir.inn, p) ∈ s.waves)) with
    | nil => simp [ho] at hs
    | cons o os =>
      simp only [ho] at hs
      cases hg : getpos ops { s with waves := s.waves ++ [(Dir.inn, .ext n), (.out, .ext n)], ports := s.ports ++ [.ext n] } o with
      | error e => simp [hg] at hs
      | ok x =>
        simp only [hg] at hs
        obtain ⟨c1, c2, c3, c4, c5⟩ := connectTail_count hs
        simp only [List.length_append, List.length_cons, List.length_nil] at c1 c2 c3 c4 c5
        have hnn : (Dir.inn, Node.ext n) ∉ s.waves := by
          have : Node.ext n ∈ ps.filter (fun p => decide ((Dir.inn, p) ∉ s.waves)) := by rw [hn]; simp
          simpa using (List.mem_filter.1 this).2
        have hfl : (ps.filter (fun p => p ∉ [Node.ext n])) = o :: os := by
          rw [← ho]
          refine List.filter_congr fun p hp => ?_
          simp only [List.mem_singleton, decide_eq_decide]
          constructor
          · intro hpn'
            by_contra hc
            have : p ∈ ps.filter (fun p => decide ((Dir.inn, p) ∉ s.waves)) := List.mem_filter.2 ⟨hp, by simpa using hc⟩
            rw [hn] at this
            simp at this
            exact hpn' this
          · rintro hc rfl; exact hnn hc
        have hpslen : ps.length = (o :: os).length + 1 := by
          have h1 : ps.length = (ps.filter (fun p => decide ((Dir.inn, p) ∈ s.waves))).length +
              (ps.filter (fun p => !decide ((Dir.inn, p) ∈ s.waves))).length := (List.length_eq_length_filter_add _)
          have h2 : ps.filter (fun p => !decide ((Dir.inn, p) ∈ s.waves)) = [.ext n] := by
            rw [← hn]; exact List.filter_congr fun p _ => by simp
          rw [h1, h2, ho]; rfl
        rw [hfl] at c3
        omega

theorem pyIndex_lt {α : Type*} [DecidableEq α] {l : List α} {x : α} {i : ℕ} (h : pyIndex l x = .ok i) : i < l.length := by
  unfold pyIndex at h
  split at h
  · rename_i hx
    injection h with h
    rw [← h]
    exact List.idxOf_lt_length_iff.2 hx
  · cases h

theorem Excess.terminate (h : Excess k s) {p : Node} {args : TermArgs K} (hs : terminate s p args = (s', .ok ())) :
    Excess k s' := by
  obtain ⟨h1, h2, h3, h4⟩ := h
  unfold Circuit.terminate at hs
  simp only at hs
  cases hr : termRho s.zbase args with
  | error e => simp [hr] at hs
  | ok rho =>
    simp only [hr] at hs
    cases hT : dictGet p s.T with
    | some v =>
      obtain ⟨a, b, c⟩ := v
      simp only [hT, Prod.mk.injEq, and_true] at hs
      rw [← hs]
      exact ⟨by simpa [setEntry] using h1, h2, h3, h4⟩
    | none =>
      have hE : dictGet p s.E = none := by rw [h2]; rfl
      simp only [hT, hE] at hs
      cases hk : pyIndex s.ports p with
      | error e => simp [hk] at hs
      | ok kp =>
        simp only [hk] at hs
        have hlt := pyIndex_lt hk
        have hlen := List.length_eraseIdx_of_lt hlt
        cases hx : pyPop s.xpos kp with
        | error e => simp [hx] at hs
        | ok xs =>
          simp only [hx] at hs
          split at hs
          · simp at hs
          · simp only [Prod.mk.injEq, and_true] at hs
            rw [← hs]
            refine ⟨?_, h2, h3, rfl⟩
            simp only [List.length_append, List.length_cons, List.length_nil, hlen]
            omega

theorem deembedInt_keep {dp ip : Node} (h : deembedInt s dp ip = (s', .ok ())) :
    s'.aliased = s.aliased ∧ s'.S = s.S ∧ s'.E = s.E := by
  unfold deembedInt at h
  split at h
  · simp at h
  · simp only at h
    split at h
    · simp at h
    · split at h
      · simp at h
      · simp at h
      · simp only [Prod.mk.injEq, and_true] at h
        rw [← h]; exact ⟨rfl, rfl, rfl⟩

theorem deembedExt_keep {dp ep : Node} (h : deembedExt s dp ep = (s', .ok ())) :
    s'.aliased = s.aliased ∧ s'.S = s.S ∧ s'.E = s.E := by
  unfold deembedExt at h
  split at h
  · simp at h
  · split at h
    · simp at h
    · simp only at h
      split at h
      · split at h
        · simp at h
        · simp only [Prod.mk.injEq, and_true] at h
          rw [← h]; exact ⟨rfl, rfl, rfl⟩
      · simp at h

theorem iter_keep {α : Type*} {g : St K O F Fl → α → St K O F Fl × Except Err Unit}
    (hg : ∀ s x s', g s x = (s', .ok ()) → s'.aliased = s.aliased ∧ s'.S = s.S ∧ s'.E = s.E) :
    ∀ (l : List α) {s s' : St K O F Fl}, iter g s l = (s', .ok ()) → s'.aliased = s.aliased ∧ s'.S = s.S ∧ s'.E = s.E
  | [], s, s', h => by
    simp only [iter, Prod.mk.injEq, and_true] at h
    subst h; exact ⟨rfl, rfl, rfl⟩
  | x :: l, s, s', h => by
    unfold iter at h
    cases h1 : g s x with
    | mk s1 r1 =>
      rw [h1] at h
      cases r1 with
      | error e => simp at h
      | ok u =>
        obtain ⟨a, b, c⟩ := hg s x s1 h1
        obtain ⟨a', b', c'⟩ := iter_keep hg l h
        exact ⟨a'.trans a, b'.trans b, c'.trans c⟩

theorem Excess.deembed (h : Excess k s) {int ext : List (Node × Node)} (hs : deembed s int ext = (s', .ok ())) :
    Excess k s' := by
  obtain ⟨h1, h2, h3, h4⟩ := h
  unfold Circuit.deembed at hs
  simp only at hs
  cases hi : iter (fun s x => deembedInt s x.1 x.2)
      { s with S := none, invM := none, rows := s.rows.map (padRow s.cols), cols := s.cols + 2 * int.length } int with
  | mk s1 r1 =>
    rw [hi] at hs
    cases r1 with
    | error e => simp at hs
    | ok u =>
      simp only at hs
      obtain ⟨a1, a2, a3, a4, _⟩ := iter_deembedInt_count hi
      obtain ⟨b1, b2, b3, _⟩ := iter_deembedExt_count hs
      obtain ⟨c1, c2, c3⟩ := iter_keep (fun s x s' h => deembedInt_keep h) int hi
      obtain ⟨d1, d2, d3⟩ := iter_keep (fun s x s' h => deembedExt_keep h) ext hs
      simp only [List.length_map] at a1 a2 a3
      exact ⟨by omega, d3.trans (c3.trans h2), d1.trans (c1.trans h3), d2.trans c2⟩

theorem Excess.apply (h : Excess k s) {op : Op K O} (hs : apply ops nan s op = (s', .ok ())) : Excess k s' := by
  cases op with
  | add name obj spec relpos => exact h.addblock hs
  | con ps => exact h.connect hs
  | term p args => exact h.terminate hs
  | dee int ext => exact h.deembed hs

theorem Excess.iter : ∀ (l : List (Op K O)) {s s' : St K O F Fl}, Excess k s → iter (Ctor.apply ops nan) s l = (s', .ok ()) → Excess k s'
  | [], s, s', h, hs => by
    simp only [Circuit.iter, Prod.mk.injEq, and_true] at hs
    subst hs; exact h
  | x :: l, s, s', h, hs => by
    unfold Circuit.iter at hs
    cases h1 : Ctor.apply ops nan s x with
    | mk s1 r1 =>
      rw [h1] at hs
      cases r1 with
      | error e => simp at hs
      | ok u => exact Excess.iter l (h.apply h1) hs

/-! ## Evaluating -/

/-- a port whose equation cannot be written: no such wave, or no column for it -/
def Bad (s : St K O F Fl) (p : Node) : Prop := (Dir.inn, p) ∉ s.waves ∨ s.cols ≤ idx s.waves (.inn, p)

/-- a circuit no evaluation of which returns -/
inductive Unusable (s : St K O F Fl) : Prop
  | building (k : ℕ) (hk : 0 < k) (h : Excess k s)
  | lost (al : s.aliased = true) (S : s.S = none) (p : Node) (hp : p ∈ s.ports) (bad : Bad s p) (hE : p ∉ s.E.map Prod.fst)
  | over (al : s.aliased = true) (S : s.S = none) (h : s.cols < s.rows.length)

theorem addE_bad {p : Node} (h : Bad s p) : ∃ e, addE s p = ({ s with rows := s.rows ++ [zeroRow] }, .error e) := by
  unfold addE
  by_cases hw : (Dir.inn, p) ∈ s.waves
  · rcases h with h | h
    · exact absurd hw h
    · unfold pyIndex
      rw [if_pos hw]
      simp only
      rw [if_pos h]
      exact ⟨_, rfl⟩
  · unfold pyIndex
    rw [if_neg hw]
    exact ⟨_, rfl⟩

theorem addE_good {p : Node} (h : ¬ Bad s p) : addE s p =
    ({ s with rows := s.rows ++ [setCol zeroRow (idx s.waves (.inn, p)) 1], eqns := s.eqns ++ [.E p],
              E := dictSet p s.rows.length s.E }, .ok ()) := by
  unfold Bad at h
  push Not at h
  unfold addE pyIndex
  rw [if_pos h.1]
  simp only
  rw [if_neg (by omega)]

theorem dictSet_mem {α β : Type*} [DecidableEq α] {k x : α} {v : β} : ∀ {d : List (α × β)}, x ∈ (dictSet k v d).map Prod.fst →
    x = k ∨ x ∈ d.map Prod.fst
  | [], h => by simp [dictSet] at h; exact Or.inl h
  | (a, b) :: d, h => by
    unfold dictSet at h
    split at h
    · simp only [List.map_cons, List.mem_cons] at h ⊢
      rcases h with h | h
      · exact Or.inl h
      · exact Or.inr (Or.inr h)
    · simp only [List.map_cons, List.mem_cons] at h ⊢
      rcases h with h | h
      · exact Or.inr (Or.inl h)
      · rcases dictSet_mem h with h | h
        · exact Or.inl h
        · exact Or.inr (Or.inr h)

/-- writing the port equations: either one of the ports is bad, and the writing stops there, or one row is added for each -/
theorem iter_addE_bad' : ∀ (ps : List Node) (s : St K O F Fl),
    (iter addE s ps).1.cols = s.cols ∧ (iter addE s ps).1.ports = s.ports ∧ (iter addE s ps).1.waves = s.waves ∧
    (iter addE s ps).1.aliased = s.aliased ∧ (iter addE s ps).1.S = s.S ∧
    (∀ q, Bad s q → q ∈ (iter addE s ps).1.E.map Prod.fst → q ∈ s.E.map Prod.fst) ∧
    ((∃ p ∈ ps, Bad s p ∧ ∃ e, (iter addE s ps).2 = .error e) ∨
      ((∀ p ∈ ps, ¬ Bad s p) ∧ (iter addE s ps).1.rows.length = s.rows.length + ps.length ∧ (iter addE s ps).2 = .ok ())) ∧
    s.rows.length ≤ (iter addE s ps).1.rows.length
  | [], s => by simp [iter]
  | p :: ps, s => by
    unfold iter
    by_cases hb : Bad s p
    · obtain ⟨e, he⟩ := addE_bad hb
      rw [he]
      exact ⟨rfl, rfl, rfl, rfl, rfl, fun q _ h => h, Or.inl ⟨p, by simp, hb, e, rfl⟩, by simp⟩
    · rw [addE_good hb]
      simp only
      set s1 : St K O F Fl := { s with
        rows := s.rows ++ [setCol zeroRow (idx s.waves (.inn, p)) 1], eqns := s.eqns ++ [.E p],
        E := dictSet p s.rows.length s.E } with hs1
      have hbad : ∀ q, Bad s1 q ↔ Bad s q := fun q => Iff.rfl
      obtain ⟨i1, i2, i3, i4, i5, i6, i7, i8⟩ := iter_addE_bad' ps s1
      have hl : s1.rows.length = s.rows.length + 1 := by simp [hs1]
      refine ⟨i1, i2, i3, i4, i5, fun q hq hm => ?_, ?_, by omega⟩
      · rcases dictSet_mem (i6 q hq hm) with h | h
        · subst h; exact absurd hq hb
        · exact h
      · rcases i7 with ⟨q, hq, hbq, e, he⟩ | ⟨h1, h2, h3⟩
        · exact Or.inl ⟨q, by simp [hq], hbq, e, he⟩
        · refine Or.inr ⟨?_, ?_, h3⟩
          · intro q hq
            rcases List.mem_cons.1 hq with rfl | hq
            · exact hb
            · exact h1 q hq
          · rw [h2, hl]; simp; omega

/-- the linear step on a circuit with a lost port or with too many equations -/
theorem solveE_unusable {s2 : St K O F Fl} (al : s2.aliased = true) (hS : s2.S = none)
    (h : (∃ p ∈ s2.ports, Bad s2 p ∧ p ∉ s2.E.map Prod.fst) ∨ s2.cols < s2.rows.length) :
    Unusable (solveE s2).1 ∧ ∃ e, (solveE s2).2 = .error e := by
  have hn : s2.names = s2.ports := by simp [St.names, al]
  obtain ⟨k1, k2, k3, k4, k5, k6, k7⟩ := solveE_frame s2
  have herr : ∃ e, (solveE s2).2 = .error e := by
    unfold solveE
    rcases h with ⟨p, hp, _, hpE⟩ | hlt
    · have : dictIndex s2.E p = .error .keyError := by
        unfold dictIndex; rw [dictGet_none.2 hpE]
      obtain ⟨e, he⟩ := mapE_error_of_mem (l := s2.names) (by rw [hn]; exact hp) this
      rw [he]; exact ⟨e, rfl⟩
    · split
      · exact ⟨_, rfl⟩
      · split
        · exact ⟨_, rfl⟩
        · exact ⟨_, rfl⟩
        · unfold solveWith
          rw [if_pos (by omega)]
          exact ⟨_, rfl⟩
  obtain ⟨e, he⟩ := herr
  refine ⟨?_, e, he⟩
  rcases h with ⟨p, hp, hb, hpE⟩ | hlt
  · refine .lost (k6.trans al) ((k7 e he).trans hS) p (by rw [k3]; exact hp) ?_ (by rw [k4]; exact hpE)
    unfold Bad
    rw [k5, k2]
    exact hb
  · exact .over (k6.trans al) ((k7 e he).trans hS) (by rw [k1, k2]; exact hlt)

/-- the equations of the ports written on an aliased circuit that has a bad port, or more equations than unknowns to come -/
theorem square_unusable {s1 : St K O F Fl} (al : s1.aliased = true) (hS : s1.S = none)
    (h : (∃ p ∈ s1.ports, Bad s1 p ∧ p ∉ s1.E.map Prod.fst) ∨
      (s1.cols < s1.rows.length + s1.ports.length ∧ s1.E = [])  ∨ s1.cols < s1.rows.length) :
    (∀ e, (iter addE s1 s1.ports).2 = .error e → Unusable (iter addE s1 s1.ports).1) ∧
    ((iter addE s1 s1.ports).2 = .ok () → Unusable (solveE (iter addE s1 s1.ports).1).1 ∧
      ∃ e, (solveE (iter addE s1 s1.ports).1).2 = .error e) := by
  obtain ⟨i1, i2, i3, i4, i5, i6, i7, i8⟩ := iter_addE_bad' s1.ports s1
  generalize hg : iter addE s1 s1.ports = g at *
  have al2 : g.1.aliased = true := i4.trans al
  have hS2 : g.1.S = none := i5.trans hS
  have hbad : ∀ q, Bad g.1 q ↔ Bad s1 q := fun q => by unfold Bad; rw [i3, i1]
  constructor
  · intro e he
    rcases i7 with ⟨p, hp, hb, _⟩ | ⟨_, _, h3⟩
    · rcases h with ⟨q, hq, hbq, hqE⟩ | ⟨_, hE⟩ | hlt
      · exact .lost al2 hS2 q (by rw [i2]; exact hq) ((hbad q).2 hbq) (fun hm => hqE (i6 q hbq hm))
      · exact .lost al2 hS2 p (by rw [i2]; exact hp) ((hbad p).2 hb) (fun hm => by have := i6 p hb hm; rw [hE] at this; simp at this)
      · exact .over al2 hS2 (by rw [i1]; omega)
    · rw [he] at h3; cases h3
  · intro hok
    rcases i7 with ⟨p, hp, hb, e, he⟩ | ⟨hgood, hlen, _⟩
    · rw [hok] at he; cases he
    · refine solveE_unusable al2 hS2 (Or.inr ?_)
      rw [i1, hlen]
      rcases h with ⟨q, hq, hbq, _⟩ | ⟨hlt, _⟩ | hlt
      · exact absurd hbq (hgood q hq)
      · exact hlt
      · omega

theorem squareUp_aliased {s1 : St K O F Fl} (hsq : ¬ s1.rows.length = s1.cols) (al : s1.aliased = true) (hS : s1.S = none) :
    squareUp s1 = iter addE s1 s1.ports := by
  unfold squareUp
  have hn : s1.names = s1.ports := by simp [St.names, al]
  have he : ({ s1 with S := none } : St K O F Fl) = s1 := by rw [← hS]
  rw [if_neg hsq]
  simp only [he, hn]
  by_cases hp : s1.ports = []
  · rw [if_neg (by simp [hp])]
    have he2 : ({ s1 with aliased := true, S := none } : St K O F Fl) = s1 := by rw [← al, ← hS]
    rw [he2]
  · rw [if_pos hp, if_neg (by simp), if_neg (by simp)]
    have he2 : ({ s1 with aliased := true, ports := s1.ports, S := none } : St K O F Fl) = s1 := by rw [← al, ← hS]
    rw [he2]

theorem extS_unusable {s1 : St K O F Fl} (h : Unusable s1) : Unusable (extS s1).1 ∧ ∃ e, (extS s1).2 = .error e := by
  have key : ∀ s0 s1 : St K O F Fl, squareUp s0 = iter addE s1 s1.ports → s1.aliased = true → s1.S = none →
      ((∃ p ∈ s1.ports, Bad s1 p ∧ p ∉ s1.E.map Prod.fst) ∨
      (s1.cols < s1.rows.length + s1.ports.length ∧ s1.E = [])  ∨ s1.cols < s1.rows.length) →
      Unusable (extS s0).1 ∧ ∃ e, (extS s0).2 = .error e := by
    intro s0 s1 hup al hS h
    obtain ⟨a, b⟩ := square_unusable al hS h
    unfold extS
    rw [hup]
    generalize iter addE s1 s1.ports = g at a b
    obtain ⟨s2, r2⟩ := g
    cases r2 with
    | error e => exact ⟨a e rfl, e, rfl⟩
    | ok u => exact b rfl
  by_cases hsq : s1.rows.length = s1.cols
  · have hup : squareUp s1 = (s1, .ok ()) := by unfold squareUp; rw [if_pos hsq]
    unfold extS
    rw [hup]
    simp only
    cases h with
    | lost al S p hp bad hE => exact solveE_unusable al S (Or.inl ⟨p, hp, bad, hE⟩)
    | over al S h => omega
    | building k hk h =>
      obtain ⟨k1, k2, k3, k4, k5, k6, k7⟩ := solveE_frame s1
      have herr : ∃ e, (solveE s1).2 = .error e := by
        have hE := h.E
        unfold solveE
        cases hn : s1.names with
        | nil =>
          simp only [mapE]
          unfold solveWith
          rw [if_neg (by simp [hsq])]
          cases npInv s1.mat with
          | error e => exact ⟨e, rfl⟩
          | ok W => exact ⟨_, rfl⟩
        | cons p ps =>
          have : dictIndex s1.E p = .error .keyError := by rw [hE]; rfl
          obtain ⟨e, he⟩ := mapE_error_of_mem (l := p :: ps) (by simp) this
          rw [he]; exact ⟨e, rfl⟩
      obtain ⟨e, he⟩ := herr
      exact ⟨.building k hk ⟨by rw [k1, k2, k3]; exact h.count, k4.trans h.E, k6.trans h.al, (k7 e he).trans h.S⟩, e, he⟩
  · cases h with
    | building k hk h =>
      have hc := h.count
      have he : ({ s1 with S := none } : St K O F Fl) = s1 := by rw [← h.S]
      by_cases hn : s1.names = []
      · refine key s1 { s1 with aliased := true } ?_ rfl h.S (Or.inr (Or.inl ⟨by simp only; omega, h.E⟩))
        unfold squareUp
        rw [if_neg hsq]
        simp only [he, hn]
        simp [h.S]
      · by_cases h1 : s1.names.length ≠ s1.ports.length
        · have : squareUp s1 = (s1, .error .valueError) := by
            unfold squareUp
            rw [if_neg hsq]
            simp only [he]
            rw [if_pos hn, if_pos h1]
          unfold extS
          rw [this]
          exact ⟨.building k hk h, _, rfl⟩
        · by_cases h2 : ∃ p ∈ s1.ports, p ∉ s1.names
          · have : squareUp s1 = (s1, .error .valueError) := by
              unfold squareUp
              rw [if_neg hsq]
              simp only [he]
              rw [if_pos hn, if_neg h1, if_pos h2]
            unfold extS
            rw [this]
            exact ⟨.building k hk h, _, rfl⟩
          · refine key s1 { s1 with ports := s1.names, aliased := true } ?_ rfl h.S (Or.inr (Or.inl ⟨?_, h.E⟩))
            · unfold squareUp
              rw [if_neg hsq]
              simp only [he]
              rw [if_pos hn, if_neg h1, if_neg h2]
              simp only [h.S]
            · push Not at h1
              simp only
              omega
    | lost al S p hp bad hE => exact key s1 s1 (squareUp_aliased hsq al S) al S (Or.inl ⟨p, hp, bad, hE⟩)
    | over al S h => exact key s1 s1 (squareUp_aliased hsq al S) al S (Or.inr (Or.inr h))

theorem Unusable.fill {bs : List (Blk O)} {rows : List (ℕ → K)} (h : Unusable s) (hr : rows.length = s.rows.length) :
    Unusable { s with blocks := bs, rows := rows } := by
  cases h with
  | building k hk h => exact .building k hk ⟨by simp only [hr]; exact h.count, h.E, h.al, h.S⟩
  | lost al S p hp bad hE => exact .lost al S p hp bad hE
  | over al S h => exact .over al S (by simp only [hr]; exact h)

theorem Unusable.S_none (h : Unusable s) : s.S = none := by
  cases h with
  | building k hk h => exact h.S
  | lost al S p hp bad hE => exact S
  | over al S h => exact S

/-- no evaluation of such a circuit returns, and it stays so -/
theorem Unusable.getS (h : Unusable s) (f : F) (z : Option K) (fl : Fl) :
    Unusable (getS ops s f z fl).1 ∧ ∃ e, (getS ops s f z fl).2 = .error e := by
  have hrec : Unusable (recompute ops s f fl).1 ∧ ∃ e, (recompute ops s f fl).2 = .error e := by
    unfold recompute
    simp only
    have hlen := fillBlocks_length (ops := ops) f s.zbase fl s.blocks s.rows
    generalize fillBlocks ops f s.zbase fl s.blocks s.rows = r0 at hlen
    have hu := h.fill (bs := r0.1) hlen
    cases hr : r0.2.2 with
    | error e => exact ⟨hu, e, rfl⟩
    | ok u =>
      simp only
      have H := extS_unusable hu
      cases hx : extS ({ s with blocks := r0.1, rows := r0.2.1 } : St K O F Fl) with
      | mk s2 r2 =>
        rw [hx] at H
        obtain ⟨hb, e, rfl⟩ := H
        exact ⟨hb, e, rfl⟩
  unfold Circuit.getS get1S
  rw [h.S_none]
  simp only
  cases hr : recompute ops s f fl with
  | mk s1 r1 =>
    rw [hr] at hrec
    obtain ⟨hb, e, rfl⟩ := hrec
    exact ⟨hb, e, rfl⟩

theorem Unusable.evals : ∀ (qs : List (F × Option K × Fl)) {s : St K O F Fl}, Unusable s → ∀ r ∈ evals ops s qs, ∃ e, r = .error e
  | [], s, _, r, hr => by simp [Ctor.evals] at hr
  | (f, z, fl) :: qs, s, h, r, hr => by
    obtain ⟨h1, h2⟩ := h.getS (ops := ops) f z fl
    unfold Ctor.evals at hr
    rcases List.mem_cons.1 hr with rfl | hr
    · exact h2
    · exact Unusable.evals qs h1 r hr

theorem excess_init (zb : K) (names ports0 : List Node) (xpos0 : List ℚ) :
    Excess ports0.length (initWith zb names ports0 xpos0 : St K O F Fl) := ⟨by simp [initWith, St.init], rfl, rfl, rfl⟩

/-! ## C74 -/

/-- **C74.** A circuit made with `ports=[...]`, at least one, cannot be evaluated: whatever accepted calls have built it, each
evaluation, the first and all later ones, raises. -/
theorem C74_ports_unusable (zb : K) (names ports0 : List Node) (xpos0 : List ℚ) (hne : ports0 ≠ []) (calls : List (Op K O))
    (hb : iter (apply ops nan) (initWith zb names ports0 xpos0) calls = (s, .ok ())) (qs : List (F × Option K × Fl)) :
    ∀ r ∈ evals ops s qs, ∃ e, r = .error e :=
  Unusable.evals qs (.building ports0.length (List.length_pos_iff.2 hne)
    (Excess.iter calls (excess_init zb names ports0 xpos0) hb))

theorem terminate_phantom {p : Node} {args : TermArgs K} {rho : K} (hr : termRho s.zbase args = .ok rho) (hT : dictGet p s.T = none)
    (hE : dictGet p s.E = none) (hw : (Dir.inn, p) ∉ s.waves) {ps : List Node} {x : ℚ} {xs : List ℚ} (hp : s.ports = p :: ps)
    (hx : s.xpos = x :: xs) : terminate s p args = ({ s with ports := ps, xpos := xs }, .error .unboundLocal) := by
  unfold terminate
  have hwi : pyIndex s.waves (Dir.inn, p) = .error .valueError := by unfold pyIndex; rw [if_neg hw]
  have hk : pyIndex s.ports p = .ok 0 := by unfold pyIndex idx; rw [hp]; simp
  have hpop : pyPop s.xpos 0 = .ok xs := by unfold pyPop; rw [hx]; simp
  simp only [hr, hT, hE, hwi, hk, hpop]
  simp [hp]

/-- **C74, the way out.** Terminating the ports that were given raises, for each of them, and leaves the circuit as if none
had been given. -/
theorem C74_refused_terminate (zb : K) (names : List Node) : ∀ (ports0 : List Node) (xpos0 : List ℚ), xpos0.length = ports0.length →
    (∀ p ∈ ports0.head?, (terminate (initWith zb names ports0 xpos0 : St K O F Fl) p .default).2 = .error .unboundLocal) ∧
    ports0.foldl (fun s p => (terminate s p .default).1) (initWith zb names ports0 xpos0 : St K O F Fl) = St.init zb names
  | [], xs, h => by
    have : xs = [] := List.length_eq_zero_iff.1 h
    subst this
    exact ⟨by simp, rfl⟩
  | p :: ps, [], h => by simp at h
  | p :: ps, x :: xs, h => by
    have h0 := terminate_phantom (s := (initWith zb names (p :: ps) (x :: xs) : St K O F Fl)) (p := p) (args := .default) (rho := 0)
      rfl rfl rfl (by simp [initWith, St.init]) rfl rfl
    refine ⟨?_, ?_⟩
    · intro q hq
      simp only [List.head?_cons, Option.mem_def, Option.some.injEq] at hq
      subst hq
      rw [h0]
    · rw [List.foldl_cons, h0]
      exact (C74_refused_terminate zb names ps xs (by simpa using h)).2

/-! ### adding blocks -/

theorem addblock_prefix (name : String) (obj : O) (spec : PortSpec) (relpos : ℚ) (P : List Node) (X : List ℚ) :
    addblock ops nan { s with ports := P ++ s.ports, xpos := X ++ s.xpos } name obj spec relpos =
      ({ (addblock ops nan s name obj spec relpos).1 with
          ports := P ++ (addblock ops nan s name obj spec relpos).1.ports
          xpos := X ++ (addblock ops nan s name obj spec relpos).1.xpos }, (addblock ops nan s name obj spec relpos).2) := by
  unfold addblock
  simp only
  cases hf : s.blocks.find? (fun b => b.name = name) with
  | some b =>
    simp only
    by_cases h : ops.len obj ≠ ops.len b.obj
    · simp only [if_pos h]
    · simp only [if_neg h]
  | none =>
    simp only
    cases hr : resolvePorts ops obj spec with
    | error e => rfl
    | ok ps => simp [List.append_assoc]

/-- calls that only add blocks -/
def adds (l : List (String × O × PortSpec × ℚ)) : List (Op K O) := l.map fun x => .add x.1 x.2.1 x.2.2.1 x.2.2.2

theorem iter_adds_prefix (P : List Node) (X : List ℚ) : ∀ (l : List (String × O × PortSpec × ℚ)) (s : St K O F Fl),
    iter (apply ops nan) { s with ports := P ++ s.ports, xpos := X ++ s.xpos } (adds l) =
      ({ (iter (apply ops nan) s (adds l)).1 with
          ports := P ++ (iter (apply ops nan) s (adds l)).1.ports
          xpos := X ++ (iter (apply ops nan) s (adds l)).1.xpos }, (iter (apply ops nan) s (adds l)).2)
  | [], s => rfl
  | (n, o, sp, rp) :: l, s => by
    have h := addblock_prefix (ops := ops) (nan := nan) (s := s) n o sp rp P X
    have ih := iter_adds_prefix P X l (addblock ops nan s n o sp rp).1
    simp only [adds, List.map_cons] at ih ⊢
    unfold iter
    simp only [apply] at h ih ⊢
    rw [h]
    cases hg : addblock ops nan s n o sp rp with
    | mk s1 r1 =>
      rw [hg] at ih
      cases r1 with
      | error e => rfl
      | ok u => exact ih

/-- **C74, what the given lists do while blocks are added.** The circuit is the one without them, but the given ports stand
before its own ports and the given positions before its own positions. -/
theorem C74_given_first (zb : K) (names ports0 : List Node) (xpos0 : List ℚ) (l : List (String × O × PortSpec × ℚ))
    {r : Except Err Unit} (hb : iter (apply ops nan) (St.init zb names) (adds l) = (s, r)) :
    iter (apply ops nan) (initWith zb names ports0 xpos0) (adds l) =
      ({ s with ports := ports0 ++ s.ports, xpos := xpos0 ++ s.xpos }, r) := by
  have h := iter_adds_prefix (ops := ops) (nan := nan) ports0 xpos0 l (St.init zb names)
  rw [hb] at h
  simpa [initWith, St.init] using h

/-! ### positions only -/

theorem consume_x {new : List Node} {d : ℕ} : ∀ {ps : List Node} {s s' : St K O F Fl} {xs : List ℚ},
    consume new ps s = (s', .ok ()) → xs.length = s.xpos.length + d →
    ∃ xs', xs'.length = s'.xpos.length + d ∧ consume new ps { s with xpos := xs } = ({ s' with xpos := xs' }, .ok ())
  | [], s, s', xs, h, hx => by
    simp only [consume, Prod.mk.injEq, and_true] at h
    subst h
    exact ⟨xs, hx, rfl⟩
  | p :: ps, s, s', xs, h, hx => by
    unfold consume at h ⊢
    by_cases hp : p ∈ new
    · rw [if_pos hp] at h ⊢
      exact consume_x h hx
    · rw [if_neg hp] at h ⊢
      cases hk : pyIndex s.ports p with
      | error e => simp [hk] at h
      | ok kp =>
        simp only [hk] at h ⊢
        unfold pyPop at h ⊢
        by_cases hl : kp < s.xpos.length
        · simp only [if_pos hl] at h
          rw [if_pos (show kp < xs.length by omega)]
          simp only
          have h1 := List.length_eraseIdx_of_lt hl
          have h2 := List.length_eraseIdx_of_lt (show kp < xs.length by omega)
          exact consume_x (s := { s with ports := s.ports.eraseIdx kp, xpos := s.xpos.eraseIdx kp }) (xs := xs.eraseIdx kp) h
            (by simp only; omega)
        · simp [hl] at h

theorem connectTail_x {new ps : List Node} {d : ℕ} {xs : List ℚ} (h : connectTail new ps s = (s', .ok ()))
    (hx : xs.length = s.xpos.length + d) : ∃ xs', xs'.length = s'.xpos.length + d ∧
    connectTail new ps { s with xpos := xs } = ({ s' with xpos := xs' }, .ok ()) := by
  unfold connectTail at h ⊢
  cases h1 : mapE (fun p => pyIndex s.waves (waveA new p)) ps with
  | error e => simp [h1] at h
  | ok As =>
    cases h2 : mapE (fun p => pyIndex s.waves (waveB new p)) ps with
    | error e => simp [h1, h2] at h
    | ok Bs =>
      simp only [h1, h2] at h ⊢
      cases h3 : consume new ps s with
      | mk s1 r =>
        cases r with
        | error e => simp [h3] at h
        | ok u =>
          obtain ⟨xs', g1, g2⟩ := consume_x h3 hx
          simp only [h3, Prod.mk.injEq, and_true] at h
          rw [g2]
          subst h
          exact ⟨xs', g1, rfl⟩

theorem getpos_x {p : Node} {x : ℚ} {xs : List ℚ} (h : getpos ops s p = .ok x) (hx : s.xpos.length ≤ xs.length) :
    ∃ y, getpos ops { s with xpos := xs } p = .ok y := by
  cases p with
  | blk b q => exact ⟨x, h⟩
  | ext n =>
    unfold getpos at h ⊢
    cases hk : pyIndex s.ports (.ext n) with
    | error e => simp [hk] at h
    | ok kp =>
      simp only [hk] at h ⊢
      cases hi : s.xpos[kp]? with
      | none => simp [hi] at h
      | some v =>
        have hlt : kp < s.xpos.length := by
          by_contra hc
          rw [List.getElem?_eq_none (by omega)] at hi
          cases hi
        rw [List.getElem?_eq_getElem (show kp < xs.length by omega)]
        exact ⟨_, rfl⟩

theorem connect_x {ps : List Node} {d : ℕ} {xs : List ℚ} (h : connect ops s ps = (s', .ok ())) (hx : xs.length = s.xpos.length + d) :
    ∃ xs', xs'.length = s'.xpos.length + d ∧ connect ops { s with xpos := xs } ps = ({ s' with xpos := xs' }, .ok ()) := by
  unfold connect at h ⊢
  match hn : ps.filter (fun p => decide ((Dir.inn, p) ∉ s.waves)) with
  | [] =>
    simp only [hn] at h ⊢
    exact connectTail_x h hx
  | [.blk _ _] => simp only [hn] at h; cases h
  | _ :: _ :: _ => simp only [hn] at h; cases h
  | [.ext n] =>
    simp only [hn] at h ⊢
    cases ho : ps.filter (fun p => decide ((Dir.inn, p) ∈ s.waves)) with
    | nil => simp [ho] at h
    | cons o os =>
      simp only [ho] at h ⊢
      cases hg : getpos ops { s with waves := s.waves ++ [(Dir.inn, .ext n), (.out, .ext n)], ports := s.ports ++ [.ext n] } o with
      | error e => simp [hg] at h
      | ok x =>
        simp only [hg] at h
        obtain ⟨y, hy⟩ := getpos_x (xs := xs) hg (by simp only; omega)
        simp only at hy
        rw [hy]
        exact connectTail_x (s := { s with
          waves := s.waves ++ [(Dir.inn, .ext n), (.out, .ext n)], ports := s.ports ++ [.ext n], xpos := s.xpos ++ [x] })
          (xs := xs ++ [y]) h (by simp [hx]; omega)

theorem terminate_x {p : Node} {args : TermArgs K} {d : ℕ} {xs : List ℚ} (h : terminate s p args = (s', .ok ()))
    (hx : xs.length = s.xpos.length + d) : ∃ xs', xs'.length = s'.xpos.length + d ∧
    terminate { s with xpos := xs } p args = ({ s' with xpos := xs' }, .ok ()) := by
  unfold terminate at h ⊢
  simp only at h ⊢
  cases hr : termRho s.zbase args with
  | error e => simp [hr] at h
  | ok rho =>
    simp only [hr] at h ⊢
    cases hT : dictGet p s.T with
    | some v =>
      obtain ⟨a, b, c⟩ := v
      simp only [hT, Prod.mk.injEq, and_true] at h ⊢
      subst h
      exact ⟨xs, hx, rfl⟩
    | none =>
      have hpop : ∀ kp, kp < s.xpos.length → pyPop s.xpos kp = .ok (s.xpos.eraseIdx kp) ∧ pyPop xs kp = .ok (xs.eraseIdx kp) ∧
          (xs.eraseIdx kp).length = (s.xpos.eraseIdx kp).length + d := by
        intro kp hkp
        have h1 := List.length_eraseIdx_of_lt hkp
        have h2 := List.length_eraseIdx_of_lt (show kp < xs.length by omega)
        unfold pyPop
        rw [if_pos hkp, if_pos (by omega)]
        exact ⟨rfl, rfl, by omega⟩
      have hno : ∀ kp, ¬ kp < s.xpos.length → pyPop s.xpos kp = .error .indexError := by
        intro kp hkp; unfold pyPop; rw [if_neg hkp]
      cases hE : dictGet p s.E with
      | some eqn =>
        simp only [hT, hE] at h ⊢
        cases hA : pyIndex s.waves (Dir.inn, p) with
        | error e => simp [hA] at h
        | ok a =>
          cases hB : pyIndex s.waves (Dir.out, p) with
          | error e => simp [hA, hB] at h
          | ok b =>
            simp only [hA, hB] at h ⊢
            cases hk : pyIndex s.ports p with
            | error e => simp [hk] at h
            | ok kp =>
              simp only [hk] at h ⊢
              by_cases hkp : kp < s.xpos.length
              · obtain ⟨e1, e2, e3⟩ := hpop kp hkp
                simp only [e1, e2, Prod.mk.injEq, and_true] at h ⊢
                subst h
                exact ⟨_, e3, rfl⟩
              · simp [hno kp hkp] at h
      | none =>
        simp only [hT, hE] at h ⊢
        cases hk : pyIndex s.ports p with
        | error e => simp [hk] at h
        | ok kp =>
          simp only [hk] at h ⊢
          by_cases hkp : kp < s.xpos.length
          · obtain ⟨e1, e2, e3⟩ := hpop kp hkp
            simp only [e1, e2] at h ⊢
            cases hA : pyIndex s.waves (Dir.inn, p) with
            | error e => simp [hA] at h
            | ok a =>
              cases hB : pyIndex s.waves (Dir.out, p) with
              | error e => simp [hA, hB] at h
              | ok b =>
                simp only [hA, hB, Prod.mk.injEq, and_true] at h ⊢
                subst h
                exact ⟨_, e3, rfl⟩
          · simp [hno kp hkp] at h

theorem deembedInt_x (dp ip : Node) (xs : List ℚ) :
    deembedInt { s with xpos := xs } dp ip = ({ (deembedInt s dp ip).1 with xpos := xs }, (deembedInt s dp ip).2) := by
  unfold deembedInt
  by_cases h1 : ip ∈ s.ports
  · simp [h1]
  · simp only [if_neg h1]
    by_cases h2 : dp ∉ s.ports ++ [ip]
    · simp only [if_pos h2]
    · simp only [if_neg h2]
      cases pyIndex (s.waves ++ [(Dir.inn, ip), (.out, ip)]) (Dir.inn, dp) with
      | error e => rfl
      | ok a =>
        cases pyIndex (s.waves ++ [(Dir.inn, ip), (.out, ip)]) (Dir.out, dp) with
        | error e => rfl
        | ok b => rfl

theorem deembedExt_x (dp ep : Node) (xs : List ℚ) :
    deembedExt { s with xpos := xs } dp ep = ({ (deembedExt s dp ep).1 with xpos := xs }, (deembedExt s dp ep).2) := by
  unfold deembedExt
  by_cases h1 : dp ∉ s.ports
  · simp only [if_pos h1]
  · simp only [if_neg h1]
    by_cases h2 : ep ∉ s.ports
    · simp only [if_pos h2]
    · simp only [if_neg h2]
      cases pyIndex s.waves (Dir.inn, dp) with
      | error e => rfl
      | ok a =>
        cases pyIndex s.waves (Dir.out, dp) with
        | error e => rfl
        | ok b =>
          cases pyIndex s.waves (Dir.inn, ep) with
          | error e => rfl
          | ok c =>
            cases pyIndex s.waves (Dir.out, ep) with
            | error e => rfl
            | ok d =>
              simp only
              cases pyIndex (s.ports.erase dp) ep with
              | error e => rfl
              | ok k => rfl

theorem iter_x {α : Type*} {g : St K O F Fl → α → St K O F Fl × Except Err Unit} {xs : List ℚ}
    (hg : ∀ s x, g { s with xpos := xs } x = ({ (g s x).1 with xpos := xs }, (g s x).2)) : ∀ (l : List α) (s : St K O F Fl),
    iter g { s with xpos := xs } l = ({ (iter g s l).1 with xpos := xs }, (iter g s l).2)
  | [], s => rfl
  | x :: l, s => by
    have ih := iter_x hg l (g s x).1
    unfold iter
    rw [hg s x]
    cases hgx : g s x with
    | mk s1 r1 =>
      rw [hgx] at ih
      cases r1 with
      | error e => rfl
      | ok u => exact ih

theorem deembedInt_xpos (dp ip : Node) : (deembedInt s dp ip).1.xpos = s.xpos := by
  have h := deembedInt_x (s := s) dp ip s.xpos
  exact (congrArg (fun y => y.1.xpos) h)

theorem deembedExt_xpos (dp ep : Node) : (deembedExt s dp ep).1.xpos = s.xpos :=
  congrArg (fun y => y.1.xpos) (deembedExt_x (s := s) dp ep s.xpos)

theorem deembed_x (int ext : List (Node × Node)) (xs : List ℚ) :
    deembed { s with xpos := xs } int ext = ({ (deembed s int ext).1 with xpos := xs }, (deembed s int ext).2) := by
  unfold deembed
  simp only
  have h1 := iter_x (xs := xs) (g := fun (s : St K O F Fl) (x : Node × Node) => deembedInt s x.1 x.2)
    (fun s x => deembedInt_x x.1 x.2 xs) int
    { s with S := none, invM := none, rows := s.rows.map (padRow s.cols), cols := s.cols + 2 * int.length }
  simp only at h1
  rw [h1]
  cases iter (fun (s : St K O F Fl) (x : Node × Node) => deembedInt s x.1 x.2)
    { s with S := none, invM := none, rows := s.rows.map (padRow s.cols), cols := s.cols + 2 * int.length } int with
  | mk s1 r1 =>
    cases r1 with
    | error e => rfl
    | ok u =>
      simp only
      exact iter_x (xs := xs) (g := fun (s : St K O F Fl) (x : Node × Node) => deembedExt s x.1 x.2)
        (fun s x => deembedExt_x x.1 x.2 xs) ext s1

theorem deembed_xpos (int ext : List (Node × Node)) : (deembed s int ext).1.xpos = s.xpos :=
  congrArg (fun y => y.1.xpos) (deembed_x (s := s) int ext s.xpos)

theorem addblock_x {name : String} {obj : O} {spec : PortSpec} {relpos : ℚ} {d : ℕ} {xs : List ℚ}
    (h : addblock ops nan s name obj spec relpos = (s', .ok ())) (hx : xs.length = s.xpos.length + d) :
    ∃ xs', xs'.length = s'.xpos.length + d ∧ addblock ops nan { s with xpos := xs } name obj spec relpos = ({ s' with xpos := xs' }, .ok ()) := by
  unfold addblock at h ⊢
  simp only at h ⊢
  cases hf : s.blocks.find? (fun b => b.name = name) with
  | some b =>
    simp only [hf] at h ⊢
    by_cases hl : ops.len obj ≠ ops.len b.obj
    · simp [hl] at h
    · simp only [if_neg hl, Prod.mk.injEq, and_true] at h ⊢
      subst h
      exact ⟨xs, hx, rfl⟩
  | none =>
    simp only [hf] at h ⊢
    cases hr : resolvePorts ops obj spec with
    | error e => simp [hr] at h
    | ok ps =>
      simp only [hr, Prod.mk.injEq, and_true] at h ⊢
      subst h
      exact ⟨xs ++ blockXpos ops obj ps relpos, by simp [hx]; omega, rfl⟩

theorem iter_apply_x {d : ℕ} : ∀ (l : List (Op K O)) {s s' : St K O F Fl} {xs : List ℚ},
    iter (apply ops nan) s l = (s', .ok ()) → xs.length = s.xpos.length + d →
    ∃ xs', xs'.length = s'.xpos.length + d ∧ iter (apply ops nan) { s with xpos := xs } l = ({ s' with xpos := xs' }, .ok ())
  | [], s, s', xs, h, hx => by
    simp only [iter, Prod.mk.injEq, and_true] at h
    subst h
    exact ⟨xs, hx, rfl⟩
  | op :: l, s, s', xs, h, hx => by
    unfold iter at h ⊢
    cases h1 : apply ops nan s op with
    | mk s1 r1 =>
      rw [h1] at h
      cases r1 with
      | error e => simp at h
      | ok u =>
        simp only at h
        have hstep : ∃ xs', xs'.length = s1.xpos.length + d ∧ apply ops nan { s with xpos := xs } op = ({ s1 with xpos := xs' }, .ok ()) := by
          cases op with
          | add name obj spec relpos => exact addblock_x h1 hx
          | con ps => exact connect_x h1 hx
          | term p args => exact terminate_x h1 hx
          | dee int ext =>
            have h2 : deembed s int ext = (s1, .ok ()) := h1
            have h3 := deembed_x (s := s) int ext xs
            have h4 := deembed_xpos (s := s) int ext
            rw [h2] at h3 h4
            exact ⟨xs, by rw [h4]; exact hx, h3⟩
        obtain ⟨xs1, e1, e2⟩ := hstep
        rw [e2]
        exact iter_apply_x l h e1

theorem addE_x (xs : List ℚ) (s : St K O F Fl) (p : Node) : addE { s with xpos := xs } p = ({ (addE s p).1 with xpos := xs }, (addE s p).2) := by
  unfold addE
  simp only
  cases pyIndex s.waves (Dir.inn, p) with
  | error e => rfl
  | ok i =>
    simp only
    by_cases h : s.cols ≤ i
    · simp only [if_pos h]
    · simp only [if_neg h]

theorem squareUp_x (xs : List ℚ) : squareUp { s with xpos := xs } = ({ (squareUp s).1 with xpos := xs }, (squareUp s).2) := by
  unfold squareUp
  by_cases hsq : s.rows.length = s.cols
  · simp only [if_pos hsq]
  · simp only [if_neg hsq]
    have hn : ∀ b : Option (SMat K), ({ s with S := b, xpos := xs } : St K O F Fl).names = ({ s with S := b } : St K O F Fl).names := fun _ => rfl
    by_cases h1 : ({ s with S := none } : St K O F Fl).names ≠ []
    · have h1' : ({ s with S := none, xpos := xs } : St K O F Fl).names ≠ [] := h1
      rw [if_pos h1, if_pos h1']
      by_cases h2 : ({ s with S := none } : St K O F Fl).names.length ≠ s.ports.length
      · have h2' : ({ s with S := none, xpos := xs } : St K O F Fl).names.length ≠ s.ports.length := h2
        rw [if_pos h2, if_pos h2']
      · have h2' : ¬ ({ s with S := none, xpos := xs } : St K O F Fl).names.length ≠ s.ports.length := h2
        rw [if_neg h2, if_neg h2']
        by_cases h3 : ∃ p ∈ s.ports, p ∉ ({ s with S := none } : St K O F Fl).names
        · have h3' : ∃ p ∈ s.ports, p ∉ ({ s with S := none, xpos := xs } : St K O F Fl).names := h3
          rw [if_pos h3, if_pos h3']
        · have h3' : ¬ ∃ p ∈ s.ports, p ∉ ({ s with S := none, xpos := xs } : St K O F Fl).names := h3
          rw [if_neg h3, if_neg h3']
          exact iter_x (g := addE) (addE_x xs) ({ s with S := none } : St K O F Fl).names
            { s with S := none, ports := ({ s with S := none } : St K O F Fl).names, aliased := true }
    · have h1' : ¬ ({ s with S := none, xpos := xs } : St K O F Fl).names ≠ [] := h1
      rw [if_neg h1, if_neg h1']
      exact iter_x (g := addE) (addE_x xs) s.ports { s with S := none, aliased := true }

theorem solveWith_x (xs : List ℚ) (n : ℕ) (a b c : List ℕ) :
    solveWith { s with xpos := xs } n a b c = ({ (solveWith s n a b c).1 with xpos := xs }, (solveWith s n a b c).2) := by
  unfold solveWith
  by_cases h : s.rows.length ≠ s.cols
  · simp only [if_pos h]
  · simp only [if_neg h]
    have hm : ({ s with xpos := xs } : St K O F Fl).mat = s.mat := rfl
    rw [hm]
    cases npInv s.mat with
    | error e => rfl
    | ok W =>
      simp only
      by_cases h0 : n = 0
      · simp only [if_pos h0]
      · simp only [if_neg h0]
        by_cases h2 : ∃ i ∈ a ++ b ++ c, ¬ i < s.cols
        · simp only [if_pos h2]
        · simp only [if_neg h2]
          cases npInv (cut W n a c) with
          | error e => rfl
          | ok Q => rfl

theorem solveE_x (xs : List ℚ) : solveE { s with xpos := xs } = ({ (solveE s).1 with xpos := xs }, (solveE s).2) := by
  unfold solveE
  have hn : ({ s with xpos := xs } : St K O F Fl).names = s.names := rfl
  rw [hn]
  cases mapE (dictIndex s.E) s.names with
  | error e => rfl
  | ok i =>
    simp only
    cases mapE (fun p => pyIndex s.waves (Dir.inn, p)) s.names with
    | error e => rfl
    | ok a =>
      cases mapE (fun p => pyIndex s.waves (Dir.out, p)) s.names with
      | error e => rfl
      | ok b => exact solveWith_x xs _ a b i

theorem extS_x (xs : List ℚ) : extS { s with xpos := xs } = ({ (extS s).1 with xpos := xs }, (extS s).2) := by
  unfold extS
  rw [squareUp_x]
  cases squareUp s with
  | mk s1 r1 =>
    cases r1 with
    | error e => rfl
    | ok u => exact solveE_x xs

theorem getS_x (xs : List ℚ) (f : F) (z : Option K) (fl : Fl) :
    getS ops { s with xpos := xs } f z fl = ({ (getS ops s f z fl).1 with xpos := xs }, (getS ops s f z fl).2) := by
  have hrec : recompute ops { s with xpos := xs } f fl = ({ (recompute ops s f fl).1 with xpos := xs }, (recompute ops s f fl).2) := by
    unfold recompute
    simp only
    generalize fillBlocks ops f s.zbase fl s.blocks s.rows = r0
    cases r0.2.2 with
    | error e => rfl
    | ok u =>
      simp only
      have h := extS_x (s := { s with blocks := r0.1, rows := r0.2.1 }) xs
      simp only at h
      rw [h]
      cases extS ({ s with blocks := r0.1, rows := r0.2.1 } : St K O F Fl) with
      | mk s2 r2 =>
        cases r2 with
        | error e => rfl
        | ok M => rfl
  have h1 : get1S ops { s with xpos := xs } f fl = ({ (get1S ops s f fl).1 with xpos := xs }, (get1S ops s f fl).2) := by
    unfold get1S
    cases hS : s.S with
    | none =>
      have : ({ s with xpos := xs } : St K O F Fl).S = none := hS
      simp only [hS] at hrec ⊢
      exact hrec
    | some M =>
      simp only [hS] at hrec ⊢
      by_cases h : s.f = some f ∧ s.flags = some fl
      · simp only [if_pos h, hS]
      · simp only [if_neg h]; exact hrec
  unfold getS
  rw [h1]
  cases get1S ops s f fl with
  | mk s1 r1 =>
    cases r1 with
    | error e => rfl
    | ok M =>
      cases z with
      | none => rfl
      | some z =>
        simp only
        by_cases h : z ≠ 0 ∧ z ≠ s1.zbase
        · simp only [if_pos h]
        · simp only [if_neg h]

theorem evals_x (xs : List ℚ) : ∀ (qs : List (F × Option K × Fl)) (s : St K O F Fl), evals ops { s with xpos := xs } qs = evals ops s qs
  | [], s => rfl
  | (f, z, fl) :: qs, s => by
    unfold evals
    rw [getS_x]
    exact congrArg _ (evals_x xs qs _)

/-- **C74, positions alone.** `xpos=[...]` given without ports: the calls that a circuit made without it accepts are accepted,
all evaluations give what they give there, but there are positions in excess, as many as were given. -/
theorem C74_xpos_only (zb : K) (names : List Node) (xpos0 : List ℚ) (calls : List (Op K O))
    (hb : iter (apply ops nan) (St.init zb names) calls = (s, .ok ())) : ∃ s1,
    iter (apply ops nan) (initWith zb names [] xpos0) calls = (s1, .ok ()) ∧ s1.ports = s.ports ∧
    s1.xpos.length = s.xpos.length + xpos0.length ∧ ∀ qs, evals ops s1 qs = evals ops s qs := by
  obtain ⟨xs, h1, h2⟩ := iter_apply_x (d := xpos0.length) calls (xs := xpos0) hb (by simp [St.init])
  exact ⟨_, h2, rfl, h1, fun qs => evals_x xs qs s⟩

/-- The list the caller passed as `ports=` is the very list the circuit works on (rfBase.py:113; in-place `+=`, `append`, `pop`,
`remove` at rfCircuit.py:462, 484, 525-526, 696, 803, 824, 937, 960) until an evaluation replaces the attribute (1027): its
content, then, is the circuit's. -/
def callerList (s : St K O F Fl) : List Node := s.ports

theorem addblock_ports_le {name : String} {obj : O} {spec : PortSpec} {relpos : ℚ}
    (h : addblock ops nan s name obj spec relpos = (s', .ok ())) : s.ports.length ≤ s'.ports.length ∧
    (s.blocks = [] → s'.ports.length = s.ports.length + ops.len obj) := by
  unfold addblock at h
  simp only at h
  cases hf : s.blocks.find? (fun b => b.name = name) with
  | some b =>
    simp only [hf] at h
    by_cases hl : ops.len obj ≠ ops.len b.obj
    · simp [hl] at h
    · simp only [if_neg hl, Prod.mk.injEq, and_true] at h
      subst h
      exact ⟨le_rfl, fun hb => by rw [hb] at hf; cases hf⟩
  | none =>
    simp only [hf] at h
    cases hr : resolvePorts ops obj spec with
    | error e => simp [hr] at h
    | ok ps =>
      simp only [hr, Prod.mk.injEq, and_true] at h
      subst h
      have := resolvePorts_length hr
      simp [this]

theorem iter_adds_le : ∀ (l : List (String × O × PortSpec × ℚ)) {s s' : St K O F Fl},
    iter (apply ops nan) s (adds l) = (s', .ok ()) → s.ports.length ≤ s'.ports.length
  | [], s, s', h => by
    simp only [adds, List.map_nil, iter, Prod.mk.injEq, and_true] at h
    subst h; exact le_rfl
  | (n, o, sp, rp) :: l, s, s', h => by
    simp only [adds, List.map_cons] at h
    unfold iter at h
    simp only [apply] at h
    cases hg : addblock ops nan s n o sp rp with
    | mk s1 r1 =>
      rw [hg] at h
      cases r1 with
      | error e => simp at h
      | ok u => exact (addblock_ports_le hg).1.trans (iter_adds_le l h)

/-- **C74, one list for two circuits.** The same list, even an empty one, passed as `ports=` to two circuits: once the first has
ports of its own, the second, made afterwards, cannot be evaluated. -/
theorem C74_one_list (zb zb' : K) (names names' : List Node) (ports0 : List Node) (xpos0 xpos1 : List ℚ)
    {n : String} {o : O} {sp : PortSpec} {rp : ℚ} (ho : 0 < ops.len o) (l : List (String × O × PortSpec × ℚ)) {s1 s2 : St K O F Fl}
    (h1 : iter (apply ops nan) (initWith zb names ports0 xpos0) (adds ((n, o, sp, rp) :: l)) = (s1, .ok ()))
    (calls : List (Op K O)) (h2 : iter (apply ops nan) (initWith zb' names' (callerList s1) xpos1) calls = (s2, .ok ()))
    (qs : List (F × Option K × Fl)) : ∀ r ∈ evals ops s2 qs, ∃ e, r = .error e := by
  refine C74_ports_unusable zb' names' (callerList s1) xpos1 ?_ calls h2 qs
  simp only [adds, List.map_cons] at h1
  unfold iter at h1
  simp only [apply] at h1
  cases hg : addblock ops nan (initWith zb names ports0 xpos0) n o sp rp with
  | mk s3 r3 =>
    rw [hg] at h1
    cases r3 with
    | error e => simp at h1
    | ok u =>
      have h3 := (addblock_ports_le hg).2 rfl
      have h4 := iter_adds_le l h1
      intro hc
      unfold callerList at hc
      rw [hc] at h4
      simp only [List.length_nil] at h4
      omega
end

/-! ## Examples -/

namespace ExCtor
open Ex ExPos

/-- two 2-ports joined at the port `x` that was announced with `ports=["x"]`: the calls are accepted -/
def joined : List (Op ℚ (Imm ℚ Unit Unit)) :=
  [.add "A" (two mB) .none 0, .add "B" (two mB) .none 1, .con [.ext "x", .blk "A" "2", .blk "B" "1"]]

/-- the hypotheses of `C74_ports_unusable` are met: the circuit is built, its list of ports holds `x` twice -/
theorem C74_ports_witness : ∃ s, iter (apply o 0) (initWith 50 [] [.ext "x"] (xposDefault [.ext "x"])) joined = (s, .ok ()) ∧
    s.ports = [.ext "x", .blk "A" "1", .blk "B" "2", .ext "x"] ∧ ∀ r ∈ evals o s [((), none, ()), ((), none, ())], ∃ e, r = .error e := by
  have hb : iter (apply o 0) (initWith 50 [] [.ext "x"] (xposDefault [.ext "x"])) joined =
      ((iter (apply o 0) (initWith 50 [] [.ext "x"] (xposDefault [.ext "x"])) joined).1, .ok ()) := Prod.ext rfl rfl
  exact ⟨_, hb, rfl, C74_ports_unusable 50 [] [.ext "x"] _ (by simp) joined hb _⟩

/-- the hypotheses of `C74_xpos_only` and `C74_given_first` are met: one 2-port, `xpos=[7]`; the circuit is evaluated and says that
its first port is at 7 -/
theorem C74_xpos_witness : ∃ s S, iter (apply o 0) (initWith 50 pnames [] [7]) (adds [("A", two mB, .none, 0)]) = (s, .ok ()) ∧
    evals o s [((), none, ())] = [.ok S] ∧ s.ports = [.blk "A" "1", .blk "A" "2"] ∧ s.xpos.head? = some 7 ∧ s.xpos.length = 3 := by
  have hb : iter (apply o 0) (St.init 50 pnames : E) (adds [("A", two mB, .none, 0)]) = (i1, .ok ()) := Prod.ext rfl rfl
  obtain ⟨s', S, hs, _⟩ := C61_portnames_witness
  have h1 := C74_given_first 50 pnames [] [7] _ hb
  obtain ⟨s1, g1, g2, g3, g4⟩ := C74_xpos_only 50 pnames [7] _ hb
  rw [h1] at g1
  have g5 := (Prod.mk.inj g1).1
  subst g5
  refine ⟨_, S, h1, ?_, rfl, rfl, rfl⟩
  rw [g4]
  unfold evals
  rw [hs]
  rfl

/-- the hypotheses of `C74_one_list` are met by an empty list -/
theorem C74_one_list_witness : ∃ s1 s2, iter (apply o 0) (initWith 50 [] [] []) (adds [("A", two mB, .none, 0)]) = (s1, .ok ()) ∧
    iter (apply o 0) (initWith 50 [] (callerList s1) (xposDefault (callerList s1))) (adds [("C", two mB, .none, 0)]) = (s2, .ok ()) ∧
    s2.ports = [.blk "A" "1", .blk "A" "2", .blk "C" "1", .blk "C" "2"] ∧
    ∀ r ∈ evals o s2 [((), none, ())], ∃ e, r = .error e := by
  have h1 : iter (apply o 0) (initWith 50 [] [] []) (adds [("A", two mB, .none, 0)]) =
      ((iter (apply o 0) (initWith 50 [] [] []) (adds [("A", two mB, .none, 0)])).1, .ok ()) := Prod.ext rfl rfl
  generalize hs1 : (iter (apply o 0) (initWith 50 [] [] []) (adds [("A", two mB, .none, 0)])).1 = s1 at h1
  have hp : callerList s1 = [.blk "A" "1", .blk "A" "2"] := by rw [← hs1]; rfl
  have h2 : iter (apply o 0) (initWith 50 [] (callerList s1) (xposDefault (callerList s1))) (adds [("C", two mB, .none, 0)]) =
      ((iter (apply o 0) (initWith 50 [] (callerList s1) (xposDefault (callerList s1))) (adds [("C", two mB, .none, 0)])).1, .ok ()) := by
    rw [hp]; exact Prod.ext rfl rfl
  refine ⟨s1, _, h1, h2, by rw [hp]; rfl, ?_⟩
  exact C74_one_list 50 50 [] [] [] [] _ (by decide) [] h1 _ h2 _

/-- the hypothesis of `C74_refused_terminate` is met by the default positions -/
theorem C74_refused_witness : (terminate (initWith 50 [] [.ext "x", .ext "y"] (xposDefault [.ext "x", .ext "y"]) : E) (.ext "x") .default).2 =
    .error .unboundLocal ∧
    ([.ext "x", .ext "y"] : List Node).foldl (fun s p => (terminate s p .default).1)
      (initWith 50 [] [.ext "x", .ext "y"] (xposDefault [.ext "x", .ext "y"]) : E) = St.init 50 [] := by
  obtain ⟨h1, h2⟩ := C74_refused_terminate (O := Imm ℚ Unit Unit) (F := Unit) (Fl := Unit) (50 : ℚ) [] [.ext "x", .ext "y"]
    (xposDefault [.ext "x", .ext "y"]) rfl
  exact ⟨h1 _ rfl, h2⟩

end ExCtor

end PyRFtk.Circuit.Ctor
