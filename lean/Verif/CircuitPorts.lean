import Verif.CircuitSolEx

/-!
# The port names of a block (C53)

rfCircuit.py:617-656 and 325-371 (`_substports`, the same code).  The specification `Asked` says what names the caller asked for.
-/

set_option linter.unusedSectionVars false

namespace PyRFtk.Circuit

section
variable {K O F Fl : Type*} [Field K] [DecidableEq F] [DecidableEq Fl]

/-! ## specification -/

/-- the names asked for, `own` being those the object has (`none`: it has no names) and `N` its number of ports -/
def Asked (own : Option (List String)) (N : ℕ) : PortSpec → List String → Prop
  | .none, names => match own with
    | some ps => names = ps
    | none => names = (List.range N).map fun k => toString (k + 1)
  | .list l, names => names = l
  | .fmt g, names => names = (List.range N).map fun k => g (k + 1)
  | .dict d, names => ∃ ps, own = some ps ∧ (∀ e ∈ d, e.1 ∈ ps) ∧
      List.Forall₂ (fun old new => (old, new) ∈ d ∨ (old ∉ d.map Prod.fst ∧ new = old)) ps names
  | .other, _ => False

/-! ## proofs -/

variable {ops : ObjOps K O F Fl}

theorem lookup_none_iff {α β : Type*} [DecidableEq α] {p : α} {d : List (α × β)} : dictGet p d = none ↔ p ∉ d.map Prod.fst := by
  induction d with
  | nil => simp [dictGet]
  | cons e d ih =>
    obtain ⟨k, v⟩ := e
    simp only [dictGet, List.lookup, List.map_cons, List.mem_cons, not_or] at ih ⊢
    by_cases h : p = k
    · subst h; simp
    · have : (p == k) = false := by simpa using h
      simp only [this, h, not_false_eq_true, true_and]
      exact ih

theorem lookup_mem {α β : Type*} [DecidableEq α] {p : α} {v : β} {d : List (α × β)} (h : dictGet p d = some v) : (p, v) ∈ d := by
  induction d with
  | nil => simp [dictGet] at h
  | cons e d ih =>
    obtain ⟨k, w⟩ := e
    simp only [dictGet, List.lookup] at ih h
    by_cases hk : p = k
    · subst hk; simp at h; simp [h]
    · have : (p == k) = false := by simpa using hk
      simp only [this] at h
      exact List.mem_cons_of_mem _ (ih h)

theorem dictGet_pop {α β : Type*} [DecidableEq α] {p q : α} (h : q ≠ p) : ∀ {d : List (α × β)}, dictGet q (dictPop p d) = dictGet q d
  | [] => rfl
  | (k, v) :: d => by
    have ih := dictGet_pop h (d := d)
    unfold dictPop at ih ⊢
    by_cases hk : k = p
    · subst hk
      rw [List.filter_cons_of_neg (by simp), ih]
      have : (q == k) = false := by simpa using h
      simp [dictGet, List.lookup, this]
    · rw [List.filter_cons_of_pos (by simpa using hk)]
      simp only [dictGet, List.lookup] at ih ⊢
      rw [ih]

theorem popPorts_spec : ∀ {ps : List String} (_ : ps.Nodup) (d : List (String × String)),
    (popPorts ps d).1 = ps.map (fun p => (dictGet p d).getD p) ∧ (popPorts ps d).2 = d.filter fun e => e.1 ∉ ps
  | [], _, d => by simp [popPorts]
  | p :: ps, hnd, d => by
    obtain ⟨hp, hnd⟩ := List.nodup_cons.1 hnd
    obtain ⟨h1, h2⟩ := popPorts_spec hnd (dictPop p d)
    unfold popPorts
    constructor
    · simp only [List.map_cons, h1]
      congr 1
      · cases dictGet p d <;> rfl
      · apply List.map_congr_left
        intro q hq
        rw [dictGet_pop (by rintro rfl; exact hp hq)]
    · simp only [h2]
      simp only [dictPop, List.filter_filter]
      apply List.filter_congr
      intro e _
      simp only [List.mem_cons, not_or, Bool.decide_and]
      rw [Bool.and_comm]

/-- the names after renaming by a dict -/
theorem renamed_iff {d : List (String × String)} (hd : (d.map Prod.fst).Nodup) : ∀ {ps names : List String},
    List.Forall₂ (fun old new => (old, new) ∈ d ∨ (old ∉ d.map Prod.fst ∧ new = old)) ps names ↔
      names = ps.map (fun p => (dictGet p d).getD p)
  | [], names => by cases names <;> simp
  | p :: ps, [] => by simp
  | p :: ps, n :: names => by
    rw [List.forall₂_cons, renamed_iff hd, List.map_cons, List.cons.injEq]
    apply and_congr_left
    intro _
    constructor
    · rintro (h | ⟨h, rfl⟩)
      · rw [dictGet_of_mem hd h]; rfl
      · rw [lookup_none_iff.2 h]; rfl
    · rintro rfl
      cases h : dictGet p d with
      | none => exact Or.inr ⟨lookup_none_iff.1 h, rfl⟩
      | some v => exact Or.inl (lookup_mem h)

/-- a dict has every key once -/
def PortSpec.IsDict : PortSpec → Prop
  | .dict d => (d.map Prod.fst).Nodup
  | _ => True

/-- **C53 (which names).**  For an object whose own names, if it has any, are different: `addblock` resolves the `ports` argument to
exactly the names asked for -- the object's own or `1..N` without the argument, the list in its order, the format, or the own names
renamed by the dict -- and accepts it exactly when there is one name per port. -/
theorem C53_names {obj : O} {spec : PortSpec} (hs : spec.IsDict)
    (hown : ∀ ps, ops.ports obj = some ps → ps.Nodup ∧ ps ≠ []) (names : List String) :
    resolvePorts ops obj spec = .ok names ↔ Asked (ops.ports obj) (ops.len obj) spec names ∧ names.length = ops.len obj := by
  unfold resolvePorts objPorts
  cases ho : ops.ports obj with
  | none =>
    cases spec with
    | none =>
      simp only [specPorts, if_true, Asked, List.length_map, List.length_range, defaultName]
      simp only [ne_eq, not_true_eq_false, if_false, Except.ok.injEq]
      constructor
      · rintro rfl; simp
      · rintro ⟨rfl, -⟩; rfl
    | dict d => simp [specPorts, Asked]
    | list l =>
      simp only [specPorts, if_true, Asked]
      by_cases h : l.length = ops.len obj
      · simp only [h, ne_eq, not_true_eq_false, if_false, Except.ok.injEq]
        constructor
        · rintro rfl; exact ⟨rfl, h⟩
        · rintro ⟨rfl, -⟩; rfl
      · simp only [ne_eq, h, not_false_eq_true, if_true]
        constructor
        · intro h; cases h
        · rintro ⟨rfl, h'⟩; exact absurd h' h
    | fmt g =>
      simp only [specPorts, if_true, Asked, List.length_map, List.length_range]
      simp only [ne_eq, not_true_eq_false, if_false, Except.ok.injEq]
      constructor
      · rintro rfl; simp
      · rintro ⟨rfl, -⟩; rfl
    | other => simp [specPorts, Asked]
  | some ps =>
    obtain ⟨hnd, hne⟩ := hown ps ho
    cases spec with
    | none =>
      obtain ⟨h1, h2⟩ := popPorts_spec hnd []
      have h1' : (popPorts ps []).1 = ps := by rw [h1]; simp [dictGet]
      simp only [h2, List.filter_nil, ne_eq, not_true_eq_false, if_false, h1', specPorts, hne, Asked]
      by_cases h : ps.length = ops.len obj
      · simp only [h, not_true_eq_false, if_false, Except.ok.injEq]
        constructor
        · rintro rfl; exact ⟨rfl, h⟩
        · rintro ⟨rfl, -⟩; rfl
      · simp only [h, not_false_eq_true, if_true]
        constructor
        · intro h; cases h
        · rintro ⟨rfl, h'⟩; exact absurd h' h
    | dict d =>
      obtain ⟨h1, h2⟩ := popPorts_spec hnd d
      have hd : (d.map Prod.fst).Nodup := hs
      simp only [Asked, Option.some.injEq, exists_eq_left', renamed_iff hd]
      by_cases hk : ∀ e ∈ d, e.1 ∈ ps
      · have h0 : (popPorts ps d).2 = [] := by
          rw [h2, List.filter_eq_nil_iff]
          intro e he
          simp [hk e he]
        have hm : ps.map (fun p => (dictGet p d).getD p) ≠ [] := by simpa using hne
        simp only [h0, ne_eq, not_true_eq_false, if_false, h1, specPorts, hm, List.length_map]
        by_cases h : ps.length = ops.len obj
        · simp only [h, not_true_eq_false, if_false, Except.ok.injEq]
          constructor
          · rintro rfl; exact ⟨⟨hk, rfl⟩, by simpa using h⟩
          · rintro ⟨⟨-, rfl⟩, -⟩; rfl
        · simp only [h, not_false_eq_true, if_true]
          constructor
          · intro h; cases h
          · rintro ⟨⟨-, rfl⟩, h'⟩; exact absurd (by simpa using h') h
      · have h0 : (popPorts ps d).2 ≠ [] := by
          rw [h2, ne_eq, List.filter_eq_nil_iff]
          intro h
          exact hk fun e he => by simpa using h e he
        simp only [h0, ne_eq, not_false_eq_true, if_true]
        constructor
        · intro h; cases h
        · rintro ⟨⟨h, -⟩, -⟩; exact absurd h hk
    | list l =>
      simp only [specPorts, if_true, Asked]
      by_cases h : l.length = ops.len obj
      · simp only [h, ne_eq, not_true_eq_false, if_false, Except.ok.injEq]
        constructor
        · rintro rfl; exact ⟨rfl, h⟩
        · rintro ⟨rfl, -⟩; rfl
      · simp only [ne_eq, h, not_false_eq_true, if_true]
        constructor
        · intro h; cases h
        · rintro ⟨rfl, h'⟩; exact absurd h' h
    | fmt g =>
      simp only [specPorts, if_true, Asked, List.length_map, List.length_range]
      simp only [ne_eq, not_true_eq_false, if_false, Except.ok.injEq]
      constructor
      · rintro rfl; simp
      · rintro ⟨rfl, -⟩; rfl
    | other => simp [specPorts, Asked]

/-- **C53 (effect).**  A block with a new name: the names asked for become, in that order, the last external ports of the circuit;
if there is no such choice of names the call raises, and the external ports, blocks and equations are as before. -/
theorem C53_addblock {nan : K} {s s' : St K O F Fl} {name : String} {obj : O} {spec : PortSpec} {relpos : ℚ} {r : Except Err Unit}
    (hs : spec.IsDict) (hown : ∀ ps, ops.ports obj = some ps → ps.Nodup ∧ ps ≠ []) (hnew : ∀ b ∈ s.blocks, b.name ≠ name)
    (h : addblock ops nan s name obj spec relpos = (s', r)) :
    (∃ names, Asked (ops.ports obj) (ops.len obj) spec names ∧ names.length = ops.len obj ∧ r = .ok () ∧
      s'.ports = s.ports ++ names.map (Node.blk name) ∧
      s'.blocks.map (fun b => (b.name, b.ports)) = s.blocks.map (fun b => (b.name, b.ports)) ++ [(name, names)]) ∨
    ((∀ names, Asked (ops.ports obj) (ops.len obj) spec names → names.length ≠ ops.len obj) ∧ (∃ e, r = .error e) ∧
      s'.ports = s.ports ∧ s'.blocks = s.blocks ∧ s'.rows = s.rows ∧ s'.waves = s.waves) := by
  have hf : s.blocks.find? (fun b => b.name = name) = none := by
    rw [List.find?_eq_none]
    intro b hb
    simpa using hnew b hb
  unfold addblock at h
  simp only [hf] at h
  cases hr : resolvePorts ops obj spec with
  | ok names =>
    obtain ⟨h1, h2⟩ := (C53_names hs hown names).1 hr
    simp only [hr, Prod.mk.injEq] at h
    obtain ⟨rfl, rfl⟩ := h
    exact Or.inl ⟨names, h1, h2, rfl, rfl, by simp⟩
  | error e =>
    simp only [hr, Prod.mk.injEq] at h
    obtain ⟨rfl, rfl⟩ := h
    refine Or.inr ⟨?_, ⟨e, rfl⟩, rfl, rfl, rfl, rfl⟩
    intro names h1 h2
    have := (C53_names hs hown names).2 ⟨h1, h2⟩
    rw [hr] at this
    cases this

/-- **C53 (which exception).**  Names that are not ports of the object: ValueError.  A dict for an object without names: TypeError. -/
theorem C53_refused {obj : O} {d : List (String × String)} :
    (∀ ps, ops.ports obj = some ps → ps.Nodup → (∃ e ∈ d, e.1 ∉ ps) → resolvePorts ops obj (.dict d) = .error .valueError) ∧
    (ops.ports obj = none → resolvePorts ops obj (.dict d) = .error .typeError) ∧
    (∀ l, l.length ≠ ops.len obj → l ≠ [] → resolvePorts ops obj (.list l) = .error .valueError) := by
  refine ⟨?_, ?_, ?_⟩
  · intro ps hp hnd ⟨e, he, hne⟩
    unfold resolvePorts objPorts
    obtain ⟨h1, h2⟩ := popPorts_spec hnd d
    have h0 : (popPorts ps d).2 ≠ [] := by
      rw [h2, ne_eq, List.filter_eq_nil_iff]
      intro h
      exact hne (by simpa using h e he)
    simp [hp, h0]
  · intro hp
    simp [resolvePorts, objPorts, hp, specPorts]
  · intro l hl _
    unfold resolvePorts objPorts
    cases ops.ports obj <;> simp [specPorts, hl]

/-! ## the caller's dict -/

/-- what is left of the caller's dict after `addblock`: `pop` removes entries (rfCircuit.py:627) -/
def dictLeft (ops : ObjOps K O F Fl) (s : St K O F Fl) (name : String) (obj : O) (d : List (String × String)) : List (String × String) :=
  match s.blocks.find? (fun b => b.name = name) with
  | some _ => d
  | none => match ops.ports obj with
    | none => d
    | some ps => (popPorts ps d).2

/-- **C53 is violated for a dict used twice.**  An accepted `addblock` empties the caller's dict, so a second block added with the same
dict, for an object with the same port names, silently gets the object's own names. -/
theorem C53_dict_used_up {nan : K} {s s' : St K O F Fl} {name : String} {obj : O} {d : List (String × String)} {relpos : ℚ}
    {ps : List String} (hp : ops.ports obj = some ps) (hnd : ps.Nodup) (hne : ps ≠ []) (hlen : ps.length = ops.len obj)
    (hnew : ∀ b ∈ s.blocks, b.name ≠ name) (h : addblock ops nan s name obj (.dict d) relpos = (s', .ok ())) :
    dictLeft ops s name obj d = [] ∧ resolvePorts ops obj (.dict (dictLeft ops s name obj d)) = .ok ps := by
  have hf : s.blocks.find? (fun b => b.name = name) = none := by
    rw [List.find?_eq_none]
    intro b hb
    simpa using hnew b hb
  have h0 : dictLeft ops s name obj d = [] := by
    unfold dictLeft
    rw [hf, hp]
    simp only
    by_contra hc
    unfold addblock resolvePorts objPorts at h
    simp only [hf, hp] at h
    simp [hc] at h
  refine ⟨h0, ?_⟩
  rw [h0]
  refine (C53_names (by simp [PortSpec.IsDict]) (fun qs hq => ?_) ps).2 ⟨⟨ps, hp, by simp, ?_⟩, hlen⟩
  · rw [hp] at hq
    injection hq with hq
    subst hq
    exact ⟨hnd, hne⟩
  · rw [List.forall₂_same]
    intro p _
    exact Or.inr ⟨by simp, rfl⟩

end

/-! ## the same name twice -/

section
variable {K O F Fl : Type*} [Field K] [DecidableEq F] [DecidableEq Fl] {ops : ObjOps K O F Fl}

/-- two external ports of the same name: two equal rows -/
theorem extS_dup {t : St K O F Fl} {r1 r2 : ℕ → K} {n : Node} (hrows : t.rows = [r1, r2]) (hcols : t.cols = 4)
    (hw : t.waves = [(.inn, n), (.inn, n), (.out, n), (.out, n)]) (hp : t.ports = [n, n]) (hal : t.aliased = false)
    (hpn : t.portnames = []) : ∃ s' e, extS t = (s', .error e) := by
  have hsq : ∃ t', squareUp t = (t', .ok ()) ∧ t'.rows = [r1, r2, setCol zeroRow 0 1, setCol zeroRow 0 1] ∧ t'.cols = 4 := by
    unfold squareUp
    have hnm : t.names = [] := by simp [St.names, hal, hpn]
    have hnm' : ({ t with S := none } : St K O F Fl).names = [] := hnm
    rw [if_neg (by rw [hrows, hcols]; simp)]
    simp only [hnm', ne_eq, not_true_eq_false, if_false]
    simp only [hp, iter, addE, pyIndex, hw, idx, hcols, hrows]
    simp
  obtain ⟨t', h1, h2, h3⟩ := hsq
  have hdet : t'.mat.det = 0 := by
    refine Matrix.det_zero_of_row_eq (i := ⟨2, by omega⟩) (j := ⟨3, by omega⟩) (by simp) ?_
    funext j
    simp [St.mat, h2]
  unfold extS
  rw [h1]
  simp only
  unfold solveE
  cases mapE (dictIndex t'.E) t'.names with
  | error e => exact ⟨_, _, rfl⟩
  | ok is =>
    simp only
    cases mapE (fun p => pyIndex t'.waves (.inn, p)) t'.names with
    | error e => exact ⟨_, _, rfl⟩
    | ok ja =>
      cases mapE (fun p => pyIndex t'.waves (.out, p)) t'.names with
      | error e => exact ⟨_, _, rfl⟩
      | ok jb =>
        simp only [solveWith]
        rw [if_neg (by rw [h2, h3]; simp), npInv_eq_error.2 ⟨hdet, rfl⟩]
        exact ⟨_, _, rfl⟩

/-- **C53 (duplicates, violated).**  `addblock` accepts a list that gives one name to both ports of a 2-port; the circuit can never be
evaluated: whatever the object answers, `getS` raises. -/
theorem C53_duplicate_accepted {nan zb : K} {name p : String} {obj : O} (hlen : ops.len obj = 2) :
    ∃ s, addblock ops nan (St.init zb []) name obj (.list [p, p]) 0 = (s, .ok ()) ∧ ∀ f z fl, ∃ e, (getS ops s f z fl).2 = .error e := by
  have hres : resolvePorts ops obj (.list [p, p]) = .ok [p, p] := by
    unfold resolvePorts objPorts
    cases ops.ports obj <;> simp [specPorts, hlen]
  refine ⟨_, Prod.ext rfl ?_, ?_⟩
  · unfold addblock
    simp [St.init, hres]
  · intro f z fl
    have key : ∀ f fl, ∃ s' e, get1S ops (addblock ops nan (St.init zb []) name obj (.list [p, p]) 0).1 f fl = (s', .error e) := by
      intro f fl
      have ha : (addblock ops nan (St.init zb []) name obj (.list [p, p]) 0).1 =
          { (St.init zb [] : St K O F Fl) with
            blocks := [⟨name, [p, p], (0, 0), obj, 0⟩]
            waves := [(.inn, .blk name p), (.inn, .blk name p), (.out, .blk name p), (.out, .blk name p)]
            ports := [.blk name p, .blk name p]
            rows := blockRows nan 0 2
            cols := 4
            eqns := [.S (.blk name p), .S (.blk name p)]
            xpos := blockXpos ops obj [p, p] 0 } := by
        unfold addblock
        simp [St.init, hres, hlen]
      rw [ha]
      simp only [get1S, St.init, recompute]
      have hr : ∀ r, fillBlocks ops f zb fl [⟨name, [p, p], (0, 0), obj, 0⟩] (blockRows nan 0 2) = r →
          r.2.1.length = 2 := by
        rintro r rfl
        simp only [fillBlocks]
        cases hg : ops.getS obj f zb fl with
        | mk o r =>
          cases r with
          | error e => simp [blockRows]
          | ok S =>
            simp only
            cases hb : setBlock (blockRows nan 0 2) (0, 0) [p, p].length S with
            | error e => simp [blockRows]
            | ok rows =>
              simp only
              unfold setBlock at hb
              split at hb
              · injection hb with hb
                rw [← hb]
                simp [blockRows]
              · cases hb
      have hr := hr _ rfl
      cases hg : fillBlocks ops f zb fl [⟨name, [p, p], (0, 0), obj, 0⟩] (blockRows nan 0 2) with
      | mk bs rr =>
        obtain ⟨rows, r⟩ := rr
        rw [hg] at hr
        simp only at hr ⊢
        cases r with
        | error e => exact ⟨_, e, rfl⟩
        | ok u =>
          obtain ⟨r1, r2, rfl⟩ := List.length_eq_two.1 hr
          simp only
          obtain ⟨s', e, he⟩ := extS_dup (F := F) (Fl := Fl) (O := O) (t :=
            { zbase := zb, rows := [r1, r2], cols := 4,
              waves := [(.inn, .blk name p), (.inn, .blk name p), (.out, .blk name p), (.out, .blk name p)],
              ports := [.blk name p, .blk name p], xpos := blockXpos ops obj [p, p] 0, blocks := bs,
              eqns := [.S (.blk name p), .S (.blk name p)], T := [], E := [], portnames := [], aliased := false, f := none,
              flags := none, S := none, invM := none }) rfl rfl rfl rfl rfl rfl
          rw [he]
          exact ⟨s', e, rfl⟩
    obtain ⟨s', e, he⟩ := key f fl
    unfold getS
    rw [he]
    exact ⟨e, rfl⟩

end

namespace Ex

/-- a 2-port with names, e.g. an `rfRLC` with ports `s` and `p` -/
def namedOps : ObjOps ℚ Unit Unit Unit := ⟨fun _ => 2, fun _ => some ["s", "p"], fun _ => none,
  fun _ _ => .error .keyError, fun o _ _ _ => (o, .error .valueError)⟩

/-- non-trivial instance: one port renamed, the other kept -/
theorem C53_names_witness : resolvePorts namedOps () (.dict [("p", "x")]) = .ok ["s", "x"] ∧
    Asked (namedOps.ports ()) (namedOps.len ()) (.dict [("p", "x")]) ["s", "x"] ∧
    resolvePorts namedOps () (.dict [("q", "x")]) = .error .valueError ∧
    resolvePorts namedOps () .none = .ok ["s", "p"] ∧ resolvePorts namedOps () (.list ["a", "b"]) = .ok ["a", "b"] := by
  refine ⟨rfl, ⟨["s", "p"], rfl, by simp, ?_⟩, rfl, rfl, rfl⟩
  refine .cons (Or.inr ⟨by simp, rfl⟩) (.cons (Or.inl (by simp)) .nil)

/-- and the dict used twice: the second block is not renamed -/
theorem C53_dict_used_up_witness : dictLeft namedOps (St.init 50 [] : St ℚ Unit Unit Unit) "A" () [("p", "x")] = [] ∧
    (addblock namedOps 0 (St.init 50 []) "A" () (.dict [("p", "x")]) 0).2 = .ok () ∧
    resolvePorts namedOps () (.dict []) = .ok ["s", "p"] := ⟨rfl, rfl, rfl⟩

end Ex
end PyRFtk.Circuit
