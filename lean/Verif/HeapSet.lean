import Verif.HeapAdd

/-!
# `set` on a tree of objects (C32)
-/

set_option linter.unusedSectionVars false

namespace PyRFtk.Tree

open Classical

variable {V : Type*}

/-! ## model -/

/-- `s.rsplit('.', 1)`: what precedes the last dot and what follows it; `none` if there is no dot -/
def rsplit1 : Name → Option (Name × Name)
  | [] => none
  | c :: cs => match rsplit1 cs with
    | some (k, a) => some (c :: k, a)
    | none => if c = '.' then some ([], cs) else none

/-- `set(**kwargs)` of an object without blocks (rfBase.py:214-238, rfRLC.py:156-178, rfTRL.py:344-363): the loop, `m` being
`modified` so far.  Simplifications: values are compared by equality (a value for which `!=` is not a bool is left out); the
refusal of rfTRL with varying line parameters is left out; what rfTRL stores is cleared at each call, here when a value
changed. -/
noncomputable def setLeaf : Leaf V → List (Name × Val V) → Bool → Leaf V × Except Err Bool
  | l, [], m => (if m then { l with cached := false } else l, .ok m)              -- 234-238
  | l, (n, v) :: r, m =>
    if n ∈ l.attrs then setLeaf { l with vals := Function.update l.vals n v } r (m || decide (l.vals n ≠ v))  -- 221-222
    else (l, .error .valueError)                                                  -- 229-233

/-- one item of the loop of `set` (rfCircuit.py:1193-1229) once it has the form (locator, dictionary); `sub` is `obj.set` -/
noncomputable def setDict (sub : Heap V → Addr → List (Name × Val V) → Heap V × Except Err Bool) (h : Heap V) (blocks : List (Name × Addr))
    (k : Name) (d : List (Name × Val V)) : Heap V × Except Err Bool :=
  match blocks.lookup (split1 k).1 with                                           -- 1205-1206
  | none => (h, .error .keyError)
  | some b =>
    let rest := (split1 k).2.getD []
    let r := if rest = [] then sub h b d                                          -- 1213-1215
      else match h[b]? with                                                       -- 1209-1211: obj.set(rest, val)
        | some (.circ _) => sub h b [(rest, .dict d)]
        | some (.leaf _) => (h, .error .typeError)
        | _ => (h, .error .attributeError)
    match r with
    | (h', .error e) =>                                                           -- 1217-1223
      (h', .error (if e = .attributeError ∧ ∀ n, h[b]? ≠ some (.arr n) then .valueError else e))
    | (h', .ok m) => if d = [] then (h', .error .indexError) else (h', .ok m)     -- 1225

/-- one item of the loop of `set` (rfCircuit.py:1177-1229) -/
noncomputable def setItem (sub : Heap V → Addr → List (Name × Val V) → Heap V × Except Err Bool) (h : Heap V) (blocks : List (Name × Addr))
    (kw : Name) : Val V → Heap V × Except Err Bool
  | .num v => match rsplit1 kw with                                               -- 1183-1200
    | none => (h, .error .valueError)
    | some (k, attr) => setDict sub h blocks k [(attr, .num v)]
  | .dict d => setDict sub h blocks kw d

/-- the loop of `set` (rfCircuit.py:1177-1229) -/
noncomputable def setLoop (sub : Heap V → Addr → List (Name × Val V) → Heap V × Except Err Bool) (blocks : List (Name × Addr)) :
    Heap V → List (Name × Val V) → Bool → Heap V × Except Err Bool
  | h, [], m => (h, .ok m)
  | h, (kw, v) :: r, m => match setItem sub h blocks kw v with
    | (h', .error e) => (h', .error e)
    | (h', .ok m') => setLoop sub blocks h' r (m || m')

/-- forget the stored matrix -/
def Cell.forget : Cell V → Cell V
  | .leaf l => .leaf { l with cached := false }
  | .circ c => .circ { c with cached := false }
  | .arr n => .arr n

/-- `obj.set(**kwargs)` for the object at an address: rfCircuit.set (rfCircuit.py:1086-1245) and the `set` of objects without
blocks.  `fuel` is the recursion limit (RecursionError is a RuntimeError). -/
noncomputable def setObj : ℕ → Heap V → Addr → List (Name × Val V) → Heap V × Except Err Bool
  | 0, h, _, _ => (h, .error .runtimeError)
  | fuel + 1, h, a, kws => match h[a]? with
    | some (.circ c) => match setLoop (setObj fuel) c.blocks h kws false with
      | (h', .error e) => (h', .error e)
      | (h', .ok m) => (if m then h'.modify a Cell.forget else h', .ok m)         -- 1231-1234
    | some (.leaf l) => match setLeaf l kws false with
      | (l', r) => (h.set a (.leaf l'), r)
    | _ => (h, .error .attributeError)

/-- the positional arguments of `set` (rfCircuit.py:1146-1170), each a pair (written as a tuple or as two arguments) or
something else (`none`), added to the keyword arguments: `kwargs = dict([(ak, vk)], **kwargs)` -/
def putArgs : List (Option (Name × Val V)) → List (Name × Val V) → Except Err (List (Name × Val V))
  | [], kw => .ok kw
  | none :: _, _ => .error .valueError
  | some (k, v) :: r, kw => putArgs r ((k, (kw.lookup k).getD v) :: kw.filter (fun x => x.1 ≠ k))

/-- `set(*args, **kwargs)` of a circuit -/
noncomputable def setCall (fuel : ℕ) (h : Heap V) (a : Addr) (args : List (Option (Name × Val V))) (kw : List (Name × Val V)) :
    Heap V × Except Err Bool :=
  match putArgs args kw with
  | .error e => (h, .error e)
  | .ok kws => setObj fuel h a kws

/-! ## specification -/

/-- one elementary assignment: the object, its parameter, the value, and the circuits through which it was addressed -/
structure Assign (V : Type*) where
  via : List Addr
  obj : Addr
  attr : Name
  val : Val V

/-- the value of a parameter of an object -/
def valAt (h : Heap V) (b : Addr) (n : Name) : Option (Val V) := match h[b]? with
  | some (.leaf l) => some (l.vals n)
  | _ => none

def Cell.put (n : Name) (v : Val V) : Cell V → Cell V
  | .leaf l => .leaf { l with vals := Function.update l.vals n v }
  | x => x

/-- the assignment gives the parameter another value -/
def Assign.changes (h : Heap V) (s : Assign V) : Prop := valAt h s.obj s.attr ≠ some s.val

/-- carry out an assignment: the parameter gets the value; if it had another one, the object and the circuits through which it
was addressed forget their stored matrix -/
noncomputable def assign (h : Heap V) (s : Assign V) : Heap V :=
  let h1 := h.modify s.obj (Cell.put s.attr s.val)
  if s.changes h then (s.obj :: s.via).foldl (fun g x => g.modify x Cell.forget) h1 else h1

/-- a sequence of assignments, and whether one of them changed a value -/
noncomputable def runs : Heap V → List (Assign V) → Heap V × Bool
  | h, [] => (h, false)
  | h, s :: t => ((runs (assign h s) t).1, decide (s.changes h) || (runs (assign h s) t).2)

/-- the circuits that `findObj(loc)` passes through before it arrives -/
def through (h : Heap V) (a : Addr) (loc : Name) : List Addr :=
  if loc = [] then [] else
  match h[a]? with
  | some (.circ c) =>
    match c.blocks.lookup (split1 loc).1 with
    | none => [a]
    | some b => a :: through h b ((split1 loc).2.getD [])
  | _ => []
termination_by loc.length
decreasing_by exact split1_getD_lt _ (by assumption)

def Assign.add (xs : List Addr) (s : Assign V) : Assign V := { s with via := xs ++ s.via }

/-- the assignments a dictionary of dotted names means for a circuit:
`'path.attr': value` sets a parameter of the object `findObj(path)`; `'path': {attr: value, …}` sets several; if
`findObj(path)` is a circuit its dictionary is read in the same way from there. -/
inductive Means (h : Heap V) : Addr → List (Name × Val V) → List (Assign V) → Prop
  | nil (a) : Means h a [] []
  | num {a k attr v b l rest t} : k ≠ [] → '.' ∉ attr → findObj h a k = .ok (some b) → h[b]? = some (.leaf l) →
      Means h a rest t → Means h a ((k ++ '.' :: attr, .num v) :: rest) (⟨through h a k, b, attr, .num v⟩ :: t)
  | leaf {a k d b l rest t} : k ≠ [] → d ≠ [] → findObj h a k = .ok (some b) → h[b]? = some (.leaf l) →
      Means h a rest t →
      Means h a ((k, .dict d) :: rest) (d.map (fun x => ⟨through h a k, b, x.1, x.2⟩) ++ t)
  | circ {a k d b c t1 rest t} : k ≠ [] → d ≠ [] → findObj h a k = .ok (some b) → h[b]? = some (.circ c) → Means h b d t1 →
      Means h a rest t → Means h a ((k, .dict d) :: rest) (t1.map (Assign.add (through h a k)) ++ t)

/-- the object has such a parameter -/
def Settable (h : Heap V) (s : Assign V) : Prop := ∃ l, h[s.obj]? = some (.leaf l) ∧ s.attr ∈ l.attrs

/-! ## lemmas: strings -/

theorem rsplit1_none {s : Name} : rsplit1 s = none ↔ '.' ∉ s := by
  induction s with
  | nil => simp [rsplit1]
  | cons c cs ih =>
    unfold rsplit1
    cases hr : rsplit1 cs with
    | some r =>
      have : ¬ '.' ∉ cs := fun g => by rw [ih.2 g] at hr; cases hr
      simp only [reduceCtorEq, List.mem_cons, false_iff, not_not] at this ⊢
      exact Or.inr this
    | none =>
      have h1 := ih.1 hr
      simp only [List.mem_cons, not_or, h1, not_false_eq_true, and_true]
      by_cases hc : c = '.'
      · simp [hc]
      · simp [hc, Ne.symm hc]

theorem rsplit1_some {s k a : Name} : rsplit1 s = some (k, a) ↔ s = k ++ '.' :: a ∧ '.' ∉ a := by
  induction s generalizing k a with
  | nil => simp [rsplit1]
  | cons c cs ih =>
    unfold rsplit1
    cases hr : rsplit1 cs with
    | some r =>
      obtain ⟨k', a'⟩ := r
      constructor
      · intro e
        simp only [Option.some.injEq, Prod.mk.injEq] at e
        obtain ⟨rfl, rfl⟩ := e
        have := ih.1 hr
        exact ⟨by simp [this.1], this.2⟩
      · rintro ⟨e, ha⟩
        cases k with
        | nil =>
          simp only [List.nil_append, List.cons.injEq] at e
          obtain ⟨-, rfl⟩ := e
          rw [rsplit1_none.2 ha] at hr; cases hr
        | cons x k =>
          simp only [List.cons_append, List.cons.injEq] at e
          obtain ⟨rfl, e⟩ := e
          have := ih.2 ⟨e, ha⟩
          rw [hr] at this
          simp only [Option.some.injEq, Prod.mk.injEq] at this ⊢
          exact ⟨by rw [this.1], this.2⟩
    | none =>
      have hd := rsplit1_none.1 hr
      by_cases hc : c = '.'
      · subst hc
        simp only [if_true, Option.some.injEq, Prod.mk.injEq]
        constructor
        · rintro ⟨rfl, rfl⟩
          exact ⟨rfl, hd⟩
        · rintro ⟨e, ha⟩
          cases k with
          | nil => simp only [List.nil_append, List.cons.injEq, true_and] at e; exact ⟨rfl, e⟩
          | cons x k =>
            simp only [List.cons_append, List.cons.injEq] at e
            exact absurd (by rw [e.2]; simp) hd
      · simp only [if_neg hc, reduceCtorEq, false_iff, not_and]
        intro e ha
        cases k with
        | nil => simp only [List.nil_append, List.cons.injEq] at e; exact hc e.1
        | cons x k =>
          simp only [List.cons_append, List.cons.injEq] at e
          exact hd (by rw [e.2]; simp)

/-! ## lemmas: heaps -/

theorem modify_comm (h : Heap V) (a b : Addr) (f g : Cell V → Cell V) (hfg : ∀ x, f (g x) = g (f x)) :
    (h.modify a f).modify b g = (h.modify b g).modify a f := by
  apply List.ext_getElem?
  intro i
  simp only [List.getElem?_modify]
  by_cases ha : a = i <;> by_cases hb : b = i <;> simp [ha, hb]
  cases h[i]? with
  | none => rfl
  | some x => simp [hfg]

theorem modify_idem (h : Heap V) (a : Addr) (f : Cell V → Cell V) (hf : ∀ x, f (f x) = f x) :
    (h.modify a f).modify a f = h.modify a f := by
  apply List.ext_getElem?
  intro i
  simp only [List.getElem?_modify]
  by_cases ha : a = i <;> simp [ha]
  cases h[i]? with
  | none => rfl
  | some x => simp [hf]

theorem forget_forget (x : Cell V) : x.forget.forget = x.forget := by cases x <;> rfl
theorem forget_put (n : Name) (v : Val V) (x : Cell V) : (x.put n v).forget = x.forget.put n v := by cases x <;> rfl

abbrev uncache (h : Heap V) (x : Addr) : Heap V := h.modify x Cell.forget

theorem uncache_comm (h : Heap V) (x y : Addr) : uncache (uncache h x) y = uncache (uncache h y) x :=
  modify_comm h x y _ _ fun _ => rfl

theorem uncache_idem (h : Heap V) (x : Addr) : uncache (uncache h x) x = uncache h x := modify_idem h x _ forget_forget

theorem clears_comm (xs : List Addr) (h : Heap V) (x : Addr) :
    xs.foldl uncache (uncache h x) = uncache (xs.foldl uncache h) x := by
  induction xs generalizing h with
  | nil => rfl
  | cons y xs ih => simp only [List.foldl_cons]; rw [uncache_comm, ih]

theorem valAt_uncache (h : Heap V) (x b : Addr) (n : Name) : valAt (uncache h x) b n = valAt h b n := by
  unfold valAt
  simp only [List.getElem?_modify]
  by_cases hx : x = b
  · subst hx
    cases hc : h[x]? with
    | none => simp
    | some c => cases c <;> simp [Cell.forget]
  · simp [hx]

theorem changes_uncache (h : Heap V) (x : Addr) (s : Assign V) : s.changes (uncache h x) ↔ s.changes h := by
  unfold Assign.changes
  rw [valAt_uncache]

theorem assign_uncache (h : Heap V) (x : Addr) (s : Assign V) : assign (uncache h x) s = uncache (assign h s) x := by
  unfold assign
  simp only [changes_uncache]
  have hp : (uncache h x).modify s.obj (Cell.put s.attr s.val) = uncache (h.modify s.obj (Cell.put s.attr s.val)) x :=
    modify_comm h x s.obj _ _ (forget_put _ _)
  rw [hp]
  split
  · exact clears_comm _ _ _
  · rfl

theorem runs_uncache (t : List (Assign V)) (h : Heap V) (x : Addr) :
    runs (uncache h x) t = (uncache (runs h t).1 x, (runs h t).2) := by
  induction t generalizing h with
  | nil => rfl
  | cons s t ih =>
    simp only [runs, assign_uncache, ih, changes_uncache]

theorem runs_append (t t' : List (Assign V)) (h : Heap V) :
    runs h (t ++ t') = ((runs (runs h t).1 t').1, (runs h t).2 || (runs (runs h t).1 t').2) := by
  induction t generalizing h with
  | nil => simp [runs]
  | cons s t ih => simp [runs, ih, Bool.or_assoc]

theorem assign_add (h : Heap V) (x : Addr) (s : Assign V) :
    assign h (s.add [x]) = if s.changes h then uncache (assign h s) x else assign h s := by
  unfold assign
  have : (s.add [x]).changes h ↔ s.changes h := Iff.rfl
  simp only [this]
  split
  · simp only [Assign.add, List.cons_append, List.nil_append, List.foldl_cons]
    exact clears_comm _ _ _
  · rfl

theorem runs_add (t : List (Assign V)) (h : Heap V) (x : Addr) :
    runs h (t.map (Assign.add [x])) = (if (runs h t).2 then uncache (runs h t).1 x else (runs h t).1, (runs h t).2) := by
  induction t generalizing h with
  | nil => rfl
  | cons s t ih =>
    have hch : (s.add [x]).changes h ↔ s.changes h := Iff.rfl
    simp only [List.map_cons, runs, assign_add, hch]
    by_cases hc : s.changes h
    · simp only [hc, if_true, decide_true, Bool.true_or]
      rw [runs_uncache]
      simp only [ih]
      split
      · rw [uncache_idem]
      · rfl
    · simp only [hc, if_false, decide_false, Bool.false_or, ih]

/-! ## the shape of a heap: what `set` cannot change -/

/-- an object without the values of its parameters and its stored matrix -/
def Cell.bare : Cell V → Cell V
  | .leaf l => .leaf { l with vals := fun _ => .dict [], cached := false }
  | .circ c => .circ { c with cached := false }
  | .arr n => .arr n

/-- two heaps that differ in values of parameters and stored matrices only -/
def Shape (h g : Heap V) : Prop := h.map Cell.bare = g.map Cell.bare

theorem Shape.get {h g : Heap V} (s : Shape h g) (x : Addr) : h[x]?.map Cell.bare = g[x]?.map Cell.bare := by
  have := congrArg (fun l => l[x]?) s
  simpa using this

theorem Shape.symm {h g : Heap V} (s : Shape h g) : Shape g h := Eq.symm s
theorem Shape.trans {h g k : Heap V} (s : Shape h g) (s' : Shape g k) : Shape h k := Eq.trans s s'
theorem Shape.refl (h : Heap V) : Shape h h := rfl

theorem Shape.len {h g : Heap V} (s : Shape h g) : h.length = g.length := by
  have := congrArg List.length s
  simpa using this

theorem Shape.circ {h g : Heap V} (s : Shape h g) {x : Addr} {c : Circ V} (hc : h[x]? = some (.circ c)) :
    ∃ c', g[x]? = some (.circ c') ∧ { c' with cached := false } = ({ c with cached := false } : Circ V) := by
  have := s.get x
  rw [hc] at this
  cases hg : g[x]? with
  | none => rw [hg] at this; cases this
  | some y =>
    rw [hg] at this
    cases y with
    | circ c' =>
      simp only [Option.map_some, Cell.bare, Option.some.injEq, Cell.circ.injEq] at this
      exact ⟨c', rfl, this.symm⟩
    | leaf l => simp [Cell.bare] at this
    | arr l => simp [Cell.bare] at this

theorem Shape.leaf {h g : Heap V} (s : Shape h g) {x : Addr} {l : Leaf V} (hl : h[x]? = some (.leaf l)) :
    ∃ l', g[x]? = some (.leaf l') ∧ l'.attrs = l.attrs ∧ l'.len = l.len := by
  have := s.get x
  rw [hl] at this
  cases hg : g[x]? with
  | none => rw [hg] at this; cases this
  | some y =>
    rw [hg] at this
    cases y with
    | leaf l' =>
      simp only [Option.map_some, Cell.bare, Option.some.injEq, Cell.leaf.injEq, Leaf.mk.injEq] at this
      exact ⟨l', rfl, this.2.1.symm, this.1.symm⟩
    | circ l => simp [Cell.bare] at this
    | arr l => simp [Cell.bare] at this

theorem Shape.blocks {h g : Heap V} (s : Shape h g) {x : Addr} {c : Circ V} (hc : h[x]? = some (.circ c)) :
    ∃ c', g[x]? = some (.circ c') ∧ c'.blocks = c.blocks := by
  obtain ⟨c', h1, h2⟩ := s.circ hc
  injection h2 with _ h3 _ _
  exact ⟨c', h1, h3⟩

theorem Shape.wf {h g : Heap V} (s : Shape h g) (hw : WF h) : WF g := by
  refine ⟨fun a c hc => ?_, fun a c hc => ?_, fun a c hc => ?_⟩ <;>
    obtain ⟨c', h1, h2⟩ := s.symm.blocks hc <;> rw [← h2]
  · rw [← s.len]; exact hw.closed a c' h1
  · exact hw.plain a c' h1
  · exact hw.nodup a c' h1

theorem findObj_shape {h g : Heap V} (s : Shape h g) (loc : Name) (a : Addr) : findObj h a loc = findObj g a loc := by
  induction hn : loc.length using Nat.strong_induction_on generalizing loc a with
  | _ n ih =>
    conv_lhs => unfold findObj
    conv_rhs => unfold findObj
    by_cases h0 : loc = []
    · rw [if_pos h0, if_pos h0]
    · rw [if_neg h0, if_neg h0]
      have hg := s.get a
      cases hc : h[a]? with
      | none => rw [hc] at hg; cases hga : g[a]? with
        | none => rfl
        | some y => rw [hga] at hg; cases hg
      | some x =>
        rw [hc] at hg
        cases hga : g[a]? with
        | none => rw [hga] at hg; cases hg
        | some y =>
          rw [hga] at hg
          cases x <;> cases y <;> simp only [Option.map_some, Cell.bare, Option.some.injEq, reduceCtorEq, Cell.circ.injEq,
            Circ.mk.injEq] at hg
          · rfl
          · simp only [hg.2.1]
            split
            · rfl
            · exact ih _ (by rw [← hn]; exact split1_getD_lt _ h0) _ _ rfl
          · rfl

theorem through_shape {h g : Heap V} (s : Shape h g) (loc : Name) (a : Addr) : through h a loc = through g a loc := by
  induction hn : loc.length using Nat.strong_induction_on generalizing loc a with
  | _ n ih =>
    conv_lhs => unfold through
    conv_rhs => unfold through
    by_cases h0 : loc = []
    · rw [if_pos h0, if_pos h0]
    · rw [if_neg h0, if_neg h0]
      have hg := s.get a
      cases hc : h[a]? with
      | none => rw [hc] at hg; cases hga : g[a]? with
        | none => rfl
        | some y => rw [hga] at hg; cases hg
      | some x =>
        rw [hc] at hg
        cases hga : g[a]? with
        | none => rw [hga] at hg; cases hg
        | some y =>
          rw [hga] at hg
          cases x <;> cases y <;> simp only [Option.map_some, Cell.bare, Option.some.injEq, reduceCtorEq, Cell.circ.injEq,
            Circ.mk.injEq] at hg
          · rfl
          · simp only [hg.2.1]
            split
            · rfl
            · congr 1
              exact ih _ (by rw [← hn]; exact split1_getD_lt _ h0) _ _ rfl
          · rfl

theorem Means.shape {h g : Heap V} (s : Shape h g) {a : Addr} {d : List (Name × Val V)} {t : List (Assign V)}
    (m : Means h a d t) : Means g a d t := by
  induction m with
  | nil a => exact .nil a
  | @num a k attr v b l rest t h1 h2 h3 h4 h5 ih =>
    obtain ⟨l', g1, -⟩ := s.leaf h4
    rw [through_shape s]
    exact .num h1 h2 (by rw [← findObj_shape s]; exact h3) g1 ih
  | @leaf a k d b l rest t h1 h2 h3 h4 h5 ih =>
    obtain ⟨l', g1, -⟩ := s.leaf h4
    rw [through_shape s]
    exact .leaf h1 h2 (by rw [← findObj_shape s]; exact h3) g1 ih
  | @circ a k d b c t1 rest t h1 h2 h3 h4 h5 h6 ih1 ih2 =>
    obtain ⟨c', g1, -⟩ := s.circ h4
    rw [through_shape s]
    exact .circ h1 h2 (by rw [← findObj_shape s]; exact h3) g1 ih1 ih2

theorem Settable.shape {h g : Heap V} (s : Shape h g) {x : Assign V} (m : Settable h x) : Settable g x := by
  obtain ⟨l, h1, h2⟩ := m
  obtain ⟨l', g1, g2, -⟩ := s.leaf h1
  exact ⟨l', g1, by rw [g2]; exact h2⟩

theorem modify_shape (h : Heap V) (x : Addr) (f : Cell V → Cell V) (hf : ∀ c, (f c).bare = c.bare) : Shape h (h.modify x f) := by
  apply List.ext_getElem?
  intro i
  simp only [List.getElem?_map, List.getElem?_modify]
  by_cases hx : x = i <;> simp [hx]
  cases h[i]? with
  | none => rfl
  | some c => simp [hf]

theorem put_bare (n : Name) (v : Val V) (c : Cell V) : (c.put n v).bare = c.bare := by cases c <;> rfl
theorem forget_bare (c : Cell V) : c.forget.bare = c.bare := by cases c <;> rfl

theorem clears_shape (xs : List Addr) (h : Heap V) : Shape h (xs.foldl uncache h) := by
  induction xs generalizing h with
  | nil => rfl
  | cons x xs ih => exact (modify_shape h x _ forget_bare).trans (ih _)

theorem assign_shape (h : Heap V) (s : Assign V) : Shape h (assign h s) := by
  unfold assign
  simp only
  split
  · exact (modify_shape h _ _ (put_bare _ _)).trans (clears_shape _ _)
  · exact modify_shape h _ _ (put_bare _ _)

theorem runs_shape (t : List (Assign V)) (h : Heap V) : Shape h (runs h t).1 := by
  induction t generalizing h with
  | nil => rfl
  | cons s t ih => exact (assign_shape h s).trans (ih _)

/-! ## `set` of an object without blocks -/

theorem modify_eq_set {h : Heap V} {b : Addr} {x : Cell V} (hb : h[b]? = some x) (f : Cell V → Cell V) :
    h.modify b f = h.set b (f x) := by
  apply List.ext_getElem?
  intro i
  rw [List.getElem?_modify]
  by_cases hi : b = i
  · subst hi
    rw [get_set_self _ (lt_of_get hb), hb]; simp
  · rw [get_set_ne _ (Ne.symm hi)]; simp [hi]

theorem set_same {h : Heap V} {b : Addr} {x : Cell V} (hb : h[b]? = some x) : h.set b x = h := by
  apply List.ext_getElem?
  intro i
  by_cases hi : i = b
  · subst hi
    rw [get_set_self _ (lt_of_get hb), hb]
  · rw [get_set_ne _ hi]

/-- the assignments `obj.set(**d)` stands for -/
def leafAssigns (b : Addr) (d : List (Name × Val V)) : List (Assign V) := d.map fun x => ⟨[], b, x.1, x.2⟩

theorem setLeaf_runs {b : Addr} : ∀ (d : List (Name × Val V)) (h : Heap V) (l : Leaf V) (m : Bool), h[b]? = some (.leaf l) →
    (∀ x ∈ d, x.1 ∈ l.attrs) → ∃ l', setLeaf l d m = (l', .ok (m || (runs h (leafAssigns b d)).2)) ∧
      h.set b (.leaf l') = if m then uncache (runs h (leafAssigns b d)).1 b else (runs h (leafAssigns b d)).1
  | [], h, l, m, hb, _ => by
    refine ⟨if m then { l with cached := false } else l, by simp [setLeaf, leafAssigns, runs], ?_⟩
    cases m with
    | true =>
      simp only [if_true, leafAssigns, List.map_nil, runs]
      rw [uncache, modify_eq_set hb]
      rfl
    | false => simpa [leafAssigns, runs] using set_same hb
  | (n, v) :: d, h, l, m, hb, hd => by
    have hn := hd (n, v) (by simp)
    simp only at hn
    have hput : h.modify b (Cell.put n v) = h.set b (.leaf { l with vals := Function.update l.vals n v }) := modify_eq_set hb _
    have hch : Assign.changes h ⟨[], b, n, v⟩ ↔ l.vals n ≠ v := by simp [Assign.changes, valAt, hb]
    obtain ⟨l', g1, g2⟩ := setLeaf_runs d (h.modify b (Cell.put n v)) { l with vals := Function.update l.vals n v }
      (m || decide (l.vals n ≠ v)) (by rw [hput]; exact get_set_self _ (lt_of_get hb)) (fun x hx => hd x (by simp [hx]))
    rw [hput, List.set_set, ← hput] at g2
    have hrun : runs h (leafAssigns b ((n, v) :: d)) =
        if l.vals n ≠ v then (uncache (runs (h.modify b (Cell.put n v)) (leafAssigns b d)).1 b, true)
        else runs (h.modify b (Cell.put n v)) (leafAssigns b d) := by
      have : leafAssigns b ((n, v) :: d) = ⟨[], b, n, v⟩ :: leafAssigns b d := rfl
      rw [this]
      by_cases hc : l.vals n ≠ v
      · have hA : assign h ⟨[], b, n, v⟩ = uncache (h.modify b (Cell.put n v)) b := by
          unfold assign
          rw [if_pos (hch.2 hc)]
          rfl
        rw [if_pos hc, runs, hA, runs_uncache, decide_eq_true (hch.2 hc), Bool.true_or]
      · have hA : assign h ⟨[], b, n, v⟩ = h.modify b (Cell.put n v) := by
          unfold assign
          rw [if_neg (fun g => hc (hch.1 g))]
        rw [if_neg hc, runs, hA, decide_eq_false (fun g => hc (hch.1 g)), Bool.false_or]
    refine ⟨l', ?_, ?_⟩
    · rw [setLeaf, if_pos hn, g1, hrun]
      by_cases hc : l.vals n ≠ v
      · rw [if_pos hc, decide_eq_true hc]; simp
      · rw [if_neg hc, decide_eq_false hc]; simp
    · rw [g2, hrun]
      by_cases hc : l.vals n ≠ v
      · rw [if_pos hc, decide_eq_true hc, Bool.or_true, if_pos rfl]
        cases m
        · rw [if_neg (by simp)]
        · rw [if_pos rfl, uncache_idem]
      · rw [if_neg hc, decide_eq_false hc, Bool.or_false]

theorem setLeaf_error : ∀ (d : List (Name × Val V)) (l : Leaf V) (m : Bool) (l' : Leaf V) (r : Bool),
    setLeaf l d m = (l', .ok r) → ∀ x ∈ d, x.1 ∈ l.attrs
  | [], l, m, l', r, _, x, hx => by cases hx
  | (n, v) :: d, l, m, l', r, e, x, hx => by
    unfold setLeaf at e
    by_cases hn : n ∈ l.attrs
    · rw [if_pos hn] at e
      rcases List.mem_cons.1 hx with rfl | hx
      · exact hn
      · exact setLeaf_error d _ _ _ _ e x hx
    · rw [if_neg hn] at e; cases e

/-! ## one item -/

/-- what `'k': {…}` means for the circuit at `a` -/
def Entry (h : Heap V) (a : Addr) (k : Name) (d : List (Name × Val V)) (t : List (Assign V)) : Prop :=
  k ≠ [] ∧ d ≠ [] ∧ ∃ b, findObj h a k = .ok (some b) ∧
    ((∃ l, h[b]? = some (.leaf l) ∧ t = d.map fun x => ⟨through h a k, b, x.1, x.2⟩) ∨
     (∃ c t1, h[b]? = some (.circ c) ∧ Means h b d t1 ∧ t = t1.map (Assign.add (through h a k))))

theorem Entry.means {h : Heap V} {a : Addr} {k : Name} {d : List (Name × Val V)} {t : List (Assign V)} (E : Entry h a k d t)
    {rest : List (Name × Val V)} {t' : List (Assign V)} (m : Means h a rest t') : Means h a ((k, .dict d) :: rest) (t ++ t') := by
  obtain ⟨h1, h2, b, h3, ⟨l, h4, rfl⟩ | ⟨c, t1, h4, h5, rfl⟩⟩ := E
  · exact .leaf h1 h2 h3 h4 m
  · exact .circ h1 h2 h3 h4 h5 m

theorem Means.entry {h : Heap V} {a : Addr} {k : Name} {d : List (Name × Val V)} {rest : List (Name × Val V)}
    {T : List (Assign V)} (m : Means h a ((k, .dict d) :: rest) T) :
    ∃ t t', Entry h a k d t ∧ Means h a rest t' ∧ T = t ++ t' := by
  cases m with
  | leaf h1 h2 h3 h4 m => exact ⟨_, _, ⟨h1, h2, _, h3, Or.inl ⟨_, h4, rfl⟩⟩, m, rfl⟩
  | circ h1 h2 h3 h4 h5 m => exact ⟨_, _, ⟨h1, h2, _, h3, Or.inr ⟨_, _, h4, h5, rfl⟩⟩, m, rfl⟩

theorem Entry.num {h : Heap V} {a : Addr} {k attr : Name} {v : V} {t : List (Assign V)} (ha : '.' ∉ attr)
    (E : Entry h a k [(attr, .num v)] t) {rest : List (Name × Val V)} {t' : List (Assign V)} (m : Means h a rest t') :
    Means h a ((k ++ '.' :: attr, .num v) :: rest) (t ++ t') := by
  obtain ⟨h1, h2, b, h3, ⟨l, h4, rfl⟩ | ⟨c, t1, h4, h5, rfl⟩⟩ := E
  · exact .num h1 ha h3 h4 m
  · exfalso
    generalize hd : [(attr, Val.num v)] = d at h5
    cases h5 with
    | nil => cases hd
    | num g1 g2 g3 g4 g5 =>
      simp only [List.cons.injEq, Prod.mk.injEq] at hd
      exact ha (by rw [hd.1.1]; simp)
    | leaf => simp at hd
    | circ => simp at hd

/-- what `obj.set(**d)` means for the object at `b` -/
def Does (h : Heap V) (b : Addr) (d : List (Name × Val V)) (t : List (Assign V)) : Prop :=
  (∃ l, h[b]? = some (.leaf l) ∧ t = leafAssigns b d) ∨ (∃ c, h[b]? = some (.circ c) ∧ Means h b d t)

theorem findObj_step {h : Heap V} {a b : Addr} {c : Circ V} {k : Name} (ha : h[a]? = some (.circ c)) (hk : k ≠ [])
    (hl : c.blocks.lookup (split1 k).1 = some b) :
    findObj h a k = findObj h b ((split1 k).2.getD []) ∧ through h a k = a :: through h b ((split1 k).2.getD []) := by
  constructor
  · conv_lhs => unfold findObj
    rw [if_neg hk, ha]
    simp only [hl]
  · conv_lhs => unfold through
    rw [if_neg hk, ha]
    simp only [hl]

theorem add_nil (t : List (Assign V)) : t.map (Assign.add []) = t := by
  conv_rhs => rw [← List.map_id t]
  rfl

theorem add_add (xs ys : List Addr) (t : List (Assign V)) :
    (t.map (Assign.add ys)).map (Assign.add xs) = t.map (Assign.add (xs ++ ys)) := by
  rw [List.map_map]
  apply List.map_congr_left
  intro s _
  simp [Assign.add]

theorem setDict_ok {sub : Heap V → Addr → List (Name × Val V) → Heap V × Except Err Bool} {h : Heap V}
    (hsub : ∀ b d h' m, sub h b d = (h', .ok m) → ∃ t, Does h b d t ∧ (∀ s ∈ t, Settable h s) ∧ runs h t = (h', m))
    (hw : WF h) {a : Addr} {c : Circ V} (ha : h[a]? = some (.circ c)) {k : Name} {d : List (Name × Val V)} {h' : Heap V} {m : Bool}
    (e : setDict sub h c.blocks k d = (h', .ok m)) :
    ∃ t, Entry h a k d (t.map (Assign.add [a])) ∧ (∀ s ∈ t, Settable h s) ∧ runs h t = (h', m) := by
  unfold setDict at e
  cases hl : c.blocks.lookup (split1 k).1 with
  | none => rw [hl] at e; cases e
  | some b =>
    rw [hl] at e
    simp only at e
    have hk : k ≠ [] := by
      rintro rfl
      exact (hw.plain a c ha _ (lookup_mem hl)).1 rfl
    obtain ⟨hf, ht⟩ := findObj_step ha hk hl
    generalize (split1 k).2.getD [] = rest at e hf ht
    by_cases hr : rest = []
    · subst hr
      rw [if_pos rfl] at e
      cases hs : sub h b d with
      | mk h1 r =>
        rw [hs] at e
        cases r with
        | error x => cases e
        | ok m1 =>
          simp only at e
          split at e
          · cases e
          rename_i hd
          simp only [Prod.mk.injEq, Except.ok.injEq] at e
          obtain ⟨rfl, rfl⟩ := e
          obtain ⟨t, g1, g2, g3⟩ := hsub b d h1 m1 hs
          refine ⟨t, ⟨hk, hd, b, by rw [hf, findObj, if_pos rfl], ?_⟩, g2, g3⟩
          have ht' : through h a k = [a] := by rw [ht, through, if_pos rfl]
          rw [ht']
          rcases g1 with ⟨l, g4, rfl⟩ | ⟨c', g4, g5⟩
          · left
            refine ⟨l, g4, ?_⟩
            rw [leafAssigns, List.map_map]
            rfl
          · exact Or.inr ⟨c', t, g4, g5, rfl⟩
    · rw [if_neg hr] at e
      cases hb : h[b]? with
      | none => rw [hb] at e; cases e
      | some cell =>
        rw [hb] at e
        cases cell with
        | leaf l => cases e
        | arr l => cases e
        | circ c' =>
          simp only at e
          cases hs : sub h b [(rest, .dict d)] with
          | mk h1 r =>
            rw [hs] at e
            cases r with
            | error x => cases e
            | ok m1 =>
              simp only at e
              split at e
              · cases e
              rename_i hd
              simp only [Prod.mk.injEq, Except.ok.injEq] at e
              obtain ⟨rfl, rfl⟩ := e
              obtain ⟨t, g1, g2, g3⟩ := hsub b _ h1 m1 hs
              refine ⟨t, ⟨hk, hd, ?_⟩, g2, g3⟩
              rcases g1 with ⟨l, g4, -⟩ | ⟨c'', g4, g5⟩
              · rw [hb] at g4; cases g4
              · obtain ⟨t0, t', E, M, rfl⟩ := g5.entry
                cases M
                rw [List.append_nil]
                obtain ⟨q1, q2, b2, q3, ⟨l, q4, rfl⟩ | ⟨c2, t1, q4, q5, rfl⟩⟩ := E
                · refine ⟨b2, by rw [hf, q3], Or.inl ⟨l, q4, ?_⟩⟩
                  rw [List.map_map, ht]
                  rfl
                · refine ⟨b2, by rw [hf, q3], Or.inr ⟨c2, t1, q4, q5, ?_⟩⟩
                  rw [add_add, ht]
                  rfl

theorem setLoop_ok {sub : Heap V → Addr → List (Name × Val V) → Heap V × Except Err Bool} {h0 : Heap V} (hw : WF h0)
    (hsub : ∀ h, Shape h0 h → ∀ b d h' m, sub h b d = (h', .ok m) →
      ∃ t, Does h b d t ∧ (∀ s ∈ t, Settable h s) ∧ runs h t = (h', m))
    {a : Addr} {c : Circ V} (ha : h0[a]? = some (.circ c)) : ∀ (kws : List (Name × Val V)) (h : Heap V) (m : Bool) (h' : Heap V)
    (m' : Bool), Shape h0 h → setLoop sub c.blocks h kws m = (h', .ok m') →
    ∃ t, Means h0 a kws (t.map (Assign.add [a])) ∧ (∀ s ∈ t, Settable h0 s) ∧ (runs h t).1 = h' ∧ m' = (m || (runs h t).2)
  | [], h, m, h', m', hs, e => by
    simp only [setLoop, Prod.mk.injEq, Except.ok.injEq] at e
    obtain ⟨rfl, rfl⟩ := e
    exact ⟨[], .nil a, by simp, rfl, by simp [runs]⟩
  | (kw, v) :: r, h, m, h', m', hs, e => by
    unfold setLoop at e
    cases hi : setItem sub h c.blocks kw v with
    | mk h1 res =>
      rw [hi] at e
      cases res with
      | error x => cases e
      | ok m1 =>
        simp only at e
        obtain ⟨c1, hc1, hbl⟩ := hs.blocks ha
        have key : ∃ t, (∀ s ∈ t, Settable h s) ∧ runs h t = (h1, m1) ∧
            ∀ rest t', Means h a rest t' → Means h a ((kw, v) :: rest) (t.map (Assign.add [a]) ++ t') := by
          cases v with
          | num v =>
            unfold setItem at hi
            cases hr : rsplit1 kw with
            | none => rw [hr] at hi; cases hi
            | some ka =>
              obtain ⟨k, attr⟩ := ka
              rw [hr] at hi
              simp only at hi
              rw [← hbl] at hi
              obtain ⟨t, E, g2, g3⟩ := setDict_ok (hsub h hs) (hs.wf hw) hc1 hi
              obtain ⟨rfl, hdot⟩ := rsplit1_some.1 hr
              exact ⟨t, g2, g3, fun rest t' M => E.num hdot M⟩
          | dict d =>
            unfold setItem at hi
            rw [← hbl] at hi
            obtain ⟨t, E, g2, g3⟩ := setDict_ok (hsub h hs) (hs.wf hw) hc1 hi
            exact ⟨t, g2, g3, fun rest t' M => E.means M⟩
        obtain ⟨t, g2, g3, g4⟩ := key
        have hs1 : Shape h0 h1 := by
          have := runs_shape t h
          rw [g3] at this
          exact hs.trans this
        obtain ⟨t', q1, q2, q3, q4⟩ := setLoop_ok hw hsub ha r h1 (m || m1) h' m' hs1 e
        refine ⟨t ++ t', ?_, ?_, ?_, ?_⟩
        · rw [List.map_append]
          exact (g4 r _ (q1.shape hs)).shape hs.symm
        · intro s hsm
          rcases List.mem_append.1 hsm with hsm | hsm
          · exact (g2 s hsm).shape hs.symm
          · exact q2 s hsm
        · rw [runs_append, g3]; exact q3
        · rw [runs_append, g3, q4, Bool.or_assoc]

theorem setObj_ok : ∀ (fuel : ℕ) (h : Heap V) (a : Addr) (kws : List (Name × Val V)) (h' : Heap V) (m : Bool), WF h →
    setObj fuel h a kws = (h', .ok m) → ∃ t, Does h a kws t ∧ (∀ s ∈ t, Settable h s) ∧ runs h t = (h', m)
  | 0, h, a, kws, h', m, _, e => by cases e
  | fuel + 1, h, a, kws, h', m, hw, e => by
    unfold setObj at e
    cases ha : h[a]? with
    | none => rw [ha] at e; cases e
    | some cell =>
      rw [ha] at e
      cases cell with
      | arr n => cases e
      | leaf l =>
        simp only at e
        cases hl : setLeaf l kws false with
        | mk l' r =>
          rw [hl] at e
          simp only [Prod.mk.injEq] at e
          obtain ⟨rfl, rfl⟩ := e
          have hs := setLeaf_error kws l false l' m hl
          obtain ⟨l2, g1, g2⟩ := setLeaf_runs kws h l false ha hs
          rw [hl] at g1
          simp only [Prod.mk.injEq, Except.ok.injEq, Bool.false_or] at g1
          obtain ⟨rfl, rfl⟩ := g1
          refine ⟨leafAssigns a kws, Or.inl ⟨l, ha, rfl⟩, ?_, ?_⟩
          · intro s hsm
            obtain ⟨x, hx, rfl⟩ := List.mem_map.1 hsm
            exact ⟨l, ha, hs x hx⟩
          · rw [g2]; simp
      | circ c =>
        simp only at e
        cases hl : setLoop (setObj fuel) c.blocks h kws false with
        | mk h1 r =>
          rw [hl] at e
          cases r with
          | error x => cases e
          | ok m1 =>
            simp only [Prod.mk.injEq, Except.ok.injEq] at e
            obtain ⟨rfl, rfl⟩ := e
            obtain ⟨t, g1, g2, g3, g4⟩ := setLoop_ok hw
              (fun g hg b d g' m' e' => setObj_ok fuel g b d g' m' (hg.wf hw) e') ha kws h false h1 m1 (Shape.refl h) hl
            refine ⟨t.map (Assign.add [a]), Or.inr ⟨c, ha, g1⟩, ?_, ?_⟩
            · intro s hsm
              obtain ⟨x, hx, rfl⟩ := List.mem_map.1 hsm
              exact g2 x hx
            · rw [runs_add, g3, g4]
              simp

end PyRFtk.Tree
