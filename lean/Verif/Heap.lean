import Verif.Base
import Mathlib.Data.List.Infix
import Mathlib.Data.List.Nodup

/-!
# Model of the object tree of a circuit (C31-C33)

`CircuitModel.lean` treats block objects as values.  Here they are Python objects with an identity: a heap of cells, a
circuit's blocks refer to cells, and two blocks may share one object.  Only what matters for finding, copying, replacing and
changing blocks is kept of an object: its number of ports, its parameters, its blocks, and whether it holds a stored
S-matrix (`self.S is not None`).

Strings are lists of characters.  Recursion of the Python code over the tree of objects is bounded by `fuel` (Python's
recursion limit): `none` stands for RecursionError.
-/

set_option linter.unusedSectionVars false

namespace PyRFtk.Tree

abbrev Name := List Char
scoped notation "Addr" => ℕ

/-- a value passed to `set`: a number, or a dictionary -/
inductive Val (V : Type*)
  | num (v : V)
  | dict (d : List (Name × Val V))

/-- an object without blocks: rfRLC, rfTRL, rfArcObj, rfBase, … -/
structure Leaf (V : Type*) where
  /-- number of ports -/
  len : ℕ
  /-- the parameters `set` accepts: `self.attrs` (rfBase.py:136, rfRLC.py:82, rfTRL.py:196) -/
  attrs : List Name
  /-- their values -/
  vals : Name → Val V
  /-- `self.S is not None` -/
  cached : Bool

/-- an rfCircuit: number of free ports, `self.blocks` (name, object), the parameters given with each block
(`self.blocks[name]['params']`), whether a matrix is stored -/
structure Circ (V : Type*) where
  len : ℕ
  blocks : List (Name × Addr)
  pars : Name → List (Name × V)
  cached : Bool

/-- an object; `arr` is a plain numpy array used as a block -/
inductive Cell (V : Type*)
  | leaf (l : Leaf V)
  | circ (c : Circ V)
  | arr (len : ℕ)

abbrev Heap (V : Type*) := List (Cell V)

variable {V : Type*}

def Cell.len : Cell V → ℕ
  | .leaf l => l.len
  | .circ c => c.len
  | .arr n => n

/-! ## paths -/

/-- `s.split('.', 1)`: what precedes the first dot, and what follows it if there is one -/
def split1 : Name → Name × Option Name
  | [] => ([], none)
  | c :: cs => if c = '.' then ([], some cs) else ((c :: (split1 cs).1), (split1 cs).2)

/-- `s.split('.')` -/
def splitAll : Name → List Name
  | [] => [[]]
  | c :: cs => if c = '.' then [] :: splitAll cs else
    match splitAll cs with
    | [] => [[c]]
    | x :: xs => (c :: x) :: xs

theorem split1_lt : ∀ (s r : Name), (split1 s).2 = some r → r.length < s.length
  | [], r, h => by cases h
  | c :: cs, r, h => by
    unfold split1 at h
    by_cases hc : c = '.'
    · rw [if_pos hc] at h
      injection h with h
      subst h; simp
    · rw [if_neg hc] at h
      have := split1_lt cs r h
      simp only [List.length_cons]; omega

theorem split1_getD_lt (s : Name) (h : s ≠ []) : ((split1 s).2.getD []).length < s.length := by
  cases hs : (split1 s).2 with
  | none => simpa using List.length_pos_iff.2 h
  | some r => exact split1_lt s r hs

/-- `findObj(location)` (rfCircuit.py:272-296).  A missing block gives `None`; going through an object without blocks raises
AttributeError. -/
def findObj (h : Heap V) (a : Addr) (loc : Name) : Except Err (Option Addr) :=
  if loc = [] then .ok (some a) else                                            -- 279
  match h[a]? with
  | some (.circ c) =>
    match c.blocks.lookup (split1 loc).1 with                                   -- 280-282
    | none => .ok none                                                          -- 283-291
    | some b => findObj h b ((split1 loc).2.getD [])
  | _ => .error .attributeError
termination_by loc.length
decreasing_by exact split1_getD_lt _ (by assumption)

/-- one component after the other -/
def descend (h : Heap V) : Addr → List Name → Except Err Addr
  | a, [] => .ok a
  | a, n :: ns => match h[a]? with
    | some (.circ c) => match c.blocks.lookup n with
      | none => .error .keyError
      | some b => descend h b ns
    | _ => .error .attributeError

/-- `object(path)` (rfCircuit.py:301-320) -/
def object (h : Heap V) (a : Addr) (path : Name) : Except Err Addr := descend h a (splitAll path)

/-- the loop of `listBlocks` (rfCircuit.py:250-257) -/
def listOver (sub : Addr → Option (List Name)) : List (Name × Addr) → Option (List Name)
  | [] => some []
  | (n, b) :: bs => match sub b, listOver sub bs with
    | some l, some r => some (n :: l.map (fun p => n ++ '.' :: p) ++ r)
    | _, _ => none

/-- `listBlocks()` (rfCircuit.py:248-259); `none` is RecursionError.  An object without blocks lists nothing (its
AttributeError is swallowed, 256-257). -/
def listBlocks (h : Heap V) : ℕ → Addr → Option (List Name)
  | 0, _ => none
  | fuel + 1, a => match h[a]? with
    | some (.circ c) => listOver (listBlocks h fuel) c.blocks
    | _ => some []

/-! ## copies -/

/-- the copies of the objects of the blocks (`copy.deepcopy(self.blocks)`, rfBase.py:195): within one circuit an object used
twice is copied once (the memo of `deepcopy`) -/
def copyBlocks (cp : Heap V → Addr → Option (Heap V × Addr)) :
    Heap V → List (Name × Addr) → List (Addr × Addr) → Option (Heap V × List (Name × Addr))
  | h, [], _ => some (h, [])
  | h, (n, b) :: bs, memo => match memo.lookup b with
    | some b' => match copyBlocks cp h bs memo with
      | none => none
      | some (h', bs') => some (h', (n, b') :: bs')
    | none => match cp h b with
      | none => none
      | some (h1, b') => match copyBlocks cp h1 bs ((b, b') :: memo) with
        | none => none
        | some (h', bs') => some (h', (n, b') :: bs')

/-- `copy()` (rfBase.py:184-206, rfRLC.py:88-118, rfTRL.py:263-293, rfObject.py:220-247): the new heap and the address of the
copy.  `__deepcopy__` ignores the memo it is given, so an object used in two circuits of the tree is copied twice.  `none` is
RecursionError.  Simplification: the identifier is left out. -/
def copyObj : ℕ → Heap V → Addr → Option (Heap V × Addr)
  | 0, _, _ => none
  | fuel + 1, h, a => match h[a]? with
    | none => none
    | some (.circ c) => match copyBlocks (copyObj fuel) h c.blocks [] with
      | none => none
      | some (h', bs') => some (h' ++ [.circ { c with blocks := bs' }], h'.length)
    | some x => some (h ++ [x], h.length)

/-! ## addblock -/

/-- `self.blocks[name]['object'] = obj` for a name that is there -/
def setBlk (n : Name) (b : Addr) : List (Name × Addr) → List (Name × Addr)
  | [] => []
  | (n', b') :: bs => if n' = n then (n', b) :: bs else (n', b') :: setBlk n b bs

/-- number of ports of the object at an address -/
def lenAt (h : Heap V) (a : Addr) : ℕ := match h[a]? with | some c => c.len | none => 0

/-- `addblock(name, RFobj, …)` (rfCircuit.py:538-732), dotted names included.  `chk` is the outcome of the resolution of the
port names of a *new* block (620-656, modelled in `CircuitModel.lean`); `pr` is the argument `params`. -/
def addblock (fuel : ℕ) (chk : Except Err Unit) (obj : Addr) (pr : List (Name × V)) (h : Heap V) (a : Addr)
    (name : Name) : Heap V × Except Err Unit :=
  match h[a]? with
  | some (.circ c) =>
    let c := { c with cached := false }                                          -- 566-567
    let h := h.set a (.circ c)
    match _hs : (split1 name).2 with
    | some rest =>                                                               -- 569-600
      match c.blocks.lookup (split1 name).1 with
      | none => (h, .error .valueError)                                          -- 572-575
      | some b => match copyObj fuel h b with                                    -- 584
        | none => (h, .error .runtimeError)
        | some (h1, b') => match addblock fuel chk obj pr h1 b' rest with        -- 592
          | (h2, .error e) => (h2, .error e)
          | (h2, .ok _) => (h2.set a (.circ { c with                             -- 593-595
              blocks := setBlk (split1 name).1 b' c.blocks
              pars := if '.' ∈ rest then c.pars else Function.update c.pars (split1 name).1 pr }), .ok ())
    | none =>
      match c.blocks.lookup name with
      | some b =>                                                                -- 602-615
        if lenAt h obj ≠ lenAt h b then
          (h, .error (if (c.blocks.map Prod.fst).contains "object".toList then .valueError else .keyError))
        else (h.set a (.circ { c with blocks := setBlk name obj c.blocks }), .ok ())
      | none => match chk with                                                   -- 620-656
        | .error e => (h, .error e)
        | .ok _ => (h.set a (.circ { c with                                      -- 674-700
            blocks := c.blocks ++ [(name, obj)]
            pars := Function.update c.pars name pr
            len := c.len + lenAt h obj }), .ok ())
  | _ => (h, .error .attributeError)                                             -- 592: the object has no addblock
termination_by name.length
decreasing_by exact split1_lt _ _ (by assumption)

/-! ## specification -/

/-- the object at a path given by its components -/
def walk (h : Heap V) : Addr → List Name → Option Addr
  | a, [] => some a
  | a, n :: ns => match h[a]? with
    | some (.circ c) => match c.blocks.lookup n with
      | none => none
      | some b => walk h b ns
    | _ => none

/-- components joined by dots -/
def join : List Name → Name
  | [] => []
  | [n] => n
  | n :: ns => n ++ '.' :: join ns

/-- a name that `addblock` can register and that paths can address -/
def Plain (n : Name) : Prop := n ≠ [] ∧ '.' ∉ n

/-- every block of every circuit refers to an object, block names are plain and distinct (they are the keys of a dict) -/
structure WF (h : Heap V) : Prop where
  closed : ∀ (a : Addr) c, h[a]? = some (Cell.circ c) → ∀ x ∈ c.blocks, x.2 < h.length
  plain : ∀ (a : Addr) c, h[a]? = some (Cell.circ c) → ∀ x ∈ c.blocks, Plain x.1
  nodup : ∀ (a : Addr) c, h[a]? = some (Cell.circ c) → (c.blocks.map Prod.fst).Nodup

/-! ## findObj, object, listBlocks -/

theorem split1_plain {n : Name} (h : '.' ∉ n) : split1 n = (n, none) := by
  induction n with
  | nil => rfl
  | cons c cs ih =>
    simp only [List.mem_cons, not_or] at h
    unfold split1
    rw [if_neg (fun e => h.1 e.symm), ih h.2]

theorem split1_dot {n : Name} (h : '.' ∉ n) (r : Name) : split1 (n ++ '.' :: r) = (n, some r) := by
  induction n with
  | nil => rfl
  | cons c cs ih =>
    simp only [List.mem_cons, not_or] at h
    simp only [List.cons_append]
    unfold split1
    rw [if_neg (fun e => h.1 e.symm), ih h.2]

theorem splitAll_plain {n : Name} (h : '.' ∉ n) : splitAll n = [n] := by
  induction n with
  | nil => rfl
  | cons c cs ih =>
    simp only [List.mem_cons, not_or] at h
    unfold splitAll
    rw [if_neg (fun e => h.1 e.symm), ih h.2]

theorem splitAll_dot {n : Name} (h : '.' ∉ n) (r : Name) : splitAll (n ++ '.' :: r) = n :: splitAll r := by
  induction n with
  | nil => simp [splitAll]
  | cons c cs ih =>
    simp only [List.mem_cons, not_or] at h
    simp only [List.cons_append]
    conv_lhs => unfold splitAll
    rw [if_neg (fun e => h.1 e.symm), ih h.2]

theorem splitAll_join : ∀ {ns : List Name}, ns ≠ [] → (∀ n ∈ ns, Plain n) → splitAll (join ns) = ns
  | [], h, _ => absurd rfl h
  | [n], _, h => splitAll_plain (h n (by simp)).2
  | n :: m :: ns, _, h => by
    have ih := splitAll_join (ns := m :: ns) (by simp) (fun x hx => h x (by simp [hx]))
    rw [join, splitAll_dot (h n (by simp)).2, ih]
    simp

theorem join_ne_nil : ∀ {ns : List Name}, ns ≠ [] → (∀ n ∈ ns, Plain n) → join ns ≠ []
  | [], h, _ => absurd rfl h
  | [n], _, h => (h n (by simp)).1
  | n :: m :: ns, _, h => by
    rw [join]
    · simp
    · simp

/-- `findObj` follows the components of a dotted path -/
theorem findObj_join (h : Heap V) : ∀ (ns : List Name), (∀ n ∈ ns, Plain n) → ∀ a b,
    findObj h a (join ns) = .ok (some b) ↔ walk h a ns = some b
  | [], _, a, b => by simp [join, findObj, walk]
  | n :: ns, hp, a, b => by
    have hn := hp n (by simp)
    have hne := join_ne_nil (ns := n :: ns) (by simp) hp
    have hs : (split1 (join (n :: ns))).1 = n ∧ (split1 (join (n :: ns))).2.getD [] = join ns := by
      cases ns with
      | nil => simp [join, split1_plain hn.2]
      | cons m ns =>
        rw [join, split1_dot hn.2]
        · simp
        · simp
    unfold findObj walk
    rw [if_neg hne]
    cases h[a]? with
    | none => simp
    | some cell =>
      cases cell with
      | leaf l => simp
      | arr k => simp
      | circ c =>
        simp only [hs.1, hs.2]
        cases c.blocks.lookup n with
        | none => simp
        | some b' => exact findObj_join h ns (fun x hx => hp x (by simp [hx])) b' b

theorem descend_iff (h : Heap V) : ∀ (ns : List Name) a b, descend h a ns = .ok b ↔ walk h a ns = some b
  | [], a, b => by simp [descend, walk]
  | n :: ns, a, b => by
    unfold descend walk
    cases h[a]? with
    | none => simp
    | some cell =>
      cases cell with
      | leaf l => simp
      | arr k => simp
      | circ c =>
        simp only
        cases c.blocks.lookup n with
        | none => simp
        | some b' => exact descend_iff h ns b' b

/-- `findObj` and `object` agree wherever one of them finds an object at a dotted path -/
theorem C33_findObj_object (h : Heap V) (a b : Addr) {ns : List Name} (hne : ns ≠ []) (hp : ∀ n ∈ ns, Plain n) :
    findObj h a (join ns) = .ok (some b) ↔ object h a (join ns) = .ok b := by
  rw [findObj_join h ns hp, object, splitAll_join hne hp, descend_iff]

theorem lookup_mem {n : Name} {b : Addr} {bs : List (Name × Addr)} (h : bs.lookup n = some b) : (n, b) ∈ bs := by
  induction bs with
  | nil => cases h
  | cons x bs ih =>
    obtain ⟨m, c⟩ := x
    rw [List.lookup_cons] at h
    by_cases hm : n = m
    · subst hm
      simp only [beq_self_eq_true] at h
      injection h with h
      subst h; simp
    · have : (n == m) = false := by simpa using hm
      rw [this] at h
      exact List.mem_cons_of_mem _ (ih h)

theorem lookup_of_mem {n : Name} {b : Addr} {bs : List (Name × Addr)} (hnd : (bs.map Prod.fst).Nodup) (h : (n, b) ∈ bs) :
    bs.lookup n = some b := by
  induction bs with
  | nil => cases h
  | cons x bs ih =>
    obtain ⟨m, c⟩ := x
    simp only [List.map_cons, List.nodup_cons] at hnd
    rw [List.lookup_cons]
    rcases List.mem_cons.1 h with g | g
    · injection g with h1 h2
      subst h1 h2
      simp
    · have hm : n ≠ m := by
        rintro rfl
        have g' : n ∈ bs.map Prod.fst := List.mem_map.2 ⟨(n, b), g, rfl⟩
        exact hnd.1 g'
      have : (n == m) = false := by simpa using hm
      rw [this]
      exact ih hnd.2 g

theorem listOver_mem {sub : Addr → Option (List Name)} : ∀ {bs : List (Name × Addr)} {l : List Name},
    listOver sub bs = some l → ∀ p, p ∈ l ↔ ∃ x ∈ bs, p = x.1 ∨ ∃ l' q, sub x.2 = some l' ∧ q ∈ l' ∧ p = x.1 ++ '.' :: q
  | [], l, h, p => by
    simp only [listOver, Option.some.injEq] at h
    subst h; simp
  | (n, b) :: bs, l, h, p => by
    unfold listOver at h
    cases hb : sub b with
    | none => rw [hb] at h; cases h
    | some l1 =>
      cases hr : listOver sub bs with
      | none => rw [hb, hr] at h; cases h
      | some r =>
        rw [hb, hr] at h
        simp only [Option.some.injEq] at h
        subst h
        have ih := listOver_mem hr p
        simp only [List.cons_append, List.mem_cons, List.mem_append, List.mem_map, ih, exists_eq_or_imp, hb,
          Option.some.injEq]
        constructor
        · rintro (h | ⟨q, h1, h2⟩ | h)
          · exact Or.inl (Or.inl h)
          · exact Or.inl (Or.inr ⟨l1, q, rfl, h1, h2.symm⟩)
          · exact Or.inr h
        · rintro ((h | ⟨l', q, rfl, h1, h2⟩) | h)
          · exact Or.inl h
          · exact Or.inr (Or.inl ⟨q, h1, h2.symm⟩)
          · exact Or.inr (Or.inr h)

theorem listOver_sub {sub : Addr → Option (List Name)} : ∀ {bs : List (Name × Addr)} {l : List Name},
    listOver sub bs = some l → ∀ x ∈ bs, ∃ l', sub x.2 = some l'
  | [], l, h, x, hx => by cases hx
  | (n, b) :: bs, l, h, x, hx => by
    unfold listOver at h
    cases hb : sub b with
    | none => rw [hb] at h; cases h
    | some l1 =>
      cases hr : listOver sub bs with
      | none => rw [hb, hr] at h; cases h
      | some r =>
        rcases List.mem_cons.1 hx with rfl | hx
        · exact ⟨l1, hb⟩
        · exact listOver_sub hr x hx

theorem walk_cons {h : Heap V} {a : Addr} {n : Name} {ns : List Name} {b : Addr} : walk h a (n :: ns) = some b ↔
    ∃ c d, h[a]? = some (.circ c) ∧ c.blocks.lookup n = some d ∧ walk h d ns = some b := by
  conv_lhs => unfold walk
  cases h[a]? with
  | none => simp
  | some cell =>
    cases cell with
    | leaf l => simp
    | arr k => simp
    | circ c =>
      simp only [Option.some.injEq, Cell.circ.injEq]
      cases hl : c.blocks.lookup n with
      | none => simp [hl]
      | some d => simp [hl]

theorem listBlocks_mem {h : Heap V} (hw : WF h) : ∀ {fuel : ℕ} {a : Addr} {l : List Name}, listBlocks h fuel a = some l →
    ∀ p, p ∈ l ↔ ∃ ns b, ns ≠ [] ∧ (∀ n ∈ ns, Plain n) ∧ p = join ns ∧ walk h a ns = some b
  | 0, a, l, h', p => by cases h'
  | fuel + 1, a, l, h', p => by
    unfold listBlocks at h'
    cases ha : h[a]? with
    | none =>
      rw [ha] at h'
      simp only [Option.some.injEq] at h'
      subst h'
      simp only [List.not_mem_nil, false_iff]
      rintro ⟨ns, b, h1, h2, h3, h4⟩
      cases ns with
      | nil => exact h1 rfl
      | cons n ns => obtain ⟨c, d, e, _⟩ := walk_cons.1 h4; rw [ha] at e; cases e
    | some cell =>
      have hno : ∀ (hc : ∀ c, cell ≠ .circ c), ¬ ∃ ns b, ns ≠ [] ∧ (∀ n ∈ ns, Plain n) ∧ p = join ns ∧ walk h a ns = some b := by
        rintro hc ⟨ns, b, h1, h2, h3, h4⟩
        cases ns with
        | nil => exact h1 rfl
        | cons n ns =>
          obtain ⟨c, d, e, _⟩ := walk_cons.1 h4
          rw [ha] at e
          injection e with e
          exact hc c e
      rw [ha] at h'
      cases cell with
      | leaf x =>
        simp only [Option.some.injEq] at h'
        subst h'
        simp only [List.not_mem_nil, false_iff]
        exact hno (by simp)
      | arr x =>
        simp only [Option.some.injEq] at h'
        subst h'
        simp only [List.not_mem_nil, false_iff]
        exact hno (by simp)
      | circ c =>
        simp only at h'
        rw [listOver_mem h' p]
        constructor
        · rintro ⟨⟨n, b⟩, hx, hp | ⟨l', q, h1, h2, h3⟩⟩
          · refine ⟨[n], b, by simp, ?_, hp, ?_⟩
            · simpa using hw.plain a c ha _ hx
            · rw [walk_cons]
              exact ⟨c, b, ha, lookup_of_mem (hw.nodup a c ha) hx, rfl⟩
          · obtain ⟨ns, b', g1, g2, rfl, g4⟩ := (listBlocks_mem hw h1 q).1 h2
            refine ⟨n :: ns, b', by simp, ?_, ?_, ?_⟩
            · intro m hm
              rcases List.mem_cons.1 hm with rfl | hm
              · exact hw.plain a c ha _ hx
              · exact g2 m hm
            · rw [h3]
              cases ns with
              | nil => exact absurd rfl g1
              | cons m ns => rfl
            · rw [walk_cons]
              exact ⟨c, b, ha, lookup_of_mem (hw.nodup a c ha) hx, g4⟩
        · rintro ⟨ns, b, h1, h2, rfl, h4⟩
          cases ns with
          | nil => exact absurd rfl h1
          | cons n ns =>
            obtain ⟨c', d, e1, e2, e3⟩ := walk_cons.1 h4
            rw [ha] at e1
            injection e1 with e1
            injection e1 with e1
            subst e1
            refine ⟨(n, d), lookup_mem e2, ?_⟩
            cases ns with
            | nil => exact Or.inl rfl
            | cons m ns =>
              right
              obtain ⟨l', hl'⟩ := listOver_sub h' (n, d) (lookup_mem e2)
              refine ⟨l', join (m :: ns), hl', ?_, rfl⟩
              rw [listBlocks_mem hw hl']
              exact ⟨m :: ns, b, by simp, fun x hx => h2 x (by simp at hx ⊢; tauto), rfl, e3⟩

/-- **C33 (listing).**  In every tree of circuits (any depth, objects shared or not), the paths `listBlocks` lists are exactly
the dotted paths at which `findObj` finds an object; `object` finds the same one. -/
theorem C33_listBlocks {h : Heap V} (hw : WF h) {fuel : ℕ} {a : Addr} {l : List Name} (hl : listBlocks h fuel a = some l) :
    (∀ p ∈ l, ∃ b, findObj h a p = .ok (some b) ∧ object h a p = .ok b) ∧
    (∀ ns b, ns ≠ [] → (∀ n ∈ ns, Plain n) → findObj h a (join ns) = .ok (some b) → join ns ∈ l) := by
  refine ⟨fun p hp => ?_, fun ns b h1 h2 h3 => ?_⟩
  · obtain ⟨ns, b, h1, h2, rfl, h4⟩ := (listBlocks_mem hw hl p).1 hp
    have hf := (findObj_join h ns h2 a b).2 h4
    exact ⟨b, hf, (C33_findObj_object h a b h1 h2).1 hf⟩
  · exact (listBlocks_mem hw hl _).2 ⟨ns, b, h1, h2, rfl, (findObj_join h ns h2 a b).1 h3⟩

theorem plain_prefix {n m q r : Name} (hn : '.' ∉ n) (hm : '.' ∉ m) (h : n ++ '.' :: q = m ++ '.' :: r) : n = m ∧ q = r := by
  have h1 := split1_dot hn q
  rw [h, split1_dot hm r] at h1
  simp only [Prod.mk.injEq, Option.some.injEq] at h1
  exact ⟨h1.1.symm, h1.2.symm⟩

theorem listBlocks_nodup {h : Heap V} (hw : WF h) : ∀ {fuel : ℕ} {a : Addr} {l : List Name}, listBlocks h fuel a = some l →
    l.Nodup
  | 0, a, l, h' => by cases h'
  | fuel + 1, a, l, h' => by
    unfold listBlocks at h'
    cases ha : h[a]? with
    | none => rw [ha] at h'; simp only [Option.some.injEq] at h'; subst h'; simp
    | some cell =>
      rw [ha] at h'
      cases cell with
      | leaf x => simp only [Option.some.injEq] at h'; subst h'; simp
      | arr x => simp only [Option.some.injEq] at h'; subst h'; simp
      | circ c =>
        simp only at h'
        have hpl := hw.plain a c ha
        have hnd := hw.nodup a c ha
        clear ha
        generalize c.blocks = bs at h' hpl hnd
        induction bs generalizing l with
        | nil => simp only [listOver, Option.some.injEq] at h'; subst h'; simp
        | cons x bs ih =>
          obtain ⟨n, b⟩ := x
          unfold listOver at h'
          cases hb : listBlocks h fuel b with
          | none => rw [hb] at h'; cases h'
          | some l1 =>
            cases hr : listOver (listBlocks h fuel) bs with
            | none => rw [hb, hr] at h'; cases h'
            | some r =>
              rw [hb, hr] at h'
              simp only [Option.some.injEq] at h'
              subst h'
              simp only [List.map_cons, List.nodup_cons] at hnd
              have hn := (hpl (n, b) (by simp)).2
              have ihr := ih r hr (fun x hx => hpl x (by simp [hx])) hnd.2
              have hfst : ∀ p, p ∈ r → p ≠ n ∧ ∀ q, p ≠ n ++ '.' :: q := by
                intro p hp
                obtain ⟨x, hx, h1⟩ := (listOver_mem hr p).1 hp
                have hxn : x.1 ≠ n := by
                  rintro rfl
                  exact hnd.1 (List.mem_map_of_mem (f := Prod.fst) hx)
                have hxp := (hpl x (by simp [hx])).2
                rcases h1 with rfl | ⟨l', q, -, -, rfl⟩
                · refine ⟨hxn, fun q hq => hxp ?_⟩
                  rw [hq]; simp
                · refine ⟨fun e => hn ?_, fun q' hq => hxn (plain_prefix hxp hn hq).1⟩
                  rw [← e]; simp
              rw [List.cons_append, List.nodup_cons, List.nodup_append]
              refine ⟨?_, ?_, ihr, ?_⟩
              · simp only [List.mem_append, List.mem_map, not_or, not_exists, not_and]
                refine ⟨fun q _ e => hn ?_, fun hp => (hfst n hp).1 rfl⟩
                rw [← e]; simp
              · refine (listBlocks_nodup hw hb).map ?_
                intro q q' e
                exact (plain_prefix hn hn e).2
              · intro p hp p' hp' e
                subst e
                obtain ⟨q, -, rfl⟩ := List.mem_map.1 hp
                exact (hfst _ hp').2 q rfl

/-- **C33 (listing, no repetition).** -/
theorem C33_listBlocks_nodup {h : Heap V} (hw : WF h) {fuel : ℕ} {a : Addr} {l : List Name}
    (hl : listBlocks h fuel a = some l) : l.Nodup := listBlocks_nodup hw hl

/-- **C33 (listing ends).**  For trees without a circuit inside itself (some rank decreases from a circuit to its blocks)
`listBlocks` returns. -/
theorem C33_listBlocks_ends {h : Heap V} (rank : Addr → ℕ)
    (hr : ∀ (a : Addr) c, h[a]? = some (Cell.circ c) → ∀ x ∈ c.blocks, rank x.2 < rank a) :
    ∀ (fuel : ℕ) (a : Addr), rank a < fuel → ∃ l, listBlocks h fuel a = some l
  | 0, a, h' => by omega
  | fuel + 1, a, h' => by
    unfold listBlocks
    cases ha : h[a]? with
    | none => exact ⟨_, rfl⟩
    | some cell =>
      cases cell with
      | leaf x => exact ⟨_, rfl⟩
      | arr x => exact ⟨_, rfl⟩
      | circ c =>
        simp only
        have hc := hr a c ha
        clear ha
        generalize c.blocks = bs at hc
        induction bs with
        | nil => exact ⟨_, rfl⟩
        | cons x bs ih =>
          obtain ⟨l, hl⟩ := C33_listBlocks_ends rank hr fuel x.2 (by have := hc x (by simp); omega)
          obtain ⟨r, hr'⟩ := ih fun y hy => hc y (by simp [hy])
          unfold listOver
          simp only [hl, hr']
          exact ⟨_, rfl⟩

end PyRFtk.Tree
