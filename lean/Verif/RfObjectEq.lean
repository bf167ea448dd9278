import Verif.RfObjectProps

/-!
# C73: comparing two measured-data objects (`==`)

`rfObject.__eq__` (rfObject.py:379-406) compares the attribute dictionaries of two objects: `fs` and `Ss` with `np.allclose`,
everything else with `!=`, whose result is used as a truth value.
-/

namespace PyRFtk.RfObject.Eqv

/-! ## Python values -/

/-- what depends on the installed numpy: the truth value of an array without elements (False with a warning before 2.2, ValueError
since), and `!=` of arrays that cannot be broadcast (True with a warning before 1.25, ValueError since) -/
structure Np where
  emptyTruth : Except Err Bool
  noBroadcast : Except Err Bool

/-- the numpy of the time of writing of most of the code -/
def Np.old : Np := ⟨.ok false, .ok true⟩
/-- numpy 2.2 and later -/
def Np.new : Np := ⟨.error .valueError, .error .valueError⟩

/-- values compared by value: None, texts, numbers, flags, lists of texts or numbers, dictionaries of options -/
inductive P
  | none
  | str (s : String)
  | strs (l : List String)
  | nat (n : ℕ)
  | num (x : ℝ)
  | nums (l : List ℝ)
  | flag (b : Bool)
  | opts (k : ℕ)

/-- a numpy array: which object it is, its shape and its entries -/
structure Arr where
  addr : ℕ
  shape : List ℕ
  data : List ℂ

/-- a value without parts that are compared separately; `ident` is an object without `__eq__` of its own (a function, an
interpolator) -/
inductive Item
  | plain (p : P)
  | arr (a : Arr)
  | ident (addr : ℕ)

/-- a value of an attribute -/
inductive Val
  | item (i : Item)
  /-- a tuple -/
  | tup (l : List Item)
  /-- a dictionary -/
  | dict (l : List (String × Item))
  /-- `fs`: a 1-D array -/
  | vec (l : List ℝ)
  /-- `Ss`: a stack of matrices -/
  | stack (n : ℕ) (l : List (Mat n))

/-- numpy broadcasting of two shapes, last axis first -/
def bshape : List ℕ → List ℕ → Option (List ℕ)
  | [], t => some t
  | s, [] => some s
  | a :: s, b :: t =>
    match bshape s t with
    | none => none
    | some u => if a = b then some (a :: u) else if a = 1 then some (b :: u) else if b = 1 then some (a :: u) else none

/-- the truth value of an array of comparisons with this shape; `one` is its only element if it has one -/
def truth (np : Np) (shape : List ℕ) (one : Bool) : Except Err Bool :=
  if shape.prod = 0 then np.emptyTruth else if shape.prod = 1 then .ok one else .error .valueError

open Classical in
/-- `bool(x != y)` for two arrays -/
noncomputable def neArr (np : Np) (a b : Arr) : Except Err Bool :=
  match bshape a.shape.reverse b.shape.reverse with
  | none => np.noBroadcast
  | some s => truth np s (decide (a.data ≠ b.data))

open Classical in
/-- `bool(x != y)`.  Simplification: an array compared with something that is not an array is different in every element (true of
None, texts and objects, the only cases that occur) -/
noncomputable def neItem (np : Np) : Item → Item → Except Err Bool
  | .plain p, .plain q => .ok (decide (p ≠ q))
  | .ident i, .ident j => .ok (decide (i ≠ j))
  | .arr a, .arr b => neArr np a b
  | .arr a, _ => truth np a.shape true
  | _, .arr b => truth np b.shape true
  | _, _ => .ok true

open Classical in
/-- are two elements of a tuple or dictionary equal: the same object, or `bool(x == y)` (`PyObject_RichCompareBool`) -/
noncomputable def eqItem (np : Np) : Item → Item → Except Err Bool
  | .plain p, .plain q => .ok (decide (p = q))
  | .ident i, .ident j => .ok (decide (i = j))
  | .arr a, .arr b => if a.addr = b.addr then .ok true else
    match bshape a.shape.reverse b.shape.reverse with
    | none => match np.noBroadcast with | .ok d => .ok (!d) | .error e => .error e
    | some s => truth np s (decide (a.data = b.data))
  | .arr a, _ => truth np a.shape false
  | _, .arr b => truth np b.shape false
  | _, _ => .ok false

/-- `!=` of tuples: the elements are compared until two differ, then the lengths -/
noncomputable def neTup (np : Np) : List Item → List Item → Except Err Bool
  | [], [] => .ok false
  | x :: xs, y :: ys => match eqItem np x y with
    | .error e => .error e
    | .ok true => neTup np xs ys
    | .ok false => .ok true
  | _, _ => .ok true

/-- `!=` of dictionaries of the same length: the values of the keys of the first are compared until two differ -/
noncomputable def neDictLoop (np : Np) (other : List (String × Item)) : List (String × Item) → Except Err Bool
  | [] => .ok false
  | (k, x) :: r => match other.lookup k with
    | none => .ok true
    | some y => match eqItem np x y with
      | .error e => .error e
      | .ok true => neDictLoop np other r
      | .ok false => .ok true

/-- `!=` of dictionaries -/
noncomputable def neDict (np : Np) (a b : List (String × Item)) : Except Err Bool :=
  if a.length ≠ b.length then .ok true else neDictLoop np b a

/-- `bool(x != y)` of two attributes other than `fs` and `Ss` -/
noncomputable def neVal (np : Np) : Val → Val → Except Err Bool
  | .item i, .item j => neItem np i j
  | .tup l, .tup m => neTup np l m
  | .dict l, .dict m => neDict np l m
  | _, _ => .ok true

/-- `np.isclose(x, y)` with the default tolerances -/
def Close (x y : ℂ) : Prop := ‖x - y‖ ≤ 1 / 10 ^ 8 + 1 / 10 ^ 5 * ‖y‖

open Classical in
/-- `np.allclose` of two stacks of as many matrices; matrices of another size are broadcast when one of them is 1 x 1 -/
noncomputable def closeStack {n m : ℕ} (l : List (Mat n)) (l' : List (Mat m)) : Except Err Bool :=
  if n = m ∨ n = 1 ∨ m = 1 then
    .ok (decide (∀ (k : ℕ) (S : Mat n) (S' : Mat m), l[k]? = some S → l'[k]? = some S' → ∀ (i j : Fin n) (i' j' : Fin m),
      (n = m → (i : ℕ) = (i' : ℕ) ∧ (j : ℕ) = (j' : ℕ)) → Close (S i j) (S' i' j')))
  else .error .valueError

open Classical in
/-- `np.allclose` of the values of `fs` or of `Ss`, rfObject.py:392-394; other values do not occur -/
noncomputable def allClose : Val → Val → Except Err Bool
  | .vec l, .vec l' => .ok (decide (∀ (k : ℕ) (x y : ℝ), l[k]? = some x → l'[k]? = some y → Close (x : ℂ) (y : ℂ)))
  | .stack _ l, .stack _ l' => closeStack l l'
  | _, _ => .error .typeError

/-! ## `__eq__` -/

/-- an attribute dictionary, in order of insertion -/
abbrev Attrs := List (String × Val)

/-- `len(obj.fs)` -/
def lenFs (d : Attrs) : Except Err ℕ :=
  match d.lookup "fs" with
  | some (.vec l) => .ok l.length
  | some _ => .error .typeError
  | none => .error .attributeError

/-- what the loop adds for one attribute, rfObject.py:384-398: is it a difference -/
noncomputable def differs (np : Np) (a b : Attrs) (kv : String × Val) : Except Err Bool :=
  match b.lookup kv.1 with
  | none => .ok true
  | some w =>
    if kv.1 = "fs" ∨ kv.1 = "Ss" then
      match lenFs a with
      | .error e => .error e
      | .ok p => match lenFs b with
        | .error e => .error e
        | .ok q => if p ≠ q then .ok true else
          match allClose kv.2 w with
          | .error e => .error e
          | .ok c => .ok (!c)
    else neVal np kv.2 w

/-- what stands on the right of `==`: an object with an attribute dictionary, or one without (None, a number, an array) -/
inductive Other
  | obj (d : Attrs)
  | noDict

/-- `rfObject.__eq__`, rfObject.py:379-406 -/
noncomputable def eq (np : Np) (a : Attrs) : Other → Except Err Bool
  | .noDict => .error .attributeError                                          -- 382
  | .obj b => match mapE (differs np a b) a with
    | .error e => .error e
    | .ok ds => .ok (!ds.any id && b.all fun kv => decide (kv.1 ∈ a.map Prod.fst))     -- 399-406

/-! ## The attributes of an rfObject -/

/-- an rfObject with `n` ports; `Zcs`, `Gms` and `S` are arrays; `interpolators` is `none` while there are no attributes `interpM`,
`interpA`, `some none` when they are None (after setS), otherwise the two objects; `file` are the attributes set by `read_tsf` -/
structure Rf (n : ℕ) where
  args : List Item
  kwargs : List (String × Item)
  Id : String
  N : ℕ
  ports : List String
  Zbase : ℝ
  funit : String
  fscale : ℝ
  flim : List ℝ
  interp : String
  interpkws : ℕ
  xpos : List ℝ
  fs : List ℝ
  Ss : List (Mat n)
  sorted : Bool
  Zcs : Arr
  Gms : Arr
  touchstone : Option String
  interpOK : Bool
  f : Option ℝ
  S : Option Arr
  interpolators : Option (Option (ℕ × ℕ))
  file : Option (P × P × P × P × P)

/-- a number or None -/
def optNum : Option ℝ → P
  | none => .none
  | some x => .num x

/-- a text or None -/
def optStr : Option String → P
  | none => .none
  | some x => .str x

/-- an array or None -/
def optArr : Option Arr → Item
  | none => .plain .none
  | some a => .arr a

/-- `interpM` and `interpA`, rfObject.py:479-480, 572-573 -/
def interpAttrs : Option (Option (ℕ × ℕ)) → Attrs
  | none => []
  | some none => [("interpA", .item (.plain .none)), ("interpM", .item (.plain .none))]
  | some (some (a, m)) => [("interpA", .item (.ident a)), ("interpM", .item (.ident m))]

/-- the attributes set by `read_tsf`, rfObject.py:654-660 -/
def fileAttrs : Option (P × P × P × P × P) → Attrs
  | none => []
  | some (a, b, c, d, e) => [("part", .item (.plain a)), ("numbering", .item (.plain b)), ("markers", .item (.plain c)),
      ("shape", .item (.plain d)), ("variables", .item (.plain e))]

/-- the attribute dictionary, rfObject.py:90-214 -/
def Rf.attrs {n : ℕ} (r : Rf n) : Attrs :=
  [("got_args", .item (.plain (.flag (r.args ≠ [])))), ("args", .tup r.args), ("kwargs", .dict r.kwargs), ("Id", .item (.plain (.str r.Id))),
   ("alias", .item (.plain (.opts 0))), ("N", .item (.plain (.nat r.N))), ("ports", .item (.plain (.strs r.ports))),
   ("Zbase", .item (.plain (.num r.Zbase))), ("funit", .item (.plain (.str r.funit))), ("fscale", .item (.plain (.num r.fscale))),
   ("flim", .item (.plain (.nums r.flim))), ("interp", .item (.plain (.str r.interp))),
   ("interpkws", .item (.plain (.opts r.interpkws))), ("xpos", .item (.plain (.nums r.xpos))), ("fs", .vec r.fs),
   ("sorted", .item (.plain (.flag r.sorted))), ("Ss", .stack n r.Ss), ("Zcs", .item (.arr r.Zcs)), ("Gms", .item (.arr r.Gms)),
   ("touchstone", .item (.plain (optStr r.touchstone))), ("interpOK", .item (.plain (.flag r.interpOK))),
   ("f", .item (.plain (optNum r.f))), ("S", .item (optArr r.S))] ++ fileAttrs r.file ++ interpAttrs r.interpolators

/-- `a == b` for two rfObjects -/
noncomputable def Rf.eq {n m : ℕ} (np : Np) (a : Rf n) (b : Rf m) : Except Err Bool := Eqv.eq np a.attrs (.obj b.attrs)

/-! ## Copies -/

/-- `copy.deepcopy` of a value: arrays and other objects are new ones, at the addresses `g` -/
def Item.copied (g : ℕ → ℕ) : Item → Item
  | .plain p => .plain p
  | .arr a => .arr { a with addr := g a.addr }
  | .ident i => .ident (g i)

/-- `obj.copy()`, rfObject.py:219-247 -/
def Rf.copied {n : ℕ} (g : ℕ → ℕ) (r : Rf n) : Rf n :=
  { r with
    args := r.args.map (Item.copied g)
    kwargs := r.kwargs.map fun kv => (kv.1, kv.2.copied g)
    Zcs := { r.Zcs with addr := g r.Zcs.addr }
    Gms := { r.Gms with addr := g r.Gms.addr }
    S := r.S.map fun a => { a with addr := g a.addr }
    interpolators := r.interpolators.map fun o => o.map fun ij => (g ij.1, g ij.2) }

/-- `np.array(a.tolist())`: without rows the number of columns is forgotten -/
def Arr.rebuilt (a : Arr) : Arr :=
  { a with shape := match a.shape with | 0 :: _ => [0] | s => s }

/-- `pickle.loads(pickle.dumps(obj))`, rfObject.py:252-283 (for an object with at least one frequency) -/
def Rf.pickled {n : ℕ} (g : ℕ → ℕ) (r : Rf n) : Rf n :=
  { r.copied g with
    Zcs := { r.Zcs with addr := g r.Zcs.addr }.rebuilt
    Gms := { r.Gms with addr := g r.Gms.addr }.rebuilt
    interpOK := false
    interpolators := some none }

/-! ## Specification -/

/-- the same settings, and the same history as far as it can be seen -/
def SameSettings {n m : ℕ} (a : Rf n) (b : Rf m) : Prop :=
  a.Id = b.Id ∧ a.N = b.N ∧ a.ports = b.ports ∧ a.Zbase = b.Zbase ∧ a.funit = b.funit ∧ a.fscale = b.fscale ∧ a.flim = b.flim ∧
    a.interp = b.interp ∧ a.interpkws = b.interpkws ∧ a.xpos = b.xpos ∧ a.sorted = b.sorted ∧ a.touchstone = b.touchstone ∧
    a.interpOK = b.interpOK ∧ a.f = b.f ∧ a.file = b.file

/-- the same frequencies and matrices up to numpy's default tolerances -/
def SameData {n m : ℕ} (a : Rf n) (b : Rf m) : Prop :=
  a.fs.length = b.fs.length ∧ (∀ (k : ℕ) (x y : ℝ), a.fs[k]? = some x → b.fs[k]? = some y → Close (x : ℂ) (y : ℂ)) ∧
    ∀ (k : ℕ) (S : Mat n) (S' : Mat m), a.Ss[k]? = some S → b.Ss[k]? = some S' →
      ∀ (i j : Fin n) (i' j' : Fin m), (i : ℕ) = (i' : ℕ) → (j : ℕ) = (j' : ℕ) → Close (S i j) (S' i' j')

/-- an object that was never evaluated, made without an array as argument: no keyword is an array, no port impedances -/
structure Fresh {n : ℕ} (a : Rf n) : Prop where
  args : a.args = []
  kwargs : ∀ kv ∈ a.kwargs, ∃ p, kv.2 = .plain p
  keys : (a.kwargs.map Prod.fst).Nodup
  S : a.S = none
  zcs : a.Zcs.shape.prod = 0
  gms : a.Gms.shape.prod = 0
  ips : a.interpolators = none ∨ a.interpolators = some none

/-! ## Lemmas -/

variable {n m : ℕ} {np : Np}

theorem differs_item (a : Rf n) (b : Rf m) (k : String) (v : Val) (w : Val) (hk : ¬ (k = "fs" ∨ k = "Ss"))
    (hb : b.attrs.lookup k = some w) : differs np a.attrs b.attrs (k, v) = neVal np v w := by
  unfold differs
  simp only [hb, hk, if_false]

theorem differs_absent (a b : Attrs) (k : String) (v : Val) (hb : b.lookup k = none) : differs np a b (k, v) = .ok true := by
  unfold differs
  simp only [hb]

theorem differs_fs (a : Rf n) (b : Rf m) : differs np a.attrs b.attrs ("fs", .vec a.fs) =
    if a.fs.length ≠ b.fs.length then .ok true else
      match allClose (.vec a.fs) (.vec b.fs) with
      | .error e => .error e
      | .ok c => .ok (!c) := rfl

theorem differs_Ss (a : Rf n) (b : Rf m) : differs np a.attrs b.attrs ("Ss", .stack n a.Ss) =
    if a.fs.length ≠ b.fs.length then .ok true else
      match allClose (.stack n a.Ss) (.stack m b.Ss) with
      | .error e => .error e
      | .ok c => .ok (!c) := rfl

theorem eq_obj_true {a b : Attrs} : eq np a (.obj b) = .ok true ↔
    (∀ kv ∈ a, differs np a b kv = .ok false) ∧ ∀ kv ∈ b, kv.1 ∈ a.map Prod.fst := by
  unfold eq
  dsimp only
  cases hm : mapE (differs np a b) a with
  | error e =>
    simp only
    refine ⟨fun h => (by cases h), fun h => ?_⟩
    obtain ⟨x, hx, hx2⟩ := mapE_eq_error hm
    rw [h.1 x hx] at hx2; cases hx2
  | ok ds =>
    have h2 := mapE_eq_ok.1 hm
    have key : (∀ kv ∈ a, differs np a b kv = .ok false) ↔ ds.any id = false := by
      clear hm
      generalize differs np a b = F at h2
      induction h2 with
      | nil => simp
      | @cons x y xs ys h1 _ ih =>
        rw [List.forall_mem_cons, ih, h1]
        cases y <;> simp
    rw [key]
    simp

theorem eq_obj_error {a b : Attrs} {kv : String × Val} {e : Err} (hm : kv ∈ a) (h : differs np a b kv = .error e)
    (hall : ∀ kv ∈ a, ∀ e', differs np a b kv = .error e' → e' = e) : eq np a (.obj b) = .error e := by
  unfold eq
  dsimp only
  cases hm2 : mapE (differs np a b) a with
  | error e' =>
    obtain ⟨x, hx, hx2⟩ := mapE_eq_error hm2
    rw [hall x hx e' hx2]
  | ok ds =>
    exfalso
    have h2 := mapE_eq_ok.1 hm2
    clear hm2 hall
    generalize differs np a b = F at h2 h
    induction h2 with
    | nil => cases hm
    | @cons x y xs ys h1 _ ih =>
      rcases List.mem_cons.1 hm with rfl | hm
      · rw [h] at h1; cases h1
      · exact ih hm

theorem eq_obj_ok {a b : Attrs} (h : ∀ kv ∈ a, ∃ d, differs np a b kv = .ok d) : ∃ r, eq np a (.obj b) = .ok r := by
  unfold eq
  dsimp only
  cases hm : mapE (differs np a b) a with
  | error e =>
    obtain ⟨x, hx, hx2⟩ := mapE_eq_error hm
    obtain ⟨d, hd⟩ := h x hx
    rw [hd] at hx2; cases hx2
  | ok ds => exact ⟨_, rfl⟩

/-- numpy complains with ValueError only -/
def Np.Sane (np : Np) : Prop :=
  (∀ e, np.emptyTruth = .error e → e = .valueError) ∧ ∀ e, np.noBroadcast = .error e → e = .valueError

theorem old_sane : Np.old.Sane := ⟨fun _ h => (by cases h), fun _ h => (by cases h)⟩
theorem new_sane : Np.new.Sane := ⟨fun _ h => (by cases h; rfl), fun _ h => (by cases h; rfl)⟩

theorem truth_error (hs : np.Sane) {s : List ℕ} {o : Bool} {e : Err} (h : truth np s o = .error e) : e = .valueError := by
  unfold truth at h
  split at h
  · exact hs.1 e h
  · split at h
    · cases h
    · cases h; rfl

theorem neItem_error (hs : np.Sane) {i j : Item} {e : Err} (h : neItem np i j = .error e) : e = .valueError := by
  cases i <;> cases j <;> simp only [neItem] at h <;> first | cases h | exact truth_error hs h | skip
  unfold neArr at h
  split at h
  · exact hs.2 e h
  · exact truth_error hs h

theorem eqItem_error (hs : np.Sane) {i j : Item} {e : Err} (h : eqItem np i j = .error e) : e = .valueError := by
  cases i <;> cases j <;> simp only [eqItem] at h <;> first | cases h | exact truth_error hs h | skip
  split at h
  · cases h
  · split at h
    · split at h
      · cases h
      · rename_i e' he
        injection h with h
        exact hs.2 e (h ▸ he)
    · exact truth_error hs h

theorem neTup_error (hs : np.Sane) {e : Err} : ∀ {l l' : List Item}, neTup np l l' = .error e → e = .valueError
  | [], [], h => by simp [neTup] at h
  | [], _ :: _, h => by simp [neTup] at h
  | _ :: _, [], h => by simp [neTup] at h
  | x :: xs, y :: ys, h => by
    unfold neTup at h
    split at h
    · rename_i e' he
      injection h with h
      exact eqItem_error hs (h ▸ he)
    · exact neTup_error hs h
    · cases h

theorem neDictLoop_error (hs : np.Sane) {e : Err} {o : List (String × Item)} :
    ∀ {l : List (String × Item)}, neDictLoop np o l = .error e → e = .valueError
  | [], h => by simp [neDictLoop] at h
  | (k, x) :: xs, h => by
    unfold neDictLoop at h
    split at h
    · cases h
    · split at h
      · rename_i e' he
        injection h with h
        exact eqItem_error hs (h ▸ he)
      · exact neDictLoop_error hs h
      · cases h

theorem neVal_error (hs : np.Sane) {v w : Val} {e : Err} (h : neVal np v w = .error e) : e = .valueError := by
  cases v <;> cases w <;> simp only [neVal] at h <;> first | cases h | exact neItem_error hs h | exact neTup_error hs h | skip
  unfold neDict at h
  split at h
  · cases h
  · exact neDictLoop_error hs h

theorem mem_attrs {a : Rf n} {kv : String × Val} (h : kv ∈ a.attrs) :
    (kv.1 = "fs" ∧ kv.2 = .vec a.fs) ∨ (kv.1 = "Ss" ∧ kv.2 = .stack n a.Ss) ∨ ¬ (kv.1 = "fs" ∨ kv.1 = "Ss") := by
  have h1 : ∀ kv ∈ fileAttrs a.file, ¬ (kv.1 = "fs" ∨ kv.1 = "Ss") := by
    cases a.file with
    | none => simp [fileAttrs]
    | some q => obtain ⟨_, _, _, _, _⟩ := q; simp [fileAttrs]
  have h2 : ∀ kv ∈ interpAttrs a.interpolators, ¬ (kv.1 = "fs" ∨ kv.1 = "Ss") := by
    rcases a.interpolators with _ | _ | ⟨_, _⟩ <;> simp [interpAttrs]
  rw [Rf.attrs, List.mem_append, List.mem_append] at h
  rcases h with (h | h) | h
  · simp only [List.mem_cons, List.not_mem_nil, or_false] at h
    rcases h with rfl | rfl | rfl | rfl | rfl | rfl | rfl | rfl | rfl | rfl | rfl | rfl | rfl | rfl | rfl | rfl | rfl | rfl | rfl |
      rfl | rfl | rfl | rfl <;> simp
  · exact Or.inr (Or.inr (h1 kv h))
  · exact Or.inr (Or.inr (h2 kv h))

theorem differs_error (hs : np.Sane) {a : Rf n} {b : Rf m} {kv : String × Val} (hm : kv ∈ a.attrs) {e : Err}
    (h : differs np a.attrs b.attrs kv = .error e) : e = .valueError := by
  obtain ⟨k, v⟩ := kv
  rcases mem_attrs hm with ⟨h1, h2⟩ | ⟨h1, h2⟩ | h1
  · simp only at h1 h2
    subst h1 h2
    rw [differs_fs] at h
    split at h
    · cases h
    · simp [allClose] at h
  · simp only at h1 h2
    subst h1 h2
    rw [differs_Ss] at h
    split at h
    · cases h
    · simp only [allClose, closeStack] at h
      split at h
      · rename_i e' he
        injection h with h
        split at he
        · cases he
        · injection he with he; rw [← h, ← he]
      · cases h
  · unfold differs at h
    split at h
    · cases h
    · rw [if_neg h1] at h
      exact neVal_error hs h

/-- one attribute that cannot be compared -/
theorem eq_error (hs : np.Sane) {a : Rf n} {b : Rf m} (k : String) (v w : Val) (hm : (k, v) ∈ a.attrs)
    (hk : ¬ (k = "fs" ∨ k = "Ss")) (hb : b.attrs.lookup k = some w) (h : neVal np v w = .error .valueError) :
    a.eq np b = .error .valueError :=
  eq_obj_error hm (by rw [differs_item a b k v w hk hb, h]) fun _ h1 _ h2 => differs_error hs h1 h2

/-- one attribute that differs -/
theorem eq_ne_true {a : Rf n} {b : Rf m} (k : String) (v w : Val) (hm : (k, v) ∈ a.attrs)
    (hk : ¬ (k = "fs" ∨ k = "Ss")) (hb : b.attrs.lookup k = some w) (h : neVal np v w ≠ .ok false) :
    a.eq np b ≠ .ok true := by
  intro he
  have := (eq_obj_true.1 he).1 _ hm
  rw [differs_item a b k v w hk hb] at this
  exact h this

theorem of_eq {a : Rf n} {b : Rf m} (he : a.eq np b = .ok true) (k : String) {p : P} (q : P) (hm : (k, .item (.plain p)) ∈ a.attrs)
    (hk : ¬ (k = "fs" ∨ k = "Ss")) (hb : b.attrs.lookup k = some (.item (.plain q))) : p = q := by
  by_contra hne
  refine eq_ne_true k _ _ hm hk hb ?_ he
  simp [neVal, neItem, hne]

theorem optNum_inj {x y : Option ℝ} (h : optNum x = optNum y) : x = y := by
  cases x <;> cases y <;> simp [optNum] at h <;> simp [h]

theorem optStr_inj {x y : Option String} (h : optStr x = optStr y) : x = y := by
  cases x <;> cases y <;> simp [optStr] at h <;> simp [h]

theorem mem_file {a : Rf n} {kv : String × Val} (h : kv ∈ fileAttrs a.file) : kv ∈ a.attrs :=
  List.mem_append_left _ (List.mem_append_right _ h)

theorem mem_interp {a : Rf n} {kv : String × Val} (h : kv ∈ interpAttrs a.interpolators) : kv ∈ a.attrs :=
  List.mem_append_right _ h

theorem lookup_part (b : Rf m) (h : b.file = none) : b.attrs.lookup "part" = none := by
  have : b.attrs.lookup "part" = (fileAttrs b.file ++ interpAttrs b.interpolators).lookup "part" := rfl
  rw [this, h]
  rcases b.interpolators with _ | _ | ⟨_, _⟩ <;> rfl

theorem part_keys (a : Rf n) (h : a.file = none) : "part" ∉ a.attrs.map Prod.fst := by
  have : a.attrs.map Prod.fst = ["got_args", "args", "kwargs", "Id", "alias", "N", "ports", "Zbase", "funit", "fscale", "flim", "interp",
      "interpkws", "xpos", "fs", "sorted", "Ss", "Zcs", "Gms", "touchstone", "interpOK", "f", "S"] ++
      (fileAttrs a.file).map Prod.fst ++ (interpAttrs a.interpolators).map Prod.fst := by
    rw [Rf.attrs, List.map_append, List.map_append]; rfl
  rw [this, h]
  rcases a.interpolators with _ | _ | ⟨_, _⟩ <;> simp [fileAttrs, interpAttrs]

/-- C73: what `a == b` being True means, whatever the version of numpy and the history of the objects -/
theorem C73_equal_sound {a : Rf n} {b : Rf m} (ha : a.ports.length = n) (hb : b.ports.length = m) (h : a.eq np b = .ok true) :
    n = m ∧ SameSettings a b ∧ SameData a b := by
  have hports : a.ports = b.ports := by
    have := of_eq h "ports" (.strs b.ports) (p := .strs a.ports) (by simp [Rf.attrs]) (by decide) rfl
    injection this
  have hnm : n = m := by rw [← ha, ← hb, hports]
  subst hnm
  have hall := eq_obj_true.1 h
  have hfs := hall.1 ("fs", .vec a.fs) (by simp [Rf.attrs])
  have hSs := hall.1 ("Ss", .stack n a.Ss) (by simp [Rf.attrs])
  rw [differs_fs] at hfs
  rw [differs_Ss] at hSs
  have hlen : a.fs.length = b.fs.length := by
    by_contra hne
    rw [if_pos hne] at hfs; cases hfs
  rw [if_neg (by simp [hlen])] at hfs hSs
  simp only [allClose] at hfs
  simp only [allClose, closeStack, true_or, if_true] at hSs
  injection hfs with hfs
  injection hSs with hSs
  simp only [Bool.not_eq_false', decide_eq_true_eq] at hfs hSs
  refine ⟨rfl, ⟨?_, ?_, hports, ?_, ?_, ?_, ?_, ?_, ?_, ?_, ?_, ?_, ?_, ?_, ?_⟩, hlen, hfs, ?_⟩
  · have := of_eq h "Id" (.str b.Id) (p := .str a.Id) (by simp [Rf.attrs]) (by decide) rfl
    injection this
  · have := of_eq h "N" (.nat b.N) (p := .nat a.N) (by simp [Rf.attrs]) (by decide) rfl
    injection this
  · have := of_eq h "Zbase" (.num b.Zbase) (p := .num a.Zbase) (by simp [Rf.attrs]) (by decide) rfl
    injection this
  · have := of_eq h "funit" (.str b.funit) (p := .str a.funit) (by simp [Rf.attrs]) (by decide) rfl
    injection this
  · have := of_eq h "fscale" (.num b.fscale) (p := .num a.fscale) (by simp [Rf.attrs]) (by decide) rfl
    injection this
  · have := of_eq h "flim" (.nums b.flim) (p := .nums a.flim) (by simp [Rf.attrs]) (by decide) rfl
    injection this
  · have := of_eq h "interp" (.str b.interp) (p := .str a.interp) (by simp [Rf.attrs]) (by decide) rfl
    injection this
  · have := of_eq h "interpkws" (.opts b.interpkws) (p := .opts a.interpkws) (by simp [Rf.attrs]) (by decide) rfl
    injection this
  · have := of_eq h "xpos" (.nums b.xpos) (p := .nums a.xpos) (by simp [Rf.attrs]) (by decide) rfl
    injection this
  · have := of_eq h "sorted" (.flag b.sorted) (p := .flag a.sorted) (by simp [Rf.attrs]) (by decide) rfl
    injection this
  · exact optStr_inj (of_eq h "touchstone" (optStr b.touchstone) (p := optStr a.touchstone) (by simp [Rf.attrs]) (by decide) rfl)
  · have := of_eq h "interpOK" (.flag b.interpOK) (p := .flag a.interpOK) (by simp [Rf.attrs]) (by decide) rfl
    injection this
  · exact optNum_inj (of_eq h "f" (optNum b.f) (p := optNum a.f) (by simp [Rf.attrs]) (by decide) rfl)
  · cases hA : a.file with
    | none =>
      cases hB : b.file with
      | none => rfl
      | some q =>
        exfalso
        obtain ⟨q1, q2, q3, q4, q5⟩ := q
        exact part_keys a hA (hall.2 ("part", .item (.plain q1)) (mem_file (by simp [hB, fileAttrs])))
    | some p =>
      obtain ⟨p1, p2, p3, p4, p5⟩ := p
      cases hB : b.file with
      | none =>
        exfalso
        have := hall.1 ("part", .item (.plain p1)) (mem_file (by simp [hA, fileAttrs]))
        rw [differs_absent _ _ _ _ (lookup_part b hB)] at this
        cases this
      | some q =>
        obtain ⟨q1, q2, q3, q4, q5⟩ := q
        have e : ∀ k, k ∈ ["part", "numbering", "markers", "shape", "variables"] → b.attrs.lookup k =
            (fileAttrs b.file ++ interpAttrs b.interpolators).lookup k := by
          intro k hk
          simp only [List.mem_cons, List.not_mem_nil, or_false] at hk
          rcases hk with rfl | rfl | rfl | rfl | rfl <;> rfl
        have h1 := of_eq h "part" q1 (p := p1) (mem_file (by simp [hA, fileAttrs])) (by decide) (by rw [e _ (by simp), hB]; rfl)
        have h2 := of_eq h "numbering" q2 (p := p2) (mem_file (by simp [hA, fileAttrs])) (by decide) (by rw [e _ (by simp), hB]; rfl)
        have h3 := of_eq h "markers" q3 (p := p3) (mem_file (by simp [hA, fileAttrs])) (by decide) (by rw [e _ (by simp), hB]; rfl)
        have h4 := of_eq h "shape" q4 (p := p4) (mem_file (by simp [hA, fileAttrs])) (by decide) (by rw [e _ (by simp), hB]; rfl)
        have h5 := of_eq h "variables" q5 (p := p5) (mem_file (by simp [hA, fileAttrs])) (by decide) (by rw [e _ (by simp), hB]; rfl)
        rw [h1, h2, h3, h4, h5]
  · intro k S S' h1 h2 i j i' j' hi hj
    exact hSs k S S' h1 h2 i j i' j' fun _ => ⟨hi, hj⟩

/-! ## Objects that were never evaluated -/

theorem neDictLoop_plain (np : Np) {b : List (String × Item)} (hb : ∀ kv ∈ b, ∃ p, kv.2 = .plain p) :
    ∀ {a : List (String × Item)}, (∀ kv ∈ a, ∃ p, kv.2 = .plain p) →
      (∃ r, neDictLoop np b a = .ok r) ∧ (neDictLoop np b a = .ok false ↔ ∀ kv ∈ a, b.lookup kv.1 = some kv.2)
  | [], _ => ⟨⟨false, rfl⟩, by simp [neDictLoop]⟩
  | (k, x) :: a, ha => by
    obtain ⟨p, hp⟩ := ha (k, x) (by simp)
    simp only at hp
    subst hp
    have ih := neDictLoop_plain np hb (a := a) fun kv h => ha kv (by simp [h])
    unfold neDictLoop
    cases hl : b.lookup k with
    | none =>
      refine ⟨⟨true, rfl⟩, ⟨fun h => (by cases h), fun h => ?_⟩⟩
      have := h (k, .plain p) (by simp)
      simp only [hl] at this
      cases this
    | some y =>
      have hy : ∃ q, y = .plain q := by
        have : (k, y) ∈ b := by
          have := List.lookup_eq_some_iff.1 hl
          obtain ⟨l1, l2, h1, _⟩ := this
          rw [h1]; simp
        exact hb _ this
      obtain ⟨q, rfl⟩ := hy
      simp only [eqItem]
      by_cases hpq : p = q
      · subst hpq
        simp only [decide_true]
        refine ⟨ih.1, ?_⟩
        rw [ih.2, List.forall_mem_cons]
        simp [hl]
      · simp only [hpq, decide_false]
        refine ⟨⟨true, rfl⟩, ⟨fun h => (by cases h), fun h => ?_⟩⟩
        have := h (k, .plain p) (by simp)
        simp only [hl] at this
        injection this with this
        injection this with this
        exact absurd this.symm hpq

theorem lookup_of_nodup {l : List (String × Item)} (hl : (l.map Prod.fst).Nodup) {kv : String × Item} (h : kv ∈ l) :
    l.lookup kv.1 = some kv.2 := by
  induction l with
  | nil => cases h
  | cons x l ih =>
    rw [List.map_cons, List.nodup_cons] at hl
    rcases List.mem_cons.1 h with rfl | h
    · rw [List.lookup_cons, beq_self_eq_true]
    · have : (kv.1 == x.1) = false := by
        rw [beq_eq_false_iff_ne]
        intro he
        exact hl.1 (he ▸ List.mem_map_of_mem h)
      rw [List.lookup_cons, this]
      exact ih hl.2 h

theorem mem_of_lookup {l : List (String × Item)} {k : String} {v : Item} (h : l.lookup k = some v) : (k, v) ∈ l := by
  obtain ⟨l1, l2, h1, _⟩ := List.lookup_eq_some_iff.1 h
  rw [h1]; simp

theorem neDict_plain {a b : List (String × Item)} (ha : ∀ kv ∈ a, ∃ p, kv.2 = .plain p) (hb : ∀ kv ∈ b, ∃ p, kv.2 = .plain p)
    (hna : (a.map Prod.fst).Nodup) (hnb : (b.map Prod.fst).Nodup) :
    (∃ r, neDict np a b = .ok r) ∧ (neDict np a b = .ok false ↔ a.Perm b) := by
  unfold neDict
  by_cases hl : a.length = b.length
  · rw [if_neg (by simp [hl])]
    have := neDictLoop_plain np hb ha
    refine ⟨this.1, this.2.trans ⟨fun h => ?_, fun h kv hkv => lookup_of_nodup hnb (h.mem_iff.1 hkv)⟩⟩
    exact ((hna.of_map _).subperm fun kv hkv => mem_of_lookup (h kv hkv)).perm_of_length_le hl.symm.le
  · rw [if_pos hl]
    exact ⟨⟨true, rfl⟩, ⟨fun h => (by cases h), fun h => absurd h.length_eq hl⟩⟩

theorem bshape_self : ∀ s : List ℕ, bshape s s = some s
  | [] => rfl
  | a :: s => by unfold bshape; rw [bshape_self s]; simp

theorem neArr_empty {a b : Arr} (hs : a.shape = b.shape) (h0 : a.shape.prod = 0) : neArr np a b = np.emptyTruth := by
  unfold neArr
  rw [← hs, bshape_self]
  simp [truth, List.prod_reverse, h0]

/-- C73: two objects that were never evaluated, of the same number of ports, with numpy before 2.2: the comparison always answers,
and answers True exactly when the settings (and keyword arguments) are the same and the data close -/
theorem C73_fresh_iff {a b : Rf n} (hnp : np.emptyTruth = .ok false) (ha : Fresh a) (hb : Fresh b) (hz : a.Zcs.shape = b.Zcs.shape)
    (hg : a.Gms.shape = b.Gms.shape) (hpa : a.ports.length = n) (hpb : b.ports.length = n) :
    (∃ r, a.eq np b = .ok r) ∧ (a.eq np b = .ok true ↔
      SameSettings a b ∧ a.kwargs.Perm b.kwargs ∧ a.interpolators = b.interpolators ∧ SameData a b) := by
  have hdict := neDict_plain (np := np) ha.kwargs hb.kwargs ha.keys hb.keys
  have hsame : ∀ (k : String) (p q : P) (Q : Prop), ¬ (k = "fs" ∨ k = "Ss") → b.attrs.lookup k = some (.item (.plain q)) → (Q → p = q) →
      ∃ d, differs np a.attrs b.attrs (k, .item (.plain p)) = .ok d ∧ (Q → d = false) := by
    intro k p q Q hk hl hQ
    rw [differs_item a b k _ _ hk hl]
    refine ⟨_, rfl, fun h => ?_⟩
    simp [hQ h]
  have hmain : ∀ kv ∈ a.attrs, ∃ d, differs np a.attrs b.attrs kv = .ok d ∧ (SameSettings a b ∧ a.kwargs.Perm b.kwargs ∧
      a.interpolators = b.interpolators ∧ SameData a b → d = false) := by
    intro kv hkv
    rw [Rf.attrs, List.mem_append, List.mem_append] at hkv
    rcases hkv with (h | h) | h
    · simp only [List.mem_cons, List.not_mem_nil, or_false] at h
      rcases h with rfl | rfl | rfl | rfl | rfl | rfl | rfl | rfl | rfl | rfl | rfl | rfl | rfl | rfl | rfl | rfl | rfl | rfl | rfl |
        rfl | rfl | rfl | rfl
      · exact hsame _ _ _ _ (by decide) rfl fun _ => by rw [ha.args, hb.args]
      · rw [differs_item a b "args" _ (.tup b.args) (by decide) rfl, ha.args, hb.args]
        exact ⟨_, rfl, fun _ => rfl⟩
      · rw [differs_item a b "kwargs" _ (.dict b.kwargs) (by decide) rfl]
        obtain ⟨r, hr⟩ := hdict.1
        refine ⟨r, hr, fun h => ?_⟩
        have := hdict.2.2 h.2.1
        rw [hr] at this
        injection this
      · exact hsame _ _ _ _ (by decide) rfl fun h => by rw [h.1.1]
      · exact hsame _ _ _ _ (by decide) rfl fun h => rfl
      · exact hsame _ _ _ _ (by decide) rfl fun h => by rw [h.1.2.1]
      · exact hsame _ _ _ _ (by decide) rfl fun h => by rw [h.1.2.2.1]
      · exact hsame _ _ _ _ (by decide) rfl fun h => by rw [h.1.2.2.2.1]
      · exact hsame _ _ _ _ (by decide) rfl fun h => by rw [h.1.2.2.2.2.1]
      · exact hsame _ _ _ _ (by decide) rfl fun h => by rw [h.1.2.2.2.2.2.1]
      · exact hsame _ _ _ _ (by decide) rfl fun h => by rw [h.1.2.2.2.2.2.2.1]
      · exact hsame _ _ _ _ (by decide) rfl fun h => by rw [h.1.2.2.2.2.2.2.2.1]
      · exact hsame _ _ _ _ (by decide) rfl fun h => by rw [h.1.2.2.2.2.2.2.2.2.1]
      · exact hsame _ _ _ _ (by decide) rfl fun h => by rw [h.1.2.2.2.2.2.2.2.2.2.1]
      · rw [differs_fs]
        split
        · rename_i hl
          exact ⟨_, rfl, fun h => absurd h.2.2.2.1 hl⟩
        · refine ⟨_, rfl, fun h => ?_⟩
          simp only [Bool.not_eq_false', decide_eq_true_eq]
          exact h.2.2.2.2.1
      · exact hsame _ _ _ _ (by decide) rfl fun h => by rw [h.1.2.2.2.2.2.2.2.2.2.2.1]
      · rw [differs_Ss]
        split
        · rename_i hl
          exact ⟨_, rfl, fun h => absurd h.2.2.2.1 hl⟩
        · simp only [allClose, closeStack, true_or, if_true]
          refine ⟨_, rfl, fun h => ?_⟩
          simp only [Bool.not_eq_false', decide_eq_true_eq]
          intro k S S' h1 h2 i j i' j' hij
          exact h.2.2.2.2.2 k S S' h1 h2 i j i' j' (hij trivial).1 (hij trivial).2
      · rw [differs_item a b "Zcs" _ (.item (.arr b.Zcs)) (by decide) rfl]
        exact ⟨_, (neArr_empty hz ha.zcs).trans hnp, fun _ => rfl⟩
      · rw [differs_item a b "Gms" _ (.item (.arr b.Gms)) (by decide) rfl]
        exact ⟨_, (neArr_empty hg ha.gms).trans hnp, fun _ => rfl⟩
      · exact hsame _ _ _ _ (by decide) rfl fun h => by rw [h.1.2.2.2.2.2.2.2.2.2.2.2.1]
      · exact hsame _ _ _ _ (by decide) rfl fun h => by rw [h.1.2.2.2.2.2.2.2.2.2.2.2.2.1]
      · exact hsame _ _ _ _ (by decide) rfl fun h => by rw [h.1.2.2.2.2.2.2.2.2.2.2.2.2.2.1]
      · rw [ha.S]
        exact hsame "S" .none .none _ (by decide) (by show some (Val.item (optArr b.S)) = _; rw [hb.S]; rfl) fun _ => rfl
    · have e : ∀ k, k ∈ ["part", "numbering", "markers", "shape", "variables"] → b.attrs.lookup k =
          (fileAttrs b.file ++ interpAttrs b.interpolators).lookup k := by
        intro k hk
        simp only [List.mem_cons, List.not_mem_nil, or_false] at hk
        rcases hk with rfl | rfl | rfl | rfl | rfl <;> rfl
      cases hA : a.file with
      | none => rw [hA] at h; cases h
      | some p =>
        obtain ⟨p1, p2, p3, p4, p5⟩ := p
        rw [hA] at h
        cases hB : b.file with
        | none =>
          have e2 : ∀ k, k ∈ ["part", "numbering", "markers", "shape", "variables"] → b.attrs.lookup k = none := by
            intro k hk
            rw [e k hk, hB]
            simp only [List.mem_cons, List.not_mem_nil, or_false] at hk
            rcases b.interpolators with _ | _ | ⟨_, _⟩ <;> rcases hk with rfl | rfl | rfl | rfl | rfl <;> rfl
          have hk : kv.1 ∈ ["part", "numbering", "markers", "shape", "variables"] := by
            simp only [fileAttrs, List.mem_cons, List.not_mem_nil, or_false] at h
            rcases h with rfl | rfl | rfl | rfl | rfl <;> simp
          refine ⟨true, differs_absent _ _ _ _ (e2 _ hk), fun h => ?_⟩
          have := h.1.2.2.2.2.2.2.2.2.2.2.2.2.2.2
          rw [hA, hB] at this
          cases this
        | some q =>
          obtain ⟨q1, q2, q3, q4, q5⟩ := q
          have hpq : SameSettings a b ∧ a.kwargs.Perm b.kwargs ∧ a.interpolators = b.interpolators ∧ SameData a b →
              p1 = q1 ∧ p2 = q2 ∧ p3 = q3 ∧ p4 = q4 ∧ p5 = q5 := by
            intro h
            have := h.1.2.2.2.2.2.2.2.2.2.2.2.2.2.2
            rw [hA, hB] at this
            injection this with this
            simpa using this
          simp only [fileAttrs, List.mem_cons, List.not_mem_nil, or_false] at h
          rcases h with rfl | rfl | rfl | rfl | rfl
          · exact hsame _ _ q1 _ (by decide) (by rw [e _ (by simp), hB]; rfl) fun h => (hpq h).1
          · exact hsame _ _ q2 _ (by decide) (by rw [e _ (by simp), hB]; rfl) fun h => (hpq h).2.1
          · exact hsame _ _ q3 _ (by decide) (by rw [e _ (by simp), hB]; rfl) fun h => (hpq h).2.2.1
          · exact hsame _ _ q4 _ (by decide) (by rw [e _ (by simp), hB]; rfl) fun h => (hpq h).2.2.2.1
          · exact hsame _ _ q5 _ (by decide) (by rw [e _ (by simp), hB]; rfl) fun h => (hpq h).2.2.2.2
    · have e : ∀ k, k ∈ ["interpA", "interpM"] → b.attrs.lookup k = (interpAttrs b.interpolators).lookup k := by
        intro k hk
        have : b.attrs.lookup k = (fileAttrs b.file ++ interpAttrs b.interpolators).lookup k := by
          simp only [List.mem_cons, List.not_mem_nil, or_false] at hk
          rcases hk with rfl | rfl <;> rfl
        rw [this]
        simp only [List.mem_cons, List.not_mem_nil, or_false] at hk
        rcases b.file with _ | ⟨_, _, _, _, _⟩ <;> rcases hk with rfl | rfl <;> rfl
      rcases ha.ips with hA | hA
      · rw [hA] at h; cases h
      · rw [hA] at h
        simp only [interpAttrs, List.mem_cons, List.not_mem_nil, or_false] at h
        rcases hb.ips with hB | hB
        · have hk : kv.1 ∈ ["interpA", "interpM"] := by rcases h with rfl | rfl <;> simp
          refine ⟨true, differs_absent _ _ _ _ (by rw [e _ hk, hB]; rfl), fun h => ?_⟩
          have := h.2.2.1
          rw [hA, hB] at this
          cases this
        · rcases h with rfl | rfl
          · exact hsame _ _ .none _ (by decide) (by rw [e _ (by simp), hB]; rfl) fun _ => rfl
          · exact hsame _ _ .none _ (by decide) (by rw [e _ (by simp), hB]; rfl) fun _ => rfl
  refine ⟨eq_obj_ok fun kv h => (hmain kv h).imp fun _ h => h.1, fun h => ?_, fun h => ?_⟩
  · have hs := C73_equal_sound hpa hpb h
    have hall := eq_obj_true.1 h
    refine ⟨hs.2.1, hdict.2.1 ?_, ?_, hs.2.2⟩
    · have := hall.1 ("kwargs", .dict a.kwargs) (by simp [Rf.attrs])
      rw [differs_item a b "kwargs" _ (.dict b.kwargs) (by decide) rfl] at this
      exact this
    · rcases ha.ips with hA | hA <;> rcases hb.ips with hB | hB
      · rw [hA, hB]
      · exfalso
        have := hall.2 ("interpA", .item (.plain .none)) (mem_interp (by simp [hB, interpAttrs]))
        rw [Rf.attrs, hA] at this
        rcases hf : a.file with _ | ⟨_, _, _, _, _⟩ <;> simp [hf, interpAttrs, fileAttrs] at this
      · exfalso
        have := hall.1 ("interpA", .item (.plain .none)) (mem_interp (by simp [hA, interpAttrs]))
        rw [differs_absent _ _ _ _ (by
          have : b.attrs.lookup "interpA" = (fileAttrs b.file ++ interpAttrs b.interpolators).lookup "interpA" := rfl
          rw [this, hB]
          rcases b.file with _ | ⟨_, _, _, _, _⟩ <;> rfl)] at this
        cases this
      · rw [hA, hB]
  · refine eq_obj_true.2 ⟨fun kv hkv => ?_, ?_⟩
    · obtain ⟨d, hd, hd2⟩ := hmain kv hkv
      rw [hd, hd2 h]
    · have hf := h.1.2.2.2.2.2.2.2.2.2.2.2.2.2.2
      have hi := h.2.2.1
      have : b.attrs.map Prod.fst = a.attrs.map Prod.fst := by
        rw [Rf.attrs, Rf.attrs, hf, hi]
        simp only [List.map_append, List.map_cons, List.map_nil]
      intro kv hkv
      rw [← this]
      exact List.mem_map_of_mem hkv

theorem close_refl (x : ℂ) : Close x x := by
  unfold Close
  rw [sub_self, norm_zero]
  positivity

/-- C73: a copy of an object that was never evaluated is equal to it (numpy before 2.2) -/
theorem C73_copy {a : Rf n} (hnp : np.emptyTruth = .ok false) (ha : Fresh a) (hp : a.ports.length = n) (g : ℕ → ℕ) :
    a.eq np (a.copied g) = .ok true := by
  have hk : (a.copied g).kwargs = a.kwargs := by
    show a.kwargs.map (fun kv => (kv.1, kv.2.copied g)) = a.kwargs
    conv_rhs => rw [← List.map_id a.kwargs]
    refine List.map_congr_left fun kv h => ?_
    obtain ⟨p, hp⟩ := ha.kwargs kv h
    obtain ⟨k, v⟩ := kv
    simp only at hp
    subst hp
    rfl
  have hi : (a.copied g).interpolators = a.interpolators := by
    show a.interpolators.map _ = _
    rcases ha.ips with h | h <;> rw [h] <;> rfl
  have hf : Fresh (a.copied g) :=
    ⟨by show a.args.map _ = []; rw [ha.args]; rfl, by rw [hk]; exact ha.kwargs, by rw [hk]; exact ha.keys,
      by show a.S.map _ = none; rw [ha.S]; rfl, ha.zcs, ha.gms, by rw [hi]; exact ha.ips⟩
  refine ((C73_fresh_iff hnp ha hf rfl rfl hp hp).2).2 ⟨⟨rfl, rfl, rfl, rfl, rfl, rfl, rfl, rfl, rfl, rfl, rfl, rfl, rfl, rfl, rfl⟩, by rw [hk],
    hi.symm, rfl, ?_, ?_⟩
  · intro k x y h1 h2
    have h2 : a.fs[k]? = some y := h2
    rw [h1] at h2
    injection h2 with h2
    rw [h2]
    exact close_refl _
  · intro k S S' h1 h2 i j i' j' hi hj
    have h2 : a.Ss[k]? = some S' := h2
    rw [h1] at h2
    injection h2 with h2
    rw [h2, Fin.ext hi, Fin.ext hj]
    exact close_refl _

/-! ## What goes wrong -/

/-- C73 violated: objects with different identifiers are never equal, whatever they hold; every object made without `Id=` gets a new
identifier (C43) -/
theorem C73_separate {a : Rf n} {b : Rf m} (h : a.Id ≠ b.Id) : a.eq np b ≠ .ok true := by
  intro he
  have := of_eq he "Id" (.str b.Id) (p := .str a.Id) (by simp [Rf.attrs]) (by decide) rfl
  injection this with this
  exact h this

/-- C73 violated: nor are objects made with other words for the same thing, e.g. `ports='a b'` and `ports=['a', 'b']`, or with and without
the default reference -/
theorem C73_other_words {a b : Rf n} {k : String} {p : P} (ha : Fresh a) (hb : Fresh b) (h1 : (k, .plain p) ∈ a.kwargs)
    (h2 : b.kwargs.lookup k ≠ some (.plain p)) :
    a.eq np b ≠ .ok true := by
  refine eq_ne_true "kwargs" (.dict a.kwargs) (.dict b.kwargs) (by simp [Rf.attrs]) (by decide) rfl fun h => h2 ?_
  have := (neDict_plain (np := np) ha.kwargs hb.kwargs ha.keys hb.keys).2.1 h
  exact lookup_of_nodup hb.keys (kv := (k, .plain p)) (this.mem_iff.1 h1)

theorem truth_many {s : List ℕ} {o : Bool} (h : 2 ≤ s.prod) : truth np s o = .error .valueError := by
  unfold truth
  rw [if_neg (by omega), if_neg (by omega)]

/-- C73 violated: as soon as one of two objects with the same number of ports (at least two) was evaluated, the comparison raises
ValueError — even of an object with itself -/
theorem C73_evaluated_raises {a b : Rf n} (hs : np.Sane) (hn : 2 ≤ n) {S : Arr} (hS : a.S = some S) (hshape : S.shape = [n, n])
    (hb : ∀ S', b.S = some S' → S'.shape = [n, n]) : a.eq np b = .error .valueError ∧ b.eq np a = .error .valueError := by
  have h2 : 2 ≤ [n, n].prod := by simp; nlinarith
  have key : ∀ x, neVal np (.item (.arr S)) (.item (optArr x)) = .error .valueError ∨ ∃ S', x = some S' ∧ S'.shape ≠ [n, n] := by
    intro x
    cases x with
    | none => left; simp only [optArr, neVal, neItem, hshape]; exact truth_many h2
    | some S' =>
      by_cases hh : S'.shape = [n, n]
      · left
        simp only [optArr, neVal, neItem, neArr, hshape, hh, bshape_self]
        exact truth_many (by simpa [List.prod_reverse] using h2)
      · exact Or.inr ⟨S', rfl, hh⟩
  have key2 : ∀ x, neVal np (.item (optArr x)) (.item (.arr S)) = .error .valueError ∨ ∃ S', x = some S' ∧ S'.shape ≠ [n, n] := by
    intro x
    cases x with
    | none => left; simp only [optArr, neVal, neItem, hshape]; exact truth_many h2
    | some S' =>
      by_cases hh : S'.shape = [n, n]
      · left
        simp only [optArr, neVal, neItem, neArr, hshape, hh, bshape_self]
        exact truth_many (by simpa [List.prod_reverse] using h2)
      · exact Or.inr ⟨S', rfl, hh⟩
  constructor
  · refine eq_error hs "S" (.item (optArr a.S)) (.item (optArr b.S)) (by simp [Rf.attrs]) (by decide) rfl ?_
    rw [hS]
    rcases key b.S with h | ⟨S', h, h'⟩
    · exact h
    · exact absurd (hb S' h) h'
  · refine eq_error hs "S" (.item (optArr b.S)) (.item (optArr a.S)) (by simp [Rf.attrs]) (by decide) rfl ?_
    rw [hS]
    rcases key2 b.S with h | ⟨S', h, h'⟩
    · exact h
    · exact absurd (hb S' h) h'

/-- C73 violated: the same for objects made from an array of at least two ports, unless it is the same array object -/
theorem C73_array_raises {a b : Rf n} (hs : np.Sane) (hn : 2 ≤ n) {A B : Arr} (ha : a.args = [.arr A]) (hb : b.args = [.arr B])
    (hA : A.shape = [n, n]) (hB : B.shape = [n, n]) (hAB : A.addr ≠ B.addr) : a.eq np b = .error .valueError := by
  have h2 : 2 ≤ [n, n].prod := by simp; nlinarith
  refine eq_error hs "args" (.tup a.args) (.tup b.args) (by simp [Rf.attrs]) (by decide) rfl ?_
  rw [ha, hb]
  have : eqItem np (.arr A) (.arr B) = .error .valueError := by
    simp only [eqItem, if_neg hAB, hA, hB, bshape_self]
    exact truth_many (by simpa [List.prod_reverse] using h2)
  simp only [neVal, neTup, this]

/-- C73 violated: in particular such an object cannot be compared with its copy -/
theorem C73_array_copy {a : Rf n} (hs : np.Sane) (hn : 2 ≤ n) {A : Arr} (ha : a.args = [.arr A]) (hA : A.shape = [n, n]) {g : ℕ → ℕ}
    (hg : ∀ i, g i ≠ i) : a.eq np (a.copied g) = .error .valueError :=
  C73_array_raises hs hn ha (by show a.args.map _ = _; rw [ha]; rfl) hA (B := { A with addr := g A.addr }) hA (hg _).symm

/-- C73 violated: objects with as many frequencies and other numbers of ports (not 1) are not unequal: the comparison raises -/
theorem C73_ports_raise {a : Rf n} {b : Rf m} (hs : np.Sane) (hnm : n ≠ m) (hn : n ≠ 1) (hm : m ≠ 1) (hl : a.fs.length = b.fs.length) :
    a.eq np b = .error .valueError := by
  refine eq_obj_error (kv := ("Ss", .stack n a.Ss)) (by simp [Rf.attrs]) ?_ fun _ h1 _ h2 => differs_error hs h1 h2
  rw [differs_Ss, if_neg (by simp [hl])]
  simp only [allClose, closeStack, hnm, hn, hm, or_self, if_false]

/-- C73 violated: with numpy 2.2 and later every comparison of two objects without port impedances raises, even of an object with
itself -/
theorem C73_new_numpy {a b : Rf n} (hz : a.Zcs.shape = b.Zcs.shape) (h0 : a.Zcs.shape.prod = 0) :
    a.eq Np.new b = .error .valueError := by
  refine eq_error new_sane "Zcs" (.item (.arr a.Zcs)) (.item (.arr b.Zcs)) (by simp [Rf.attrs]) (by decide) rfl ?_
  simp only [neVal, neItem, neArr_empty hz h0]
  rfl

/-- C73 violated: with port impedances (at least two numbers) it raises with every version -/
theorem C73_impedances_raise {a b : Rf n} (hs : np.Sane) (hz : a.Zcs.shape = b.Zcs.shape) (h2 : 2 ≤ a.Zcs.shape.prod) :
    a.eq np b = .error .valueError := by
  refine eq_error hs "Zcs" (.item (.arr a.Zcs)) (.item (.arr b.Zcs)) (by simp [Rf.attrs]) (by decide) rfl ?_
  simp only [neVal, neItem, neArr, ← hz, bshape_self]
  exact truth_many (by simpa [List.prod_reverse] using h2)

/-- C73 violated: `obj == None`, and membership tests in lists with anything that is not such an object, raise AttributeError -/
theorem C73_none_raises (a : Rf n) : eq np a.attrs .noDict = .error .attributeError := rfl

/-- C73 violated: a copy of an object whose interpolators were made is never equal to it, as interpolators are compared by identity -/
theorem C73_interpolated_copy {a : Rf n} {i j : ℕ} (hi : a.interpolators = some (some (i, j))) {g : ℕ → ℕ} (hg : ∀ i, g i ≠ i) :
    a.eq np (a.copied g) ≠ .ok true := by
  have hc : (a.copied g).interpolators = some (some (g i, g j)) := by
    show a.interpolators.map _ = _
    rw [hi]; rfl
  refine eq_ne_true "interpA" (.item (.ident i)) (.item (.ident (g i))) (mem_interp (by simp [hi, interpAttrs])) (by decide) ?_ ?_
  · have : (a.copied g).attrs.lookup "interpA" = (fileAttrs (a.copied g).file ++ interpAttrs (a.copied g).interpolators).lookup "interpA" := rfl
    rw [this, hc]
    rcases (a.copied g).file with _ | ⟨_, _, _, _, _⟩ <;> rfl
  · simp [neVal, neItem, (hg i).symm]

/-- C73 violated: an object with at least two ports and no port impedances is never equal to what is read back from a pickle -/
theorem C73_pickled {a : Rf n} (hn : 2 ≤ n) (hz : a.Zcs.shape = [0, n]) (hnp : np.noBroadcast ≠ .ok false) (g : ℕ → ℕ) :
    a.eq np (a.pickled g) ≠ .ok true := by
  refine eq_ne_true "Zcs" (.item (.arr a.Zcs)) (.item (.arr (a.pickled g).Zcs)) (by simp [Rf.attrs]) (by decide) rfl ?_
  have hsh : (a.pickled g).Zcs.shape = [0] := by
    simp [Rf.pickled, Arr.rebuilt, hz]
  simp only [neVal, neItem, neArr, hz, hsh]
  have : bshape [0, n].reverse [0].reverse = none := by
    have h0 : n ≠ 0 := by omega
    have h1 : n ≠ 1 := by omega
    simp [bshape, h0, h1]
  rw [this]
  exact hnp

/-- C73 violated: an object whose interpolators are ready is never equal to what is read back from a pickle -/
theorem C73_pickled_ready {a : Rf n} (h : a.interpOK = true) (g : ℕ → ℕ) : a.eq np (a.pickled g) ≠ .ok true := by
  intro he
  have := of_eq he "interpOK" (.flag (a.pickled g).interpOK) (p := .flag a.interpOK) (by simp [Rf.attrs]) (by decide) rfl
  injection this with this
  rw [h] at this
  cases this

theorem neTup_length : ∀ {l l' : List Item}, neTup np l l' = .ok false → l.length = l'.length
  | [], [], _ => rfl
  | [], _ :: _, h => by simp [neTup] at h
  | _ :: _, [], h => by simp [neTup] at h
  | x :: xs, y :: ys, h => by
    unfold neTup at h
    split at h
    · cases h
    · rw [List.length_cons, List.length_cons, neTup_length h]
    · cases h

theorem neArr_one {A B : Arr} (hs : A.shape = B.shape) (h1 : A.shape.prod = 1) (h : neArr np A B = .ok false) : A.data = B.data := by
  unfold neArr at h
  rw [← hs, bshape_self] at h
  simp only [truth, List.prod_reverse, h1, one_ne_zero, if_false, if_true] at h
  injection h with h
  simpa using h

/-- C73: equal objects were made with as many positional arguments; where they hold single numbers (port impedances and propagation
constants of a one-port at one frequency, the matrix a one-port was last evaluated to) these are the same -/
theorem C73_single_values {a : Rf n} {b : Rf m} (h : a.eq np b = .ok true) : a.args.length = b.args.length ∧
    (a.Zcs.shape = b.Zcs.shape → a.Zcs.shape.prod = 1 → a.Zcs.data = b.Zcs.data) ∧
    (a.Gms.shape = b.Gms.shape → a.Gms.shape.prod = 1 → a.Gms.data = b.Gms.data) ∧
    ∀ S S', a.S = some S → b.S = some S' → S.shape = S'.shape → S.shape.prod = 1 → S.data = S'.data := by
  have key : ∀ (k : String) (v w : Val), (k, v) ∈ a.attrs → ¬ (k = "fs" ∨ k = "Ss") → b.attrs.lookup k = some w → neVal np v w = .ok false := by
    intro k v w hm hk hb
    by_contra hne
    exact eq_ne_true k v w hm hk hb hne h
  refine ⟨neTup_length (np := np) (key "args" (.tup a.args) (.tup b.args) (by simp [Rf.attrs]) (by decide) rfl), fun hs h1 => ?_, fun hs h1 => ?_,
    fun S S' hS hS' hs h1 => ?_⟩
  · exact neArr_one (np := np) hs h1 (key "Zcs" (.item (.arr a.Zcs)) (.item (.arr b.Zcs)) (by simp [Rf.attrs]) (by decide) rfl)
  · exact neArr_one (np := np) hs h1 (key "Gms" (.item (.arr a.Gms)) (.item (.arr b.Gms)) (by simp [Rf.attrs]) (by decide) rfl)
  · have := key "S" (.item (optArr a.S)) (.item (optArr b.S)) (by simp [Rf.attrs]) (by decide) rfl
    rw [hS, hS'] at this
    exact neArr_one (np := np) hs h1 this

theorem fresh_mem {a : Rf n} (ha : Fresh a) {kv : String × Val} (h : kv ∈ a.attrs) :
    kv.1 ∈ ["args", "kwargs", "fs", "Ss", "Zcs", "Gms"] ∨ ∃ p, kv.2 = .item (.plain p) := by
  rw [Rf.attrs, List.mem_append, List.mem_append] at h
  rcases h with (h | h) | h
  · simp only [List.mem_cons, List.not_mem_nil, or_false] at h
    rcases h with rfl | rfl | rfl | rfl | rfl | rfl | rfl | rfl | rfl | rfl | rfl | rfl | rfl | rfl | rfl | rfl | rfl | rfl | rfl |
      rfl | rfl | rfl | rfl <;> simp [ha.S, optArr]
  · right
    rcases hf : a.file with _ | ⟨_, _, _, _, _⟩ <;> rw [hf] at h <;> simp only [fileAttrs, List.mem_cons, List.not_mem_nil, or_false] at h
    rcases h with rfl | rfl | rfl | rfl | rfl <;> exact ⟨_, rfl⟩
  · right
    rcases ha.ips with hf | hf <;> rw [hf] at h <;> simp only [interpAttrs, List.mem_cons, List.not_mem_nil, or_false] at h
    rcases h with rfl | rfl <;> exact ⟨_, rfl⟩

/-- C73: a one-port and an object with more ports, neither evaluated, with as many frequencies: the comparison answers False (numpy
before 2.2) -/
theorem C73_one_port {a : Rf 1} {b : Rf m} (hnp : np.emptyTruth = .ok false) (ha : Fresh a) (hb : Fresh b) (hm : 1 < m)
    (hza : a.Zcs.shape = [0, 1]) (hzb : b.Zcs.shape = [0, m]) (hga : a.Gms.shape = [0, 1]) (hgb : b.Gms.shape = [0, m])
    (hpa : a.ports.length = 1) (hpb : b.ports.length = m) : a.eq np b = .ok false ∧ b.eq np a = .ok false := by
  have sh1 : bshape [0, 1].reverse [0, m].reverse = some [m, 0] := by
    have h1 : (1 : ℕ) ≠ m := by omega
    simp [bshape, h1]
  have sh2 : bshape [0, m].reverse [0, 1].reverse = some [m, 0] := by
    have h1 : m ≠ 1 := by omega
    simp [bshape, h1]
  have arr : ∀ A B : Arr, A.shape = [0, 1] → B.shape = [0, m] → neArr np A B = .ok false ∧ neArr np B A = .ok false := by
    intro A B hA hB
    unfold neArr
    rw [hA, hB, sh1, sh2]
    simp [truth, hnp]
  have plain : ∀ {n m : ℕ} {a : Rf n} {b : Rf m}, Fresh b → ∀ (k : String) (p : P), k ∉ ["args", "kwargs", "fs", "Ss", "Zcs", "Gms"] →
      ∃ d, differs np a.attrs b.attrs (k, .item (.plain p)) = .ok d := by
    intro n m a b hb k p hk
    cases hl : b.attrs.lookup k with
    | none => exact ⟨_, differs_absent _ _ _ _ hl⟩
    | some w =>
      have hw : (k, w) ∈ b.attrs := by
        obtain ⟨l1, l2, h1, _⟩ := List.lookup_eq_some_iff.1 hl
        rw [h1]; simp
      rcases fresh_mem hb hw with h | ⟨q, h⟩
      · exact absurd h hk
      · simp only at h
        subst h
        rw [differs_item a b k _ _ (by simp only [List.mem_cons, List.not_mem_nil, or_false, not_or] at hk ⊢; exact ⟨hk.2.2.1, hk.2.2.2.1⟩) hl]
        exact ⟨_, rfl⟩
  have main : ∀ {n m : ℕ} {a : Rf n} {b : Rf m}, Fresh a → Fresh b → (n = 1 ∨ m = 1) → (∃ d, neArr np a.Zcs b.Zcs = .ok d) →
      (∃ d, neArr np a.Gms b.Gms = .ok d) → ∃ r, a.eq np b = .ok r := by
    intro n m a b ha hb hnm hz hg
    refine eq_obj_ok fun kv hkv => ?_
    by_cases hk : kv.1 ∈ ["args", "kwargs", "fs", "Ss", "Zcs", "Gms"]
    · have hkv' : kv ∈ [("args", Val.tup a.args), ("kwargs", .dict a.kwargs), ("fs", .vec a.fs), ("Ss", .stack n a.Ss),
          ("Zcs", .item (.arr a.Zcs)), ("Gms", .item (.arr a.Gms))] := by
        rw [Rf.attrs, List.mem_append, List.mem_append] at hkv
        rcases hkv with (h | h) | h
        · simp only [List.mem_cons, List.not_mem_nil, or_false] at h
          rcases h with rfl | rfl | rfl | rfl | rfl | rfl | rfl | rfl | rfl | rfl | rfl | rfl | rfl | rfl | rfl | rfl | rfl | rfl | rfl |
            rfl | rfl | rfl | rfl <;> simp at hk ⊢
        · exfalso
          rcases hf : a.file with _ | ⟨_, _, _, _, _⟩ <;> rw [hf] at h <;> simp only [fileAttrs, List.mem_cons, List.not_mem_nil, or_false] at h
          rcases h with rfl | rfl | rfl | rfl | rfl <;> simp at hk
        · exfalso
          rcases ha.ips with hf | hf <;> rw [hf] at h <;> simp only [interpAttrs, List.mem_cons, List.not_mem_nil, or_false] at h
          rcases h with rfl | rfl <;> simp at hk
      simp only [List.mem_cons, List.not_mem_nil, or_false] at hkv'
      rcases hkv' with rfl | rfl | rfl | rfl | rfl | rfl
      · rw [differs_item a b "args" _ (.tup b.args) (by decide) rfl, ha.args, hb.args]
        exact ⟨_, rfl⟩
      · rw [differs_item a b "kwargs" _ (.dict b.kwargs) (by decide) rfl]
        exact (neDict_plain (np := np) ha.kwargs hb.kwargs ha.keys hb.keys).1
      · rw [differs_fs]
        split
        · exact ⟨_, rfl⟩
        · exact ⟨_, rfl⟩
      · rw [differs_Ss]
        split
        · exact ⟨_, rfl⟩
        · simp only [allClose, closeStack, if_pos (show n = m ∨ n = 1 ∨ m = 1 from Or.inr hnm)]
          exact ⟨_, rfl⟩
      · rw [differs_item a b "Zcs" _ (.item (.arr b.Zcs)) (by decide) rfl]
        exact hz
      · rw [differs_item a b "Gms" _ (.item (.arr b.Gms)) (by decide) rfl]
        exact hg
    · rcases fresh_mem ha hkv with h | ⟨p, h⟩
      · exact absurd h hk
      · obtain ⟨k, v⟩ := kv
        simp only at h
        subst h
        exact plain hb k p hk
  have z := arr _ _ hza hzb
  have g := arr _ _ hga hgb
  constructor
  · obtain ⟨r, hr⟩ := main ha hb (Or.inl rfl) ⟨_, z.1⟩ ⟨_, g.1⟩
    cases r with
    | false => exact hr
    | true => exact absurd (C73_equal_sound hpa hpb hr).1 (by omega)
  · obtain ⟨r, hr⟩ := main hb ha (Or.inr rfl) ⟨_, z.2⟩ ⟨_, g.2⟩
    cases r with
    | false => exact hr
    | true => exact absurd (C73_equal_sound hpb hpa hr).1 (by omega)

/-! ## Examples -/

/-- an object made by `rfObject(Id=Id, ports=names)` and one `setS(f, S)` -/
noncomputable def ex {n : ℕ} (Id : String) (names : List String) (f : ℝ) (S : Mat n) : Rf n where
  args := []
  kwargs := [("Id", .plain (.str Id)), ("ports", .plain (.strs names))]
  Id := Id
  N := n
  ports := names
  Zbase := 50
  funit := "Hz"
  fscale := 1
  flim := [1 / 1000, 1000]
  interp := "MA"
  interpkws := 0
  xpos := List.replicate n 0
  fs := [f]
  Ss := [S]
  sorted := true
  Zcs := ⟨1, [0, n], []⟩
  Gms := ⟨2, [0, n], []⟩
  touchstone := none
  interpOK := false
  f := none
  S := none
  interpolators := some none
  file := none

theorem ex_fresh {n : ℕ} (Id : String) (names : List String) (f : ℝ) (S : Mat n) : Fresh (ex Id names f S) :=
  ⟨rfl, by simp [ex], by simp [ex], rfl, by simp [ex], by simp [ex], Or.inr rfl⟩

theorem ex_iff {n : ℕ} (Id : String) (names : List String) (hn : names.length = n) (f f' : ℝ) (S S' : Mat n) :
    (ex Id names f S).eq Np.old (ex Id names f' S') = .ok true ↔ Close (f : ℂ) (f' : ℂ) ∧ ∀ i j, Close (S i j) (S' i j) := by
  refine (C73_fresh_iff (np := Np.old) (a := ex Id names f S) (b := ex Id names f' S') rfl (ex_fresh _ _ _ _) (ex_fresh _ _ _ _) rfl rfl hn
    hn).2.trans ?_
  constructor
  · intro h
    refine ⟨h.2.2.2.2.1 0 f f' rfl rfl, fun i j => h.2.2.2.2.2 0 S S' rfl rfl i j i j rfl rfl⟩
  · intro h
    refine ⟨⟨rfl, rfl, rfl, rfl, rfl, rfl, rfl, rfl, rfl, rfl, rfl, rfl, rfl, rfl, rfl⟩, List.Perm.refl _, rfl, rfl, ?_, ?_⟩
    · intro k x y h1 h2
      cases k with
      | zero => cases h1; cases h2; exact h.1
      | succ k => simp [ex] at h1
    · intro k A B h1 h2 i j i' j' hi hj
      cases k with
      | zero =>
        cases h1; cases h2
        rw [Fin.ext hi, Fin.ext hj]
        exact h.2 _ _
      | succ k => simp [ex] at h1

/-- C73: close data of equal objects; the comparison answers -/
theorem C73_fresh_witness : (ex "a" ["p", "q"] 1 (1 : Mat 2)).eq Np.old (ex "a" ["p", "q"] 1 (1 : Mat 2)) = .ok true ∧
    (ex "a" ["p", "q"] 1 (1 : Mat 2)).eq Np.old (ex "a" ["p", "q"] 2 (1 : Mat 2)) = .ok false := by
  constructor
  · exact (ex_iff _ _ rfl _ _ _ _).2 ⟨close_refl _, fun _ _ => close_refl _⟩
  · obtain ⟨r, hr⟩ := (C73_fresh_iff (np := Np.old) rfl (ex_fresh "a" ["p", "q"] 1 (1 : Mat 2)) (ex_fresh "a" ["p", "q"] 2 (1 : Mat 2)) rfl rfl rfl rfl).1
    cases r with
    | false => exact hr
    | true =>
      have := ((ex_iff _ _ rfl _ _ _ _).1 hr).1
      unfold Close at this
      norm_num at this

/-- C73 violated: the comparison is not symmetric, the tolerance being relative to the second object -/
theorem C73_asymmetric : ∃ a b : Rf 1, a.eq Np.old b = .ok true ∧ b.eq Np.old a = .ok false := by
  let x : ℂ := (((1 : ℝ) - (1 / 10 ^ 8 + 1 / 10 ^ 5) : ℝ) : ℂ)
  refine ⟨ex "a" ["p"] 1 (fun _ _ => x), ex "a" ["p"] 1 (fun _ _ => 1), ?_, ?_⟩
  · refine (ex_iff _ _ rfl _ _ _ _).2 ⟨close_refl _, fun _ _ => ?_⟩
    unfold Close
    have : x - 1 = ((-(1 / 10 ^ 8 + 1 / 10 ^ 5) : ℝ) : ℂ) := by simp only [x]; push_cast; ring
    rw [this, Complex.norm_real]
    norm_num
  · obtain ⟨r, hr⟩ := (C73_fresh_iff (np := Np.old) rfl (ex_fresh "a" ["p"] 1 (fun _ _ => 1 : Mat 1)) (ex_fresh "a" ["p"] 1 (fun _ _ => x : Mat 1)) rfl rfl rfl rfl).1
    cases r with
    | false => exact hr
    | true =>
      exfalso
      have := ((ex_iff _ _ rfl _ _ _ _).1 hr).2 0 0
      unfold Close at this
      have h1 : (1 : ℂ) - x = (((1 / 10 ^ 8 + 1 / 10 ^ 5) : ℝ) : ℂ) := by simp only [x]; push_cast; ring
      have h2 : ‖x‖ = 1 - (1 / 10 ^ 8 + 1 / 10 ^ 5) := by
        simp only [x]
        rw [Complex.norm_real]
        norm_num
      rw [h1, Complex.norm_real, h2] at this
      norm_num at this

/-- C73 violated: all transmissions below 160 dB are the same -/
theorem C73_small_entries : ∃ a b : Rf 1, a.Ss ≠ b.Ss ∧ (∃ S, b.Ss = [S] ∧ S 0 0 = 0) ∧ a.eq Np.old b = .ok true := by
  refine ⟨ex "a" ["p"] 1 (fun _ _ => 1 / 10 ^ 8), ex "a" ["p"] 1 (fun _ _ => 0), ?_, ⟨_, rfl, rfl⟩, ?_⟩
  · intro h
    have h : ([fun _ _ => 1 / 10 ^ 8] : List (Mat 1)) = [fun _ _ => 0] := h
    injection h with h
    have := congrFun (congrFun h 0) 0
    norm_num at this
  · refine (ex_iff _ _ rfl _ _ _ _).2 ⟨close_refl _, fun _ _ => ?_⟩
    unfold Close
    norm_num

/-- evaluated objects exist: `getS` at the stored frequency keeps the matrix it returns -/
theorem C73_evaluated_witness : ∃ a : Rf 2, a.ports.length = 2 ∧ a.eq Np.old a = .error .valueError := by
  refine ⟨{ ex "a" ["p", "q"] 1 (1 : Mat 2) with f := some 1, S := some ⟨3, [2, 2], [1, 0, 0, 1]⟩ }, rfl, ?_⟩
  refine (C73_evaluated_raises old_sane le_rfl rfl rfl ?_).1
  intro S' h
  injection h with h
  rw [← h]

/-- the hypotheses of C73_array_raises, C73_ports_raise and C73_pickled can be met -/
theorem C73_raises_witness :
    ({ ex "a" ["p", "q"] 1 (1 : Mat 2) with args := [.arr ⟨3, [2, 2], [1, 0, 0, 1]⟩] } : Rf 2).eq Np.old
        { ex "a" ["p", "q"] 1 (1 : Mat 2) with args := [.arr ⟨4, [2, 2], [1, 0, 0, 1]⟩] } = .error .valueError ∧
      (ex "a" ["p", "q"] 1 (1 : Mat 2)).eq Np.old (ex "b" ["p", "q", "r"] 1 (1 : Mat 3)) = .error .valueError ∧
      (ex "a" ["p", "q"] 1 (1 : Mat 2)).eq Np.old ((ex "a" ["p", "q"] 1 (1 : Mat 2)).pickled (· + 10)) ≠ .ok true ∧
      (ex "a" ["p", "q"] 1 (1 : Mat 2)).eq Np.new (ex "a" ["p", "q"] 1 (1 : Mat 2)) = .error .valueError :=
  ⟨C73_array_raises old_sane le_rfl rfl rfl rfl rfl (by decide), C73_ports_raise old_sane (by decide) (by decide) (by decide) rfl,
    C73_pickled le_rfl rfl (by simp [Np.old]) _, C73_new_numpy rfl (by simp [ex])⟩

/-- the hypotheses of C73_one_port can be met -/
theorem C73_one_port_witness : (ex "a" ["p"] 1 (1 : Mat 1)).eq Np.old (ex "a" ["p", "q"] 1 (1 : Mat 2)) = .ok false :=
  (C73_one_port rfl (ex_fresh _ _ _ _) (ex_fresh _ _ _ _) (by decide) rfl rfl rfl rfl rfl rfl).1

/-- the hypotheses of C73_single_values and C73_pickled_ready can be met: an evaluated one-port is equal to itself -/
theorem C73_single_witness : ∃ a : Rf 1, (∃ S, a.S = some S ∧ S.shape.prod = 1) ∧ a.interpOK = true ∧ a.eq Np.old a = .ok true := by
  refine ⟨{ ex "a" ["p"] 1 (1 : Mat 1) with f := some 1, S := some ⟨3, [1, 1], [1]⟩, interpOK := true }, ⟨_, rfl, rfl⟩, rfl, ?_⟩
  refine eq_obj_true.2 ⟨fun kv hkv => ?_, fun kv hkv => List.mem_map_of_mem hkv⟩
  generalize ha : ({ ex "a" ["p"] 1 (1 : Mat 1) with f := some 1, S := some ⟨3, [1, 1], [1]⟩, interpOK := true } : Rf 1) = a at hkv ⊢
  have hS : a.S = some ⟨3, [1, 1], [1]⟩ := by rw [← ha]
  have hZ : a.Zcs = ⟨1, [0, 1], []⟩ := by rw [← ha]; rfl
  have hG : a.Gms = ⟨2, [0, 1], []⟩ := by rw [← ha]; rfl
  have hargs : a.args = [] := by rw [← ha]; rfl
  have hkw : a.kwargs = [("Id", .plain (.str "a")), ("ports", .plain (.strs ["p"]))] := by rw [← ha]; rfl
  have hfile : a.file = none := by rw [← ha]; rfl
  have hip : a.interpolators = some none := by rw [← ha]; rfl
  clear ha
  have hsame : ∀ (k : String) (p : P), ¬ (k = "fs" ∨ k = "Ss") → a.attrs.lookup k = some (.item (.plain p)) →
      differs Np.old a.attrs a.attrs (k, .item (.plain p)) = .ok false := by
    intro k p hk hl
    rw [differs_item a a k _ _ hk hl]
    simp [neVal, neItem]
  rw [Rf.attrs, List.mem_append, List.mem_append, hfile, hip] at hkv
  rcases hkv with (h | h) | h
  · simp only [List.mem_cons, List.not_mem_nil, or_false] at h
    rcases h with rfl | rfl | rfl | rfl | rfl | rfl | rfl | rfl | rfl | rfl | rfl | rfl | rfl | rfl | rfl | rfl | rfl | rfl | rfl |
      rfl | rfl | rfl | rfl
    any_goals exact hsame _ _ (by decide) rfl
    · rw [differs_item a a "args" _ (.tup a.args) (by decide) rfl, hargs]
      rfl
    · rw [differs_item a a "kwargs" _ (.dict a.kwargs) (by decide) rfl, hkw]
      simp [neVal, neDict, neDictLoop, eqItem, List.lookup]
    · rw [differs_fs]
      simp only [allClose, ne_eq, not_true_eq_false, if_false]
      congr 1
      simp only [Bool.not_eq_false', decide_eq_true_eq]
      · intro k x y h1 h2
        rw [h1] at h2; injection h2 with h2; rw [h2]; exact close_refl _
    · rw [differs_Ss]
      simp only [allClose, closeStack, ne_eq, not_true_eq_false, if_false, true_or, if_true]
      congr 1
      simp only [Bool.not_eq_false', decide_eq_true_eq]
      · intro k S S' h1 h2 i j i' j' _
        rw [h1] at h2; injection h2 with h2; rw [h2, Subsingleton.elim i i', Subsingleton.elim j j']; exact close_refl _
    · rw [differs_item a a "Zcs" _ (.item (.arr a.Zcs)) (by decide) rfl, hZ]
      rfl
    · rw [differs_item a a "Gms" _ (.item (.arr a.Gms)) (by decide) rfl, hG]
      rfl
    · rw [differs_item a a "S" _ (.item (optArr a.S)) (by decide) rfl, hS]
      simp [neVal, optArr, neItem, neArr, truth, bshape]
  · cases h
  · have e : ∀ k, k ∈ ["interpA", "interpM"] → a.attrs.lookup k = (fileAttrs a.file ++ interpAttrs a.interpolators).lookup k := by
      intro k hk
      simp only [List.mem_cons, List.not_mem_nil, or_false] at hk
      rcases hk with rfl | rfl <;> rfl
    simp only [interpAttrs, List.mem_cons, List.not_mem_nil, or_false] at h
    rcases h with rfl | rfl
    · exact hsame _ _ (by decide) (by rw [e _ (by simp), hfile, hip]; rfl)
    · exact hsame _ _ (by decide) (by rw [e _ (by simp), hfile, hip]; rfl)

end PyRFtk.RfObject.Eqv
