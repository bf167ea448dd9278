import Verif.RfBase
import Verif.TRLProps2

/-!
# Model of `rfObject.py`

The measured-data object: stored frequencies and matrices, sorting, the cached interpolators, port reordering, change of
reference, de-embedding of line sections, port voltages, copying and pickling.

Parameters of the model (`Env`): `argsort` stands for `ndarray.argsort` on the frequencies (any sorting permutation: numpy's
default is not stable), `strsort` for `np.array(ports).argsort()`, `build` for the construction of the two `interp1d`
interpolators (`rfObject.py:459-481`) followed by their evaluation (486-498).

Simplifications.  Exact numbers.  Frequencies are given in the object's own unit (the factor `FUNITS[..]/fscale`, 533, is C43's
subject).  An object created without port names takes its size from its first successful `setS`; it is modelled from then on
(`colsOk = false`: its arrays `Zcs`, `Gms` still have 0 columns, 183-184).  `Zcs`, `Gms` are only filled from Touchstone files.
-/

namespace PyRFtk.RfObject

abbrev Mat (n : ℕ) := Matrix (Fin n) (Fin n) ℂ

/-- interpolators as called in `_interp_` with one frequency -/
abbrev Fn (n : ℕ) := ℝ → Except Err (Mat n)

structure Env (n : ℕ) where
  argsort : List ℝ → List ℕ
  strsort : List String → List ℕ
  build : List ℝ → List (Mat n) → Except Err (Fn n)

/-- the attributes of an rfObject, `rfObject.py:150-213` -/
structure Obj (n : ℕ) where
  ports : List String
  xpos : List ℝ
  Zbase : ℝ
  fs : List ℝ
  Ss : List (Mat n)
  Zcs : List (Fin n → ℂ)
  Gms : List (Fin n → ℂ)
  colsOk : Bool
  sorted : Bool
  /-- `interpOK` together with `interpM`, `interpA`: `none` when `interpOK` is False -/
  interp : Option (Fn n)

/-- `rfObject(ports=..., Zbase=...)`, `rfObject.py:150-213` without argument or Touchstone; `n` is the number of names -/
def new {n : ℕ} (ports : List String) (Zbase : ℝ) : Obj n :=
  ⟨ports, List.replicate n 0, Zbase, [], [], [], [], true, true, none⟩

/-- `rfObject(S)`, `rfObject.py:111-136`: the constant object -/
def ofArray {n : ℕ} (names : List String) (S : Mat n) (Zbase : ℝ) : Obj n :=
  ⟨names, List.replicate n 0, Zbase, [0, 10 ^ 18], [S, S], [], [], true, true, none⟩

/-- `a[idxs]` -/
def take {α : Type} (l : List α) (idxs : List ℕ) : List α := idxs.filterMap fun k => l[k]?

/-- `_sort_fs_`, `rfObject.py:432-443`: the frequencies and matrices are reordered before `Zcs`, `Gms` are indexed; an index
beyond their rows raises IndexError and leaves `sorted` False -/
def sortFs {n : ℕ} (env : Env n) (o : Obj n) : Obj n × Except Err Unit :=
  if o.sorted then (o, .ok ())
  else
    let idxs := env.argsort o.fs
    let o1 := { o with fs := take o.fs idxs, Ss := take o.Ss idxs }
    if idxs.any (fun k => o.Zcs.length ≤ k) then (o1, .error .indexError)
    else
      let o2 := { o1 with Zcs := take o.Zcs idxs }
      if idxs.any (fun k => o.Gms.length ≤ k) then (o2, .error .indexError)
      else ({ o2 with Gms := take o.Gms idxs, sorted := true }, .ok ())

/-- the first part of `_interp_`, `rfObject.py:454-481` -/
def interpolators {n : ℕ} (env : Env n) (o : Obj n) : Obj n × Except Err (Fn n) :=
  match o.interp with
  | some F => (o, .ok F)
  | none => match sortFs env o with
    | (o1, .error e) => (o1, .error e)
    | (o1, .ok ()) => match env.build o1.fs o1.Ss with
      | .error e => (o1, .error e)
      | .ok F => ({ o1 with interp := some F }, .ok F)

/-- `get1S` inside `getS`, `rfObject.py:535-541` -/
noncomputable def get1S {n : ℕ} (env : Env n) (o : Obj n) (f : ℝ) : Obj n × Except Err (Mat n) :=
  match (List.range o.fs.length).find? (fun k => o.fs[k]? = some f) with
  | some k => (o, match o.Ss[k]? with | some S => .ok S | none => .error .indexError)
  | none => match interpolators env o with
    | (o1, .error e) => (o1, .error e)
    | (o1, .ok F) => (o1, F f)

/-- an array expected to be an n x n matrix -/
noncomputable def asMat (n : ℕ) : ND ℂ → Except Err (Mat n)
  | .d2 p q A => if h : p = n ∧ q = n then .ok (A.submatrix (Fin.cast h.1.symm) (Fin.cast h.2.symm)) else .error .typeError
  | _ => .error .typeError

open Classical in
/-- `tS if Zbase == self.Zbase else ConvertGeneral(Zbase, tS, self.Zbase)`, `rfObject.py:546-549, 553-555` -/
noncomputable def onRef {n : ℕ} (Zown Z : ℝ) (S : Mat n) : Except Err (Mat n) :=
  if Z = Zown then .ok S
  else match convertGeneral (.d0 (Z : ℂ)) (.d2 n n S) (.d0 (Zown : ℂ)) "V" "V" with
    | .error e => .error e
    | .ok R => asMat n R

/-- `getS` at one frequency, `rfObject.py:551-557` -/
noncomputable def getS {n : ℕ} (env : Env n) (o : Obj n) (f : ℝ) (Zb : Option ℝ) : Obj n × Except Err (Mat n) :=
  match get1S env o f with
  | (o1, .error e) => (o1, .error e)
  | (o1, .ok S) => (o1, onRef o.Zbase (Zb.getD o.Zbase) S)

/-- the loop of `getS` over a sequence of frequencies, `rfObject.py:543-549` -/
noncomputable def getSsLoop {n : ℕ} (env : Env n) (Z : ℝ) : Obj n → List ℝ → Obj n × Except Err (List (Mat n))
  | o, [] => (o, .ok [])
  | o, f :: fs => match getS env o f (some Z) with
    | (o1, .error e) => (o1, .error e)
    | (o1, .ok S) => match getSsLoop env Z o1 fs with
      | (o2, .error e) => (o2, .error e)
      | (o2, .ok l) => (o2, .ok (S :: l))

/-- `getS` with a sequence of frequencies, `rfObject.py:542-550`; with an empty one the loop variable `f` is unbound -/
noncomputable def getSs {n : ℕ} (env : Env n) (o : Obj n) (fs : List ℝ) (Zb : Option ℝ) : Obj n × Except Err (List (Mat n)) :=
  if fs = [] then (o, .error .unboundLocal) else getSsLoop env (Zb.getD o.Zbase) o fs

/-- the matrices of a stack as n x n matrices -/
def castStack {n m : ℕ} (h : m = n) (l : List (Mat m)) : List (Mat n) := h ▸ l

open Classical in
/-- the update of the flag, `rfObject.py:613-616`: only the last two frequencies are compared; with no frequency at all
`self.fs[-2]` raises IndexError -/
noncomputable def sortedAfter (was : Bool) (fs : List ℝ) : Except Err Bool :=
  if was = false then .ok false
  else if fs.length = 1 then .ok true
  else match fs[fs.length - 2]?, fs.getLast? with
    | some a, some b => .ok (decide (a < b))
    | _, _ => .error .indexError

/-- `setS(f, S, Portnames)`, `rfObject.py:567-617`, for an object whose port names are known.  A scalar `f` is the list `[f]`
(580).  The mismatch message itself raises TypeError (597: `len` of an int). -/
noncomputable def setS {n : ℕ} (o : Obj n) (f : List ℝ) (S : ND ℂ) (names : Option (List String)) : Obj n × Except Err Unit :=
  let o1 := { o with interp := none }                                                     -- 571-573
  match check3D S with                                                                    -- 575-578
  | .error e => (o1, .error e)
  | .ok st =>
    if f.length ≠ st.mats.length then (o1, .error .valueError)                            -- 582-585
    else if names.isSome then (o1, .error .valueError)                                    -- 592-593
    else if h : st.N = n then
      let o2 := { o1 with fs := o.fs ++ f, Ss := o.Ss ++ castStack h st.mats }            -- 609-610
      match sortedAfter o.sorted o2.fs with                                               -- 613-616
      | .error e => (o2, .error e)
      | .ok b => ({ o2 with sorted := b }, .ok ())
    else (o1, .error .typeError)                                                          -- 598-601

/-- `obj[k] = (f, S)`, `rfObject.py:346-348` (non-negative index) -/
def setItem {n : ℕ} (o : Obj n) (k : ℕ) (f : ℝ) (S : Mat n) : Obj n × Except Err Unit :=
  if k < o.fs.length then
    let o1 := { o with fs := o.fs.set k f }
    if k < o.Ss.length then ({ o1 with Ss := o.Ss.set k S }, .ok ()) else (o1, .error .indexError)
  else (o, .error .indexError)

/-- the index list of `sortports`, `rfObject.py:414-421` -/
def portOrder {n : ℕ} (env : Env n) (ports : List String) (order : Option (List String)) : Except Err (List ℕ) :=
  match order with
  | none => .ok (env.strsort ports)                                                       -- 421
  | some order =>
    match mapE (fun p => if p ∈ ports then Except.ok (ports.idxOf p) else .error Err.valueError) order with   -- 415
    | .error e => .error e
    | .ok idxs =>
      let idxs' := idxs ++ (List.range ports.length).filter (fun k => decide (k ∉ idxs))  -- 416
      if idxs'.length ≠ ports.length then .error .valueError else .ok idxs'               -- 417-419

/-- a list of n indices below n as a map on the ports -/
def asMap (n : ℕ) (idxs : List ℕ) : Option (Fin n → Fin n) :=
  if h : idxs.length = n ∧ ∀ k ∈ idxs, k < n then
    some fun i => ⟨idxs[i.1]'(h.1 ▸ i.2), h.2 _ (List.getElem_mem _)⟩
  else none

/-- `sortports(order)`, `rfObject.py:412-426`: names, both matrix indices, then `Zcs`, `Gms`; not `xpos`, and the interpolators
are kept -/
def sortports {n : ℕ} (env : Env n) (o : Obj n) (order : Option (List String)) : Obj n × Except Err Unit :=
  match portOrder env o.ports order with
  | .error e => (o, .error e)
  | .ok idxs => match asMap n idxs with
    | none => (o, .error .indexError)
    | some σ =>
      let o1 := { o with ports := take o.ports idxs, Ss := o.Ss.map fun S => S.submatrix σ σ }
      if o.colsOk = false ∧ n ≠ 0 then (o1, .error .indexError)
      else ({ o1 with Zcs := o.Zcs.map fun r => r ∘ σ, Gms := o.Gms.map fun r => r ∘ σ }, .ok ())

/-- `convert2newZbase`, `rfObject.py:508-517`; the interpolators are kept.  Without data `ConvertGeneral` returns an empty 1-D array
(`ConvertGeneral.py:127`), which becomes `Ss`; the next `setS` gives it its shape back (604) -/
noncomputable def rebase {n : ℕ} (o : Obj n) (Z : ℝ) : Obj n × Except Err Unit :=
  match convertGeneral (.d0 (Z : ℂ)) (.d3 n n o.Ss) (.d0 (o.Zbase : ℂ)) "V" "V" with
  | .ok (.d3 p q l) => if h : p = n ∧ q = n then
      ({ o with Ss := l.map fun A => A.submatrix (Fin.cast h.1.symm) (Fin.cast h.2.symm), Zbase := Z }, .ok ())
    else (o, .error .typeError)
  | .ok (.d1 []) => ({ o with Ss := [], Zbase := Z }, .ok ())
  | .ok _ => (o, .error .typeError)
  | .error e => (o, .error e)

/-! ### deembed -/

/-- the values of the dictionary given to `deembed`, `rfObject.py:711-723`: a tuple `(L, Z)`, a number or a dictionary (both
reach `isinstance(v, [int, float])`, which raises TypeError) -/
inductive Arg | tuple (L Z : ℝ) | number (L : ℝ) | dict

open Classical in
/-- one frequency of one port, `rfObject.py:727-757` -/
noncomputable def deembed1 {n : ℕ} (S : Mat n) (k : Fin n) (T : TRL.Mat2) : Except Err (Mat n) :=
  let qn := 1 - T 0 0 * S k k
  if qn ≠ 0 then
    let bk : Fin n → ℂ := fun j => T 1 0 / qn * S k j                                     -- 738
    let bk := Function.update bk k (bk k * T 0 1 + T 1 1)                                 -- 739
    let q11 : Fin n → ℂ := fun j => T 0 0 / qn * S k j                                    -- 741
    let q12 : Fin n → ℂ := fun i => T 0 1 / qn * S i k                                    -- 742
    let S1 : Mat n := fun i j => S i j + S i k * q11 j                                    -- 743
    let S2 : Mat n := fun i j => if j = k then q12 i else S1 i j                          -- 744
    .ok fun i j => if i = k then bk j else S2 i j                                         -- 745
  else .error .runtimeError                                                               -- 747-757

/-- the loop over the frequencies for one port: the matrices before the failing one are already replaced -/
noncomputable def deembedFs {n : ℕ} (k : Fin n) (line : ℝ → Except Err TRL.Mat2) : List ℝ → List (Mat n) →
    List (Mat n) × Except Err Unit
  | f :: fs, S :: Ss => match line f with
    | .error e => (S :: Ss, .error e)
    | .ok T => match deembed1 S k T with
      | .error e => (S :: Ss, .error e)
      | .ok S' => match deembedFs k line fs Ss with
        | (l, r) => (S' :: l, r)
  | _, Ss => (Ss, .ok ())

/-- the entry of a Python dict -/
def argOf (d : List (String × Arg)) (p : String) : Option Arg := (d.find? fun x => x.1 = p).map Prod.snd

/-- the loop over the ports, `rfObject.py:709-757`; returns the object, what is left of the caller's dictionary and the outcome.
`line Zbase L Z f` is `rfTRL(L=L, Z0TL=Z, Zbase=Zbase).getS(f)` -/
noncomputable def deembedPorts {n : ℕ} (line : ℝ → ℝ → ℝ → ℝ → Except Err TRL.Mat2) :
    Obj n → List (Fin n × String) → List (String × Arg) → Obj n × List (String × Arg) × Except Err Unit
  | o, [], d => (o, d, .ok ())
  | o, (k, p) :: ps, d => match argOf d p with
    | none => deembedPorts line o ps d
    | some v =>
      let d' := d.filter fun x => x.1 ≠ p                                                 -- 711
      match v with
      | .tuple L Z => match deembedFs k (line o.Zbase (-L) Z) o.fs o.Ss with
        | (l, .error e) => ({ o with Ss := l }, d', .error e)
        | (l, .ok ()) => deembedPorts line { o with Ss := l } ps d'
      | .number _ => (o, d', .error .typeError)
      | .dict => (o, d', .error .typeError)

/-- `deembed(ports)`, `rfObject.py:689-762` -/
noncomputable def deembed {n : ℕ} (line : ℝ → ℝ → ℝ → ℝ → Except Err TRL.Mat2) (o : Obj n) (hn : o.ports.length = n)
    (d : List (String × Arg)) : Obj n × List (String × Arg) × Except Err Unit :=
  match deembedPorts line { o with interp := none }
      ((List.finRange n).map fun i => (i, o.ports.get (i.cast hn.symm))) d with
  | (o1, d1, .error e) => (o1, d1, .error e)
  | (o1, d1, .ok ()) => (o1, d1, if d1 = [] then .ok () else .error .valueError)          -- 759-762

/-- the line section `rfTRL(L=L, Z0TL=Z, Zbase=Zb)`: uniform and lossless, so the resolver gives `rjwL = i w Z / vT`,
`gjwC = i w / (Z vT)` with `vT` the velocity (the vacuum value by default) -/
noncomputable def section_ (vT : ℝ) (Zb L Z : ℝ) : TRL.Line where
  ports := ["1", "2"]
  L := L
  Zbase := Zb
  dx := .int 360
  constant := true
  z := fun w _ => Complex.I * w * Z / vT
  y := fun w _ => Complex.I * w / (Z * vT)
  xpos := (0, L)
  solved := []

/-- `TRL.getS(f)` for that section -/
noncomputable def losslessLine (ode : TRL.Ode) (vT : ℝ) (Zb L Z f : ℝ) : Except Err TRL.Mat2 :=
  (TRL.getS ode (section_ vT Zb L Z) f none []).2

/-! ### maxV -/

open Classical in
/-- `np.max` of a complex array: the largest in lexicographic order, first position -/
noncomputable def lexLe (a b : ℂ) : Bool := decide (a.re < b.re ∨ a.re = b.re ∧ a.im ≤ b.im)

noncomputable def lexMaxAt : List ℂ → Option (ℂ × ℕ)
  | [] => none
  | x :: xs => match lexMaxAt xs with
    | none => some (x, 0)
    | some (m, k) => if lexLe m x then some (x, 0) else some (m, k + 1)

/-- `E[p]` -/
def excitation (E : List (String × ℂ)) (p : String) : Except Err ℂ :=
  match RfBase.dictGet E p with
  | some x => .ok x
  | none => .error .keyError

/-- `maxV`, `rfObject.py:623-634`, given the S-matrix on the requested reference: every port needs an entry in `E`
(KeyError otherwise); `np.max` is applied to the complex voltages -/
noncomputable def maxV {n : ℕ} (ports : List String) (S : Except Err (Mat n)) (E : List (String × ℂ)) :
    Except Err (ℂ × String) :=
  match mapE (excitation E) ports with
  | .error e => .error e
  | .ok l => match S with
    | .error e => .error e
    | .ok S =>
      let a : Fin n → ℂ := fun i => l.getD i.1 0
      let V := (List.finRange n).map fun i => a i + S.mulVec a i
      match lexMaxAt V with
      | none => .error .valueError
      | some (m, k) => match ports[k]? with
        | none => .error .indexError
        | some p => .ok (m, p)

/-! ### pickling -/

/-- `__getstate__` then `__setstate__`, `rfObject.py:253-283`: the interpolators are dropped; the arrays go through nested lists, so
an array without rows comes back one-dimensional (`colsOk`: it can no longer be indexed by columns), everything else is kept -/
def pickled {n : ℕ} (o : Obj n) : Obj n := { o with interp := none, colsOk := o.colsOk && !o.Zcs.isEmpty }

end PyRFtk.RfObject
