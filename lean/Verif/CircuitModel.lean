import Verif.Base
import Mathlib.Data.Rat.Defs
import Mathlib.Data.Matrix.Mul

/-!
# Model of `rfCircuit.py`: the circuit-assembly state machine

One circuit level.  The blocks are objects of an abstract type `O` with operations `ObjOps` (what the code uses of an
"RFobj"); nesting is obtained by instantiating `O` with circuits themselves (see `CircuitNest.lean`).

Every operation returns the state *after* the call also when it raises (`St × Except Err _`), because the Python code
mutates before raising.

Simplifications (all in this file):
* names: a port string is a `Node`: `blk b p` is the string `b.p` (block names contain no dot, since `addblock` treats a
  dotted name as a path), `ext n` is a string without a dot;
* objects are values: two blocks never share one Python object (sharing is the subject of the tree/heap model);
* `params` is `{}` everywhere (parameters are the subject of `CircuitParams.lean`) and there is no `sNp` file;
* the dictionaries `C`, `nodes`, `idxEs` (only used for printing or recomputed) are left out;
* debug logging is left out;
* `np.nan` placeholders for the not yet known block S-matrices are an arbitrary number `nan`.
-/

namespace PyRFtk.Circuit

/-- `'->'` and `'<-'` -/
inductive Dir | inn | out
deriving DecidableEq, Repr

/-- A node (port) name, see the file comment. -/
inductive Node
  | blk (b p : String)
  | ext (n : String)
deriving DecidableEq, Repr

/-- an entry of `self.waves`, e.g. `'->blk.p'` -/
abbrev Wave := Dir × Node

/-- tag of an entry of `self.eqns` (`S[`, `S+`, `S]`, `C…`, `T:`, `E:`, `Di`, `De`) -/
inductive Eqn
  | S (n : Node) | C (n : Node) | T (n : Node) | E (n : Node) | Di (n : Node) | De (n : Node)
deriving DecidableEq, Repr

/-- a square matrix as returned by `getS` for one frequency -/
structure SMat (K : Type*) where
  n : ℕ
  m : Matrix (Fin n) (Fin n) K

/-- What `rfCircuit` uses of a block object: `len(obj)`, `obj.ports` (if present), `obj.xpos` (if present), the position of
one of its ports as found by `getpos`, and `obj.getS(f, Zbase=, params={}, flags=)`, which may change the object
(caches) and may raise. -/
structure ObjOps (K O F Fl : Type*) where
  len : O → ℕ
  ports : O → Option (List String)
  xpos : O → Option (List ℚ)
  portPos : O → String → Except Err ℚ
  getS : O → F → K → Fl → O × Except Err (SMat K)

/-- an entry of `self.blocks` (rfCircuit.py:674-680) -/
structure Blk (O : Type*) where
  name : String
  ports : List String
  loc : ℕ × ℕ
  obj : O
  relpos : ℚ

/-- the attributes of an `rfCircuit` instance (rfCircuit.py:59-112) -/
structure St (K O F Fl : Type*) where
  zbase : K
  /-- rows of `self.M`; entry `j` of a row is meaningful for `j < cols` -/
  rows : List (ℕ → K)
  cols : ℕ
  waves : List Wave
  ports : List Node
  xpos : List ℚ
  blocks : List (Blk O)
  eqns : List Eqn
  /-- `self.T[port] = idxA, idxB, eqn` -/
  T : List (Node × (ℕ × ℕ × ℕ))
  /-- `self.E[port] = eqn` -/
  E : List (Node × ℕ)
  portnames : List Node
  /-- `self.Portnames is self.ports` (same list object), true after `extS` executed line 1027 or 1030 -/
  aliased : Bool
  f : Option F
  flags : Option Fl
  S : Option (SMat K)
  invM : Option (SMat K)

/-- `rfCircuit(Zbase=…, Portnames=…)` (rfCircuit.py:59-112), with no `ports` keyword. -/
def St.init {K O F Fl : Type*} (zbase : K) (portnames : List Node) : St K O F Fl where
  zbase := zbase; rows := []; cols := 0; waves := []; ports := []; xpos := []; blocks := []
  eqns := []; T := []; E := []; portnames := portnames; aliased := false; f := none; flags := none; S := none
  invM := none

/-- value of `self.Portnames` -/
def St.names {K O F Fl : Type*} (s : St K O F Fl) : List Node := if s.aliased then s.ports else s.portnames

/-- position of the first occurrence -/
def idx {α : Type*} [DecidableEq α] (l : List α) (x : α) : ℕ := l.idxOf x

/-- Python `list.index` (ValueError when absent) -/
def pyIndex {α : Type*} [DecidableEq α] (l : List α) (x : α) : Except Err ℕ :=
  if x ∈ l then .ok (idx l x) else .error .valueError

/-- Python `list.pop(k)` for `k ≥ 0` (IndexError when out of range) -/
def pyPop {α : Type*} (l : List α) (k : ℕ) : Except Err (List α) :=
  if k < l.length then .ok (l.eraseIdx k) else .error .indexError

/-- dictionaries as insertion-ordered association lists -/
def dictSet {α β : Type*} [DecidableEq α] (k : α) (v : β) : List (α × β) → List (α × β)
  | [] => [(k, v)]
  | (k', v') :: d => if k' = k then (k, v) :: d else (k', v') :: dictSet k v d

def dictGet {α β : Type*} [DecidableEq α] (k : α) (d : List (α × β)) : Option β := d.lookup k

def dictPop {α β : Type*} [DecidableEq α] (k : α) (d : List (α × β)) : List (α × β) := d.filter fun e => e.1 ≠ k

/-- `d[k]` (KeyError when absent) -/
def dictIndex {α β : Type*} [DecidableEq α] (d : List (α × β)) (k : α) : Except Err β :=
  match dictGet k d with
  | some v => .ok v
  | none => .error .keyError

section
variable {K O F Fl : Type*} [Field K] [DecidableEq F] [DecidableEq Fl]

/-- `np.hstack((M, zeros))`: the old columns are kept, the new ones are zero (rfCircuit.py:445, 704, 831). -/
def padRow (cols : ℕ) (r : ℕ → K) : ℕ → K := fun j => if j < cols then r j else 0

/-- a zero row with one assignment -/
def zeroRow : ℕ → K := fun _ => 0

/-- `row[idx] = v` -/
def setCol (r : ℕ → K) (idx : ℕ) (v : K) : ℕ → K := Function.update r idx v

/-! ## addblock (rfCircuit.py:538-732) -/

/-- the `ports` argument of `addblock`: absent, a dict, a list, a format string (as the function `k ↦ ports % k`), or
something else -/
inductive PortSpec
  | none
  | dict (d : List (String × String))
  | list (l : List String)
  | fmt (g : ℕ → String)
  | other

/-- `[ports.pop(_p, _p) for _p in RFobj.ports]` (627): the new names and what is left of the dict -/
def popPorts : List String → List (String × String) → List String × List (String × String)
  | [], d => ([], d)
  | p :: ps, d =>
    let q := match dictGet p d with | some v => v | none => p
    let r := popPorts ps (dictPop p d)
    (q :: r.1, r.2)

/-- `'%d' % k` for the default names -/
def defaultName (k : ℕ) : String := toString k

/-- lines 622-631: the names taken from the object (none if it has no `ports`), and the remaining `ports` argument -/
def objPorts (ops : ObjOps K O F Fl) (obj : O) (ports : PortSpec) : Except Err (List String × PortSpec) :=
  match ops.ports obj with
  | none => .ok ([], ports)
  | some ops' =>
    match (match ports with | .none => PortSpec.dict [] | x => x) with          -- 624
    | .dict d =>
      let (o, rest) := popPorts ops' d                                          -- 627
      if rest ≠ [] then .error .valueError else .ok (o, .dict rest)             -- 629-631
    | x => .ok ([], x)

/-- lines 633-651 -/
def specPorts (N : ℕ) (oports : List String) (ports : PortSpec) : Except Err (List String) :=
  if oports = [] then
    match ports with
    | .none => .ok ((List.range N).map fun k => defaultName (k + 1))            -- 634, 647
    | .dict _ => .error .typeError                                              -- 636-641
    | .list l => .ok l                                                          -- 643-644
    | .fmt g => .ok ((List.range N).map fun k => g (k + 1))                     -- 646-647
    | .other => .error .valueError                                              -- 649-651
  else .ok oports

/-- lines 620-656: the port names of the new block, or the exception -/
def resolvePorts (ops : ObjOps K O F Fl) (obj : O) (ports : PortSpec) : Except Err (List String) :=
  match objPorts ops obj ports with
  | .error e => .error e
  | .ok x => match specPorts (ops.len obj) x.1 x.2 with
    | .error e => .error e
    | .ok o => if o.length ≠ ops.len obj then .error .valueError else .ok o     -- 653-656

/-- the rows `0 | nan | -I` of a new block of `N` ports whose first column is `c` (703-713) -/
def blockRows (nan : K) (c N : ℕ) : List (ℕ → K) :=
  (List.range N).map fun k j =>
    if j < c then 0 else if j < c + N then nan else if j = c + N + k then -1 else 0

/-- position entries of a new block (721-726): `zip(oports, RFobj.xpos)` truncates -/
def blockXpos (ops : ObjOps K O F Fl) (obj : O) (oports : List String) (relpos : ℚ) : List ℚ :=
  match ops.xpos obj with
  | some xs => (oports.zip xs).map fun px => relpos + px.2
  | none => oports.map fun _ => relpos

/-- replacement of the object of an existing block -/
def replaceObj (name : String) (obj : O) (bs : List (Blk O)) : List (Blk O) :=
  bs.map fun b => if b.name = name then { b with obj := obj } else b

/-- `addblock(name, RFobj, ports, relpos=…)` for a name without a dot (rfCircuit.py:538-732). -/
def addblock (ops : ObjOps K O F Fl) (nan : K) (s : St K O F Fl) (name : String) (obj : O) (ports : PortSpec)
    (relpos : ℚ) : St K O F Fl × Except Err Unit :=
  let s := { s with S := none, invM := none }                                   -- 566-567
  match s.blocks.find? (fun b => b.name = name) with
  | some b =>                                                                   -- 602-615
    if ops.len obj ≠ ops.len b.obj then
      -- the message evaluates `self.blocks["object"]`
      (s, .error (if s.blocks.any (fun b => b.name = "object") then .valueError else .keyError))
    else ({ s with blocks := replaceObj name obj s.blocks }, .ok ())
  | none =>
    match resolvePorts ops obj ports with                                       -- 620-656
    | .error e => (s, .error e)
    | .ok oports =>
      let N := ops.len obj
      ({ s with
          blocks := s.blocks ++ [⟨name, oports, (s.rows.length, s.cols), obj, relpos⟩]      -- 674-680
          waves := s.waves ++ oports.map (fun p => (.inn, .blk name p))
                           ++ oports.map (fun p => (.out, .blk name p))                     -- 683-684
          ports := s.ports ++ oports.map (fun p => .blk name p)                             -- 696
          rows := s.rows.map (padRow s.cols) ++ blockRows nan s.cols N                      -- 703-713
          cols := s.cols + 2 * N
          eqns := s.eqns ++ oports.map (fun p => .S (.blk name p))                          -- 716-717
          xpos := s.xpos ++ blockXpos ops obj oports relpos },                              -- 721-726
       .ok ())

/-! ## getpos (rfCircuit.py:739-763) -/

/-- position of a node of the circuit.  Simplification: the descent into nested circuits is the object operation
`portPos`; a missing block cannot occur for a node that is a wave. -/
def getpos (ops : ObjOps K O F Fl) (s : St K O F Fl) : Node → Except Err ℚ
  | .blk b p => match s.blocks.find? (fun x => x.name = b) with
    | none => .error .keyError
    | some x =>
      match pyIndex x.ports p with
      | .error e => .error e
      | .ok kp => match ops.xpos x.obj with
        | none => .error .attributeError
        | some xs => match xs[kp]? with
          | none => .error .indexError
          | some v => .ok (x.relpos + v)
  | .ext n => match pyIndex s.ports (.ext n) with                               -- 761
    | .error e => .error e
    | .ok kp => match s.xpos[kp]? with
      | none => .error .indexError
      | some v => .ok v

/-! ## connect (rfCircuit.py:769-864) -/

/-- lines 821-825: consume the (old) ports; stops at the first failure, keeping what was already popped -/
def consume (new : List Node) : List Node → St K O F Fl → St K O F Fl × Except Err Unit
  | [], s => (s, .ok ())
  | p :: ps, s =>
    if p ∈ new then consume new ps s
    else match pyIndex s.ports p with
      | .error e => (s, .error e)                                               -- 823
      | .ok kp =>
        let s := { s with ports := s.ports.eraseIdx kp }                        -- 824
        match pyPop s.xpos kp with
        | .error e => (s, .error e)                                             -- 825
        | .ok xs => consume new ps { s with xpos := xs }

/-- the row added for one port of a junction of `N` ports: `-1` at its own wave `A`, `2/N - δ` at the waves `B`
(836-858) -/
def junctionRow (N : ℕ) (kr : ℕ) (idxA : ℕ) (idxBs : List ℕ) : ℕ → K :=
  (idxBs.zipIdx).foldl (fun r b => setCol r b.1 ((2 : K) / (N : K) - if b.2 = kr then 1 else 0))
    (setCol zeroRow idxA (-1))

/-- wave leaving the junction into port `p` (814): reversed for a new port -/
def waveA (new : List Node) (p : Node) : Wave := if p ∈ new then (.out, p) else (.inn, p)
/-- wave arriving at the junction from port `p` -/
def waveB (new : List Node) (p : Node) : Wave := if p ∈ new then (.inn, p) else (.out, p)

/-- lines 811-860 -/
def connectTail (new : List Node) (ps : List Node) (s : St K O F Fl) : St K O F Fl × Except Err Unit :=
  match mapE (fun p => pyIndex s.waves (waveA new p)) ps, mapE (fun p => pyIndex s.waves (waveB new p)) ps with
  | .error e, _ => (s, .error e)
  | _, .error e => (s, .error e)
  | .ok idxAs, .ok idxBs =>
    match consume new ps s with
    | (s, .error e) => (s, .error e)
    | (s, .ok _) =>
      let N := idxAs.length
      ({ s with
          rows := s.rows.map (padRow s.cols)                                                   -- 831-833
                    ++ (idxAs.zipIdx).map (fun a => junctionRow N a.2 a.1 idxBs)               -- 843-858
          cols := s.cols + 2 * new.length
          eqns := s.eqns ++ ps.map .C
          S := none
          invM := none }, .ok ())

/-- `connect(*ports)` -/
def connect (ops : ObjOps K O F Fl) (s : St K O F Fl) (ps : List Node) : St K O F Fl × Except Err Unit :=
  let new := ps.filter fun p => (Dir.inn, p) ∉ s.waves                          -- 785
  match new with
  | _ :: _ :: _ => (s, .error .valueError)                                      -- 788-791
  | [] => connectTail [] ps s
  | [.blk _ _] => (s, .error .valueError)                                       -- 792-795
  | [.ext n] =>
    let old := ps.filter fun p => (Dir.inn, p) ∈ s.waves                        -- 797
    let s := { s with waves := s.waves ++ [(.inn, .ext n), (.out, .ext n)]      -- 801-803
                      ports := s.ports ++ [.ext n] }
    match old with
    | [] => (s, .error .indexError)                                             -- 806: oldports[0]
    | o :: _ => match getpos ops s o with
      | .error e => (s, .error e)
      | .ok x => connectTail [.ext n] ps { s with xpos := s.xpos ++ [x] }

/-! ## terminate (rfCircuit.py:870-985) -/

/-- the keyword arguments of `terminate`: at most one of Z, Y, RC, or something not understood -/
inductive TermArgs (K : Type*)
  | Z (z : K) | Y (y : K) | RC (r : K) | default
  | several | unknown

open Classical in
/-- lines 893-908: the reflection coefficient.  A zero denominator raises ZeroDivisionError for Python numbers
(here `nonFinite`). -/
noncomputable def termRho (zb : K) : TermArgs K → Except Err K
  | .several => .error .valueError                                              -- 893-895
  | .Z z => if z + zb = 0 then .error .nonFinite else .ok ((z - zb) / (z + zb)) -- 899
  | .Y y => if 1 + y * zb = 0 then .error .nonFinite else .ok ((1 - y * zb) / (1 + y * zb))  -- 902
  | .RC r => .ok r                                                              -- 904
  | .default => .ok 0                                                           -- 904
  | .unknown => .error .valueError                                              -- 906-908

/-- `M[eqn, idx] = v` -/
def setEntry (rows : List (ℕ → K)) (eqn idx : ℕ) (v : K) : List (ℕ → K) :=
  rows.modify eqn (fun r => setCol r idx v)

/-- `terminate(port, …)` -/
noncomputable def terminate (s : St K O F Fl) (p : Node) (args : TermArgs K) : St K O F Fl × Except Err Unit :=
  let idx : Option (ℕ × ℕ) :=                                                   -- 886-891
    match pyIndex s.waves (.inn, p), pyIndex s.waves (.out, p) with
    | .ok a, .ok b => some (a, b)
    | _, _ => none
  match termRho s.zbase args with
  | .error e => (s, .error e)
  | .ok rho =>
    match dictGet p s.T with
    | some (_, idxB, eqn) =>                                                    -- 913-919
      ({ s with rows := setEntry s.rows eqn idxB rho, invM := none }, .ok ())
    | none =>
      match dictGet p s.E with
      | some eqn =>                                                             -- 921-941
        match idx with
        | none => (s, .error .unboundLocal)
        | some (idxA, idxB) =>
          let s := { s with
            rows := setEntry (setEntry s.rows eqn idxA (-1)) eqn idxB rho       -- 932-933
            eqns := s.eqns.set eqn (.T p)
            T := dictSet p (idxA, idxB, eqn) s.T
            E := dictPop p s.E }
          match pyIndex s.ports p with                                          -- 937
          | .error e => (s, .error e)
          | .ok kp =>
            let s := { s with ports := s.ports.eraseIdx kp }
            match pyPop s.xpos kp with
            | .error e => (s, .error e)
            | .ok xs => ({ s with xpos := xs, invM := none, S := none }, .ok ())
      | none =>                                                                 -- 954-981
        match pyIndex s.ports p with                                            -- 959
        | .error e => (s, .error e)
        | .ok kp =>
          let s := { s with ports := s.ports.eraseIdx kp }
          match pyPop s.xpos kp with
          | .error _ => (s, .error .valueError)                                 -- 963-966
          | .ok xs =>
            let s := { s with xpos := xs }
            match idx with
            | none => (s, .error .unboundLocal)
            | some (idxA, idxB) =>
              ({ s with
                  rows := s.rows ++ [setCol (setCol zeroRow idxA (-1)) idxB rho]   -- 969-974
                  eqns := s.eqns ++ [.T p]
                  T := dictSet p (idxA, idxB, s.rows.length) s.T                   -- 979
                  S := none
                  invM := none }, .ok ())

/-! ## deembed (rfCircuit.py:386-532) -/

/-- one pass of the loop 453-488 -/
def deembedInt (s : St K O F Fl) (dp ip : Node) : St K O F Fl × Except Err Unit :=
  if ip ∈ s.ports then (s, .error .valueError) else                             -- 455-458
  let s := { s with waves := s.waves ++ [(.inn, ip), (.out, ip)], ports := s.ports ++ [ip] }   -- 461-462
  if dp ∉ s.ports then (s, .error .valueError) else                             -- 464-467
  match pyIndex s.waves (.inn, dp), pyIndex s.waves (.out, dp) with
  | .error e, _ => (s, .error e)
  | _, .error e => (s, .error e)
  | .ok idxA, .ok idxB =>
    let L := s.waves.length
    ({ s with
        rows := s.rows ++ [setCol (setCol zeroRow idxA 1) (L - 1) (-1),         -- 473-479
                           setCol (setCol zeroRow idxB 1) (L - 2) (-1)]         -- 480-481
        ports := s.ports.erase dp                                               -- 484
        eqns := s.eqns ++ [.Di dp, .Di ip] }, .ok ())

/-- one pass of the loop 491-526 -/
def deembedExt (s : St K O F Fl) (dp ep : Node) : St K O F Fl × Except Err Unit :=
  if dp ∉ s.ports then (s, .error .valueError) else
  if ep ∉ s.ports then (s, .error .valueError) else
  let s0 := { s with rows := s.rows ++ [zeroRow, zeroRow] }                     -- 504-507
  match pyIndex s.waves (.inn, dp), pyIndex s.waves (.out, dp), pyIndex s.waves (.inn, ep),
      pyIndex s.waves (.out, ep) with
  | .ok ad, .ok bd, .ok ae, .ok be =>
    let s := { s with
      rows := s.rows ++ [setCol (setCol zeroRow ad 1) ae (-1), setCol (setCol zeroRow bd 1) be (-1)]   -- 515-518
      eqns := s.eqns ++ [.De dp, .De ep]
      ports := s.ports.erase dp }                                               -- 525
    match pyIndex s.ports ep with                                               -- 526
    | .error e => (s, .error e)
    | .ok kp => ({ s with ports := s.ports.eraseIdx kp }, .ok ())
  | _, _, _, _ => (s0, .error .valueError)

/-- iterate an operation over a list, stopping at the first failure -/
def iter {α σ : Type*} (g : σ → α → σ × Except Err Unit) : σ → List α → σ × Except Err Unit
  | s, [] => (s, .ok ())
  | s, x :: xs => match g s x with
    | (s', .error e) => (s', .error e)
    | (s', .ok _) => iter g s' xs

/-- `deembed(IntPorts, ExtPorts)` with lists of pairs (or dicts) of strings. -/
def deembed (s : St K O F Fl) (int ext : List (Node × Node)) : St K O F Fl × Except Err Unit :=
  let s := { s with S := none, invM := none                                     -- 415-416
                    rows := s.rows.map (padRow s.cols)                          -- 445-448
                    cols := s.cols + 2 * int.length }
  match iter (fun s x => deembedInt s x.1 x.2) s int with
  | (s, .error e) => (s, .error e)
  | (s, .ok _) => iter (fun s x => deembedExt s x.1 x.2) s ext

/-! ## extS (rfCircuit.py:991-1080) -/

/-- the rows and cols of `self.M` as a square matrix -/
def St.mat (s : St K O F Fl) : Matrix (Fin s.cols) (Fin s.cols) K := fun i j => (s.rows.getD i zeroRow) j

/-- one pass of the loop 1032-1039.  A wave whose column does not exist (only possible after a refused `connect` or
`deembed`) raises IndexError. -/
def addE (s : St K O F Fl) (p : Node) : St K O F Fl × Except Err Unit :=
  match pyIndex s.waves (.inn, p) with
  | .error e => ({ s with rows := s.rows ++ [zeroRow] }, .error e)
  | .ok idx =>
    if s.cols ≤ idx then ({ s with rows := s.rows ++ [zeroRow] }, .error .indexError) else
    ({ s with rows := s.rows ++ [setCol zeroRow idx 1]
              eqns := s.eqns ++ [.E p]
              E := dictSet p s.rows.length s.E }, .ok ())

/-- lines 1003-1039: make `M` square by adding the external-port equations -/
def squareUp (s : St K O F Fl) : St K O F Fl × Except Err Unit :=
  if s.rows.length = s.cols then (s, .ok ()) else
  let s := { s with S := none }                                                 -- 1005
  if s.names ≠ [] then
    if s.names.length ≠ s.ports.length then (s, .error .valueError)             -- 1013-1018
    else if ∃ p ∈ s.ports, p ∉ s.names then (s, .error .valueError)             -- 1020-1025
    else
      let s := { s with ports := s.names, aliased := true }                     -- 1027
      iter addE s s.ports
  else
    let s := { s with aliased := true }                                         -- 1030
    iter addE s s.ports

/-- matrix entry, the indices having been checked -/
def at' {n : ℕ} (W : Matrix (Fin n) (Fin n) K) (i j : ℕ) : K :=
  if h : i < n ∧ j < n then W ⟨i, h.1⟩ ⟨j, h.2⟩ else 0

/-- the matrix cut out of `W` by two index lists (1052, 1066) -/
def cut {L : ℕ} (W : Matrix (Fin L) (Fin L) K) (n : ℕ) (is js : List ℕ) : Matrix (Fin n) (Fin n) K :=
  fun i j => at' W (is.getD i 0) (js.getD j 0)

/-- lines 1050-1067, the indices being known -/
noncomputable def solveWith (s : St K O F Fl) (n : ℕ) (idxAs idxBs idxEs : List ℕ) : St K O F Fl × Except Err (SMat K) :=
  if s.rows.length ≠ s.cols then (s, .error .linAlg)                        -- 1050: not square
  else match npInv s.mat with
    | .error e => (s, .error e)                                             -- 1050: singular
    | .ok W =>
      let s := { s with invM := some ⟨s.cols, W⟩ }
      if n = 0 then (s, .error .indexError)                                 -- 1052: np.r_[[]] is a float array
      else if ∃ i ∈ idxAs ++ idxBs ++ idxEs, ¬ i < s.cols then (s, .error .indexError)
      else match npInv (cut W n idxAs idxEs) with                           -- 1052-1053
        | .error e => (s, .error e)                                         -- 1054-1064
        | .ok Q =>
          let S : SMat K := ⟨n, cut W n idxBs idxEs * Q⟩                    -- 1066-1067
          ({ s with S := some S }, .ok S)                                   -- 1080

/-- lines 1045-1067 -/
noncomputable def solveE (s : St K O F Fl) : St K O F Fl × Except Err (SMat K) :=
  match mapE (dictIndex s.E) s.names with                                   -- 1045-1046
  | .error e => (s, .error e)
  | .ok idxEs =>
    match mapE (fun p => pyIndex s.waves (.inn, p)) s.names, mapE (fun p => pyIndex s.waves (.out, p)) s.names with
    | .error e, _ => (s, .error e)
    | _, .error e => (s, .error e)
    | .ok idxAs, .ok idxBs => solveWith s s.names.length idxAs idxBs idxEs

/-- `extS()` -/
noncomputable def extS (s : St K O F Fl) : St K O F Fl × Except Err (SMat K) :=
  match squareUp s with
  | (s, .error e) => (s, .error e)
  | (s, .ok _) => solveE s

/-! ## getS (rfCircuit.py:1249-1345) -/

/-- `M[i1:i1+N, i2:i2+N] = S` (1304); a matrix of another size is a ValueError except that numpy broadcasts 1x1 -/
def setBlock (rows : List (ℕ → K)) (loc : ℕ × ℕ) (N : ℕ) (S : SMat K) : Except Err (List (ℕ → K)) :=
  if S.n = N ∨ S.n = 1 then
    .ok (rows.mapIdx fun i r j =>
      if h : loc.1 ≤ i ∧ i < loc.1 + N ∧ loc.2 ≤ j ∧ j < loc.2 + N ∧ S.n = N then
        S.m ⟨i - loc.1, by omega⟩ ⟨j - loc.2, by omega⟩
      else if h : loc.1 ≤ i ∧ i < loc.1 + N ∧ loc.2 ≤ j ∧ j < loc.2 + N ∧ S.n = 1 then
        S.m ⟨0, by omega⟩ ⟨0, by omega⟩
      else r j)
  else .error .valueError

/-- the loop 1283-1304 over the blocks: each object is asked for its S, the answer is written into `M` -/
def fillBlocks (ops : ObjOps K O F Fl) (f : F) (zb : K) (fl : Fl) :
    List (Blk O) → List (ℕ → K) → List (Blk O) × List (ℕ → K) × Except Err Unit
  | [], rows => ([], rows, .ok ())
  | b :: bs, rows =>
    match ops.getS b.obj f zb fl with
    | (o, .error e) => ({ b with obj := o } :: bs, rows, .error e)
    | (o, .ok S) =>
      match setBlock rows b.loc b.ports.length S with
      | .error e => ({ b with obj := o } :: bs, rows, .error e)
      | .ok rows =>
        let r := fillBlocks ops f zb fl bs rows
        ({ b with obj := o } :: r.1, r.2.1, r.2.2)

/-- one conversion to another scalar reference impedance, `ConvertGeneral(Zbase, M, self.Zbase)` with types V
(ConvertGeneral.py:87-92, 121-125).  `convVV_eq_convertGeneral` ties it to the full model. -/
noncomputable def convVV (z2 z1 : K) (S : SMat K) : Except Err (SMat K) :=
  open Classical in
  if z1 = 0 ∧ S.n ≠ 0 then .error .nonFinite else
  let V := 1 + S.m
  let I := z1⁻¹ • (1 - S.m)
  let A2 := (2 : K)⁻¹ • V + (z2 / 2) • I
  let B2 := (2 : K)⁻¹ • V - (z2 / 2) • I
  (npInv A2).map fun W => ⟨S.n, B2 * W⟩

/-- lines 1280-1307: evaluate the blocks and the circuit -/
noncomputable def recompute (ops : ObjOps K O F Fl) (s : St K O F Fl) (f : F) (fl : Fl) :
    St K O F Fl × Except Err (SMat K) :=
  let r := fillBlocks ops f s.zbase fl s.blocks s.rows
  let s := { s with blocks := r.1, rows := r.2.1 }
  match r.2.2 with
  | .error e => (s, .error e)
  | .ok _ => match extS s with                                                  -- 1306
    | (s, .error e) => (s, .error e)
    | (s, .ok M) => ({ s with f := some f, S := some M, flags := some fl }, .ok M)   -- 1307

/-- `get1S(f)` without the conversion (1279-1310) -/
noncomputable def get1S (ops : ObjOps K O F Fl) (s : St K O F Fl) (f : F) (fl : Fl) :
    St K O F Fl × Except Err (SMat K) :=
  match s.S with
  | some M => if s.f = some f ∧ s.flags = some fl then (s, .ok M) else recompute ops s f fl  -- 1279, 1309-1310
  | none => recompute ops s f fl

open Classical in
/-- `getS(f, Zbase=…, flags=…)` for a single frequency (1249-1345); `Zbase` absent or zero leaves the matrix on the
circuit's own reference. -/
noncomputable def getS (ops : ObjOps K O F Fl) (s : St K O F Fl) (f : F) (zb : Option K) (fl : Fl) :
    St K O F Fl × Except Err (SMat K) :=
  match get1S ops s f fl with
  | (s, .error e) => (s, .error e)
  | (s, .ok M) => match zb with
    | none => (s, .ok M)
    | some z => if z ≠ 0 ∧ z ≠ s.zbase then (s, convVV z s.zbase M) else (s, .ok M)   -- 1312-1313

end
end PyRFtk.Circuit
