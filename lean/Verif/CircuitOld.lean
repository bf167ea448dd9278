import Verif.CircuitSolNest
import Verif.CircuitExtend

/-!
# The legacy class `circuit` (C71)

`circuit.py` is the predecessor of `rfCircuit.py`, "kept here for compatibility with legacy code".  It is modelled with its own state and its own
functions.  It needs a numpy that still has `np.complex` (before 1.24): with a later one the constructor raises AttributeError (circuit.py:80).
Shared with the model of `rfCircuit` are the helpers for port names (`resolvePorts`, the code is the same), rows (`padRow`, `setCol`,
`junctionRow`, `blockRows`, `setBlock`), the conversion of references (`convVV`) and `cut`.
Simplifications: node names as in `CircuitModel`; names of blocks have no dot; block positions (`xpos`) are left out, they play no part in what is
modelled; `blk['object'].set()` without parameters followed by `getS` (757-768) is the object operation `getS`.
-/

set_option linter.unusedSectionVars false

namespace PyRFtk.Circuit.Old

section
variable {K O F Fl : Type*} [Field K] [DecidableEq F] [DecidableEq Fl]

/-- an entry of `self.blocks` (circuit.py:440-446) -/
structure OBlk (O : Type*) where
  name : String
  ports : List String
  loc : ℕ × ℕ
  obj : O

/-- the attributes of a `circuit` (circuit.py:72-98); `C` and `T` are only used by `__str__` -/
structure OSt (K O F Fl : Type*) where
  zbase : K
  rows : List (ℕ → K)
  cols : ℕ
  waves : List Wave
  ports : List Node
  blocks : List (OBlk O)
  eqns : List Eqn
  E : List (Node × ℕ)
  idxEs : List ℕ
  portnames : List Node
  /-- `self.Portnames is self.ports` (639, 642) -/
  aliased : Bool
  f : Option F
  flags : Option Fl
  S : Option (SMat K)
  invM : Option (SMat K)

/-- the attributes set by `circuit(Zbase=…, Portnames=…)` (65-98) without `sNp` -/
def OSt.init (zbase : K) (portnames : List Node) : OSt K O F Fl :=
  ⟨zbase, [], 0, [], [], [], [], [], [], portnames, false, none, none, none, none⟩

/-- the constructor `circuit(Zbase=…, Portnames=…)` (65-98): `stack()[2]` needs two callers (69), so that the call must come from inside a function;
`np.complex` must exist (80).  `depth` is the number of calling frames. -/
def new (npComplex : Bool) (depth : ℕ) (zbase : K) (portnames : List Node) : Except Err (OSt K O F Fl) :=
  if depth < 2 then .error .indexError
  else if npComplex then .ok (OSt.init zbase portnames) else .error .attributeError

/-- value of `self.Portnames` -/
def OSt.names (s : OSt K O F Fl) : List Node := if s.aliased then s.ports else s.portnames

/-- `addblock(name, RFobj, ports)` for a name without a dot (circuit.py:318-488) -/
def addblock (ops : ObjOps K O F Fl) (nan : K) (s : OSt K O F Fl) (name : String) (obj : O) (ports : PortSpec) : OSt K O F Fl × Except Err Unit :=
  let s := { s with S := none, invM := none }                                   -- 346-347
  match s.blocks.find? (fun b => b.name = name) with
  | some b =>                                                                   -- 370-383
    if ops.len obj ≠ ops.len b.obj then
      (s, .error (if s.blocks.any (fun b => b.name = "object") then .valueError else .keyError))   -- 374: self.blocks["object"]
    else ({ s with blocks := s.blocks.map fun b => if b.name = name then { b with obj := obj } else b }, .ok ())
  | none =>
    match resolvePorts ops obj ports with                                       -- 388-424
    | .error e => (s, .error e)
    | .ok oports =>
      let N := ops.len obj
      ({ s with
          blocks := s.blocks ++ [⟨name, oports, (s.rows.length, s.cols), obj⟩]              -- 440-446
          waves := s.waves ++ oports.map (fun p => (.inn, .blk name p))
                           ++ oports.map (fun p => (.out, .blk name p))                     -- 449-450
          ports := s.ports ++ oports.map (fun p => .blk name p)                             -- 462
          rows := s.rows.map (padRow s.cols) ++ blockRows nan s.cols N                      -- 469-479
          cols := s.cols + 2 * N
          eqns := s.eqns ++ oports.map (fun p => .S (.blk name p)) }, .ok ())               -- 482

/-- `self.ports.remove(p)` for the old ports (517-519) -/
def removeAll (new : List Node) : List Node → List Node → Except Err (List Node)
  | [], l => .ok l
  | p :: ps, l => if p ∈ new then removeAll new ps l
    else if p ∈ l then removeAll new ps (l.erase p) else .error .valueError

/-- the ports of a circuit after a failing `removeAll` -/
def removed (new : List Node) : List Node → List Node → List Node
  | [], l => l
  | p :: ps, l => if p ∈ new then removed new ps l else if p ∈ l then removed new ps (l.erase p) else l

/-- `connect(*ports)` (circuit.py:495-549): any number of new nodes; the stored matrix is kept -/
def connect (s : OSt K O F Fl) (ps : List Node) : OSt K O F Fl × Except Err Unit :=
  let new := ps.filter fun p => (Dir.inn, p) ∉ s.waves                          -- 501
  let s := { s with waves := s.waves ++ new.flatMap (fun p => [(.inn, p), (.out, p)])   -- 502-505
                    ports := s.ports ++ new }
  match mapE (fun p => pyIndex s.waves (waveA new p)) ps, mapE (fun p => pyIndex s.waves (waveB new p)) ps with   -- 508-512
  | .error e, _ => (s, .error e)
  | _, .error e => (s, .error e)
  | .ok idxAs, .ok idxBs =>
    match removeAll new ps s.ports with                                         -- 517-519
    | .error e => ({ s with ports := removed new ps s.ports }, .error e)
    | .ok l =>
      ({ s with
          ports := l
          rows := s.rows.map (padRow s.cols)                                    -- 522-524
                    ++ (idxAs.zipIdx).map (fun a => junctionRow idxAs.length a.2 a.1 idxBs)   -- 527-549
          cols := s.cols + 2 * new.length
          eqns := s.eqns ++ ps.map .C }, .ok ())

open Classical in
/-- the reflection coefficient (571-578); a single keyword that is not known is the same as none -/
noncomputable def termRho (zb : K) : TermArgs K → Except Err K
  | .several => .error .valueError
  | .Z z => if z + zb = 0 then .error .nonFinite else .ok ((z - zb) / (z + zb))
  | .Y y => if 1 + y * zb = 0 then .error .nonFinite else .ok ((1 - y * zb) / (1 + y * zb))
  | .RC r => .ok r
  | .default => .ok 0
  | .unknown => .ok 0                                                           -- 578

/-- `terminate(port, …)` (circuit.py:555-594): the stored matrix is kept -/
noncomputable def terminate (s : OSt K O F Fl) (p : Node) (args : TermArgs K) : OSt K O F Fl × Except Err Unit :=
  match args with
  | .several => (s, .error .valueError)                                         -- 564-566
  | args =>
    if p ∉ s.ports then (s, .error .valueError) else                            -- 569
    let s := { s with ports := s.ports.erase p }
    match termRho s.zbase args with
    | .error e => (s, .error e)
    | .ok rho => match pyIndex s.waves (.inn, p), pyIndex s.waves (.out, p) with   -- 557-562
      | .ok idxA, .ok idxB =>
        ({ s with rows := s.rows ++ [setCol (setCol zeroRow idxA (-1)) idxB rho]   -- 584-589
                  eqns := s.eqns ++ [.T p] }, .ok ())
      | _, _ => (s, .error .unboundLocal)

def OSt.mat (s : OSt K O F Fl) : Matrix (Fin s.cols) (Fin s.cols) K := fun i j => (s.rows.getD i zeroRow) j

/-- one pass of the loop 644-652 -/
def addE (s : OSt K O F Fl) (p : Node) : OSt K O F Fl × Except Err Unit :=
  match pyIndex s.waves (.inn, p) with
  | .error e => ({ s with rows := s.rows ++ [zeroRow] }, .error e)
  | .ok idx =>
    if s.cols ≤ idx then ({ s with rows := s.rows ++ [zeroRow] }, .error .indexError) else
    ({ s with rows := s.rows ++ [setCol zeroRow idx 1]
              eqns := s.eqns ++ [.E p]
              E := dictSet p s.rows.length s.E
              idxEs := s.idxEs ++ [s.rows.length] }, .ok ())

/-- lines 615-652 -/
def squareUp (s : OSt K O F Fl) : OSt K O F Fl × Except Err Unit :=
  if s.rows.length = s.cols then (s, .ok ()) else
  let s := { s with S := none, idxEs := [] }                                    -- 617, 621
  if s.names ≠ [] then
    if s.names.length ≠ s.ports.length then (s, .error .valueError)             -- 625-630
    else if ∃ p ∈ s.ports, p ∉ s.names then (s, .error .valueError)             -- 631-637
    else iter addE { s with ports := s.names, aliased := true } s.names         -- 639
  else iter addE { s with aliased := true } s.ports                             -- 642

/-- lines 660-677, the indices being known -/
noncomputable def solveWith (s : OSt K O F Fl) (idxAs idxBs : List ℕ) : OSt K O F Fl × Except Err (SMat K) :=
  if s.rows.length ≠ s.cols then (s, .error .linAlg)                            -- 660
  else match npInv s.mat with
    | .error e => (s, .error e)
    | .ok W =>
      let s := { s with invM := some ⟨s.cols, W⟩ }
      if idxAs = [] ∨ s.idxEs = [] then (s, .error .indexError)                 -- 662
      else if ∃ i ∈ idxAs ++ idxBs ++ s.idxEs, ¬ i < s.cols then (s, .error .indexError)
      else if s.idxEs.length ≠ idxAs.length then (s, .error .linAlg)            -- 664
      else match npInv (cut W idxAs.length idxAs s.idxEs) with
        | .error e => (s, .error e)
        | .ok Q =>
          let S : SMat K := ⟨idxAs.length, cut W idxAs.length idxBs s.idxEs * Q⟩   -- 676-677
          ({ s with S := some S }, .ok S)

/-- `extS()` (circuit.py:601-690) -/
noncomputable def extS (s : OSt K O F Fl) : OSt K O F Fl × Except Err (SMat K) :=
  match squareUp s with
  | (s, .error e) => (s, .error e)
  | (s, .ok _) =>
    match mapE (fun p => pyIndex s.waves (.inn, p)) s.ports, mapE (fun p => pyIndex s.waves (.out, p)) s.ports with   -- 657-658
    | .error e, _ => (s, .error e)
    | _, .error e => (s, .error e)
    | .ok idxAs, .ok idxBs => solveWith s idxAs idxBs

/-- the loop 749-770 over the blocks -/
def fill (ops : ObjOps K O F Fl) (f : F) (zb : K) (fl : Fl) : List (OBlk O) → List (ℕ → K) → List (OBlk O) × List (ℕ → K) × Except Err Unit
  | [], rows => ([], rows, .ok ())
  | b :: bs, rows =>
    match ops.getS b.obj f zb fl with
    | (o, .error e) => ({ b with obj := o } :: bs, rows, .error e)
    | (o, .ok S) =>
      match setBlock rows b.loc b.ports.length S with
      | .error e => ({ b with obj := o } :: bs, rows, .error e)
      | .ok rows' =>
        let r := fill ops f zb fl bs rows'
        ({ b with obj := o } :: r.1, r.2.1, r.2.2)

/-- lines 745-773 -/
noncomputable def recompute (ops : ObjOps K O F Fl) (s : OSt K O F Fl) (f : F) (fl : Fl) : OSt K O F Fl × Except Err (SMat K) :=
  let r := fill ops f s.zbase fl s.blocks s.rows
  let s := { s with blocks := r.1, rows := r.2.1 }
  match r.2.2 with
  | .error e => (s, .error e)
  | .ok _ => match extS s with                                                  -- 772
    | (s, .error e) => (s, .error e)
    | (s, .ok M) => ({ s with f := some f, S := some M, flags := some fl }, .ok M)   -- 773

/-- `get1S(f)` without the conversion (725-776) -/
noncomputable def get1S (ops : ObjOps K O F Fl) (s : OSt K O F Fl) (f : F) (fl : Fl) : OSt K O F Fl × Except Err (SMat K) :=
  match s.S with
  | some M => if s.f = some f ∧ s.flags = some fl then (s, .ok M) else recompute ops s f fl
  | none => recompute ops s f fl

open Classical in
/-- `getS(f, Zbase, flags)` for one frequency (circuit.py:715-811) -/
noncomputable def getS (ops : ObjOps K O F Fl) (s : OSt K O F Fl) (f : F) (zb : Option K) (fl : Fl) : OSt K O F Fl × Except Err (SMat K) :=
  match get1S ops s f fl with
  | (s, .error e) => (s, .error e)
  | (s, .ok M) => match zb with
    | none => (s, .ok M)
    | some z => if z ≠ 0 ∧ z ≠ s.zbase then (s, convVV z s.zbase M) else (s, .ok M)   -- 778-779

/-- `self.invM @ Es` (895-899) -/
noncomputable def applyInv (s : OSt K O F Fl) (N : ℕ) (Es : ℕ → K) : OSt K O F Fl × Except Err (SVec K) :=
  match s.invM with
  | some ⟨n, W⟩ => if N = n then (s, .ok ⟨n, W.mulVec fun i => Es i⟩) else (s, .error .valueError)
  | none => match extS s with
    | (s, .error e) => (s, .error e)
    | (s, .ok _) => match s.invM with
      | some ⟨n, W⟩ => if N = n then (s, .ok ⟨n, W.mulVec fun i => Es i⟩) else (s, .error .valueError)
      | none => (s, .error .typeError)

open Classical in
/-- `solve(f, E, Zbase, flags)` (circuit.py:863-900); the result is `self.sol` -/
noncomputable def solve (ops : ObjOps K O F Fl) (s : OSt K O F Fl) (f : F) (E : List (Node × K)) (z : Option K) (fl : Fl) :
    OSt K O F Fl × Except Err (SVec K) :=
  let zb := z.getD s.zbase                                                        -- 877
  match mapE (dictIndex E) s.ports with                                           -- 880
  | .error e => (s, .error e)
  | .ok Ea => match getS ops s f (some zb) fl with                                -- 883
    | (s, .error e) => (s, .error e)
    | (s, .ok S) => match applyS S Ea with
      | .error e => (s, .error e)
      | .ok Eb =>
        if zb = 0 then (s, .error .nonFinite) else                                -- 886
        let Ei := (Ea.zip Eb).map fun x => onOwn s.zbase zb x.1 x.2
        match fillEs s.E s.rows.length (s.ports.zip Ei) (fun _ => 0) with         -- 889-891
        | .error e => (s, .error e)
        | .ok Es => applyInv s s.rows.length Es                                   -- 895-899

/-- one pass of the loop 962-971 for the wave `w` at position `kf` -/
noncomputable def nodeQuad (o : OSt K O F Fl) (zb : K) (sol : SVec K) (wk : Wave × ℕ) : Except Err (List (Node × Quad K)) :=
  open Classical in
  match wk with
  | ((.out, _), _) => .ok []
  | ((.inn, n), kf) => match pyIndex o.waves (.out, n) with                        -- 966
    | .error e => .error e
    | .ok kr => match sol.get kf, sol.get kr with
      | .error e, _ => .error e
      | _, .error e => .error e
      | .ok a, .ok b =>
        if o.zbase = 0 then .error .nonFinite else
        let V := a + b
        let I := (a - b) / o.zbase
        .ok [(n, ⟨V, I, (V + zb * I) / 2, (V - zb * I) / 2⟩)]                      -- 967-971

/-- the loop over the blocks (1000-1046).  The test is `hasattr(obj, 'Solution') and snodesleft` (1017): no list of nodes is as good as an empty list -/
def deeper (ops : ObjOps K O F Fl) (sub : SubSol K O F Fl) (f : F) (z : K) (fl : Fl) (left : Option (List String)) :
    List (OBlk O) → List (Node × Quad K) → List (OBlk O) × Except Err (List (Node × Quad K))
  | [], t => ([], .ok t)
  | b :: bs, t =>
    match sub b.obj with
    | none => let r := deeper ops sub f z fl left bs t; (b :: r.1, r.2)
    | some m =>
      if (subNodes left b.name).getD [] = [] then let r := deeper ops sub f z fl left bs t; (b :: r.1, r.2)   -- 1017
      else match ops.ports b.obj with
        | none => (b :: bs, .error .attributeError)
        | some ps => match mapE (fun p => (dictIndex t (.blk b.name p)).map fun q => (p, q.Vf)) ps with       -- 1021-1030
          | .error e => (b :: bs, .error e)
          | .ok Ek => match m f Ek z (subNodes left b.name) fl with                                           -- 1040
            | (o, .error e) => ({ b with obj := o } :: bs, .error e)
            | (o, .ok tr) =>
              let r := deeper ops sub f z fl left bs (tr.foldl (fun d x => dictSet (.blk b.name x.1) x.2 d) t)    -- 1043-1044
              ({ b with obj := o } :: r.1, r.2)

/-- `Solution(f, E, Zbase, nodes, flags)` (circuit.py:907-1047) -/
noncomputable def solution (ops : ObjOps K O F Fl) (sub : SubSol K O F Fl) (o : OSt K O F Fl) (f : F) (E : List (Node × K)) (z : Option K)
    (nodes : Option (List String)) (fl : Fl) : OSt K O F Fl × Except Err (List (Node × Quad K)) :=
  match solve ops o f E z fl with                                                  -- 932-957
  | (o', .error e) => (o', .error e)
  | (o', .ok sol) => match mapE (nodeQuad o' (z.getD o.zbase) sol) o'.waves.zipIdx with
    | .error e => (o', .error e)
    | .ok l =>
      let t := l.flatten.foldl (fun d x => dictSet x.1 x.2 d) []
      let r := deeper ops sub f (z.getD o.zbase) fl (nodesLeft nodes t) o'.blocks t
      ({ o' with blocks := r.1 }, r.2)

/-- `set(**kwargs)` (circuit.py:696-711): `hasattr(blk, 'set')` asks a dictionary, which has no `set`; `keys` are the names of the keywords -/
def set (s : OSt K O F Fl) (keys : List String) : OSt K O F Fl × Except Err Unit :=
  if ∃ b ∈ s.blocks, b.name ∈ keys then (s, .error .valueError)                 -- 701-704
  else ({ s with invM := none }, .ok ())                                        -- 706-709

end
end PyRFtk.Circuit.Old
