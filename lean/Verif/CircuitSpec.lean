import Verif.CircuitModel
import Mathlib.Algebra.BigOperators.Fin
import Mathlib.Algebra.BigOperators.Group.Finset.Basic

/-!
# What an RF network is, independently of how `rfCircuit` computes it

A network (`Net`) is a list of blocks, junctions, loads and deembedding ties between named nodes.  A wave assignment
`w : Wave → K` gives at every node the wave travelling into the block side (`(inn, n)`, the code's `->n`) and the wave
coming back (`(out, n)`, `<-n`), voltage waves on one common reference impedance `zb`.  The laws are the physical
ones: the block equations `b = S a`, Kirchhoff's laws at junctions, Ohm's law at loads.

Of the model only the vocabulary (`Node`, `Wave`, `SMat`) is used here.
-/

namespace PyRFtk.Circuit

variable {K : Type*} [Field K]

/-- entry `(i,j)` of a matrix of unknown size, 0 outside -/
def SMat.at (S : SMat K) (i j : ℕ) : K := if h : i < S.n ∧ j < S.n then S.m ⟨i, h.1⟩ ⟨j, h.2⟩ else 0

/-- a load attached to a port -/
inductive Load (K : Type*)
  | Z (z : K)   -- impedance
  | Y (y : K)   -- admittance
  | RC (r : K)  -- reflection coefficient

/-- a junction of existing ports, possibly brought out as a new node -/
structure Junction where
  members : List Node
  new : Option Node

/-- A network, as built by a user. -/
structure Net (K : Type*) where
  /-- blocks with their port names -/
  blks : List (String × List String)
  /-- all nodes, in order of creation -/
  nodes : List Node
  juncs : List Junction
  loads : List (Node × Load K)
  /-- deembedding, internal ports: `(d, i)`: what enters the block at `d` is what leaves at `i` and vice versa -/
  crosses : List (Node × Node)
  /-- deembedding, external ports: `(d, e)`: both carry the same waves -/
  sames : List (Node × Node)

def Net.empty : Net K := ⟨[], [], [], [], [], []⟩

/-- nodes that have been given a function inside the network -/
def Net.used (net : Net K) : List Node :=
  net.juncs.flatMap Junction.members ++ net.crosses.map Prod.fst
    ++ net.sames.flatMap (fun x => [x.1, x.2]) ++ net.loads.map Prod.fst

/-- the external ports: nodes without a function inside the network, in order of creation -/
def Net.free (net : Net K) : List Node := net.nodes.filter fun n => n ∉ net.used

/-- voltage at a node -/
def volt (w : Wave → K) (n : Node) : K := w (.inn, n) + w (.out, n)
/-- current into the node's block side, times the reference impedance -/
def curr (w : Wave → K) (n : Node) : K := w (.inn, n) - w (.out, n)

/-- Kirchhoff: all members (and the new node) are at the same voltage; the current supplied by the new node (zero if
there is none) is what flows into the members. -/
def Junction.Law (j : Junction) (w : Wave → K) : Prop :=
  (∀ p ∈ j.members ++ j.new.toList, ∀ q ∈ j.members ++ j.new.toList, volt w p = volt w q) ∧
  (j.members.map (curr w)).sum = match j.new with | none => 0 | some n => curr w n

/-- Ohm's law at a load: `V = z I` resp. `I = y V` with `I = (out - in)/zb` the current into the load and
`V = in + out`; a reflection coefficient `r` sends back `r` times what arrives. -/
def Load.Law (zb : K) : Load K → (inw outw : K) → Prop
  | .Z z, i, o => zb * (i + o) = z * (o - i)
  | .Y y, i, o => o - i = y * (zb * (i + o))
  | .RC r, i, o => i = r * o

/-- `b = S a` at the ports of a block -/
def BlockLaw (S : SMat K) (b : String) (ports : List String) (w : Wave → K) : Prop :=
  ∀ i : Fin ports.length,
    w (.out, .blk b ports[i]) = ∑ j : Fin ports.length, S.at i j * w (.inn, .blk b ports[j])

/-- the laws of the interconnections -/
def Net.CoreLaws (net : Net K) (w : Wave → K) : Prop :=
  (∀ j ∈ net.juncs, j.Law w) ∧
  (∀ x ∈ net.crosses, w (.inn, x.1) = w (.out, x.2) ∧ w (.out, x.1) = w (.inn, x.2)) ∧
  (∀ x ∈ net.sames, w (.inn, x.1) = w (.inn, x.2) ∧ w (.out, x.1) = w (.out, x.2))

/-- all laws of the network on the reference impedance `zb`, `Sof b` being the scattering matrix of block `b` -/
def Net.Laws (net : Net K) (zb : K) (Sof : String → SMat K) (w : Wave → K) : Prop :=
  (∀ x ∈ net.blks, BlockLaw (Sof x.1) x.1 x.2 w) ∧ net.CoreLaws w ∧
  (∀ x ∈ net.loads, x.2.Law zb (w (.inn, x.1)) (w (.out, x.1)))

/-- the waves at the nodes are determined by the waves sent into `ports`, whatever these are -/
structure Solvable (laws : (Wave → K) → Prop) (nodes ports : List Node) : Prop where
  exists_sol : ∀ a : Node → K, ∃ w, laws w ∧ ∀ p ∈ ports, w (.inn, p) = a p
  unique : ∀ w w', laws w → laws w' → (∀ p ∈ ports, w (.inn, p) = w' (.inn, p)) →
    ∀ n ∈ nodes, ∀ d, w (d, n) = w' (d, n)

/-- `S` is *the* scattering matrix of the network with these laws, seen from `ports` (in that order): the excitations
can be chosen freely, they determine all waves, and the waves coming out are `S` times the waves sent in. -/
structure IsScattering (laws : (Wave → K) → Prop) (nodes ports : List Node) (S : SMat K) : Prop extends
    Solvable laws nodes ports where
  size : S.n = ports.length
  out : ∀ w, laws w → ∀ i : Fin ports.length,
    w (.out, ports[i]) = ∑ j : Fin ports.length, S.at i j * w (.inn, ports[j])

/-! ## How the user's calls build a network -/

def Net.addBlk (net : Net K) (name : String) (ports : List String) : Net K :=
  { net with blks := net.blks ++ [(name, ports)], nodes := net.nodes ++ ports.map (.blk name) }

def Net.join (net : Net K) (members : List Node) (new : Option Node) : Net K :=
  { net with juncs := net.juncs ++ [⟨members, new⟩], nodes := net.nodes ++ new.toList }

/-- attach a load, or change the load of a port that has one -/
def Net.load (net : Net K) (p : Node) (l : Load K) : Net K := { net with loads := dictSet p l net.loads }

def Net.cross (net : Net K) (x : Node × Node) : Net K :=
  { net with crosses := net.crosses ++ [x], nodes := net.nodes ++ [x.2] }

def Net.same (net : Net K) (x : Node × Node) : Net K := { net with sames := net.sames ++ [x] }

/-- the load meant by the keyword arguments of `terminate` (none given: matched) -/
def TermArgs.load : TermArgs K → Option (Load K)
  | .Z z => some (.Z z) | .Y y => some (.Y y) | .RC r => some (.RC r) | .default => some (.RC 0)
  | .several => none | .unknown => none

/-- what a call of `connect` on network `net` means: the names that are not nodes yet become new nodes -/
def Net.connect (net : Net K) (ps : List Node) : Net K :=
  net.join (ps.filter (· ∈ net.nodes)) (ps.find? (· ∉ net.nodes))

def Net.deembed (net : Net K) (int ext : List (Node × Node)) : Net K :=
  ext.foldl Net.same (int.foldl Net.cross net)

end PyRFtk.Circuit
