import Verif.Base
import Mathlib.Analysis.Complex.Basic

/-!
# Specification vocabulary for the matrix converters (independent of the model)
-/

namespace PyRFtk

/-- The array `A` denotes the list `l` of N x N matrices (one per frequency): a scalar is one 1x1 matrix, a 1-D array
one 1x1 matrix per entry, a square 2-D array one matrix, a 3-D array with equal last dimensions a list of matrices. -/
inductive Denotes {K : Type*} : ND K → (N : ℕ) → List (Matrix (Fin N) (Fin N) K) → Prop
  | scalar (x : K) : Denotes (.d0 x) 1 [Matrix.of fun _ _ => x]
  | vector (xs : List K) : Denotes (.d1 xs) 1 (xs.map fun x => Matrix.of fun _ _ => x)
  | matrix (N : ℕ) (A : Matrix (Fin N) (Fin N) K) : Denotes (.d2 N N A) N [A]
  | stack (N : ℕ) (As : List (Matrix (Fin N) (Fin N) K)) : Denotes (.d3 N N As) N As

/-- Port voltages/currents `(V, I)` of an N-port (currents flowing into the port) are described by the scattering matrix
`S` on the common voltage-wave reference `z0`: `a = (V + z0 I)/2`, `b = (V - z0 I)/2`, `b = S a`. -/
def ScatterV {K : Type*} [Field K] {n : Type*} [Fintype n] (z0 : K) (S : Matrix n n K) (V I : n → K) : Prop :=
  (fun i => (V i - z0 * I i) / 2) = S.mulVec (fun i => (V i + z0 * I i) / 2)

/-- wave types of `ConvertGeneral` -/
inductive WaveType | V | P | G
deriving DecidableEq

/-- the type string that selects a wave type -/
def WaveType.str : WaveType → String | .V => "V" | .P => "P" | .G => "G"

/-- The reference impedances for which the three wave definitions are meaningful (and invertible). -/
def WaveType.Admissible : WaveType → ℂ → Prop
  | .V, z => z ≠ 0
  | .P, z => z ≠ 0
  | .G, z => 0 < z.re

/-- `IncomingOf t z V I a`: `a` is the incoming wave at a port with reference `z`.  The normalising root is
specified by its square and sign convention, not by the code's function. -/
def norm2 : WaveType → ℂ → ℂ → Prop
  | .V, _, r => r = 1
  | .P, z, r => r ^ 2 = z ∧ (0 < r.re ∨ r.re = 0 ∧ 0 ≤ r.im)
  | .G, z, r => r ^ 2 = (z.re : ℂ) ∧ 0 < r.re

/-- `a = (V + z I) / (2 r)`, `b = (V - z' I) / (2 r)` with `r` the normaliser and `z' = z` (types V, P) or
`z' = conj z` (type G). -/
def Waves (t : WaveType) (z V I a b : ℂ) : Prop :=
  ∃ r, norm2 t z r ∧ a = (V + z * I) / (2 * r) ∧
    b = (V - (if t = .G then starRingEnd ℂ z else z) * I) / (2 * r)

/-- `(V, I)` is a port state allowed by scattering matrix `S` of type `t` on port impedances `z`. -/
def Allowed {N : ℕ} (t : WaveType) (z : Fin N → ℂ) (S : Matrix (Fin N) (Fin N) ℂ) (V I : Fin N → ℂ) : Prop :=
  ∃ a b : Fin N → ℂ, (∀ i, Waves t (z i) (V i) (I i) (a i) (b i)) ∧ b = S.mulVec a

/-- The (frequency, port) table denoted by a port-impedance argument. -/
inductive ZDenotes : ND ℂ → (F N : ℕ) → List (Fin N → ℂ) → Prop
  | scalar (z : ℂ) (F N : ℕ) : ZDenotes (.d0 z) F N (List.replicate F fun _ => z)
  | perPort {N : ℕ} (z : Fin N → ℂ) (F : ℕ) : ZDenotes (.d1 (List.ofFn z)) F N (List.replicate F z)
  | table {F N : ℕ} (Z : Matrix (Fin F) (Fin N) ℂ) : ZDenotes (.d2 F N Z) F N (List.ofFn fun k i => Z k i)

/-- power-normalised wave types with a passive reference -/
def PowerRef : WaveType → ℂ → Prop
  | .V, _ => False
  | .P, z => 0 < z.re ∧ z.im = 0
  | .G, z => 0 < z.re

/-- total power carried by a wave vector -/
noncomputable def power {n : Type*} [Fintype n] (a : n → ℂ) : ℝ := ∑ i, ‖a i‖ ^ 2

/-- no excitation makes more power leave than enter -/
def Passive {n : Type*} [Fintype n] (S : Matrix n n ℂ) : Prop := ∀ a, power (S.mulVec a) ≤ power a

/-- for all excitations the same power leaves as enters -/
def Lossless {n : Type*} [Fintype n] (S : Matrix n n ℂ) : Prop := ∀ a, power (S.mulVec a) = power a

/-- reciprocity: the scattering matrix is symmetric -/
def Reciprocal {n : Type*} {K : Type*} (S : Matrix n n K) : Prop := S.transpose = S

end PyRFtk
