import Verif.Base
import Mathlib.Analysis.SpecialFunctions.Pow.Complex
import Mathlib.Analysis.Complex.Basic

/-!
# Model of `_check_3D_shape_`, `S_from_Z`, `Z_from_S`, `Y_from_S`, `S_from_Y`, `ConvertGeneral`, `S_from_VI`
-/

namespace PyRFtk

/-- What `_check_3D_shape_` returns: `L` and the stack of square matrices. -/
structure Stack (K : Type*) where
  L : ℕ
  N : ℕ
  mats : List (Matrix (Fin N) (Fin N) K)

/-- 1x1 matrix, from `reshape(…,1,1)`. -/
def one1 {K : Type*} (x : K) : Matrix (Fin 1) (Fin 1) K := fun _ _ => x

/-- `_check_3D_shape_.py:9-30`.  The branch `raise ValueError('… %r' % (M3.shape))` formats a tuple of two or more
elements with a single `%r`, so what is raised there is `TypeError` (Python's "not all arguments converted"). -/
def check3D {K : Type*} : ND K → Except Err (Stack K)
  | .d0 x => .ok ⟨0, 1, [one1 x]⟩                                  -- 14-15
  | .d1 xs => .ok ⟨1, 1, xs.map one1⟩                              -- 14-15
  | .d2 m n A =>
      if h : m = n then .ok ⟨2, n, [h ▸ A]⟩                        -- 17-18
      else .error .typeError                                       -- 20-28
  | .d3 m n As =>
      if h : m = n then .ok ⟨3, n, h ▸ As⟩                         -- 20, 30
      else .error .typeError                                       -- 20-28
  | .dn _ => .error .typeError                                     -- 20-28

/-- `M[0,0]` of an N x N matrix: IndexError when N = 0. -/
def entry00 {K : Type*} {N : ℕ} (A : Matrix (Fin N) (Fin N) K) : Except Err K :=
  if h : 0 < N then .ok (A ⟨0, h⟩ ⟨0, h⟩) else .error .indexError

/-- The last line of the converters: `S[0,0,0] if L == 0 else S[:,0,0] if L == 1 else S[0,:,:] if L==2 else S`
applied to `np.array([...])` (S_from_Z.py:22, Z_from_S.py:22, Y_from_S.py:22).  `np.array([])` has shape `(0,)`. -/
def unstack {K : Type*} (L N : ℕ) (l : List (Matrix (Fin N) (Fin N) K)) : Except Err (ND K) :=
  match l with
  | [] => if L ≤ 2 then .error .indexError else .ok (.d1 [])
  | A :: _ =>
    if L = 0 then (entry00 A).map .d0
    else if L = 1 then (mapE entry00 l).map .d1
    else if L = 2 then .ok (.d2 N N A)
    else .ok (.d3 N N l)

section
variable {K : Type*} [Field K]

/-- body of the comprehension in `S_from_Z.py:19-20`: `(Zk - Z0) @ inv(Zk + Z0)`, `Z0 = Zbase*eye(N)`. -/
noncomputable def sFromZ1 (z0 : K) {N : ℕ} (Z : Matrix (Fin N) (Fin N) K) :
    Except Err (Matrix (Fin N) (Fin N) K) :=
  (npInv (Z + z0 • 1)).map fun W => (Z - z0 • 1) * W

/-- body of the comprehension in `Z_from_S.py:19-20`: `Zbase * inv(I - Sk) @ (I + Sk)`. -/
noncomputable def zFromS1 (z0 : K) {N : ℕ} (S : Matrix (Fin N) (Fin N) K) :
    Except Err (Matrix (Fin N) (Fin N) K) :=
  (npInv (1 - S)).map fun W => (z0 • W) * (1 + S)

/-- body of the comprehension in `Y_from_S.py:19-20`: `inv(I + Sk) @ (I - Sk) / Zbase`; a zero `Zbase` makes numpy
produce `inf`/`nan`. -/
noncomputable def yFromS1 (z0 : K) {N : ℕ} (S : Matrix (Fin N) (Fin N) K) :
    Except Err (Matrix (Fin N) (Fin N) K) :=
  open Classical in
  match npInv (1 + S) with
  | .error e => .error e
  | .ok W => if z0 = 0 then .error .nonFinite else .ok (z0⁻¹ • (W * (1 - S)))

/-- The common frame of the three converters: check the shape, convert every matrix, restore the shape. -/
def overStack (f : ∀ {N : ℕ}, Matrix (Fin N) (Fin N) K → Except Err (Matrix (Fin N) (Fin N) K))
    (A : ND K) : Except Err (ND K) :=
  match check3D A with
  | .error e => .error e
  | .ok st => match mapE f st.mats with
    | .error e => .error e
    | .ok l => unstack st.L st.N l

/-- `S_from_Z.py:10-24`; `Zbase` is a scalar. -/
noncomputable def sFromZ (z0 : K) (Z : ND K) : Except Err (ND K) := overStack (sFromZ1 z0) Z
/-- `Z_from_S.py:10-24`. -/
noncomputable def zFromS (z0 : K) (S : ND K) : Except Err (ND K) := overStack (zFromS1 z0) S
/-- `Y_from_S.py:10-24`. -/
noncomputable def yFromS (z0 : K) (S : ND K) : Except Err (ND K) := overStack (yFromS1 z0) S

/-- What a name is bound to: the submodule object or the function defined in it. -/
inductive Binding | function | theModule
deriving DecidableEq

/-- The events of importing the package that matter for the package attribute `_check_3D_shape_`. -/
inductive ImportEvent
  /-- loading the submodule `_check_3D_shape_` sets the package attribute to the module -/
  | loadSubmodule
  /-- `from ._check_3D_shape_ import _check_3D_shape_` executed in `__init__.py` rebinds it to the function -/
  | rebindInInit
  /-- `from . import _check_3D_shape_` in `S_from_Y.py:4` captures the current value -/
  | captureInSfromY

/-- The order of these events in `__init__.py`: `rfBase` (line 6) loads the submodule through `rfBase.py:23`;
`S_from_Y` is imported on line 17; the rebinding is on line 28. -/
def initEvents : List ImportEvent := [.loadSubmodule, .captureInSfromY, .rebindInInit]

/-- Run the events: (package attribute, what `S_from_Y` captured). -/
def runImports : List ImportEvent → Option Binding × Option Binding → Option Binding × Option Binding
  | [], s => s
  | .loadSubmodule :: es, (_, c) => runImports es (some .theModule, c)
  | .rebindInInit :: es, (_, c) => runImports es (some .function, c)
  | .captureInSfromY :: es, (p, _) => runImports es (p, p)

/-- body of the comprehension in `S_from_Y.py:19-20`. -/
noncomputable def sFromY1 (z0 : K) {N : ℕ} (Y : Matrix (Fin N) (Fin N) K) :
    Except Err (Matrix (Fin N) (Fin N) K) :=
  open Classical in
  if z0 = 0 then .error .nonFinite else
  (npInv (z0⁻¹ • 1 + Y)).map fun W => (z0⁻¹ • 1 - Y) * W

/-- `S_from_Y.py:10-24`: calling a module object raises TypeError (line 17); were the name bound to the function,
`S` would still be a Python list, and indexing a list with a tuple (line 22, `L < 3`) is a TypeError as well. -/
noncomputable def sFromYWith (b : Binding) (z0 : K) (Y : ND K) : Except Err (ND K) :=
  match b with
  | .theModule => .error .typeError
  | .function => match check3D Y with
    | .error e => .error e
    | .ok st => match mapE (sFromY1 z0) st.mats with
      | .error e => .error e
      | .ok l => if st.L < 3 then .error .typeError else .ok (.d3 st.N st.N l)

/-- `S_from_Y` as the package exposes it. -/
noncomputable def sFromY (z0 : K) (Y : ND K) : Except Err (ND K) :=
  match (runImports initEvents (none, none)).2 with
  | some b => sFromYWith b z0 Y
  | none => .error .attributeError

/-- `S_from_VI.py:9-38` for a 2x2 `M` (any other shape: ValueError, line 28). -/
noncomputable def sFromVI (z0 : K) {m n : ℕ} (M : Matrix (Fin m) (Fin n) K) :
    Except Err (Matrix (Fin 2) (Fin 2) K) :=
  if h : m = 2 ∧ n = 2 then
    let a : Fin 2 → Fin 2 → K := fun i j => M (h.1 ▸ i) (h.2 ▸ j)
    let S2 : Matrix (Fin 2) (Fin 2) K := !![1, z0; a 0 0 - z0 * a 1 0, a 0 1 - z0 * a 1 1]
    let S1 : Matrix (Fin 2) (Fin 2) K := !![1, -z0; a 0 0 + z0 * a 1 0, a 0 1 + z0 * a 1 1]
    (npInv S1).map fun W => S2 * W
  else .error .valueError
end

/-! ## ConvertGeneral -/

/-- The eight coefficients of `coeffs` for one port at one frequency, `ConvertGeneral.py:87-111`.  `none` = the
expression divides by zero (or takes the root of a negative float) in numpy, giving `inf`/`nan`. -/
structure Coef where
  /-- `QVa, QVb, QIa, QIb` : V = QVa a + QVb b, I = QIa a + QIb b -/
  toVI : Option (ℂ × ℂ × ℂ × ℂ)
  /-- `QaV, QaI, QbV, QbI` : a = QaV V + QaI I, b = QbV V + QbI I -/
  toAB : Option (ℂ × ℂ × ℂ × ℂ)

open Classical in
/-- `ConvertGeneral.py:87-111`.  Simplification: for type `P` the impedance array is taken to be complex valued
(numpy's `sqrt` of a negative number in a *float* array would be `nan`). `np.sqrt` is the principal root. -/
noncomputable def coef (typ : String) (z : ℂ) : Except Err Coef :=
  if typ = "V" then
    .ok { toVI := if z = 0 then none else some (1, 1, z⁻¹, -z⁻¹)
          toAB := some (1/2, z/2, 1/2, -z/2) }
  else if typ = "G" then
    let iR : ℂ := ((Real.sqrt z.re)⁻¹ : ℝ)
    .ok (if 0 < z.re then
          { toVI := some (starRingEnd ℂ z * iR, z * iR, iR, -iR)
            toAB := some (iR/2, z * iR / 2, iR/2, -(starRingEnd ℂ z) * iR / 2) }
         else ⟨none, none⟩)
  else if typ = "P" then
    let iR : ℂ := (z ^ (1/2 : ℂ))⁻¹
    .ok (if z = 0 then ⟨none, none⟩ else
          { toVI := some (z * iR, z * iR, iR, -iR)
            toAB := some (iR/2, z * iR / 2, iR/2, -z * iR / 2) })
  else .error .valueError

/-- `ConvertGeneral.py:73-84`: the port-impedance argument as an (nF, N) table.  A 1-D argument of the wrong length
raises ValueError; a 2-D or higher one of the wrong shape hits the tuple-formatting mistake: TypeError. -/
def zTable (F N : ℕ) : ND ℂ → Except Err (List (Fin N → ℂ))
  | .d0 z => .ok (List.replicate F (fun _ => z))
  | .d1 zs => if h : zs.length = N then .ok (List.replicate F (fun i => zs.get (i.cast h.symm)))
              else .error .valueError
  | .d2 m n Z => if h : m = F ∧ n = N then .ok ((List.finRange F).map fun k i => Z (k.cast h.1.symm) (i.cast h.2.symm))
                 else .error .typeError
  | .d3 _ _ _ => .error .typeError
  | .dn _ => .error .typeError

/-- `coeffs(Z, typ)` (67-111): first the shape test, then the type test. The type test fails even when there is
no port or no frequency. -/
noncomputable def coeffs (F N : ℕ) (Z : ND ℂ) (typ : String) : Except Err (List (Fin N → Coef)) :=
  match zTable F N Z with
  | .error e => .error e
  | .ok t => match coef typ 0 with
    | .error e => .error e
    | .ok c0 => .ok (t.map fun row i => match coef typ (row i) with | .ok c => c | .error _ => c0)

open Classical in
/-- One pass of the loop `ConvertGeneral.py:118-125`. -/
noncomputable def conv1 {N : ℕ} (c1 c2 : Fin N → Coef) (S : Matrix (Fin N) (Fin N) ℂ) :
    Except Err (Matrix (Fin N) (Fin N) ℂ) :=
  if (∀ i, (c1 i).toVI.isSome) ∧ (∀ i, (c2 i).toAB.isSome) then
    let vi i := (c1 i).toVI.getD (0,0,0,0)     -- the default is unreachable here
    let ab i := (c2 i).toAB.getD (0,0,0,0)
    let V := Matrix.diagonal (fun i => (vi i).1) + Matrix.diagonal (fun i => (vi i).2.1) * S           -- 121
    let I := Matrix.diagonal (fun i => (vi i).2.2.1) + Matrix.diagonal (fun i => (vi i).2.2.2) * S     -- 122
    let A2 := Matrix.diagonal (fun i => (ab i).1) * V + Matrix.diagonal (fun i => (ab i).2.1) * I      -- 123
    let B2 := Matrix.diagonal (fun i => (ab i).2.2.1) * V + Matrix.diagonal (fun i => (ab i).2.2.2) * I -- 124
    (npInv A2).map fun W => B2 * W                                                                     -- 125
  else .error .nonFinite

/-- The loop `ConvertGeneral.py:117-125` over the zipped tables. -/
noncomputable def convLoop {N : ℕ} (c1 c2 : List (Fin N → Coef)) (l : List (Matrix (Fin N) (Fin N) ℂ)) :
    Except Err (List (Matrix (Fin N) (Fin N) ℂ)) :=
  mapE (fun x => conv1 x.2.1 x.2.2 x.1) (l.zip (c1.zip c2))

/-- The return statements `ConvertGeneral.py:127-142`.  Note the 1-D case: `[S2[0,0,0]]`, one entry only. -/
def convUnstack {K : Type*} (L N : ℕ) (l : List (Matrix (Fin N) (Fin N) K)) : Except Err (ND K) :=
  match l with
  | [] => if L ≤ 2 then .error .indexError else .ok (.d1 [])
  | A :: _ =>
    if L = 0 then (entry00 A).map .d0
    else if L = 1 then (entry00 A).map fun x => .d1 [x]
    else if L = 2 then .ok (.d2 N N A)
    else .ok (.d3 N N l)

/-- `ConvertGeneral.py:12-142`. -/
noncomputable def convertGeneral (Z2 S1 Z1 : ND ℂ) (type1 type2 : String) : Except Err (ND ℂ) :=
  match check3D S1 with                                                    -- 61
  | .error e => .error e
  | .ok st => match coeffs st.mats.length st.N Z1 type1 with               -- 113
    | .error e => .error e
    | .ok c1 => match coeffs st.mats.length st.N Z2 type2 with             -- 114
      | .error e => .error e
      | .ok c2 => match convLoop c1 c2 st.mats with
        | .error e => .error e
        | .ok l => convUnstack st.L st.N l

end PyRFtk
