import Mathlib.LinearAlgebra.Matrix.NonsingularInverse

/-!
# Common vocabulary of the pyRFtk model

Python exceptions as values, numpy arrays by number of dimensions, and `np.linalg.inv`.
-/

namespace PyRFtk

/-- The Python exception classes the modelled code can raise (all of them are raised, explicitly or by the
Python/numpy runtime, in the functions cited at the use sites).  `nonFinite` is not an exception: it stands for a
numpy result containing `inf`/`nan` (division by an exact zero), which Python code carries on with.  `hang` is not an exception either: the call does not return. -/
inductive Err
  | valueError | typeError | linAlg | keyError | indexError | attributeError | unboundLocal
  | ioError | zeroDivision | nameError | syntaxError | runtimeError | overflow | nonFinite | hang
deriving DecidableEq, Repr

/-- A numpy array argument, by number of dimensions (models `np.array(x)` in
`_check_3D_shape_.py:11`, `ConvertGeneral.py:73`).  `dn` stands for any array of 4 or more dimensions, whose
entries the code never looks at. The leading (frequency) axis is a list. -/
inductive ND (K : Type*)
  | d0 (x : K)
  | d1 (xs : List K)
  | d2 (m n : ℕ) (A : Matrix (Fin m) (Fin n) K)
  | d3 (m n : ℕ) (As : List (Matrix (Fin m) (Fin n) K))
  | dn (shape : List ℕ)

/-- number of dimensions (`len(M3.shape)`); for `dn` it is the length of the shape, at least 4. -/
def ND.ndim {K : Type*} : ND K → ℕ
  | .d0 _ => 0 | .d1 _ => 1 | .d2 _ _ _ => 2 | .d3 _ _ _ => 3 | .dn s => 4 + s.length

open Classical in
/-- `np.linalg.inv` (used in S_from_Z.py:20, Z_from_S.py:20, ConvertGeneral.py:125, rfCircuit.py `getS`, …):
the inverse, or `LinAlgError` for an exactly singular matrix. Simplification: exact arithmetic. -/
noncomputable def npInv {K : Type*} [Field K] {n : Type*} [Fintype n] [DecidableEq n]
    (A : Matrix n n K) : Except Err (Matrix n n K) :=
  if A.det = 0 then .error .linAlg else .ok A⁻¹

section
variable {K : Type*} [Field K] {n : Type*} [Fintype n] [DecidableEq n]

theorem npInv_eq_ok {A B : Matrix n n K} : npInv A = .ok B ↔ A * B = 1 := by
  unfold npInv
  constructor
  · intro h
    split at h
    · cases h
    · rename_i hd
      injection h with h; subst h
      exact Matrix.mul_nonsing_inv _ (Ne.isUnit hd)
  · intro h
    have hd : A.det ≠ 0 := by
      intro h0
      have := congrArg Matrix.det h
      rw [Matrix.det_mul, h0] at this
      simp at this
    rw [if_neg hd, Matrix.inv_eq_right_inv h]

theorem npInv_eq_error {A : Matrix n n K} {e : Err} : npInv A = .error e ↔ A.det = 0 ∧ e = .linAlg := by
  unfold npInv
  split
  · rename_i h; simp [h, eq_comm]
  · rename_i h; simp [h]

theorem npInv_ok_iff {A : Matrix n n K} : (∃ B, npInv A = .ok B) ↔ A.det ≠ 0 := by
  unfold npInv; split <;> rename_i h <;> simp [h]

theorem npInv_of_mul_eq_one {A B : Matrix n n K} (h : A * B = 1) : npInv A = .ok B := npInv_eq_ok.2 h

theorem npInv_of_det_ne_zero {A : Matrix n n K} (h : A.det ≠ 0) : npInv A = .ok A⁻¹ := by
  simp [npInv, h]
end

/-- Python list comprehension `[f(x) for x in xs]` whose body may raise: the first exception wins. -/
def mapE {α β : Type*} (f : α → Except Err β) : List α → Except Err (List β)
  | [] => .ok []
  | x :: xs => match f x with
    | .error e => .error e
    | .ok y => match mapE f xs with
      | .error e => .error e
      | .ok ys => .ok (y :: ys)

theorem mapE_eq_ok {α β : Type*} {f : α → Except Err β} :
    ∀ {xs : List α} {ys : List β}, mapE f xs = .ok ys ↔ List.Forall₂ (fun x y => f x = .ok y) xs ys
  | [], ys => by cases ys <;> simp [mapE]
  | x :: xs, ys => by
    unfold mapE
    cases hx : f x with
    | error e => cases ys <;> simp [hx]
    | ok y =>
      cases hxs : mapE f xs with
      | error e =>
        simp only [reduceCtorEq, false_iff]
        intro h
        cases h with
        | cons h1 h2 => rw [mapE_eq_ok.2 h2] at hxs; cases hxs
      | ok zs =>
        have := mapE_eq_ok (f := f) (xs := xs) (ys := zs) |>.1 hxs
        constructor
        · intro h; injection h with h; subst h
          exact .cons hx this
        · intro h
          cases h with
          | cons h1 h2 =>
            rw [hx] at h1; injection h1 with h1
            have := mapE_eq_ok.2 h2
            rw [hxs] at this; injection this with this
            subst h1 this; rfl

theorem mapE_eq_error {α β : Type*} {f : α → Except Err β} {e : Err} :
    ∀ {xs : List α}, mapE f xs = .error e → ∃ x ∈ xs, f x = .error e
  | [], h => by simp [mapE] at h
  | x :: xs, h => by
    unfold mapE at h
    cases hx : f x with
    | error e' => rw [hx] at h; injection h with h; subst h; exact ⟨x, by simp, hx⟩
    | ok y =>
      rw [hx] at h
      cases hxs : mapE f xs with
      | error e' =>
        rw [hxs] at h; injection h with h; subst h
        obtain ⟨z, hz, h⟩ := mapE_eq_error hxs
        exact ⟨z, by simp [hz], h⟩
      | ok zs => rw [hxs] at h; cases h

end PyRFtk
