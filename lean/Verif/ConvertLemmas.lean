import Verif.ConvertModel
import Verif.ConvertSpec
import Mathlib.Tactic.FieldSimp
import Mathlib.Tactic.Ring
import Mathlib.Tactic.LinearCombination
import Mathlib.Tactic.NoncommRing
import Mathlib.Tactic.Module

namespace PyRFtk

section shapes
variable {K : Type*}

theorem check3D_ok_iff (A : ND K) (st : Stack K) :
    check3D A = .ok st ↔ Denotes A st.N st.mats ∧ st.L = A.ndim := by
  constructor
  · intro h
    cases A with
    | d0 x => simp only [check3D, Except.ok.injEq] at h; subst h; exact ⟨.scalar x, rfl⟩
    | d1 xs => simp only [check3D, Except.ok.injEq] at h; subst h; exact ⟨.vector xs, rfl⟩
    | d2 m n A =>
      by_cases hmn : m = n
      · subst hmn; simp [check3D] at h; subst h; exact ⟨.matrix _ A, rfl⟩
      · simp [check3D, hmn] at h
    | d3 m n As =>
      by_cases hmn : m = n
      · subst hmn; simp [check3D] at h; subst h; exact ⟨.stack _ As, rfl⟩
      · simp [check3D, hmn] at h
    | dn s => simp [check3D] at h
  · rintro ⟨h, hL⟩
    obtain ⟨L, N, mats⟩ := st
    simp only at h hL
    subst hL
    cases h with
    | scalar x => rfl
    | vector xs => rfl
    | matrix N A => simp [check3D, ND.ndim]
    | stack N As => simp [check3D, ND.ndim]

theorem check3D_of_denotes {A : ND K} {N : ℕ} {l} (h : Denotes A N l) :
    check3D A = .ok ⟨A.ndim, N, l⟩ := (check3D_ok_iff A ⟨A.ndim, N, l⟩).2 ⟨h, rfl⟩

theorem check3D_error {A : ND K} (h : ¬ ∃ N l, Denotes A N l) : check3D A = .error .typeError := by
  cases A with
  | d0 x => exact absurd ⟨_, _, .scalar x⟩ h
  | d1 xs => exact absurd ⟨_, _, .vector xs⟩ h
  | d2 m n A =>
    by_cases hmn : m = n
    · subst hmn; exact absurd ⟨_, _, .matrix _ A⟩ h
    · simp [check3D, hmn]
  | d3 m n As =>
    by_cases hmn : m = n
    · subst hmn; exact absurd ⟨_, _, .stack _ As⟩ h
    · simp [check3D, hmn]
  | dn s => rfl

theorem mapE_entry00_one (l : List (Matrix (Fin 1) (Fin 1) K)) :
    mapE entry00 l = .ok (l.map fun A => A 0 0) := by
  rw [mapE_eq_ok]
  induction l with
  | nil => simp
  | cons A l ih => simp only [List.map_cons, List.forall₂_cons, ih, and_true]; simp [entry00]

theorem Denotes.ext {A B : ND K} {N : ℕ} {l : List (Matrix (Fin N) (Fin N) K)}
    (h : Denotes A N l) (h' : Denotes B N l) (hd : A.ndim = B.ndim) : A = B := by
  cases h with
  | scalar x =>
    generalize hl : ([Matrix.of fun _ _ => x] : List (Matrix (Fin 1) (Fin 1) K)) = l at h'
    cases h' with
    | scalar y =>
      have := congrArg (List.map fun A : Matrix (Fin 1) (Fin 1) K => A 0 0) hl
      simp at this
      rw [this]
    | vector _ => simp [ND.ndim] at hd
    | matrix N A => simp [ND.ndim] at hd
    | stack N As => simp [ND.ndim] at hd
  | vector xs =>
    generalize hl : (xs.map fun x => Matrix.of fun _ _ => x : List (Matrix (Fin 1) (Fin 1) K)) = l at h'
    cases h' with
    | scalar y => simp [ND.ndim] at hd
    | matrix N A => simp [ND.ndim] at hd
    | stack N As => simp [ND.ndim] at hd
    | vector ys =>
      have := congrArg (List.map fun A : Matrix (Fin 1) (Fin 1) K => A 0 0) hl
      simp [Function.comp_def] at this
      rw [this]
  | matrix N A =>
    generalize hl : [A] = l at h'
    cases h' with
    | matrix N B => simp at hl; rw [hl]
    | scalar y => simp [ND.ndim] at hd
    | vector _ => simp [ND.ndim] at hd
    | stack N As => simp [ND.ndim] at hd
  | stack N As =>
    cases h' with
    | stack N B => rfl
    | scalar y => simp [ND.ndim] at hd
    | vector _ => simp [ND.ndim] at hd
    | matrix N As => simp [ND.ndim] at hd

theorem unstack_exists {A : ND K} {N : ℕ} {l l' : List (Matrix (Fin N) (Fin N) K)}
    (h : Denotes A N l) (hne : l ≠ []) (hlen : l'.length = l.length) :
    ∃ B, unstack A.ndim N l' = .ok B ∧ Denotes B N l' ∧ B.ndim = A.ndim := by
  have hne' : l' ≠ [] := by
    intro h0; apply hne; rw [h0] at hlen; exact List.length_eq_zero_iff.1 hlen.symm
  obtain ⟨A', t, rfl⟩ := List.exists_cons_of_ne_nil hne'
  cases h with
  | scalar x =>
    have ht : t = [] := by simpa using hlen
    subst ht
    have hA : A' = Matrix.of fun _ _ => A' 0 0 := by
      ext i j; fin_cases i; fin_cases j; rfl
    refine ⟨.d0 (A' 0 0), by simp [unstack, ND.ndim, entry00, Except.map], ?_, rfl⟩
    rw [hA]; exact .scalar _
  | vector xs =>
    have hl : ∀ l : List (Matrix (Fin 1) (Fin 1) K), l = (l.map fun A => A 0 0).map fun x => Matrix.of fun _ _ => x := by
      intro l
      rw [List.map_map]
      conv_lhs => rw [← List.map_id l]
      apply List.map_congr_left
      intro A _; ext i j; fin_cases i; fin_cases j; rfl
    refine ⟨.d1 ((A' :: t).map fun A => A 0 0), ?_, ?_, rfl⟩
    · simp only [unstack, ND.ndim, mapE_entry00_one, Except.map]
      simp
    · have h := Denotes.vector ((A' :: t).map fun A => A 0 0)
      rw [← hl] at h
      exact h
  | matrix N A =>
    have ht : t = [] := by simpa using hlen
    subst ht
    exact ⟨.d2 _ _ A', by simp [unstack, ND.ndim], .matrix _ _, rfl⟩
  | stack N As => exact ⟨.d3 _ _ (A' :: t), by simp [unstack, ND.ndim], .stack _ _, rfl⟩

/-- restoring the shape: the result denotes the computed list and has the dimension count of the argument -/
theorem unstack_denotes {A : ND K} {N : ℕ} {l l' : List (Matrix (Fin N) (Fin N) K)}
    (h : Denotes A N l) (hne : l ≠ []) (hlen : l'.length = l.length) (B : ND K) :
    unstack A.ndim N l' = .ok B ↔ Denotes B N l' ∧ B.ndim = A.ndim := by
  obtain ⟨B', h1, h2, h3⟩ := unstack_exists h hne hlen
  rw [h1]
  constructor
  · intro h; injection h with h; subst h; exact ⟨h2, h3⟩
  · rintro ⟨h4, h5⟩; rw [Denotes.ext h2 h4 (h3.trans h5.symm)]

theorem overStack_ok_iff [Field K]
    (f : ∀ {N : ℕ}, Matrix (Fin N) (Fin N) K → Except Err (Matrix (Fin N) (Fin N) K))
    {A : ND K} {N : ℕ} {l : List (Matrix (Fin N) (Fin N) K)} (h : Denotes A N l) (hne : l ≠ []) (B : ND K) :
    overStack f A = .ok B ↔
      ∃ l', List.Forall₂ (fun x y => f x = .ok y) l l' ∧ Denotes B N l' ∧ B.ndim = A.ndim := by
  unfold overStack
  rw [check3D_of_denotes h]
  simp only
  cases hm : mapE f l with
  | error e =>
    simp only [reduceCtorEq, false_iff]
    rintro ⟨l', h1, -⟩
    rw [mapE_eq_ok.2 h1] at hm; cases hm
  | ok l' =>
    have hf := mapE_eq_ok.1 hm
    simp only
    rw [unstack_denotes h hne hf.length_eq.symm]
    constructor
    · rintro ⟨h1, h2⟩; exact ⟨l', hf, h1, h2⟩
    · rintro ⟨l'', h1, h2⟩
      rw [mapE_eq_ok.2 h1] at hm; injection hm with hm; subst hm; exact h2

theorem overStack_error_of_not_denotes [Field K]
    (f : ∀ {N : ℕ}, Matrix (Fin N) (Fin N) K → Except Err (Matrix (Fin N) (Fin N) K))
    {A : ND K} (h : ¬ ∃ N l, Denotes A N l) : overStack f A = .error .typeError := by
  simp [overStack, check3D_error h]

/-- an array that is accepted denotes something -/
theorem overStack_ok_denotes [Field K]
    (f : ∀ {N : ℕ}, Matrix (Fin N) (Fin N) K → Except Err (Matrix (Fin N) (Fin N) K))
    {A B : ND K} (h : overStack f A = .ok B) : ∃ N l, Denotes A N l := by
  by_contra hn
  rw [overStack_error_of_not_denotes f hn] at h; cases h

theorem Denotes.unique {A : ND K} {N N' : ℕ} {l : List (Matrix (Fin N) (Fin N) K)}
    {l' : List (Matrix (Fin N') (Fin N') K)} (h : Denotes A N l) (h' : Denotes A N' l') :
    (⟨N, l⟩ : Σ N, List (Matrix (Fin N) (Fin N) K)) = ⟨N', l'⟩ := by
  cases h <;> cases h' <;> rfl

end shapes

section algebra
variable {K : Type*} [Field K] {N : ℕ}

theorem sFromZ1_ok_iff {z0 : K} {Z S : Matrix (Fin N) (Fin N) K} :
    sFromZ1 z0 Z = .ok S ↔ (Z + z0 • 1).det ≠ 0 ∧ S * (Z + z0 • 1) = Z - z0 • 1 := by
  unfold sFromZ1
  cases h : npInv (Z + z0 • 1) with
  | error e =>
    have := (npInv_eq_error.1 h).1
    simp [Except.map, this]
  | ok W =>
    have hW := npInv_eq_ok.1 h
    have hdet := npInv_ok_iff.1 ⟨W, h⟩
    have hW' : W * (Z + z0 • 1) = 1 := mul_eq_one_comm.1 hW
    simp only [Except.map, Except.ok.injEq]
    constructor
    · rintro rfl; exact ⟨hdet, by rw [Matrix.mul_assoc, hW', Matrix.mul_one]⟩
    · rintro ⟨-, h2⟩
      rw [← h2, Matrix.mul_assoc, hW, Matrix.mul_one]

theorem zFromS1_ok_iff {z0 : K} {Z S : Matrix (Fin N) (Fin N) K} :
    zFromS1 z0 S = .ok Z ↔ (1 - S).det ≠ 0 ∧ (1 - S) * Z = z0 • (1 + S) := by
  unfold zFromS1
  cases h : npInv (1 - S) with
  | error e =>
    have := (npInv_eq_error.1 h).1
    simp [Except.map, this]
  | ok W =>
    have hW := npInv_eq_ok.1 h
    have hdet := npInv_ok_iff.1 ⟨W, h⟩
    have hW' : W * (1 - S) = 1 := mul_eq_one_comm.1 hW
    simp only [Except.map, Except.ok.injEq]
    constructor
    · rintro rfl
      refine ⟨hdet, ?_⟩
      rw [Matrix.smul_mul, Matrix.mul_smul, ← Matrix.mul_assoc, hW, Matrix.one_mul]
    · rintro ⟨-, h2⟩
      rw [Matrix.smul_mul, ← Matrix.mul_smul, ← h2, ← Matrix.mul_assoc, hW', Matrix.one_mul]

theorem yFromS1_ok_iff {z0 : K} {Y S : Matrix (Fin N) (Fin N) K} :
    yFromS1 z0 S = .ok Y ↔ (1 + S).det ≠ 0 ∧ z0 ≠ 0 ∧ (1 + S) * (z0 • Y) = 1 - S := by
  unfold yFromS1
  cases h : npInv (1 + S) with
  | error e =>
    have := (npInv_eq_error.1 h).1
    simp [this]
  | ok W =>
    have hW := npInv_eq_ok.1 h
    have hdet := npInv_ok_iff.1 ⟨W, h⟩
    have hW' : W * (1 + S) = 1 := mul_eq_one_comm.1 hW
    by_cases hz : z0 = 0
    · simp [hz]
    · simp only [hz, if_false, Except.ok.injEq, ne_eq, not_false_eq_true, true_and]
      constructor
      · rintro rfl
        refine ⟨hdet, ?_⟩
        rw [smul_smul, mul_inv_cancel₀ hz, one_smul, ← Matrix.mul_assoc, hW, Matrix.one_mul]
      · rintro ⟨-, h2⟩
        rw [← h2, ← Matrix.mul_assoc, hW', Matrix.one_mul, smul_smul, inv_mul_cancel₀ hz, one_smul]

variable [CharZero K]

theorem det_ne_zero_of_mul_eq_smul_one {A B : Matrix (Fin N) (Fin N) K} {c : K} (hc : c ≠ 0)
    (h : A * B = c • 1) : A.det ≠ 0 := by
  intro h0
  have h2 : A * (c⁻¹ • B) = 1 := by rw [Matrix.mul_smul, h, smul_smul, inv_mul_cancel₀ hc, one_smul]
  have := congrArg Matrix.det h2
  rw [Matrix.det_mul, h0] at this
  simp at this

theorem zFromS1_sFromZ1 {z0 : K} (hz : z0 ≠ 0) {Z S : Matrix (Fin N) (Fin N) K}
    (h : sFromZ1 z0 Z = .ok S) : zFromS1 z0 S = .ok Z := by
  rw [sFromZ1_ok_iff] at h
  obtain ⟨hd, h⟩ := h
  rw [zFromS1_ok_iff]
  constructor
  · apply det_ne_zero_of_mul_eq_smul_one (c := 2 * z0) (B := Z + z0 • 1) (by simp [hz])
    rw [Matrix.sub_mul, h, Matrix.one_mul]
    module
  · have : S * Z = Z - z0 • 1 - z0 • S := by
      rw [← h, Matrix.mul_add, Matrix.mul_smul, Matrix.mul_one]; module
    rw [Matrix.sub_mul, this]; rw [Matrix.one_mul]; module

theorem sFromZ1_zFromS1 {z0 : K} (hz : z0 ≠ 0) {Z S : Matrix (Fin N) (Fin N) K}
    (h : zFromS1 z0 S = .ok Z) : sFromZ1 z0 Z = .ok S := by
  rw [zFromS1_ok_iff] at h
  obtain ⟨hd, h⟩ := h
  have key : (1 - S) * (Z + z0 • 1) = (2 * z0) • 1 := by
    rw [Matrix.mul_add, h, Matrix.mul_smul, Matrix.mul_one]; module
  have key' : (Z + z0 • 1) * (1 - S) = (2 * z0) • 1 := by
    have h2 : ((2 * z0)⁻¹ • (1 - S)) * (Z + z0 • 1) = 1 := by
      rw [Matrix.smul_mul, key, smul_smul, inv_mul_cancel₀ (by simp [hz]), one_smul]
    have h3 := mul_eq_one_comm.1 h2
    rw [Matrix.mul_smul] at h3
    calc (Z + z0 • 1) * (1 - S) = (2 * z0) • ((2 * z0)⁻¹ • ((Z + z0 • 1) * (1 - S))) := by
          rw [smul_smul, mul_inv_cancel₀ (by simp [hz]), one_smul]
      _ = _ := by rw [h3]
  rw [sFromZ1_ok_iff]
  constructor
  · exact det_ne_zero_of_mul_eq_smul_one (by simp [hz]) key'
  · have : S * (Z + z0 • 1) = (Z + z0 • 1) - (2 * z0) • 1 := by
      rw [← key, Matrix.sub_mul, Matrix.one_mul]; abel
    rw [this]; module

end algebra
end PyRFtk
