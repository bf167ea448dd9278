import Verif.ConvertLemmas

/-!
# Properties C01–C04, C09: array shapes, Z / Y / S converters, S_from_VI
-/

namespace PyRFtk

section
variable {K : Type*}

/-! ## C01 -/

/-- **C01** The arrays accepted are exactly those that denote a stack of square matrices; the accepted value is the
denoted stack, and the remembered dimension count is that of the argument. -/
theorem C01_check3D (A : ND K) :
    (∀ st, check3D A = .ok st ↔ Denotes A st.N st.mats ∧ st.L = A.ndim) ∧
    ((∃ st, check3D A = .ok st) ↔ ∃ N l, Denotes A N l) := by
  refine ⟨check3D_ok_iff A, ?_, ?_⟩
  · rintro ⟨st, h⟩; exact ⟨_, _, ((check3D_ok_iff A st).1 h).1⟩
  · rintro ⟨N, l, h⟩; exact ⟨_, check3D_of_denotes h⟩

/-- **C01** (rejection) Every other array makes all four public converters raise; and what is raised is a `TypeError`
(the `ValueError` in the source is never reached, because its message formats a tuple with one `%r`). -/
theorem C01_reject [Field K] (z0 : K) (A : ND K) (h : ¬ ∃ N l, Denotes A N l) :
    sFromZ z0 A = .error .typeError ∧ zFromS z0 A = .error .typeError ∧ yFromS z0 A = .error .typeError :=
  ⟨overStack_error_of_not_denotes _ h, overStack_error_of_not_denotes _ h, overStack_error_of_not_denotes _ h⟩

/-- **C01** (rejection, ConvertGeneral) -/
theorem C01_reject_convertGeneral (S1 Z1 Z2 : ND ℂ) (t1 t2 : String) (h : ¬ ∃ N l, Denotes S1 N l) :
    convertGeneral Z2 S1 Z1 t1 t2 = .error .typeError := by
  simp [convertGeneral, check3D_error h]

/-- non-vacuity: a 2x3 array is rejected, a 2x2 array and an empty stack are accepted -/
example : (¬ ∃ N l, Denotes (.d2 2 3 0 : ND ℚ) N l) ∧ (∃ N l, Denotes (.d2 2 2 !![1, 2; 3, 4] : ND ℚ) N l) := by
  refine ⟨?_, _, _, .matrix _ _⟩
  rintro ⟨N, l, h⟩; cases h

/-! ## C02 -/

/-- A forward conversion lifted to arrays has the same lift of its inverse. -/
private theorem roundtrip_lift [Field K]
    (f g : ∀ {N : ℕ}, Matrix (Fin N) (Fin N) K → Except Err (Matrix (Fin N) (Fin N) K))
    (hfg : ∀ {N : ℕ} {X Y : Matrix (Fin N) (Fin N) K}, f X = .ok Y → g Y = .ok X)
    {A B : ND K} (hne : ¬ Denotes A A.ndim [] ∧ ∀ N, ¬ Denotes A N [])
    (h : overStack f A = .ok B) : overStack g B = .ok A := by
  obtain ⟨N, l, hA⟩ := overStack_ok_denotes f h
  have hl : l ≠ [] := by rintro rfl; exact hne.2 N hA
  obtain ⟨l', h1, h2, h3⟩ := (overStack_ok_iff f hA hl B).1 h
  have hl' : l' ≠ [] := by
    rintro rfl; apply hl; simpa using h1
  rw [overStack_ok_iff g h2 hl']
  refine ⟨l, ?_, hA, h3.symm⟩
  clear h2 hA hl hl'
  induction h1 with
  | nil => exact .nil
  | cons h _ ih => exact .cons (hfg h) ih

/-- An array holding at least one frequency. -/
def NonEmpty (A : ND K) : Prop := ∀ N, ¬ Denotes A N []

variable [Field K] [CharZero K]

/-- **C02** Converting to scattering form and back restores the array (values and shape). -/
theorem C02_Z_S_Z (z0 : K) (hz : z0 ≠ 0) (A B : ND K) (hA : NonEmpty A) (h : sFromZ z0 A = .ok B) :
    zFromS z0 B = .ok A :=
  roundtrip_lift _ _ (fun h => zFromS1_sFromZ1 hz h) ⟨hA _, hA⟩ h

/-- **C02** Converting to impedance form and back restores the array (values and shape). -/
theorem C02_S_Z_S (z0 : K) (hz : z0 ≠ 0) (A B : ND K) (hA : NonEmpty A) (h : zFromS z0 A = .ok B) :
    sFromZ z0 B = .ok A :=
  roundtrip_lift _ _ (fun h => sFromZ1_zFromS1 hz h) ⟨hA _, hA⟩ h

omit [CharZero K] in
/-- **C02** (the excluded point is a real failure) For an empty stack of matrices the round trip fails: the first
conversion returns a 1-D empty array, which the second refuses with `IndexError`. -/
theorem C02_empty_stack (z0 : K) (N : ℕ) :
    sFromZ z0 (.d3 N N []) = .ok (.d1 []) ∧ zFromS z0 (.d1 [] : ND K) = .error .indexError := by
  constructor
  · simp [sFromZ, overStack, check3D, mapE, unstack]
  · simp [zFromS, overStack, check3D, mapE, unstack]

/-- non-vacuity of C02: a 2x2 matrix that converts -/
example : ∃ B, sFromZ (50 : ℚ) (.d2 2 2 !![50, 0; 0, 150]) = .ok B ∧ NonEmpty (.d2 2 2 !![(50:ℚ), 0; 0, 150]) := by
  refine ⟨.d2 2 2 !![0, 0; 0, 1/2], ?_, ?_⟩
  · refine (overStack_ok_iff _ (.matrix 2 _) (by simp) _).2 ⟨[!![0, 0; 0, 1/2]], ?_, .matrix _ _, rfl⟩
    simp only [List.forall₂_cons, List.Forall₂.nil, and_true]
    rw [sFromZ1_ok_iff]
    constructor
    · simp [Matrix.det_fin_two, Matrix.one_fin_two]; norm_num
    · rw [Matrix.one_fin_two]
      ext i j; fin_cases i <;> fin_cases j <;> simp [Matrix.mul_apply, Fin.sum_univ_two]; norm_num
  · intro N h; cases h

/-! ## C03 -/

omit [CharZero K] in
private theorem lift_rel
    (f : ∀ {N : ℕ}, Matrix (Fin N) (Fin N) K → Except Err (Matrix (Fin N) (Fin N) K))
    {A B : ND K} {N : ℕ} {l : List (Matrix (Fin N) (Fin N) K)} (hA : Denotes A N l) (hl : l ≠ [])
    {R : Matrix (Fin N) (Fin N) K → Matrix (Fin N) (Fin N) K → Prop}
    (hfR : ∀ X Y, f X = .ok Y → R X Y) (h : overStack f A = .ok B) :
    ∃ l', Denotes B N l' ∧ B.ndim = A.ndim ∧ List.Forall₂ R l l' := by
  obtain ⟨l', h1, h2, h3⟩ := (overStack_ok_iff f hA hl B).1 h
  exact ⟨l', h2, h3, h1.imp fun X Y => hfR X Y⟩

omit [CharZero K] in
private theorem lift_fail
    (f : ∀ {N : ℕ}, Matrix (Fin N) (Fin N) K → Except Err (Matrix (Fin N) (Fin N) K))
    {A : ND K} {N : ℕ} {l : List (Matrix (Fin N) (Fin N) K)} (hA : Denotes A N l) (hl : l ≠ []) :
    (∃ B, overStack f A = .ok B) ↔ ∀ X ∈ l, ∃ Y, f X = .ok Y := by
  constructor
  · rintro ⟨B, h⟩ X hX
    obtain ⟨l', h1, -⟩ := (overStack_ok_iff f hA hl B).1 h
    clear h hA hl
    induction h1 with
    | nil => simp at hX
    | cons h _ ih =>
      rcases List.mem_cons.1 hX with rfl | hX
      · exact ⟨_, h⟩
      · exact ih hX
  · intro h
    have : ∃ l', List.Forall₂ (fun x y => f x = .ok y) l l' := by
      clear hA hl
      induction l with
      | nil => exact ⟨[], .nil⟩
      | cons X l ih =>
        obtain ⟨Y, hY⟩ := h X (by simp)
        obtain ⟨l', hl'⟩ := ih (fun X hX => h X (by simp [hX]))
        exact ⟨Y :: l', .cons hY hl'⟩
    obtain ⟨l', hl'⟩ := this
    obtain ⟨B, hB, hB2⟩ := unstack_exists hA hl hl'.length_eq.symm
    exact ⟨B, (overStack_ok_iff f hA hl B).2 ⟨l', hl', hB2⟩⟩

/-- **C03** S_from_Z returns matrices whose voltage waves obey `b = S a` exactly when `V = Z I`, for every frequency. -/
theorem C03_S_from_Z_ohm (z0 : K) (hz : z0 ≠ 0) {A B : ND K} {N : ℕ} {l : List (Matrix (Fin N) (Fin N) K)}
    (hA : Denotes A N l) (hl : l ≠ []) (h : sFromZ z0 A = .ok B) :
    ∃ l', Denotes B N l' ∧ B.ndim = A.ndim ∧
      List.Forall₂ (fun Z S => ∀ V I, V = Z.mulVec I ↔ ScatterV z0 S V I) l l' := by
  refine lift_rel _ hA hl (fun Z S hS V I => ?_) h
  obtain ⟨hd, hS⟩ := sFromZ1_ok_iff.1 hS
  have h2 : (2 : K) ≠ 0 := two_ne_zero
  obtain ⟨W, hW⟩ := npInv_ok_iff.2 hd
  have hW1 := npInv_eq_ok.1 hW
  have e1 : ∀ I : Fin N → K, S.mulVec ((Z + z0 • 1).mulVec I) = (Z - z0 • 1).mulVec I := by
    intro I; rw [Matrix.mulVec_mulVec, hS]
  have ea : ∀ V I : Fin N → K, (fun i => (V i + z0 * I i) / 2) = (2:K)⁻¹ • (V + z0 • I) := by
    intro V I; ext i; simp; field_simp
  have eb : ∀ V I : Fin N → K, (fun i => (V i - z0 * I i) / 2) = (2:K)⁻¹ • (V - z0 • I) := by
    intro V I; ext i; simp; field_simp
  unfold ScatterV
  rw [ea, eb, Matrix.mulVec_smul]
  rw [(smul_right_injective (Fin N → K) (inv_ne_zero h2)).eq_iff]
  have ez : ∀ J : Fin N → K, (Z + z0 • 1).mulVec J = Z.mulVec J + z0 • J := by
    intro J; rw [Matrix.add_mulVec, Matrix.smul_mulVec, Matrix.one_mulVec]
  have ez' : ∀ J : Fin N → K, (Z - z0 • 1).mulVec J = Z.mulVec J - z0 • J := by
    intro J; rw [Matrix.sub_mulVec, Matrix.smul_mulVec, Matrix.one_mulVec]
  constructor
  · rintro rfl
    rw [← ez, e1, ez']
  · intro hb
    have hJ : V + z0 • I = (Z + z0 • 1).mulVec (W.mulVec (V + z0 • I)) := by
      rw [Matrix.mulVec_mulVec, hW1, Matrix.one_mulVec]
    generalize W.mulVec (V + z0 • I) = J at hJ
    rw [hJ, e1, ez'] at hb
    rw [ez] at hJ
    have hI : I = J := by
      have : (2 * z0) • I = (2 * z0) • J := by linear_combination (norm := module) hJ - hb
      exact smul_right_injective (Fin N → K) (mul_ne_zero h2 hz) this
    subst hI
    exact add_right_cancel hJ

/-- **C03** Z_from_S: `V = Z I` exactly when the waves obey the given S. -/
theorem C03_Z_from_S_ohm (z0 : K) {A B : ND K} {N : ℕ} {l : List (Matrix (Fin N) (Fin N) K)}
    (hA : Denotes A N l) (hl : l ≠ []) (h : zFromS z0 A = .ok B) :
    ∃ l', Denotes B N l' ∧ B.ndim = A.ndim ∧
      List.Forall₂ (fun S Z => ∀ V I, V = Z.mulVec I ↔ ScatterV z0 S V I) l l' := by
  refine lift_rel _ hA hl (fun S Z hS V I => ?_) h
  obtain ⟨hd, hS⟩ := zFromS1_ok_iff.1 hS
  have h2 : (2 : K) ≠ 0 := two_ne_zero
  have ea : (fun i => (V i + z0 * I i) / 2) = (2:K)⁻¹ • (V + z0 • I) := by
    ext i; simp; field_simp
  have eb : (fun i => (V i - z0 * I i) / 2) = (2:K)⁻¹ • (V - z0 • I) := by
    ext i; simp; field_simp
  unfold ScatterV
  rw [ea, eb, Matrix.mulVec_smul]
  rw [(smul_right_injective (Fin N → K) (inv_ne_zero h2)).eq_iff]
  have hinj : Function.Injective (1 - S).mulVec :=
    Matrix.mulVec_injective_of_isUnit ((Matrix.isUnit_iff_isUnit_det _).2 (Ne.isUnit hd))
  rw [← hinj.eq_iff, Matrix.mulVec_mulVec, hS]
  simp only [Matrix.sub_mulVec, Matrix.add_mulVec, Matrix.one_mulVec, Matrix.smul_mulVec, Matrix.mulVec_add,
    Matrix.mulVec_smul, smul_add]
  constructor
  · intro h; linear_combination (norm := module) h
  · intro h; linear_combination (norm := module) h

/-- **C03** Y_from_S: `I = Y V` exactly when the waves obey the given S. -/
theorem C03_Y_from_S_ohm (z0 : K) {A B : ND K} {N : ℕ} {l : List (Matrix (Fin N) (Fin N) K)}
    (hA : Denotes A N l) (hl : l ≠ []) (h : yFromS z0 A = .ok B) :
    ∃ l', Denotes B N l' ∧ B.ndim = A.ndim ∧
      List.Forall₂ (fun S Y => ∀ V I, I = Y.mulVec V ↔ ScatterV z0 S V I) l l' := by
  refine lift_rel _ hA hl (fun S Y hS V I => ?_) h
  obtain ⟨hd, hz, hS⟩ := yFromS1_ok_iff.1 hS
  have h2 : (2 : K) ≠ 0 := two_ne_zero
  have ea : (fun i => (V i + z0 * I i) / 2) = (2:K)⁻¹ • (V + z0 • I) := by
    ext i; simp; field_simp
  have eb : (fun i => (V i - z0 * I i) / 2) = (2:K)⁻¹ • (V - z0 • I) := by
    ext i; simp; field_simp
  unfold ScatterV
  rw [ea, eb, Matrix.mulVec_smul]
  rw [(smul_right_injective (Fin N → K) (inv_ne_zero h2)).eq_iff]
  have hinj : Function.Injective (1 + S).mulVec :=
    Matrix.mulVec_injective_of_isUnit ((Matrix.isUnit_iff_isUnit_det _).2 (Ne.isUnit hd))
  rw [← (smul_right_injective (Fin N → K) hz).eq_iff, ← hinj.eq_iff, ← Matrix.smul_mulVec, Matrix.mulVec_mulVec, hS]
  simp only [Matrix.sub_mulVec, Matrix.add_mulVec, Matrix.one_mulVec, Matrix.mulVec_add,
    Matrix.mulVec_smul]
  constructor
  · intro h; linear_combination (norm := module) -h
  · intro h; linear_combination (norm := module) -h

omit [CharZero K] in
/-- **C03** Each converter fails exactly when one of the matrices it has to invert is singular
(or, for Y_from_S, when `Zbase = 0`). -/
theorem C03_failure (z0 : K) {A : ND K} {N : ℕ} {l : List (Matrix (Fin N) (Fin N) K)}
    (hA : Denotes A N l) (hl : l ≠ []) :
    ((∃ B, sFromZ z0 A = .ok B) ↔ ∀ Z ∈ l, (Z + z0 • 1).det ≠ 0) ∧
    ((∃ B, zFromS z0 A = .ok B) ↔ ∀ S ∈ l, (1 - S).det ≠ 0) ∧
    ((∃ B, yFromS z0 A = .ok B) ↔ z0 ≠ 0 ∧ ∀ S ∈ l, (1 + S).det ≠ 0) := by
  refine ⟨?_, ?_, ?_⟩
  · refine (lift_fail _ hA hl).trans (forall₂_congr fun Z _ => ?_)
    rw [← npInv_ok_iff]
    unfold sFromZ1
    cases npInv (Z + z0 • 1) <;> simp [Except.map]
  · refine (lift_fail _ hA hl).trans (forall₂_congr fun S _ => ?_)
    rw [← npInv_ok_iff]
    unfold zFromS1
    cases npInv (1 - S) <;> simp [Except.map]
  · refine (lift_fail _ hA hl).trans ?_
    have : ∀ S : Matrix (Fin N) (Fin N) K, (∃ Y, yFromS1 z0 S = .ok Y) ↔ z0 ≠ 0 ∧ (1 + S).det ≠ 0 := by
      intro S
      rw [← npInv_ok_iff]
      unfold yFromS1
      cases npInv (1 + S) <;> by_cases hz : z0 = 0 <;> simp [hz]
    simp only [this]
    obtain ⟨X, t, rfl⟩ := List.exists_cons_of_ne_nil hl
    constructor
    · intro h; exact ⟨(h X (by simp)).1, fun S hS => (h S hS).2⟩
    · rintro ⟨h1, h2⟩ S hS; exact ⟨h1, h2 S hS⟩

omit [CharZero K] in
/-- **C03** Y_from_S and Z_from_S of the same S are inverse matrices, at every frequency. -/
theorem C03_Y_Z_inverse (z0 : K) {A B C : ND K} {N : ℕ} {l : List (Matrix (Fin N) (Fin N) K)}
    (hA : Denotes A N l) (hl : l ≠ []) (hB : zFromS z0 A = .ok B) (hC : yFromS z0 A = .ok C) :
    ∃ zs ys, Denotes B N zs ∧ Denotes C N ys ∧ List.Forall₂ (fun Z Y => Z * Y = 1 ∧ Y * Z = 1) zs ys := by
  obtain ⟨zs, h1, hz, -⟩ := (overStack_ok_iff _ hA hl B).1 hB
  obtain ⟨ys, h2, hy, -⟩ := (overStack_ok_iff _ hA hl C).1 hC
  refine ⟨zs, ys, hz, hy, ?_⟩
  clear hz hy hA hB hC hl
  induction h1 generalizing ys with
  | nil => cases h2; exact .nil
  | @cons S Z _ _ hZ _ ih =>
    cases h2 with
    | @cons _ Y _ _ hY h2 =>
      refine .cons ?_ (ih _ h2)
      obtain ⟨hd, hZ⟩ := zFromS1_ok_iff.1 hZ
      obtain ⟨hd', hz0, hY⟩ := yFromS1_ok_iff.1 hY
      have hZY : Z * Y = 1 := by
        have hinj : IsUnit (1 - S) := (Matrix.isUnit_iff_isUnit_det _).2 (Ne.isUnit hd)
        apply hinj.mul_left_cancel
        rw [← Matrix.mul_assoc, hZ, Matrix.smul_mul, ← Matrix.mul_smul, hY, Matrix.mul_one]
      exact ⟨hZY, mul_eq_one_comm.1 hZY⟩

/-! ## C04 -/

omit [CharZero K] in
/-- **C04** (violated) As the package is wired, `S_from_Y` raises `TypeError` on every argument: inside `S_from_Y.py`
the name `_check_3D_shape_` is the submodule. -/
theorem C04_S_from_Y_always_raises (z0 : K) (Y : ND K) : sFromY z0 Y = .error .typeError := rfl

omit [CharZero K] in
/-- **C04** Even with the name bound to the function, scalars, vectors and single matrices never give a result. -/
theorem C04_S_from_Y_fixed_import_still_raises (z0 : K) (Y : ND K) (h : Y.ndim ≤ 2) :
    ∃ e, sFromYWith .function z0 Y = .error e := by
  unfold sFromYWith
  cases hc : check3D Y with
  | error e => exact ⟨e, rfl⟩
  | ok st =>
    have := ((check3D_ok_iff Y st).1 hc).2
    simp only
    cases mapE (sFromY1 z0) st.mats with
    | error e => exact ⟨e, rfl⟩
    | ok l => exact ⟨.typeError, by simp; omega⟩

/-- **C04** (partial: what holds of the formula in the body, for a 3-D argument and the repaired import) -/
theorem C04_S_from_Y_formula_partial (z0 : K) {N : ℕ} {l : List (Matrix (Fin N) (Fin N) K)} {B : ND K}
    (h : sFromYWith .function z0 (.d3 N N l) = .ok B) :
    ∃ l', B = .d3 N N l' ∧ List.Forall₂ (fun Y S => ∀ V I, I = Y.mulVec V ↔ ScatterV z0 S V I) l l' := by
  unfold sFromYWith at h
  simp only [check3D_of_denotes (.stack N l), ND.ndim] at h
  cases hm : mapE (sFromY1 z0) l with
  | error e => rw [hm] at h; cases h
  | ok l' =>
    rw [hm] at h
    simp at h
    refine ⟨l', h.symm, (mapE_eq_ok.1 hm).imp ?_⟩
    intro Y S hS V I
    have h2 : (2 : K) ≠ 0 := two_ne_zero
    unfold sFromY1 at hS
    by_cases hz : z0 = 0
    · simp [hz] at hS
    rw [if_neg hz] at hS
    cases hW : npInv (z0⁻¹ • 1 + Y) with
    | error e => simp [hW, Except.map] at hS
    | ok W =>
      rw [hW] at hS
      simp only [Except.map, Except.ok.injEq] at hS
      have hW1 := npInv_eq_ok.1 hW
      have hW2 := mul_eq_one_comm.1 hW1
      have ea : (fun i => (V i + z0 * I i) / 2) = (2:K)⁻¹ • (V + z0 • I) := by
        ext i; simp; field_simp
      have eb : (fun i => (V i - z0 * I i) / 2) = (2:K)⁻¹ • (V - z0 • I) := by
        ext i; simp; field_simp
      unfold ScatterV
      rw [ea, eb, Matrix.mulVec_smul]
      rw [(smul_right_injective (Fin N → K) (inv_ne_zero h2)).eq_iff]
      have e1 : ∀ J : Fin N → K, S.mulVec ((z0⁻¹ • 1 + Y).mulVec J) = (z0⁻¹ • 1 - Y).mulVec J := by
        intro J; rw [Matrix.mulVec_mulVec, ← hS, Matrix.mul_assoc, hW2, Matrix.mul_one]
      have ez : ∀ J : Fin N → K, (z0⁻¹ • 1 + Y).mulVec J = z0⁻¹ • J + Y.mulVec J := by
        intro J; rw [Matrix.add_mulVec, Matrix.smul_mulVec, Matrix.one_mulVec]
      have ez' : ∀ J : Fin N → K, (z0⁻¹ • 1 - Y).mulVec J = z0⁻¹ • J - Y.mulVec J := by
        intro J; rw [Matrix.sub_mulVec, Matrix.smul_mulVec, Matrix.one_mulVec]
      constructor
      · rintro rfl
        have : V + z0 • Y.mulVec V = (z0⁻¹ • 1 + Y).mulVec (z0 • V) := by
          rw [ez, Matrix.mulVec_smul, smul_smul, inv_mul_cancel₀ hz, one_smul]
        rw [this, e1, ez', Matrix.mulVec_smul, smul_smul, inv_mul_cancel₀ hz, one_smul]
      · intro hb
        have hJ : V + z0 • I = (z0⁻¹ • 1 + Y).mulVec (W.mulVec (V + z0 • I)) := by
          rw [Matrix.mulVec_mulVec, hW1, Matrix.one_mulVec]
        generalize W.mulVec (V + z0 • I) = J at hJ
        rw [hJ, e1, ez'] at hb
        rw [ez] at hJ
        have hV : V = z0⁻¹ • J := by
          have : (2:K) • V = (2:K) • (z0⁻¹ • J) := by linear_combination (norm := module) hJ + hb
          exact smul_right_injective (Fin N → K) h2 this
        have hI : z0 • I = Y.mulVec J := by
          have : (2:K) • (z0 • I) = (2:K) • Y.mulVec J := by linear_combination (norm := module) hJ - hb
          exact smul_right_injective (Fin N → K) h2 this
        rw [hV, Matrix.mulVec_smul, ← hI, smul_smul, inv_mul_cancel₀ hz, one_smul]

/-! ## C09 -/

/-- **C09** S_from_VI: with the current at port 1 counted *into* the port (`I1' = -I1`), the voltage waves obey `b = S a`
exactly when `(V2, I2) = M (V1, I1)`. -/
theorem C09_S_from_VI (z0 : K) (hz : z0 ≠ 0) (M S : Matrix (Fin 2) (Fin 2) K) (h : sFromVI z0 M = .ok S)
    (V1 I1 V2 I2 : K) :
    (![V2, I2] = M.mulVec ![V1, I1]) ↔ ScatterV z0 S ![V1, V2] ![-I1, I2] := by
  have h2 : (2 : K) ≠ 0 := two_ne_zero
  simp only [sFromVI, and_self, dite_true] at h
  set a := M 0 0; set b := M 0 1; set c := M 1 0; set d := M 1 1
  cases hW : npInv (!![1, -z0; a + z0 * c, b + z0 * d] : Matrix (Fin 2) (Fin 2) K) with
  | error e => simp [a, b, c, d] at hW h; rw [hW] at h; simp [Except.map] at h
  | ok W =>
    have h' : (npInv (!![1, -z0; a + z0 * c, b + z0 * d] : Matrix (Fin 2) (Fin 2) K)).map
      (fun W => !![1, z0; a - z0 * c, b - z0 * d] * W) = .ok S := h
    rw [hW] at h'
    simp only [Except.map, Except.ok.injEq] at h'
    have hW1 := npInv_eq_ok.1 hW
    have hW2 := mul_eq_one_comm.1 hW1
    have hS : S * !![1, -z0; a + z0 * c, b + z0 * d] = !![1, z0; a - z0 * c, b - z0 * d] := by
      rw [← h', Matrix.mul_assoc, hW2, Matrix.mul_one]
    have s1 := congrFun (congrFun hS 0) 0
    have s2 := congrFun (congrFun hS 0) 1
    have s3 := congrFun (congrFun hS 1) 0
    have s4 := congrFun (congrFun hS 1) 1
    simp [Matrix.mul_apply, Fin.sum_univ_two] at s1 s2 s3 s4
    have hM : M.mulVec ![V1, I1] = ![a * V1 + b * I1, c * V1 + d * I1] := by
      ext i; fin_cases i <;> simp [Matrix.mulVec, dotProduct, Fin.sum_univ_two, a, b, c, d]
    rw [hM]
    have hdet : (1:K) * (b + z0 * d) - (-z0) * (a + z0 * c) ≠ 0 := by
      have := npInv_ok_iff.1 ⟨W, hW⟩
      simpa [Matrix.det_fin_two] using this
    unfold ScatterV
    have hv : ∀ x y x' y' : K, (![x, y] = ![x', y']) ↔ x = x' ∧ y = y' := by
      intro x y x' y'; simp
    have hL : (fun i => ((![V1, V2] : Fin 2 → K) i - z0 * (![-I1, I2] : Fin 2 → K) i) / 2) =
        ![(V1 + z0 * I1)/2, (V2 - z0 * I2)/2] := by
      ext i; fin_cases i <;> simp
    have hR : S.mulVec (fun i => ((![V1, V2] : Fin 2 → K) i + z0 * (![-I1, I2] : Fin 2 → K) i) / 2) =
        ![S 0 0 * ((V1 - z0 * I1)/2) + S 0 1 * ((V2 + z0 * I2)/2),
          S 1 0 * ((V1 - z0 * I1)/2) + S 1 1 * ((V2 + z0 * I2)/2)] := by
      ext i; fin_cases i <;> simp [Matrix.mulVec, dotProduct, Fin.sum_univ_two, sub_eq_add_neg]
    rw [hL, hR, hv, hv]
    constructor
    · rintro ⟨rfl, rfl⟩
      constructor
      · field_simp; linear_combination -V1 * s1 - I1 * s2
      · field_simp; linear_combination -V1 * s3 - I1 * s4
    · rintro ⟨e1, e2⟩
      field_simp at e1 e2
      -- let x = V2 + z0 I2 ; the first equation determines it
      have hx : S 0 1 * ((V2 + z0 * I2) - ((a + z0 * c) * V1 + (b + z0 * d) * I1)) = 0 := by
        linear_combination -e1 - V1 * s1 - I1 * s2
      have hs01 : S 0 1 ≠ 0 := by
        intro h0
        rw [h0] at s1 s2
        have s1' : S 0 0 = 1 := by linear_combination s1
        rw [s1'] at s2
        have : (2:K) * z0 = 0 := by linear_combination -s2
        exact mul_ne_zero h2 hz this
      have hx' : V2 + z0 * I2 = (a + z0 * c) * V1 + (b + z0 * d) * I1 := by
        have := (mul_eq_zero.1 hx).resolve_left hs01
        linear_combination this
      have hy' : V2 - z0 * I2 = (a - z0 * c) * V1 + (b - z0 * d) * I1 := by
        rw [hx'] at e2
        linear_combination e2 + V1 * s3 + I1 * s4
      constructor
      · have : 2 * V2 = 2 * (a * V1 + b * I1) := by linear_combination hx' + hy'
        exact mul_left_cancel₀ h2 this
      · have : (2 * z0) * I2 = (2 * z0) * (c * V1 + d * I1) := by linear_combination hx' - hy'
        exact mul_left_cancel₀ (mul_ne_zero h2 hz) this

omit [CharZero K] in
/-- **C09** It fails (LinAlgError) exactly when the incoming waves do not determine the state: the map
(V1, I1) ↦ (a1, a2) is not injective. -/
theorem C09_failure (z0 : K) (M : Matrix (Fin 2) (Fin 2) K) :
    (sFromVI z0 M = .error .linAlg ↔
      (M 0 1 + z0 * M 1 1) + z0 * (M 0 0 + z0 * M 1 0) = 0) ∧
    ((∃ S, sFromVI z0 M = .ok S) ∨ sFromVI z0 M = .error .linAlg) := by
  have e : sFromVI z0 M = (npInv (!![1, -z0; M 0 0 + z0 * M 1 0, M 0 1 + z0 * M 1 1] : Matrix (Fin 2) (Fin 2) K)).map
      (fun W => !![1, z0; M 0 0 - z0 * M 1 0, M 0 1 - z0 * M 1 1] * W) := by
    simp [sFromVI]
  rw [e]
  have hd : Matrix.det (!![1, -z0; M 0 0 + z0 * M 1 0, M 0 1 + z0 * M 1 1] : Matrix (Fin 2) (Fin 2) K) =
      (M 0 1 + z0 * M 1 1) + z0 * (M 0 0 + z0 * M 1 0) := by
    rw [Matrix.det_fin_two_of]; ring
  cases hW : npInv (!![1, -z0; M 0 0 + z0 * M 1 0, M 0 1 + z0 * M 1 1] : Matrix (Fin 2) (Fin 2) K) with
  | error e =>
    obtain ⟨h1, rfl⟩ := npInv_eq_error.1 hW
    rw [hd] at h1
    simp [Except.map, h1]
  | ok W =>
    have h1 := npInv_ok_iff.1 ⟨W, hW⟩
    rw [hd] at h1
    simp [Except.map, h1]

/-- **C09** the two-port is reciprocal iff `det M = 1`. -/
theorem C09_reciprocal_iff_det (z0 : K) (hz : z0 ≠ 0) (M S : Matrix (Fin 2) (Fin 2) K) (h : sFromVI z0 M = .ok S) :
    Reciprocal S ↔ M.det = 1 := by
  have h2 : (2 : K) ≠ 0 := two_ne_zero
  have e : sFromVI z0 M = (npInv (!![1, -z0; M 0 0 + z0 * M 1 0, M 0 1 + z0 * M 1 1] : Matrix (Fin 2) (Fin 2) K)).map
      (fun W => !![1, z0; M 0 0 - z0 * M 1 0, M 0 1 - z0 * M 1 1] * W) := by
    simp [sFromVI]
  rw [e] at h
  cases hW : npInv (!![1, -z0; M 0 0 + z0 * M 1 0, M 0 1 + z0 * M 1 1] : Matrix (Fin 2) (Fin 2) K) with
  | error e => rw [hW] at h; simp [Except.map] at h
  | ok W =>
    rw [hW] at h
    simp only [Except.map, Except.ok.injEq] at h
    have hW2 := mul_eq_one_comm.1 (npInv_eq_ok.1 hW)
    have hS : S * !![1, -z0; M 0 0 + z0 * M 1 0, M 0 1 + z0 * M 1 1] =
        !![1, z0; M 0 0 - z0 * M 1 0, M 0 1 - z0 * M 1 1] := by
      rw [← h, Matrix.mul_assoc, hW2, Matrix.mul_one]
    have hdet := npInv_ok_iff.1 ⟨W, hW⟩
    rw [Matrix.det_fin_two_of] at hdet
    have s1 := congrFun (congrFun hS 0) 0
    have s2 := congrFun (congrFun hS 0) 1
    have s3 := congrFun (congrFun hS 1) 0
    have s4 := congrFun (congrFun hS 1) 1
    simp [Matrix.mul_apply, Fin.sum_univ_two] at s1 s2 s3 s4
    rw [Matrix.det_fin_two]
    set D := (1:K) * (M 0 1 + z0 * M 1 1) - -z0 * (M 0 0 + z0 * M 1 0) with hD
    have e01 : S 0 1 * D = 2 * z0 := by rw [hD]; linear_combination z0 * s1 + s2
    have e10 : S 1 0 * D = 2 * z0 * (M 0 0 * M 1 1 - M 0 1 * M 1 0) := by
      rw [hD]; linear_combination (M 0 1 + z0 * M 1 1) * s3 - (M 0 0 + z0 * M 1 0) * s4
    have hR : Reciprocal S ↔ S 1 0 = S 0 1 := by
      unfold Reciprocal
      constructor
      · intro h; exact congrFun (congrFun h 0) 1
      · intro h; ext i j; fin_cases i <;> fin_cases j <;> simp [Matrix.transpose_apply, h]
    rw [hR]
    constructor
    · intro h
      rw [h, e01] at e10
      have : 2 * z0 * 1 = 2 * z0 * (M 0 0 * M 1 1 - M 0 1 * M 1 0) := by rw [← e10]; ring
      exact (mul_left_cancel₀ (mul_ne_zero h2 hz) this).symm
    · intro h
      rw [h] at e10
      apply mul_right_cancel₀ hdet
      rw [e10, e01]; ring

/-- non-vacuity of C09: the identity transmission matrix (a through) converts to the swap matrix -/
example : sFromVI (50 : ℚ) (1 : Matrix (Fin 2) (Fin 2) ℚ) = .ok !![0, 1; 1, 0] := by
  have : sFromVI (50:ℚ) (1 : Matrix (Fin 2) (Fin 2) ℚ) =
      (npInv (!![1, -50; 1, 50] : Matrix (Fin 2) (Fin 2) ℚ)).map (fun W => !![1, 50; 1, -50] * W) := by
    simp [sFromVI]
  rw [this, npInv_of_mul_eq_one (B := !![1/2, 1/2; -1/100, 1/100])]
  · simp only [Except.map, Except.ok.injEq]
    ext i j; fin_cases i <;> fin_cases j <;> simp [Matrix.mul_apply, Fin.sum_univ_two] <;> norm_num
  · ext i j; fin_cases i <;> fin_cases j <;> simp [Matrix.mul_apply, Fin.sum_univ_two] <;> norm_num

end
end PyRFtk
