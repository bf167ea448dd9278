import Verif.Bridge

/-!
# C05, completeness: ConvertGeneral finds every conversion that exists
-/

namespace PyRFtk

section
variable {N : ℕ} {t1 t2 : WaveType} {z1 z2 : Fin N → ℂ} {S S' : Matrix (Fin N) (Fin N) ℂ}

/-- a matrix describing the same port states is what `conv1` computes -/
theorem conv1_of_allowed (hz1 : ∀ i, t1.Admissible (z1 i)) (hz2 : ∀ i, t2.Admissible (z2 i))
    (h : ∀ V I, Allowed t1 z1 S V I → Allowed t2 z2 S' V I) : conv1 (coefRow t1 z1) (coefRow t2 z2) S = .ok S' := by
  obtain ⟨vi1, ab1, e1, g1⟩ := coefRow_good t1 hz1
  obtain ⟨vi2, ab2, e2, g2⟩ := coefRow_good t2 hz2
  -- the waves of type 2 that belong to an excitation
  have key : ∀ a, (mB vi1 ab2 S).mulVec a = S'.mulVec ((mA vi1 ab2 S).mulVec a) := by
    intro a
    obtain ⟨V, I, hw⟩ := waves_exist g1 a (S.mulVec a)
    obtain ⟨a', b', hw', rfl⟩ := h V I ⟨a, _, hw, rfl⟩
    have ha : a' = (mA vi1 ab2 S).mulVec a := by
      ext i
      have h1 := ((g1 i).vi_iff _ _ _ _).1 (hw i)
      rw [(((g2 i).ab_iff _ _ _ _).1 (hw' i)).1, mulVec_mA, h1.1, h1.2]
    have hb : S'.mulVec a' = (mB vi1 ab2 S).mulVec a := by
      ext i
      have h1 := ((g1 i).vi_iff _ _ _ _).1 (hw i)
      rw [(((g2 i).ab_iff _ _ _ _).1 (hw' i)).2, mulVec_mB, h1.1, h1.2]
    rw [← hb, ha]
  have hdet : (mA vi1 ab2 S).det ≠ 0 := by
    intro h0
    obtain ⟨a, ha, ha0⟩ := Matrix.exists_mulVec_eq_zero_iff.2 h0
    apply ha
    obtain ⟨V, I, hw⟩ := waves_exist g1 a (S.mulVec a)
    have hB := key a
    rw [ha0, Matrix.mulVec_zero] at hB
    have hb : ∀ i, Waves t2 (z2 i) (V i) (I i) 0 0 := by
      intro i
      rw [(g2 i).ab_iff]
      have h1 := ((g1 i).vi_iff _ _ _ _).1 (hw i)
      rw [h1.1, h1.2]
      have hA0 := congrFun ha0 i
      have hB0 := congrFun hB i
      rw [mulVec_mA] at hA0
      rw [mulVec_mB] at hB0
      exact ⟨by simpa using hA0.symm, by simpa using hB0.symm⟩
    ext i
    have hvi := ((g2 i).vi_iff _ _ _ _).1 (hb i)
    simp only [mul_zero, add_zero] at hvi
    have := ((g1 i).ab_iff _ _ _ _).1 (hw i)
    rw [hvi.1, hvi.2] at this
    simpa using this.1
  rw [conv1_eq (vi := vi1) (ab := ab2) (fun i => by rw [e1 i]) (fun i => by rw [e2 i])]
  obtain ⟨W, hW⟩ : ∃ W, npInv (mA vi1 ab2 S) = .ok W := ⟨_, npInv_of_det_ne_zero hdet⟩
  rw [hW]
  have hW1 := (npInv_eq_ok.1 hW)
  have hmul : mB vi1 ab2 S = S' * mA vi1 ab2 S := by
    apply mulVec_ext
    intro a
    rw [key a, Matrix.mulVec_mulVec]
  show Except.ok (mB vi1 ab2 S * W) = _
  rw [hmul, Matrix.mul_assoc, hW1, Matrix.mul_one]

end

section
variable {N : ℕ} {l : List (Matrix (Fin N) (Fin N) ℂ)} {S1 S2 Z1 Z2 : ND ℂ} {tab1 tab2 : List (Fin N → ℂ)}

/-- C05: with meaningful reference impedances on both sides, ConvertGeneral returns S2 exactly when S2 has the shape of S1 and every
matrix in it allows the same port voltages and currents as the matrix it comes from: it answers whenever there is an answer. -/
theorem C05_exact (t1 t2 : WaveType) (hS : Denotes S1 N l) (hl : l ≠ []) (hd : S1.ndim ≠ 1 ∨ l.length = 1)
    (h1 : ZDenotes Z1 l.length N tab1) (h2 : ZDenotes Z2 l.length N tab2) (hz1 : TableOK t1 tab1) (hz2 : TableOK t2 tab2) :
    convertGeneral Z2 S1 Z1 t1.str t2.str = .ok S2 ↔ ∃ l', Denotes S2 N l' ∧ S2.ndim = S1.ndim ∧ l'.length = l.length ∧
      ∀ (k : ℕ) (S S' : Matrix (Fin N) (Fin N) ℂ) (z1 z2 : Fin N → ℂ),
        l[k]? = some S → l'[k]? = some S' → tab1[k]? = some z1 → tab2[k]? = some z2 →
        ∀ V I, Allowed t1 z1 S V I ↔ Allowed t2 z2 S' V I := by
  rw [convertGeneral_ok_iff t1 t2 hS hl hd h1 h2]
  constructor
  · rintro ⟨l', a, b, c, d⟩
    exact ⟨l', a, b, c, fun k S S' z1 z2 e1 e2 e3 e4 => conv1_allowed (hz2 z2 (List.mem_of_getElem? e4)) (d k S S' z1 z2 e1 e2 e3 e4)⟩
  · rintro ⟨l', a, b, c, d⟩
    exact ⟨l', a, b, c, fun k S S' z1 z2 e1 e2 e3 e4 => conv1_of_allowed (hz1 z1 (List.mem_of_getElem? e3))
      (hz2 z2 (List.mem_of_getElem? e4)) fun V I => (d k S S' z1 z2 e1 e2 e3 e4 V I).1⟩

end

/-- pseudo waves on a common reference -/
theorem allowed_P {N : ℕ} {z : ℂ} (hz : z ≠ 0) {S : Matrix (Fin N) (Fin N) ℂ} {V I : Fin N → ℂ} :
    Allowed .P (fun _ => z) S V I ↔ ScatterV z S V I := by
  obtain ⟨r0, hr0', hu⟩ := norm2_exists .P z hz
  have hr0 : norm2 .P z r0 := (hu r0).2 rfl
  have ea : ∀ V I : Fin N → ℂ, (fun i => (V i + z * I i) / (2 * r0)) = r0⁻¹ • fun i => (V i + z * I i) / 2 := by
    intro V I; funext i; simp only [Pi.smul_apply, smul_eq_mul]; field_simp
  have eb : ∀ V I : Fin N → ℂ, (fun i => (V i - z * I i) / (2 * r0)) = r0⁻¹ • fun i => (V i - z * I i) / 2 := by
    intro V I; funext i; simp only [Pi.smul_apply, smul_eq_mul]; field_simp
  unfold Allowed ScatterV
  constructor
  · rintro ⟨a, b, hw, hb⟩
    have ha : a = fun i => (V i + z * I i) / (2 * r0) := by
      funext i
      obtain ⟨r, hr, h1, -⟩ := hw i
      rw [h1, (hu r).1 hr]
    have hb' : b = fun i => (V i - z * I i) / (2 * r0) := by
      funext i
      obtain ⟨r, hr, -, h1⟩ := hw i
      rw [h1, (hu r).1 hr]; simp
    rw [ha, hb', ea, eb, Matrix.mulVec_smul] at hb
    exact smul_right_injective _ (inv_ne_zero hr0') hb
  · intro h
    refine ⟨fun i => (V i + z * I i) / (2 * r0), fun i => (V i - z * I i) / (2 * r0), fun i => ⟨r0, hr0, rfl, by simp⟩, ?_⟩
    rw [ea, eb, Matrix.mulVec_smul, h]

/-- from pseudo waves on `z1` to voltage waves on `z2`, for a list of matrices -/
theorem convertPV_list {N : ℕ} {l : List (Matrix (Fin N) (Fin N) ℂ)} (hl : l ≠ []) {z1 z2 : ℂ} (hz1 : z1 ≠ 0) (hz2 : z2 ≠ 0) {R : ND ℂ} :
    convertGeneral (.d0 z2) (.d3 N N l) (.d0 z1) "P" "V" = .ok R ↔
    ∃ l', R = .d3 N N l' ∧ List.Forall₂ (fun S S' => ∀ V I, ScatterV z1 S V I ↔ ScatterV z2 S' V I) l l' := by
  have hd : (ND.d3 N N l : ND ℂ).ndim ≠ 1 ∨ l.length = 1 := .inl (by simp [ND.ndim])
  have := C05_exact (S2 := R) .P .V (.stack N l) hl hd (.scalar z1 l.length N) (.scalar z2 l.length N)
    (by intro row hrow i; rw [(List.mem_replicate.1 hrow).2]; exact hz1) (by intro row hrow i; rw [(List.mem_replicate.1 hrow).2]; exact hz2)
  refine this.trans ?_
  constructor
  · rintro ⟨l', a, b, c, d⟩
    cases a with
    | stack =>
      refine ⟨l', rfl, List.forall₂_iff_get.2 ⟨c.symm, ?_⟩⟩
      intro i h1 h2 V I
      have := d i l[i] l'[i] (fun _ => z1) (fun _ => z2) (by simp [h1]) (by simp [h2]) (by simp [h1]) (by simp [h1]) V I
      simpa [allowed_V, allowed_P hz1] using this
    | _ => simp [ND.ndim] at b
  · rintro ⟨l', rfl, h⟩
    refine ⟨l', .stack N l', rfl, h.length_eq.symm, ?_⟩
    intro k S S' y1 y2 e1 e2 e3 e4 V I
    rw [List.getElem?_replicate] at e3 e4
    split at e3
    · rw [if_pos (by assumption)] at e4
      injection e3 with e3; injection e4 with e4
      subst e3 e4
      rw [allowed_P hz1, allowed_V]
      obtain ⟨hk, rfl⟩ := List.getElem?_eq_some_iff.1 e1
      obtain ⟨hk', rfl⟩ := List.getElem?_eq_some_iff.1 e2
      exact (List.forall₂_iff_get.1 h).2 k hk hk' V I
    · cases e3

end PyRFtk
