import Verif.ConvGenProps
import Verif.CircuitModel
import Verif.PortPower

/-!
# The special case of `ConvertGeneral` used inside the RF objects: both types `V`, scalar references
-/

namespace PyRFtk

open Circuit in
/-- The one-matrix conversion used in the circuit model is `ConvertGeneral(z2, S, z1)` of the full model. -/
theorem Circuit.convVV_eq_convertGeneral (z2 z1 : ℂ) (S : SMat ℂ) :
    convertGeneral (.d0 z2) (.d2 S.n S.n S.m) (.d0 z1) "V" "V" = (convVV z2 z1 S).map fun T => .d2 T.n T.n T.m := by
  obtain ⟨n, S⟩ := S
  unfold convertGeneral convVV
  by_cases hz : z1 = 0 ∧ n ≠ 0
  · obtain ⟨rfl, hn⟩ := hz
    obtain ⟨m, rfl⟩ := Nat.exists_eq_succ_of_ne_zero hn
    simp [check3D, coeffs, zTable, coef, convLoop, mapE, conv1, Except.map]
  · have hsome : ∀ i : Fin n, z1 ≠ 0 := fun i h0 => hz ⟨h0, fun h => by rw [h] at i; exact i.elim0⟩
    rw [if_neg hz]
    simp only [check3D, coeffs, zTable, coef, dite_true, List.length_singleton, if_true, List.replicate_one, List.map_cons,
      List.map_nil, convLoop, List.zip_cons_cons, List.zip_nil_right, mapE, conv1]
    have hc : (∀ i : Fin n, (if z1 = 0 then none else some ((1 : ℂ), (1 : ℂ), z1⁻¹, -z1⁻¹)).isSome) ∧
        (∀ i : Fin n, (some ((1/2 : ℂ), z2/2, (1/2 : ℂ), -z2/2)).isSome) :=
      ⟨fun i => by simp [hsome i], fun i => rfl⟩
    rw [if_pos hc]
    have e0 : ∀ c : ℂ, Matrix.diagonal (fun _ : Fin n => c) = c • (1 : Matrix (Fin n) (Fin n) ℂ) := by
      intro c; rw [Matrix.smul_one_eq_diagonal]
    have e1 : (fun i : Fin n => (if z1 = 0 then none else some ((1 : ℂ), (1 : ℂ), z1⁻¹, -z1⁻¹)).getD (0, 0, 0, 0)) =
        fun _ => ((1 : ℂ), (1 : ℂ), z1⁻¹, -z1⁻¹) := by
      funext i; simp [hsome i]
    have e2 : ∀ (g : ℂ × ℂ × ℂ × ℂ → ℂ), (fun i : Fin n => g ((if z1 = 0 then none else some ((1 : ℂ), (1 : ℂ), z1⁻¹, -z1⁻¹)).getD (0, 0, 0, 0))) =
        fun _ => g ((1 : ℂ), (1 : ℂ), z1⁻¹, -z1⁻¹) := by
      intro g; funext i; rw [congrFun e1 i]
    rw [e2 (fun x => x.1), e2 (fun x => x.2.1), e2 (fun x => x.2.2.1), e2 (fun x => x.2.2.2)]
    simp only [Option.getD_some, e0]
    have hA : (1/2 : ℂ) • (1 : Matrix (Fin n) (Fin n) ℂ) * ((1 : ℂ) • 1 + (1 : ℂ) • 1 * S) +
        (z2/2) • 1 * (z1⁻¹ • 1 + (-z1⁻¹) • 1 * S) = (2 : ℂ)⁻¹ • (1 + S) + (z2/2) • z1⁻¹ • (1 - S) := by
      simp only [smul_mul_assoc, one_mul]
      module
    have hB : (1/2 : ℂ) • (1 : Matrix (Fin n) (Fin n) ℂ) * ((1 : ℂ) • 1 + (1 : ℂ) • 1 * S) +
        (-z2/2) • 1 * (z1⁻¹ • 1 + (-z1⁻¹) • 1 * S) = (2 : ℂ)⁻¹ • (1 + S) - (z2/2) • z1⁻¹ • (1 - S) := by
      simp only [smul_mul_assoc, one_mul]
      module
    rw [hA, hB]
    cases npInv ((2 : ℂ)⁻¹ • (1 + S) + (z2/2) • z1⁻¹ • (1 - S)) with
    | error e => rfl
    | ok W => simp [Except.map, convUnstack]

/-- voltage waves on a common reference -/
theorem allowed_V {N : ℕ} {z : ℂ} {S : Matrix (Fin N) (Fin N) ℂ} {V I : Fin N → ℂ} :
    Allowed .V (fun _ => z) S V I ↔ ScatterV z S V I := by
  unfold Allowed ScatterV
  constructor
  · rintro ⟨a, b, hw, hb⟩
    have ha : a = fun i => (V i + z * I i) / 2 := by
      funext i
      obtain ⟨r, hr, h1, -⟩ := hw i
      simp only [norm2] at hr
      rw [h1, hr, mul_one]
    have hb' : b = fun i => (V i - z * I i) / 2 := by
      funext i
      obtain ⟨r, hr, -, h1⟩ := hw i
      simp only [norm2] at hr
      rw [h1, hr, mul_one]
      simp
    rw [← ha, ← hb', hb]
  · intro h
    exact ⟨_, _, fun i => ⟨1, rfl, by rw [mul_one], by simp⟩, h⟩

/-- converting a list of matrices between scalar voltage-wave references: same number of matrices, each describing the
same port voltages and currents -/
theorem convertVV_list {N : ℕ} {l : List (Matrix (Fin N) (Fin N) ℂ)} (hl : l ≠ []) {z1 z2 : ℂ} (hz : z2 ≠ 0) {R : ND ℂ}
    (h : convertGeneral (.d0 z2) (.d3 N N l) (.d0 z1) "V" "V" = .ok R) :
    ∃ l', R = .d3 N N l' ∧ List.Forall₂ (fun S S' => ∀ V I, ScatterV z1 S V I ↔ ScatterV z2 S' V I) l l' := by
  have hd : (ND.d3 N N l : ND ℂ).ndim ≠ 1 ∨ l.length = 1 := .inl (by simp [ND.ndim])
  obtain ⟨l', a, b, c, d⟩ := (convertGeneral_ok_iff .V .V (.stack N l) hl hd (.scalar z1 l.length N)
    (.scalar z2 l.length N)).1 h
  cases a with
  | stack =>
    refine ⟨l', rfl, List.forall₂_iff_get.2 ⟨c.symm, ?_⟩⟩
    intro i h1 h2 V I
    have := conv1_allowed (t1 := .V) (t2 := .V) (z1 := fun _ => z1) (z2 := fun _ => z2) (fun _ => hz)
      (d i l[i] l'[i] (fun _ => z1) (fun _ => z2) (by simp [h1]) (by simp [h2]) (by simp [h1]) (by simp [h1])) V I
    simpa [allowed_V] using this
  | _ => simp [ND.ndim] at b

/-- the same for one matrix -/
theorem convertVV_one {N : ℕ} {S : Matrix (Fin N) (Fin N) ℂ} {z1 z2 : ℂ} (hz : z2 ≠ 0) {R : ND ℂ}
    (h : convertGeneral (.d0 z2) (.d2 N N S) (.d0 z1) "V" "V" = .ok R) :
    ∃ S', R = .d2 N N S' ∧ ∀ V I, ScatterV z1 S V I ↔ ScatterV z2 S' V I := by
  obtain ⟨l', a, b, c, d⟩ := (convertGeneral_ok_iff .V .V (.matrix N S) (by simp) (.inr rfl) (.scalar z1 1 N)
    (.scalar z2 1 N)).1 h
  cases a with
  | matrix _ S' =>
    refine ⟨S', rfl, fun V I => ?_⟩
    have := conv1_allowed (t1 := .V) (t2 := .V) (z1 := fun _ => z1) (z2 := fun _ => z2) (fun _ => hz)
      (d 0 S S' (fun _ => z1) (fun _ => z2) (by simp) (by simp) (by simp) (by simp)) V I
    simpa [allowed_V] using this
  | _ => simp [ND.ndim] at b

end PyRFtk
