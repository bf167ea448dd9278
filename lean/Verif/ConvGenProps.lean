import Verif.ConvGenLift
import Mathlib.LinearAlgebra.Matrix.ToLinearEquiv

/-!
# Properties C05–C08: ConvertGeneral
-/

namespace PyRFtk

variable {N : ℕ} {l : List (Matrix (Fin N) (Fin N) ℂ)} {S1 S2 S3 Z1 Z2 Z3 : ND ℂ}
  {tab1 tab2 tab3 : List (Fin N → ℂ)}

/-- All impedances of a table are admissible references for a wave type. -/
def TableOK (t : WaveType) (tab : List (Fin N → ℂ)) : Prop := ∀ row ∈ tab, ∀ i, t.Admissible (row i)

/-! ## C05 -/

/-- **C05** ConvertGeneral preserves the physical network at every frequency it returns: the port voltages/currents
compatible with the returned matrix in the type-2/Z2 waves are exactly those compatible with the given matrix in the
type-1/Z1 waves. All frequencies are returned unless the argument is 1-D (see C08). -/
theorem C05_physical (t1 t2 : WaveType) (hS : Denotes S1 N l) (hl : l ≠ [])
    (h1 : ZDenotes Z1 l.length N tab1) (h2 : ZDenotes Z2 l.length N tab2) (hz : TableOK t2 tab2)
    (h : convertGeneral Z2 S1 Z1 t1.str t2.str = .ok S2) :
    ∃ l', Denotes S2 N l' ∧ (l'.length = if S1.ndim = 1 then 1 else l.length) ∧
      ∀ (k : ℕ) (S S' : Matrix (Fin N) (Fin N) ℂ) (z1 z2 : Fin N → ℂ),
        l[k]? = some S → l'[k]? = some S' → tab1[k]? = some z1 → tab2[k]? = some z2 →
        ∀ V I, Allowed t1 z1 S V I ↔ Allowed t2 z2 S' V I := by
  by_cases hd : S1.ndim ≠ 1 ∨ l.length = 1
  · obtain ⟨l', a, b, c, d⟩ := (convertGeneral_ok_iff t1 t2 hS hl hd h1 h2).1 h
    refine ⟨l', a, ?_, fun k S S' z1 z2 e1 e2 e3 e4 =>
      conv1_allowed (hz z2 (List.mem_of_getElem? e4)) (d k S S' z1 z2 e1 e2 e3 e4)⟩
    split <;> omega
  · push Not at hd
    obtain ⟨hnd, hlen⟩ := hd
    -- a 1-D argument with several entries: only the first is returned
    unfold convertGeneral at h
    simp only [check3D_of_denotes hS, coeffs_eq t1 h1, coeffs_eq t2 h2] at h
    have hl1 := zDenotes_length h1
    have hl2 := zDenotes_length h2
    cases hc : convLoop (tab1.map (coefRow t1)) (tab2.map (coefRow t2)) l with
    | error e => rw [hc] at h; cases h
    | ok l' =>
      rw [hc] at h
      obtain ⟨h3, h4⟩ := (convLoop_ok_iff t1 t2 hl1 hl2).1 hc
      have hne : l' ≠ [] := by
        rintro rfl; simp at h3; exact hl (List.length_eq_zero_iff.1 h3.symm)
      obtain ⟨A, t, rfl⟩ := List.exists_cons_of_ne_nil hne
      have hN : N = 1 := by
        cases hS with
        | scalar => rfl
        | vector => rfl
        | matrix => simp [ND.ndim] at hnd
        | stack => simp [ND.ndim] at hnd
      subst hN
      simp [convUnstack, hnd, entry00, Except.map] at h
      subst h
      have hA : [A] = List.map (fun x => Matrix.of fun _ _ => x) [A 0 0] := by
        simp; ext i j; fin_cases i; fin_cases j; rfl
      refine ⟨[A], ?_, by simp [hnd], ?_⟩
      · rw [hA]; exact .vector _
      · rintro (_ | k) S S' z1 z2 e1 e2 e3 e4
        · simp at e2; subst e2
          exact conv1_allowed (hz z2 (List.mem_of_getElem? e4)) (h4 0 S A z1 z2 e1 rfl e3 e4)
        · simp at e2

/-- **C05** ConvertGeneral never fails on a finite, passive problem: if every matrix is passive and both references are
power-normalised (type P on positive real, type G on positive-real-part impedances) a result is returned. -/
theorem C05_total_on_passive (t1 t2 : WaveType) (hS : Denotes S1 N l) (hl : l ≠ [])
    (h1 : ZDenotes Z1 l.length N tab1) (h2 : ZDenotes Z2 l.length N tab2)
    (hz1 : ∀ row ∈ tab1, ∀ i, PowerRef t1 (row i)) (hz2 : ∀ row ∈ tab2, ∀ i, PowerRef t2 (row i))
    (hp : ∀ S ∈ l, Passive S) : ∃ S2, convertGeneral Z2 S1 Z1 t1.str t2.str = .ok S2 := by
  -- invertibility of A2: if A2 a = 0 then b2 carries all the power, so V I* <= 0; but passivity gives >= 0; then V = I = 0
  have key : ∀ S ∈ l, ∀ z1 ∈ tab1, ∀ z2 ∈ tab2, ∃ S', conv1 (coefRow t1 z1) (coefRow t2 z2) S = .ok S' := by
    intro S hSl z1 hz1' z2 hz2'
    obtain ⟨vi1, ab1, e1, g1⟩ := coefRow_good t1 (fun i => (hz1 z1 hz1' i).admissible)
    obtain ⟨vi2, ab2, e2, g2⟩ := coefRow_good t2 (fun i => (hz2 z2 hz2' i).admissible)
    rw [conv1_eq (vi := vi1) (ab := ab2) (fun i => by rw [e1 i]) (fun i => by rw [e2 i])]
    suffices hdet : (mA vi1 ab2 S).det ≠ 0 by rw [npInv_of_det_ne_zero hdet]; exact ⟨_, rfl⟩
    intro h0
    obtain ⟨a, ha, ha0⟩ := Matrix.exists_mulVec_eq_zero_iff.2 h0
    apply ha
    obtain ⟨V, I, hw⟩ := waves_exist g1 a (S.mulVec a)
    have hb : ∀ i, Waves t2 (z2 i) (V i) (I i) 0 ((mB vi1 ab2 S).mulVec a i) := by
      intro i
      rw [(g2 i).ab_iff]
      have := ((g1 i).vi_iff _ _ _ _).1 (hw i)
      rw [this.1, this.2, mulVec_mB]
      refine ⟨?_, rfl⟩
      have := congrFun ha0 i
      rw [mulVec_mA] at this
      simpa using this.symm
    have p1 := total_power (hz1 z1 hz1') hw
    have p2 := total_power (a := 0) (hz2 z2 hz2') hb
    have pas := hp S hSl a
    have hpow0 : power (0 : Fin N → ℂ) = 0 := by simp [power]
    rw [hpow0] at p2
    have hbz : power ((mB vi1 ab2 S).mulVec a) ≤ 0 := by linarith
    have hbz' : ∀ i, (mB vi1 ab2 S).mulVec a i = 0 := by
      intro i
      unfold power at hbz
      have h0 := (Finset.sum_eq_zero_iff_of_nonneg (fun i _ => by positivity)).1
        (le_antisymm hbz (Finset.sum_nonneg fun i _ => by positivity)) i (Finset.mem_univ i)
      simpa using h0
    ext i
    have hvi := ((g2 i).vi_iff _ _ _ _).1 (hb i)
    rw [hbz' i] at hvi
    simp at hvi
    have := ((g1 i).ab_iff _ _ _ _).1 (hw i)
    rw [hvi.1, hvi.2] at this
    simpa using this.1
  have hl1 := zDenotes_length h1
  have hl2 := zDenotes_length h2
  have hloop : ∃ l', convLoop (tab1.map (coefRow t1)) (tab2.map (coefRow t2)) l = .ok l' := by
    cases hc : convLoop (tab1.map (coefRow t1)) (tab2.map (coefRow t2)) l with
    | ok l' => exact ⟨l', rfl⟩
    | error e =>
      exfalso
      obtain ⟨⟨S, c1, c2⟩, hm, he⟩ := mapE_eq_error hc
      have hS' := List.of_mem_zip hm
      have hc' := List.of_mem_zip hS'.2
      obtain ⟨z1, hz1', rfl⟩ := List.mem_map.1 hc'.1
      obtain ⟨z2, hz2', rfl⟩ := List.mem_map.1 hc'.2
      obtain ⟨S', hk⟩ := key S hS'.1 z1 hz1' z2 hz2'
      simp only at he
      rw [hk] at he; cases he
  obtain ⟨l', hl'⟩ := hloop
  obtain ⟨h3, -⟩ := (convLoop_ok_iff t1 t2 hl1 hl2).1 hl'
  unfold convertGeneral
  simp only [check3D_of_denotes hS, coeffs_eq t1 h1, coeffs_eq t2 h2, hl']
  by_cases hd : S1.ndim ≠ 1 ∨ l.length = 1
  · rw [convUnstack_eq_unstack _ _ _ (by rw [h3]; exact hd)]
    obtain ⟨B, hB, -⟩ := unstack_exists hS hl h3
    exact ⟨B, hB⟩
  · push Not at hd
    have hN : N = 1 := by
      cases hS with
      | scalar => rfl
      | vector => rfl
      | matrix => simp [ND.ndim] at hd
      | stack => simp [ND.ndim] at hd
    subst hN
    have hne : l' ≠ [] := by
      rintro rfl; simp at h3; exact hl (List.length_eq_zero_iff.1 h3.symm)
    obtain ⟨A, t, rfl⟩ := List.exists_cons_of_ne_nil hne
    simp [convUnstack, hd.1, entry00, Except.map]

/-! ## C06 -/

/-- **C06** Converting to the same type and impedances is the identity. -/
theorem C06_identity (t : WaveType) (hS : Denotes S1 N l) (hl : l ≠ []) (hd : S1.ndim ≠ 1 ∨ l.length = 1)
    (h1 : ZDenotes Z1 l.length N tab1) (hz : TableOK t tab1) :
    convertGeneral Z1 S1 Z1 t.str t.str = .ok S1 := by
  rw [convertGeneral_ok_iff t t hS hl hd h1 h1]
  refine ⟨l, hS, rfl, rfl, fun k S S' z1 z2 e1 e2 e3 e4 => ?_⟩
  rw [e1] at e2; rw [e3] at e4
  injection e2 with e2; injection e4 with e4
  subst e2 e4
  exact conv1_self (hz z1 (List.mem_of_getElem? e3))

/-- **C06** Conversions compose: 1→2→3 equals 1→3. -/
theorem C06_compose (t1 t2 t3 : WaveType) (hS : Denotes S1 N l) (hl : l ≠ []) (hd : S1.ndim ≠ 1 ∨ l.length = 1)
    (h1 : ZDenotes Z1 l.length N tab1) (h2 : ZDenotes Z2 l.length N tab2) (h3 : ZDenotes Z3 l.length N tab3)
    (hz2 : TableOK t2 tab2) (hz3 : TableOK t3 tab3)
    (h : convertGeneral Z2 S1 Z1 t1.str t2.str = .ok S2) (h' : convertGeneral Z3 S2 Z2 t2.str t3.str = .ok S3) :
    convertGeneral Z3 S1 Z1 t1.str t3.str = .ok S3 := by
  obtain ⟨l', a, b, c, d⟩ := (convertGeneral_ok_iff t1 t2 hS hl hd h1 h2).1 h
  have hl' : l' ≠ [] := by rintro rfl; simp at c; exact hl (List.length_eq_zero_iff.1 c.symm)
  obtain ⟨l'', a', b', c', d'⟩ := (convertGeneral_ok_iff t2 t3 a hl' (by rw [b, c]; exact hd)
    (by rw [c]; exact h2) (by rw [c]; exact h3)).1 h'
  rw [convertGeneral_ok_iff t1 t3 hS hl hd h1 h3]
  refine ⟨l'', a', b'.trans b, c'.trans c, fun k S S'' z1 z3 e1 e2 e3 e4 => ?_⟩
  have hk : k < l'.length := by
    rw [c]; exact (List.getElem?_eq_some_iff.1 e1).1
  have hk2 : k < tab2.length := by rw [zDenotes_length h2, ← c]; exact hk
  have f1 := d k S l'[k] z1 tab2[k] e1 (List.getElem?_eq_getElem hk) e3 (List.getElem?_eq_getElem hk2)
  have f2 := d' k l'[k] S'' tab2[k] z3 (List.getElem?_eq_getElem hk) e2 (List.getElem?_eq_getElem hk2) e4
  exact conv1_trans (hz2 _ (List.getElem_mem hk2)) (hz3 _ (List.mem_of_getElem? e4)) f1 f2

/-- **C06** There and back is the identity (and the way back never fails). -/
theorem C06_roundtrip (t1 t2 : WaveType) (hS : Denotes S1 N l) (hl : l ≠ []) (hd : S1.ndim ≠ 1 ∨ l.length = 1)
    (h1 : ZDenotes Z1 l.length N tab1) (h2 : ZDenotes Z2 l.length N tab2) (hz2 : TableOK t2 tab2)
    (h : convertGeneral Z2 S1 Z1 t1.str t2.str = .ok S2) :
    convertGeneral Z1 S2 Z2 t2.str t1.str = .ok S1 := by
  obtain ⟨l', a, b, c, d⟩ := (convertGeneral_ok_iff t1 t2 hS hl hd h1 h2).1 h
  have hl' : l' ≠ [] := by rintro rfl; simp at c; exact hl (List.length_eq_zero_iff.1 c.symm)
  rw [convertGeneral_ok_iff t2 t1 a hl' (by rw [b, c]; exact hd) (by rw [c]; exact h2) (by rw [c]; exact h1)]
  exact ⟨l, hS, b.symm, c.symm, fun k S' S z2 z1 e1 e2 e3 e4 =>
    conv1_symm (hz2 _ (List.mem_of_getElem? e3)) (d k S S' z1 z2 e2 e1 e4 e3)⟩

/-- **C06** (boundary) A zero voltage-wave reference is not refused: the result is then the identity matrix whatever
the network, so the information is lost and no way back exists. -/
theorem C06_zero_reference_collapses (S : Matrix (Fin N) (Fin N) ℂ) (z : ℂ) (hz : z ≠ 0) (hS : (1 + S).det ≠ 0) :
    convertGeneral (.d0 0) (.d2 N N S) (.d0 z) "V" "V" = .ok (.d2 N N 1) := by
  have := convertGeneral_ok_iff .V .V (S2 := .d2 N N 1) (.matrix N S) (by simp) (by simp [ND.ndim])
    (ZDenotes.scalar z 1 N) (ZDenotes.scalar 0 1 N)
  refine this.2 ⟨[1], .matrix N 1, rfl, rfl, ?_⟩
  rintro (_ | k) T T' z1 z2 e1 e2 e3 e4
  swap
  · simp at e1
  simp at e1 e2 e3 e4
  subst e1 e2 e3 e4
  have hc1 : ∀ i : Fin N, (coefRow .V (fun _ => z) i).toVI = some (1, 1, z⁻¹, -z⁻¹) := by
    intro i
    simp [coefRow, coef, WaveType.str, hz]
  have hc2 : ∀ i : Fin N, (coefRow .V (fun _ => (0:ℂ)) i).toAB = some (1/2, 0, 1/2, 0) := by
    intro i
    simp [coefRow, coef, WaveType.str]
  rw [conv1_eq hc1 hc2]
  have e : mA (fun _ => (1, 1, z⁻¹, -z⁻¹)) (fun _ => (1/2, 0, 1/2, 0)) S = (1/2 : ℂ) • (1 + S) := by
    apply mulVec_ext; intro a; ext i
    rw [mulVec_mA]; simp [Matrix.smul_mulVec, Matrix.add_mulVec]; ring
  have e' : mB (fun _ => (1, 1, z⁻¹, -z⁻¹)) (fun _ => (1/2, 0, 1/2, 0)) S = (1/2 : ℂ) • (1 + S) := by
    apply mulVec_ext; intro a; ext i
    rw [mulVec_mB]; simp [Matrix.smul_mulVec, Matrix.add_mulVec]; ring
  rw [e, e']
  have hdet : ((1/2 : ℂ) • (1 + S)).det ≠ 0 := by
    rw [Matrix.det_smul]; exact mul_ne_zero (by simp) hS
  obtain ⟨W, hW⟩ := npInv_ok_iff.2 hdet
  rw [hW]
  simp only [Except.map, npInv_eq_ok.1 hW]

/-! ## C07 -/

private theorem lift_prop (t1 t2 : WaveType) (hS : Denotes S1 N l) (hl : l ≠ []) (hd : S1.ndim ≠ 1 ∨ l.length = 1)
    (h1 : ZDenotes Z1 l.length N tab1) (h2 : ZDenotes Z2 l.length N tab2)
    (P : Matrix (Fin N) (Fin N) ℂ → Prop)
    (hP : ∀ S S' z1 z2, z1 ∈ tab1 → z2 ∈ tab2 → conv1 (coefRow t1 z1) (coefRow t2 z2) S = .ok S' → P S → P S')
    (hp : ∀ S ∈ l, P S) (h : convertGeneral Z2 S1 Z1 t1.str t2.str = .ok S2) :
    ∃ l', Denotes S2 N l' ∧ l'.length = l.length ∧ ∀ S' ∈ l', P S' := by
  obtain ⟨l', a, b, c, d⟩ := (convertGeneral_ok_iff t1 t2 hS hl hd h1 h2).1 h
  refine ⟨l', a, c, fun S' hS' => ?_⟩
  obtain ⟨k, hk, rfl⟩ := List.getElem_of_mem hS'
  have k0 : k < l.length := by omega
  have k1 : k < tab1.length := by rw [zDenotes_length h1]; exact k0
  have k2 : k < tab2.length := by rw [zDenotes_length h2]; exact k0
  exact hP l[k] _ tab1[k] tab2[k] (List.getElem_mem k1) (List.getElem_mem k2)
    (d k _ _ _ _ (List.getElem?_eq_getElem k0) (List.getElem?_eq_getElem hk) (List.getElem?_eq_getElem k1)
      (List.getElem?_eq_getElem k2)) (hp _ (List.getElem_mem k0))

private theorem power_conv (t1 t2 : WaveType) {z1 z2 : Fin N → ℂ} {S S' : Matrix (Fin N) (Fin N) ℂ}
    (hz1 : ∀ i, PowerRef t1 (z1 i)) (hz2 : ∀ i, PowerRef t2 (z2 i))
    (h : conv1 (coefRow t1 z1) (coefRow t2 z2) S = .ok S') (a2 : Fin N → ℂ) :
    ∃ a1, power a2 - power (S'.mulVec a2) = power a1 - power (S.mulVec a1) := by
  obtain ⟨a1, V, I, hw1, hw2⟩ := conv1_wave (fun i => (hz2 i).admissible) h a2
  exact ⟨a1, (total_power hz2 hw2).trans (total_power hz1 hw1).symm⟩

/-- **C07** Losslessness is preserved between power-normalised references. -/
theorem C07_lossless (t1 t2 : WaveType) (hS : Denotes S1 N l) (hl : l ≠ []) (hd : S1.ndim ≠ 1 ∨ l.length = 1)
    (h1 : ZDenotes Z1 l.length N tab1) (h2 : ZDenotes Z2 l.length N tab2)
    (hz1 : ∀ row ∈ tab1, ∀ i, PowerRef t1 (row i)) (hz2 : ∀ row ∈ tab2, ∀ i, PowerRef t2 (row i))
    (hp : ∀ S ∈ l, Lossless S) (h : convertGeneral Z2 S1 Z1 t1.str t2.str = .ok S2) :
    ∃ l', Denotes S2 N l' ∧ l'.length = l.length ∧ ∀ S' ∈ l', Lossless S' := by
  refine lift_prop t1 t2 hS hl hd h1 h2 Lossless ?_ hp h
  intro S S' z1 z2 m1 m2 hc hlo a2
  obtain ⟨a1, h⟩ := power_conv t1 t2 (hz1 z1 m1) (hz2 z2 m2) hc a2
  have := hlo a1
  linarith

/-- **C07** Passivity is preserved between power-normalised references. -/
theorem C07_passive (t1 t2 : WaveType) (hS : Denotes S1 N l) (hl : l ≠ []) (hd : S1.ndim ≠ 1 ∨ l.length = 1)
    (h1 : ZDenotes Z1 l.length N tab1) (h2 : ZDenotes Z2 l.length N tab2)
    (hz1 : ∀ row ∈ tab1, ∀ i, PowerRef t1 (row i)) (hz2 : ∀ row ∈ tab2, ∀ i, PowerRef t2 (row i))
    (hp : ∀ S ∈ l, Passive S) (h : convertGeneral Z2 S1 Z1 t1.str t2.str = .ok S2) :
    ∃ l', Denotes S2 N l' ∧ l'.length = l.length ∧ ∀ S' ∈ l', Passive S' := by
  refine lift_prop t1 t2 hS hl hd h1 h2 Passive ?_ hp h
  intro S S' z1 z2 m1 m2 hc hlo a2
  obtain ⟨a1, h⟩ := power_conv t1 t2 (hz1 z1 m1) (hz2 z2 m2) hc a2
  have := hlo a1
  linarith

/-- References between which symmetry of S means reciprocity: P and G on any admissible impedances, V when all the
ports have the same impedance. -/
def RecipRef (t : WaveType) (z : Fin N → ℂ) : Prop :=
  (∀ i, t.Admissible (z i)) ∧ (t = .V → ∀ i j, z i = z j)

/-- **C07** Reciprocity (symmetry) is preserved between such references. -/
theorem C07_reciprocal (t1 t2 : WaveType) (hS : Denotes S1 N l) (hl : l ≠ []) (hd : S1.ndim ≠ 1 ∨ l.length = 1)
    (h1 : ZDenotes Z1 l.length N tab1) (h2 : ZDenotes Z2 l.length N tab2)
    (hz1 : ∀ row ∈ tab1, RecipRef t1 row) (hz2 : ∀ row ∈ tab2, RecipRef t2 row)
    (hp : ∀ S ∈ l, Reciprocal S) (h : convertGeneral Z2 S1 Z1 t1.str t2.str = .ok S2) :
    ∃ l', Denotes S2 N l' ∧ l'.length = l.length ∧ ∀ S' ∈ l', Reciprocal S' := by
  refine lift_prop t1 t2 hS hl hd h1 h2 Reciprocal ?_ hp h
  intro S S' z1 z2 m1 m2 hc hre
  rw [reciprocal_iff] at hre ⊢
  intro a2 a2'
  obtain ⟨a1, V, I, hw1, hw2⟩ := conv1_wave (hz2 z2 m2).1 hc a2
  obtain ⟨a1', V', I', hw1', hw2'⟩ := conv1_wave (hz2 z2 m2).1 hc a2'
  -- common factor of a reference
  have fac : ∀ (t : WaveType) (z : Fin N → ℂ), RecipRef t z → ∃ c : ℂ, c ≠ 0 ∧
      ∀ i, 2 * (if t = .V then (z i)⁻¹ else 1) = c := by
    intro t z hr
    by_cases ht : t = .V
    · rcases Nat.eq_zero_or_pos N with h0 | h0
      · subst h0; exact ⟨1, one_ne_zero, fun i => i.elim0⟩
      · refine ⟨2 * (z ⟨0, h0⟩)⁻¹, ?_, fun i => by rw [if_pos ht, hr.2 ht i ⟨0, h0⟩]⟩
        have := hr.1 ⟨0, h0⟩
        rw [ht] at this
        exact mul_ne_zero two_ne_zero (inv_ne_zero this)
    · exact ⟨2, two_ne_zero, fun i => by simp [ht]⟩
  obtain ⟨c1, hc1, f1⟩ := fac t1 z1 (hz1 z1 m1)
  obtain ⟨c2, hc2, f2⟩ := fac t2 z2 (hz2 z2 m2)
  have s1 : ∑ i, (V i * I' i - V' i * I i) = c1 * ∑ i, (S.mulVec a1 i * a1' i - a1 i * S.mulVec a1' i) := by
    rw [Finset.mul_sum]
    refine Finset.sum_congr rfl fun i _ => ?_
    rw [wave_recip ((hz1 z1 m1).1 i) (hw1 i) (hw1' i), ← f1 i]; ring
  have s2 : ∑ i, (V i * I' i - V' i * I i) = c2 * ∑ i, (S'.mulVec a2 i * a2' i - a2 i * S'.mulVec a2' i) := by
    rw [Finset.mul_sum]
    refine Finset.sum_congr rfl fun i _ => ?_
    rw [wave_recip ((hz2 z2 m2).1 i) (hw2 i) (hw2' i), ← f2 i]; ring
  rw [s1, hre, mul_zero] at s2
  exact (mul_eq_zero.1 s2.symm).resolve_left hc2

/-- **C07** (limit of the claim) Between V references with unequal port impedances symmetry is not preserved: a
symmetric 2-port on (1, 1) Ohm becomes non-symmetric on (1, 3) Ohm. -/
theorem C07_V_unequal_not_reciprocal :
    ∃ (S S' : Matrix (Fin 2) (Fin 2) ℂ), Reciprocal S ∧ ¬ Reciprocal S' ∧
      convertGeneral (.d1 [1, 3]) (.d2 2 2 S) (.d0 1) "V" "V" = .ok (.d2 2 2 S') := by
  refine ⟨!![0, 1; 1, 0], !![1/2, 1/2; 3/2, -1/2], ?_, ?_, ?_⟩
  · ext i j; fin_cases i <;> fin_cases j <;> rfl
  · intro h; have := congrFun (congrFun h 0) 1; simp [Matrix.transpose_apply] at this; norm_num at this
  · have := convertGeneral_ok_iff .V .V (S2 := .d2 2 2 !![1/2, 1/2; 3/2, -1/2])
      (.matrix 2 !![0, 1; 1, 0]) (by simp) (by simp [ND.ndim])
      (ZDenotes.scalar 1 1 2) (Z2 := .d1 [1, 3]) (tab2 := [![1, 3]]) (by
        have := ZDenotes.perPort (![1, 3] : Fin 2 → ℂ) 1
        simpa using this)
    refine this.2 ⟨[_], .matrix 2 _, rfl, rfl, ?_⟩
    rintro (_ | k) T T' z1 z2 e1 e2 e3 e4
    swap
    · simp at e1
    simp at e1 e2 e3 e4
    subst e1 e2 e3 e4
    have hc1 : ∀ i : Fin 2, (coefRow .V (fun _ => (1:ℂ)) i).toVI = some (1, 1, 1, -1) := by
      intro i
      simp [coefRow, coef, WaveType.str]
    have hc2 : ∀ i : Fin 2, (coefRow .V (![1, 3] : Fin 2 → ℂ) i).toAB =
        some (1/2, (![1, 3] : Fin 2 → ℂ) i / 2, 1/2, -(![1, 3] : Fin 2 → ℂ) i / 2) := by
      intro i
      simp [coefRow, coef, WaveType.str]
    rw [conv1_eq hc1 hc2]
    have hA : mA (fun _ : Fin 2 => ((1:ℂ), (1:ℂ), (1:ℂ), (-1:ℂ)))
        (fun i => (1/2, (![1, 3] : Fin 2 → ℂ) i / 2, 1/2, -(![1, 3] : Fin 2 → ℂ) i / 2)) !![0, 1; 1, 0]
        = !![1, 0; -1, 2] := by
      ext i j; fin_cases i <;> fin_cases j <;>
        simp [mA, mV, mI, Matrix.mul_apply, Matrix.diagonal] <;> norm_num
    have hB : mB (fun _ : Fin 2 => ((1:ℂ), (1:ℂ), (1:ℂ), (-1:ℂ)))
        (fun i => (1/2, (![1, 3] : Fin 2 → ℂ) i / 2, 1/2, -(![1, 3] : Fin 2 → ℂ) i / 2)) !![0, 1; 1, 0]
        = !![0, 1; 2, -1] := by
      ext i j; fin_cases i <;> fin_cases j <;>
        simp [mB, mV, mI, Matrix.mul_apply, Matrix.diagonal] <;> norm_num
    rw [hA, hB, npInv_of_mul_eq_one (B := !![1, 0; 1/2, 1/2])]
    · simp only [Except.map, Except.ok.injEq]
      ext i j; fin_cases i <;> fin_cases j <;> simp [Matrix.mul_apply, Fin.sum_univ_two] <;> norm_num
    · ext i j; fin_cases i <;> fin_cases j <;> simp [Matrix.mul_apply, Fin.sum_univ_two]

/-! ## C08 -/

/-- **C08** The number of dimensions of the result is that of S1, and (except for 1-D arguments) so is the shape. -/
theorem C08_shape (t1 t2 : WaveType) (hS : Denotes S1 N l) (hl : l ≠ [])
    (h1 : ZDenotes Z1 l.length N tab1) (h2 : ZDenotes Z2 l.length N tab2) (hd : S1.ndim ≠ 1 ∨ l.length = 1)
    (h : convertGeneral Z2 S1 Z1 t1.str t2.str = .ok S2) :
    ∃ l', Denotes S2 N l' ∧ S2.ndim = S1.ndim ∧ l'.length = l.length := by
  obtain ⟨l', a, b, c, -⟩ := (convertGeneral_ok_iff t1 t2 hS hl hd h1 h2).1 h
  exact ⟨l', a, b, c⟩

/-- **C08** (violated for 1-D arguments) Whatever the length of a 1-D argument, a result has one entry. -/
theorem C08_vector_truncated (xs : List ℂ) (Z1 Z2 : ND ℂ) (s1 s2 : String) (S2 : ND ℂ)
    (h : convertGeneral Z2 (.d1 xs) Z1 s1 s2 = .ok S2) : ∃ y, S2 = .d1 [y] := by
  unfold convertGeneral at h
  simp only [check3D] at h
  split at h
  · cases h
  split at h
  · cases h
  split at h
  · cases h
  rename_i l' _
  cases l' with
  | nil => simp [convUnstack] at h
  | cons A t => simp [convUnstack, entry00, Except.map] at h; exact ⟨_, h.symm⟩

/-- non-vacuity of the truncation: a two-entry vector does convert, to one entry -/
theorem C08_vector_truncated_witness :
    convertGeneral (.d0 1) (.d1 [0, 1/2]) (.d0 1) "V" "V" = .ok (.d1 [0]) := by
  have h1 := ZDenotes.scalar 1 2 1
  have hl : convLoop ((List.replicate 2 (fun _ : Fin 1 => (1:ℂ))).map (coefRow .V))
      ((List.replicate 2 (fun _ : Fin 1 => (1:ℂ))).map (coefRow .V))
      [one1 (0:ℂ), one1 (1/2)] = .ok [one1 0, one1 (1/2)] := by
    rw [convLoop_ok_iff .V .V (by simp) (by simp)]
    refine ⟨rfl, ?_⟩
    intro k S S' z1 z2 e1 e2 e3 e4
    rw [e1] at e2; rw [e3] at e4
    injection e2 with e2; injection e4 with e4
    subst e2 e4
    refine conv1_self ?_
    have := List.mem_of_getElem? e3
    simp at this
    rw [this]
    intro i; simp [WaveType.Admissible]
  have e1 := coeffs_eq .V h1
  simp only [WaveType.str] at e1
  unfold convertGeneral
  simp only [check3D, List.map, List.length_cons, List.length_nil, zero_add, Nat.reduceAdd, e1]
  simp only [List.map_replicate] at hl
  simp only [List.replicate, List.map] at hl ⊢
  rw [hl]
  simp [convUnstack, entry00, Except.map, one1]

/-- **C08** A port-impedance argument is accepted exactly when it is a scalar, a vector with one value per port or a
(frequency, port) table: otherwise the call raises, whatever the types and the rest. -/
theorem C08_impedance_shape (hS : Denotes S1 N l) (s1 s2 : String)
    (h : ¬ ((∃ tab1 : List (Fin N → ℂ), ZDenotes Z1 l.length N tab1) ∧
            (∃ tab2 : List (Fin N → ℂ), ZDenotes Z2 l.length N tab2))) :
    ∃ e, convertGeneral Z2 S1 Z1 s1 s2 = .error e ∧ (e = .valueError ∨ e = .typeError) := by
  have zerr : ∀ Z : ND ℂ, (¬ ∃ tab : List (Fin N → ℂ), ZDenotes Z l.length N tab) →
      ∃ e, zTable l.length N Z = .error e ∧ (e = .valueError ∨ e = .typeError) := by
    intro Z hZ
    cases hz : zTable l.length N Z with
    | ok tab => exact absurd ⟨tab, zTable_ok_iff.1 hz⟩ hZ
    | error e =>
      refine ⟨e, rfl, ?_⟩
      cases Z <;> simp only [zTable] at hz
      · cases hz
      · split at hz <;> cases hz; simp
      · split at hz <;> cases hz; simp
      · cases hz; simp
      · cases hz; simp
  have cerr : ∀ (Z : ND ℂ) (s : String), (∃ c, coeffs l.length N Z s = .ok c) ∨
      ∃ e, coeffs l.length N Z s = .error e ∧ (e = .valueError ∨ e = .typeError) := by
    intro Z s
    unfold coeffs
    by_cases hZ : ∃ tab : List (Fin N → ℂ), ZDenotes Z l.length N tab
    · obtain ⟨tab, ht⟩ := hZ
      rw [zTable_ok_iff.2 ht]
      simp only
      cases hc : coef s 0 with
      | ok c => left; exact ⟨_, rfl⟩
      | error e =>
        right; refine ⟨e, rfl, ?_⟩
        unfold coef at hc
        split at hc <;> [cases hc; skip]
        split at hc <;> [cases hc; skip]
        split at hc <;> cases hc
        simp
    · obtain ⟨e, he, h⟩ := zerr Z hZ
      right; exact ⟨e, by rw [he], h⟩
  unfold convertGeneral
  rw [check3D_of_denotes hS]
  simp only
  rcases cerr Z1 s1 with ⟨c1, hc1⟩ | ⟨e, he, h'⟩
  swap
  · rw [he]; exact ⟨e, rfl, h'⟩
  rw [hc1]
  rcases cerr Z2 s2 with ⟨c2, hc2⟩ | ⟨e, he, h'⟩
  swap
  · simp only [he]; exact ⟨e, rfl, h'⟩
  exfalso
  apply h
  have ex : ∀ Z s c, coeffs l.length N Z s = .ok c → ∃ tab : List (Fin N → ℂ), ZDenotes Z l.length N tab := by
    intro Z s c hc
    unfold coeffs at hc
    cases hz : zTable l.length N Z with
    | ok tab => exact ⟨tab, zTable_ok_iff.1 hz⟩
    | error e => rw [hz] at hc; cases hc
  exact ⟨ex _ _ _ hc1, ex _ _ _ hc2⟩

/-- **C08** An unknown wave type is refused with ValueError (for accepted arrays). -/
theorem C08_unknown_type (hS : Denotes S1 N l) (h1 : ZDenotes Z1 l.length N tab1) (h2 : ZDenotes Z2 l.length N tab2)
    (s1 s2 : String) (hbad : (∀ t : WaveType, s1 ≠ t.str) ∨ ((∃ t : WaveType, s1 = t.str) ∧ ∀ t : WaveType, s2 ≠ t.str)) :
    convertGeneral Z2 S1 Z1 s1 s2 = .error .valueError := by
  have bad : ∀ (Z : ND ℂ) (tab : List (Fin N → ℂ)) (s : String), ZDenotes Z l.length N tab → (∀ t : WaveType, s ≠ t.str) →
      coeffs l.length N Z s = .error .valueError := by
    intro Z tab s hZ hs
    have hV := hs .V; have hG := hs .G; have hP := hs .P
    simp only [WaveType.str] at hV hG hP
    simp [coeffs, zTable_ok_iff.2 hZ, coef, hV, hG, hP]
  unfold convertGeneral
  rw [check3D_of_denotes hS]
  simp only
  rcases hbad with hs | ⟨⟨t, rfl⟩, hs⟩
  · rw [bad _ _ _ h1 hs]
  · rw [coeffs_eq t h1]; simp only [bad _ _ _ h2 hs]

/-- non-vacuity for C05–C07: a lossless reciprocal two-port (a through) with P references (50,50) → (25,100) meets all
hypotheses -/
example : Denotes (.d2 2 2 !![0, 1; 1, 0] : ND ℂ) 2 [!![0, 1; 1, 0]] ∧
    Lossless (!![0, 1; 1, 0] : Matrix (Fin 2) (Fin 2) ℂ) ∧ Reciprocal (!![0, 1; 1, 0] : Matrix (Fin 2) (Fin 2) ℂ) ∧
    ZDenotes (.d1 [25, 100]) 1 2 [![25, 100]] ∧ (∀ i, PowerRef .P ((![25, 100] : Fin 2 → ℂ) i)) ∧
    RecipRef .P (![25, 100] : Fin 2 → ℂ) ∧
    ∃ S2, convertGeneral (.d1 [25, 100]) (.d2 2 2 !![0, 1; 1, 0]) (.d0 50) "P" "P" = .ok S2 := by
  have hZ : ZDenotes (.d1 [25, 100]) 1 2 [![25, 100]] := by
    have := ZDenotes.perPort (![25, 100] : Fin 2 → ℂ) 1
    simpa using this
  have hlo : Lossless (!![0, 1; 1, 0] : Matrix (Fin 2) (Fin 2) ℂ) := by
    intro a
    simp [power, Matrix.mulVec, dotProduct, Fin.sum_univ_two, add_comm]
  have hp : ∀ i, PowerRef .P ((![25, 100] : Fin 2 → ℂ) i) := by
    intro i; fin_cases i <;> simp [PowerRef]
  refine ⟨.matrix _ _, hlo, ?_, hZ, hp, ⟨fun i => (hp i).admissible, by simp⟩, ?_⟩
  · ext i j; fin_cases i <;> fin_cases j <;> rfl
  · refine C05_total_on_passive .P .P (.matrix 2 _) (by simp) (ZDenotes.scalar 50 1 2) hZ ?_ ?_ ?_
    · intro row hr i; simp at hr; subst hr; simp [PowerRef]
    · intro row hr i; simp at hr; subst hr; exact hp i
    · intro S hS a; simp at hS; subst hS; exact (hlo a).le

end PyRFtk
