import Verif.ConvGenLemmas
import Mathlib.LinearAlgebra.Matrix.DotProduct

namespace PyRFtk

theorem zTable_ok_iff {F N : ℕ} {Z : ND ℂ} {tab : List (Fin N → ℂ)} :
    zTable F N Z = .ok tab ↔ ZDenotes Z F N tab := by
  constructor
  · intro h
    cases Z with
    | d0 z => simp [zTable] at h; subst h; exact .scalar z F N
    | d1 zs =>
      by_cases hz : zs.length = N
      · subst hz
        simp [zTable] at h
        subst h
        have h := ZDenotes.perPort (fun i => zs.get i) F
        rw [List.ofFn_get] at h
        exact h
      · simp [zTable, hz] at h
    | d2 m n Z =>
      by_cases hz : m = F ∧ n = N
      · obtain ⟨rfl, rfl⟩ := hz
        simp [zTable] at h
        subst h
        have h := ZDenotes.table Z
        rw [List.ofFn_eq_map] at h
        exact h
      · simp [zTable, hz] at h
    | d3 => simp [zTable] at h
    | dn => simp [zTable] at h
  · intro h
    cases h with
    | scalar z => rfl
    | perPort z F =>
      simp [zTable]
    | table Z =>
      simp [zTable, List.ofFn_eq_map]

theorem zDenotes_length {F N : ℕ} {Z : ND ℂ} {tab : List (Fin N → ℂ)} (h : ZDenotes Z F N tab) : tab.length = F := by
  cases h <;> simp

/-- the coefficient row `coeffs` computes for a row of impedances -/
noncomputable def coefRow (t : WaveType) {N : ℕ} (z : Fin N → ℂ) : Fin N → Coef := fun i =>
  match coef t.str (z i) with | .ok c => c | .error _ => ⟨none, none⟩

theorem coefRow_spec (t : WaveType) {N : ℕ} (z : Fin N → ℂ) (i : Fin N) : coef t.str (z i) = .ok (coefRow t z i) := by
  obtain ⟨c, hc⟩ := coef_ok t (z i)
  simp [coefRow, hc]

theorem coeffs_eq (t : WaveType) {F N : ℕ} {Z : ND ℂ} {tab : List (Fin N → ℂ)} (h : ZDenotes Z F N tab) :
    coeffs F N Z t.str = .ok (tab.map (coefRow t)) := by
  unfold coeffs
  rw [zTable_ok_iff.2 h]
  obtain ⟨c, hc⟩ := coef_ok t 0
  simp only [hc]
  congr 1
  apply List.map_congr_left
  intro z _
  funext i
  obtain ⟨c', hc'⟩ := coef_ok t (z i)
  simp [coefRow, hc']

theorem convLoop_ok_iff (t1 t2 : WaveType) {N : ℕ} {tab1 tab2 : List (Fin N → ℂ)}
    {l l' : List (Matrix (Fin N) (Fin N) ℂ)} (h1 : tab1.length = l.length) (h2 : tab2.length = l.length) :
    convLoop (tab1.map (coefRow t1)) (tab2.map (coefRow t2)) l = .ok l' ↔
      l'.length = l.length ∧ ∀ (k : ℕ) (S S' : Matrix (Fin N) (Fin N) ℂ) (z1 z2 : Fin N → ℂ), l[k]? = some S → l'[k]? = some S' → tab1[k]? = some z1 → tab2[k]? = some z2 →
        conv1 (coefRow t1 z1) (coefRow t2 z2) S = .ok S' := by
  unfold convLoop
  rw [mapE_eq_ok]
  induction l generalizing tab1 tab2 l' with
  | nil => cases l' <;> simp
  | cons S l ih =>
    obtain _ | ⟨z1, tab1⟩ := tab1
    · simp at h1
    obtain _ | ⟨z2, tab2⟩ := tab2
    · simp at h2
    cases l' with
    | nil => simp
    | cons S' l' =>
      simp only [List.map_cons, List.zip_cons_cons, List.forall₂_cons]
      rw [ih (by simpa using h1) (by simpa using h2)]
      constructor
      · rintro ⟨h, hl, hk⟩
        refine ⟨by simp [hl], ?_⟩
        rintro (_ | k) T T' y1 y2
        · simp only [List.getElem?_cons_zero, Option.some.injEq]
          rintro rfl rfl rfl rfl; exact h
        · simp only [List.getElem?_cons_succ]; exact hk k T T' y1 y2
      · rintro ⟨hl, hk⟩
        refine ⟨hk 0 _ _ _ _ rfl rfl rfl rfl, by simpa using hl, ?_⟩
        intro k T T' y1 y2 a b c d
        exact hk (k+1) T T' y1 y2 (by simpa using a) (by simpa using b) (by simpa using c) (by simpa using d)

theorem convUnstack_eq_unstack {K : Type*} (L N : ℕ) (l : List (Matrix (Fin N) (Fin N) K))
    (h : L ≠ 1 ∨ l.length = 1) : convUnstack L N l = unstack L N l := by
  cases l with
  | nil => rfl
  | cons A t =>
    unfold convUnstack unstack
    by_cases hL : L = 1
    · have ht : t = [] := by simpa [hL] using h
      subst ht
      simp only [hL, one_ne_zero, if_false, if_true, mapE]
      cases entry00 A <;> rfl
    · simp [hL]

/-- the success condition of ConvertGeneral, for stacks and single matrices -/
theorem convertGeneral_ok_iff (t1 t2 : WaveType) {N : ℕ} {l : List (Matrix (Fin N) (Fin N) ℂ)} {S1 S2 Z1 Z2 : ND ℂ}
    {tab1 tab2 : List (Fin N → ℂ)} (hS : Denotes S1 N l) (hl : l ≠ []) (hd : S1.ndim ≠ 1 ∨ l.length = 1)
    (h1 : ZDenotes Z1 l.length N tab1) (h2 : ZDenotes Z2 l.length N tab2) :
    convertGeneral Z2 S1 Z1 t1.str t2.str = .ok S2 ↔ ∃ l', Denotes S2 N l' ∧ S2.ndim = S1.ndim ∧ l'.length = l.length ∧
      ∀ (k : ℕ) (S S' : Matrix (Fin N) (Fin N) ℂ) (z1 z2 : Fin N → ℂ), l[k]? = some S → l'[k]? = some S' → tab1[k]? = some z1 → tab2[k]? = some z2 →
        conv1 (coefRow t1 z1) (coefRow t2 z2) S = .ok S' := by
  unfold convertGeneral
  simp only [check3D_of_denotes hS, coeffs_eq t1 h1, coeffs_eq t2 h2]
  have hl1 := zDenotes_length h1
  have hl2 := zDenotes_length h2
  cases hc : convLoop (tab1.map (coefRow t1)) (tab2.map (coefRow t2)) l with
  | error e =>
    simp only [reduceCtorEq, false_iff]
    rintro ⟨l', -, -, h⟩
    rw [(convLoop_ok_iff t1 t2 hl1 hl2).2 h] at hc; cases hc
  | ok l' =>
    have h := (convLoop_ok_iff t1 t2 hl1 hl2).1 hc
    simp only
    rw [convUnstack_eq_unstack _ _ _ (by rw [h.1]; exact hd), unstack_denotes hS hl h.1]
    constructor
    · rintro ⟨a, b⟩; exact ⟨l', a, b, h⟩
    · rintro ⟨l'', a, b, h'⟩
      rw [(convLoop_ok_iff t1 t2 hl1 hl2).2 h'] at hc
      injection hc with hc; subst hc; exact ⟨a, b⟩

/-- one conversion, in terms of finite coefficients -/
theorem conv1_ok (t1 t2 : WaveType) {N : ℕ} {z1 z2 : Fin N → ℂ} {S S' : Matrix (Fin N) (Fin N) ℂ}
    (hz2 : ∀ i, t2.Admissible (z2 i)) :
    conv1 (coefRow t1 z1) (coefRow t2 z2) S = .ok S' ↔
      (∀ i, t1.Admissible (z1 i)) ∧ ∀ vi1 ab1 vi2 ab2 : Fin N → ℂ × ℂ × ℂ × ℂ, (∀ i, coefRow t1 z1 i = ⟨some (vi1 i), some (ab1 i)⟩) →
      (∀ i, coefRow t2 z2 i = ⟨some (vi2 i), some (ab2 i)⟩) →
      ∃ W, mA vi1 ab2 S * W = 1 ∧ S' = mB vi1 ab2 S * W := by
  constructor
  · intro h
    have hz1 : ∀ i, t1.Admissible (z1 i) := by
      intro i
      refine admissible_of_toVI t1 (z1 i) (coefRow_spec t1 z1 i) ?_
      by_contra hn
      unfold conv1 at h
      rw [if_neg (fun hh => hn (hh.1 i))] at h
      cases h
    refine ⟨hz1, fun vi1 ab1 vi2 ab2 e1 e2 => ?_⟩
    rw [conv1_eq (vi := vi1) (ab := ab2) (fun i => by rw [e1 i]) (fun i => by rw [e2 i])] at h
    cases hW : npInv (mA vi1 ab2 S) with
    | error e => rw [hW] at h; cases h
    | ok W =>
      rw [hW] at h
      simp only [Except.map, Except.ok.injEq] at h
      exact ⟨W, npInv_eq_ok.1 hW, h.symm⟩
  · rintro ⟨hz1, h⟩
    obtain ⟨c1, vi1, ab1, e1, e1', -⟩ := coef_rows t1 z1 hz1
    obtain ⟨c2, vi2, ab2, e2, e2', -⟩ := coef_rows t2 z2 hz2
    have r1 : ∀ i, coefRow t1 z1 i = ⟨some (vi1 i), some (ab1 i)⟩ := by
      intro i; rw [← e1' i]; have := coefRow_spec t1 z1 i; rw [e1 i] at this; injection this with this; exact this.symm
    have r2 : ∀ i, coefRow t2 z2 i = ⟨some (vi2 i), some (ab2 i)⟩ := by
      intro i; rw [← e2' i]; have := coefRow_spec t2 z2 i; rw [e2 i] at this; injection this with this; exact this.symm
    obtain ⟨W, hW, rfl⟩ := h vi1 ab1 vi2 ab2 r1 r2
    rw [conv1_eq (vi := vi1) (ab := ab2) (fun i => by rw [r1 i]) (fun i => by rw [r2 i]), npInv_of_mul_eq_one hW]
    rfl

theorem coefRow_good (t : WaveType) {N : ℕ} {z : Fin N → ℂ} (hz : ∀ i, t.Admissible (z i)) :
    ∃ vi ab : Fin N → ℂ × ℂ × ℂ × ℂ, (∀ i, coefRow t z i = ⟨some (vi i), some (ab i)⟩) ∧ ∀ i, IsCoef t (z i) (vi i) (ab i) := by
  obtain ⟨c1, vi1, ab1, e1, e1', h⟩ := coef_rows t z hz
  refine ⟨vi1, ab1, ?_, h⟩
  intro i; rw [← e1' i]; have := coefRow_spec t z i; rw [e1 i] at this; injection this with this; exact this.symm

section
variable {N : ℕ} {t1 t2 t3 : WaveType} {z1 z2 z3 : Fin N → ℂ} {S S' S'' : Matrix (Fin N) (Fin N) ℂ}

theorem conv1_allowed (hz2 : ∀ i, t2.Admissible (z2 i))
    (h : conv1 (coefRow t1 z1) (coefRow t2 z2) S = .ok S') (V I : Fin N → ℂ) :
    Allowed t1 z1 S V I ↔ Allowed t2 z2 S' V I := by
  obtain ⟨hz1, h⟩ := (conv1_ok t1 t2 hz2).1 h
  obtain ⟨vi1, ab1, e1, g1⟩ := coefRow_good t1 hz1
  obtain ⟨vi2, ab2, e2, g2⟩ := coefRow_good t2 hz2
  obtain ⟨W, hW, hS⟩ := h vi1 ab1 vi2 ab2 e1 e2
  exact conv_allowed g1 g2 hW hS V I

theorem conv1_self (hz : ∀ i, t1.Admissible (z1 i)) : conv1 (coefRow t1 z1) (coefRow t1 z1) S = .ok S := by
  rw [conv1_ok t1 t1 hz]
  refine ⟨hz, fun vi1 ab1 vi2 ab2 e1 e2 => ?_⟩
  obtain ⟨vi, ab, e, g⟩ := coefRow_good t1 hz
  have hvi : vi1 = vi := by funext i; have := (e1 i).symm.trans (e i); simp at this; exact this.1
  have hab : ab2 = ab := by funext i; have := (e2 i).symm.trans (e i); simp at this; exact this.2
  subst hvi hab
  have hA := mA_self g S
  refine ⟨1, by rw [hA, Matrix.mul_one], ?_⟩
  exact allowed_unique g (fun V I => conv_allowed g g (W := 1) (by rw [hA, Matrix.mul_one]) rfl V I)

theorem conv1_trans (hz2 : ∀ i, t2.Admissible (z2 i)) (hz3 : ∀ i, t3.Admissible (z3 i))
    (h : conv1 (coefRow t1 z1) (coefRow t2 z2) S = .ok S')
    (h' : conv1 (coefRow t2 z2) (coefRow t3 z3) S' = .ok S'') :
    conv1 (coefRow t1 z1) (coefRow t3 z3) S = .ok S'' := by
  obtain ⟨hz1, k⟩ := (conv1_ok t1 t2 hz2).1 h
  obtain ⟨-, k'⟩ := (conv1_ok t2 t3 hz3).1 h'
  obtain ⟨vi1, ab1, e1, g1⟩ := coefRow_good t1 hz1
  obtain ⟨vi2, ab2, e2, g2⟩ := coefRow_good t2 hz2
  obtain ⟨vi3, ab3, e3, g3⟩ := coefRow_good t3 hz3
  obtain ⟨W, hW, hS⟩ := k vi1 ab1 vi2 ab2 e1 e2
  obtain ⟨W', hW', hS'⟩ := k' vi2 ab2 vi3 ab3 e2 e3
  have hc := mA_comp (ab3 := ab3) g2 hW hS
  have hinv : mA vi1 ab3 S * (W * W') = 1 := by
    rw [hc, Matrix.mul_assoc, ← Matrix.mul_assoc _ W, hW, Matrix.one_mul, hW']
  have e : conv1 (coefRow t1 z1) (coefRow t3 z3) S = .ok (mB vi1 ab3 S * (W * W')) := by
    rw [conv1_eq (vi := vi1) (ab := ab3) (fun i => by rw [e1 i]) (fun i => by rw [e3 i]), npInv_of_mul_eq_one hinv]
    rfl
  rw [e]
  congr 1
  apply allowed_unique g3
  intro V I
  rw [← conv1_allowed hz3 e, conv1_allowed hz2 h, conv1_allowed hz3 h']

theorem conv1_symm (hz2 : ∀ i, t2.Admissible (z2 i))
    (h : conv1 (coefRow t1 z1) (coefRow t2 z2) S = .ok S') :
    conv1 (coefRow t2 z2) (coefRow t1 z1) S' = .ok S := by
  obtain ⟨hz1, k⟩ := (conv1_ok t1 t2 hz2).1 h
  obtain ⟨vi1, ab1, e1, g1⟩ := coefRow_good t1 hz1
  obtain ⟨vi2, ab2, e2, g2⟩ := coefRow_good t2 hz2
  obtain ⟨W, hW, hS⟩ := k vi1 ab1 vi2 ab2 e1 e2
  have hc := mA_comp (ab3 := ab1) g2 hW hS
  rw [mA_self g1] at hc
  have e : conv1 (coefRow t2 z2) (coefRow t1 z1) S' = .ok (mB vi2 ab1 S' * mA vi1 ab2 S) := by
    rw [conv1_eq (vi := vi2) (ab := ab1) (fun i => by rw [e2 i]) (fun i => by rw [e1 i]),
      npInv_of_mul_eq_one hc.symm]
    rfl
  rw [e]
  congr 1
  apply allowed_unique g1
  intro V I
  rw [← conv1_allowed hz1 e, ← conv1_allowed hz2 h]

/-- every incoming wave of the new definition occurs -/
theorem conv1_wave (hz2 : ∀ i, t2.Admissible (z2 i))
    (h : conv1 (coefRow t1 z1) (coefRow t2 z2) S = .ok S') (a2 : Fin N → ℂ) :
    ∃ a1 V I : Fin N → ℂ, (∀ i, Waves t1 (z1 i) (V i) (I i) (a1 i) (S.mulVec a1 i)) ∧
      ∀ i, Waves t2 (z2 i) (V i) (I i) (a2 i) (S'.mulVec a2 i) := by
  obtain ⟨hz1, k⟩ := (conv1_ok t1 t2 hz2).1 h
  obtain ⟨vi2, ab2, e2, g2⟩ := coefRow_good t2 hz2
  obtain ⟨V, I, hw⟩ := waves_exist g2 a2 (S'.mulVec a2)
  obtain ⟨a1, b1, hw1, rfl⟩ := (conv1_allowed hz2 h V I).2 ⟨a2, _, hw, rfl⟩
  exact ⟨a1, V, I, hw1, hw⟩
end

/-- power identity of the power-normalised definitions -/
theorem wave_power {t : WaveType} {z V I a b : ℂ} (hz : PowerRef t z) (h : Waves t z V I a b) :
    ‖a‖ ^ 2 - ‖b‖ ^ 2 = (V * starRingEnd ℂ I).re := by
  obtain ⟨r, hr, rfl, rfl⟩ := h
  have hzp : 0 < z.re := by cases t <;> simp [PowerRef] at hz <;> [exact hz.1; exact hz]
  have hr2 : ‖r‖ ^ 2 = z.re := by
    cases t with
    | V => exact absurd hz (by simp [PowerRef])
    | P =>
      have : ‖r ^ 2‖ = ‖z‖ := by rw [hr.1]
      rw [norm_pow] at this
      rw [this]
      have hzr : z = (z.re : ℂ) := Complex.ext rfl (by simp [hz.2])
      rw [hzr, Complex.norm_real, Real.norm_of_nonneg]
      · simp
      · simpa using hz.1.le
    | G =>
      have : ‖r ^ 2‖ = ‖(z.re : ℂ)‖ := by rw [hr.1]
      rw [norm_pow] at this
      rw [this, Complex.norm_real, Real.norm_of_nonneg hzp.le]
  have hzc : (if t = .G then starRingEnd ℂ z else z) = starRingEnd ℂ z := by
    cases t with
    | V => exact absurd hz (by simp [PowerRef])
    | G => simp
    | P => simp only [reduceCtorEq, if_false]; apply Complex.ext <;> simp [hz.2]
  rw [hzc]
  have hn : ∀ w : ℂ, ‖w / (2 * r)‖ ^ 2 = Complex.normSq w / (4 * z.re) := by
    intro w
    rw [norm_div, norm_mul, div_pow, mul_pow, hr2, ← Complex.normSq_eq_norm_sq]; norm_num
  rw [hn, hn, ← sub_div, div_eq_iff (by positivity)]
  simp only [Complex.normSq_apply, Complex.add_re, Complex.sub_re, Complex.mul_re, Complex.add_im, Complex.sub_im,
    Complex.mul_im, Complex.conj_re, Complex.conj_im]
  ring

/-- power of a source -/
theorem total_power {N : ℕ} {t : WaveType} {z V I a b : Fin N → ℂ} (hz : ∀ i, PowerRef t (z i))
    (h : ∀ i, Waves t (z i) (V i) (I i) (a i) (b i)) :
    power a - power b = ∑ i, (V i * starRingEnd ℂ (I i)).re := by
  unfold power
  rw [← Finset.sum_sub_distrib]
  exact Finset.sum_congr rfl fun i _ => wave_power (hz i) (h i)

theorem PowerRef.admissible {t : WaveType} {z : ℂ} (h : PowerRef t z) : t.Admissible z := by
  cases t with
  | V => exact absurd h (by simp [PowerRef])
  | P => intro h0; simp [h0, PowerRef] at h
  | G => exact h

/-- the reciprocity form of a wave definition -/
theorem wave_recip {t : WaveType} {z V I a b V' I' a' b' : ℂ} (ha : t.Admissible z) (h : Waves t z V I a b)
    (h' : Waves t z V' I' a' b') :
    V * I' - V' * I = 2 * (b * a' - a * b') * (if t = .V then z⁻¹ else 1) := by
  obtain ⟨r, hr, rfl, rfl⟩ := h
  obtain ⟨r', hr', rfl, rfl⟩ := h'
  obtain ⟨r0, hr0, hu⟩ := norm2_exists t z ha
  rw [hu] at hr hr'
  subst hr hr'
  have hrr := (hu r').2 rfl
  cases t with
  | V =>
    simp only [norm2] at hrr; subst hrr
    simp only [WaveType.Admissible] at ha
    simp
    field_simp
    ring
  | P =>
    simp only [reduceCtorEq, if_false]
    have := hrr.1
    field_simp
    linear_combination (V * I' - V' * I) * this * 2
  | G =>
    have := hrr.1
    have hc := two_re z
    simp only [if_true, reduceCtorEq, if_false]
    field_simp
    linear_combination (V * I' - V' * I) * 2 * this + (V' * I - V * I') * hc

theorem reciprocal_iff {N : ℕ} (S : Matrix (Fin N) (Fin N) ℂ) :
    Reciprocal S ↔ ∀ a a' : Fin N → ℂ, ∑ i, (S.mulVec a i * a' i - a i * S.mulVec a' i) = 0 := by
  have hkey : ∀ a a' : Fin N → ℂ, ∑ i, (S.mulVec a i * a' i - a i * S.mulVec a' i) =
      dotProduct (S.mulVec a) a' - dotProduct (S.transpose.mulVec a) a' := by
    intro a a'
    rw [Finset.sum_sub_distrib]
    congr 1
    show dotProduct a (S.mulVec a') = _
    rw [Matrix.dotProduct_mulVec, Matrix.mulVec_transpose]
  constructor
  · intro h a a'
    rw [hkey, h, sub_self]
  · intro h
    apply mulVec_ext
    intro a
    have : ∀ a', dotProduct (S.transpose.mulVec a - S.mulVec a) a' = 0 := by
      intro a'
      rw [sub_dotProduct]
      have := h a a'
      rw [hkey] at this
      linear_combination -this
    have := dotProduct_eq_zero _ this
    exact sub_eq_zero.1 this

end PyRFtk
