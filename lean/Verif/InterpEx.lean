import Verif.InterpProps
import Verif.ConvertSpec
import Mathlib.Analysis.Real.Pi.Bounds

/-!
# Interpolation of measured data: energy, and concrete cases (C66)
-/

namespace PyRFtk.RfObject

variable {n : ℕ} {I : Interp1}

/-! ## interpolation and passivity -/

/-- at `f` the interpolating function is a weighted mean of the values (interpolation along straight lines, inside the range) -/
def MeanAt (G : List ℝ → ℝ → ℝ) (N : ℕ) (f : ℝ) : Prop :=
  ∃ w : List ℝ, w.length = N ∧ (∀ x ∈ w, 0 ≤ x) ∧ w.sum = 1 ∧ ∀ ys : List ℝ, ys.length = N → G ys f = (List.zipWith (· * ·) w ys).sum

/-- straight line interpolation, the weights of the samples: `interp1d` of order 1 for increasing frequencies -/
noncomputable def lineWeights : List ℝ → ℝ → List ℝ
  | [], _ => []
  | [_], _ => [1]
  | x :: y :: xs, f => if xs = [] ∨ f ≤ y then ((y - f) / (y - x)) :: ((f - x) / (y - x)) :: xs.map fun _ => 0
      else 0 :: lineWeights (y :: xs) f

/-- `interp1d(fs, ys, kind=1)` at `f` -/
noncomputable def lineAt (fs ys : List ℝ) (f : ℝ) : ℝ := (List.zipWith (· * ·) (lineWeights fs f) ys).sum

theorem lineWeights_mean : ∀ (fs : List ℝ) (f : ℝ), fs.Pairwise (· < ·) → ∀ (hne : fs ≠ []), fs.head hne ≤ f → f ≤ fs.getLast hne →
    (lineWeights fs f).length = fs.length ∧ (∀ x ∈ lineWeights fs f, 0 ≤ x) ∧ (lineWeights fs f).sum = 1
  | [], _, _, h, _, _ => absurd rfl h
  | [x], f, _, _, _, _ => by simp [lineWeights]
  | x :: y :: xs, f, hp, _, h1, h2 => by
    have hxy : x < y := by simp at hp; exact hp.1.1
    have hd : 0 < y - x := by linarith
    rw [lineWeights]
    split
    · rename_i h
      have hfy : f ≤ y := by
        rcases h with rfl | h
        · simpa using h2
        · exact h
      simp only [List.head_cons] at h1
      refine ⟨by simp, ?_, ?_⟩
      · intro z hz
        simp only [List.mem_cons, List.mem_map] at hz
        rcases hz with rfl | rfl | ⟨_, -, rfl⟩
        · exact div_nonneg (by linarith) hd.le
        · exact div_nonneg (by linarith) hd.le
        · exact le_rfl
      · simp
        field_simp
        ring
    · rename_i h
      push Not at h
      obtain ⟨a, b, c⟩ := lineWeights_mean (y :: xs) f (List.pairwise_cons.1 hp).2 (by simp) (by simpa using h.2.le) (by simpa using h2)
      refine ⟨by simp [a], ?_, by simp [c]⟩
      intro z hz
      rcases List.mem_cons.1 hz with rfl | hz
      · exact le_rfl
      · exact b z hz

theorem lineAt_mean {fs : List ℝ} {f : ℝ} (hp : fs.Pairwise (· < ·)) (hne : fs ≠ []) (h1 : fs.head hne ≤ f) (h2 : f ≤ fs.getLast hne) :
    MeanAt (lineAt fs) fs.length f := by
  obtain ⟨a, b, c⟩ := lineWeights_mean fs f hp hne h1 h2
  exact ⟨_, a, b, c, fun _ _ => rfl⟩

theorem power_eq_norm (v : Fin n → ℂ) : power v = ‖WithLp.toLp 2 v‖ ^ 2 := by
  rw [EuclideanSpace.norm_sq_eq]; rfl

/-- the weighted mean of matrices -/
noncomputable def meanM (w : List ℝ) (Ss : List (Mat n)) : Mat n := (List.zipWith (fun (x : ℝ) S => (x : ℂ) • S) w Ss).sum

theorem meanM_bound (w : List ℝ) : ∀ (Ss : List (Mat n)), (∀ x ∈ w, 0 ≤ x) → (∀ S ∈ Ss, Passive S) → w.length = Ss.length → ∀ a,
    ‖WithLp.toLp 2 ((meanM w Ss).mulVec a)‖ ≤ w.sum * ‖WithLp.toLp 2 a‖ := by
  induction w with
  | nil => intro Ss _ _ _ a; simp [meanM]
  | cons x w ih =>
    intro Ss hw hS hl a
    cases Ss with
    | nil => simp at hl
    | cons S Ss =>
      have h1 := ih Ss (fun y hy => hw y (by simp [hy])) (fun T hT => hS T (by simp [hT])) (by simpa using hl) a
      have hx := hw x (by simp)
      have h2 : ‖WithLp.toLp 2 (S.mulVec a)‖ ≤ ‖WithLp.toLp 2 a‖ := by
        have := hS S (by simp) a
        rw [power_eq_norm, power_eq_norm] at this
        exact (pow_le_pow_iff_left₀ (norm_nonneg _) (norm_nonneg _) (by norm_num)).1 this
      have e : (meanM (x :: w) (S :: Ss)).mulVec a = (x : ℂ) • S.mulVec a + (meanM w Ss).mulVec a := by
        simp only [meanM, List.zipWith_cons_cons, List.sum_cons, Matrix.add_mulVec, Matrix.smul_mulVec]
      rw [e, WithLp.toLp_add, WithLp.toLp_smul, List.sum_cons, add_mul]
      refine (norm_add_le _ _).trans (add_le_add ?_ h1)
      rw [norm_smul, Complex.norm_real, Real.norm_of_nonneg hx]
      exact mul_le_mul_of_nonneg_left h2 hx

theorem meanM_entry (w : List ℝ) : ∀ (Ss : List (Mat n)) i j, w.length = Ss.length → meanM w Ss i j =
    (((List.zipWith (· * ·) w (Ss.map fun S => (S i j).re)).sum : ℝ) : ℂ) +
      Complex.I * ((List.zipWith (· * ·) w (Ss.map fun S => (S i j).im)).sum : ℝ) := by
  induction w with
  | nil => intro Ss i j _; simp [meanM]
  | cons x w ih =>
    intro Ss i j hl
    cases Ss with
    | nil => simp at hl
    | cons S Ss =>
      have h := ih Ss i j (by simpa using hl)
      have e : meanM (x :: w) (S :: Ss) i j = (x : ℂ) * S i j + meanM w Ss i j := by
        simp only [meanM, List.zipWith_cons_cons, List.sum_cons, Matrix.add_apply, Matrix.smul_apply, smul_eq_mul]
      rw [e, h]
      conv_lhs => rw [← Complex.re_add_im (S i j)]
      simp only [List.map_cons, List.zipWith_cons_cons, List.sum_cons]
      push_cast
      ring

/-- **C66**: with `interp='RI'` and interpolation along straight lines, data of a passive network (power waves) give a passive answer at
every frequency inside the range. -/
theorem C66_RI_passive {k : ℕ} {fs : List ℝ} {Ss : List (Mat n)} (hl : fs.length = Ss.length) (hS : ∀ S ∈ Ss, Passive S)
    {G} (hG : I fs (min (fs.length - 1) k) = .ok G) {f : ℝ} (hm : MeanAt G fs.length f) {F : Fn n} (h : buildWith I .RI (.order k) fs Ss = .ok F) :
    ∃ S, F f = .ok S ∧ Passive S := by
  obtain ⟨w, hw1, hw2, hw3, hw4⟩ := hm
  have hne : fs ≠ [] := by rintro rfl; simp at hw1; subst hw1; simp at hw3
  rw [build_of hne hG] at h
  injection h with h
  subst h
  refine ⟨meanM w Ss, ?_, fun a => ?_⟩
  · unfold evalWith
    simp only
    congr 1
    funext i j
    rw [hw4 _ (by simp [hl]), hw4 _ (by simp [hl]), meanM_entry w Ss i j (by omega)]
  · rw [power_eq_norm, power_eq_norm]
    have := meanM_bound w Ss hw2 hS (by omega) a
    rw [hw3, one_mul] at this
    exact pow_le_pow_left₀ (norm_nonneg _) this 2

/-! ## a delay line -/

namespace Ex

/-- a matched line with a delay of 1 rad per unit of frequency, sampled at 1, 2 and 3 -/
noncomputable def lineB : Fin 2 → Fin 2 → ℝ := fun i j => if i = j then 0 else 1
noncomputable def lineT : Fin 2 → Fin 2 → ℝ := fun _ _ => -1

theorem line_resolved : Resolved (fun _ _ => 0) lineB lineT [1, 2, 3] := by
  have := Real.pi_gt_three
  refine ⟨fun i j => ?_, fun i j => ?_⟩
  · simp only [List.isChain_cons_cons, List.isChain_singleton, and_true, lineT]
    constructor <;> rw [abs_lt] <;> constructor <;> linarith
  · by_cases h : i = j
    · exact .inl ⟨rfl, by simp [lineB, h]⟩
    · exact .inr fun f _ => by simp [lineB, h]

/-- the samples stored, the answer between and beyond them is the line -/
theorem C66_witness : ∃ o : Obj 2, Logged (withInterp (env 2) lagrange .MA (.order 3)) o
      ([1, 2, 3].map fun f => (f, Delayed (fun _ _ => 0) lineB lineT (fun _ _ => 0) f)) ∧
    (getS (withInterp (env 2) lagrange .MA (.order 3)) o (5 / 2) none).2 = .ok (Delayed (fun _ _ => 0) lineB lineT (fun _ _ => 0) (5 / 2)) ∧
    (getS (withInterp (env 2) lagrange .MA (.order 3)) o 10 none).2 = .ok (Delayed (fun _ _ => 0) lineB lineT (fun _ _ => 0) 10) ∧
    Delayed (fun _ _ => 0) lineB lineT (fun _ _ => 0) (5 / 2) 1 0 = Complex.exp (-(5 / 2) * Complex.I) := by
  let e := withInterp (env 2) lagrange .MA (.order 3)
  have hs : e.Sorts := ⟨(env_sorts 2).1, (env_sorts 2).2, (env_sorts 2).3⟩
  have h := Logged.set (env := e) (f := [1, 2, 3]) (Ss := [1, 2, 3].map (Delayed (fun _ _ => 0) lineB lineT (fun _ _ => 0)))
    (o' := { (new ["a", "b"] 50 : Obj 2) with fs := [1, 2, 3], Ss := [1, 2, 3].map (Delayed (fun _ _ => 0) lineB lineT (fun _ _ => 0)) })
    (Logged.new ["a", "b"] 50 rfl) (by
      simp [setS, check3D, sortedAfter, new, castStack]
      try norm_num)
  generalize ({ (new ["a", "b"] 50 : Obj 2) with fs := [1, 2, 3], Ss := [1, 2, 3].map (Delayed (fun _ _ => 0) lineB lineT (fun _ _ => 0)) } : Obj 2) = o at h
  have h : Logged e o ([1, 2, 3].map fun f => (f, Delayed (fun _ _ => 0) lineB lineT (fun _ _ => 0) f)) := by simpa using h
  have ans := fun f => C66_answers lagrange_sound (k := 3) (by norm_num) hs (fs := [1, 2, 3]) (by simp) (by norm_num) line_resolved h f
  refine ⟨_, h, ans _, ans _, ?_⟩
  show delayed _ _ _ _ _ = _
  simp [delayed, lineB, lineT]
  congr 1
  ring

/-! ## an active answer from lossless data -/

noncomputable def hB : Fin 2 → Fin 2 → ℝ := fun _ _ => 1 / √2
noncomputable def hT : Fin 2 → Fin 2 → ℝ := fun i j => if i = j then Real.pi / 2 else -(Real.pi / 2)
noncomputable def hP : Fin 2 → Fin 2 → ℝ := fun i j => if i = 0 ∧ j = 0 then -(Real.pi / 2) else Real.pi / 2

theorem h_resolved : Resolved (fun _ _ => 0) hB hT [1, 2] := by
  have := Real.pi_pos
  refine ⟨fun i j => ?_, fun i j => .inr fun f _ => by simp [hB]⟩
  simp only [List.isChain_cons_cons, List.isChain_singleton, and_true, hT]
  split <;> rw [abs_lt] <;> constructor <;> linarith

end Ex

theorem power_two (S : Mat 2) (a : Fin 2 → ℂ) : power (S.mulVec a) = ‖S 0 0 * a 0 + S 0 1 * a 1‖ ^ 2 + ‖S 1 0 * a 0 + S 1 1 * a 1‖ ^ 2 := by
  simp [power, Matrix.mulVec, dotProduct]

theorem half_sq (z : ℂ) : ‖((1 / √2 : ℝ) : ℂ) * z‖ ^ 2 = ‖z‖ ^ 2 / 2 := by
  rw [norm_mul, mul_pow, Complex.norm_real, Real.norm_eq_abs, sq_abs, div_pow, Real.sq_sqrt (by norm_num)]
  ring

theorem h_at (f : ℝ) (i j : Fin 2) : Delayed (fun _ _ => 0) Ex.hB Ex.hT Ex.hP f i j =
    ((1 / √2 : ℝ) : ℂ) * Complex.exp (Complex.I * ((Ex.hT i j * f + Ex.hP i j : ℝ) : ℂ)) := by
  show delayed _ _ _ _ _ = _
  simp [delayed, Ex.hB]

theorem exp_quarter : Complex.exp (Complex.I * ((Real.pi / 2 : ℝ) : ℂ)) = Complex.I := by
  rw [mul_comm]; push_cast; exact Complex.exp_pi_div_two_mul_I

/-- **C66 is violated** for energy: with the shipped `interp='MA'`, measured data of a reciprocal lossless network can interpolate to a
matrix from which twice the power leaves as enters. -/
theorem C66_not_passive (hI : I.Sound) {k : ℕ} (hk : 1 ≤ k) : ∃ (Ss : List (Mat 2)) (F : Fn 2) (S : Mat 2) (a : Fin 2 → ℂ),
    Ss.length = 2 ∧ (∀ T ∈ Ss, Lossless T ∧ Reciprocal T) ∧ buildWith I .MA (.order k) [1, 2] Ss = .ok F ∧ F (3 / 2) = .ok S ∧
    0 < power a ∧ power (S.mulVec a) = 2 * power a := by
  obtain ⟨F, h1, h2⟩ := C66_delay hI hk (by simp) (by norm_num) (p := Ex.hP) Ex.h_resolved
  have hr : ∀ f, Reciprocal (Delayed (fun _ _ => 0) Ex.hB Ex.hT Ex.hP f) := by
    intro f
    funext i j
    rw [Matrix.transpose_apply, h_at, h_at]
    fin_cases i <;> fin_cases j <;> simp [Ex.hT, Ex.hP]
  refine ⟨_, F, _, ![1, Complex.I], by simp, ?_, h1, h2 _, ?_, ?_⟩
  · intro T hT
    obtain ⟨f, hf, rfl⟩ := List.mem_map.1 hT
    refine ⟨fun a => ?_, hr f⟩
    rw [power_two, h_at, h_at, h_at, h_at]
    simp only [mul_assoc, ← mul_add, half_sq]
    have hp : power a = ‖a 0‖ ^ 2 + ‖a 1‖ ^ 2 := by simp [power]
    have epi : Complex.exp (Complex.I * ((Real.pi : ℝ) : ℂ)) = -1 := by rw [mul_comm]; exact Complex.exp_pi_mul_I
    rw [hp]
    simp only [List.mem_cons, List.not_mem_nil, or_false] at hf
    rcases hf with rfl | rfl
    · have e00 : Ex.hT 0 0 * 1 + Ex.hP 0 0 = 0 := by simp [Ex.hT, Ex.hP]
      have e01 : Ex.hT 0 1 * 1 + Ex.hP 0 1 = 0 := by simp [Ex.hT, Ex.hP]
      have e10 : Ex.hT 1 0 * 1 + Ex.hP 1 0 = 0 := by simp [Ex.hT, Ex.hP]
      have e11 : Ex.hT 1 1 * 1 + Ex.hP 1 1 = Real.pi := by simp [Ex.hT, Ex.hP]
      rw [e00, e01, e10, e11, epi]
      simp only [Complex.ofReal_zero, mul_zero, Complex.exp_zero, one_mul, neg_one_mul, Complex.sq_norm, Complex.normSq_apply,
        Complex.add_re, Complex.add_im, Complex.neg_re, Complex.neg_im]
      ring
    · have e00 : Ex.hT 0 0 * 2 + Ex.hP 0 0 = Real.pi / 2 := by simp [Ex.hT, Ex.hP]; ring
      have e01 : Ex.hT 0 1 * 2 + Ex.hP 0 1 = -(Real.pi / 2) := by simp [Ex.hT, Ex.hP]; ring
      have e10 : Ex.hT 1 0 * 2 + Ex.hP 1 0 = -(Real.pi / 2) := by simp [Ex.hT, Ex.hP]; ring
      have e11 : Ex.hT 1 1 * 2 + Ex.hP 1 1 = Real.pi + Real.pi / 2 := by simp [Ex.hT, Ex.hP]
      have en : Complex.exp (Complex.I * ((-(Real.pi / 2) : ℝ) : ℂ)) = -Complex.I := by
        rw [Complex.ofReal_neg, mul_neg, Complex.exp_neg, exp_quarter, Complex.inv_I]
      have ep : Complex.exp (Complex.I * ((Real.pi + Real.pi / 2 : ℝ) : ℂ)) = -Complex.I := by
        rw [Complex.ofReal_add, mul_add, Complex.exp_add, exp_quarter, epi, neg_one_mul]
      rw [e00, e01, e10, e11, exp_quarter, en, ep]
      simp only [Complex.sq_norm, Complex.normSq_apply, Complex.mul_re, Complex.mul_im, Complex.I_re, Complex.I_im,
        Complex.add_re, Complex.add_im, Complex.neg_re, Complex.neg_im]
      ring
  · simp [power]
  · rw [power_two, h_at, h_at, h_at, h_at]
    simp only [mul_assoc, ← mul_add, half_sq]
    have e00 : Ex.hT 0 0 * (3 / 2) + Ex.hP 0 0 = Real.pi / 4 := by simp [Ex.hT, Ex.hP]; ring
    have e01 : Ex.hT 0 1 * (3 / 2) + Ex.hP 0 1 = -(Real.pi / 4) := by simp [Ex.hT, Ex.hP]; ring
    have e10 : Ex.hT 1 0 * (3 / 2) + Ex.hP 1 0 = -(Real.pi / 4) := by simp [Ex.hT, Ex.hP]; ring
    have e11 : Ex.hT 1 1 * (3 / 2) + Ex.hP 1 1 = Real.pi + Real.pi / 4 := by simp [Ex.hT, Ex.hP]; ring
    rw [e00, e01, e10, e11]
    have q1 : ((Real.pi / 4 : ℝ) : ℂ) = ((-(Real.pi / 4) : ℝ) : ℂ) + ((Real.pi / 2 : ℝ) : ℂ) := by push_cast; ring
    have k1 : Complex.exp (Complex.I * ((Real.pi / 4 : ℝ) : ℂ)) = Complex.exp (Complex.I * ((-(Real.pi / 4) : ℝ) : ℂ)) * Complex.I := by
      rw [q1, mul_add, Complex.exp_add, exp_quarter]
    have k2 : Complex.exp (Complex.I * ((Real.pi + Real.pi / 4 : ℝ) : ℂ)) = -(Complex.exp (Complex.I * ((-(Real.pi / 4) : ℝ) : ℂ)) * Complex.I) := by
      rw [Complex.ofReal_add, mul_add, Complex.exp_add, k1, mul_comm Complex.I (Real.pi : ℂ), Complex.exp_pi_mul_I, neg_one_mul]
    have nn : ‖Complex.exp (Complex.I * ((-(Real.pi / 4) : ℝ) : ℂ))‖ = 1 := by rw [mul_comm]; exact Complex.norm_exp_ofReal_mul_I _
    rw [k1, k2]
    generalize Complex.exp (Complex.I * ((-(Real.pi / 4) : ℝ) : ℂ)) = z at nn ⊢
    have s1 : z * Complex.I * (![1, Complex.I] : Fin 2 → ℂ) 0 + z * (![1, Complex.I] : Fin 2 → ℂ) 1 = 2 * Complex.I * z := by
      simp; ring
    have s2 : z * (![1, Complex.I] : Fin 2 → ℂ) 0 + -(z * Complex.I) * (![1, Complex.I] : Fin 2 → ℂ) 1 = 2 * z := by
      simp
      linear_combination (-z) * Complex.I_mul_I
    rw [s1, s2]
    simp [power, nn]
    norm_num

end PyRFtk.RfObject
