import Verif.MaxFun
import Mathlib.Analysis.SpecialFunctions.Trigonometric.ArctanDeriv
import Mathlib.Analysis.SpecialFunctions.Trigonometric.Bounds

/-!
# C83: how far the maximum a line reports can be from the largest voltage on it

`rfTRL.maxV` looks at the nodes of the line only; between two nodes the voltage can be larger.  The bound is Sturm's comparison theorem.
-/

namespace PyRFtk.TRL

/-! ## between two nodes -/

/-- Sturm's comparison: on a stretch shorter than half a wavelength the voltage exceeds that of the ends by at most the factor `1 / cos (b h / 2)` -/
theorem between {z y : ℂ} {V I : ℝ → ℂ} (hT : Telegraph (fun _ => z) (fun _ => y) V I) {b : ℝ} (hb : 0 ≤ b) (hk : -b ^ 2 ≤ (z * y).re)
    {a c M : ℝ} (hlt : b * (c - a) < Real.pi) (hM : 0 ≤ M) (ha : ‖V a‖ ≤ M) (hc : ‖V c‖ ≤ M) {x : ℝ} (h1 : a ≤ x) (h2 : x ≤ c) :
    ‖V x‖ * Real.cos (b * (c - a) / 2) ≤ M := by
  have hcos1 : Real.cos (b * (c - a) / 2) ≤ 1 := Real.cos_le_one _
  rcases h1.eq_or_lt with rfl | h1
  · nlinarith [norm_nonneg (V a)]
  rcases h2.eq_or_lt with rfl | h2
  · nlinarith [norm_nonneg (V x)]
  have hpi := Real.pi_pos
  have hac : a < c := h1.trans h2
  set c0 := (a + c) / 2 with hc0
  have hrange : ∀ t, a ≤ t → t ≤ c → |b * (t - c0)| ≤ b * (c - a) / 2 := by
    intro t h h'
    rw [abs_le]
    constructor <;> rw [hc0] <;> nlinarith
  have hpos : ∀ t, a ≤ t → t ≤ c → 0 < Real.cos (b * (t - c0)) := by
    intro t h h'
    have := abs_le.1 (hrange t h h')
    exact Real.cos_pos_of_mem_Ioo ⟨by linarith, by linarith⟩
  -- real and imaginary parts
  set u : ℝ → ℝ := fun t => (V t).re with hu
  set v : ℝ → ℝ := fun t => (V t).im with hv
  set u1 : ℝ → ℝ := fun t => (z * I t).re with hu1
  set v1 : ℝ → ℝ := fun t => (z * I t).im with hv1
  have dre : ∀ {g : ℝ → ℂ} {g' : ℂ} {t : ℝ}, HasDerivAt g g' t → HasDerivAt (fun t => (g t).re) g'.re t := fun h =>
    (Complex.reCLM.hasFDerivAt.comp_hasDerivAt _ h)
  have dim : ∀ {g : ℝ → ℂ} {g' : ℂ} {t : ℝ}, HasDerivAt g g' t → HasDerivAt (fun t => (g t).im) g'.im t := fun h =>
    (Complex.imCLM.hasFDerivAt.comp_hasDerivAt _ h)
  have du : ∀ t, HasDerivAt u (u1 t) t := fun t => dre (hT t).1
  have dv : ∀ t, HasDerivAt v (v1 t) t := fun t => dim (hT t).1
  set kr := (z * y).re
  set ki := (z * y).im
  have du1 : ∀ t, HasDerivAt u1 (kr * u t - ki * v t) t := fun t => by
    refine (dre ((hT t).2.const_mul z)).congr_deriv ?_
    rw [← mul_assoc, Complex.mul_re]
  have dv1 : ∀ t, HasDerivAt v1 (kr * v t + ki * u t) t := fun t => by
    refine (dim ((hT t).2.const_mul z)).congr_deriv ?_
    rw [← mul_assoc, Complex.mul_im]
  set p : ℝ → ℝ := fun t => u t ^ 2 + v t ^ 2 with hp
  have hpV : ∀ t, p t = ‖V t‖ ^ 2 := fun t => by
    rw [← Complex.normSq_eq_norm_sq, Complex.normSq_apply]
    simp only [hp, hu, hv]
    ring
  set P : ℝ → ℝ := fun t => 2 * (u t * u1 t + v t * v1 t) with hP
  have dp : ∀ t, HasDerivAt p (P t) t := fun t => by
    refine (((du t).pow 2).add ((dv t).pow 2)).congr_deriv ?_
    simp only [hP]
    push_cast
    ring
  have dP : ∀ t, HasDerivAt P (2 * (u1 t ^ 2 + v1 t ^ 2 + kr * p t)) t := fun t => by
    refine ((((du t).mul (du1 t)).add ((dv t).mul (dv1 t))).const_mul 2).congr_deriv ?_
    simp only [hp]
    ring
  -- the comparison function
  have hlin : ∀ t, HasDerivAt (fun t : ℝ => b * (t - c0)) b t := fun t =>
    (((hasDerivAt_id t).sub_const c0).const_mul b).congr_deriv (by ring)
  set w : ℝ → ℝ := fun t => -b * Real.tan (b * (t - c0)) with hw
  have dw : ∀ t, a ≤ t → t ≤ c → HasDerivAt w (-(b ^ 2 + w t ^ 2)) t := fun t h h' => by
    have hne := (hpos t h h').ne'
    refine (((Real.hasDerivAt_tan hne).comp t (hlin t)).const_mul (-b)).congr_deriv ?_
    simp only [hw, Real.tan_eq_sin_div_cos]
    field_simp
    have := Real.sin_sq_add_cos_sq (b * (t - c0))
    linear_combination (b ^ 2) * this
  set G : ℝ → ℝ := fun t => P t - 2 * p t * w t with hG
  have dG : ∀ t, a ≤ t → t ≤ c → ∃ d, 0 ≤ d ∧ HasDerivAt G d t := fun t h h' => by
    refine ⟨2 * ((u1 t - w t * u t) ^ 2 + (v1 t - w t * v t) ^ 2) + 2 * (kr + b ^ 2) * p t, ?_, ?_⟩
    · have : 0 ≤ p t := by simp only [hp]; positivity
      have h3 : 0 ≤ kr + b ^ 2 := by linarith
      positivity
    · refine ((dP t).sub (((dp t).const_mul 2).mul (dw t h h'))).congr_deriv ?_
      simp only [hP, hp]
      ring
  set q : ℝ → ℝ := fun t => p t / Real.cos (b * (t - c0)) ^ 2 with hq
  have dq : ∀ t, a ≤ t → t ≤ c → HasDerivAt q (G t / Real.cos (b * (t - c0)) ^ 2) t := fun t h h' => by
    have hne := (hpos t h h').ne'
    have dc : HasDerivAt (fun t => Real.cos (b * (t - c0))) (-Real.sin (b * (t - c0)) * b) t := (Real.hasDerivAt_cos _).comp t (hlin t)
    refine ((dp t).div (dc.pow 2) (pow_ne_zero 2 hne)).congr_deriv ?_
    simp only [hG, hw, Real.tan_eq_sin_div_cos, Nat.cast_ofNat, Nat.reduceSub, pow_one, Pi.pow_apply]
    generalize Real.cos (b * (t - c0)) = co at hne ⊢
    generalize Real.sin (b * (t - c0)) = si
    generalize p t = pt
    generalize P t = Pt
    field_simp
  set C := Real.cos (b * (c - a) / 2) with hC
  have hCpos : 0 < C := by
    have := hpos c hac.le le_rfl
    have e : b * (c - c0) = b * (c - a) / 2 := by rw [hc0]; ring
    rw [e] at this
    exact this
  have qa : q a ≤ M ^ 2 / C ^ 2 := by
    have e : Real.cos (b * (a - c0)) = C := by
      rw [hC, ← Real.cos_neg]
      congr 1
      rw [hc0]; ring
    simp only [hq]
    rw [e, hpV]
    gcongr
  have qc : q c ≤ M ^ 2 / C ^ 2 := by
    have e : Real.cos (b * (c - c0)) = C := by
      rw [hC]
      congr 1
      rw [hc0]; ring
    simp only [hq]
    rw [e, hpV]
    gcongr
  have qx : q x ≤ M ^ 2 / C ^ 2 := by
    by_contra hn
    rw [not_le] at hn
    obtain ⟨x1, ⟨i1, i2⟩, e1⟩ := exists_hasDerivAt_eq_slope q _ h1
      (fun t ht => (dq t ht.1 (ht.2.trans h2.le)).continuousAt.continuousWithinAt) (fun t ht => dq t ht.1.le (ht.2.le.trans h2.le))
    obtain ⟨x2, ⟨j1, j2⟩, e2⟩ := exists_hasDerivAt_eq_slope q _ h2
      (fun t ht => (dq t (h1.le.trans ht.1) ht.2).continuousAt.continuousWithinAt) (fun t ht => dq t (h1.le.trans ht.1.le) ht.2.le)
    have hx12 : x1 < x2 := i2.trans j1
    have g1 : 0 < G x1 := by
      have hcp := pow_pos (hpos x1 i1.le (i2.le.trans h2.le)) 2
      have : 0 < G x1 / Real.cos (b * (x1 - c0)) ^ 2 := by
        rw [e1]
        exact div_pos (by linarith) (by linarith)
      exact (div_pos_iff_of_pos_right hcp).1 this
    have g2 : G x2 < 0 := by
      have hcp := pow_pos (hpos x2 (h1.le.trans j1.le) j2.le) 2
      have : G x2 / Real.cos (b * (x2 - c0)) ^ 2 < 0 := by
        rw [e2]
        exact div_neg_of_neg_of_pos (by linarith) (by linarith)
      by_contra h0
      rw [not_lt] at h0
      exact absurd (div_nonneg h0 hcp.le) (not_le.2 this)
    have hmono : MonotoneOn G (Set.Icc x1 x2) := by
      have hin : ∀ t ∈ Set.Icc x1 x2, a ≤ t ∧ t ≤ c := fun t ht => ⟨i1.le.trans ht.1, ht.2.trans j2.le⟩
      refine monotoneOn_of_deriv_nonneg (convex_Icc _ _) (fun t ht => ?_) (fun t ht => ?_) (fun t ht => ?_)
      · obtain ⟨d, -, hd⟩ := dG t (hin t ht).1 (hin t ht).2
        exact hd.continuousAt.continuousWithinAt
      · obtain ⟨d, -, hd⟩ := dG t (hin t (interior_subset ht)).1 (hin t (interior_subset ht)).2
        exact hd.differentiableAt.differentiableWithinAt
      · obtain ⟨d, hd0, hd⟩ := dG t (hin t (interior_subset ht)).1 (hin t (interior_subset ht)).2
        rw [hd.deriv]; exact hd0
    have := hmono (Set.left_mem_Icc.2 hx12.le) (Set.right_mem_Icc.2 hx12.le) hx12.le
    linarith
  have hcx := hpos x h1.le h2.le
  have hcx1 : Real.cos (b * (x - c0)) ≤ 1 := Real.cos_le_one _
  simp only [hq] at qx
  rw [div_le_div_iff₀ (pow_pos hcx 2) (pow_pos hCpos 2), hpV] at qx
  have h3 : (‖V x‖ * C) ^ 2 ≤ M ^ 2 := by
    have : Real.cos (b * (x - c0)) ^ 2 ≤ 1 := by nlinarith
    nlinarith [sq_nonneg M]
  exact (sq_le_sq₀ (mul_nonneg (norm_nonneg _) hCpos.le) hM).1 h3

/-! ## the nodes -/

/-- a point between the first and the last node lies between two neighbouring ones -/
theorem between_nodes {h : ℝ} : ∀ {xs : List ℝ} {a c x : ℝ}, xs.IsChain (fun p q => q - p ≤ h) → xs.head? = some a → xs.getLast? = some c → a ≤ x → x ≤ c →
    (x ∈ xs) ∨ ∃ p ∈ xs, ∃ q ∈ xs, p ≤ x ∧ x ≤ q ∧ q - p ≤ h
  | [], _, _, _, _, h1, _, _, _ => by simp at h1
  | [p], a, c, x, _, h1, h2, h3, h4 => by
    simp only [List.head?_cons, Option.some.injEq] at h1
    simp only [List.getLast?_singleton, Option.some.injEq] at h2
    left
    rw [← h1] at h3; rw [← h2] at h4
    simp [le_antisymm h4 h3]
  | p :: q :: l, a, c, x, hc, h1, h2, h3, h4 => by
    simp only [List.head?_cons, Option.some.injEq] at h1
    subst h1
    rw [List.isChain_cons_cons] at hc
    rcases le_total x q with hq | hq
    · exact .inr ⟨p, by simp, q, by simp, h3, hq, hc.1⟩
    · rcases between_nodes (a := q) hc.2 (by simp) (by simpa using h2) hq h4 with h5 | ⟨p', m1, q', m2, h5⟩
      · exact .inl (List.mem_cons_of_mem _ h5)
      · exact .inr ⟨p', List.mem_cons_of_mem _ m1, q', List.mem_cons_of_mem _ m2, h5⟩

/-- the steps of evenly spaced nodes -/
theorem linspace_steps (L : ℝ) (n : ℕ) : (linspace L n).IsChain (fun p q => q - p = L / ((n - 1 : ℕ) : ℝ)) := by
  unfold linspace
  rw [List.isChain_map]
  refine (List.isChain_range _ n).2 fun m _ => ?_
  push_cast
  ring

/-- … are at most twice what was asked for -/
theorem spaced_step {L r : ℝ} (hL : 0 ≤ L) (hr : 0 ≤ r) : r * (L / ((max 2 ⌈r⌉.toNat - 1 : ℕ) : ℝ)) ≤ 2 * L := by
  obtain ⟨n, hn⟩ : ∃ n, n = ⌈r⌉.toNat := ⟨_, rfl⟩
  have hrn : r ≤ (n : ℝ) := by
    have h1 := Int.le_ceil r
    have h2 : ((⌈r⌉.toNat : ℤ) : ℝ) = (⌈r⌉ : ℝ) := by
      rw [Int.toNat_of_nonneg (Int.ceil_nonneg hr)]
    rw [hn]
    have h3 : ((⌈r⌉.toNat : ℕ) : ℝ) = ((⌈r⌉.toNat : ℤ) : ℝ) := by push_cast; rfl
    rw [h3, h2]; exact h1
  rw [← hn]
  have hN : (2 : ℝ) ≤ ((max 2 n : ℕ) : ℝ) := by exact_mod_cast le_max_left 2 n
  have hN' : r ≤ ((max 2 n : ℕ) : ℝ) := hrn.trans (by exact_mod_cast le_max_right 2 n)
  have e : ((max 2 n - 1 : ℕ) : ℝ) = ((max 2 n : ℕ) : ℝ) - 1 := by
    rw [Nat.cast_sub (by have := le_max_left 2 n; omega)]; simp
  rw [e, mul_div_assoc', div_le_iff₀ (by linarith)]
  nlinarith

/-- the constants of a constant line -/
theorem spaced_chain (L r : ℝ) : (spaced L r).IsChain (fun p q => q - p = L / ((max 2 ⌈r⌉.toNat - 1 : ℕ) : ℝ)) := linspace_steps _ _

theorem root_im {c : ℂ} (h : 0 ≤ c.im) : 0 ≤ (c ^ (1 / 2 : ℂ)).im := by
  by_cases h0 : c = 0
  · subst h0; simp
  · rw [Complex.cpow_def_of_ne_zero h0, Complex.exp_im]
    have e : (Complex.log c * (1 / 2)).im = c.arg / 2 := by
      have : Complex.log c * (1 / 2 : ℂ) = ((1 / 2 : ℝ) : ℂ) * Complex.log c := by push_cast; ring
      rw [this, Complex.im_ofReal_mul, Complex.log_im]; ring
    rw [e]
    have h1 := Complex.arg_nonneg_iff.2 h
    have h2 := Complex.arg_le_pi c
    exact mul_nonneg (Real.exp_pos _).le (Real.sin_nonneg_of_nonneg_of_le_pi (by linarith) (by linarith [Real.pi_pos]))

theorem root_re (c : ℂ) : -((c ^ (1 / 2 : ℂ)).im) ^ 2 ≤ c.re := by
  have h := congrArg Complex.re (sqrt_sq c)
  rw [pow_two, Complex.mul_re] at h
  nlinarith [sq_nonneg (c ^ (1 / 2 : ℂ)).re]

/-- the steps of a line whose `dx` is a number of points per wavelength -/
theorem grid_steps {o : Line} (hc : o.constant = true) (hL : 0 ≤ o.L) {f : ℝ} {n : ℤ} (hn : 0 < n) (hd : o.dx = .int n)
    (hi : 0 ≤ (o.z (2 * Real.pi * f) 0 * o.y (2 * Real.pi * f) 0).im) {xs : List ℝ} (h : grid o f = .ok xs) :
    ∃ s : ℝ, xs.IsChain (fun p q => q - p = s) ∧ 0 ≤ s ∧ ((o.z (2 * Real.pi * f) 0 * o.y (2 * Real.pi * f) 0) ^ (1 / 2 : ℂ)).im * s * n ≤ 4 * Real.pi := by
  have hb := root_im hi
  have hnR : (0 : ℝ) < n := by exact_mod_cast hn
  have hpi := Real.pi_pos
  unfold grid at h
  simp only [hd] at h
  rw [if_pos hc, if_neg hn.ne'] at h
  cases hw : wavlen o (2 * Real.pi * f) 0 with
  | none =>
    simp only [hw] at h
    injection h with h
    subst h
    refine ⟨_, spaced_chain _ _, by positivity, ?_⟩
    unfold wavlen at hw
    simp only at hw
    split at hw
    · rename_i h0
      rw [h0]; simp; positivity
    · cases hw
  | some l =>
    simp only [hw] at h
    injection h with h
    subst h
    refine ⟨_, spaced_chain _ _, by positivity, ?_⟩
    unfold wavlen at hw
    simp only at hw
    split at hw
    · cases hw
    · rename_i h0
      injection hw with hw
      set b := ((o.z (2 * Real.pi * f) 0 * o.y (2 * Real.pi * f) 0) ^ (1 / 2 : ℂ)).im with hbd
      have hbp : 0 < b := lt_of_le_of_ne hb (Ne.symm h0)
      have e : o.L / (l / n) = o.L * (b * n / (2 * Real.pi)) := by
        rw [← hw]; field_simp
      rw [e]
      have hs := spaced_step (L := o.L) (r := o.L * (b * n / (2 * Real.pi))) hL (by positivity)
      rcases hL.eq_or_lt with h1 | h1
      · rw [← h1]; simp; positivity
      · generalize (o.L / ((max 2 ⌈o.L * (b * n / (2 * Real.pi))⌉.toNat - 1 : ℕ) : ℝ)) = s at hs ⊢
        have h2 : b * n / (2 * Real.pi) * s ≤ 2 := by
          by_contra hn
          rw [not_le] at hn
          nlinarith
        have e2 : b * s * n = b * n / (2 * Real.pi) * s * (2 * Real.pi) := by field_simp
        rw [e2]
        nlinarith

/-- … and of one whose `dx` is a length -/
theorem grid_steps_float {o : Line} (hL : 0 ≤ o.L) {f d : ℝ} (hd : o.dx = .float d) {xs : List ℝ} (h : grid o f = .ok xs) :
    xs.IsChain (fun p q => q - p ≤ 2 * |d|) := by
  unfold grid at h
  simp only [hd] at h
  by_cases h1 : d < 0
  · rw [if_pos h1, if_neg (not_lt.2 hL)] at h
    injection h with h
    subst h
    have hd0 : 0 < -d := by linarith
    have hp : ((List.range (⌊o.L / -d⌋₊ + 1)).map fun k : ℕ => (k : ℝ) * -d).IsChain (fun p q => q - p ≤ 2 * |d|) := by
      rw [List.isChain_map]
      refine (List.isChain_range _ _).2 fun m _ => ?_
      rw [abs_of_neg h1]
      push_cast
      nlinarith
    split
    · refine List.isChain_append.2 ⟨hp, by simp, ?_⟩
      intro x hx y hy
      rw [Option.mem_def, List.getLast?_map, List.getLast?_range] at hx
      simp at hx hy
      subst hy
      have := Nat.lt_floor_add_one (o.L / -d)
      rw [div_lt_iff₀ hd0] at this
      rw [← hx, abs_of_neg h1]
      nlinarith
    · exact hp
  · rw [if_neg h1] at h
    by_cases h2 : d = 0
    · rw [if_pos h2] at h; cases h
    · rw [if_neg h2] at h
      injection h with h
      subst h
      have hd0 : 0 < d := lt_of_le_of_ne (not_lt.1 h1) (Ne.symm h2)
      refine (spaced_chain _ _).imp ?_
      intro a b hab
      rw [hab, abs_of_pos hd0]
      have hs := spaced_step (L := o.L) (r := o.L / d) hL (by positivity)
      rcases hL.eq_or_lt with h1 | h1
      · rw [← h1]; simp; positivity
      · generalize (o.L / ((max 2 ⌈o.L / d⌉.toNat - 1 : ℕ) : ℝ)) = s at hs ⊢
        rw [div_mul_eq_mul_div, div_le_iff₀ hd0] at hs
        by_contra hn
        rw [not_le] at hn
        nlinarith

/-! ## the parabola through three evenly spaced samples -/

/-- its top exceeds the largest of three samples, none of them negative, by at most an eighth -/
theorem top_le {p0 p1 p2 : ℝ × ℝ} {s x y M : ℝ} (hs : 0 < s) (h1 : p1.1 - p0.1 = s) (h2 : p2.1 - p1.1 = s)
    (hT : TopOfParabola p0 p1 p2 x y) (hx1 : p0.1 ≤ x) (hx2 : x ≤ p2.1) (n0 : 0 ≤ p0.2) (n2 : 0 ≤ p2.2)
    (m0 : p0.2 ≤ M) (m1 : p1.2 ≤ M) (m2 : p2.2 ≤ M) : y ≤ 9 / 8 * M := by
  obtain ⟨a, b, c, hp, hy, htop⟩ := hT
  have q0 := hp p0 (by simp)
  have q1 := hp p1 (by simp)
  have q2 := hp p2 (by simp)
  have hmax : ∀ t, a * t ^ 2 + b * t + c ≤ a * x ^ 2 + b * x + c := fun t => by rw [hy]; exact htop t
  -- the slope vanishes at the top, and the parabola opens downwards
  have ha : a ≤ 0 := by
    have e1 := hmax (x + 1)
    have e2 := hmax (x - 1)
    nlinarith
  have hb : 2 * a * x + b = 0 := by
    by_contra hne
    by_cases h0 : a = 0
    · subst h0
      have e1 := hmax (x + 1)
      have e2 := hmax (x - 1)
      apply hne; nlinarith
    · have := hmax (-b / (2 * a))
      have e : a * x ^ 2 + b * x + c - (a * (-b / (2 * a)) ^ 2 + b * (-b / (2 * a)) + c) = a * (2 * a * x + b) ^ 2 / (4 * a ^ 2) := by
        field_simp; ring
      have h3 : 0 < a ^ 2 := by positivity
      have h4 : 0 < (2 * a * x + b) ^ 2 := by positivity
      have h5 : a < 0 := lt_of_le_of_ne ha h0
      have : a * (2 * a * x + b) ^ 2 / (4 * a ^ 2) < 0 := div_neg_of_neg_of_pos (by nlinarith) (by positivity)
      linarith
  have hb' : b = -2 * a * x := by linarith
  subst hb'
  have hc : c = y + a * x ^ 2 := by rw [← hy]; ring
  subst hc
  -- write everything relative to the top
  obtain ⟨A, hA⟩ : ∃ A, A = -a := ⟨_, rfl⟩
  have hA0 : 0 ≤ A := by linarith
  obtain ⟨t, ht⟩ : ∃ t, t = p1.1 - x := ⟨_, rfl⟩
  have r0 : p0.2 = y - A * (t - s) ^ 2 := by rw [← q0, hA, ht, ← h1]; ring
  have r1 : p1.2 = y - A * t ^ 2 := by rw [← q1, hA, ht]; ring
  have r2 : p2.2 = y - A * (t + s) ^ 2 := by rw [← q2, hA, ht, ← h2]; ring
  have t1 : -s ≤ t := by linarith
  have t2 : t ≤ s := by linarith
  clear q0 q1 q2 hp hmax hy htop hb
  rw [r0] at n0 m0
  rw [r1] at m1
  rw [r2] at n2 m2
  rcases le_total 0 t with h | h
  · -- the sample after the middle one is the lowest
    have k : A * (t + s) ^ 2 ≤ y := by linarith
    rcases le_total (2 * t) s with h3 | h3
    · have : 9 * (A * t ^ 2) ≤ y := by nlinarith [mul_nonneg hA0 (mul_nonneg h (sub_nonneg.2 h3)), mul_nonneg hA0 (sub_nonneg.2 h3)]
      linarith
    · have : 9 * (A * (t - s) ^ 2) ≤ y := by nlinarith [mul_nonneg hA0 (mul_nonneg (sub_nonneg.2 t2) (sub_nonneg.2 h3))]
      linarith
  · have k : A * (t - s) ^ 2 ≤ y := by linarith
    rcases le_total (-(2 * t)) s with h3 | h3
    · have : 9 * (A * t ^ 2) ≤ y := by nlinarith [mul_nonneg hA0 (mul_nonneg (neg_nonneg.2 h) (sub_nonneg.2 h3)), mul_nonneg hA0 (sub_nonneg.2 h3)]
      linarith
    · have : 9 * (A * (t + s) ^ 2) ≤ y := by
        have t3 : 0 ≤ t + s := by linarith
        nlinarith [mul_nonneg hA0 (mul_nonneg t3 (sub_nonneg.2 h3))]
      linarith

/-! ## the voltages `maxV` looks at -/

theorem maxV_nodes {ode : Ode} {o o' : Line} (hr : Reach ode o) {f : ℝ}
    {E : List (String × ℂ)} {Zb : Option ℝ} {m x : ℝ} {pts : List (ℝ × ℝ)} (h : maxV ode o f E Zb = (o', .ok (m, x, pts))) :
    ∃ a0 a1 Vf If xs sol, mapE (dictGet E) o.ports = .ok [a0, a1] ∧
      Telegraph (o.z (2 * Real.pi * f)) (o.y (2 * Real.pi * f)) Vf If ∧
      (Vf 0 + refOf o.Zbase Zb * (-If 0)) / 2 = a0 ∧ (Vf o.L + refOf o.Zbase Zb * If o.L) / 2 = a1 ∧
      fresh ode o f = .ok sol ∧ sol.xs = xs ∧ xs.head? = some 0 ∧ xs.getLast? = some o.L ∧ pts = xs.map (fun x => (x, ‖Vf x‖)) ∧
      maxfun pts = .ok (x, m) := by
  obtain ⟨g, s, z⟩ := reach_good hr
  unfold maxV at h
  cases hv : visws ode o f E Zb with
  | mk o1 r1 =>
    cases r1 with
    | error e => simp [hv] at h
    | ok p =>
      obtain ⟨xs, V, I⟩ := p
      obtain ⟨a0, a1, hA, ⟨e1, e2, Vf, If, hT, rfl, rfl, w0, wL⟩, sol, hsol, hxs⟩ := (visws_ok g hv s z).2.2 xs V I rfl
      simp only [hv] at h
      have hz : xs.zip ((xs.map Vf).map fun v => ‖v‖) = xs.map fun x => (x, ‖Vf x‖) := by
        clear * -
        induction xs with
        | nil => rfl
        | cons a l ih => simpa using ih
      rw [hz] at h
      cases hm : maxfun (xs.map fun x => (x, ‖Vf x‖)) with
      | error e => simp [hm] at h
      | ok m' =>
        simp only [hm, Prod.mk.injEq, Except.ok.injEq] at h
        obtain ⟨rfl, rfl, rfl, rfl⟩ := h
        exact ⟨a0, a1, Vf, If, xs, sol, hA, hT, w0, wL, hsol, hxs, e1, e2, rfl, hm⟩

/-- the nodes of a solved line are those of the grid, or twice the origin -/
theorem fresh_grid {ode : Ode} {o : Line} (hc : o.constant = true) {f : ℝ} {s : Sol} (h : fresh ode o f = .ok s) :
    ∃ gs, grid o f = .ok gs ∧ (s.xs = gs ∧ gs.head? ≠ gs.getLast? ∨ s.xs = [0, 0]) := by
  unfold fresh solveNodes at h
  cases hg : grid o f with
  | error e => simp [hg] at h
  | ok gs =>
    simp only [hg] at h
    obtain ⟨e1, e2⟩ := grid_ends hg
    refine ⟨gs, rfl, ?_⟩
    by_cases hz : gs.head? = gs.getLast?
    · rw [if_pos hz] at h
      cases gs with
      | nil => simp at h
      | cons x r =>
        simp at e1; subst e1
        simp only at h
        right
        split at h
        · cases h
        · split at h
          · cases h
          · injection h with h; rw [← h]
    · rw [if_neg hz, if_pos hc] at h
      left
      refine ⟨?_, hz⟩
      split at h
      · cases h
      · rename_i p hp
        split at hp
        · cases hp
        · injection hp with hp
          simp only [Prod.mk.injEq] at hp
          obtain ⟨rfl, rfl⟩ := hp
          split at h
          · cases h
          · split at h
            · cases h
            · injection h with h; rw [← h]

/-- the incident waves determine the voltage along a line that has a scattering matrix -/
theorem standing_unique {ode : Ode} {o o1 : Line} {f : ℝ} {Zb : Option ℝ} {S : Mat2} (hs : Solves ode o) (hz : o.Zbase ≠ 0)
    (hS : getS ode o f Zb [] = (o1, .ok S)) {V I V' I' : ℝ → ℂ}
    (hT : Telegraph (o.z (2 * Real.pi * f)) (o.y (2 * Real.pi * f)) V I) (hT' : Telegraph (o.z (2 * Real.pi * f)) (o.y (2 * Real.pi * f)) V' I')
    (h0 : V 0 + refOf o.Zbase Zb * (-I 0) = V' 0 + refOf o.Zbase Zb * (-I' 0))
    (h1 : V o.L + refOf o.Zbase Zb * I o.L = V' o.L + refOf o.Zbase Zb * I' o.L) : V = V' := by
  have hsame := (getS_good hS).1
  have eL : o1.L = o.L := by rw [hsame]
  have eZ : o1.Zbase = o.Zbase := by rw [hsame]
  have law := C10_telegrapher hs (by rw [eZ]; exact hz) hS
  rw [eL, eZ] at law
  have hr : (refOf o.Zbase Zb : ℂ) ≠ 0 := by exact_mod_cast refOf_ne hz Zb
  have k := (law ![V 0, V o.L] ![-I 0, I o.L]).2 ⟨V, I, hT, rfl, rfl, by simp, rfl⟩
  have k' := (law ![V' 0, V' o.L] ![-I' 0, I' o.L]).2 ⟨V', I', hT', rfl, rfl, by simp, rfl⟩
  unfold ScatterV at k k'
  have ea : (fun j : Fin 2 => (![V 0, V o.L] j + refOf o.Zbase Zb * ![-I 0, I o.L] j) / 2) =
      fun j => (![V' 0, V' o.L] j + refOf o.Zbase Zb * ![-I' 0, I' o.L] j) / 2 := by
    funext j
    fin_cases j
    · simp only [Fin.zero_eta, Matrix.cons_val_zero]; rw [h0]
    · show (V o.L + refOf o.Zbase Zb * I o.L) / 2 = (V' o.L + refOf o.Zbase Zb * I' o.L) / 2
      rw [h1]
  rw [ea, ← k'] at k
  have k0 := congrFun k 0
  simp only [Matrix.cons_val_zero] at k0
  have v0 : V 0 = V' 0 := by linear_combination h0 / 2 + k0
  have i0 : I 0 = I' 0 := by
    have : (refOf o.Zbase Zb : ℂ) * (I 0 - I' 0) = 0 := by linear_combination v0 - h0
    rcases mul_eq_zero.1 this with h | h
    · exact absurd h hr
    · linear_combination h
  obtain ⟨V1, I1, V2, I2, hF⟩ := solves_fund hs (2 * Real.pi * f)
  funext t
  rw [(fundamental hT hF.t1 hF.t2 hF.a hF.b hF.c hF.d t).1, (fundamental hT' hF.t1 hF.t2 hF.a hF.b hF.c hF.d t).1, v0, i0]

/-- the reported value against the voltage anywhere on the line, for nodes at most `s` apart -/
theorem max_bound {z y : ℂ} {V I : ℝ → ℂ} (hT : Telegraph (fun _ => z) (fun _ => y) V I) {b s L m : ℝ} (hb : 0 ≤ b) (hk : -b ^ 2 ≤ (z * y).re)
    (hlt : b * s < Real.pi) {xs : List ℝ} (hx : xs.IsChain fun p q => q - p ≤ s) (h0 : xs.head? = some 0) (hL : xs.getLast? = some L)
    (hm : ∀ x ∈ xs, ‖V x‖ ≤ m) {t : ℝ} (ht0 : 0 ≤ t) (htL : t ≤ L) : ‖V t‖ * Real.cos (b * s / 2) ≤ m := by
  have hm0 : 0 ≤ m := (norm_nonneg _).trans (hm 0 (List.mem_of_mem_head? (Option.mem_def.2 h0)))
  have hpi := Real.pi_pos
  rcases between_nodes hx h0 hL ht0 htL with h | ⟨p, hp, q, hq, h1, h2, h3⟩
  · have := hm t h
    have hc := Real.cos_le_one (b * s / 2)
    nlinarith [norm_nonneg (V t)]
  · have hbs : b * (q - p) ≤ b * s := mul_le_mul_of_nonneg_left h3 hb
    have := between hT hb hk (lt_of_le_of_lt hbs hlt) hm0 (hm p hp) (hm q hq) h1 h2
    refine le_trans (mul_le_mul_of_nonneg_left ?_ (norm_nonneg _)) this
    have h4 : 0 ≤ b * (q - p) := mul_nonneg hb (by linarith)
    exact Real.cos_le_cos_of_nonneg_of_le_pi (by linarith) (by linarith) (by linarith)

/-- `V` and `I` are the voltage and the current (towards the second port) along the line when the voltage waves `a0` and `a1`, on the reference `r`, come in at
its ports -/
structure Excited (o : Line) (f r : ℝ) (a0 a1 : ℂ) (V I : ℝ → ℂ) : Prop where
  telegraph : Telegraph (o.z (2 * Real.pi * f)) (o.y (2 * Real.pi * f)) V I
  first : (V 0 + r * (-I 0)) / 2 = a0
  second : (V o.L + r * I o.L) / 2 = a1

/-- what a call of `maxV` looks at -/
theorem maxV_looks {ode : Ode} {o o' o1 : Line} (hr : Reach ode o) (hc : o.constant = true) (hL : 0 ≤ o.L) {f : ℝ} {E : List (String × ℂ)} {Zb : Option ℝ}
    {S : Mat2} (hS : getS ode o f Zb [] = (o1, .ok S)) {m x : ℝ} {pts : List (ℝ × ℝ)} (h : maxV ode o f E Zb = (o', .ok (m, x, pts))) :
    ∃ a0 a1, mapE (dictGet E) o.ports = .ok [a0, a1] ∧ (∃ V I, Excited o f (refOf o.Zbase Zb) a0 a1 V I) ∧
      ∀ V I, Excited o f (refOf o.Zbase Zb) a0 a1 V I → ∃ xs gs, grid o f = .ok gs ∧ (xs = gs ∧ 0 < o.L ∨ xs = [0, 0] ∧ o.L = 0) ∧
        xs.head? = some 0 ∧ xs.getLast? = some o.L ∧ (∀ x ∈ xs, ‖V x‖ ≤ m) ∧
        Candidate (xs.map fun x => (x, ‖V x‖)) (x, m) ∧ (0 < o.L → xs.Pairwise (· < ·)) := by
  obtain ⟨g, s, z⟩ := reach_good hr
  obtain ⟨a0, a1, Vf, If, xs, sol, hA, hT, w0, wL, hsol, hxs, e1, e2, rfl, hm⟩ := maxV_nodes hr h
  refine ⟨a0, a1, hA, ⟨Vf, If, hT, w0, wL⟩, ?_⟩
  intro V I hV
  have hVV : V = Vf := standing_unique s z hS hV.telegraph hT
    (by linear_combination 2 * hV.first - 2 * w0) (by linear_combination 2 * hV.second - 2 * wL)
  subst hVV
  obtain ⟨gs, hg, hcase⟩ := fresh_grid hc hsol
  rw [hxs] at hcase
  refine ⟨xs, gs, hg, ?_, e1, e2, ?_⟩
  · rcases hcase with ⟨h1, h2⟩ | h1
    · left
      refine ⟨h1, lt_of_le_of_ne hL fun h0 => ?_⟩
      rw [h1] at e1 e2
      rw [e1, e2, ← h0] at h2
      exact h2 rfl
    · right
      subst h1
      simp at e2
      exact ⟨rfl, e2.symm⟩
  · by_cases hL' : 0 < o.L
    · rcases hcase with ⟨rfl, h2⟩ | h1
      · have hp := grid_increasing hc hL' hg
        have hpw : (xs.map fun x => (x, ‖V x‖)).Pairwise (fun p q => p.1 < q.1) := by
          rw [List.pairwise_map]; exact hp
        obtain ⟨k1, k2⟩ := C12_maxfun hpw hm
        exact ⟨fun y hy => k1 _ (List.mem_map.2 ⟨y, hy, rfl⟩), k2, fun _ => hp⟩
      · subst h1
        simp at e2
        exact absurd e2 hL'.ne
    · have h0 : o.L = 0 := le_antisymm (not_lt.1 hL') hL
      rcases hcase with ⟨h1, h2⟩ | h1
      · rw [h1] at e1 e2
        rw [e1, e2, h0] at h2
        exact absurd rfl h2
      · subst h1
        simp [maxfun, maxLoop] at hm
        obtain ⟨rfl, rfl⟩ := hm
        exact ⟨by simp, .inl (by simp), fun h => absurd h hL'⟩

/-- **C83 (points per wavelength).** On a uniform line whose `dx` is a number of points per wavelength, `maxV` reports a value that the voltage nowhere on the line
exceeds by more than the factor `1 / cos (2 π / dx)` — 0.4 % with the default of 72 — and that exceeds the largest voltage on the line by at most an eighth. -/
theorem C83_line_partial {ode : Ode} {o o' o1 : Line} (hr : Reach ode o) (hc : o.constant = true) (hL : 0 ≤ o.L) {f : ℝ} {n : ℤ} (hd : o.dx = .int n) (hn : 4 < n)
    (hi : 0 ≤ (o.z (2 * Real.pi * f) 0 * o.y (2 * Real.pi * f) 0).im) {E : List (String × ℂ)} {Zb : Option ℝ} {S : Mat2}
    (hS : getS ode o f Zb [] = (o1, .ok S)) {m x : ℝ} {pts : List (ℝ × ℝ)} (h : maxV ode o f E Zb = (o', .ok (m, x, pts))) :
    ∃ a0 a1, mapE (dictGet E) o.ports = .ok [a0, a1] ∧ (∃ V I, Excited o f (refOf o.Zbase Zb) a0 a1 V I) ∧
      ∀ V I, Excited o f (refOf o.Zbase Zb) a0 a1 V I →
        (∀ t, 0 ≤ t → t ≤ o.L → ‖V t‖ * Real.cos (2 * Real.pi / n) ≤ m) ∧ ∃ t, 0 ≤ t ∧ t ≤ o.L ∧ m ≤ 9 / 8 * ‖V t‖ := by
  obtain ⟨-, hs, -⟩ := reach_good hr
  obtain ⟨a0, a1, hA, hex, hall⟩ := maxV_looks hr hc hL hS h
  refine ⟨a0, a1, hA, hex, fun V I hV => ?_⟩
  obtain ⟨xs, gs, hg, hcase, e0, eL, hm, hcand, hinc⟩ := hall V I hV
  have hpi := Real.pi_pos
  have hnR : (4 : ℝ) < n := by exact_mod_cast hn
  have hcc : ∀ w x, o.z w x = o.z w 0 ∧ o.y w x = o.y w 0 := by unfold Solves at hs; rwa [if_pos hc] at hs
  have hT : Telegraph (fun _ => o.z (2 * Real.pi * f) 0) (fun _ => o.y (2 * Real.pi * f) 0) V I := by
    have := hV.telegraph
    rwa [show o.z (2 * Real.pi * f) = fun _ => o.z (2 * Real.pi * f) 0 from funext fun x => (hcc _ x).1,
      show o.y (2 * Real.pi * f) = fun _ => o.y (2 * Real.pi * f) 0 from funext fun x => (hcc _ x).2] at this
  obtain ⟨s, hchain, hs0, hstep⟩ := grid_steps hc hL (by omega) hd hi hg
  set b := ((o.z (2 * Real.pi * f) 0 * o.y (2 * Real.pi * f) 0) ^ (1 / 2 : ℂ)).im with hbd
  have hb : 0 ≤ b := root_im hi
  have hxchain : xs.IsChain (fun p q => q - p = s) ∨ xs = [0, 0] := by
    rcases hcase with ⟨rfl, -⟩ | ⟨h1, -⟩
    · exact .inl hchain
    · exact .inr h1
  have hbs : b * s / 2 ≤ 2 * Real.pi / n := by
    rw [le_div_iff₀ (by linarith)]; linarith
  have hq : 2 * Real.pi / n < Real.pi / 2 := by
    rw [div_lt_iff₀ (by linarith)]; nlinarith
  constructor
  · intro t ht0 htL
    have h2 := max_bound hT hb (root_re _) (by linarith) (s := s) (xs := xs)
      (by
        rcases hxchain with h | h
        · exact h.imp fun _ _ h => h.le
        · subst h; simpa using hs0) e0 eL hm ht0 htL
    refine le_trans (mul_le_mul_of_nonneg_left ?_ (norm_nonneg _)) h2
    exact Real.cos_le_cos_of_nonneg_of_le_pi (by positivity) (by linarith) hbs
  · have hin : ∀ y ∈ xs, 0 ≤ y ∧ y ≤ o.L := by
      rcases hcase with ⟨rfl, h1⟩ | ⟨h1, h2⟩
      · have hp := hinc h1
        intro y hy
        constructor
        · cases xs with
          | nil => simp at hy
          | cons c l =>
            simp at e0; subst e0
            rcases List.mem_cons.1 hy with rfl | hy
            · exact le_rfl
            · exact ((List.pairwise_cons.1 hp).1 y hy).le
        · obtain ⟨l, rfl⟩ := List.getLast?_eq_some_iff.1 eL
          rcases List.mem_append.1 hy with hy | hy
          · exact ((List.pairwise_append.1 hp).2.2 y hy _ (by simp)).le
          · simp at hy; exact hy.le
      · subst h1
        intro y hy
        simp at hy
        subst hy
        exact ⟨le_rfl, hL⟩
    rcases hcand with h1 | h1 | ⟨p0, p1, p2, ⟨u, v, hc3⟩, htop, hx1, hx2⟩
    · rw [List.head?_map, e0] at h1
      simp at h1
      refine ⟨0, le_rfl, hL, ?_⟩
      rw [← h1.2]
      linarith [norm_nonneg (V 0)]
    · rw [List.getLast?_map, eL] at h1
      simp at h1
      refine ⟨o.L, hL, le_rfl, ?_⟩
      rw [← h1.2]
      linarith [norm_nonneg (V o.L)]
    · obtain ⟨u', r', rfl, -, hr'⟩ := List.map_eq_append_iff.1 hc3
      obtain ⟨q0, r1, rfl, rfl, hr1⟩ := List.map_eq_cons_iff.1 hr'
      obtain ⟨q1, r2, rfl, rfl, hr2⟩ := List.map_eq_cons_iff.1 hr1
      obtain ⟨q2, r3, rfl, rfl, -⟩ := List.map_eq_cons_iff.1 hr2
      have hch : (u' ++ q0 :: q1 :: q2 :: r3).IsChain (fun p q => q - p = s) := by
        rcases hxchain with h | h
        · exact h
        · have := congrArg List.length h
          simp at this
          omega
      have hLp : 0 < o.L := by
        rcases hcase with ⟨-, h1⟩ | ⟨h1, -⟩
        · exact h1
        · have := congrArg List.length h1
          simp at this
          omega
      have hpw := (List.pairwise_append.1 (hinc hLp)).2.1
      have h01 : q0 < q1 := (List.pairwise_cons.1 hpw).1 q1 (by simp)
      have hch2 := (List.isChain_append.1 hch).2.1
      rw [List.isChain_cons_cons, List.isChain_cons_cons] at hch2
      have top : ∀ M, ‖V q0‖ ≤ M → ‖V q1‖ ≤ M → ‖V q2‖ ≤ M → m ≤ 9 / 8 * M := fun M m0 m1 m2 =>
        top_le (s := s) (by rw [← hch2.1]; linarith) hch2.1 hch2.2.1 htop hx1 hx2 (norm_nonneg _) (norm_nonneg _) m0 m1 m2
      have i0 := hin q0 (by simp)
      have i1 := hin q1 (by simp)
      have i2 := hin q2 (by simp)
      rcases le_total ‖V q0‖ ‖V q1‖ with a | a <;> rcases le_total ‖V q1‖ ‖V q2‖ with c | c
      · exact ⟨q2, i2.1, i2.2, top _ (a.trans c) c le_rfl⟩
      · exact ⟨q1, i1.1, i1.2, top _ a le_rfl c⟩
      · rcases le_total ‖V q0‖ ‖V q2‖ with d | d
        · exact ⟨q2, i2.1, i2.2, top _ d c le_rfl⟩
        · exact ⟨q0, i0.1, i0.2, top _ le_rfl a d⟩
      · exact ⟨q0, i0.1, i0.2, top _ le_rfl a (c.trans a)⟩

/-- **C83 (step in metres).** With a step given in metres, of either sign, the voltage nowhere on a uniform line exceeds the reported value by more than the factor
`1 / cos (b dx)`, for any `b` not below the phase constant. -/
theorem C83_step_partial {ode : Ode} {o o' o1 : Line} (hr : Reach ode o) (hc : o.constant = true) (hL : 0 ≤ o.L) {f d b : ℝ} (hd : o.dx = .float d)
    (hb : 0 ≤ b) (hk : -b ^ 2 ≤ (o.z (2 * Real.pi * f) 0 * o.y (2 * Real.pi * f) 0).re) (hlt : b * |d| < Real.pi / 2)
    {E : List (String × ℂ)} {Zb : Option ℝ} {S : Mat2}
    (hS : getS ode o f Zb [] = (o1, .ok S)) {m x : ℝ} {pts : List (ℝ × ℝ)} (h : maxV ode o f E Zb = (o', .ok (m, x, pts))) :
    ∃ a0 a1, mapE (dictGet E) o.ports = .ok [a0, a1] ∧ (∃ V I, Excited o f (refOf o.Zbase Zb) a0 a1 V I) ∧
      ∀ V I, Excited o f (refOf o.Zbase Zb) a0 a1 V I → ∀ t, 0 ≤ t → t ≤ o.L → ‖V t‖ * Real.cos (b * |d|) ≤ m := by
  obtain ⟨-, hs, -⟩ := reach_good hr
  obtain ⟨a0, a1, hA, hex, hall⟩ := maxV_looks hr hc hL hS h
  refine ⟨a0, a1, hA, hex, fun V I hV t ht0 htL => ?_⟩
  obtain ⟨xs, gs, hg, hcase, e0, eL, hm, -, -⟩ := hall V I hV
  have hcc : ∀ w x, o.z w x = o.z w 0 ∧ o.y w x = o.y w 0 := by unfold Solves at hs; rwa [if_pos hc] at hs
  have hT : Telegraph (fun _ => o.z (2 * Real.pi * f) 0) (fun _ => o.y (2 * Real.pi * f) 0) V I := by
    have := hV.telegraph
    rwa [show o.z (2 * Real.pi * f) = fun _ => o.z (2 * Real.pi * f) 0 from funext fun x => (hcc _ x).1,
      show o.y (2 * Real.pi * f) = fun _ => o.y (2 * Real.pi * f) 0 from funext fun x => (hcc _ x).2] at this
  have hchain := grid_steps_float hL hd hg
  have := max_bound hT hb hk (s := 2 * |d|) (by linarith) (xs := xs)
    (by
      rcases hcase with ⟨rfl, -⟩ | ⟨h1, -⟩
      · exact hchain
      · subst h1; simp) e0 eL hm ht0 htL
  rwa [show b * (2 * |d|) / 2 = b * |d| by ring] at this

/-- **C83 (finding).** The step asked for is not kept: the documentation has the step *refined* so that an integer number fits, but the number of steps that fit is
used as the number of nodes, so that on every line longer than the step asked for all steps are longer than that -/
theorem C83_step_violation {L s : ℝ} (hs : 0 < s) (hL : s < L) :
    (spaced L (L / s)).IsChain (fun p q => s < q - p) ∧ 2 ≤ (spaced L (L / s)).length := by
  have hr : 1 < L / s := by rw [lt_div_iff₀ hs]; linarith
  have hc1 : 2 ≤ ⌈L / s⌉ := by
    have : (1 : ℤ) < ⌈L / s⌉ := Int.lt_ceil.2 (by exact_mod_cast hr)
    omega
  obtain ⟨n, hn⟩ := Int.eq_ofNat_of_zero_le (show 0 ≤ ⌈L / s⌉ by omega)
  have hn2 : 2 ≤ n := by omega
  have hN : max 2 ⌈L / s⌉.toNat = n := by rw [hn]; simp [hn2]
  refine ⟨(spaced_chain _ _).imp ?_, ?_⟩
  · intro a c hac
    rw [hac, hN]
    have hlt : (⌈L / s⌉ : ℝ) < L / s + 1 := Int.ceil_lt_add_one _
    rw [hn] at hlt
    have e : ((n - 1 : ℕ) : ℝ) = n - 1 := by rw [Nat.cast_sub (by omega)]; simp
    rw [e, lt_div_iff₀ (by have : (2 : ℝ) ≤ n := by exact_mod_cast hn2
                           linarith)]
    have h1 : (n : ℝ) - 1 < L / s := by push_cast at hlt; linarith
    rw [lt_div_iff₀ hs] at h1
    linarith
  · unfold spaced linspace
    simp

theorem wavlen_scale {o : Line} {a c : ℝ → ℂ} (hz : ∀ w x, o.z w x = w * a x) (hy : ∀ w x, o.y w x = w * c x) {w : ℝ} (hw : 0 < w) (x : ℝ) :
    wavlen o w x = (wavlen o 1 x).map (· / w) := by
  have e : ((w * a x * (w * c x) : ℂ) ^ (1 / 2 : ℂ)).im = w * ((a x * c x : ℂ) ^ (1 / 2 : ℂ)).im := by
    have h1 : (w * a x * (w * c x) : ℂ) = ((w ^ 2 : ℝ) : ℂ) * (a x * c x) := by push_cast; ring
    have h2 : ((w ^ 2 : ℝ) : ℂ) ^ (1 / 2 : ℂ) = (w : ℂ) := by
      have : (1 / 2 : ℂ) = ((1 / 2 : ℝ) : ℂ) := by push_cast; rfl
      rw [this, ← Complex.ofReal_cpow (by positivity), ← Real.sqrt_eq_rpow, Real.sqrt_sq hw.le]
    have harg : (((w ^ 2 : ℝ) : ℂ) * (a x * c x)) ^ (1 / 2 : ℂ) = ((w ^ 2 : ℝ) : ℂ) ^ (1 / 2 : ℂ) * (a x * c x) ^ (1 / 2 : ℂ) := by
      by_cases h0 : a x * c x = 0
      · rw [h0]; simp
      · have hp : (0 : ℝ) < w ^ 2 := by positivity
        rw [Complex.cpow_def_of_ne_zero (mul_ne_zero (by exact_mod_cast hp.ne') h0), Complex.cpow_def_of_ne_zero (by exact_mod_cast hp.ne'),
          Complex.cpow_def_of_ne_zero h0, Complex.log_ofReal_mul hp h0, Complex.ofReal_log hp.le, add_mul, Complex.exp_add]
    rw [h1, harg, h2, Complex.im_ofReal_mul]
  unfold wavlen
  simp only [hz, hy]
  rw [e]
  simp only [Complex.ofReal_one, one_mul]
  by_cases h0 : ((a x * c x : ℂ) ^ (1 / 2 : ℂ)).im = 0
  · rw [if_pos (by rw [h0]; simp), if_pos h0]; rfl
  · rw [if_neg (mul_ne_zero hw.ne' h0), if_neg h0]
    simp only [Option.map_some, Option.some.injEq]
    field_simp

/-- **C83 (finding, non-uniform lines).** On a line with parameters that vary along it, both proportional to the frequency, the steps asked for are `2 π` times too
long: `dx` points are laid out along `2 π` wavelengths -/
theorem C83_nonuniform_violation {o : Line} {a c : ℝ → ℂ} (hz : ∀ w x, o.z w x = w * a x) (hy : ∀ w x, o.y w x = w * c x) {f : ℝ} (hf : 0 < f) {n : ℤ} {k : ℕ}
    {x x' : ℝ} (h : nodeSeq o f n k = some x) (h' : nodeSeq o f n (k + 1) = some x') :
    ∃ l, wavlen o (2 * Real.pi * f) x = some l ∧ x' = x + 2 * Real.pi * (l / n) := by
  have hpi := Real.pi_pos
  simp only [nodeSeq, h] at h'
  have h1 := wavlen_scale hz hy hf x
  have h2 := wavlen_scale hz hy (w := 2 * Real.pi * f) (by positivity) x
  cases hw : wavlen o 1 x with
  | none => rw [h1, hw] at h'; simp at h'
  | some l =>
    rw [h1, hw] at h'
    simp at h'
    rw [h2, hw]
    refine ⟨_, rfl, ?_⟩
    rw [← h']
    field_simp

/-- `maxV` answers on every line that has a scattering matrix on the reference of the waves, for waves given at both ports -/
theorem C83_total {ode : Ode} {o o1 : Line} (hr : Reach ode o) {f : ℝ} {Zb : Option ℝ} {S : Mat2}
    (hS : getS ode o f (some (orOwn o.Zbase Zb)) [] = (o1, .ok S)) {p q : String} (hp : o.ports = [p, q]) {E : List (String × ℂ)} {a0 a1 : ℂ}
    (h0 : E.lookup p = some a0) (h1 : E.lookup q = some a1) : ∃ o' m x pts, maxV ode o f E Zb = (o', .ok (m, x, pts)) := by
  obtain ⟨g, s, z⟩ := reach_good hr
  have hA : mapE (dictGet E) o.ports = .ok [a0, a1] := by
    rw [hp]; simp [mapE, dictGet, h0, h1]
  have hz : orOwn o.Zbase Zb ≠ 0 := by
    unfold orOwn
    cases Zb with
    | none => exact z
    | some r =>
      simp only
      split
      · exact z
      · assumption
  have hsol : ∃ sl, findSol o1.solved f = some sl := by
    unfold getS at hS
    have e1 : set o [] = ({ o with solved := [] }, .ok ()) := by simp [set, setLoop]
    rw [e1] at hS
    simp only at hS
    unfold get1S ensure at hS
    have hn : findSol ([] : List (ℝ × Sol)) f = none := rfl
    simp only [hn] at hS
    cases hf : fresh ode { o with solved := [] } f with
    | error e => simp [hf] at hS
    | ok sl =>
      simp only [hf] at hS
      refine ⟨sl, ?_⟩
      have : o1 = { o with solved := [(f, sl)] } := by
        split at hS
        · exact (Prod.mk.inj hS).1.symm
        · exact (Prod.mk.inj hS).1.symm
      rw [this]; simp [findSol]
  have hok : ∃ o' r, visws ode o f E Zb = (o', .ok r) := by
    unfold visws
    rw [hA]
    simp only
    split
    · exact ⟨_, _, rfl⟩
    · rw [hS]
      simp only [matVec]
      rw [if_neg hz]
      unfold solveVI ensure
      obtain ⟨sl, hsl⟩ := hsol
      rw [hsl]
      exact ⟨_, _, rfl⟩
  obtain ⟨o', ⟨xs, V, I⟩, hok⟩ := hok
  obtain ⟨b0, b1, -, ⟨e1, e2, Vf, If, hT, rfl, rfl, -, -⟩, -⟩ := (visws_ok g hok s z).2.2 xs V I rfl
  unfold maxV
  rw [hok]
  simp only
  cases hm : maxfun (xs.zip ((xs.map Vf).map fun v => ‖v‖)) with
  | ok m => exact ⟨_, _, _, _, rfl⟩
  | error e =>
    exfalso
    have hz : xs.zip ((xs.map Vf).map fun v => ‖v‖) = xs.map fun x => (x, ‖Vf x‖) := by
      clear * -
      induction xs with
      | nil => rfl
      | cons a l ih => simpa using ih
    rw [hz] at hm
    unfold maxfun at hm
    rw [List.head?_map, List.getLast?_map, e1, e2] at hm
    simp at hm

/-! ## concrete lines -/

namespace Ex

/-- a line of one metre at 1 Hz (`w = 2 π`, one wavelength) with the default `dx`: it is evaluated, and `maxV` answers -/
theorem C83_witness (ode : Ode) : line.constant = true ∧ line.dx = .int 72 ∧ 0 ≤ (line.z (2 * Real.pi * 1) 0 * line.y (2 * Real.pi * 1) 0).im ∧
    Reach ode line ∧ (∃ o1 S, getS ode line 1 none [] = (o1, .ok S)) ∧
    ∃ o' m x pts, maxV ode line 1 [("1", 1), ("2", 0)] none = (o', .ok (m, x, pts)) := by
  obtain ⟨o', S, h, -⟩ := C11_witness ode 1 one_ne_zero
  have hg : getS ode line 1 (some 50) [] = getS ode line 1 none [] := by
    have hZ : ∀ o'' r, ensure ode { line with solved := [] } 1 = (o'', r) → o''.Zbase = 50 := by
      intro o'' r he
      unfold ensure at he
      split at he
      · rw [← (Prod.mk.inj he).1]; rfl
      · split at he
        · rw [← (Prod.mk.inj he).1]; rfl
        · rw [← (Prod.mk.inj he).1]; rfl
    have e1 : set line [] = ({ line with solved := [] }, .ok ()) := by simp [set, setLoop]
    unfold getS
    rw [e1]
    simp only
    unfold get1S
    cases he : ensure ode { line with solved := [] } 1 with
    | mk o'' r =>
      cases r with
      | error e => rfl
      | ok sl =>
        simp only
        rw [if_pos (.inr (hZ _ _ he).symm)]
  refine ⟨rfl, rfl, by simp [line], reach ode, ⟨o', S, h⟩, ?_⟩
  exact C83_total (reach ode) (Zb := none) (by show getS ode line 1 (some 50) [] = (o', .ok S); rw [hg, h]) rfl rfl rfl

/-- a step of 0.3 m was asked for on a line of one metre: four nodes, a third of a metre apart -/
example : (spaced 1 (1 / (3 / 10))).length = 4 ∧ (3 : ℝ) / 10 < 1 / 3 := by
  constructor
  · unfold spaced linspace
    have : ⌈(1 : ℝ) / (3 / 10)⌉ = 4 := by rw [Int.ceil_eq_iff]; norm_num
    rw [this]; simp
  · norm_num

end Ex

end PyRFtk.TRL
