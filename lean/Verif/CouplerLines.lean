import Verif.Parts

/-!
# C81: an rfCoupler is a pair of coupled transmission lines

`Coupled` is the specification: the telegrapher equations of two conductors, coupled by mutual inductance and capacitance.
-/

namespace PyRFtk.Coupler

/-! ## specification -/

/-- Voltages and currents on two coupled conductors A and B: per unit length each has series impedance `zs` and shunt admittance `ys`, `zm` and `ym` couple
them (currents counted in the direction of decreasing `x`, as in `TRL.Telegraph`).  Ports in the order A1, A2, B1, B2; port 1 at `x = 0`, port 2 at `x = L`;
`i` are the currents flowing into the ports. -/
def Coupled (zs zm ys ym : ℂ) (L : ℝ) (v i : Fin 4 → ℂ) : Prop :=
  ∃ VA VB IA IB : ℝ → ℂ,
    (∀ x, HasDerivAt VA (zs * IA x + zm * IB x) x ∧ HasDerivAt VB (zm * IA x + zs * IB x) x ∧
      HasDerivAt IA (ys * VA x + ym * VB x) x ∧ HasDerivAt IB (ym * VA x + ys * VB x) x) ∧
    VA 0 = v 0 ∧ VA L = v 1 ∧ VB 0 = v 2 ∧ VB L = v 3 ∧ IA 0 = -i 0 ∧ IA L = i 1 ∧ IB 0 = -i 2 ∧ IB L = i 3

/-- Two strips in air (waves travel at the speed of light) with coupling `k` and impedance `Z`: inductance `Z / (c s)` per metre and mutual inductance `k` times
that, capacitance `1 / (Z c s)` per metre and mutual capacitance `-k` times that, where `s = √(1 - k²)`. -/
noncomputable def Strips (k Z f L : ℝ) (v i : Fin 4 → ℂ) : Prop :=
  let w : ℝ := 2 * Real.pi * f
  let s : ℝ := Real.sqrt (1 - k ^ 2)
  let ind : ℝ := Z / (c0 * s)
  let cap : ℝ := 1 / (Z * c0 * s)
  Coupled (Complex.I * w * ind) (Complex.I * w * (k * ind)) (Complex.I * w * cap) (Complex.I * w * (-k * cap)) L v i

/-- the length of the strips: the one given, or that of a quarter wave at `f` if none was given -/
noncomputable def lengthAt (o : Obj) (f : ℝ) : ℝ := (truthy o.Lc).getD (c0 / (4 * f))

/-! ## proofs -/

/-- the sum and the difference of the two conductors are two ordinary lines -/
theorem coupled_modes {zs zm ys ym : ℂ} {L : ℝ} {v i : Fin 4 → ℂ} : Coupled zs zm ys ym L v i ↔
    TRL.LineLaw (fun _ => zs + zm) (fun _ => ys + ym) L ![v 0 + v 2, v 1 + v 3] ![i 0 + i 2, i 1 + i 3] ∧
    TRL.LineLaw (fun _ => zs - zm) (fun _ => ys - ym) L ![v 0 - v 2, v 1 - v 3] ![i 0 - i 2, i 1 - i 3] := by
  constructor
  · rintro ⟨VA, VB, IA, IB, h, h1, h2, h3, h4, h5, h6, h7, h8⟩
    refine ⟨⟨fun x => VA x + VB x, fun x => IA x + IB x, fun x => ?_, ?_, ?_, ?_, ?_⟩,
      ⟨fun x => VA x - VB x, fun x => IA x - IB x, fun x => ?_, ?_, ?_, ?_, ?_⟩⟩
    · obtain ⟨a, b, c, d⟩ := h x
      exact ⟨(a.add b).congr_deriv (by ring), (c.add d).congr_deriv (by ring)⟩
    · simp [h1, h3]
    · simp [h2, h4]
    · simp [h5, h7]; ring
    · simp [h6, h8]
    · obtain ⟨a, b, c, d⟩ := h x
      exact ⟨(a.sub b).congr_deriv (by ring), (c.sub d).congr_deriv (by ring)⟩
    · simp [h1, h3]
    · simp [h2, h4]
    · simp [h5, h7]; ring
    · simp [h6, h8]
  · rintro ⟨⟨P, Q, h, h1, h2, h3, h4⟩, ⟨P', Q', h', h1', h2', h3', h4'⟩⟩
    simp only [Matrix.cons_val_zero, Matrix.cons_val_one] at h1 h2 h3 h4 h1' h2' h3' h4'
    refine ⟨fun x => (P x + P' x) / 2, fun x => (P x - P' x) / 2, fun x => (Q x + Q' x) / 2, fun x => (Q x - Q' x) / 2, fun x => ?_, ?_⟩
    · obtain ⟨a, b⟩ := h x
      obtain ⟨c, d⟩ := h' x
      refine ⟨((a.add c).div_const 2).congr_deriv (by ring), ((a.sub c).div_const 2).congr_deriv (by ring),
        ((b.add d).div_const 2).congr_deriv (by ring), ((b.sub d).div_const 2).congr_deriv (by ring)⟩
    · refine ⟨?_, ?_, ?_, ?_, ?_, ?_, ?_, ?_⟩ <;> dsimp only <;> simp only [h1, h2, h3, h4, h1', h2', h3', h4'] <;> ring

theorem hasDerivAt_cos_mul (b x : ℝ) : HasDerivAt (fun x : ℝ => ((Real.cos (b * x) : ℝ) : ℂ)) (-(b : ℂ) * (Real.sin (b * x) : ℝ)) x := by
  have h : HasDerivAt (fun x : ℝ => Real.cos (b * x)) (-Real.sin (b * x) * (b * 1)) x := ((hasDerivAt_id x).const_mul b).cos
  exact h.ofReal_comp.congr_deriv (by push_cast; ring)

theorem hasDerivAt_sin_mul (b x : ℝ) : HasDerivAt (fun x : ℝ => ((Real.sin (b * x) : ℝ) : ℂ)) ((b : ℂ) * (Real.cos (b * x) : ℝ)) x := by
  have h : HasDerivAt (fun x : ℝ => Real.sin (b * x)) (Real.cos (b * x) * (b * 1)) x := ((hasDerivAt_id x).const_mul b).sin
  exact h.ofReal_comp.congr_deriv (by push_cast; ring)

/-- a lossless line of impedance `Z` with phase constant `b` -/
theorem lossless_line {Z : ℂ} (hZ : Z ≠ 0) (b L : ℝ) (v i : Fin 2 → ℂ) :
    TRL.LineLaw (fun _ => Complex.I * b * Z) (fun _ => Complex.I * b / Z) L v i ↔
      v 1 = (Real.cos (b * L) : ℝ) * v 0 - Complex.I * Z * (Real.sin (b * L) : ℝ) * i 0 ∧
      i 1 = Complex.I / Z * (Real.sin (b * L) : ℝ) * v 0 - (Real.cos (b * L) : ℝ) * i 0 := by
  have hI := Complex.I_mul_I
  rw [TRL.lineLaw_iff (V1 := fun x => ((Real.cos (b * x) : ℝ) : ℂ)) (I1 := fun x => Complex.I / Z * (Real.sin (b * x) : ℝ))
    (V2 := fun x => Complex.I * Z * (Real.sin (b * x) : ℝ)) (I2 := fun x => ((Real.cos (b * x) : ℝ) : ℂ))]
  · constructor
    · rintro ⟨h1, h2⟩
      exact ⟨by rw [h1]; ring, by rw [h2]; ring⟩
    · rintro ⟨h1, h2⟩
      exact ⟨by rw [h1]; ring, by rw [h2]; ring⟩
  · intro x
    refine ⟨(hasDerivAt_cos_mul b x).congr_deriv ?_, ((hasDerivAt_sin_mul b x).const_mul (Complex.I / Z)).congr_deriv ?_⟩
    · field_simp
      linear_combination (-(b : ℂ) * (Real.sin (b * x) : ℝ)) * hI
    · field_simp
  · intro x
    refine ⟨((hasDerivAt_sin_mul b x).const_mul (Complex.I * Z)).congr_deriv ?_, (hasDerivAt_cos_mul b x).congr_deriv ?_⟩
    · ring
    · field_simp
      linear_combination (-(b : ℂ) * (Real.sin (b * x) : ℝ)) * hI
  · simp
  · simp
  · simp
  · simp

/-- the two port laws of one mode -/
theorem mode_algebra {c n s k Z e N v0 v1 i0 i1 : ℂ} (hs : s ≠ 0) (hN : N ≠ 0) (hZ : Z ≠ 0) (he0 : e ≠ 0) (hNd : N = s * c + Complex.I * n) (hcn : c ^ 2 + n ^ 2 = 1)
    (h1 : e * s = 1 + k) (h2 : (1 - k) * e = s) :
    (v0 - Z * i0 = Complex.I * k * n / N * (v0 + Z * i0) + s / N * (v1 + Z * i1) ∧ v1 - Z * i1 = s / N * (v0 + Z * i0) + Complex.I * k * n / N * (v1 + Z * i1)) ↔
    v1 = c * v0 - Complex.I * (Z * e) * n * i0 ∧ i1 = Complex.I / (Z * e) * n * v0 - c * i0 := by
  have hI := Complex.I_mul_I
  obtain ⟨u, hu⟩ : ∃ u, e * u = 1 := ⟨e⁻¹, mul_inv_cancel₀ he0⟩
  have hsu : s * u = 1 - k := by linear_combination (-u) * h2 + (1 - k) * hu
  have hue : Complex.I / (Z * e) = Complex.I * u / Z := by
    rw [div_eq_div_iff (mul_ne_zero hZ he0) hZ]
    linear_combination (-Complex.I * Z) * hu
  rw [hue]
  obtain ⟨r1, hr1⟩ : ∃ r1, r1 = v1 - (c * v0 - Complex.I * (Z * e) * n * i0) := ⟨_, rfl⟩
  obtain ⟨r2, hr2⟩ : ∃ r2, r2 = Z * (i1 - (Complex.I * u / Z * n * v0 - c * i0)) := ⟨_, rfl⟩
  have hr2' : r2 = Z * i1 - Complex.I * u * n * v0 + c * Z * i0 := by
    rw [hr2]
    field_simp
    ring
  have E1 : N * (v0 - Z * i0 - (Complex.I * k * n / N * (v0 + Z * i0) + s / N * (v1 + Z * i1))) = -s * (r1 + r2) := by
    have e1 : N * (v0 - Z * i0 - (Complex.I * k * n / N * (v0 + Z * i0) + s / N * (v1 + Z * i1))) =
        N * (v0 - Z * i0) - Complex.I * k * n * (v0 + Z * i0) - s * (v1 + Z * i1) := by field_simp; ring
    rw [e1, hr1, hr2', hNd]
    linear_combination (-Complex.I * n * v0) * hsu + (Complex.I * n * Z * i0) * h1
  have E2 : N * (v1 - Z * i1 - (s / N * (v0 + Z * i0) + Complex.I * k * n / N * (v1 + Z * i1))) = N * (r1 - r2) - Complex.I * k * n * (r1 + r2) := by
    have e1 : N * (v1 - Z * i1 - (s / N * (v0 + Z * i0) + Complex.I * k * n / N * (v1 + Z * i1))) =
        N * (v1 - Z * i1) - s * (v0 + Z * i0) - Complex.I * k * n * (v1 + Z * i1) := by field_simp; ring
    rw [e1, hr1, hr2', hNd]
    linear_combination v0 * (s * hcn - u * n ^ 2 * (1 + k) * hI - Complex.I * n * c * hsu - n ^ 2 * u * h1 + n ^ 2 * s * hu) +
      Z * i0 * (s * hcn - e * n ^ 2 * (1 - k) * hI + n ^ 2 * h2 - Complex.I * n * c * h1)
  constructor
  · rintro ⟨a, b⟩
    rw [a, sub_self, mul_zero] at E1
    rw [b, sub_self, mul_zero] at E2
    have h12 : r1 + r2 = 0 := by
      have := mul_eq_zero.1 E1.symm
      exact this.resolve_left (neg_ne_zero.2 hs)
    rw [h12, mul_zero, sub_zero] at E2
    have h12' : r1 - r2 = 0 := (mul_eq_zero.1 E2.symm).resolve_left hN
    have z1 : r1 = 0 := by linear_combination (h12 + h12') / 2
    have z2 : r2 = 0 := by linear_combination (h12 - h12') / 2
    rw [hr1] at z1
    rw [hr2] at z2
    exact ⟨sub_eq_zero.1 z1, sub_eq_zero.1 ((mul_eq_zero.1 z2).resolve_left hZ)⟩
  · rintro ⟨a, b⟩
    have z1 : r1 = 0 := by rw [hr1, a, sub_self]
    have z2 : r2 = 0 := by rw [hr2, b, sub_self, mul_zero]
    rw [z1, z2, add_zero, mul_zero] at E1
    rw [z1, z2, sub_self, add_zero, mul_zero, mul_zero, sub_zero] at E2
    exact ⟨sub_eq_zero.1 ((mul_eq_zero.1 E1).resolve_left hN), sub_eq_zero.1 ((mul_eq_zero.1 E2).resolve_left hN)⟩

/-- on the own reference -/
theorem strips_own {o : Obj} {Z f : ℝ} {S : Mat4} (hZ : Z ≠ 0) (hk : o.kc ^ 2 < 1) (h : get1S o f = .ok S) (v i : Fin 4 → ℂ) :
    ScatterV (Z : ℂ) S v i ↔ Strips o.kc Z f (lengthAt o f) v i := by
  unfold get1S at h
  have hl : ∀ l, (match truthy o.Lc with
    | some l => .ok l
    | none => if f = 0 then .error .zeroDivision else .ok (c0 / (4 * f)) : Except Err ℝ) = .ok l → l = lengthAt o f := by
    intro l hl
    unfold lengthAt
    cases ht : truthy o.Lc with
    | some l' => simp only [ht] at hl; cases hl; rfl
    | none =>
      simp only [ht] at hl
      split at hl
      · cases hl
      · cases hl; rfl
  split at h
  · cases h
  rename_i l hlm
  have hl' := hl l hlm
  subst hl'
  simp only at h
  rw [if_neg (by linarith)] at h
  split at h
  · cases h
  rename_i hN
  injection h with h
  subst h
  set L := lengthAt o f with hL
  set k := o.kc with hkd
  set s := Real.sqrt (1 - k ^ 2) with hsd
  have hs2 : s ^ 2 = 1 - k ^ 2 := Real.sq_sqrt (by linarith)
  have hs : s ≠ 0 := by intro h0; rw [h0] at hs2; linarith
  have hc0 : c0 ≠ 0 := by norm_num [c0]
  have hk1 : 1 + k ≠ 0 := by intro h0; nlinarith
  have hk2 : 1 - k ≠ 0 := by intro h0; nlinarith
  obtain ⟨b, hb⟩ : ∃ b : ℝ, b = 2 * Real.pi * f / c0 := ⟨_, rfl⟩
  rw [← hb] at hN ⊢
  have hsC : (s : ℂ) ≠ 0 := by exact_mod_cast hs
  have hZC : (Z : ℂ) ≠ 0 := by exact_mod_cast hZ
  have hcC : (c0 : ℂ) ≠ 0 := by exact_mod_cast hc0
  have hk1C : (1 + k : ℂ) ≠ 0 := by exact_mod_cast hk1
  have hk2C : (1 - k : ℂ) ≠ 0 := by exact_mod_cast hk2
  have hs2C : (s : ℂ) ^ 2 = 1 - (k : ℂ) ^ 2 := by exact_mod_cast hs2
  have hbC : (b : ℂ) = (2 * Real.pi * f : ℝ) / c0 := by rw [hb]; push_cast; ring
  have hcn : ((Real.cos (b * L) : ℝ) : ℂ) ^ 2 + ((Real.sin (b * L) : ℝ) : ℂ) ^ 2 = 1 := by
    exact_mod_cast Real.cos_sq_add_sin_sq (b * L)
  -- the impedance of the modes, relative to Z
  have ee : ((1 + k : ℂ) / s) * s = 1 + k := by field_simp
  have ee' : (1 - (k : ℂ)) * ((1 + k : ℂ) / s) = s := by field_simp; linear_combination -hs2C
  have eo : ((1 - k : ℂ) / s) * s = 1 + -k := by field_simp; ring
  have eo' : (1 - -(k : ℂ)) * ((1 - k : ℂ) / s) = s := by field_simp; linear_combination -hs2C
  unfold Strips
  dsimp only
  rw [coupled_modes]
  have z1 : Complex.I * ((2 * Real.pi * f : ℝ) : ℂ) * ((Z / (c0 * s) : ℝ) : ℂ) + Complex.I * ((2 * Real.pi * f : ℝ) : ℂ) * ((k : ℂ) * ((Z / (c0 * s) : ℝ) : ℂ)) =
      Complex.I * b * (Z * ((1 + k) / s)) := by rw [hbC]; push_cast; field_simp
  have y1 : Complex.I * ((2 * Real.pi * f : ℝ) : ℂ) * ((1 / (Z * c0 * s) : ℝ) : ℂ) + Complex.I * ((2 * Real.pi * f : ℝ) : ℂ) * (-(k : ℂ) * ((1 / (Z * c0 * s) : ℝ) : ℂ)) =
      Complex.I * b / (Z * ((1 + k) / s)) := by
    rw [hbC]; push_cast; field_simp; linear_combination (-(f : ℂ)) * hs2C
  have z2 : Complex.I * ((2 * Real.pi * f : ℝ) : ℂ) * ((Z / (c0 * s) : ℝ) : ℂ) - Complex.I * ((2 * Real.pi * f : ℝ) : ℂ) * ((k : ℂ) * ((Z / (c0 * s) : ℝ) : ℂ)) =
      Complex.I * b * (Z * ((1 - k) / s)) := by rw [hbC]; push_cast; field_simp
  have y2 : Complex.I * ((2 * Real.pi * f : ℝ) : ℂ) * ((1 / (Z * c0 * s) : ℝ) : ℂ) - Complex.I * ((2 * Real.pi * f : ℝ) : ℂ) * (-(k : ℂ) * ((1 / (Z * c0 * s) : ℝ) : ℂ)) =
      Complex.I * b / (Z * ((1 - k) / s)) := by
    rw [hbC]; push_cast; field_simp; linear_combination (-(f : ℂ)) * hs2C
  rw [z1, y1, z2, y2, lossless_line (mul_ne_zero hZC (div_ne_zero hk1C hsC)), lossless_line (mul_ne_zero hZC (div_ne_zero hk2C hsC))]
  simp only [Matrix.cons_val_zero, Matrix.cons_val_one]
  obtain ⟨N, hNd⟩ : ∃ N : ℂ, N = s * (Real.cos (b * L) : ℝ) + Complex.I * (Real.sin (b * L) : ℝ) := ⟨_, rfl⟩
  rw [← hNd] at hN ⊢
  rw [← mode_algebra (k := (k : ℂ)) hsC hN hZC (div_ne_zero hk1C hsC) hNd hcn ee ee', ← mode_algebra (k := -(k : ℂ)) hsC hN hZC (div_ne_zero hk2C hsC) hNd hcn eo eo']
  have e4 : ScatterV (Z : ℂ) (!![0, (s : ℂ) / N, Complex.I * k * (Real.sin (b * L) : ℝ) / N, 0; s / N, 0, 0, Complex.I * k * (Real.sin (b * L) : ℝ) / N;
      Complex.I * k * (Real.sin (b * L) : ℝ) / N, 0, 0, s / N; 0, Complex.I * k * (Real.sin (b * L) : ℝ) / N, s / N, 0] : Mat4) v i ↔
      (v 0 - Z * i 0 = s / N * (v 1 + Z * i 1) + Complex.I * k * (Real.sin (b * L) : ℝ) / N * (v 2 + Z * i 2) ∧
       v 1 - Z * i 1 = s / N * (v 0 + Z * i 0) + Complex.I * k * (Real.sin (b * L) : ℝ) / N * (v 3 + Z * i 3)) ∧
      (v 2 - Z * i 2 = Complex.I * k * (Real.sin (b * L) : ℝ) / N * (v 0 + Z * i 0) + s / N * (v 3 + Z * i 3) ∧
       v 3 - Z * i 3 = Complex.I * k * (Real.sin (b * L) : ℝ) / N * (v 1 + Z * i 1) + s / N * (v 2 + Z * i 2)) := by
    generalize (s : ℂ) / N = A
    generalize Complex.I * k * (Real.sin (b * L) : ℝ) / N = B
    unfold ScatterV
    constructor
    · intro H
      have h0 := congrFun H 0
      have h1 := congrFun H 1
      have h2 := congrFun H 2
      have h3 := congrFun H 3
      simp [Matrix.mulVec, dotProduct, Fin.sum_univ_four] at h0 h1 h2 h3
      exact ⟨⟨by linear_combination 2 * h0, by linear_combination 2 * h1⟩, by linear_combination 2 * h2, by linear_combination 2 * h3⟩
    · rintro ⟨⟨h0, h1⟩, h2, h3⟩
      funext j
      fin_cases j
      · simp [Matrix.mulVec, dotProduct, Fin.sum_univ_four]
        linear_combination h0 / 2
      · simp [Matrix.mulVec, dotProduct, Fin.sum_univ_four]
        linear_combination h1 / 2
      · simp [Matrix.mulVec, dotProduct, Fin.sum_univ_four]
        linear_combination h2 / 2
      · simp [Matrix.mulVec, dotProduct, Fin.sum_univ_four]
        linear_combination h3 / 2
  rw [e4]
  generalize (s : ℂ) / N = A
  have em : Complex.I * -(k : ℂ) * (Real.sin (b * L) : ℝ) / N = -(Complex.I * k * (Real.sin (b * L) : ℝ) / N) := by ring
  rw [em]
  generalize Complex.I * k * (Real.sin (b * L) : ℝ) / N = B
  constructor
  · rintro ⟨⟨a, b⟩, c, d⟩
    exact ⟨⟨by linear_combination a + c, by linear_combination b + d⟩, by linear_combination a - c, by linear_combination b - d⟩
  · rintro ⟨⟨a, b⟩, c, d⟩
    exact ⟨⟨by linear_combination (a + c) / 2, by linear_combination (b + d) / 2⟩, by linear_combination (a - c) / 2, by linear_combination (b - d) / 2⟩

/-- **C81 (coupled lines).** The matrix an rfCoupler of impedance `Zbase` and coupling `kc` returns, on whatever reference it is asked for, relates exactly the port
voltages and currents of two coupled strips of that impedance and coupling, with its length, at every frequency. -/
theorem C81_coupled_lines {o : Obj} {Zself f : ℝ} {Zb : Option ℝ} {S : Mat4} (hZ : Zself ≠ 0) (hz : Zb.getD Zself ≠ 0) (hk : o.kc ^ 2 < 1)
    (h : RfBase.getS (get1S o) Zself Zb f = .ok S) (v i : Fin 4 → ℂ) :
    ScatterV (Zb.getD Zself : ℂ) S v i ↔ Strips o.kc Zself f (lengthAt o f) v i := by
  obtain ⟨T, hT, -, hVI⟩ := RfBase.C34_getS_reference hz h
  rw [← hVI, strips_own hZ hk hT]

open Classical in
theorem get1S_total {o : Obj} {f : ℝ} (hf : truthy o.Lc ≠ none ∨ f ≠ 0) (hk : o.kc ^ 2 < 1) : ∃ S, get1S o f = .ok S := by
  unfold get1S
  split
  · rename_i e he
    exfalso
    cases ht : truthy o.Lc with
    | some l => simp only [ht] at he; cases he
    | none => simp only [ht] at he; rw [if_neg (hf.resolve_left fun h => h ht)] at he; cases he
  rename_i l _
  simp only
  rw [if_neg (by linarith), if_neg]
  · exact ⟨_, rfl⟩
  · intro h0
    have hre := congrArg Complex.re h0
    have him := congrArg Complex.im h0
    simp [-Complex.ofReal_cos, -Complex.ofReal_sin] at hre him
    have hs : 0 < Real.sqrt (1 - o.kc ^ 2) := Real.sqrt_pos.2 (by linarith)
    have hcs := Real.sin_sq_add_cos_sq (2 * Real.pi * f / c0 * l)
    rcases hre with hre | hre
    · exact hs.ne' hre
    · rw [hre, him] at hcs; norm_num at hcs

theorem getS_own {o : Obj} {Zself f : ℝ} : RfBase.getS (get1S o) Zself none f = get1S o f := by
  unfold RfBase.getS RfBase.getSs
  cases h : get1S o f with
  | error e => simp [mapE, h]
  | ok T =>
    have : mapE (get1S o) [f] = .ok [T] := by simp [mapE, h]
    rw [this]
    simp [RfBase.arr, RfBase.first]

open Classical in
/-- **C81 (total).** It answers on its own reference at every frequency, except at 0 when it has no length of its own; with a coupling above 1 it never answers. -/
theorem C81_answers (o : Obj) (Zself f : ℝ) :
    (o.kc ^ 2 < 1 → truthy o.Lc ≠ none ∨ f ≠ 0 → ∃ S, RfBase.getS (get1S o) Zself none f = .ok S) ∧
    (truthy o.Lc = none → RfBase.getS (get1S o) Zself none 0 = .error .zeroDivision) ∧
    (1 < o.kc ^ 2 → f ≠ 0 → RfBase.getS (get1S o) Zself none f = .error .nonFinite) := by
  simp only [getS_own]
  refine ⟨fun hk hf => get1S_total hf hk, fun hl => ?_, fun hk hf => ?_⟩
  · unfold get1S
    rw [hl]
    simp
  · unfold get1S
    split
    · rename_i e he
      exfalso
      cases ht : truthy o.Lc with
      | some l => simp only [ht] at he; cases he
      | none => simp only [ht] at he; rw [if_neg hf] at he; cases he
    simp only
    rw [if_pos (by linarith)]

/-- **C81 (constructor).** A coupler made with a coupling below 1, in dB or by default couples less than 1, and has the length given, the quarter wavelength at the
centre frequency given, or that at the frequency asked for. -/
theorem C81_constructor {kc kcdB Lc f0Hz : Option ℝ} {o : Obj} (h : init kc kcdB Lc f0Hz = .ok o) (hk : ∀ k, kc = some k → k ^ 2 < 1) (f : ℝ) :
    o.kc ^ 2 < 1 ∧ (∀ l, Lc = some l → l ≠ 0 → lengthAt o f = l) ∧ (∀ f0, f0Hz = some f0 → f0 ≠ 0 → lengthAt o f = c0 / (4 * f0)) ∧
      (Lc = none → f0Hz = none → lengthAt o f = c0 / (4 * f)) := by
  have tn : truthy (none : Option ℝ) = none := rfl
  have hdB : ∀ d : ℝ, d ≠ 0 → ((10 : ℝ) ^ (-|d| / 20)) ^ 2 < 1 := by
    intro d hd
    have h1 : (10 : ℝ) ^ (-|d| / 20) < 1 := Real.rpow_lt_one_of_one_lt_of_neg (by norm_num) (by have := abs_pos.2 hd; linarith)
    have h0 : (0 : ℝ) < (10 : ℝ) ^ (-|d| / 20) := Real.rpow_pos_of_pos (by norm_num) _
    nlinarith
  have htr : ∀ (x : Option ℝ) y, truthy x = some y → x = some y ∧ y ≠ 0 := by
    intro x y hx
    cases x with
    | none => cases hx
    | some z =>
      by_cases hz : z = 0
      · subst hz; rw [truthy_zero] at hx; cases hx
      · rw [truthy_some hz] at hx; cases hx; exact ⟨rfl, hz⟩
  unfold init at h
  split at h
  · cases h
  rename_i k d hkd
  have hkk : k ^ 2 < 1 := by
    cases hk1 : truthy kc with
    | some k' =>
      rw [hk1] at hkd
      cases hk2 : truthy kcdB with
      | some d' => rw [hk2] at hkd; cases hkd
      | none =>
        rw [hk2] at hkd
        cases hkd
        exact hk _ (htr _ _ hk1).1
    | none =>
      rw [hk1] at hkd
      cases hk2 : truthy kcdB with
      | some d' => rw [hk2] at hkd; cases hkd; exact hdB _ (htr _ _ hk2).2
      | none =>
        rw [hk2] at hkd
        cases hkd
        rw [Real.sq_sqrt (by norm_num)]; norm_num
  cases hL : truthy Lc with
  | some l =>
    rw [hL] at h
    obtain ⟨hLc, hl0⟩ := htr _ _ hL
    cases hf : truthy f0Hz with
    | some f0 => rw [hf] at h; cases h
    | none =>
      rw [hf] at h
      cases h
      have e : ∀ f, lengthAt ⟨k, d, some l, some (c0 / (4 * l))⟩ f = l := fun f => by unfold lengthAt; rw [truthy_some hl0]; rfl
      refine ⟨hkk, fun l' h1 _ => ?_, fun f0 h1 h2 => ?_, fun h1 _ => ?_⟩
      · rw [hLc] at h1; cases h1; exact e f
      · rw [h1, truthy_some h2] at hf; cases hf
      · rw [hLc] at h1; cases h1
  | none =>
    rw [hL] at h
    cases hf : truthy f0Hz with
    | some f0 =>
      rw [hf] at h
      cases h
      obtain ⟨hfc, hf0⟩ := htr _ _ hf
      have hne : c0 / (4 * f0) ≠ 0 := div_ne_zero (by norm_num [c0]) (by simpa using hf0)
      have e : ∀ f, lengthAt ⟨k, d, some (c0 / (4 * f0)), some f0⟩ f = c0 / (4 * f0) := fun f => by unfold lengthAt; rw [truthy_some hne]; rfl
      refine ⟨hkk, fun l' h1 h2 => ?_, fun f0' h1 h2 => ?_, fun _ h1 => ?_⟩
      · rw [h1, truthy_some h2] at hL; cases hL
      · rw [hfc] at h1; cases h1; exact e f
      · rw [hfc] at h1; cases h1
    | none =>
      rw [hf] at h
      cases h
      refine ⟨hkk, fun l' h1 h2 => ?_, fun f0' h1 h2 => ?_, fun _ _ => ?_⟩
      · rw [h1, truthy_some h2] at hL; cases hL
      · rw [h1, truthy_some h2] at hf; cases hf
      · unfold lengthAt
        rw [hL]; rfl

/-- **C81 (in a circuit).** So in the circuits of C80 a coupler stands for its coupled strips. -/
theorem C81_in_circuits {o : Obj} {Z f : ℝ} (hZ : Z ≠ 0) (hk : o.kc ^ 2 < 1) (ha : truthy o.Lc ≠ none ∨ f ≠ 0) (v i : ℕ → ℂ) :
    (Circuit.Part.base 4 (get1S o) Z).Law f v i ↔ Strips o.kc Z f (lengthAt o f) (fun j => v j) (fun j => i j) := by
  obtain ⟨T, hT⟩ := get1S_total ha hk
  unfold Circuit.Part.Law
  rw [← strips_own hZ hk hT]
  constructor
  · rintro ⟨T', hT', h⟩
    rw [hT] at hT'
    cases hT'
    exact h
  · intro h
    exact ⟨T, hT, h⟩

/-- the hypotheses are met by the default coupler made for 30 Ω, with the law of strips that couple by `√½` -/
theorem C81_witness (f : ℝ) (hf : f ≠ 0) : ∃ o S, init none none none none = .ok o ∧ RfBase.getS (get1S o) 30 none f = .ok S ∧ o.kc ^ 2 = 1 / 2 ∧
    ∀ v i, ScatterV ((30 : ℝ) : ℂ) S v i ↔ Strips o.kc 30 f (c0 / (4 * f)) v i := by
  obtain ⟨o, S, h1, h2, -⟩ := C16_witness f hf
  obtain ⟨hk, -, -, hl⟩ := C81_constructor h1 (by simp) f
  refine ⟨o, S, h1, by rw [getS_own]; exact h2, (C16_zero_coupling_ignored none none).2.2 o h1, fun v i => ?_⟩
  rw [← hl rfl rfl]
  exact C81_coupled_lines (Zb := none) (by norm_num) (by norm_num) hk (by rw [getS_own]; exact h2) v i

end PyRFtk.Coupler
