import Verif.Interp
import Verif.RfObjectFile

/-!
# Interpolation of measured data: theorems (C66)
-/

namespace PyRFtk.RfObject

variable {n : ℕ} {I : Interp1}

/-! ## specification: responses that interpolation must reproduce -/

/-- one entry of a response: magnitude `a f + b`, phase `t f + p` (a delay) -/
noncomputable def delayed (a b t p f : ℝ) : ℂ := ((a * f + b : ℝ) : ℂ) * Complex.exp (Complex.I * ((t * f + p : ℝ) : ℂ))

/-- a matrix of such entries -/
noncomputable def Delayed (a b t p : Fin n → Fin n → ℝ) (f : ℝ) : Mat n := fun i j => delayed (a i j) (b i j) (t i j) (p i j) f

/-- one entry with a magnitude that varies exponentially, and a delay -/
noncomputable def grown (a b t p f : ℝ) : ℂ := Complex.exp (((a * f + b : ℝ) : ℂ) + Complex.I * ((t * f + p : ℝ) : ℂ))

noncomputable def Grown (a b t p : Fin n → Fin n → ℝ) (f : ℝ) : Mat n := fun i j => grown (a i j) (b i j) (t i j) (p i j) f

/-- a straight line in the complex plane, for each entry -/
noncomputable def Straight (A B : Mat n) (f : ℝ) : Mat n := (f : ℂ) • A + B

/-- the frequencies are close enough: the phase of every entry turns by less than half a turn from one to the next, and no entry vanishes
at one of them unless it vanishes altogether -/
def Resolved (a b t : Fin n → Fin n → ℝ) (fs : List ℝ) : Prop :=
  (∀ i j, fs.IsChain fun x y => |t i j * (y - x)| < Real.pi) ∧
  ∀ i j, (a i j = 0 ∧ b i j = 0) ∨ ∀ f ∈ fs, 0 < a i j * f + b i j

/-! ## proofs -/

theorem polar (z : ℂ) {t : ℝ} (h : SameDirection t z.arg) : (‖z‖ : ℂ) * Complex.exp (Complex.I * t) = z := by
  rw [exp_sameDirection h, mul_comm Complex.I]
  exact Complex.norm_mul_exp_arg_mul_I z

theorem arg_dir {r t : ℝ} (hr : 0 < r) : SameDirection ((r : ℂ) * Complex.exp (Complex.I * t)).arg t := by
  have h := Complex.norm_mul_exp_arg_mul_I ((r : ℂ) * Complex.exp (Complex.I * t))
  have hn : ‖(r : ℂ) * Complex.exp (Complex.I * t)‖ = r := by
    rw [norm_mul, mul_comm Complex.I, Complex.norm_exp_ofReal_mul_I, Complex.norm_real, Real.norm_eq_abs, abs_of_pos hr, mul_one]
  rw [hn] at h
  have hr' : (r : ℂ) ≠ 0 := by exact_mod_cast hr.ne'
  have h := mul_left_cancel₀ hr' h
  rw [Complex.exp_eq_exp_iff_exists_int] at h
  obtain ⟨m, hm⟩ := h
  refine ⟨m, ?_⟩
  have h2 : ((Complex.arg ((r : ℂ) * Complex.exp (Complex.I * t)) : ℝ) : ℂ) = ((t + 2 * Real.pi * m : ℝ) : ℂ) := by
    apply mul_right_cancel₀ Complex.I_ne_zero
    rw [hm]; push_cast; ring
  exact_mod_cast h2

theorem norm_delayed {r t : ℝ} (hr : 0 ≤ r) : ‖(r : ℂ) * Complex.exp (Complex.I * t)‖ = r := by
  rw [norm_mul, mul_comm Complex.I, Complex.norm_exp_ofReal_mul_I, Complex.norm_real, Real.norm_eq_abs, abs_of_nonneg hr, mul_one]

theorem phases_at {Ss : List (Mat n)} {i j : Fin n} {k : ℕ} (hk : k < Ss.length) :
    ∃ h : k < (phases Ss i j).length, SameDirection (phases Ss i j)[k] (Ss[k] i j).arg := by
  have h := unwrap_dir (Ss.map fun S => (S i j).arg)
  rw [List.forall₂_iff_get] at h
  have hl : k < (phases Ss i j).length := by unfold phases; rw [unwrap_length]; simpa using hk
  refine ⟨hl, ?_⟩
  have := h.2 k hl (by simpa using hk)
  simpa [phases] using this

theorem build_of {mode : Mode} {k : ℕ} {fs : List ℝ} {Ss : List (Mat n)} (hne : fs ≠ []) {G} (hG : I fs (min (fs.length - 1) k) = .ok G) :
    buildWith I mode (.order k) fs Ss = .ok (evalWith G mode Ss) := by
  unfold buildWith
  simp only [if_neg hne, hG]

/-- **C66**: the interpolation goes through the data: for distinct frequencies it can be built, and at a frequency of the table it gives the
matrix of the table (in mode dB provided no entry is 0).  So it makes no difference whether a frequency is found in the table. -/
theorem C66_through_the_data (hI : I.Sound) (mode : Mode) (k : ℕ) {fs : List ℝ} {Ss : List (Mat n)} (hl : fs.length = Ss.length) (hne : fs ≠ [])
    (hd : fs.Nodup) (h0 : mode = .dB → ∀ S ∈ Ss, ∀ i j, S i j ≠ 0) :
    ∃ F, buildWith I mode (.order k) fs Ss = .ok F ∧ ∀ (m : ℕ) (h : m < fs.length), F fs[m] = .ok Ss[m] := by
  have hpos := List.length_pos_iff.2 hne
  obtain ⟨G, hG⟩ := hI.made fs (min (fs.length - 1) k) hd (by omega)
  have node : ∀ {ys : List ℝ}, ys.length = fs.length → ∀ m (h : m < fs.length) (h' : m < ys.length), G ys fs[m] = ys[m] :=
    fun hy m h h' => hI.node hG hd hy m h h'
  have hmap : ∀ (g : Mat n → ℝ) (m : ℕ) (h : m < fs.length), G (Ss.map g) fs[m] = g Ss[m] := by
    intro g m h
    rw [node (by simp [hl]) m h (by simp; omega)]
    simp
  have hph : ∀ (i j : Fin n) (m : ℕ) (h : m < fs.length), SameDirection (G (phases Ss i j) fs[m]) (Ss[m] i j).arg := by
    intro i j m h
    obtain ⟨h1, h2⟩ := phases_at (Ss := Ss) (i := i) (j := j) (k := m) (by omega)
    rw [node (by unfold phases; rw [unwrap_length]; simp [hl]) m h h1]
    exact h2
  refine ⟨_, build_of hne hG, fun m h => ?_⟩
  unfold evalWith
  cases mode with
  | MA =>
    simp only [hmap]
    congr 1
    funext i j
    exact polar _ (hph i j m h)
  | dB =>
    have hz := h0 rfl
    rw [if_neg (by push Not; exact fun S hS i j => hz S hS i j)]
    simp only
    congr 1
    funext i j
    rw [hmap, Complex.exp_add, ← Complex.ofReal_exp, Real.exp_log (norm_pos_iff.2 (hz _ (List.getElem_mem _) i j))]
    exact polar _ (hph i j m h)
  | RI =>
    simp only [hmap]
    congr 1
    funext i j
    rw [mul_comm]
    exact Complex.re_add_im _

theorem affine_phase {fs : List ℝ} (hne : fs ≠ []) {a b t p : ℝ} (hc : fs.IsChain fun x y => |t * (y - x)| < Real.pi)
    (hr : ∀ f ∈ fs, 0 < a * f + b) : ∃ c, SameDirection c p ∧
      unwrap (fs.map fun f => (delayed a b t p f).arg) = fs.map fun f => t * f + c := by
  cases fs with
  | nil => exact absurd rfl hne
  | cons f0 fs =>
    obtain ⟨m0, h0⟩ : SameDirection (delayed a b t p f0).arg (t * f0 + p) := arg_dir (hr f0 (by simp))
    refine ⟨(delayed a b t p f0).arg - t * f0, ⟨m0, by rw [h0]; ring⟩, unwrap_unique ?_ ?_ ?_⟩
    · rw [List.forall₂_map_left_iff, List.forall₂_map_right_iff, List.forall₂_same]
      intro f hf
      obtain ⟨m, h1⟩ : SameDirection (delayed a b t p f).arg (t * f + p) := arg_dir (hr f hf)
      exact ⟨m0 - m, by rw [h1, h0]; push_cast; ring⟩
    · simp
    · rw [List.isChain_map]
      refine hc.imp fun x y h => ?_
      rwa [show t * y + ((delayed a b t p f0).arg - t * f0) - (t * x + ((delayed a b t p f0).arg - t * f0)) = t * (y - x) by ring]

/-- **C66**: entries whose magnitude is a straight line and whose phase is a delay are reproduced exactly at every frequency, between and
beyond those of the table, when there are at least two, at which the phase turns by less than half a turn from one to the next. -/
theorem C66_delay (hI : I.Sound) {k : ℕ} (hk : 1 ≤ k) {fs : List ℝ} (h2 : 2 ≤ fs.length) (hd : fs.Nodup) {a b t p : Fin n → Fin n → ℝ}
    (hres : Resolved a b t fs) :
    ∃ F, buildWith I .MA (.order k) fs (fs.map (Delayed a b t p)) = .ok F ∧ ∀ f, F f = .ok (Delayed a b t p f) := by
  have hne : fs ≠ [] := by intro h; rw [h] at h2; simp at h2
  obtain ⟨G, hG⟩ := hI.made fs (min (fs.length - 1) k) hd (by omega)
  have haff := fun a b x => hI.affine hG hd (by omega) a b x
  refine ⟨_, build_of hne hG, fun f => ?_⟩
  unfold evalWith
  simp only
  congr 1
  funext i j
  show _ = delayed (a i j) (b i j) (t i j) (p i j) f
  unfold phases
  simp only [List.map_map, Function.comp_def]
  rcases hres.2 i j with ⟨ha, hb⟩ | hr
  · have e : (fs.map fun x => ‖Delayed a b t p x i j‖) = fs.map fun x => 0 * x + 0 := by
      apply List.map_congr_left
      intro x _
      simp [Delayed, delayed, ha, hb]
    rw [e, haff]
    simp [delayed, ha, hb]
  · have e : (fs.map fun x => ‖Delayed a b t p x i j‖) = fs.map fun x => a i j * x + b i j := by
      apply List.map_congr_left
      intro x hx
      exact norm_delayed (hr x hx).le
    obtain ⟨c, hc, e2⟩ := affine_phase hne (p := p i j) (hres.1 i j) hr
    have e2 : unwrap (fs.map fun x => (Delayed a b t p x i j).arg) = fs.map fun f => t i j * f + c := e2
    rw [e, e2, haff, haff]
    unfold delayed
    rw [exp_sameDirection (a := t i j * f + c) (b := t i j * f + p i j)]
    obtain ⟨m, rfl⟩ := hc
    exact ⟨m, by ring⟩

theorem grown_eq (a b t p f : ℝ) : grown a b t p f = ((Real.exp (a * f + b) : ℝ) : ℂ) * Complex.exp (Complex.I * ((t * f + p : ℝ) : ℂ)) := by
  unfold grown; rw [Complex.exp_add, Complex.ofReal_exp]

theorem grown_phase {fs : List ℝ} (hne : fs ≠ []) {a b t p : ℝ} (hc : fs.IsChain fun x y => |t * (y - x)| < Real.pi) :
    ∃ c, SameDirection c p ∧ unwrap (fs.map fun f => (grown a b t p f).arg) = fs.map fun f => t * f + c := by
  cases fs with
  | nil => exact absurd rfl hne
  | cons f0 fs =>
    have hdir : ∀ f, SameDirection (grown a b t p f).arg (t * f + p) := fun f => by rw [grown_eq]; exact arg_dir (Real.exp_pos _)
    obtain ⟨m0, h0⟩ := hdir f0
    refine ⟨(grown a b t p f0).arg - t * f0, ⟨m0, by rw [h0]; ring⟩, unwrap_unique ?_ ?_ ?_⟩
    · rw [List.forall₂_map_left_iff, List.forall₂_map_right_iff, List.forall₂_same]
      intro f _
      obtain ⟨m, h1⟩ := hdir f
      exact ⟨m0 - m, by rw [h1, h0]; push_cast; ring⟩
    · simp
    · rw [List.isChain_map]
      refine hc.imp fun x y h => ?_
      rwa [show t * y + ((grown a b t p f0).arg - t * f0) - (t * x + ((grown a b t p f0).arg - t * f0)) = t * (y - x) by ring]

/-- **C66**: in mode dB exponentially varying magnitudes with a delay are reproduced exactly. -/
theorem C66_dB (hI : I.Sound) {k : ℕ} (hk : 1 ≤ k) {fs : List ℝ} (h2 : 2 ≤ fs.length) (hd : fs.Nodup) {a b t p : Fin n → Fin n → ℝ}
    (hc : ∀ i j, fs.IsChain fun x y => |t i j * (y - x)| < Real.pi) :
    ∃ F, buildWith I .dB (.order k) fs (fs.map (Grown a b t p)) = .ok F ∧ ∀ f, F f = .ok (Grown a b t p f) := by
  have hne : fs ≠ [] := by intro h; rw [h] at h2; simp at h2
  obtain ⟨G, hG⟩ := hI.made fs (min (fs.length - 1) k) hd (by omega)
  have haff := fun a b x => hI.affine hG hd (by omega) a b x
  refine ⟨_, build_of hne hG, fun f => ?_⟩
  unfold evalWith
  rw [if_neg (by
    push Not
    intro S hS i j
    obtain ⟨x, -, rfl⟩ := List.mem_map.1 hS
    exact Complex.exp_ne_zero _)]
  simp only
  congr 1
  funext i j
  show _ = grown (a i j) (b i j) (t i j) (p i j) f
  unfold phases
  simp only [List.map_map, Function.comp_def]
  have e : (fs.map fun x => Real.log ‖Grown a b t p x i j‖) = fs.map fun x => a i j * x + b i j := by
    apply List.map_congr_left
    intro x _
    show Real.log ‖grown (a i j) (b i j) (t i j) (p i j) x‖ = _
    rw [grown_eq, norm_delayed (Real.exp_pos _).le, Real.log_exp]
  obtain ⟨c, hcc, e2⟩ := grown_phase hne (a := a i j) (b := b i j) (p := p i j) (hc i j)
  have e2 : unwrap (fs.map fun x => (Grown a b t p x i j).arg) = fs.map fun f => t i j * f + c := e2
  rw [e, e2, haff, haff]
  unfold grown
  rw [Complex.exp_add, Complex.exp_add, exp_sameDirection (a := t i j * f + c) (b := t i j * f + p i j)]
  obtain ⟨m, rfl⟩ := hcc
  exact ⟨m, by ring⟩

/-- **C66**: in mode RI straight lines in the complex plane are reproduced exactly. -/
theorem C66_RI (hI : I.Sound) {k : ℕ} (hk : 1 ≤ k) {fs : List ℝ} (h2 : 2 ≤ fs.length) (hd : fs.Nodup) (A B : Mat n) :
    ∃ F, buildWith I .RI (.order k) fs (fs.map (Straight A B)) = .ok F ∧ ∀ f, F f = .ok (Straight A B f) := by
  have hne : fs ≠ [] := by intro h; rw [h] at h2; simp at h2
  obtain ⟨G, hG⟩ := hI.made fs (min (fs.length - 1) k) hd (by omega)
  have haff := fun a b x => hI.affine hG hd (by omega) a b x
  refine ⟨_, build_of hne hG, fun f => ?_⟩
  unfold evalWith
  simp only [List.map_map, Function.comp_def]
  congr 1
  funext i j
  have e1 : (fs.map fun x : ℝ => (Straight A B x i j).re) = fs.map fun x => (A i j).re * x + (B i j).re := by
    apply List.map_congr_left; intro x _; simp [Straight, mul_comm]
  have e2 : (fs.map fun x : ℝ => (Straight A B x i j).im) = fs.map fun x => (A i j).im * x + (B i j).im := by
    apply List.map_congr_left; intro x _; simp [Straight, mul_comm]
  rw [e1, e2, haff, haff]
  apply Complex.ext <;> simp [Straight, mul_comm]

/-- **C66**: an object with data at a single frequency answers with them at every frequency. -/
theorem C66_single (hI : I.Sound) (mode : Mode) (k : ℕ) (f0 : ℝ) (S : Mat n) (h0 : mode = .dB → ∀ i j, S i j ≠ 0) :
    ∃ F, buildWith I mode (.order k) [f0] [S] = .ok F ∧ ∀ f, F f = .ok S := by
  obtain ⟨G, hG⟩ := hI.made [f0] (min ([f0].length - 1) k) (by simp) (by simp)
  have hc := fun b x => hI.const hG (by simp) (by simp) b x
  simp only [List.map_cons, List.map_nil] at hc
  refine ⟨_, build_of (by simp) hG, fun f => ?_⟩
  unfold evalWith
  have hp : ∀ i j, phases [S] i j = [(S i j).arg] := fun i j => rfl
  cases mode with
  | MA =>
    simp only [List.map_cons, List.map_nil, hc, hp]
    congr 1
    funext i j
    exact polar _ ⟨0, by simp⟩
  | dB =>
    rw [if_neg (by push Not; intro T hT i j; rw [List.mem_singleton.1 hT]; exact h0 rfl i j)]
    simp only [List.map_cons, List.map_nil, hc, hp]
    congr 1
    funext i j
    rw [Complex.exp_add, ← Complex.ofReal_exp, Real.exp_log (norm_pos_iff.2 (h0 rfl i j))]
    exact polar _ ⟨0, by simp⟩
  | RI =>
    simp only [List.map_cons, List.map_nil, hc]
    congr 1
    funext i j
    rw [mul_comm]
    exact Complex.re_add_im _

theorem phases_twice (S : Mat n) (i j : Fin n) : phases [S, S] i j = [(S i j).arg, (S i j).arg] := by
  have h0 : correct 0 = 0 := by
    unfold correct
    rw [if_pos (by simpa using Real.pi_pos)]
  simp [phases, unwrap, unwrapFrom, h0]

/-- **C66**: an object made from an array answers with it at every frequency, in every mode. -/
theorem C66_array (hI : I.Sound) (env : Env n) (mode : Mode) (k : ℕ) (names : List String) (S : Mat n) (Z : ℝ)
    (h0 : mode = .dB → ∀ i j, S i j ≠ 0) (f : ℝ) : (getS (withInterp env I mode (.order k)) (ofArray names S Z) f none).2 = .ok S := by
  have hnd : ([0, 10 ^ 18] : List ℝ).Nodup := by norm_num
  obtain ⟨G, hG⟩ := hI.made [0, 10 ^ 18] (min (([0, 10 ^ 18] : List ℝ).length - 1) k) hnd (by simp)
  have hc := fun b x => hI.const hG hnd (by simp) b x
  simp only [List.map_cons, List.map_nil] at hc
  have hb : ∃ F, buildWith I mode (.order k) [0, 10 ^ 18] [S, S] = .ok F ∧ ∀ f, F f = .ok S := by
    refine ⟨_, build_of (by simp) hG, fun f => ?_⟩
    unfold evalWith
    have hp := phases_twice S
    cases mode with
    | MA =>
      simp only [List.map_cons, List.map_nil, hc, hp]
      congr 1
      funext i j
      exact polar _ ⟨0, by simp⟩
    | dB =>
      rw [if_neg (by
        push Not; intro T hT i j
        have : T = S := by simpa using hT
        rw [this]; exact h0 rfl i j)]
      simp only [List.map_cons, List.map_nil, hc, hp]
      congr 1
      funext i j
      rw [Complex.exp_add, ← Complex.ofReal_exp, Real.exp_log (norm_pos_iff.2 (h0 rfl i j))]
      exact polar _ ⟨0, by simp⟩
    | RI =>
      simp only [List.map_cons, List.map_nil, hc]
      congr 1
      funext i j
      rw [mul_comm]
      exact Complex.re_add_im _
  obtain ⟨F, hF, hF2⟩ := hb
  have hown : ∀ (z : ℝ) (T : Mat n), onRef z z T = .ok T := fun z T => if_pos rfl
  have h1 : (get1S (withInterp env I mode (.order k)) (ofArray names S Z) f).2 = .ok S := by
    unfold get1S
    split
    · rename_i m hm
      have hm' := List.mem_of_find?_eq_some hm
      have : m < 2 := by simpa [ofArray] using hm'
      interval_cases m <;> rfl
    · have : interpolators (withInterp env I mode (.order k)) (ofArray names S Z) =
          ({ (ofArray names S Z : Obj n) with interp := some F }, .ok F) := by
        unfold interpolators
        show (match buildWith I mode (.order k) [0, 10 ^ 18] [S, S] with | .error e => _ | .ok F => _) = _
        rw [hF]
      rw [this]
      exact hF2 f
  unfold getS
  generalize get1S (withInterp env I mode (.order k)) (ofArray names S Z) f = r at h1
  obtain ⟨o, x⟩ := r
  dsimp only at h1
  subst h1
  exact hown _ S

/-- **C66**: interpolation works entry by entry (whatever `interp1d` does): data of a reciprocal network give reciprocal answers, and
reordering the ports commutes with interpolating. -/
theorem C66_entrywise (env : Env n) (I : Interp1) (mode : Mode) (kind : KindArg) : (withInterp env I mode kind).Entrywise := by
  intro fs Ss σ hσ
  show buildWith I mode kind fs _ = match buildWith I mode kind fs Ss with
    | .error e => .error e
    | .ok F => .ok fun f => match F f with | .error e => .error e | .ok S => .ok (S.submatrix σ σ)
  unfold buildWith
  cases kind with
  | text s => rfl
  | order k =>
    simp only
    split
    · rfl
    · cases I fs (min (fs.length - 1) k) with
      | error e => rfl
      | ok G =>
        simp only
        congr 1
        funext f
        unfold evalWith
        cases mode with
        | MA =>
          simp only [phases, List.map_map, Function.comp_def, Matrix.submatrix_apply]
          rfl
        | RI =>
          simp only [List.map_map, Function.comp_def, Matrix.submatrix_apply]
          rfl
        | dB =>
          simp only
          have : (∃ S ∈ Ss.map (fun S => S.submatrix σ σ), ∃ i j, S i j = 0) ↔ ∃ S ∈ Ss, ∃ i j, S i j = 0 := by
            constructor
            · rintro ⟨S, hS, i, j, h⟩
              obtain ⟨T, hT, rfl⟩ := List.mem_map.1 hS
              exact ⟨T, hT, σ i, σ j, h⟩
            · rintro ⟨T, hT, i, j, h⟩
              obtain ⟨i', rfl⟩ := hσ.2 i
              obtain ⟨j', rfl⟩ := hσ.2 j
              exact ⟨_, List.mem_map.2 ⟨T, hT, rfl⟩, i', j', h⟩
          by_cases h : ∃ S ∈ Ss, ∃ i j, S i j = 0
          · rw [if_pos h, if_pos (this.2 h)]
          · rw [if_neg h, if_neg (fun h' => h (this.1 h'))]
            simp only [phases, List.map_map, Function.comp_def, Matrix.submatrix_apply]
            rfl

theorem C66_reciprocal {mode : Mode} {kind : KindArg} {fs : List ℝ} {Ss : List (Mat n)} (hS : ∀ S ∈ Ss, S.transpose = S) {F : Fn n}
    (h : buildWith I mode kind fs Ss = .ok F) {f : ℝ} {S : Mat n} (hf : F f = .ok S) : S.transpose = S := by
  have hij : ∀ {β : Type} (g : ℂ → β) i j, (Ss.map fun S => g (S i j)) = Ss.map fun S => g (S j i) := by
    intro β g i j
    apply List.map_congr_left
    intro T hT
    rw [show T i j = T j i from (congrFun (congrFun (hS T hT) i) j).symm]
  have hp : ∀ i j, phases Ss i j = phases Ss j i := fun i j => by unfold phases; rw [hij Complex.arg]
  unfold buildWith at h
  cases kind with
  | text s => cases h
  | order k =>
    simp only at h
    split at h
    · cases h
    · split at h
      · cases h
      · injection h with h
        subst h
        unfold evalWith at hf
        cases mode with
        | MA =>
          have hf := Except.ok.inj hf
          subst hf
          funext i j
          show ((_ : ℝ) : ℂ) * Complex.exp (Complex.I * ((_ : ℝ) : ℂ)) = _
          rw [hij norm j i, hp j i]
        | RI =>
          have hf := Except.ok.inj hf
          subst hf
          funext i j
          show ((_ : ℝ) : ℂ) + Complex.I * ((_ : ℝ) : ℂ) = _
          rw [hij Complex.re j i, hij Complex.im j i]
        | dB =>
          simp only at hf
          split at hf
          · cases hf
          · have hf := Except.ok.inj hf
            subst hf
            funext i j
            show Complex.exp (((_ : ℝ) : ℂ) + Complex.I * ((_ : ℝ) : ℂ)) = _
            rw [hij (fun z => Real.log ‖z‖) j i, hp j i]

/-- **C66**: what an rfObject answers.  After any history in which samples of such a response were stored, in order of frequency, `getS`
returns the response itself at every frequency whatever. -/
theorem C66_answers (hI : I.Sound) {env : Env n} {k : ℕ} (hk : 1 ≤ k) (hs : (withInterp env I .MA (.order k)).Sorts) {fs : List ℝ} (h2 : 2 ≤ fs.length)
    (hd : fs.Pairwise (· < ·)) {a b t p : Fin n → Fin n → ℝ} (hres : Resolved a b t fs) {o : Obj n}
    (h : Logged (withInterp env I .MA (.order k)) o (fs.map fun f => (f, Delayed a b t p f))) (f : ℝ) :
    (getS (withInterp env I .MA (.order k)) o f none).2 = .ok (Delayed a b t p f) := by
  have e1 : (fs.map fun f => (f, Delayed a b t p f)).map Prod.fst = fs := by simp [Function.comp_def]
  have e2 : (fs.map fun f => (f, Delayed a b t p f)).map Prod.snd = fs.map (Delayed a b t p) := by simp [Function.comp_def]
  have hnd : fs.Nodup := hd.imp fun h => h.ne
  by_cases hf : f ∈ fs
  · rw [C34_rfObject_exact hs h (by rw [e1]; exact hnd) (List.mem_map.2 ⟨f, hf, rfl⟩)]
  · have ho := C35_increasing_sorted hs h (by rw [e1]; exact hd)
    have := C35_interpolates_current hs h ho (f := f) (by rw [e1]; exact hf)
    rw [this, e1, e2]
    obtain ⟨F, hF, hF'⟩ := C66_delay hI hk h2 hnd (p := p) hres
    rw [show (withInterp env I .MA (.order k)).build fs (fs.map (Delayed a b t p)) = .ok F from hF]
    exact hF' f

/-- **C66 is violated**: with `interp='dB'` a single zero entry in the table (a matched port, two isolated ports) leaves no finite answer at
any frequency that is not in the table, when there are three or more frequencies and the spline is of order 2 or more (3 is shipped). -/
theorem C66_dB_zero {k : ℕ} (_hk : 2 ≤ k) {fs : List ℝ} (_h3 : 3 ≤ fs.length) {Ss : List (Mat n)} (hz : ∃ S ∈ Ss, ∃ i j, S i j = 0) {F : Fn n}
    (h : buildWith I .dB (.order k) fs Ss = .ok F) (f : ℝ) : F f = .error .nonFinite := by
  unfold buildWith at h
  simp only at h
  split at h
  · cases h
  · split at h
    · cases h
    · injection h with h
      subst h
      exact if_pos hz

/-- **C66 is violated**: the kinds of interpolation scipy knows by name ('linear', 'cubic', ...) raise TypeError, at every frequency not
in the table. -/
theorem C66_kind_name {env : Env n} {mode : Mode} {s : String} (hs : (withInterp env I mode (.text s)).Sorts) {o : Obj n} {data}
    (h : Logged (withInterp env I mode (.text s)) o data) (ho : o.sorted = true) {f : ℝ} (hf : f ∉ data.map Prod.fst) :
    (getS (withInterp env I mode (.text s)) o f none).2 = .error .typeError := by
  rw [C35_interpolates_current hs h ho hf]
  rfl

end PyRFtk.RfObject
