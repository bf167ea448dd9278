import Verif.RfObjectEx
import Mathlib.LinearAlgebra.Lagrange
import Mathlib.Analysis.SpecialFunctions.Complex.Arg
import Mathlib.Analysis.SpecialFunctions.Complex.Log

/-!
# Interpolation of measured data (C66)

Model of `rfObject._interp_` (`rfObject.py:449-502`): `np.unwrap` along the frequencies, the three ways to interpolate, `interp1d`.

`interp1d` is a parameter (`Interp1`): given the abscissae and the order of the spline it either raises or gives, for each list of values,
a function.  What is assumed of it where needed (`Interp1.Sound`) holds for splines of order up to 3 with scipy's end conditions; polynomial
interpolation through all points (what `interp1d` is for up to 4 frequencies) is shown to satisfy it (`lagrange_sound`).
`fill_value='extrapolate'` (the value shipped) is assumed.
-/

namespace PyRFtk.RfObject

variable {n : ℕ}

/-! ## model -/

open Classical in
/-- the correction added from one sample on, `np.unwrap` with its defaults (period 2 pi, discont pi): `ddmod = mod(dd + pi, 2 pi) - pi`,
`pi` instead of `-pi` when `dd > 0`; `ph_correct = ddmod - dd`, 0 where `abs(dd) < pi` -/
noncomputable def correct (d : ℝ) : ℝ :=
  if |d| < Real.pi then 0
  else
    let m := (d + Real.pi) - 2 * Real.pi * ⌊(d + Real.pi) / (2 * Real.pi)⌋ - Real.pi
    (if m = -Real.pi ∧ 0 < d then Real.pi else m) - d

/-- the running sum of the corrections -/
noncomputable def unwrapFrom (acc prev : ℝ) : List ℝ → List ℝ
  | [] => []
  | p :: ps => (p + (acc + correct (p - prev))) :: unwrapFrom (acc + correct (p - prev)) p ps

/-- `np.unwrap` of one sequence -/
noncomputable def unwrap : List ℝ → List ℝ
  | [] => []
  | p :: ps => p :: unwrapFrom 0 p ps

/-- `interp1d(xs, ., kind=k, fill_value='extrapolate')`: raises, or gives the function for each list of values -/
abbrev Interp1 := List ℝ → ℕ → Except Err (List ℝ → ℝ → ℝ)

/-- `interp`, `rfObject.py:460-471`: any other text means RI -/
inductive Mode | MA | dB | RI
  deriving DecidableEq

def modeOf (s : String) : Mode := if s = "MA" then .MA else if s = "dB" then .dB else .RI

/-- the entry `kind` of `interpkws`: a number or a text such as 'linear' -/
inductive KindArg | order (k : ℕ) | text (s : String)

/-- the phases of one entry along the frequencies, `np.unwrap(np.angle(Ss), axis=0)` -/
noncomputable def phases (Ss : List (Mat n)) (i j : Fin n) : List ℝ := unwrap (Ss.map fun S => (S i j).arg)

open Classical in
/-- the evaluation of the interpolators at one frequency, `rfObject.py:460-471, 486-498`; `G` is `interp1d` on the frequencies.  In mode dB the
logarithm of a zero entry is infinite and the spline (of order 2 or more) through it not a number: `nonFinite`.  Simplified: for orders 0 and 1
the code can answer away from the zero sample; nothing is claimed about that case. -/
noncomputable def evalWith (G : List ℝ → ℝ → ℝ) (mode : Mode) (Ss : List (Mat n)) : Fn n := fun f => match mode with
  | .MA => .ok fun i j => (G (Ss.map fun S => ‖S i j‖) f : ℂ) * Complex.exp (Complex.I * G (phases Ss i j) f)     -- 461-462, 491
  | .dB => if ∃ S ∈ Ss, ∃ i j, S i j = 0 then .error .nonFinite
    else .ok fun i j => Complex.exp ((G (Ss.map fun S => Real.log ‖S i j‖) f : ℂ) + Complex.I * G (phases Ss i j) f)  -- 465-467, 494
  | .RI => .ok fun i j => (G (Ss.map fun S => (S i j).re) f : ℂ) + Complex.I * G (Ss.map fun S => (S i j).im) f       -- 470-471, 497

/-- the interpolators of `_interp_`, `rfObject.py:473-481`.  `min(len(fs)-1, 'linear')` raises TypeError; without frequencies the order is
-1 (ValueError). -/
noncomputable def buildWith (I : Interp1) (mode : Mode) (kind : KindArg) (fs : List ℝ) (Ss : List (Mat n)) : Except Err (Fn n) :=
  match kind with
  | .text _ => .error .typeError                                                           -- 474
  | .order k =>
    if fs = [] then .error .valueError
    else match I fs (min (fs.length - 1) k) with
      | .error e => .error e                                                               -- 480-481
      | .ok G => .ok (evalWith G mode Ss)

/-- the environment of an rfObject with this interpolation -/
noncomputable def withInterp (env : Env n) (I : Interp1) (mode : Mode) (kind : KindArg) : Env n := { env with build := buildWith I mode kind }

/-! ## what is assumed of interp1d -/

structure Interp1.Sound (I : Interp1) : Prop where
  /-- it accepts distinct abscissae, when there are more of them than the order -/
  made : ∀ xs k, xs.Nodup → k < xs.length → ∃ G, I xs k = .ok G
  /-- the interpolating function goes through the points -/
  node : ∀ {xs k G}, I xs k = .ok G → xs.Nodup → ∀ {ys : List ℝ}, ys.length = xs.length → ∀ i (h : i < xs.length) (h' : i < ys.length),
    G ys xs[i] = ys[i]
  /-- constants are reproduced -/
  const : ∀ {xs k G}, I xs k = .ok G → xs.Nodup → xs ≠ [] → ∀ b x, G (xs.map fun _ => b) x = b
  /-- straight lines are reproduced by splines of order 1 and more -/
  affine : ∀ {xs k G}, I xs k = .ok G → xs.Nodup → 1 ≤ k → ∀ a b x, G (xs.map fun y => a * y + b) x = a * x + b

open Classical in
/-- the polynomial through all points -/
noncomputable def lagrange : Interp1 := fun xs k =>
  if ¬ xs.Nodup then .error .valueError
  else if xs.length ≤ k then .error .valueError
  else .ok fun ys x => (Lagrange.interpolate Finset.univ (fun i : Fin xs.length => xs[i]) (fun i => ys.getD i.1 0)).eval x

theorem lagrange_inj {xs : List ℝ} (h : xs.Nodup) : Set.InjOn (fun i : Fin xs.length => xs[i]) (Finset.univ : Finset (Fin xs.length)) := by
  intro i _ j _ e
  exact Fin.ext ((List.Nodup.getElem_inj_iff h).1 e)

theorem lagrange_poly {xs : List ℝ} (h : xs.Nodup) {p : Polynomial ℝ} (hp : p.degree < xs.length) (x : ℝ) :
    (Lagrange.interpolate Finset.univ (fun i : Fin xs.length => xs[i]) (fun i => (xs.map fun y => p.eval y).getD i.1 0)).eval x = p.eval x := by
  have := Lagrange.eq_interpolate_of_eval_eq (s := Finset.univ) (v := fun i : Fin xs.length => xs[i])
    (r := fun i => (xs.map fun y => p.eval y).getD i.1 0) (f := p) (lagrange_inj h) (by simpa using hp) (by intro i _; simp)
  rw [← this]

theorem lagrange_sound : lagrange.Sound := by
  have key : ∀ {xs k G}, lagrange xs k = .ok G → k < xs.length ∧
      G = fun ys x => (Lagrange.interpolate Finset.univ (fun i : Fin xs.length => xs[i]) (fun i => ys.getD i.1 0)).eval x := by
    intro xs k G h
    unfold lagrange at h
    split at h
    · cases h
    · split at h
      · cases h
      · injection h with h
        exact ⟨by omega, h.symm⟩
  refine ⟨?_, ?_, ?_, ?_⟩
  · intro xs k h1 h2
    exact ⟨_, by unfold lagrange; rw [if_neg (by simpa using h1), if_neg (by omega)]⟩
  · intro xs k G h hn ys hy i hi hi'
    obtain ⟨-, rfl⟩ := key h
    have := Lagrange.eval_interpolate_at_node (s := Finset.univ) (v := fun i : Fin xs.length => xs[i])
      (fun i => ys.getD i.1 0) (lagrange_inj hn) (Finset.mem_univ (⟨i, hi⟩ : Fin xs.length))
    simpa [hi'] using this
  · intro xs k G h hn hne b x
    obtain ⟨-, rfl⟩ := key h
    have := lagrange_poly hn (p := Polynomial.C b) (lt_of_le_of_lt Polynomial.degree_C_le (by
      have := List.length_pos_iff.2 hne
      exact_mod_cast this)) x
    simpa using this
  · intro xs k G h hn hk a b x
    obtain ⟨hk', rfl⟩ := key h
    have := lagrange_poly hn (p := Polynomial.C a * Polynomial.X + Polynomial.C b) (lt_of_le_of_lt Polynomial.degree_linear_le (by
      have : 1 < xs.length := by omega
      exact_mod_cast this)) x
    simpa using this

/-! ## unwrap -/

theorem correct_turns (d : ℝ) : ∃ m : ℤ, correct d = 2 * Real.pi * m := by
  unfold correct
  split
  · exact ⟨0, by simp⟩
  · simp only
    split
    · rename_i h
      refine ⟨1 - ⌊(d + Real.pi) / (2 * Real.pi)⌋, ?_⟩
      push_cast
      linarith [h.1]
    · refine ⟨-⌊(d + Real.pi) / (2 * Real.pi)⌋, ?_⟩
      push_cast
      ring

theorem correct_small {d : ℝ} (h : |d| < Real.pi) : correct d = 0 := if_pos h

theorem correct_step (d : ℝ) : |d + correct d| ≤ Real.pi := by
  unfold correct
  have hpi := Real.pi_pos
  split
  · rename_i h; simpa using h.le
  · simp only
    have h1 := Int.floor_le ((d + Real.pi) / (2 * Real.pi))
    have h2 := Int.lt_floor_add_one ((d + Real.pi) / (2 * Real.pi))
    rw [le_div_iff₀ (by positivity)] at h1
    rw [div_lt_iff₀ (by positivity)] at h2
    split
    · rw [abs_le]; constructor <;> linarith
    · rw [abs_le]; constructor <;> linarith

theorem unwrapFrom_length (l : List ℝ) : ∀ acc prev, (unwrapFrom acc prev l).length = l.length := by
  induction l with
  | nil => intros; rfl
  | cons p ps ih => intros; simp [unwrapFrom, ih]

theorem unwrap_length (l : List ℝ) : (unwrap l).length = l.length := by
  cases l with
  | nil => rfl
  | cons p ps => simp [unwrap, unwrapFrom_length]

/-- two phases describe the same direction -/
def SameDirection (a b : ℝ) : Prop := ∃ m : ℤ, a = b + 2 * Real.pi * m

theorem exp_sameDirection {a b : ℝ} (h : SameDirection a b) : Complex.exp (Complex.I * a) = Complex.exp (Complex.I * b) := by
  obtain ⟨m, rfl⟩ := h
  rw [Complex.exp_eq_exp_iff_exists_int]
  exact ⟨m, by push_cast; ring⟩

theorem unwrapFrom_dir (l : List ℝ) : ∀ acc prev, (∃ m : ℤ, acc = 2 * Real.pi * m) → List.Forall₂ SameDirection (unwrapFrom acc prev l) l := by
  induction l with
  | nil => intros; exact .nil
  | cons p ps ih =>
    rintro acc prev ⟨m, rfl⟩
    obtain ⟨m', hm⟩ := correct_turns (p - prev)
    rw [unwrapFrom]
    refine .cons ⟨m + m', ?_⟩ (ih _ _ ⟨m + m', ?_⟩)
    · rw [hm]; push_cast; ring
    · rw [hm]; push_cast; ring

/-- the phases found describe the directions given -/
theorem unwrap_dir (l : List ℝ) : List.Forall₂ SameDirection (unwrap l) l := by
  cases l with
  | nil => exact .nil
  | cons p ps => exact .cons ⟨0, by simp⟩ (unwrapFrom_dir ps 0 p ⟨0, by simp⟩)

theorem unwrapFrom_step (l : List ℝ) : ∀ acc prev, List.IsChain (fun a b => |b - a| ≤ Real.pi) ((prev + acc) :: unwrapFrom acc prev l) := by
  induction l with
  | nil => intros; simp [unwrapFrom]
  | cons p ps ih =>
    intro acc prev
    rw [unwrapFrom]
    refine .cons_cons ?_ (ih _ _)
    have := correct_step (p - prev)
    rwa [show p + (acc + correct (p - prev)) - (prev + acc) = p - prev + correct (p - prev) by ring]

/-- they move by half a turn at most from one sample to the next -/
theorem unwrap_step (l : List ℝ) : List.IsChain (fun a b => |b - a| ≤ Real.pi) (unwrap l) := by
  cases l with
  | nil => simp [unwrap]
  | cons p ps => simpa [unwrap] using unwrapFrom_step ps 0 p

theorem unwrapFrom_unique (l : List ℝ) : ∀ acc prev {q : List ℝ}, (∃ m : ℤ, acc = 2 * Real.pi * m) → List.Forall₂ SameDirection q l →
    List.IsChain (fun a b => |b - a| < Real.pi) ((prev + acc) :: q) → unwrapFrom acc prev l = q := by
  induction l with
  | nil => intro acc prev q _ h _; cases h; rfl
  | cons p ps ih =>
    intro acc prev q hacc h hc
    cases h with
    | @cons x y q ys hx hq =>
      rw [List.isChain_cons_cons] at hc
      rw [unwrapFrom]
      have e : p + (acc + correct (p - prev)) = x := by
        have h1 := correct_step (p - prev)
        obtain ⟨m1, h2⟩ := correct_turns (p - prev)
        obtain ⟨m2, h3⟩ := hx
        obtain ⟨m3, h4⟩ := hacc
        have h5 := hc.1
        rw [abs_le] at h1
        rw [abs_lt] at h5
        have hpi := Real.pi_pos
        have e : p + (acc + correct (p - prev)) - x = 2 * Real.pi * ((m3 + m1 - m2 : ℤ) : ℝ) := by
          rw [h3, h2, h4]; push_cast; ring
        have l1 : -(2 * Real.pi) < p + (acc + correct (p - prev)) - x := by linarith [h1.1, h5.2]
        have l2 : p + (acc + correct (p - prev)) - x < 2 * Real.pi := by linarith [h1.2, h5.1]
        rw [e] at l1 l2
        have u1 : (-1 : ℝ) < ((m3 + m1 - m2 : ℤ) : ℝ) := by nlinarith
        have u2 : ((m3 + m1 - m2 : ℤ) : ℝ) < 1 := by nlinarith
        have u3 : (-1 : ℤ) < m3 + m1 - m2 := by exact_mod_cast u1
        have u4 : m3 + m1 - m2 < (1 : ℤ) := by exact_mod_cast u2
        have : m3 + m1 - m2 = 0 := by omega
        rw [this] at e
        simp at e
        linarith
      obtain ⟨m1, h2⟩ := correct_turns (p - prev)
      obtain ⟨m3, h4⟩ := hacc
      rw [e, ih (acc + correct (p - prev)) p ⟨m3 + m1, by rw [h2, h4]; push_cast; ring⟩ hq (by rw [e]; exact hc.2)]

/-- phases that move by less than half a turn between samples are the ones found, given the first -/
theorem unwrap_unique {l q : List ℝ} (h : List.Forall₂ SameDirection q l) (h0 : q.head? = l.head?)
    (hc : List.IsChain (fun a b => |b - a| < Real.pi) q) : unwrap l = q := by
  cases h with
  | nil => rfl
  | @cons x p q ps hx hq =>
    simp at h0
    subst h0
    rw [unwrap, unwrapFrom_unique ps 0 x ⟨0, by simp⟩ hq (by simpa using hc)]

end PyRFtk.RfObject
