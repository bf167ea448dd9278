import Verif.TRLProps

/-!
# Transmission lines: when a result is obtained (C10, C11), standing waves and the table of solved frequencies (C51)
-/

namespace PyRFtk.TRL

/-! ## Totality -/

/-- no pole for a passive section on a positive reference -/
theorem sFromVI_total {z y V1 I1 V2 I2 : ℝ → ℂ} (hF : Fund z y V1 I1 V2 I2) {L r : ℝ} (hr : 0 < r) (hL : 0 ≤ L)
    (h1 : ∀ x, 0 ≤ (z x).re) (h2 : ∀ x, 0 ≤ (y x).re) :
    ∃ S, sFromVI (r : ℂ) !![V1 L, V2 L; I1 L, I2 L] = .ok S := by
  rcases (C09_failure (r : ℂ) !![V1 L, V2 L; I1 L, I2 L]).2 with h | h
  · exact h
  · exfalso
    have hd := (C09_failure (r : ℂ) !![V1 L, V2 L; I1 L, I2 L]).1.1 h
    simp at hd
    have law : LineLaw z y L ![r, -r * (I1 L * r + I2 L)] ![-1, I1 L * r + I2 L] := by
      rw [lineLaw_iff hF.t1 hF.t2 hF.a hF.b hF.c hF.d]
      simp
      linear_combination -hd
    have hp := law.passive hL h1 h2
    unfold portPower at hp
    simp only [Fin.sum_univ_two, Matrix.cons_val_zero, Matrix.cons_val_one] at hp
    generalize I1 L * r + I2 L = c at hp
    simp at hp
    nlinarith [mul_nonneg hr.le (sq_nonneg c.re), mul_nonneg hr.le (sq_nonneg c.im)]

/-- the node spacing is usable: not zero, and for a negative (stepping) spacing the length is not negative -/
def GridOK (o : Line) : Prop :=
  match o.dx with
  | .int n => n ≠ 0
  | .float d => d ≠ 0 ∧ (d < 0 → 0 ≤ o.L)

theorem grid_total {o : Line} (hc : o.constant = true) (h : GridOK o) (f : ℝ) : ∃ xs, grid o f = .ok xs := by
  unfold GridOK at h
  unfold grid
  cases hd : o.dx with
  | int n =>
    simp only [hd] at h ⊢
    rw [if_pos hc, if_neg h]
    cases wavlen o (2 * Real.pi * f) 0 with
    | none => exact ⟨_, rfl⟩
    | some l => exact ⟨_, rfl⟩
  | float d =>
    simp only [hd] at h ⊢
    by_cases h1 : d < 0
    · rw [if_pos h1, if_neg (not_lt.2 (h.2 h1))]; exact ⟨_, rfl⟩
    · rw [if_neg h1, if_neg h.1]; exact ⟨_, rfl⟩

/-- the outcome of evaluating a uniform line of nonzero length -/
theorem fresh_uniform {ode : Ode} {o : Line} (hs : Solves ode o) (hc : o.constant = true) (hG : GridOK o) (f : ℝ)
    (h0 : o.L = 0 ∨ o.z (2 * Real.pi * f) 0 * o.y (2 * Real.pi * f) 0 ≠ 0) :
    ∃ V1 I1 V2 I2, Fund (o.z (2 * Real.pi * f)) (o.y (2 * Real.pi * f)) V1 I1 V2 I2 ∧
      ((∃ S, sFromVI (o.Zbase : ℂ) !![V1 o.L, V2 o.L; I1 o.L, I2 o.L] = .ok S) → ∃ s, fresh ode o f = .ok s) := by
  obtain ⟨gs, hg⟩ := grid_total hc hG f
  obtain ⟨e1, e2⟩ := grid_ends hg
  have : ∃ p, solveNodes ode o f = .ok p := by
    unfold solveNodes
    simp only [hg]
    by_cases hz : gs.head? = gs.getLast?
    · rw [if_pos hz]
      cases gs with
      | nil => simp at e1
      | cons x r => exact ⟨_, rfl⟩
    · rw [if_neg hz, if_pos hc]
      have hL : o.L ≠ 0 := by
        intro h; rw [e1, e2, h] at hz; exact hz rfl
      have hzy := h0.resolve_left hL
      rw [if_neg]
      · exact ⟨_, rfl⟩
      · intro h
        have := sqrt_sq (o.z (2 * Real.pi * f) 0 * o.y (2 * Real.pi * f) 0)
        rw [h] at this
        exact hzy (by rw [← this]; simp)
  obtain ⟨⟨xs, VI⟩, hp⟩ := this
  obtain ⟨V1, I1, V2, I2, hF, f1, f2, rfl⟩ := solveNodes_ok hs hp
  refine ⟨V1, I1, V2, I2, hF, ?_⟩
  rintro ⟨S, hS⟩
  unfold fresh
  simp only [hp, List.getLast?_map, f2, Option.map_some, hS]
  exact ⟨_, rfl⟩

theorem getS_of_fresh {ode : Ode} {o : Line} {f : ℝ} (h : ∃ s, fresh ode o f = .ok s) :
    ∃ o' S, getS ode o f none [] = (o', .ok S) := by
  obtain ⟨s, hs⟩ := h
  have h1 : set o [] = ({ o with solved := [] }, .ok ()) := by simp [set, setLoop]
  unfold getS
  simp only [h1]
  unfold get1S ensure
  have : findSol ({ o with solved := [] } : Line).solved f = none := rfl
  simp only [this, fresh_solved, hs]
  exact ⟨_, _, rfl⟩

/-- **C11 (never fails).** For a uniform line of non-negative length with non-negative series resistance and shunt
conductance and a positive reference, `getS` returns a matrix at every frequency at which the series impedance and the shunt
admittance do not vanish; at zero length it returns one always. -/
theorem C11_total {ode : Ode} {o : Line} (hs : Solves ode o) (hc : o.constant = true) (hG : GridOK o) (f : ℝ)
    (hr : 0 < o.Zbase) (hL : 0 ≤ o.L) (h0 : o.L = 0 ∨ o.z (2 * Real.pi * f) 0 * o.y (2 * Real.pi * f) 0 ≠ 0)
    (h1 : 0 ≤ (o.z (2 * Real.pi * f) 0).re) (h2 : 0 ≤ (o.y (2 * Real.pi * f) 0).re) :
    ∃ o' S, getS ode o f none [] = (o', .ok S) := by
  obtain ⟨V1, I1, V2, I2, hF, h⟩ := fresh_uniform hs hc hG f h0
  have hcc : ∀ w x, o.z w x = o.z w 0 ∧ o.y w x = o.y w 0 := by unfold Solves at hs; rwa [if_pos hc] at hs
  exact getS_of_fresh (h (sFromVI_total hF hr hL (fun x => by rw [(hcc _ x).1]; exact h1)
    (fun x => by rw [(hcc _ x).2]; exact h2)))

/-- **C10 is violated for degenerate parameters.** A uniform line of nonzero length without series impedance or without shunt
admittance (e.g. any line without losses at zero frequency) gives no finite result, although the telegrapher equations
have solutions there. -/
theorem C10_degenerate {ode : Ode} {o : Line} (hc : o.constant = true) (hG : GridOK o) (f : ℝ) (hL : o.L ≠ 0)
    (h0 : o.z (2 * Real.pi * f) 0 * o.y (2 * Real.pi * f) 0 = 0) (Zb : Option ℝ) :
    ∃ o', getS ode o f Zb [] = (o', .error .nonFinite) := by
  obtain ⟨gs, hg⟩ := grid_total hc hG f
  obtain ⟨e1, e2⟩ := grid_ends hg
  have hf : fresh ode o f = .error .nonFinite := by
    unfold fresh solveNodes
    simp only [hg]
    rw [if_neg (by rw [e1, e2]; simpa using hL.symm), if_pos hc, if_pos (by rw [h0]; simp)]
  have h1 : set o [] = ({ o with solved := [] }, .ok ()) := by simp [set, setLoop]
  unfold getS
  simp only [h1]
  unfold get1S ensure
  have : findSol ({ o with solved := [] } : Line).solved f = none := rfl
  simp only [this, fresh_solved, hf]
  exact ⟨_, rfl⟩

/-- **C10 is violated for non-uniform lines of zero or negative length** (with the default, integer, `dx`): no finite result. -/
theorem C10_nonuniform_zero_length {ode : Ode} {o : Line} (hc : o.constant = false) {n : ℤ} (hd : o.dx = .int n) (hL : o.L ≤ 0)
    (f : ℝ) (Zb : Option ℝ) : ∃ o', getS ode o f Zb [] = (o', .error .nonFinite) := by
  have hg : grid o f = .error .nonFinite := by
    unfold grid
    simp only [hd, hc]
    by_cases hn : n = 0
    · simp [hn, not_lt.2 hL]
    · have hex : ∃ k, ∀ r, nodeSeq o f n k = some r → o.L ≤ r := ⟨0, fun r hr => by
        simp [nodeSeq] at hr; rw [← hr]; exact hL⟩
      have h0 : Nat.find hex = 0 := by
        rw [Nat.find_eq_zero]
        intro r hr; simp [nodeSeq] at hr; rw [← hr]; exact hL
      simp only [Bool.false_eq_true, if_false, if_neg hn]
      unfold growGrid growSeq
      rw [dif_pos hex, h0]
      simp [nodeSeq]
  have hf : fresh ode o f = .error .nonFinite := by
    unfold fresh solveNodes
    simp only [hg]
  have h1 : set o [] = ({ o with solved := [] }, .ok ()) := by simp [set, setLoop]
  unfold getS
  simp only [h1]
  unfold get1S ensure
  have : findSol ({ o with solved := [] } : Line).solved f = none := rfl
  simp only [this, fresh_solved, hf]
  exact ⟨_, rfl⟩

/-! ## Standing waves, histories -/

theorem solveVI_ok {ode : Ode} {o o' : Line} {f : ℝ} {V0 I0 : ℂ} {r} (hg : Good ode o) (h : solveVI ode o f V0 I0 = (o', r)) :
    Same o o' ∧ Good ode o' ∧ ∀ xs V I, r = .ok (xs, V, I) → Solves ode o → xs.head? = some 0 ∧ xs.getLast? = some o.L ∧
      (∃ s, fresh ode o f = .ok s ∧ s.xs = xs) ∧
      ∃ Vf If, Telegraph (o.z (2 * Real.pi * f)) (o.y (2 * Real.pi * f)) Vf If ∧ V = xs.map Vf ∧ I = xs.map If ∧
        Vf 0 = V0 ∧ If 0 = I0 := by
  unfold solveVI at h
  cases he : ensure ode o f with
  | mk o1 r1 =>
    obtain ⟨hs, hg1, hf⟩ := ensure_ok hg he
    cases r1 with
    | error e =>
      simp only [he, Prod.mk.injEq] at h
      obtain ⟨rfl, rfl⟩ := h
      exact ⟨hs, hg1, fun _ _ _ hr => by cases hr⟩
    | ok s =>
      simp only [he, Prod.mk.injEq] at h
      obtain ⟨rfl, rfl⟩ := h
      refine ⟨hs, hg1, ?_⟩
      intro xs V I hr hsol
      simp only [Except.ok.injEq, Prod.mk.injEq] at hr
      obtain ⟨rfl, rfl, rfl⟩ := hr
      have hfr := hf s rfl
      obtain ⟨V1, I1, V2, I2, hF, a, b, c, -, -⟩ := fresh_ok hsol hfr
      simp only at a b c
      refine ⟨a, b, ⟨_, hfr, rfl⟩, _, _, hF.t1.comb hF.t2 V0 I0, ?_, ?_, by simp [hF.a, hF.c], by simp [hF.b, hF.d]⟩
      · rw [c, List.map_map]
        apply List.map_congr_left
        intro x _
        simp [Matrix.mulVec, dotProduct, Fin.sum_univ_two]
      · rw [c, List.map_map]
        apply List.map_congr_left
        intro x _
        simp [Matrix.mulVec, dotProduct, Fin.sum_univ_two]

theorem getS_good {ode : Ode} {o o' : Line} {f : ℝ} {Zb : Option ℝ} {r} (h : getS ode o f Zb [] = (o', r)) :
    Same o o' ∧ Good ode o' := by
  have h1 : set o [] = ({ o with solved := [] }, .ok ()) := by simp [set, setLoop]
  unfold getS at h
  simp only [h1] at h
  obtain ⟨a, b, -⟩ := get1S_ok (good_nil rfl) h
  have h0 : Same o { o with solved := [] } := rfl
  exact ⟨h0.trans a, b⟩

/-- a list of looked-up values -/
theorem mapE_length {α β : Type*} {f : α → Except Err β} {l : List α} {l'} (h : mapE f l = .ok l') : l'.length = l.length :=
  (mapE_eq_ok.1 h).length_eq.symm

theorem visws_ok {ode : Ode} {o o' : Line} {f : ℝ} {E : List (String × ℂ)} {Zb : Option ℝ} {r} (hg : Good ode o)
    (h : visws ode o f E Zb = (o', r)) (hsol : Solves ode o) (hz : o.Zbase ≠ 0) :
    Same o o' ∧ Good ode o' ∧ ∀ xs V I, r = .ok (xs, V, I) → ∃ a0 a1,
      mapE (dictGet E) o.ports = .ok [a0, a1] ∧
      Standing (o.z (2 * Real.pi * f)) (o.y (2 * Real.pi * f)) o.L (refOf o.Zbase Zb) a0 a1 xs V I ∧
      ∃ s, fresh ode o f = .ok s ∧ s.xs = xs := by
  unfold visws at h
  cases hm : mapE (dictGet E) o.ports with
  | error e =>
    simp only [hm, Prod.mk.injEq] at h
    obtain ⟨rfl, rfl⟩ := h
    exact ⟨rfl, hg, fun _ _ _ hr => by cases hr⟩
  | ok As =>
    simp only [hm] at h
    cases hc : (findSol o.solved f).bind fun s => (findSw s (As, Zb)).map fun r => (s.xs, r.1, r.2) with
    | some p =>
      simp only [hc, Prod.mk.injEq] at h
      obtain ⟨rfl, rfl⟩ := h
      refine ⟨rfl, hg, ?_⟩
      intro xs V I hr
      injection hr with hr
      subst hr
      rw [Option.bind_eq_some_iff] at hc
      obtain ⟨s, hs, hc⟩ := hc
      rw [Option.map_eq_some_iff] at hc
      obtain ⟨q, hq, hc⟩ := hc
      simp only [Prod.mk.injEq] at hc
      obtain ⟨rfl, rfl, rfl⟩ := hc
      unfold findSw at hq
      rw [Option.map_eq_some_iff] at hq
      obtain ⟨e, he, rfl⟩ := hq
      have h1 := List.mem_of_find?_eq_some he
      have h2 := List.find?_some he
      simp only [decide_eq_true_eq] at h2
      obtain ⟨a0, a1, z, h3, h4, h5⟩ := (hg _ (findSol_mem hs)).2 _ h1
      rw [h2] at h3
      simp only [Prod.mk.injEq] at h3
      obtain ⟨rfl, rfl⟩ := h3
      have hr : refOf o.Zbase (some z) = z := by simp [refOf, h4]
      rw [hr]
      exact ⟨a0, a1, rfl, h5, _, (hg _ (findSol_mem hs)).1, rfl⟩
    | none =>
      simp only [hc] at h
      have hzz : orOwn o.Zbase Zb = refOf o.Zbase Zb := by cases Zb <;> simp [refOf, orOwn]
      rw [hzz] at h
      have hrn := refOf_ne hz Zb
      generalize hzr : refOf o.Zbase Zb = z at *
      cases h1 : getS ode o f (some z) [] with
      | mk o1 r1 =>
        obtain ⟨s1, g1⟩ := getS_good h1
        cases r1 with
        | error e =>
          simp only [h1, Prod.mk.injEq] at h
          obtain ⟨rfl, rfl⟩ := h
          exact ⟨s1, g1, fun _ _ _ hr => by cases hr⟩
        | ok S =>
          simp only [h1] at h
          have hZ1 : o1.Zbase = o.Zbase := by rw [s1]
          have hL1 : o1.L = o.L := by rw [s1]
          have law : ∀ v i, ScatterV (z : ℂ) S v i ↔ LineLaw (o.z (2 * Real.pi * f)) (o.y (2 * Real.pi * f)) o.L v i := by
            intro v i
            have := getS_law hsol (by rw [hZ1]; exact hz) h1 v i
            have hr : refOf o1.Zbase (some z) = z := by simp [refOf, hrn]
            rw [hr, hL1] at this
            exact this
          cases hv : matVec S As with
          | error e =>
            cases As with
            | nil =>
              simp only [hv, Prod.mk.injEq] at h
              obtain ⟨rfl, rfl⟩ := h
              exact ⟨s1, g1, fun _ _ _ hr => by cases hr⟩
            | cons a l =>
              simp only [hv, Prod.mk.injEq] at h
              obtain ⟨rfl, rfl⟩ := h
              exact ⟨s1, g1, fun _ _ _ hr => by cases hr⟩
          | ok B =>
            obtain ⟨a0, a1, rfl⟩ : ∃ a0 a1, As = [a0, a1] := by
              unfold matVec at hv
              split at hv
              · exact ⟨_, _, rfl⟩
              · cases hv
            have hB : B = S.mulVec ![a0, a1] := by simp only [matVec] at hv; injection hv with hv; exact hv.symm
            simp only [hv, if_neg hrn] at h
            cases h2 : solveVI ode o1 f (a0 + B 0) (-(a0 - B 0) / z) with
            | mk o2 r2 =>
              obtain ⟨s2, g2, hres⟩ := solveVI_ok g1 h2
              cases r2 with
              | error e =>
                simp only [h2, Prod.mk.injEq] at h
                obtain ⟨rfl, rfl⟩ := h
                exact ⟨s1.trans s2, g2, fun _ _ _ hr => by cases hr⟩
              | ok p =>
                obtain ⟨xs, V, I⟩ := p
                simp only [h2, Prod.mk.injEq] at h
                obtain ⟨rfl, rfl⟩ := h
                obtain ⟨e1, e2, ⟨sf, hsf, exs⟩, Vf, If, hT, hV, hI, v0, i0⟩ := hres xs V I rfl (s1.solves hsol)
                have hz1 : o1.z = o.z := by rw [s1]
                have hy1 : o1.y = o.y := by rw [s1]
                have hzc : (z : ℂ) ≠ 0 := by exact_mod_cast hrn
                rw [hz1, hy1] at hT
                rw [hL1] at e2
                -- the end of the line
                have hw := (law _ _).1 (scatterV_wave hzc S ![a0, a1])
                rw [← hB] at hw
                obtain ⟨W, J, hT', w0, wL, j0, jL⟩ := hw
                have hW0 : W 0 = Vf 0 := by rw [w0, v0]; simp
                have hJ0 : J 0 = If 0 := by rw [j0, i0]; simp; ring
                obtain ⟨V1, I1, V2, I2, hF⟩ := solves_fund hsol (2 * Real.pi * f)
                have hVL : Vf o.L = W o.L := by
                  rw [(fundamental hT hF.t1 hF.t2 hF.a hF.b hF.c hF.d o.L).1,
                    (fundamental hT' hF.t1 hF.t2 hF.a hF.b hF.c hF.d o.L).1, hW0, hJ0]
                have hIL : If o.L = J o.L := by
                  rw [(fundamental hT hF.t1 hF.t2 hF.a hF.b hF.c hF.d o.L).2,
                    (fundamental hT' hF.t1 hF.t2 hF.a hF.b hF.c hF.d o.L).2, hW0, hJ0]
                have hstand : Standing (o.z (2 * Real.pi * f)) (o.y (2 * Real.pi * f)) o.L z a0 a1 xs V I := by
                  refine ⟨e1, e2, Vf, If, hT, hV, hI, ?_, ?_⟩
                  · rw [v0, i0]; field_simp; ring
                  · rw [hVL, hIL, wL, jL]; simp; field_simp; ring
                have hsame : Same o o2 := s1.trans s2
                refine ⟨?_, ?_, ?_⟩
                · unfold Same; rw [hsame]
                · intro e he
                  rw [fresh_solved]
                  obtain ⟨e', he', rfl⟩ := List.mem_map.1 he
                  have hold := g2 _ he'
                  by_cases hef : e'.1 = f
                  · rw [if_pos hef]
                    refine ⟨hold.1, ?_⟩
                    intro q hq
                    have hz2 : o2.z = o.z := by rw [hsame]
                    have hy2 : o2.y = o.y := by rw [hsame]
                    have hL2 : o2.L = o.L := by rw [hsame]
                    simp only [hz2, hy2, hL2]
                    rcases List.mem_cons.1 hq with rfl | hq
                    · refine ⟨a0, a1, z, rfl, hrn, ?_⟩
                      have hxs : e'.2.xs = xs := by
                        have h3 := hold.1
                        rw [hsame.fresh, hef, ← s1.fresh, hsf] at h3
                        injection h3 with h3
                        rw [← exs, h3]
                      rw [hef, hxs]
                      exact hstand
                    · have := hold.2 q hq
                      simp only [hz2, hy2, hL2] at this
                      exact this
                  · rw [if_neg hef]; exact hold
                · intro xs' V' I' hr
                  injection hr with hr
                  simp only [Prod.mk.injEq] at hr
                  obtain ⟨rfl, rfl, rfl⟩ := hr
                  exact ⟨a0, a1, rfl, hstand, sf, by rw [← s1.fresh]; exact hsf, exs⟩

/-- the calls a user can make on a line -/
inductive Call
  | set (kws : List Kw)
  | getS (f : ℝ) (Zb : Option ℝ) (params : List Kw)
  | getSs (fs : List ℝ) (Zb : Option ℝ) (params : List Kw)
  | visws (f : ℝ) (E : List (String × ℂ)) (Zb : Option ℝ)
  | solveVI (f : ℝ) (V0 I0 : ℂ)

/-- the state after a call, and whether it was a refused modification (a `set`, or a `getS` with parameters, that raised) -/
noncomputable def Call.run (ode : Ode) (o : Line) : Call → Line
  | .set kws => (TRL.set o kws).1
  | .getS f Zb p => (TRL.getS ode o f Zb p).1
  | .getSs fs Zb p => (TRL.getSs ode o fs Zb p).1
  | .visws f E Zb => (TRL.visws ode o f E Zb).1
  | .solveVI f V0 I0 => (TRL.solveVI ode o f V0 I0).1

/-- the modification contained in a call, if any, is accepted -/
def Call.Accepted (o : Line) : Call → Prop
  | .set kws => (TRL.set o kws).2 = .ok ()
  | .getS _ _ p => (TRL.set o p).2 = .ok ()
  | .getSs _ _ p => (TRL.set o p).2 = .ok ()
  | _ => True

/-- the states reached from a newly constructed line by calls whose modifications are accepted (evaluations may fail);
the reference impedance stays nonzero -/
inductive Reach (ode : Ode) : Line → Prop
  | new (o : Line) (hs : Solves ode o) (h : o.solved = []) (hz : o.Zbase ≠ 0) : Reach ode o
  | call {o : Line} (c : Call) (h : Reach ode o) (ha : c.Accepted o) (hz : (c.run ode o).Zbase ≠ 0) : Reach ode (c.run ode o)

theorem getSsLoop_ok {ode : Ode} {Zb : Option ℝ} (fs : List ℝ) : ∀ {o o' : Line} {r}, Good ode o →
    getSsLoop ode Zb o fs = (o', r) → Same o o' ∧ Good ode o' ∧ ∀ l, r = .ok l → Solves ode o → o.Zbase ≠ 0 →
      List.Forall₂ (fun f S => ∀ v i, ScatterV (refOf o.Zbase Zb : ℂ) S v i ↔
        LineLaw (o.z (2 * Real.pi * f)) (o.y (2 * Real.pi * f)) o.L v i) fs l := by
  induction fs with
  | nil =>
    intro o o' r hg h
    simp only [getSsLoop, Prod.mk.injEq] at h
    obtain ⟨rfl, rfl⟩ := h
    exact ⟨rfl, hg, fun l hl _ _ => by injection hl with hl; subst hl; exact .nil⟩
  | cons f fs ih =>
    intro o o' r hg h
    rw [getSsLoop] at h
    cases h1 : get1S ode o f Zb with
    | mk o1 r1 =>
      obtain ⟨s1, g1, l1⟩ := get1S_ok hg h1
      cases r1 with
      | error e =>
        simp only [h1, Prod.mk.injEq] at h
        obtain ⟨rfl, rfl⟩ := h
        exact ⟨s1, g1, fun l hl => by cases hl⟩
      | ok S =>
        simp only [h1] at h
        cases h2 : getSsLoop ode Zb o1 fs with
        | mk o2 r2 =>
          obtain ⟨s2, g2, l2⟩ := ih g1 h2
          cases r2 with
          | error e =>
            simp only [h2, Prod.mk.injEq] at h
            obtain ⟨rfl, rfl⟩ := h
            exact ⟨s1.trans s2, g2, fun l hl => by cases hl⟩
          | ok l' =>
            simp only [h2, Prod.mk.injEq] at h
            obtain ⟨rfl, rfl⟩ := h
            refine ⟨s1.trans s2, g2, ?_⟩
            intro l hl hs hz
            injection hl with hl
            subst hl
            refine .cons (l1 S rfl hs hz) ?_
            have e1 : o1.Zbase = o.Zbase := by rw [s1]
            have := l2 l' rfl (s1.solves hs) (by rw [e1]; exact hz)
            have e2 : o1.z = o.z := by rw [s1]
            have e3 : o1.y = o.y := by rw [s1]
            have e4 : o1.L = o.L := by rw [s1]
            rw [e1, e2, e3, e4] at this
            exact this

/-- **C10 (sequences).** For a sequence of frequencies `getS` returns one matrix per frequency, in order, each the matrix of
the line at that frequency. -/
theorem C10_sequence {ode : Ode} {o o' : Line} {fs : List ℝ} {Zb : Option ℝ} {params : List Kw} {l : List Mat2}
    (hs : Solves ode o) (hz : o'.Zbase ≠ 0) (h : getSs ode o fs Zb params = (o', .ok l)) :
    List.Forall₂ (fun f S => ∀ v i, ScatterV (refOf o'.Zbase Zb : ℂ) S v i ↔
        LineLaw (o.z (2 * Real.pi * f)) (o.y (2 * Real.pi * f)) o'.L v i) fs l := by
  unfold getSs at h
  cases h1 : set o params with
  | mk o1 r1 =>
    simp only [h1] at h
    cases r1 with
    | error e => simp at h
    | ok u =>
      simp only at h
      obtain ⟨a, b, c, d⟩ := set_params h1
      obtain ⟨h2, -, h3⟩ := getSsLoop_ok fs (good_nil (set_ok h1)) h
      have e1 : o'.L = o1.L := by rw [h2]
      have e2 : o'.Zbase = o1.Zbase := by rw [h2]
      rw [e1, e2, ← b, ← c]
      rw [e2] at hz
      exact h3 l rfl (hs.congr ⟨a, b, c⟩) hz

theorem reach_good {ode : Ode} {o : Line} (h : Reach ode o) : Good ode o ∧ Solves ode o ∧ o.Zbase ≠ 0 := by
  induction h with
  | new o hs h hz => exact ⟨good_nil h, hs, hz⟩
  | @call o c h ha hz ih =>
    obtain ⟨g, s, z⟩ := ih
    refine ⟨?_, ?_, hz⟩
    · cases c with
      | set kws =>
        cases h1 : TRL.set o kws with
        | mk o1 r =>
          have hr : r = .ok () := by simpa [Call.Accepted, h1] using ha
          subst hr
          simp only [Call.run, h1]
          exact good_nil (set_ok h1)
      | getS f Zb p =>
        cases h1 : TRL.set o p with
        | mk o1 r =>
          have hr : r = .ok () := by simpa [Call.Accepted, h1] using ha
          subst hr
          simp only [Call.run, TRL.getS, h1]
          exact (get1S_ok (good_nil (set_ok h1)) (Prod.ext rfl rfl)).2.1
      | getSs fs Zb p =>
        cases h1 : TRL.set o p with
        | mk o1 r =>
          have hr : r = .ok () := by simpa [Call.Accepted, h1] using ha
          subst hr
          simp only [Call.run, TRL.getSs, h1]
          exact (getSsLoop_ok fs (good_nil (set_ok h1)) (Prod.ext rfl rfl)).2.1
      | visws f E Zb => exact (visws_ok g (Prod.ext rfl rfl) s z).2.1
      | solveVI f V0 I0 => exact (solveVI_ok g (Prod.ext rfl rfl)).2.1
    · cases c with
      | set kws =>
        obtain ⟨a, b, c, -⟩ := set_params (o := o) (kws := kws) (Prod.ext rfl rfl)
        exact s.congr ⟨a, b, c⟩
      | getS f Zb p =>
        cases h1 : TRL.set o p with
        | mk o1 r =>
          have hr : r = .ok () := by simpa [Call.Accepted, h1] using ha
          subst hr
          obtain ⟨a, b, c, -⟩ := set_params h1
          simp only [Call.run, TRL.getS, h1]
          exact (get1S_ok (good_nil (set_ok h1)) (Prod.ext rfl rfl)).1.solves (s.congr ⟨a, b, c⟩)
      | getSs fs Zb p =>
        cases h1 : TRL.set o p with
        | mk o1 r =>
          have hr : r = .ok () := by simpa [Call.Accepted, h1] using ha
          subst hr
          obtain ⟨a, b, c, -⟩ := set_params h1
          simp only [Call.run, TRL.getSs, h1]
          exact (getSsLoop_ok fs (good_nil (set_ok h1)) (Prod.ext rfl rfl)).1.solves (s.congr ⟨a, b, c⟩)
      | visws f E Zb => exact (visws_ok g (Prod.ext rfl rfl) s z).1.solves s
      | solveVI f V0 I0 => exact (solveVI_ok g (Prod.ext rfl rfl)).1.solves s

/-- **C51 (standing waves).** After any history of calls whose modifications were accepted, `VISWs` returns positions from
port to port, and the voltages and currents at these positions of the solution of the telegrapher equations — for the
*current* length and parameters — excited by the given incident waves on the given reference. -/
theorem C51_standing_waves {ode : Ode} {o o' : Line} (hr : Reach ode o) {f : ℝ} {E : List (String × ℂ)} {Zb : Option ℝ}
    {xs : List ℝ} {V I : List ℂ} (h : visws ode o f E Zb = (o', .ok (xs, V, I))) :
    ∃ a0 a1, mapE (dictGet E) o.ports = .ok [a0, a1] ∧
      Standing (o.z (2 * Real.pi * f)) (o.y (2 * Real.pi * f)) o.L (refOf o.Zbase Zb) a0 a1 xs V I := by
  obtain ⟨g, s, z⟩ := reach_good hr
  obtain ⟨a0, a1, h1, h2, -⟩ := (visws_ok g h s z).2.2 xs V I rfl
  exact ⟨a0, a1, h1, h2⟩

/-- **C51 (solveVI).** After any history of calls whose modifications were accepted, `solveVI(f, V0, I0)` returns the solution
of the telegrapher equations for the current length and parameters starting at the first port from `V0`, `I0`. -/
theorem C51_solveVI {ode : Ode} {o o' : Line} (hr : Reach ode o) {f : ℝ} {V0 I0 : ℂ} {xs : List ℝ} {V I : List ℂ}
    (h : solveVI ode o f V0 I0 = (o', .ok (xs, V, I))) : xs.head? = some 0 ∧ xs.getLast? = some o.L ∧
      ∃ Vf If, Telegraph (o.z (2 * Real.pi * f)) (o.y (2 * Real.pi * f)) Vf If ∧ V = xs.map Vf ∧ I = xs.map If ∧
        Vf 0 = V0 ∧ If 0 = I0 := by
  obtain ⟨g, s, z⟩ := reach_good hr
  obtain ⟨a, b, -, c⟩ := (solveVI_ok g h).2.2 xs V I rfl s
  exact ⟨a, b, c⟩

/-- **C51 is violated after a refused `set`.** If the frequency was solved before, a `set` that changes the length and is then
refused for an unknown parameter leaves the new length with the old solution: `solveVI` returns positions ending at the old
length (whatever the new one). -/
theorem C51_stale_after_refusal {ode : Ode} {o o1 o2 o3 : Line} (hr : Reach ode o) (hc : o.constant = true) {f V0 I0 : _}
    {xs V I} (h1 : solveVI ode o f V0 I0 = (o1, .ok (xs, V, I))) {L' : ℝ} {e : Err}
    (h2 : set o1 [.L L', .unknown] = (o2, .error e)) {r} (h3 : solveVI ode o2 f V0 I0 = (o3, r)) :
    o2.L = L' ∧ r = .ok (xs, V, I) ∧ xs.getLast? = some o.L := by
  obtain ⟨g, s, z⟩ := reach_good hr
  obtain ⟨a, b, -, c⟩ := (solveVI_ok g h1).2.2 xs V I rfl s
  have hc1 : o1.constant = true := by rw [(solveVI_ok g h1).1]; exact hc
  have h2' : o2 = { o1 with L := L', xpos := (o1.xpos.1, L' + o1.xpos.1) } := by
    simp [set, hc1, setLoop] at h2
    rw [hc1]; exact h2.1.symm
  subst h2'
  refine ⟨rfl, ?_, b⟩
  -- the frequency is in the table
  unfold solveVI at h1
  cases he : ensure ode o f with
  | mk oe re =>
    cases re with
    | error e => simp [he] at h1
    | ok sol =>
      simp only [he, Prod.mk.injEq] at h1
      obtain ⟨rfl, h1⟩ := h1
      have hfind : findSol oe.solved f = some sol := by
        unfold ensure at he
        cases hf : findSol o.solved f with
        | some s' =>
          simp only [hf, Prod.mk.injEq, Except.ok.injEq] at he
          obtain ⟨rfl, rfl⟩ := he
          exact hf
        | none =>
          simp only [hf] at he
          cases hfr : fresh ode o f with
          | error e => simp [hfr] at he
          | ok s' =>
            simp only [hfr, Prod.mk.injEq, Except.ok.injEq] at he
            obtain ⟨rfl, rfl⟩ := he
            simp [findSol]
      unfold solveVI ensure at h3
      simp only [hfind, Prod.mk.injEq] at h3
      rw [← h3.2, h1]

end PyRFtk.TRL
