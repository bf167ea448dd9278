import Verif.TRLLemmas

/-!
# Properties of transmission lines: C10, C11, C51
-/

namespace PyRFtk.TRL

/-- the reference impedance meant by the `Zbase` argument (none or 0: the object's own) -/
noncomputable def refOf (own : ℝ) : Option ℝ → ℝ
  | none => own
  | some z => open Classical in if z = 0 then own else z

/-- `(xs, V, I)` sample the voltage and current distribution on the line, from port to port, excited by the incident waves
`a0`, `a1` (voltage waves on reference `z0`) -/
def Standing (z y : ℝ → ℂ) (L : ℝ) (z0 : ℝ) (a0 a1 : ℂ) (xs : List ℝ) (V I : List ℂ) : Prop :=
  xs.head? = some 0 ∧ xs.getLast? = some L ∧ ∃ Vf If, Telegraph z y Vf If ∧ V = xs.map Vf ∧ I = xs.map If ∧
    (Vf 0 + z0 * (-If 0)) / 2 = a0 ∧ (Vf L + z0 * If L) / 2 = a1

/-- the table of solved frequencies holds what a new evaluation would give -/
def Good (ode : Ode) (o : Line) : Prop :=
  ∀ e ∈ o.solved, fresh ode o e.1 = .ok { e.2 with sw := [] } ∧ ∀ q ∈ e.2.sw, ∃ a0 a1 z, q.1 = ([a0, a1], some z) ∧ z ≠ 0 ∧
    Standing (o.z (2 * Real.pi * e.1)) (o.y (2 * Real.pi * e.1)) o.L z a0 a1 e.2.xs q.2.1 q.2.2

/-- two states of an object that differ at most in the table of solved frequencies -/
def Same (o o' : Line) : Prop := o' = { o with solved := o'.solved }

theorem Same.refl (o : Line) : Same o o := rfl

theorem nodeSeq_solved (o : Line) (l) (f : ℝ) (n : ℤ) : nodeSeq { o with solved := l } f n = nodeSeq o f n := by
  funext k
  induction k with
  | zero => rfl
  | succ k ih => simp only [nodeSeq, ih]; rfl

theorem grid_solved (o : Line) (l) (f : ℝ) : grid { o with solved := l } f = grid o f := by
  have : ∀ n, growGrid { o with solved := l } f n = growGrid o f n := by
    intro n; unfold growGrid; simp only [nodeSeq_solved]
  unfold grid
  simp only [this]
  rfl

theorem fresh_solved (ode : Ode) (o : Line) (l) (f : ℝ) : TRL.fresh ode { o with solved := l } f = TRL.fresh ode o f := by
  have : solveNodes ode { o with solved := l } f = solveNodes ode o f := by
    unfold solveNodes; simp only [grid_solved]
  unfold TRL.fresh
  simp only [this]

theorem Same.fresh {ode : Ode} {o o' : Line} (h : Same o o') (f : ℝ) : fresh ode o' f = fresh ode o f := by
  rw [h]; exact fresh_solved _ _ _ _

theorem Same.trans {o o' o'' : Line} (h : Same o o') (h' : Same o' o'') : Same o o'' := by
  unfold Same at *; rw [h']; rw [h]

theorem Same.solves {ode : Ode} {o o' : Line} (h : Same o o') (hs : Solves ode o) : Solves ode o' := by
  rw [h]; exact hs

theorem findSol_mem {l : List (ℝ × Sol)} {f : ℝ} {s : Sol} (h : findSol l f = some s) : (f, s) ∈ l := by
  unfold findSol at h
  rw [Option.map_eq_some_iff] at h
  obtain ⟨e, he, rfl⟩ := h
  have h1 := List.mem_of_find?_eq_some he
  have h2 := List.find?_some he
  simp only [decide_eq_true_eq] at h2
  rw [← h2]; exact h1

theorem ensure_ok {ode : Ode} {o o' : Line} {f : ℝ} {r : Except Err Sol} (hg : Good ode o) (h : ensure ode o f = (o', r)) :
    Same o o' ∧ Good ode o' ∧ ∀ s, r = .ok s → fresh ode o f = .ok { s with sw := [] } := by
  unfold ensure at h
  cases hf : findSol o.solved f with
  | some s =>
    simp only [hf, Prod.mk.injEq] at h
    obtain ⟨rfl, rfl⟩ := h
    refine ⟨rfl, hg, ?_⟩
    intro s' hs; injection hs with hs; subst hs
    exact (hg _ (findSol_mem hf)).1
  | none =>
    simp only [hf] at h
    cases hn : fresh ode o f with
    | error e =>
      simp only [hn, Prod.mk.injEq] at h
      obtain ⟨rfl, rfl⟩ := h
      exact ⟨rfl, hg, fun s hs => by cases hs⟩
    | ok s =>
      simp only [hn, Prod.mk.injEq] at h
      obtain ⟨rfl, rfl⟩ := h
      have hsw : s.sw = [] := by
        unfold fresh at hn
        cases h1 : solveNodes ode o f with
        | error e => simp [h1] at hn
        | ok p =>
          obtain ⟨xs, VI⟩ := p
          simp only [h1] at hn
          cases h2 : VI.getLast? with
          | none => simp [h2] at hn
          | some M =>
            simp only [h2] at hn
            cases h3 : sFromVI (o.Zbase : ℂ) M with
            | error e => simp [h3] at hn
            | ok S => simp only [h3, Except.ok.injEq] at hn; subst hn; rfl
      have hss : { s with sw := [] } = s := by rw [← hsw]
      refine ⟨rfl, ?_, ?_⟩
      · intro e he
        rw [fresh_solved]
        rcases List.mem_cons.1 he with rfl | he
        · refine ⟨by rw [hn, hss], ?_⟩
          intro q hq
          simp only [hsw] at hq
          cases hq
        · exact hg _ he
      · intro s' hs; injection hs with hs; subst hs; rw [hss]

theorem get1S_ok {ode : Ode} {o o' : Line} {f : ℝ} {Zb : Option ℝ} {r : Except Err Mat2} (hg : Good ode o)
    (h : get1S ode o f Zb = (o', r)) : Same o o' ∧ Good ode o' ∧ ∀ S, r = .ok S → Solves ode o → o.Zbase ≠ 0 → ∀ v i,
      ScatterV (refOf o.Zbase Zb : ℂ) S v i ↔ LineLaw (o.z (2 * Real.pi * f)) (o.y (2 * Real.pi * f)) o.L v i := by
  unfold get1S at h
  cases he : ensure ode o f with
  | mk o1 r1 =>
    obtain ⟨hs, hg1, hf⟩ := ensure_ok hg he
    have hZ : o1.Zbase = o.Zbase := by rw [hs]
    cases r1 with
    | error e =>
      simp only [he, Prod.mk.injEq] at h
      obtain ⟨rfl, rfl⟩ := h
      exact ⟨hs, hg1, fun S hS => by cases hS⟩
    | ok s =>
      have hfr := hf s rfl
      have law : Solves ode o → o.Zbase ≠ 0 → ∀ v i, ScatterV (o.Zbase : ℂ) s.S v i ↔
          LineLaw (o.z (2 * Real.pi * f)) (o.y (2 * Real.pi * f)) o.L v i := by
        intro hsol hz v i
        obtain ⟨V1, I1, V2, I2, hF, -, -, -, hS, -⟩ := fresh_ok hsol hfr
        exact law_of_sFromVI hF (by exact_mod_cast hz) hS v i
      simp only [he] at h
      cases Zb with
      | none =>
        simp only [Prod.mk.injEq] at h
        obtain ⟨rfl, rfl⟩ := h
        refine ⟨hs, hg1, ?_⟩
        intro S hS; injection hS with hS; subst hS
        exact law
      | some z =>
        simp only at h
        by_cases h0 : z = 0 ∨ z = o1.Zbase
        · rw [if_pos h0] at h
          simp only [Prod.mk.injEq] at h
          obtain ⟨rfl, rfl⟩ := h
          refine ⟨hs, hg1, ?_⟩
          intro S hS; injection hS with hS; subst hS
          have : refOf o.Zbase (some z) = o.Zbase := by
            rcases h0 with h0 | h0
            · simp [refOf, h0]
            · simp [refOf, h0, hZ]
          rw [this]; exact law
        · rw [if_neg h0] at h
          simp only [Prod.mk.injEq] at h
          obtain ⟨rfl, rfl⟩ := h
          refine ⟨hs, hg1, ?_⟩
          intro S hS hsol hzb v i
          rw [hZ] at hS
          push Not at h0
          have hz : (z : ℂ) ≠ 0 := by exact_mod_cast h0.1
          have hr : refOf o.Zbase (some z) = z := by simp [refOf, h0.1]
          rw [hr]
          cases hc : convertGeneral (.d0 (z : ℂ)) (.d2 2 2 s.S) (.d0 (o.Zbase : ℂ)) "V" "V" with
          | error e => simp [hc] at hS
          | ok R =>
            simp only [hc] at hS
            obtain ⟨S', rfl, hl⟩ := convertVV_one hz hc
            simp only [asMat2, and_self, dite_true] at hS
            injection hS with hS
            have hS : S' = S := hS
            subst hS
            rw [← hl, law hsol hzb]

theorem set_ok {o o' : Line} {kws : List Kw} (h : set o kws = (o', .ok ())) : o'.solved = [] := by
  unfold set at h
  split at h
  · simp at h
  · split at h
    · simp at h
    · simp only [Prod.mk.injEq, and_true] at h; rw [← h]

theorem setLoop_params (kws : List Kw) : ∀ {o o' : Line} {r}, setLoop o kws = (o', r) →
    o'.constant = o.constant ∧ o'.z = o.z ∧ o'.y = o.y ∧ o'.ports = o.ports ∧ o'.solved = o.solved := by
  induction kws with
  | nil => intro o o' r h; simp only [setLoop, Prod.mk.injEq] at h; rw [← h.1]; simp
  | cons k ks ih =>
    intro o o' r h
    cases k with
    | L x => rw [setLoop] at h; obtain ⟨a, b, c, d, e⟩ := ih h; exact ⟨a, b, c, d, e⟩
    | Zbase x => rw [setLoop] at h; obtain ⟨a, b, c, d, e⟩ := ih h; exact ⟨a, b, c, d, e⟩
    | dx x => rw [setLoop] at h; obtain ⟨a, b, c, d, e⟩ := ih h; exact ⟨a, b, c, d, e⟩
    | unknown => simp only [setLoop, Prod.mk.injEq] at h; rw [← h.1]; simp

theorem set_params {o o' : Line} {kws : List Kw} {r} (h : set o kws = (o', r)) :
    o'.constant = o.constant ∧ o'.z = o.z ∧ o'.y = o.y ∧ o'.ports = o.ports := by
  unfold set at h
  split at h
  · simp only [Prod.mk.injEq] at h; rw [← h.1]; simp
  · split at h
    · rename_i h1
      simp only [Prod.mk.injEq] at h; rw [← h.1]
      obtain ⟨a, b, c, d, -⟩ := setLoop_params _ h1; exact ⟨a, b, c, d⟩
    · rename_i h1
      simp only [Prod.mk.injEq] at h; rw [← h.1]
      obtain ⟨a, b, c, d, -⟩ := setLoop_params _ h1; exact ⟨a, b, c, d⟩

theorem Solves.congr {ode : Ode} {o o' : Line} (h : o'.constant = o.constant ∧ o'.z = o.z ∧ o'.y = o.y)
    (hs : Solves ode o) : Solves ode o' := by
  unfold Solves at *
  rw [h.1, h.2.1, h.2.2]; exact hs

theorem good_nil {ode : Ode} {o : Line} (h : o.solved = []) : Good ode o := by
  intro e he; rw [h] at he; cases he

/-- what every successful `getS` returns -/
theorem getS_law {ode : Ode} {o o' : Line} {f : ℝ} {Zb : Option ℝ} {params : List Kw} {S : Mat2} (hs : Solves ode o)
    (hz : o'.Zbase ≠ 0) (h : getS ode o f Zb params = (o', .ok S)) (v i : Fin 2 → ℂ) :
    ScatterV (refOf o'.Zbase Zb : ℂ) S v i ↔ LineLaw (o.z (2 * Real.pi * f)) (o.y (2 * Real.pi * f)) o'.L v i := by
  unfold getS at h
  cases h1 : set o params with
  | mk o1 r1 =>
    simp only [h1] at h
    cases r1 with
    | error e => simp at h
    | ok u =>
      simp only at h
      obtain ⟨a, b, c, d⟩ := set_params h1
      obtain ⟨h2, -, h3⟩ := get1S_ok (good_nil (set_ok h1)) h
      have e1 : o'.L = o1.L := by rw [h2]
      have e2 : o'.Zbase = o1.Zbase := by rw [h2]
      rw [e1, e2, ← b, ← c]
      rw [e2] at hz
      exact h3 S rfl (hs.congr ⟨a, b, c⟩) hz v i

theorem refOf_ne {z0 : ℝ} (h : z0 ≠ 0) (Zb : Option ℝ) : refOf z0 Zb ≠ 0 := by
  cases Zb with
  | none => exact h
  | some z => unfold refOf; by_cases h0 : z = 0 <;> simp [h0, h]

/-! ## C10 -/

/-- **C10 (telegrapher equations).** The matrix returned by `getS` describes, on the requested reference, exactly the port
voltages and currents that belong to a solution of the telegrapher equations on a line of the current length: for every
node spacing `dx`, every frequency, every reference.  (For non-uniform lines this assumes the integrator exact.)  In
particular the result does not depend on `dx` nor on the branch chosen for the square roots. -/
theorem C10_telegrapher {ode : Ode} {o o' : Line} {f : ℝ} {Zb : Option ℝ} {params : List Kw} {S : Mat2} (hs : Solves ode o)
    (hz : o'.Zbase ≠ 0) (h : getS ode o f Zb params = (o', .ok S)) (v i : Fin 2 → ℂ) :
    ScatterV (refOf o'.Zbase Zb : ℂ) S v i ↔ LineLaw (o.z (2 * Real.pi * f)) (o.y (2 * Real.pi * f)) o'.L v i :=
  getS_law hs hz h v i

/-- the parameters given to a call are in force: the last length given, else the object's -/
theorem C10_length {ode : Ode} {o o' : Line} {f : ℝ} {Zb : Option ℝ} {L : ℝ} {S : Mat2}
    (h : getS ode o f Zb [.L L] = (o', .ok S)) : o'.L = L ∧ o.constant = true := by
  unfold getS at h
  cases hc : o.constant with
  | false => simp [set, hc] at h
  | true =>
    refine ⟨?_, rfl⟩
    have : set o [.L L] = ({ o with L := L, xpos := (o.xpos.1, L + o.xpos.1), solved := [] }, .ok ()) := by
      simp [set, hc, setLoop]
    simp only [this] at h
    obtain ⟨h2, -, -⟩ := get1S_ok (good_nil rfl) h
    rw [h2]

/-- **C10 (uniqueness: dx and square roots do not matter).** Two objects with the same parameters and length but any node
spacings return the same matrix. -/
theorem C10_grid_independent {ode ode' : Ode} {o p o' p' : Line} {f : ℝ} {Zb : Option ℝ} {q q' : List Kw} {S T : Mat2}
    (hs : Solves ode o) (hs' : Solves ode' p) (h : getS ode o f Zb q = (o', .ok S)) (h' : getS ode' p f Zb q' = (p', .ok T))
    (hz : o'.Zbase ≠ 0) (e1 : o.z = p.z) (e2 : o.y = p.y) (e3 : o'.L = p'.L) (e4 : o'.Zbase = p'.Zbase) : S = T := by
  have hz' : (refOf o'.Zbase Zb : ℂ) ≠ 0 := by exact_mod_cast refOf_ne hz Zb
  apply scatterV_unique hz'
  intro V I hV
  have := (getS_law hs hz h V I).1 hV
  rw [e1, e2, e3] at this
  have h3 := (getS_law hs' (e4 ▸ hz) h' V I).2 this
  rw [← e4] at h3; exact h3

/-- **C10 (reciprocal).** -/
theorem C10_reciprocal {ode : Ode} {o o' : Line} {f : ℝ} {Zb : Option ℝ} {params : List Kw} {S : Mat2} (hs : Solves ode o)
    (hz : o'.Zbase ≠ 0) (h : getS ode o f Zb params = (o', .ok S)) : Reciprocal S := by
  have hz' : (refOf o'.Zbase Zb : ℂ) ≠ 0 := by exact_mod_cast refOf_ne hz Zb
  apply reciprocal_of_ports hz'
  intro V I V' I' h1 h2
  exact ((getS_law hs hz h V I).1 h1).reciprocal ((getS_law hs hz h V' I').1 h2)

/-- **C10 (symmetric).** A uniform line looks the same from both ends. -/
theorem C10_symmetric {ode : Ode} {o o' : Line} {f : ℝ} {Zb : Option ℝ} {params : List Kw} {S : Mat2} (hs : Solves ode o)
    (hc : o.constant = true) (hz : o'.Zbase ≠ 0) (h : getS ode o f Zb params = (o', .ok S)) : S 0 0 = S 1 1 ∧ S 0 1 = S 1 0 := by
  have hz' : (refOf o'.Zbase Zb : ℂ) ≠ 0 := by exact_mod_cast refOf_ne hz Zb
  have hcz : ∀ x, o.z (2 * Real.pi * f) (o'.L - x) = o.z (2 * Real.pi * f) x := by
    intro x; unfold Solves at hs; rw [if_pos hc] at hs; rw [(hs _ _).1, (hs _ x).1]
  have hcy : ∀ x, o.y (2 * Real.pi * f) (o'.L - x) = o.y (2 * Real.pi * f) x := by
    intro x; unfold Solves at hs; rw [if_pos hc] at hs; rw [(hs _ _).2, (hs _ x).2]
  have : S = !![S 1 1, S 1 0; S 0 1, S 0 0] := by
    apply scatterV_unique hz'
    intro V I hV
    have h1 := ((getS_law hs hz h V I).1 hV).reverse
    simp only [hcz, hcy] at h1
    have h2 := (getS_law hs hz h _ _).2 h1
    unfold ScatterV at h2 ⊢
    have a := congrFun h2 0
    have b := congrFun h2 1
    funext k
    fin_cases k
    · simp [Matrix.mulVec, dotProduct, Fin.sum_univ_two] at a b ⊢; linear_combination b
    · simp [Matrix.mulVec, dotProduct, Fin.sum_univ_two] at a b ⊢; linear_combination a
  have a := congrFun (congrFun this 0) 0
  have b := congrFun (congrFun this 0) 1
  simp at a b
  exact ⟨a, b⟩

theorem solves_fund {ode : Ode} {o : Line} (hs : Solves ode o) (w : ℝ) : ∃ V1 I1 V2 I2, Fund (o.z w) (o.y w) V1 I1 V2 I2 := by
  unfold Solves at hs
  split at hs
  · have a : o.z w = fun _ => o.z w 0 := funext fun x => (hs w x).1
    have b : o.y w = fun _ => o.y w 0 := funext fun x => (hs w x).2
    rw [a, b]; exact exists_fund _ _
  · obtain ⟨V1, I1, V2, I2, hF, -⟩ := hs w
    exact ⟨V1, I1, V2, I2, hF⟩

/-- **C10 (zero length).** A section of zero length is a through connection on every reference. -/
theorem C10_zero_length {ode : Ode} {o o' : Line} {f : ℝ} {Zb : Option ℝ} {params : List Kw} {S : Mat2} (hs : Solves ode o)
    (hz : o'.Zbase ≠ 0) (h : getS ode o f Zb params = (o', .ok S)) (hL : o'.L = 0) : S = !![0, 1; 1, 0] := by
  have hz' : (refOf o'.Zbase Zb : ℂ) ≠ 0 := by exact_mod_cast refOf_ne hz Zb
  apply scatterV_unique hz'
  intro V I hV
  have h1 := (getS_law hs hz h V I).1 hV
  obtain ⟨V1, I1, V2, I2, hF⟩ := solves_fund hs (2 * Real.pi * f)
  rw [hL, lineLaw_zero hF.t1 hF.t2 hF.a hF.b hF.c hF.d] at h1
  unfold ScatterV
  funext k
  fin_cases k
  · simp [Matrix.mulVec, dotProduct, Fin.sum_univ_two, h1.1, h1.2, sub_eq_add_neg]
  · simp [Matrix.mulVec, dotProduct, Fin.sum_univ_two, h1.1, h1.2, sub_eq_add_neg]

/-- **C10 (cascade).** For a uniform line the section of length `L1 + L2` allows exactly the port voltages and currents that
the sections of lengths `L1` and `L2` joined at a common node allow. -/
theorem C10_cascade {ode : Ode} {o o1 o2 o3 : Line} {f : ℝ} {Z1 Z2 Z3 : Option ℝ} {L1 L2 : ℝ} {S1 S2 S3 : Mat2}
    (hs : Solves ode o) (h1 : getS ode o f Z1 [.L L1] = (o1, .ok S1)) (h2 : getS ode o f Z2 [.L L2] = (o2, .ok S2))
    (h3 : getS ode o f Z3 [.L (L1 + L2)] = (o3, .ok S3)) (hz1 : o1.Zbase ≠ 0) (hz2 : o2.Zbase ≠ 0) (hz3 : o3.Zbase ≠ 0)
    (v i : Fin 2 → ℂ) :
    ScatterV (refOf o3.Zbase Z3 : ℂ) S3 v i ↔ ∃ vm im, ScatterV (refOf o1.Zbase Z1 : ℂ) S1 ![v 0, vm] ![i 0, im] ∧
      ScatterV (refOf o2.Zbase Z2 : ℂ) S2 ![vm, v 1] ![-im, i 1] := by
  obtain ⟨V1, I1, V2, I2, hF⟩ := solves_fund hs (2 * Real.pi * f)
  obtain ⟨l1, hc⟩ := C10_length h1
  obtain ⟨l2, -⟩ := C10_length h2
  obtain ⟨l3, -⟩ := C10_length h3
  have hcz : ∀ x, o.z (2 * Real.pi * f) (L1 + x) = o.z (2 * Real.pi * f) x := by
    intro x; unfold Solves at hs; rw [if_pos hc] at hs; rw [(hs _ _).1, (hs _ x).1]
  have hcy : ∀ x, o.y (2 * Real.pi * f) (L1 + x) = o.y (2 * Real.pi * f) x := by
    intro x; unfold Solves at hs; rw [if_pos hc] at hs; rw [(hs _ _).2, (hs _ x).2]
  rw [getS_law hs hz3 h3, l3, lineLaw_cascade hF.t1 hF.t2 hF.a hF.b hF.c hF.d]
  simp only [hcz, hcy]
  constructor
  · rintro ⟨vm, im, a, b⟩
    refine ⟨vm, im, (getS_law hs hz1 h1 _ _).2 (by rw [l1]; exact a), (getS_law hs hz2 h2 _ _).2 (by rw [l2]; exact b)⟩
  · rintro ⟨vm, im, a, b⟩
    have a := (getS_law hs hz1 h1 _ _).1 a
    have b := (getS_law hs hz2 h2 _ _).1 b
    rw [l1] at a; rw [l2] at b
    exact ⟨vm, im, a, b⟩

/-- **C10 (negative twin).** A section followed by its negative-length twin is a through connection. -/
theorem C10_inverse {ode : Ode} {o o1 o2 : Line} {f : ℝ} {Z1 Z2 : Option ℝ} {L : ℝ} {S1 S2 : Mat2}
    (hs : Solves ode o) (h1 : getS ode o f Z1 [.L L] = (o1, .ok S1)) (h2 : getS ode o f Z2 [.L (-L)] = (o2, .ok S2))
    (hz1 : o1.Zbase ≠ 0) (hz2 : o2.Zbase ≠ 0) (v i : Fin 2 → ℂ) :
    (∃ vm im, ScatterV (refOf o1.Zbase Z1 : ℂ) S1 ![v 0, vm] ![i 0, im] ∧
      ScatterV (refOf o2.Zbase Z2 : ℂ) S2 ![vm, v 1] ![-im, i 1]) ↔ v 1 = v 0 ∧ i 1 = -i 0 := by
  obtain ⟨V1, I1, V2, I2, hF⟩ := solves_fund hs (2 * Real.pi * f)
  obtain ⟨l1, hc⟩ := C10_length h1
  obtain ⟨l2, -⟩ := C10_length h2
  have hcz : ∀ x, o.z (2 * Real.pi * f) (L + x) = o.z (2 * Real.pi * f) x := by
    intro x; unfold Solves at hs; rw [if_pos hc] at hs; rw [(hs _ _).1, (hs _ x).1]
  have hcy : ∀ x, o.y (2 * Real.pi * f) (L + x) = o.y (2 * Real.pi * f) x := by
    intro x; unfold Solves at hs; rw [if_pos hc] at hs; rw [(hs _ _).2, (hs _ x).2]
  have hcas := lineLaw_cascade hF.t1 hF.t2 hF.a hF.b hF.c hF.d L (-L) v i
  simp only [hcz, hcy, add_neg_cancel] at hcas
  rw [← lineLaw_zero hF.t1 hF.t2 hF.a hF.b hF.c hF.d, hcas]
  constructor
  · rintro ⟨vm, im, a, b⟩
    have a := (getS_law hs hz1 h1 _ _).1 a
    have b := (getS_law hs hz2 h2 _ _).1 b
    rw [l1] at a; rw [l2] at b
    exact ⟨vm, im, a, b⟩
  · rintro ⟨vm, im, a, b⟩
    refine ⟨vm, im, (getS_law hs hz1 h1 _ _).2 (by rw [l1]; exact a), (getS_law hs hz2 h2 _ _).2 (by rw [l2]; exact b)⟩

/-- **C10 (matched).** If the reference is the characteristic impedance of the uniform line (`z = Z0 γ` for a propagation
constant `γ` with `γ² = z y`, either root), there is no reflection and the transmission is `exp(-γ L)`. -/
theorem C10_matched {ode : Ode} {o o' : Line} {f : ℝ} {Zb : Option ℝ} {params : List Kw} {S : Mat2} (hs : Solves ode o)
    (hc : o.constant = true) (hz : o'.Zbase ≠ 0) (h : getS ode o f Zb params = (o', .ok S)) {γ : ℂ} (hγ : γ ≠ 0)
    (hγ2 : γ ^ 2 = o.z (2 * Real.pi * f) 0 * o.y (2 * Real.pi * f) 0)
    (hm : o.z (2 * Real.pi * f) 0 = (refOf o'.Zbase Zb : ℂ) * γ) :
    S = !![0, Complex.exp (-γ * o'.L); Complex.exp (-γ * o'.L), 0] := by
  have hz' : (refOf o'.Zbase Zb : ℂ) ≠ 0 := by exact_mod_cast refOf_ne hz Zb
  have a : o.z (2 * Real.pi * f) = fun _ => o.z (2 * Real.pi * f) 0 := by
    funext x; unfold Solves at hs; rw [if_pos hc] at hs; exact (hs _ x).1
  have b : o.y (2 * Real.pi * f) = fun _ => o.y (2 * Real.pi * f) 0 := by
    funext x; unfold Solves at hs; rw [if_pos hc] at hs; exact (hs _ x).2
  have hF := fund_exp hγ2 hγ
  apply scatterV_unique hz'
  intro V I hV
  have h1 := (getS_law hs hz h V I).1 hV
  rw [a, b, lineLaw_iff hF.t1 hF.t2 hF.a hF.b hF.c hF.d] at h1
  have hr : o.z (2 * Real.pi * f) 0 / γ = (refOf o'.Zbase Zb : ℂ) := by rw [hm]; field_simp
  rw [hr] at h1
  have he : Complex.exp (γ * o'.L) ≠ 0 := Complex.exp_ne_zero _
  have hn : Complex.exp (-γ * o'.L) = 1 / Complex.exp (γ * o'.L) := by rw [neg_mul, Complex.exp_neg, one_div]
  unfold ScatterV
  funext k
  rw [hn]
  generalize Complex.exp (γ * o'.L) = e at *
  generalize (refOf o'.Zbase Zb : ℂ) = z0 at *
  fin_cases k
  · simp [Matrix.mulVec, dotProduct, Fin.sum_univ_two, h1.1, h1.2]
    field_simp; ring
  · simp [Matrix.mulVec, dotProduct, Fin.sum_univ_two, h1.1, h1.2]
    field_simp; ring

/-! ## C11 -/

/-- **C11 (passive).** A line of non-negative length with non-negative series resistance and shunt conductance does not
deliver power (positive reference). -/
theorem C11_passive {ode : Ode} {o o' : Line} {f : ℝ} {Zb : Option ℝ} {params : List Kw} {S : Mat2} (hs : Solves ode o)
    (hz : o'.Zbase ≠ 0) (hr : 0 < refOf o'.Zbase Zb) (hL : 0 ≤ o'.L) (h : getS ode o f Zb params = (o', .ok S))
    (h1 : ∀ x, 0 ≤ (o.z (2 * Real.pi * f) x).re) (h2 : ∀ x, 0 ≤ (o.y (2 * Real.pi * f) x).re) : Passive S :=
  passive_of_ports hr fun V I hV => ((getS_law hs hz h V I).1 hV).passive hL h1 h2

/-- **C11 (lossless).** A line without series resistance and shunt conductance conserves power, whatever its length. -/
theorem C11_lossless {ode : Ode} {o o' : Line} {f : ℝ} {Zb : Option ℝ} {params : List Kw} {S : Mat2} (hs : Solves ode o)
    (hz : o'.Zbase ≠ 0) (hr : 0 < refOf o'.Zbase Zb) (h : getS ode o f Zb params = (o', .ok S))
    (h1 : ∀ x, (o.z (2 * Real.pi * f) x).re = 0) (h2 : ∀ x, (o.y (2 * Real.pi * f) x).re = 0) : Lossless S :=
  lossless_of_ports hr fun V I hV => ((getS_law hs hz h V I).1 hV).lossless h1 h2

end PyRFtk.TRL
