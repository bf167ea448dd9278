import Verif.RLCProps

/-!
# rfRLC: C15 (zero frequency), C32 (set), C50 (port count), and concrete cases
-/

namespace PyRFtk.RLC

/-! ## C15 -/

theorem scatterV_diag {z0 : ℂ} (p q : ℂ) (V I : Fin 2 → ℂ) :
    ScatterV z0 (!![p, 0; 0, q] : Mat2) V I ↔
      V 0 - z0 * I 0 = p * (V 0 + z0 * I 0) ∧ V 1 - z0 * I 1 = q * (V 1 + z0 * I 1) := by
  unfold ScatterV
  rw [funext_iff, Fin.forall_fin_two]
  simp [Matrix.mulVec, dotProduct, Fin.sum_univ_two]
  constructor
  · rintro ⟨h1, h2⟩
    exact ⟨by linear_combination 2 * h1, by linear_combination 2 * h2⟩
  · rintro ⟨h1, h2⟩
    exact ⟨by linear_combination h1 / 2, by linear_combination h2 / 2⟩

/-- reflection `(R - z)/(R + z)` is the termination `V = R I` -/
theorem reflect_iff {R z V I : ℂ} (h : R + z ≠ 0) (hz : z ≠ 0) :
    V - z * I = (R - z) / (R + z) * (V + z * I) ↔ V = R * I := by
  rw [div_mul_eq_mul_div, eq_div_iff h]
  constructor
  · intro h
    apply mul_left_cancel₀ (mul_ne_zero two_ne_zero hz)
    linear_combination h
  · rintro rfl; ring

theorem refl_open {z V I : ℂ} (hz : z ≠ 0) : V - z * I = ((1 : ℝ) : ℂ) * (V + z * I) ↔ I = 0 := by
  constructor
  · intro h
    apply mul_left_cancel₀ (mul_ne_zero two_ne_zero hz)
    push_cast at h
    linear_combination -h
  · rintro rfl; push_cast; ring

theorem refl_short {z V I : ℂ} : V - z * I = ((-1 : ℝ) : ℂ) * (V + z * I) ↔ V = 0 := by
  constructor
  · intro h
    push_cast at h
    linear_combination h / 2
  · rintro rfl; push_cast; ring

/-- at DC the shunt branch with an inductor present forces `V 1 = 0` and leaves the current free -/
theorem shunt_short {x : Ext} {y : Ext} (hy : y ≠ .inf) {L : ℝ} {V J : ℂ} :
    (∃ iC iL iR, Capacitor (omega 0) y V iC ∧ Inductor (omega 0) (.fin L) V iL ∧ Resistor x V iR ∧ J = iC + iL + iR) ↔
      V = 0 := by
  cases y with
  | inf => exact absurd rfl hy
  | fin C =>
    simp only [Capacitor, Inductor, omega]
    constructor
    · rintro ⟨iC, iL, iR, -, h, -⟩
      simpa using h
    · rintro rfl
      refine ⟨0, J, 0, by simp, by simp, ?_, by simp⟩
      cases x <;> simp [Resistor]

/-- at DC the shunt branch without inductor is the resistor -/
theorem shunt_res {x : Ext} {y : Ext} (hy : y ≠ .inf) {V J : ℂ} :
    (∃ iC iL iR, Capacitor (omega 0) y V iC ∧ Inductor (omega 0) .inf V iL ∧ Resistor x V iR ∧ J = iC + iL + iR) ↔
      Resistor x V J := by
  cases y with
  | inf => exact absurd rfl hy
  | fin C =>
    simp only [Capacitor, Inductor, omega]
    constructor
    · rintro ⟨iC, iL, iR, h1, h2, h3, h4⟩
      simp at h1 h2
      subst h1 h2
      simp at h4
      rw [h4]; exact h3
    · intro h
      exact ⟨0, 0, J, by simp, by simp, h, by simp⟩

/-- at DC the series branch with a capacitor is open -/
theorem series_open {x : Ext} {y : Ext} (hy : y ≠ .inf) {C : ℝ} {D J : ℂ} :
    (∃ vC vL vR, Capacitor (omega 0) (.fin C) vC J ∧ Inductor (omega 0) y vL J ∧ Resistor x vR J ∧ D = vC + vL + vR) ↔
      J = 0 := by
  cases y with
  | inf => exact absurd rfl hy
  | fin L =>
    simp only [Capacitor, Inductor, omega]
    constructor
    · rintro ⟨vC, vL, vR, h, -⟩
      simpa using h
    · rintro rfl
      refine ⟨D, 0, 0, by simp, by simp, ?_, by simp⟩
      cases x <;> simp [Resistor]

/-- at DC the series branch without capacitor is the resistor -/
theorem series_res {x : Ext} {y : Ext} (hy : y ≠ .inf) {D J : ℂ} :
    (∃ vC vL vR, Capacitor (omega 0) .inf vC J ∧ Inductor (omega 0) y vL J ∧ Resistor x vR J ∧ D = vC + vL + vR) ↔
      Resistor x D J := by
  cases y with
  | inf => exact absurd rfl hy
  | fin L =>
    simp only [Capacitor, Inductor, omega]
    constructor
    · rintro ⟨vC, vL, vR, h1, h2, h3, h4⟩
      simp at h1 h2
      subst h1 h2
      simp at h4
      rw [h4]; exact h3
    · intro h
      exact ⟨0, 0, D, by simp, by simp, h, by simp⟩

theorem law_split (e : Elem → Ext) (w : ℝ) (V I : Fin 2 → ℂ) : Law e w V I ↔
    (∃ vC vL vR, Capacitor w (e .Cs) vC (I 0) ∧ Inductor w (e .Ls) vL (I 0) ∧ Resistor (e .Rs) vR (I 0) ∧
      V 0 - V 1 = vC + vL + vR) ∧
    (∃ iC iL iR, Capacitor w (e .Cp) (V 1) iC ∧ Inductor w (e .Lp) (V 1) iL ∧ Resistor (e .Rp) (V 1) iR ∧
      I 0 + I 1 = iC + iL + iR) := by
  constructor
  · rintro ⟨a, b, c, d, e, f, h1, h2, h3, h4, h5, h6, h7, h8⟩
    exact ⟨⟨a, b, c, h1, h2, h3, h4⟩, ⟨d, e, f, h5, h6, h7, h8⟩⟩
  · rintro ⟨⟨a, b, c, h1, h2, h3, h4⟩, ⟨d, e, f, h5, h6, h7, h8⟩⟩
    exact ⟨a, b, c, d, e, f, h1, h2, h3, h4, h5, h6, h7, h8⟩

/-- **C15 (DC limit, where it holds).** When the circuit has a series capacitor or a shunt inductor (and this numpy still
has `np.complex`), the matrix returned at `f = 0` is that of the drawing at DC on the reference in force.
Missing for the full property: the branch without either (next theorem: wrong reference), and current numpy versions. -/
theorem C15_dc_partial {npc : Bool} {s s' : St} {Zb : Option ℝ} {params : Elem → Option Ext} {S : Mat2}
    (hL : inForce s params .Ls ≠ .inf) (hC : inForce s params .Cp ≠ .inf) (hz : refZ s Zb ≠ 0)
    (hb : ¬ (inForce s params .Cs = .inf ∧ inForce s params .Lp = .inf))
    (h : getS1 npc s Zb params 0 = (s', .ok S)) (V I : Fin 2 → ℂ) :
    ScatterV (refZ s Zb : ℂ) S V I ↔ Law (inForce s params) (omega 0) V I := by
  obtain ⟨h, -⟩ := getS1_ok h
  generalize inForce s params = e at *
  generalize refZ s Zb = z at *
  have hz' : (z : ℂ) ≠ 0 := by exact_mod_cast hz
  rw [law_split]
  rcases get1S_zero h with ⟨h1, h2, -⟩ | ⟨-, h1, ⟨L, h2⟩, R, h3, h4, rfl⟩ | ⟨-, ⟨C, h1⟩, h2, h'⟩ | ⟨-, ⟨C, h1⟩, ⟨L, h2⟩, rfl⟩
  · exact absurd ⟨h1, h2⟩ hb
  · rw [h1, h2, series_res hL, shunt_short hC, h3, scatterV_diag, refl_short]
    push_cast
    rw [reflect_iff (by exact_mod_cast h4) hz']
    simp only [Resistor]
    constructor
    · rintro ⟨a, b⟩; exact ⟨by rw [b]; linear_combination a, b⟩
    · rintro ⟨a, b⟩; exact ⟨by rw [b] at a; linear_combination a, b⟩
  · rw [h1, h2, series_open hL, shunt_res hC]
    rcases h' with ⟨R, h3, h4, rfl⟩ | ⟨h3, rfl⟩
    · rw [h3, scatterV_diag, refl_open hz']
      push_cast
      rw [reflect_iff (by exact_mod_cast h4) hz']
      simp only [Resistor]
      constructor
      · rintro ⟨a, b⟩; exact ⟨a, by rw [a]; linear_combination b⟩
      · rintro ⟨a, b⟩; exact ⟨a, by rw [a] at b; linear_combination b⟩
    · rw [h3, scatterV_diag, refl_open hz', refl_open hz']
      simp only [Resistor]
      constructor
      · rintro ⟨a, b⟩; exact ⟨a, by rw [a, b]; simp⟩
      · rintro ⟨a, b⟩; exact ⟨a, by rw [a] at b; simpa using b⟩
  · rw [h1, h2, series_open hL, shunt_short hC, scatterV_diag, refl_open hz', refl_short]

/-- **C15 is violated: wrong reference at DC.** Without series capacitor and shunt inductor the matrix returned at `f = 0`
is the DC circuit's matrix on 1 Ohm, whatever reference is in force; it is the matrix on that reference only if the
reference is 1 Ohm or the circuit is a plain through (`Rs = 0`, `Rp = inf`). -/
theorem C15_wrong_reference {npc : Bool} {s s' : St} {Zb : Option ℝ} {params : Elem → Option Ext} {S : Mat2}
    (hL : inForce s params .Ls ≠ .inf) (hC : inForce s params .Cp ≠ .inf) (hz : refZ s Zb ≠ 0)
    (hCs : inForce s params .Cs = .inf) (hLp : inForce s params .Lp = .inf)
    (h : getS1 npc s Zb params 0 = (s', .ok S)) :
    (∀ V I, ScatterV 1 S V I ↔ Law (inForce s params) (omega 0) V I) ∧
    ((∀ V I, ScatterV (refZ s Zb : ℂ) S V I ↔ Law (inForce s params) (omega 0) V I) ↔
      refZ s Zb = 1 ∨ (inForce s params .Rs = .fin 0 ∧ inForce s params .Rp = .inf)) := by
  obtain ⟨h, -⟩ := getS1_ok h
  generalize inForce s params = e at *
  generalize refZ s Zb = z at *
  have hz' : (z : ℂ) ≠ 0 := by exact_mod_cast hz
  rcases get1S_zero h with ⟨-, -, hR0, Rs, g, hRs, hg, hm⟩ | ⟨-, h1, ⟨L, h2⟩, -⟩ | ⟨-, ⟨C, h1⟩, -⟩ | ⟨-, ⟨C, h1⟩, -⟩
  rotate_left
  · rw [hLp] at h2; cases h2
  · rw [hCs] at h1; cases h1
  · rw [hCs] at h1; cases h1
  obtain ⟨g', hg', hres, -, hg0⟩ := resistor_div hR0
  have : g' = g := by rw [hg] at hg'; injection hg' with hg'; exact_mod_cast hg'.symm
  subst this
  have hlaw : ∀ V I, Law e (omega 0) V I ↔ V 0 - V 1 = Rs * I 0 ∧ I 0 + I 1 = g' * V 1 := by
    intro V I
    rw [law_split, hCs, hLp, series_res hL, shunt_res hC, hres, hRs]
    simp only [Resistor]
  refine ⟨fun V I => by rw [hlaw, mkS_law hm, one_mul, one_mul], ?_⟩
  constructor
  · intro hall
    have h1 := (hlaw ![Rs, 0] ![1, -1]).2 (by simp)
    rw [← hall, mkS_law hm] at h1
    have h2 := (hlaw ![1, 1] ![0, g']).2 (by simp)
    rw [← hall, mkS_law hm] at h2
    have e1 : (Rs : ℂ) = Rs * z := by simpa using h1.1
    have e2 : (z : ℂ) * g' = g' := by simpa using h2.2
    have e1 : Rs = Rs * z := by exact_mod_cast e1
    have e2 : z * g' = g' := by exact_mod_cast e2
    by_cases hz1 : z = 1
    · exact .inl hz1
    · right
      have hz1' : z - 1 ≠ 0 := sub_ne_zero.2 hz1
      have r0 : Rs = 0 := by
        have : Rs * (z - 1) = 0 := by linear_combination -e1
        rcases mul_eq_zero.1 this with h | h
        · exact h
        · exact absurd h hz1'
      have g0 : g' = 0 := by
        have : g' * (z - 1) = 0 := by linear_combination e2
        rcases mul_eq_zero.1 this with h | h
        · exact h
        · exact absurd h hz1'
      exact ⟨by rw [hRs, r0], hg0.1 g0⟩
  · rintro (h1 | ⟨h1, h2⟩) V I
    · rw [hlaw, mkS_law hm, h1]; simp
    · rw [hRs] at h1
      injection h1 with h1
      rw [hlaw, mkS_law hm, h1, hg0.2 h2]
      simp [hz']

/-- **C15 is violated on current numpy.** With `np.complex` gone, a circuit with a series capacitor or a shunt inductor
cannot be evaluated at `f = 0` at all. -/
theorem C15_numpy_alias {s s' : St} {Zb : Option ℝ} {params : Elem → Option Ext} {r : Except Err Mat2}
    (hb : ¬ (inForce s params .Cs = .inf ∧ inForce s params .Lp = .inf))
    (h : getS1 false s Zb params 0 = (s', r)) : ∃ x, r = .error x := by
  cases r with
  | error x => exact ⟨x, rfl⟩
  | ok S =>
    exfalso
    obtain ⟨h, -⟩ := getS1_ok h
    rcases get1S_zero h with ⟨h1, h2, -⟩ | ⟨h, -⟩ | ⟨h, -⟩ | ⟨h, -⟩
    · exact hb ⟨h1, h2⟩
    all_goals cases h

/-! ## C32: set -/

theorem ofName_iff {k : String} {e : Elem} : Elem.ofName k = some e ↔ k = e.name := by
  unfold Elem.ofName
  constructor
  · intro h
    have := List.find?_some h
    simpa [eq_comm] using this
  · rintro rfl
    cases e <;> rfl

theorem ofName_none {k : String} : Elem.ofName k = none ↔ ∀ e : Elem, k ≠ e.name := by
  cases h : Elem.ofName k with
  | none =>
    refine iff_of_true rfl fun e he => ?_
    rw [ofName_iff.2 he] at h; cases h
  | some e => simp only [reduceCtorEq, false_iff]; intro h'; exact h' e (ofName_iff.1 h)

/-- the value a keyword list gives to a name (Python keyword names are distinct) -/
def given (kws : List (String × Ext)) (k : String) : Option Ext := (kws.find? fun x => x.1 = k).map Prod.snd

theorem setLoop_ok : ∀ {kws : List (String × Ext)} {s s' : St} {m m' : Bool}, (kws.map Prod.fst).Nodup →
    setLoop s m kws = (s', .ok m') →
    (∀ e, s'.elem e = (given kws e.name).getD (s.elem e)) ∧ (m' = true ↔ m = true ∨ ∃ e, s'.elem e ≠ s.elem e) ∧
      s'.Zbase = s.Zbase ∧ s'.f = s.f ∧ s'.S = s.S ∧ ∀ x ∈ kws, ∃ e : Elem, x.1 = e.name
  | [], s, s', m, m', _, h => by
    simp [setLoop] at h
    obtain ⟨rfl, rfl⟩ := h
    simp [given]
  | (k, v) :: r, s, s', m, m', hd, h => by
    unfold setLoop at h
    cases ho : Elem.ofName k with
    | none => simp [ho] at h
    | some e =>
      simp only [ho] at h
      have hd' := List.nodup_cons.1 hd
      obtain ⟨h1, h2, h3, h4, h5, h6⟩ := setLoop_ok hd'.2 h
      have hk := ofName_iff.1 ho
      have hne : given r k = none := by
        unfold given
        rw [Option.map_eq_none_iff, List.find?_eq_none]
        intro x hx
        simp only [decide_eq_true_eq]
        intro hxk
        exact hd'.1 (List.mem_map.2 ⟨x, hx, hxk⟩)
      have hval : ∀ e', s'.elem e' = (given ((k, v) :: r) e'.name).getD (s.elem e') := by
        intro e'
        rw [h1 e']
        by_cases he : e' = e
        · subst he
          rw [← hk, hne]
          simp [given]
        · have hn : k ≠ e'.name := by
            rintro rfl
            apply he
            have := ofName_iff.2 (rfl : e'.name = e'.name)
            rw [ho] at this; injection this with this; exact this.symm
          simp only [given, List.find?_cons, hn, decide_false]
          rw [Function.update_of_ne he]
      refine ⟨hval, ?_, h3, h4, h5, ?_⟩
      · rw [h2]
        have hev : s'.elem e = v := by rw [hval e]; simp [given, hk]
        constructor
        · rintro (h | ⟨e', h⟩)
          · simp only [Bool.or_eq_true, Bool.not_eq_true', decide_eq_false_iff_not] at h
            rcases h with h | h
            · exact .inl h
            · exact .inr ⟨e, by rw [hev]; exact Ne.symm h⟩
          · by_cases he : e' = e
            · subst he
              simp [hev] at h
            · change s'.elem e' ≠ Function.update s.elem e v e' at h
              rw [Function.update_of_ne he] at h
              exact .inr ⟨e', h⟩
        · rintro (hm | ⟨e', hm⟩)
          · exact .inl (by simp [hm])
          · by_cases he : e' = e
            · subst he
              rw [hev] at hm
              exact .inl (by simp [Ne.symm hm])
            · refine .inr ⟨e', ?_⟩
              change s'.elem e' ≠ Function.update s.elem e v e'
              rw [Function.update_of_ne he]; exact hm
      · intro x hx
        rcases List.mem_cons.1 hx with rfl | hx
        · exact ⟨e, hk⟩
        · exact h6 x hx

/-- **C32 (rfRLC.set).** A successful `set` gives each named element the given value, leaves the others, and returns
whether any value changed; only the six element names are accepted. -/
theorem C32_rfRLC_set {s s' : St} {kws : List (String × Ext)} {m : Bool} (hd : (kws.map Prod.fst).Nodup)
    (h : set s kws = (s', .ok m)) :
    (∀ e, s'.elem e = (given kws e.name).getD (s.elem e)) ∧ s'.Zbase = s.Zbase ∧
    (m = true ↔ ∃ e, s'.elem e ≠ s.elem e) ∧ ∀ x ∈ kws, ∃ e : Elem, x.1 = e.name := by
  unfold set at h
  cases hl : setLoop s false kws with
  | mk s1 r => cases r with
    | error x => simp [hl] at h
    | ok m1 =>
      simp only [hl, Prod.mk.injEq, Except.ok.injEq] at h
      obtain ⟨h0, rfl⟩ := h
      obtain ⟨h1, h2, h3, -, -, h6⟩ := setLoop_ok hd hl
      have e1 : s'.elem = s1.elem := by rw [← h0]; split <;> rfl
      have e2 : s'.Zbase = s1.Zbase := by rw [← h0]; split <;> rfl
      rw [e1, e2]
      exact ⟨h1, h3, by simpa using h2, h6⟩

/-- **C32 (rfRLC.set refuses unknown names).** -/
theorem C32_rfRLC_unknown {kws : List (String × Ext)} : ∀ {s : St} {k : String} {v : Ext}, (k, v) ∈ kws →
    (∀ e : Elem, k ≠ e.name) → ∃ s', set s kws = (s', .error .valueError) := by
  intro s k v hk hne
  have : ∀ (kws : List (String × Ext)) (s : St) (m : Bool), (k, v) ∈ kws →
      ∃ s', setLoop s m kws = (s', .error .valueError) := by
    intro kws
    induction kws with
    | nil => intro s m h; cases h
    | cons x r ih =>
      intro s m h
      obtain ⟨k', v'⟩ := x
      unfold setLoop
      cases ho : Elem.ofName k' with
      | none => exact ⟨s, rfl⟩
      | some e =>
        rcases List.mem_cons.1 h with h | h
        · injection h with h1 h2
          exact absurd (h1.trans (ofName_iff.1 ho)) (hne e)
        · exact ih _ _ h
  obtain ⟨s', h⟩ := this kws s false hk
  exact ⟨s', by simp [set, h]⟩

/-! ## C50: the number of ports -/

/-- the histories of an rfRLC object, with whether a value was changed by `set` since the last evaluation -/
inductive Reach (npc : Bool) : St → Bool → Prop
  | init (given : Elem → Option Ext) (Zbase : ℝ) : Reach npc (init given Zbase) false
  | set {s s' : St} {b m : Bool} (kws : List (String × Ext)) : Reach npc s b → set s kws = (s', .ok m) → Reach npc s' (b || m)
  | setRefused {s s' : St} {b : Bool} {x : Err} (kws : List (String × Ext)) : Reach npc s b →
      RLC.set s kws = (s', .error x) → Reach npc s' b
  | getS {s s' : St} {b : Bool} {S : Mat2} (Zb : Option ℝ) (params : Elem → Option Ext) (f : ℝ) : Reach npc s b →
      getS1 npc s Zb params f = (s', .ok S) → Reach npc s' false
  | getSraised {s s' : St} {b : Bool} {x : Err} (Zb : Option ℝ) (params : Elem → Option Ext) (f : ℝ) : Reach npc s b →
      getS1 npc s Zb params f = (s', .error x) → Reach npc s' b

theorem setLoop_S : ∀ (kws : List (String × Ext)) (s : St) (m : Bool), (setLoop s m kws).1.S = s.S
  | [], s, m => rfl
  | (k, v) :: r, s, m => by
    unfold setLoop
    cases Elem.ofName k with
    | none => rfl
    | some e => exact setLoop_S r _ _

/-- **C50 is violated (rfRLC).** `len(obj)` works exactly as long as no element value was changed by `set` since the last
evaluation; after such a change it raises TypeError, so that the object cannot be added to a circuit. -/
theorem C50_rfRLC_len {npc : Bool} {s : St} {b : Bool} (h : Reach npc s b) :
    len s = if b then .error .typeError else .ok 2 := by
  have key : s.S.isNone = b := by
    induction h with
    | init => rfl
    | @set s s' b m kws _ hs ih =>
      unfold RLC.set at hs
      cases hl : setLoop s false kws with
      | mk s1 r => cases r with
        | error x => simp [hl] at hs
        | ok m1 =>
          simp only [hl, Prod.mk.injEq, Except.ok.injEq] at hs
          obtain ⟨rfl, rfl⟩ := hs
          have := setLoop_S kws s false
          rw [hl] at this
          replace this : s1.S = s.S := this
          cases m1 with
          | true => simp
          | false => simpa [this] using ih
    | @setRefused s s' b x kws _ hs ih =>
      unfold RLC.set at hs
      cases hl : setLoop s false kws with
      | mk s1 r => cases r with
        | ok m1 => simp [hl] at hs
        | error x' =>
          simp only [hl, Prod.mk.injEq] at hs
          obtain ⟨rfl, -⟩ := hs
          have := setLoop_S kws s false
          rw [hl] at this
          replace this : s1.S = s.S := this
          simpa [this] using ih
    | getS Zb params f _ hs ih => simp [(getS1_ok hs).2.2.2.2]
    | @getSraised s s' b x Zb params f _ hs ih =>
      unfold getS1 step at hs
      cases hg : get1S npc (override params s).elem (Zb.getD s.Zbase) f with
      | ok S => simp [hg] at hs
      | error x' => simp [hg] at hs; obtain ⟨rfl, -⟩ := hs; exact ih
  unfold len
  cases hS : s.S with
  | none => rw [hS] at key; simp at key; simp [← key]
  | some S => rw [hS] at key; simp at key; simp [← key]

/-! ## Concrete cases -/

namespace Ex

/-- 10 Ohm in series with 1 uF, 100 Ohm shunt -/
noncomputable def obj : St := init (fun | .Rs => some (.fin 10) | .Rp => some (.fin 100) | .Cs => some (.fin 1) | _ => none) 50

/-- the hypotheses of C13 and C14 hold for a concrete lossy circuit at every nonzero frequency -/
theorem C14_witness (f : ℝ) (hf : f ≠ 0) : ∃ s' S, getS1 false obj none (fun _ => none) f = (s', .ok S) ∧ Passive S ∧ Reciprocal S := by
  have hn : NonNeg (inForce obj fun _ => none) := by
    intro p x h
    cases p <;> simp [inForce, obj, init] at h <;> rw [← h] <;> norm_num
  have hz : 0 < refZ obj none := by simp [refZ, obj, init]
  obtain ⟨s', S, h⟩ := C14_total false obj none (fun _ => none) hf hn hz (by simp [Degenerate, inForce, obj, init, refZ])
  exact ⟨s', S, h, C14_passive hn hz h, C14_reciprocal h⟩

/-- 10 Ohm in series -/
noncomputable def res : St := init (fun | .Rs => some (.fin 10) | _ => none) 50

/-- the hypotheses of `C15_wrong_reference` are met: a 10 Ohm series resistor on 50 Ohm, evaluated at DC, and the result
is not the matrix of the resistor on 50 Ohm -/
theorem C15_witness : ∃ s' S, getS1 false res none (fun _ => none) 0 = (s', .ok S) ∧
    ¬ ∀ V I, ScatterV ((50 : ℝ) : ℂ) S V I ↔ Law (inForce res fun _ => none) (omega 0) V I := by
  have hdet : (!![1, 1 + ((0 : ℝ) : ℂ); -(1 + ((10 : ℝ) : ℂ)), 1] : Mat2).det ≠ 0 := by
    simp [Matrix.det_fin_two]; norm_num
  have hg : get1S false res.elem 50 0 = mkS ((10 : ℝ) : ℂ) ((0 : ℝ) : ℂ) := by
    simp [get1S, res, init, finE, divE, bind, Except.bind]
  cases hr : getS1 false res none (fun _ => none) 0 with
  | mk s' r => cases r with
    | error x =>
      have := getS1_error hr
      change get1S false res.elem 50 0 = _ at this
      rw [hg, mkS, npInv_of_det_ne_zero hdet] at this
      cases this
    | ok S =>
      refine ⟨s', S, rfl, fun hall => ?_⟩
      have h := (C15_wrong_reference (by simp [inForce, res, init]) (by simp [inForce, res, init])
        (by simp [refZ, res, init]) (by simp [inForce, res, init]) (by simp [inForce, res, init]) hr).2.1
        (by simpa [refZ, res, init] using hall)
      simp [refZ, res, init, inForce] at h

/-- the hypotheses of `C15_dc_partial` are met by the circuit with a series capacitor -/
theorem C15_dc_witness : ∃ s' S, getS1 true obj none (fun _ => none) 0 = (s', .ok S) := by
  have hg : get1S true obj.elem 50 0 = .ok !![1, 0; 0, (((100 - 50) / (100 + 50) : ℝ) : ℂ)] := by
    simp only [get1S, obj, init]
    norm_num
  have hg' : get1S true (override (fun _ => none) obj).elem ((none : Option ℝ).getD obj.Zbase) 0 = _ := hg
  refine ⟨{ override (fun _ => none) obj with f := some 0, S := some !![1, 0; 0, (((100 - 50) / (100 + 50) : ℝ) : ℂ)] },
    !![1, 0; 0, (((100 - 50) / (100 + 50) : ℝ) : ℂ)], ?_⟩
  simp only [getS1, step, hg']

/-- a history that leaves `len` raising: build, then change `Rs` -/
theorem C50_witness : ∃ s, Reach false s true := by
  cases h : set (init (fun _ => none) 50) [("Rs", .fin 5)] with
  | mk s' r =>
    have hr : r = .ok true := by
      have := congrArg Prod.snd h
      simpa [set, setLoop, Elem.ofName, Elem.name, init, eq_comm] using this
    subst hr
    exact ⟨s', Reach.set (b := false) (m := true) _ (Reach.init (fun _ => none) 50) h⟩

end Ex

end PyRFtk.RLC
