import Verif.ResolverSound2

/-!
# `TLresolver`: derived values against a physical line (C41)
-/

namespace PyRFtk.Resolver
open Par

/-! ## Values exist and are unique -/

section ev
variable {N : Nature} {Zb : ℂ} {w : ℝ} {inp : Par → ℂ} {s : St}

/-- the equations bound to parameters are equations of the table -/
def FromTable (s : St) : Prop := ∀ p e, (p, Src.eqn e) ∈ s.der → e ∈ EQNS ∧ e.kw = p

theorem lastSet_mem {l : List (Par × Src)} {p : Par} {x : Src} (h : lastSet l p = some x) : (p, x) ∈ l := by
  induction l with
  | nil => cases h
  | cons a l ih =>
    obtain ⟨q, y⟩ := a
    unfold lastSet at h
    split at h
    · rename_i hq; injection h with h; subst h; subst hq; exact List.mem_cons_self
    · exact List.mem_cons_of_mem _ (ih h)

theorem src_eqn_mem {p : Par} {e : Eqn} (h : s.src p = some (.eqn e)) : (p, Src.eqn e) ∈ s.der := by
  unfold St.src at h
  cases hl : lastSet s.der p with
  | none => rw [hl] at h; simp only at h; split at h <;> cases h
  | some x => rw [hl] at h; injection h with h; subst h; exact lastSet_mem hl

theorem src_mem {p : Par} {x : Src} (h : s.src p = some x) : (x = .input ∧ p ∈ s.inp) ∨ (p, x) ∈ s.der := by
  unfold St.src at h
  cases hl : lastSet s.der p with
  | none =>
    rw [hl] at h; simp only at h
    split at h
    · rename_i hp; injection h with h; exact .inl ⟨h.symm, hp⟩
    · cases h
  | some y => rw [hl] at h; injection h with h; subst h; exact .inr (lastSet_mem hl)

/-- a parameter has at most one value -/
theorem ev_unique (hT : FromTable s) {p : Par} {z z' : ℂ} (h : Ev N Zb w inp s p z) (h' : Ev N Zb w inp s p z') :
    z = z' := by
  induction h generalizing z' with
  | input hs => cases h' <;> simp_all
  | zero hs => cases h' <;> simp_all
  | rho hs _ ih =>
    cases h' with
    | input h => rw [hs] at h; cases h
    | zero h => rw [hs] at h; cases h
    | rho _ h => exact ih h
    | eqn v h _ => rw [hs] at h; cases h
  | @eqn p e v hs hr ih =>
    cases h' with
    | input h => rw [hs] at h; cases h
    | zero h => rw [hs] at h; cases h
    | rho h _ => rw [hs] at h; cases h
    | @eqn _ e' v' h hr' =>
      rw [hs] at h
      injection h with h; injection h with h; subst h
      exact value_congr N Zb w (hT p e (src_eqn_mem hs)).1 (fun r hrr => ih r hrr (hr' r hrr))

theorem src_apply_ne {e : Eqn} {p : Par} (h : p ≠ e.kw) : (s.apply e).src p = s.src p := by
  unfold St.src St.apply
  simp only [lastSet, if_neg h]

theorem src_apply_self {e : Eqn} : (s.apply e).src e.kw = some (.eqn e) := by
  unfold St.src St.apply
  simp only [lastSet, if_true]

theorem src_none_iff {p : Par} : s.src p = none ↔ s.known p = false := by
  rw [← Bool.not_eq_true, known_iff, not_or, ← lastSet_none (l := s.der)]
  unfold St.src
  cases lastSet s.der p with
  | none => by_cases h : p ∈ s.inp <;> simp [h]
  | some x => simp

theorem ev_known {p : Par} {z : ℂ} (h : Ev N Zb w inp s p z) : s.known p = true := by
  have : s.src p ≠ none := by cases h <;> simp_all
  by_contra hc
  exact this (src_none_iff.2 (by simpa using hc))

/-- setting a new parameter does not change the values of the others -/
theorem ev_apply {e : Eqn} (hk : s.known e.kw = false) {p : Par} {z : ℂ} (h : Ev N Zb w inp s p z) :
    Ev N Zb w inp (s.apply e) p z := by
  have hne : ∀ {q x}, s.src q = some x → q ≠ e.kw := by
    intro q x hq h; subst h
    rw [src_none_iff.2 hk] at hq; cases hq
  induction h with
  | input h => exact .input (by rw [src_apply_ne (hne h)]; exact h)
  | zero h => exact .zero (by rw [src_apply_ne (hne h)]; exact h)
  | rho h _ ih => exact .rho (by rw [src_apply_ne (hne h)]; exact h) ih
  | eqn v h _ ih => exact .eqn v (by rw [src_apply_ne (hne h)]; exact h) ih

/-- everything known has a value -/
def Total (N : Nature) (Zb : ℂ) (w : ℝ) (inp : Par → ℂ) (s : St) : Prop :=
  ∀ p, s.known p = true → ∃ z, Ev N Zb w inp s p z

theorem total_apply {e : Eqn} (hT : Total N Zb w inp s) (hk : s.known e.kw = false)
    (hr : ∀ r ∈ e.reads, s.known r = true) : Total N Zb w inp (s.apply e) := by
  intro p hp
  rcases (known_apply _ _ _).1 hp with rfl | hp
  · have : ∀ r, ∃ z, r ∈ e.reads → Ev N Zb w inp s r z := by
      intro r
      by_cases h : r ∈ e.reads
      · obtain ⟨z, hz⟩ := hT r (hr r h); exact ⟨z, fun _ => hz⟩
      · exact ⟨0, fun h' => absurd h' h⟩
    choose v hv using this
    exact ⟨_, .eqn v src_apply_self (fun r hrr => ev_apply hk (hv r hrr))⟩
  · obtain ⟨z, hz⟩ := hT p hp; exact ⟨z, ev_apply hk hz⟩

theorem total_start {k : List Par} : Total N Zb w inp (start [] k) := by
  intro p hp
  have hne : (start [] k).src p ≠ none := by
    rw [Ne, src_none_iff]; simp [hp]
  obtain ⟨x, hx⟩ := Option.ne_none_iff_exists'.1 hne
  rcases src_mem hx with ⟨h, _⟩ | h
  · subst h; exact ⟨_, .input hx⟩
  · rcases complement_src h with h' | h'
    · subst h'; exact ⟨_, .zero hx⟩
    · subst h'
      have hrho : Par.rho ∈ k := by
        have hm : p ∈ (complement k).map Prod.fst := List.mem_map.2 ⟨_, h, rfl⟩
        by_contra hc
        have : ∀ q ∈ complement k, q.2 ≠ Src.rho := by
          intro q hq
          unfold complement at hq
          rw [if_neg (by simp [hc])] at hq
          simp only [List.nil_append] at hq
          intro h2
          split at hq
          · rcases List.mem_append.1 hq with hq | hq
            · split at hq
              · simp only [List.mem_cons, List.not_mem_nil, or_false] at hq; rw [hq] at h2; cases h2
              · cases hq
            · split at hq
              · simp only [List.mem_cons, List.not_mem_nil, or_false] at hq; rw [hq] at h2; cases h2
              · cases hq
          · split at hq
            · simp only [List.mem_cons, List.not_mem_nil, or_false] at hq; rw [hq] at h2; cases h2
            · cases hq
        exact this _ h rfl
      have hs : (start [] k).src Par.rho = some .input := by
        unfold St.src
        have : lastSet (start [] k).der Par.rho = none := by
          apply lastSet_none.2
          intro hm
          rcases mem_complement.1 hm with ⟨h | h, _⟩ | ⟨h, _⟩ | ⟨h, _⟩ | ⟨h, _⟩ <;> cases h
        rw [this]; simp [start, hrho]
      exact ⟨_, .rho hx (.input hs)⟩

theorem fromTable_steps {s t : St} (h : Steps s t) (hs : FromTable s) : FromTable t := by
  induction h with
  | refl => exact hs
  | step e _ h2 _ ih =>
    intro p e' hm
    rcases List.mem_cons.1 hm with hm | hm
    · injection hm with h3 h4; injection h4 with h4; subst h4
      exact ⟨(scan_use h2).1, h3.symm⟩
    · exact ih p e' hm

theorem fromTable_start {fg : List (List Par × Par)} {k : List Par} : FromTable (start fg k) := by
  intro p e h
  rcases complement_src h with h | h <;> cases h

end ev

/-! ## Derived values -/

/-- the choices made while resolving agree with the line: what was assumed (no losses, equal conductors, relative
permeability or permittivity 1, reference impedance) is true of it, and the four equations that are wrong in general were
used only where they happen to be right. -/
def Agrees {N : Nature} {w : ℝ} (l : Line N w) (Zb : ℂ) (p : Par) : Src → Prop
  | .input => True
  | .zero => l.par p = 0
  | .rho => l.par p = l.par Par.rho
  | .eqn e =>
      (e.id = 0 → l.murI = 1) ∧ (e.id = 1 → l.murO = 1) ∧ (e.id = 41 → l.mur = 1) ∧ (e.id = 42 → l.epsr = 1) ∧
      (e.id = 43 → l.par Z0TL = Zb) ∧
      (e.id = 21 → l.RsI = l.RsO) ∧ (e.id = 30 → l.epsr = 1) ∧ (e.id = 31 → l.mur = 1) ∧ (e.id = 36 → l.γ.re = 0) ∧
      (e.id = 39 → Moderate l) ∧ (e.id = 48 → l.r = 0 ∧ l.g = 0)

/-- the frequency dependent phase constant without losses -/
theorem sound_beta {N : Nature} {w : ℝ} (l : Line N w) (Zb : ℂ) (h : l.r = 0 ∧ l.g = 0) :
    value N Zb w 48 l.par = l.par beta := by
  obtain ⟨h1, h2⟩ := l.γ_rel
  rw [h.1, h.2] at h1 h2
  have hα : l.γ.re = 0 := by
    have : 2 * l.γ.re * l.γ.im = 0 := by rw [h2]; ring
    rcases mul_eq_zero.1 this with h | h
    · linarith
    · exact absurd h l.γ_im.ne'
  rw [hα] at h1
  have hLC : 0 < l.L * l.C := mul_pos l.L_pos l.C_pos
  have hs : Real.sqrt (l.L * l.C) ^ 2 = l.L * l.C := Real.sq_sqrt hLC.le
  show (w : ℂ) * sqrtC ((l.L : ℂ) * (l.C : ℂ)) = (l.γ.im : ℂ)
  rw [← Complex.ofReal_mul, sqrtC_real hLC.le, ← Complex.ofReal_mul]
  congr 1
  have hp : 0 ≤ w * Real.sqrt (l.L * l.C) := mul_nonneg l.w_pos.le (Real.sqrt_nonneg _)
  have hsq : (w * Real.sqrt (l.L * l.C)) ^ 2 = l.γ.im ^ 2 := by
    rw [mul_pow, hs]; linarith
  exact (pow_left_inj₀ hp l.γ_im.le (by norm_num)).1 hsq

/-- every equation of the table gives the line's value, if it agrees with the line -/
theorem sound_eqn {N : Nature} {w : ℝ} (l : Line N w) (Zb : ℂ) {e : Eqn} (he : e ∈ EQNS)
    (h : Agrees l Zb e.kw (.eqn e)) : value N Zb w e.id l.par = l.par e.kw := by
  obtain ⟨h0, h1, h41, h42, h43, h21, h30, h31, h36, h39, h48⟩ := h
  by_cases hm : e.id ∈ [2, 3, 4, 5, 6, 7, 8, 9, 10, 11, 12, 13, 14, 15, 16, 17, 18, 19, 20, 22, 23,
      26, 27, 28, 29, 32, 33, 34, 35, 40, 44, 45]
  · exact sound_medium l Zb e he hm
  · have hpi : (Real.pi : ℂ) ≠ 0 := by exact_mod_cast Real.pi_pos.ne'
    have hOD : (l.OD : ℂ) ≠ 0 := by exact_mod_cast l.OD_pos.ne'
    have hmn : ((l.mur * l.epsr : ℝ) : ℂ) ≠ 0 := by exact_mod_cast (mul_pos l.mur_pos l.epsr_pos).ne'
    have hvr : l.par vr ^ 2 = 1 / (l.mur * l.epsr : ℂ) := by
      show ((1 / Real.sqrt (l.mur * l.epsr) : ℝ) : ℂ) ^ 2 = _
      rw [← Complex.ofReal_pow, div_pow, one_pow, Real.sq_sqrt (mul_pos l.mur_pos l.epsr_pos).le]
      push_cast; rfl
    push_cast at hmn
    fin_cases he <;> simp only [eqn] at * <;> first | exact absurd (by decide) hm | skip
    · show (1 : ℂ) = (l.murI : ℂ); rw [h0 trivial]; simp
    · show (1 : ℂ) = (l.murO : ℂ); rw [h1 trivial]; simp
    · show ((1 / (Real.pi * l.OD) : ℝ) : ℂ) * (l.RsI : ℂ) = ((l.RsO / (Real.pi * l.OD) : ℝ) : ℂ)
      rw [h21 trivial]; push_cast; field_simp
    · exact sound_RsI l Zb
    · exact sound_RsO l Zb
    · show (l.epsr : ℂ) / l.par vr ^ 2 = (l.mur : ℂ)
      rw [hvr, h30 trivial]; simp
    · show (l.mur : ℂ) / l.par vr ^ 2 = (l.epsr : ℂ)
      rw [hvr, h31 trivial]; simp
    · show (1 : ℂ) - 10 ^ (((20 * l.γ.re / Real.log 10 : ℝ) : ℂ) / 20) = (l.γ.re : ℂ)
      rw [h36 trivial]; simp
    · exact sound_rTL_A l Zb
    · exact sound_gTL_A l Zb
    · exact sound_A l Zb (h39 trivial)
    · show (1 : ℂ) = (l.mur : ℂ); rw [h41 trivial]; simp
    · show (1 : ℂ) = (l.epsr : ℂ); rw [h42 trivial]; simp
    · exact (h43 trivial).symm
    · exact sound_Zc l Zb
    · exact sound_gamma l Zb
    · exact sound_beta l Zb (h48 trivial)

/-- values of a state whose choices agree with the line are the line's -/
theorem ev_line {N : Nature} {w : ℝ} (l : Line N w) {Zb : ℂ} {inp : Par → ℂ} {s : St} (hT : FromTable s)
    (hI : ∀ p, (p, Src.input) ∉ s.der)
    (hin : ∀ p ∈ s.inp, inp p = l.par p) (hA : ∀ p x, (p, x) ∈ s.der → Agrees l Zb p x) {p : Par} {z : ℂ}
    (h : Ev N Zb w inp s p z) : z = l.par p := by
  induction h with
  | input h =>
    rcases src_mem h with ⟨_, h⟩ | h'
    · exact hin _ h
    · exact absurd h' (hI _)
  | zero h =>
    rcases src_mem h with ⟨h, _⟩ | h
    · cases h
    · exact (hA _ _ h).symm
  | rho h _ ih =>
    rcases src_mem h with ⟨h, _⟩ | h
    · cases h
    · rw [ih]; exact (hA _ _ h).symm
  | eqn v h hr ih =>
    have hm := src_eqn_mem h
    obtain ⟨he, hk⟩ := hT _ _ hm
    rw [value_congr N Zb w he ih]
    subst hk
    exact sound_eqn l Zb he (hA _ _ hm)

/-! ## The routes taken -/

theorem steps_entries {s t : St} (h : Steps s t) {P : Par → Src → Prop} (h0 : ∀ p x, (p, x) ∈ s.der → P p x)
    (h1 : ∀ u e, Steps s u → scan u EQNS = .use e → (u.known Zc && u.known gamma) = false → P e.kw (.eqn e)) :
    ∀ p x, (p, x) ∈ t.der → P p x := by
  induction h with
  | refl => exact h0
  | step e hu hs hz ih =>
    intro p x hm
    rcases List.mem_cons.1 hm with hm | hm
    · injection hm with h2 h3; subst h2; subst h3; exact h1 _ e hu hs hz
    · exact ih p x hm

/-- when an equation is chosen, the ones before it in the table are answered or not ready -/
theorem scan_use_before {s : St} {e : Eqn} (hu : UsedKnown s) (hf : s.forget = []) (h : scan s EQNS = .use e)
    {i : ℕ} (hi : e ∉ EQNS.take i) {e' : Eqn} (he' : e' ∈ EQNS.take i) :
    s.known e'.kw = true ∨ ∃ d ∈ e'.deps, s.known d = false := by
  rw [← List.take_append_drop i EQNS, scan_append] at h
  cases h1 : scan s (EQNS.take i) with
  | use e2 =>
    rw [h1] at h
    injection h with h; subst h
    exact absurd (scan_use h1).1 hi
  | raised => rw [h1] at h; cases h
  | nothing =>
    rcases scan_nothing h1 e' he' with h2 | h2 | h2 | h2
    · rw [List.any_eq_true] at h2
      obtain ⟨u, hu', h3⟩ := h2
      exact .inl (hu u hu' _ ((List.isPerm_iff.1 h3).mem_iff.2 (by simp [Eqn.sig])))
    · rw [hf] at h2; cases h2
    · exact .inl h2
    · exact .inr h2

/-- the phase constant is not set on the way to a resolved line -/
theorem no_beta {s : St} {e : Eqn} (hu : UsedKnown s) (hf : s.forget = []) (h : scan s EQNS = .use e)
    (hz : (s.known Zc && s.known gamma) = false) {K : Par → Prop} (hK : ∀ p, K p → s.known p = true)
    (hd : Derivable [] K Zc ∧ Derivable [] K gamma) : e.id ≠ 48 := by
  intro hid
  have hnot : e ∉ EQNS.take 48 := by
    have : ∀ e ∈ EQNS.take 48, e.id ≠ 48 := by decide
    exact fun h => this e h hid
  have key : ∀ p, Derivable [] K p → s.known p = true ∨ p = beta := by
    intro p hp
    induction hp with
    | base h => exact .inl (hK _ h)
    | step e' he' _ _ ih =>
      have hmem : e' ∈ EQNS.take 48 ∨ e'.kw = beta := by
        have : ∀ e ∈ EQNS, e ∈ EQNS.take 48 ∨ e.kw = beta := by decide
        exact this e' he'
      have hnb : beta ∉ e'.deps := by
        have : ∀ e ∈ EQNS, beta ∉ e.deps := by decide
        exact this e' he'
      rcases hmem with hmem | hmem
      · rcases scan_use_before hu hf h hnot hmem with h1 | ⟨d, hd', h1⟩
        · exact .inl h1
        · rcases ih d hd' with h2 | h2
          · rw [h1] at h2; cases h2
          · subst h2; exact absurd hd' hnb
      · exact .inr hmem
  have h1 := (key _ hd.1).resolve_right (by decide)
  have h2 := (key _ hd.2).resolve_right (by decide)
  rw [h1, h2] at hz
  cases hz

/-- when velocity, inductance and capacitance are not supplied, they are found only after the permeability and the
permittivity -/
theorem medium_first {k : List Par} (hk : vr ∉ k ∧ LTL ∉ k ∧ CTL ∉ k) {t : St} (h : Steps (start [] k) t) :
    (t.known vr = true ∨ t.known LTL = true ∨ t.known CTL = true) → t.known mur = true ∧ t.known epsr = true := by
  have hn : ∀ q, (q = vr ∨ q = LTL ∨ q = CTL) → (start [] k).known q = false := by
    intro q hq
    rw [← Bool.not_eq_true, given_iff]
    rintro (h | h)
    · rcases hq with rfl | rfl | rfl
      · exact hk.1 h
      · exact hk.2.1 h
      · exact hk.2.2 h
    · rcases mem_complement.1 h with ⟨h | h, _⟩ | ⟨h, _⟩ | ⟨h, _⟩ | ⟨h, _⟩ <;> subst h <;> simp at hq
  generalize hs : start [] k = s at h hn
  have hs1 : UsedKnown s ∧ s.forget = [] := by subst hs; exact ⟨(by intro u hu; cases hu), rfl⟩
  clear hs
  induction h with
  | refl =>
    rintro (h | h | h)
    · rw [hn _ (by simp)] at h; cases h
    · rw [hn _ (by simp)] at h; cases h
    · rw [hn _ (by simp)] at h; cases h
  | step e h1 h2 hz ih =>
    rename_i t
    have hu := steps_usedKnown h1 hs1.1
    have hf : t.forget = [] := by rw [(steps_inp h1).2]; exact hs1.2
    obtain ⟨he, hkw, hd, _⟩ := scan_use h2
    intro h
    have hold : (t.known vr = true ∨ t.known LTL = true ∨ t.known CTL = true) ∨
        (e.kw = vr ∨ e.kw = LTL ∨ e.kw = CTL) := by
      simp only [known_apply] at h
      rcases h with (h | h) | (h | h) | (h | h)
      · exact .inr (.inl h.symm)
      · exact .inl (.inl h)
      · exact .inr (.inr (.inl h.symm))
      · exact .inl (.inr (.inl h))
      · exact .inr (.inr (.inr h.symm))
      · exact .inl (.inr (.inr h))
    have : t.known mur = true ∧ t.known epsr = true := by
      rcases hold with h | h
      · exact ih h
      · have hcase : ∀ e ∈ EQNS, (e.kw = vr ∨ e.kw = LTL ∨ e.kw = CTL) →
            (vr ∈ e.deps ∨ LTL ∈ e.deps ∨ CTL ∈ e.deps) ∨ (mur ∈ e.deps ∧ epsr ∈ e.deps) ∨
            (e ∉ EQNS.take 33 ∧ mur ∈ e.deps ∧ etar ∈ e.deps) := by decide
        rcases hcase e he h with h | h | ⟨h, hm, het⟩
        · exact ih (by
            rcases h with h | h | h
            · exact .inl (hd _ h)
            · exact .inr (.inl (hd _ h))
            · exact .inr (.inr (hd _ h)))
        · exact ⟨hd _ h.1, hd _ h.2⟩
        · refine ⟨hd _ hm, ?_⟩
          rcases scan_use_before hu hf h2 h (e' := eqn 28 epsr [etar, mur]) (by decide) with h3 | ⟨d, hd', h3⟩
          · exact h3
          · simp only [eqn, List.mem_cons, List.not_mem_nil, or_false] at hd'
            rcases hd' with rfl | rfl
            · rw [hd _ het] at h3; cases h3
            · rw [hd _ hm] at h3; cases h3
    exact ⟨known_mono_apply this.1, known_mono_apply this.2⟩

/-- which complements are which -/
theorem complement_kind {k : List Par} {p : Par} {x : Src} (h : (p, x) ∈ complement k) :
    (x = .rho ∧ (p = rhoO ∨ p = rhoI)) ∨ (x = .zero ∧ (p = gTL ∨ p = rTL)) := by
  unfold complement at h
  simp only [List.mem_append] at h
  rcases h with h | h
  · split at h
    · simp only [List.mem_cons, List.not_mem_nil, or_false, Prod.mk.injEq] at h; tauto
    · cases h
  · split at h
    · rcases List.mem_append.1 h with h | h
      · split at h
        · simp only [List.mem_cons, List.not_mem_nil, or_false, Prod.mk.injEq] at h; tauto
        · cases h
      · split at h
        · simp only [List.mem_cons, List.not_mem_nil, or_false, Prod.mk.injEq] at h; tauto
        · cases h
    · split at h
      · simp only [List.mem_cons, List.not_mem_nil, or_false, Prod.mk.injEq] at h; tauto
      · cases h

/-! ## C41 -/

/-- the description `k` (names of the supplied parameters) leaves nothing open about the line `l`: what is not supplied has the
default value, and none of the equations that are wrong in general is needed. -/
structure Fits {N : Nature} {w : ℝ} (l : Line N w) (Zb : ℂ) (k : List Par) : Prop where
  murI : murI ∈ k ∨ l.murI = 1
  murO : murO ∈ k ∨ l.murO = 1
  mur : mur ∈ k ∨ l.mur = 1
  epsr : epsr ∈ k ∨ l.epsr = 1
  Z0 : Z0TL ∈ k ∨ (OD ∈ k ∧ ID ∈ k) ∨ l.par Z0TL = Zb
  conductors : A ∈ k ∨ ¬ NoConductor k ∨ l.r = 0
  medium : sigma ∈ k ∨ tand ∈ k ∨ l.sigma = 0 ∨ (A ∈ k ∧ ¬ NoConductor k)
  rho : Par.rho ∈ k → rhoI ∈ k ∨ rhoO ∈ k ∨ l.rhoI = l.rhoO
  /-- not needed if the outer conductor's equation read the outer surface resistance -/
  outer : rTLO ∈ k ∨ l.RsI = l.RsO
  /-- not needed if the equations for permeability and permittivity from the velocity were right -/
  velocity : (vr ∉ k ∧ LTL ∉ k ∧ CTL ∉ k) ∨ (Par.mur ∈ k ∧ Par.epsr ∈ k) ∨ (l.mur = 1 ∧ l.epsr = 1)
  /-- not needed if the conversion from decibel were right -/
  noAdB : AdB ∉ k
  /-- not needed if the equation for the attenuation handled strong losses -/
  att : A ∈ k ∨ Moderate l

/-- **C41** — partial: for descriptions that need none of the wrong equations (`Fits`).  Take any physical coaxial line and
any set of its parameters that is complete (`Resolvable`) and leaves nothing open; supply their values. Then
`TLresolver` returns, every parameter it has found has a value, that value is the line's, and the characteristic
impedance and the propagation constant are among them — whatever was supplied and whatever route was taken.
Missing: descriptions for which the equations 21, 30, 31, 36 or 39 are used; for those the statement is false,
see `C41_epsr_wrong`, `C41_AdB_wrong`, `C41_outer_wrong`, `C41_strong_losses_wrong`. -/
theorem C41_values_partial {N : Nature} {w : ℝ} (l : Line N w) {Zb : ℂ} {inp : Par → ℂ} {k : List Par}
    (hk : ∀ p ∈ k, Par.accepted p = true) (hsafe : Safe k) (hres : Resolvable k) (hfit : Fits l Zb k)
    (hin : ∀ p ∈ k, inp p = l.par p) :
    ∃ s, tlresolver [] k = .ok s ∧
      (∀ p, s.known p = true ↔ ∃ z, Ev N Zb w inp s p z) ∧
      (∀ p z, Ev N Zb w inp s p z → z = l.par p) ∧
      Ev N Zb w inp s Zc (l.par Zc) ∧ Ev N Zb w inp s gamma l.γ := by
  obtain ⟨s, hs, hsol⟩ := C40_returns hk hsafe
  obtain ⟨hz, hg⟩ := hsol.2 hres
  have hst := (tlresolver_ok hs).2.1
  have hder := (derivable_iff hk).2 hres
  -- every parameter read is known when an equation is applied
  have inv : ∀ u, Steps (start [] k) u → UsedKnown u ∧ u.forget = [] ∧ (u.known RsO = true → u.known RsI = true) ∧
      (u.known RsI = true ∨ u.known rhoI = true ∨ u.known rhoO = false) ∧ Total N Zb w inp u := by
    intro u hu
    induction hu with
    | refl =>
      obtain ⟨h1, h2⟩ := safe_start hsafe
      exact ⟨(by intro u hu; cases hu), rfl, h1, h2, total_start⟩
    | step e h1 h2 h3 ih =>
      obtain ⟨hu, hf, hi, hrho, htot⟩ := ih
      obtain ⟨he, hk, hd, _⟩ := scan_use h2
      rename_i t _
      have hrd : ∀ r ∈ e.reads, t.known r = true := by
        intro r hr'
        rcases reads_deps e he with h | ⟨h1, h2⟩
        · exact hd r (h r hr')
        · rcases h2 r hr' with h | rfl
          · exact hd r h
          · exact hi (hd _ h1)
      have hRsO : e.kw = RsO → t.known RsI = true := by
        intro h
        rcases hrho with h1 | h1 | h1
        · exact h1
        · exact scan_use_RsO hu hf h2 h h1
        · exfalso
          have hdep : rhoO ∈ e.deps := by
            have : ∀ e ∈ EQNS, e.kw = RsO → rhoO ∈ e.deps := by decide
            exact this e he h
          rw [hd _ hdep] at h1; cases h1
      have hne : e.kw ≠ rhoO := by
        have : ∀ e ∈ EQNS, e.kw ≠ rhoO := by decide
        exact this e he
      refine ⟨usedKnown_apply hu hd, hf, ?_, ?_, total_apply htot hk hrd⟩
      · intro h
        rcases (known_apply _ _ _).1 h with h | h
        · exact known_mono_apply (hRsO h.symm)
        · exact known_mono_apply (hi h)
      · rcases hrho with h | h | h
        · exact .inl (known_mono_apply h)
        · exact .inr (.inl (known_mono_apply h))
        · refine .inr (.inr ?_)
          rw [← Bool.not_eq_true, known_apply, not_or]
          exact ⟨fun h' => hne h'.symm, by simp [h]⟩
  have hsup : ∀ u, Steps (start [] k) u → ∀ p ∈ k, u.known p = true :=
    fun u hu p hp => steps_known hu (given_iff.2 (.inl hp))
  have hT : FromTable s := fromTable_steps hst fromTable_start
  have hI : ∀ p, (p, Src.input) ∉ s.der := by
    intro p hm
    have := steps_entries hst (P := fun _ x => x ≠ Src.input)
      (fun p x hm h => by rcases complement_src hm with h' | h' <;> rw [h'] at h <;> cases h)
      (fun u e _ _ _ h => by cases h) p _ hm
    exact this rfl
  have hA : ∀ p x, (p, x) ∈ s.der → Agrees l Zb p x := by
    apply steps_entries hst (P := fun p x => Agrees l Zb p x)
    · intro p x hm
      have hmem : p ∈ (complement k).map Prod.fst := List.mem_map.2 ⟨_, hm, rfl⟩
      have hg0 : l.sigma = 0 → l.par gTL = 0 := by
        intro h; show (l.g : ℂ) = 0; unfold Line.g; rw [h]; simp
      rcases complement_src hm with rfl | rfl
      · show l.par p = 0
        rcases mem_complement.1 hmem with ⟨h | h, h3, h4, h5⟩ | ⟨h, h3, h4, h5, h6⟩ | ⟨h, h3, h4, h5⟩ | ⟨h, h3, h4, h5, h6⟩
        · subst h; rcases complement_kind hm with h | h <;> exact absurd h (by decide)
        · subst h; rcases complement_kind hm with h | h <;> exact absurd h (by decide)
        · subst h
          rcases hfit.medium with h | h | h | h
          · exact absurd h h5
          · exact absurd h h6
          · exact hg0 h
          · exact absurd h.1 h3
        · subst h
          rcases hfit.conductors with h | h | h
          · exact absurd h h3
          · exact absurd h5 h
          · show (l.r : ℂ) = 0; rw [h]; simp
        · subst h
          rcases hfit.medium with h | h | h | h
          · exact absurd h h5
          · exact absurd h h6
          · exact hg0 h
          · exact absurd h4 h.2
      · show l.par p = l.par Par.rho
        rcases mem_complement.1 hmem with ⟨h | h, h3, h4, h5⟩ | ⟨h, _⟩ | ⟨h, _⟩ | ⟨h, _⟩
        · subst h
          rcases hfit.rho h3 with h | h | h
          · exact absurd h h4
          · exact absurd h h5
          · show (l.rhoO : ℂ) = (l.rhoI : ℂ); rw [h]
        · subst h; rfl
        all_goals (subst h; rcases complement_kind hm with h | h <;> exact absurd h (by decide))
    · intro u e hu hsc hzz
      obtain ⟨he, hkw, hd, _⟩ := scan_use hsc
      obtain ⟨huk, hf, hi, hrho, htot⟩ := inv u hu
      have hin' : ∀ p, p ∈ k → e.kw ≠ p := by
        intro p hp h
        rw [h, hsup u hu p hp] at hkw; cases hkw
      have idkw : ∀ i q, (∀ e ∈ EQNS, e.id = i → e.kw = q) → e.id = i → q ∉ k := by
        intro i q h hid hq
        exact hin' q hq (h e he hid)
      refine ⟨?_, ?_, ?_, ?_, ?_, ?_, ?_, ?_, ?_, ?_, ?_⟩
      · exact fun h => hfit.murI.resolve_left (idkw 0 _ (by decide) h)
      · exact fun h => hfit.murO.resolve_left (idkw 1 _ (by decide) h)
      · exact fun h => hfit.mur.resolve_left (idkw 41 _ (by decide) h)
      · exact fun h => hfit.epsr.resolve_left (idkw 42 _ (by decide) h)
      · intro h
        rcases hfit.Z0 with h1 | ⟨h1, h2⟩ | h1
        · exact absurd h1 (idkw 43 _ (by decide) h)
        · exfalso
          have hnot : e ∉ EQNS.take 43 := by
            have : ∀ e ∈ EQNS.take 43, e.id ≠ 43 := by decide
            exact fun h' => this e h' h
          have b := fun {e' : Eqn} => scan_use_before huk hf hsc hnot (e' := e')
          have hmur : u.known Par.mur = true := by
            rcases b (e' := eqn 41 Par.mur []) (by decide) with h | ⟨d, hd', _⟩
            · exact h
            · simp [eqn] at hd'
          have hepsr : u.known Par.epsr = true := by
            rcases b (e' := eqn 42 Par.epsr []) (by decide) with h | ⟨d, hd', _⟩
            · exact h
            · simp [eqn] at hd'
          have hetar : u.known etar = true := by
            rcases b (e' := eqn 26 etar [Par.mur, Par.epsr]) (by decide) with h | ⟨d, hd', h3⟩
            · exact h
            · simp only [eqn, List.mem_cons, List.not_mem_nil, or_false] at hd'
              rcases hd' with rfl | rfl
              · rw [hmur] at h3; cases h3
              · rw [hepsr] at h3; cases h3
          have hZ : u.known Z0TL = true := by
            rcases b (e' := eqn 12 Z0TL [etar, ID, OD]) (by decide) with h | ⟨d, hd', h3⟩
            · exact h
            · simp only [eqn, List.mem_cons, List.not_mem_nil, or_false] at hd'
              rcases hd' with rfl | rfl | rfl
              · rw [hetar] at h3; cases h3
              · rw [hsup u hu _ h2] at h3; cases h3
              · rw [hsup u hu _ h1] at h3; cases h3
          have : e.kw = Z0TL := by
            have : ∀ e ∈ EQNS, e.id = 43 → e.kw = Z0TL := by decide
            exact this e he h
          rw [this, hZ] at hkw; cases hkw
        · exact h1
      · exact fun h => hfit.outer.resolve_left (idkw 21 _ (by decide) h)
      · intro h
        have hvd : vr ∈ e.deps := by
          have : ∀ e ∈ EQNS, e.id = 30 → vr ∈ e.deps := by decide
          exact this e he h
        rcases hfit.velocity with h1 | h1 | h1
        · have := (medium_first h1 hu (.inl (hd _ hvd))).1
          have h2 : e.kw = Par.mur := by
            have : ∀ e ∈ EQNS, e.id = 30 → e.kw = Par.mur := by decide
            exact this e he h
          rw [h2, this] at hkw; cases hkw
        · exact absurd h1.1 (idkw 30 _ (by decide) h)
        · exact h1.2
      · intro h
        have hvd : vr ∈ e.deps := by
          have : ∀ e ∈ EQNS, e.id = 31 → vr ∈ e.deps := by decide
          exact this e he h
        rcases hfit.velocity with h1 | h1 | h1
        · have := (medium_first h1 hu (.inl (hd _ hvd))).2
          have h2 : e.kw = Par.epsr := by
            have : ∀ e ∈ EQNS, e.id = 31 → e.kw = Par.epsr := by decide
            exact this e he h
          rw [h2, this] at hkw; cases hkw
        · exact absurd h1.2 (idkw 31 _ (by decide) h)
        · exact h1.1
      · intro h
        exfalso
        have hAd : AdB ∈ e.deps := by
          have : ∀ e ∈ EQNS, e.id = 36 → AdB ∈ e.deps := by decide
          exact this e he h
        have := steps_derivable hu (hd _ hAd)
        have hcl := derivable_closed (C := fun p => p ≠ AdB)
          (K := fun q => (start [] k).known q = true) ?_ ?_ this
        · exact hcl rfl
        · intro p hp h2
          subst h2
          rcases given_iff.1 hp with h2 | h2
          · exact hfit.noAdB h2
          · rcases mem_complement.1 h2 with ⟨h | h, _⟩ | ⟨h, _⟩ | ⟨h, _⟩ | ⟨h, _⟩ <;> cases h
        · intro e' he' _
          have : ∀ e ∈ EQNS, e.kw ≠ AdB := by decide
          exact this e' he'
      · exact fun h => hfit.att.resolve_left (idkw 39 _ (by decide) h)
      · intro h
        exact absurd h (no_beta huk hf hsc hzz (fun p hp => steps_known hu (given_iff.2 hp)) hder)
  have hval : ∀ p z, Ev N Zb w inp s p z → z = l.par p := fun p z h =>
    ev_line l hT hI (by rw [(steps_inp hst).1]; exact hin) hA h
  have htot := (inv s hst).2.2.2.2
  refine ⟨s, hs, fun p => ⟨htot p, fun ⟨z, h⟩ => ev_known h⟩, hval, ?_, ?_⟩
  · obtain ⟨z, h⟩ := htot _ hz
    rw [← hval _ _ h]; exact h
  · obtain ⟨z, h⟩ := htot _ hg
    have := hval _ _ h
    rw [show l.γ = l.par gamma from rfl, ← this]; exact h

end PyRFtk.Resolver
