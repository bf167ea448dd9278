import Verif.ResolverProps2

/-!
# `TLresolver`: which parameter sets resolve, and which raise (C40)
-/

namespace PyRFtk.Resolver
open Par

/-- nothing is forgotten when no `forget` table is given -/
theorem forgotten_nil (e : Eqn) : forgotten [] e = false := rfl

section derive
variable {K : Par → Prop}

/-- applying an equation by its position -/
theorem by_eqn (e : Eqn) (he : e ∈ EQNS) (h : ∀ d ∈ e.deps, Derivable [] K d) : Derivable [] K e.kw :=
  .step e he rfl h

theorem der_mur : Derivable [] K mur := by_eqn (eqn 41 mur []) (by decide) (by simp [eqn])
theorem der_epsr : Derivable [] K epsr := by_eqn (eqn 42 epsr []) (by decide) (by simp [eqn])
theorem der_Z0 : Derivable [] K Z0TL := by_eqn (eqn 43 Z0TL []) (by decide) (by simp [eqn])
theorem der_murI : Derivable [] K murI := by_eqn (eqn 0 murI []) (by decide) (by simp [eqn])
theorem der_murO : Derivable [] K murO := by_eqn (eqn 1 murO []) (by decide) (by simp [eqn])
theorem der_vr : Derivable [] K vr :=
  by_eqn (eqn 29 vr [mur, epsr]) (by decide) (by simp [eqn, der_mur, der_epsr])
theorem der_etar : Derivable [] K etar :=
  by_eqn (eqn 26 etar [mur, epsr]) (by decide) (by simp [eqn, der_mur, der_epsr])
theorem der_LTL : Derivable [] K LTL :=
  by_eqn (eqn 4 LTL [Z0TL, vr]) (by decide) (by simp [eqn, der_Z0, der_vr])
theorem der_CTL : Derivable [] K CTL :=
  by_eqn (eqn 5 CTL [Z0TL, vr]) (by decide) (by simp [eqn, der_Z0, der_vr])

/-- both line constants derivable means both answers are -/
theorem der_both (hr : Derivable [] K rTL) (hg : Derivable [] K gTL) :
    Derivable [] K Zc ∧ Derivable [] K gamma := by
  have h1 : Derivable [] K rjwL := by_eqn (eqn 2 rjwL [rTL, LTL]) (by decide) (by simp [eqn, hr, der_LTL])
  have h2 : Derivable [] K gjwC := by_eqn (eqn 3 gjwC [gTL, CTL]) (by decide) (by simp [eqn, hg, der_CTL])
  exact ⟨by_eqn (eqn 46 Zc [rjwL, gjwC]) (by decide) (by simp [eqn, h1, h2]),
    by_eqn (eqn 47 gamma [rjwL, gjwC]) (by decide) (by simp [eqn, h1, h2])⟩

end derive

/-- the series resistance is derivable when the user's description determines it -/
theorem der_series {k : List Par} (h : Series k) : Derivable [] (Given k) rTL := by
  have hm : ∀ {p}, p ∈ k → Derivable [] (Given k) p := fun h => .base (.inl h)
  have hID : ID ∈ k ∨ OD ∈ k → Derivable [] (Given k) ID := by
    rintro (h | h)
    · exact hm h
    · exact by_eqn (eqn 13 ID [etar, OD, Z0TL]) (by decide) (by simp [eqn, hm h, der_etar, der_Z0])
  have hOD : ID ∈ k ∨ OD ∈ k → Derivable [] (Given k) OD := by
    rintro (h | h)
    · exact by_eqn (eqn 14 OD [etar, ID, Z0TL]) (by decide) (by simp [eqn, hm h, der_etar, der_Z0])
    · exact hm h
  have hqI : qTLI ∈ k ∨ ID ∈ k ∨ OD ∈ k → Derivable [] (Given k) qTLI := by
    rintro (h | h)
    · exact hm h
    · exact by_eqn (eqn 22 qTLI [ID]) (by decide) (by simp [eqn, hID h])
  have hqO : qTLO ∈ k ∨ ID ∈ k ∨ OD ∈ k → Derivable [] (Given k) qTLO := by
    rintro (h | h)
    · exact hm h
    · exact by_eqn (eqn 23 qTLO [OD]) (by decide) (by simp [eqn, hOD h])
  have hrhoI : rhoI ∈ k ∨ (Par.rho ∈ k ∧ rhoO ∉ k) → Derivable [] (Given k) rhoI := by
    intro h
    by_cases h' : rhoI ∈ k
    · exact hm h'
    · have h := h.resolve_left h'
      exact .base (.inr (mem_complement.2 (.inl ⟨.inr rfl, h.1, h', h.2⟩)))
  have hrhoO : rhoO ∈ k ∨ (Par.rho ∈ k ∧ rhoI ∉ k) → Derivable [] (Given k) rhoO := by
    intro h
    by_cases h' : rhoO ∈ k
    · exact hm h'
    · have h := h.resolve_left h'
      exact .base (.inr (mem_complement.2 (.inl ⟨.inl rfl, h.1, h.2, h'⟩)))
  have hRsI : SurfI k → Derivable [] (Given k) RsI := by
    rintro (h | h)
    · exact hm h
    · exact by_eqn (eqn 24 RsI [rhoI, murI]) (by decide) (by simp [eqn, hrhoI h, der_murI])
  have hRsO : SurfO k → Derivable [] (Given k) RsO := by
    rintro (h | h)
    · exact hm h
    · exact by_eqn (eqn 25 RsO [rhoO, murO]) (by decide) (by simp [eqn, hrhoO h, der_murO])
  rcases h with h | ⟨hI, hO⟩
  · exact hm h
  · have h1 : Derivable [] (Given k) rTLI := by
      rcases hI with h | ⟨h, h'⟩
      · exact hm h
      · exact by_eqn (eqn 20 rTLI [RsI, qTLI]) (by decide) (by simp [eqn, hRsI h, hqI h'])
    have h2 : Derivable [] (Given k) rTLO := by
      rcases hO with h | ⟨h, h'⟩
      · exact hm h
      · exact by_eqn ⟨21, rTLO, [RsO, qTLO], [qTLO, RsI]⟩ (by decide) (by simp [hRsO h, hqO h'])
    exact by_eqn (eqn 17 rTL [rTLI, rTLO]) (by decide) (by simp [eqn, h1, h2])

theorem der_gTL_medium {k : List Par} (h : sigma ∈ k ∨ tand ∈ k) : Derivable [] (Given k) gTL := by
  have hs : Derivable [] (Given k) sigma := by
    rcases h with h | h
    · exact .base (.inl h)
    · exact by_eqn (eqn 40 sigma [tand, epsr]) (by decide)
        (by simp [eqn, der_epsr, show Derivable [] (Given k) tand from .base (.inl h)])
  exact by_eqn (eqn 16 gTL [sigma, Z0TL, etar]) (by decide) (by simp [eqn, hs, der_Z0, der_etar])

theorem derivable_iff {k : List Par} (hk : ∀ p ∈ k, Par.accepted p = true) :
    (Derivable [] (Given k) Zc ∧ Derivable [] (Given k) gamma) ↔ Resolvable k := by
  have hacc : ∀ {p}, Par.accepted p = false → p ∉ k := fun h hp => by rw [hk _ hp] at h; cases h
  have hrt : ∀ bad : List Par, (∀ p ∈ k, p ∉ bad) → (∀ p ∈ bad, p ∉ (complement k).map Prod.fst) →
      ∀ p, Given k p → Closed k bad p := by
    intro bad h1 h2 p hp
    rcases hp with hp | hp
    · exact closed_of_mem hp (h1 p hp)
    · have hb : p ∉ bad := fun h => h2 p h hp
      rcases mem_complement.1 hp with ⟨h | h, h3, h4, h5⟩ | ⟨h, _⟩ | ⟨h, _⟩ | ⟨h, _⟩
      · subst h; exact .inr ⟨h3, h4⟩
      · subst h; exact .inr ⟨h3, h5⟩
      all_goals (subst h; exact hb)
  unfold Resolvable
  split
  · rename_i ha
    constructor
    · rintro ⟨hz, -⟩
      by_contra hc
      simp only [not_or] at hc
      obtain ⟨hc0, hc1, hc2, hc3, hc4⟩ := hc
      have hr : rTL ∉ k := fun h => hc4 (.inl h)
      have := derivable_closed (C := Closed k [rTL, rjwL, gTL, gjwC, Zc, gamma, sigma, tand])
        (hrt _ ?_ ?_) (closed_eqns2 hc4) hz
      · exact this (by decide)
      · intro p hp hb
        simp only [List.mem_cons, List.not_mem_nil, or_false] at hb
        rcases hb with rfl | rfl | rfl | rfl | rfl | rfl | rfl | rfl
        · exact hr hp
        · exact hacc rfl hp
        · exact hc1 hp
        · exact hacc rfl hp
        · exact hacc rfl hp
        · exact hacc rfl hp
        · exact hc2 hp
        · exact hc3 hp
      · intro p hb hp
        rcases mem_complement.1 hp with ⟨h | h, _⟩ | ⟨_, h1, h2, _⟩ | ⟨_, h1, h2, _⟩ | ⟨_, _, h⟩
        · subst h; revert hb; decide
        · subst h; revert hb; decide
        · exact ha.elim h1 h2
        · exact ha.elim h1 h2
        · exact hc0 h
    · intro h
      have hA : Derivable [] (Given k) A := by
        rcases ha with h | h
        · exact .base (.inl h)
        · exact by_eqn (eqn 36 A [AdB]) (by decide)
            (by simp [eqn, show Derivable [] (Given k) AdB from .base (.inl h)])
      have hfromg : Derivable [] (Given k) gTL → Derivable [] (Given k) Zc ∧ Derivable [] (Given k) gamma := by
        intro hg
        exact der_both (by_eqn (eqn 37 rTL [gTL, LTL, CTL, A]) (by decide)
          (by simp [eqn, hg, hA, der_LTL, der_CTL])) hg
      rcases h with h | h | h | h | h
      · exact hfromg (.base (.inr (mem_complement.2 (.inr (.inr (.inr ⟨rfl, ha, h⟩))))))
      · exact hfromg (.base (.inl h))
      · exact hfromg (der_gTL_medium (.inl h))
      · exact hfromg (der_gTL_medium (.inr h))
      · have hr := der_series h
        exact der_both hr (by_eqn (eqn 38 gTL [rTL, LTL, CTL, A]) (by decide)
          (by simp [eqn, hr, hA, der_LTL, der_CTL]))
  · rename_i ha
    rw [not_or] at ha
    constructor
    · rintro ⟨hz, -⟩
      by_contra hc
      rw [not_or] at hc
      have := derivable_closed (C := Closed k [rTL, rjwL, Zc, gamma, A, AdB])
        (hrt _ ?_ ?_) (closed_eqns1 hc.2) hz
      · exact this (by decide)
      · intro p hp hb
        simp only [List.mem_cons, List.not_mem_nil, or_false] at hb
        rcases hb with rfl | rfl | rfl | rfl | rfl | rfl
        · exact hc.2 (.inl hp)
        · exact hacc rfl hp
        · exact hacc rfl hp
        · exact hacc rfl hp
        · exact ha.1 hp
        · exact ha.2 hp
      · intro p hb hp
        rcases mem_complement.1 hp with ⟨h | h, _⟩ | ⟨h, _⟩ | ⟨_, _, _, h⟩ | ⟨h, _⟩
        · subst h; revert hb; decide
        · subst h; revert hb; decide
        · subst h; revert hb; decide
        · exact hc.1 h
        · subst h; revert hb; decide
    · intro h
      refine der_both ?_ ?_
      · rcases h with h | h
        · exact .base (.inr (mem_complement.2 (.inr (.inr (.inl ⟨rfl, ha.1, ha.2, h⟩)))))
        · exact der_series h
      · by_cases hm : sigma ∈ k ∨ tand ∈ k
        · exact der_gTL_medium hm
        · rw [not_or] at hm
          exact .base (.inr (mem_complement.2 (.inr (.inl ⟨rfl, ha.1, ha.2, hm⟩))))

/-- **C40, which descriptions resolve.** When the constructor returns, the line is resolved (characteristic impedance and
propagation constant available) exactly for the complete descriptions `Resolvable`, a condition on the supplied names
only. In particular nothing about impedance, velocity, permittivity or permeability is ever needed, and a single surface
resistance `Rs` never resolves. -/
theorem C40_resolves_iff {k : List Par} {s : St} (h : tlresolver [] k = .ok s) :
    (s.known Zc = true ∧ s.known gamma = true) ↔ Resolvable k := by
  rw [C40_success_iff h, derivable_iff (tlresolver_ok h).1]

/-! ## The exception out of the consistency check -/

theorem scan_append (s : St) (l m : List Eqn) : scan s (l ++ m) =
    match scan s l with | .nothing => scan s m | x => x := by
  induction l with
  | nil => rfl
  | cons a l ih =>
    rw [List.cons_append, scan, scan, ih]
    repeat' split
    all_goals first | rfl | simp_all

/-- every function set reads only parameters that have one -/
def Reads (s : St) : Prop := ∀ p e, (p, Src.eqn e) ∈ s.der → ∀ r ∈ e.reads, s.known r = true

theorem broken_nil {has : Par → Bool} {l : List (Par × Src)}
    (h : ∀ p e, (p, Src.eqn e) ∈ l → ∀ r ∈ e.reads, has r = true) : broken has l = [] := by
  induction l with
  | nil => rfl
  | cons a l ih =>
    have ih := ih (fun p e he => h p e (List.mem_cons_of_mem _ he))
    obtain ⟨p, x⟩ := a
    cases x with
    | eqn e =>
      unfold broken brk
      simp only
      rw [ih, if_neg]
      simp only [List.any_eq_true, not_exists, not_and, Bool.or_eq_true, not_or, Bool.not_eq_true',
        Bool.not_eq_false]
      intro r hr
      exact ⟨h p e List.mem_cons_self r hr, by simp⟩
    | input => simpa [broken, brk] using ih
    | zero => simpa [broken, brk] using ih
    | rho => simpa [broken, brk] using ih

theorem reads_deps : ∀ e ∈ EQNS, (∀ r ∈ e.reads, r ∈ e.deps) ∨ (RsO ∈ e.deps ∧ ∀ r ∈ e.reads, r ∈ e.deps ∨ r = RsI) := by
  decide

theorem callFails_false {s : St} (hr : Reads s) (hi : s.known RsO = true → s.known RsI = true) {e : Eqn}
    (he : e ∈ EQNS) (hd : ∀ d ∈ e.deps, s.known d = true) : s.callFails e = false := by
  have hb : s.broken = [] := broken_nil hr
  unfold St.callFails
  rw [hb]
  simp only [List.any_eq_false, Bool.or_eq_true, not_or, Bool.not_eq_true', Bool.not_eq_false]
  intro r hr'
  refine ⟨?_, by simp⟩
  rcases reads_deps e he with h | ⟨h1, h2⟩
  · exact hd r (h r hr')
  · rcases h2 r hr' with h | rfl
    · exact hd r h
    · exact hi (hd _ h1)

theorem scan_not_raised {s : St} (hr : Reads s) (hi : s.known RsO = true → s.known RsI = true) {l : List Eqn}
    (hl : ∀ e ∈ l, e ∈ EQNS) : scan s l ≠ .raised := by
  have hb : s.broken = [] := broken_nil hr
  induction l with
  | nil => simp [scan]
  | cons e l ih =>
    have ih := ih (fun x hx => hl x (List.mem_cons_of_mem _ hx))
    unfold scan
    split
    · exact ih
    · split
      · simp
      · split
        · rename_i h
          simp only [Bool.and_eq_true, List.all_eq_true] at h
          rw [hb, callFails_false hr hi (hl e List.mem_cons_self) h.1]
          simpa using ih
        · exact ih

theorem known_mono_apply {s : St} {e : Eqn} {p : Par} (h : s.known p = true) : (s.apply e).known p = true :=
  (known_apply _ _ _).2 (.inr h)

theorem reads_apply {s : St} {e : Eqn} (hr : Reads s) (he : ∀ r ∈ e.reads, s.known r = true) : Reads (s.apply e) := by
  intro p e' h r hr'
  rcases List.mem_cons.1 h with h | h
  · injection h with h1 h2; injection h2 with h2; subst h2
    exact known_mono_apply (he r hr')
  · exact known_mono_apply (hr p e' h r hr')

/-- the sets of supplied names for which the check cannot fail: the inner surface resistance is supplied, or the outer
one is not and the inner resistivity is there whenever the outer one is -/
def Safe (k : List Par) : Prop :=
  RsI ∈ k ∨ (RsO ∉ k ∧ (rhoO ∈ k → rhoI ∈ k))

/-- the table splits at the equations for the surface resistances -/
theorem split24 : ∃ l m, EQNS = l ++ eqn 24 RsI [rhoI, murI] :: m ∧ eqn 0 murI [] ∈ l ∧
    (∀ e ∈ l, e.kw ≠ RsO) := by
  refine ⟨EQNS.take 24, EQNS.drop 25, by decide, by decide, by decide⟩

theorem scan_use_RsO {s : St} {e : Eqn} (hu : UsedKnown s) (hf : s.forget = []) (h : scan s EQNS = .use e)
    (he : e.kw = RsO) (hrho : s.known rhoI = true) : s.known RsI = true := by
  obtain ⟨l, m, hE, h0, hl⟩ := split24
  rw [hE, scan_append] at h
  have hused : ∀ e : Eqn, s.used.any (fun u => u.isPerm e.sig) = true → s.known e.kw = true := by
    intro e h1
    rw [List.any_eq_true] at h1
    obtain ⟨u, hu', h1⟩ := h1
    exact hu u hu' _ ((List.isPerm_iff.1 h1).mem_iff.2 (by simp [Eqn.sig]))
  cases h1 : scan s l with
  | use e' =>
    rw [h1] at h
    injection h with h; subst h
    exact absurd he (hl _ (scan_use h1).1)
  | raised => rw [h1] at h; cases h
  | nothing =>
    rw [h1] at h
    simp only at h
    have hmu : s.known murI = true := by
      rcases scan_nothing h1 _ h0 with h2 | h2 | h2 | ⟨d, hd, _⟩
      · exact hused _ h2
      · rw [hf] at h2; cases h2
      · exact h2
      · simp [eqn] at hd
    by_contra hc
    have hc : s.known RsI = false := by simpa using hc
    have h3 : s.used.any (fun u => u.isPerm (eqn 24 RsI [rhoI, murI]).sig) = false := by
      by_contra h3
      have := hused _ (by simpa using h3)
      rw [show (eqn 24 RsI [rhoI, murI]).kw = RsI from rfl, hc] at this; cases this
    unfold scan at h
    rw [h3, hf, forgotten_nil] at h
    simp only [Bool.or_false, Bool.false_eq_true, if_false] at h
    rw [if_pos] at h
    · injection h with h; subst h; cases he
    · simp [eqn, hc, hrho, hmu]

theorem solveit_no_error {n : ℕ} {s : St} (hn : unknowns s < n) (hu : UsedKnown s) (hf : s.forget = []) (hr : Reads s)
    (hi : s.known RsO = true → s.known RsI = true)
    (hrho : s.known RsI = true ∨ s.known rhoI = true ∨ s.known rhoO = false) :
    ∃ t, solveit n s = .ok t ∧ Reads t := by
  induction n generalizing s with
  | zero => omega
  | succ n ih =>
    unfold solveit
    split
    · exact ⟨s, rfl, hr⟩
    · cases hs : scan s EQNS with
      | nothing => exact ⟨s, rfl, hr⟩
      | raised => exact absurd hs (scan_not_raised hr hi (fun _ h => h))
      | use e =>
        obtain ⟨he, hk, hd, _⟩ := scan_use hs
        have := unknowns_apply hk
        have hrd : ∀ r ∈ e.reads, s.known r = true := by
          intro r hr'
          rcases reads_deps e he with h | ⟨h1, h2⟩
          · exact hd r (h r hr')
          · rcases h2 r hr' with h | rfl
            · exact hd r h
            · exact hi (hd _ h1)
        have hRsO : e.kw = RsO → s.known RsI = true := by
          intro h
          rcases hrho with h1 | h1 | h1
          · exact h1
          · exact scan_use_RsO hu hf hs h h1
          · exfalso
            have hdep : rhoO ∈ e.deps := by
              have : ∀ e ∈ EQNS, e.kw = RsO → rhoO ∈ e.deps := by decide
              exact this e he h
            rw [hd _ hdep] at h1; cases h1
        have hne : e.kw ≠ rhoO := by
          have : ∀ e ∈ EQNS, e.kw ≠ rhoO := by decide
          exact this e he
        refine ih (s := s.apply e) (by omega) (usedKnown_apply hu hd) hf (reads_apply hr hrd) ?_ ?_
        · intro h
          rcases (known_apply _ _ _).1 h with h | h
          · exact known_mono_apply (hRsO h.symm)
          · exact known_mono_apply (hi h)
        · rcases hrho with h | h | h
          · exact .inl (known_mono_apply h)
          · exact .inr (.inl (known_mono_apply h))
          · refine .inr (.inr ?_)
            rw [← Bool.not_eq_true, known_apply, not_or]
            exact ⟨fun h' => hne h'.symm, by simp [h]⟩

theorem complement_src {k : List Par} {p : Par} {x : Src} (h : (p, x) ∈ complement k) : x = .zero ∨ x = .rho := by
  unfold complement at h
  simp only [List.mem_append] at h
  rcases h with h | h
  · split at h
    · simp only [List.mem_cons, List.not_mem_nil, or_false, Prod.mk.injEq] at h; tauto
    · cases h
  · split at h
    · rcases List.mem_append.1 h with h | h
      · split at h
        · simp only [List.mem_cons, List.not_mem_nil, or_false, Prod.mk.injEq] at h; tauto
        · cases h
      · split at h
        · simp only [List.mem_cons, List.not_mem_nil, or_false, Prod.mk.injEq] at h; tauto
        · cases h
    · split at h
      · simp only [List.mem_cons, List.not_mem_nil, or_false, Prod.mk.injEq] at h; tauto
      · cases h

theorem safe_start {k : List Par} (hs : Safe k) :
    ((start [] k).known RsO = true → (start [] k).known RsI = true) ∧
    ((start [] k).known RsI = true ∨ (start [] k).known rhoI = true ∨ (start [] k).known rhoO = false) := by
  have hn : ∀ p, p ∈ (complement k).map Prod.fst → p ≠ RsO := by
    intro p hp h; subst h
    rcases mem_complement.1 hp with ⟨h | h, _⟩ | ⟨h, _⟩ | ⟨h, _⟩ | ⟨h, _⟩ <;> cases h
  rcases hs with hs | ⟨h1, h2⟩
  · have : (start [] k).known RsI = true := given_iff.2 (.inl hs)
    exact ⟨fun _ => this, .inl this⟩
  · refine ⟨fun h => ?_, .inr ?_⟩
    · rcases given_iff.1 h with h | h
      · exact absurd h h1
      · exact absurd rfl (hn _ h)
    · by_cases hO : rhoO ∈ k
      · exact .inl (given_iff.2 (.inl (h2 hO)))
      · by_cases hc : (start [] k).known rhoO = true
        · left
          rcases given_iff.1 hc with h | h
          · exact absurd h hO
          · rcases mem_complement.1 h with ⟨_, h⟩ | ⟨h, _⟩ | ⟨h, _⟩ | ⟨h, _⟩
            · exact given_iff.2 (.inr (mem_complement.2 (.inl ⟨.inr rfl, h⟩)))
            · cases h
            · cases h
            · cases h
        · exact .inr (by simpa using hc)

/-- **C40, no exception.** With accepted names the constructor returns, unless the outer conductor is described
without the inner one: if the inner surface resistance is supplied, or the outer one is not and the outer resistivity comes with
the inner one, no exception is raised, and the line is resolved exactly when its description is complete. -/
theorem C40_returns {k : List Par} (hk : ∀ p ∈ k, Par.accepted p = true) (hs : Safe k) :
    ∃ s, tlresolver [] k = .ok s ∧ ((s.known Zc = true ∧ s.known gamma = true) ↔ Resolvable k) := by
  obtain ⟨h1, h2⟩ := safe_start hs
  have hr : Reads (start [] k) := by
    intro p e h
    rcases complement_src h with h | h <;> cases h
  obtain ⟨t, ht, hrt⟩ := solveit_no_error (unknowns_lt (start [] k)) (by intro u hu; cases hu) rfl hr h1 h2
  have hb : t.broken = [] := broken_nil hrt
  have : tlresolver [] k = .ok t := by
    unfold tlresolver
    rw [if_pos (by simpa using hk), ht]
    simp only [hb, List.isEmpty_nil, if_true]
    split <;> rfl
  exact ⟨t, this, C40_resolves_iff this⟩

/-- an unknown keyword is refused -/
theorem C40_unknown_refused {fg : List (List Par × Par)} {k : List Par} {p : Par} (hp : p ∈ k)
    (h : Par.accepted p = false) : tlresolver fg k = .error .valueError := by
  unfold tlresolver
  rw [if_neg]
  simp only [List.all_eq_true, not_forall]
  exact ⟨p, hp, by simp [h]⟩

/-- **C40, the accepted names.** Twenty-eight names are accepted; a call with any other (`rjwL`, `gjwC`, `Zc`, `gamma`, `beta`, which
only the rules set) is refused, whatever else is supplied. -/
theorem C40_names : (∀ p : Par, Par.accepted p = true ↔ p ∉ [rjwL, gjwC, Zc, gamma, beta]) ∧
    (∀ (fg : List (List Par × Par)) (k : List Par) (p : Par), p ∈ k → p ∈ [rjwL, gjwC, Zc, gamma, beta] →
      tlresolver fg k = .error .valueError) := by
  have h : ∀ p : Par, Par.accepted p = true ↔ p ∉ [rjwL, gjwC, Zc, gamma, beta] := by intro p; cases p <;> decide
  refine ⟨h, fun fg k p hp hq => C40_unknown_refused hp ?_⟩
  cases ha : Par.accepted p with
  | false => rfl
  | true => exact absurd hq ((h p).1 ha)

/-- the table splits at the equation for the outer part of the series resistance -/
theorem split21 : ∃ l m, EQNS = l ++ ⟨21, rTLO, [RsO, qTLO], [qTLO, RsI]⟩ :: m ∧
    (∀ e ∈ l, e.kw ≠ RsI ∧ e.kw ≠ Zc ∧ e.kw ≠ rTLO ∨ e = eqn 19 rTLO [rTL, rTLI]) ∧
    (∀ e ∈ l, ¬ e.sig.isPerm [RsO, qTLO, rTLO]) := by
  refine ⟨EQNS.take 21, EQNS.drop 22, by decide, by decide, by decide⟩

theorem solveit_raises {n : ℕ} {s : St} (hn : unknowns s < n) (hf : s.forget = [])
    (hR : s.known RsI = false) (hz : s.known Zc = false)
    (h1 : s.known RsO = true) (h2 : s.known qTLO = true) (h3 : s.known rTLO = true)
    (hu : ∀ u ∈ s.used, u.isPerm [RsO, qTLO, rTLO] = false) : solveit n s = .error .attributeError := by
  obtain ⟨l, m, hE, hl, hl2⟩ := split21
  induction n generalizing s with
  | zero => omega
  | succ n ih =>
    unfold solveit
    rw [if_neg (by simp [hz])]
    have hsc : scan s EQNS = match scan s l with | .nothing => .raised | x => x := by
      rw [hE, scan_append]
      cases hs : scan s l with
      | use e => rfl
      | raised => rfl
      | nothing =>
        simp only
        unfold scan
        have h4 : s.used.any (fun u => u.isPerm (Eqn.sig ⟨21, rTLO, [RsO, qTLO], [qTLO, RsI]⟩)) = false := by
          rw [List.any_eq_false]; intro u hu'; rw [show Eqn.sig _ = [RsO, qTLO, rTLO] from rfl, hu u hu']; simp
        rw [h4, hf, forgotten_nil, if_neg (by simp), if_neg (by simp [h3]), if_pos (by simp [h1, h2]), if_pos]
        simp [St.callFails, hR]
    rw [hsc]
    cases hs : scan s l with
    | nothing => rfl
    | raised => rfl
    | use e =>
      simp only
      obtain ⟨he, hk, _, _⟩ := scan_use hs
      have := unknowns_apply hk
      have hne : e.kw ≠ RsI ∧ e.kw ≠ Zc := by
        rcases hl e he with h | h
        · exact ⟨h.1, h.2.1⟩
        · rw [h] at hk; rw [show (eqn 19 rTLO [rTL, rTLI]).kw = rTLO from rfl, h3] at hk; cases hk
      refine ih (s := s.apply e) (by omega) hf ?_ ?_ (known_mono_apply h1) (known_mono_apply h2)
        (known_mono_apply h3) ?_
      · rw [← Bool.not_eq_true, known_apply, not_or]; exact ⟨fun h => hne.1 h.symm, by simp [hR]⟩
      · rw [← Bool.not_eq_true, known_apply, not_or]; exact ⟨fun h => hne.2 h.symm, by simp [hz]⟩
      · intro u hu'
        rcases List.mem_cons.1 hu' with rfl | hu'
        · simpa using hl2 e he
        · exact hu u hu'

/-- **C40 fails: a consistent over-determined description can raise.** The function of the outer series resistance reads
the *inner* surface resistance (resolveTLparams.py:112-113), which the search does not wait for: supplying the outer surface
resistance, its geometry factor and the outer series resistance, without the inner surface resistance, always ends in an
`AttributeError`, whatever else is supplied — also when the description is complete. -/
theorem C40_raises {k : List Par} (hk : ∀ p ∈ k, Par.accepted p = true) (h1 : RsO ∈ k) (h2 : qTLO ∈ k)
    (h3 : rTLO ∈ k) (hR : RsI ∉ k) : tlresolver [] k = .error .attributeError := by
  have hn : ∀ q, (q = RsI ∨ q = Zc) → q ∉ k → (start [] k).known q = false := by
    intro q hq hqk
    rw [← Bool.not_eq_true, given_iff]
    rintro (h | h)
    · exact hqk h
    · rcases mem_complement.1 h with ⟨h | h, _⟩ | ⟨h, _⟩ | ⟨h, _⟩ | ⟨h, _⟩ <;> subst h <;> simp at hq
  have hz : Zc ∉ k := fun h => by have := hk _ h; cases this
  have := solveit_raises (unknowns_lt (start [] k)) rfl (hn _ (.inl rfl) hR) (hn _ (.inr rfl) hz)
    (given_iff.2 (.inl h1)) (given_iff.2 (.inl h2)) (given_iff.2 (.inl h3)) (by intro u hu; cases hu)
  unfold tlresolver
  rw [if_pos (by simpa using hk), this]

/-! ## Concrete cases -/

/-- a copper coaxial cable: diameters, one resistivity, permittivity -/
example : ∀ s, tlresolver [] [OD, ID, Par.rho, epsr] = .ok s → s.known Zc = true ∧ s.known gamma = true :=
  fun _ h => (C40_resolves_iff h).2 (by simp [Resolvable, NoConductor, Series, SurfI, SurfO])

theorem C40_returns_witness : ∃ s, tlresolver [] [OD, ID, Par.rho, epsr] = .ok s ∧ s.known Zc = true :=
  let ⟨s, h, hr⟩ := C40_returns (k := [OD, ID, Par.rho, epsr]) (by decide) (.inr (by decide))
  ⟨s, h, (hr.2 (by simp [Resolvable, NoConductor, Series, SurfI, SurfO])).1⟩

/-- **C40, a single surface resistance never resolves.** `Rs` is accepted as an argument, but no rule reads it: supplied
alone (no attenuation, no other complete description of the series resistance) it only disables the assumption of
lossless conductors, and the object ends without characteristic impedance or propagation constant. -/
theorem C40_Rs_never {k : List Par} (hk : ∀ p ∈ k, Par.accepted p = true) (hs : Safe k) (hR : Rs ∈ k)
    (ha : A ∉ k ∧ AdB ∉ k) (hS : ¬ Series k) :
    ∃ s, tlresolver [] k = .ok s ∧ ¬ (s.known Zc = true ∧ s.known gamma = true) := by
  obtain ⟨s, h, hr⟩ := C40_returns hk hs
  refine ⟨s, h, ?_⟩
  rw [hr]
  unfold Resolvable
  rw [if_neg (not_or.2 ha)]
  rintro (h | h)
  · exact h Rs (by decide) hR
  · exact hS h

theorem C40_Rs_never_witness : ∃ s, tlresolver [] [OD, ID, Rs, epsr] = .ok s ∧
    ¬ (s.known Zc = true ∧ s.known gamma = true) :=
  C40_Rs_never (by decide) (.inr (by decide)) (by decide) (by decide)
    (by simp [Series, SurfI, SurfO])

/-- the exception hits complete descriptions -/
theorem C40_raises_witness : Resolvable [RsO, qTLO, rTLO, rTLI] ∧
    tlresolver [] [RsO, qTLO, rTLO, rTLI] = .error .attributeError :=
  ⟨by simp [Resolvable, Series], C40_raises (by decide) (by decide) (by decide) (by decide) (by decide)⟩

/-- and a supplied shunt conductance is dropped in a concrete call -/
theorem C40_gTL_overwritten_witness : ∃ s, tlresolver [] [Z0TL, vr, rTL, gTL] = .ok s ∧ s.src gTL = some .zero := by
  obtain ⟨s, h, _⟩ := C40_returns (k := [Z0TL, vr, rTL, gTL]) (by decide) (.inr (by decide))
  exact ⟨s, h, C40_gTL_overwritten h (by decide) (by decide) (by decide)⟩

/-- and a supplied one is kept next to `sigma` -/
theorem C40_supplied_kept_witness : ∃ s, tlresolver [] [Z0TL, vr, rTL, gTL, sigma] = .ok s ∧
    s.src gTL = some .input := by
  obtain ⟨s, h, _⟩ := C40_returns (k := [Z0TL, vr, rTL, gTL, sigma]) (by decide) (.inr (by decide))
  exact ⟨s, h, C40_supplied_kept_partial h (by decide) (by decide)⟩

end PyRFtk.Resolver
