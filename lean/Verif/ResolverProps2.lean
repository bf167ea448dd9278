import Verif.ResolverProps
import Mathlib.Tactic.FinCases

/-!
# `TLresolver`: order of the arguments, when it resolves, when it raises (C40)
-/

namespace PyRFtk.Resolver
open Par

/-! ## The order of the supplied parameters -/

/-- the same state with another list of supplied names -/
def St.withInp (s : St) (l : List Par) : St := { s with inp := l }

theorem known_withInp {s : St} {l : List Par} (h : s.inp.Perm l) (p : Par) : (s.withInp l).known p = s.known p := by
  rw [Bool.eq_iff_iff, known_iff, known_iff]
  simp only [St.withInp, h.mem_iff]

theorem scan_withInp {s : St} {l : List Par} (h : s.inp.Perm l) (es : List Eqn) :
    scan (s.withInp l) es = scan s es := by
  have hk : (s.withInp l).known = s.known := funext (known_withInp h)
  have hb : (s.withInp l).broken = s.broken := by unfold St.broken; rw [hk]; rfl
  have hc : ∀ e, (s.withInp l).callFails e = s.callFails e := by intro e; unfold St.callFails; rw [hk, hb]
  induction es with
  | nil => rfl
  | cons e es ih => unfold scan; rw [hk, hb, hc, ih]; rfl

theorem solveit_withInp {n : ℕ} {s : St} {l : List Par} (h : s.inp.Perm l) :
    solveit n (s.withInp l) = (solveit n s).map (fun t => t.withInp l) := by
  induction n generalizing s with
  | zero => rfl
  | succ n ih =>
    unfold solveit
    rw [known_withInp h, known_withInp h, scan_withInp h]
    split
    · rfl
    · cases hs : scan s EQNS with
      | use e => exact ih (s := s.apply e) h
      | nothing => rfl
      | raised => rfl

theorem avail_perm {k l : List Par} (h : k.Perm l) (ps : List Par) : avail k ps = avail l ps := by
  unfold avail
  congr 1
  funext p
  rw [Bool.eq_iff_iff, List.contains_iff_mem, List.contains_iff_mem, h.mem_iff]

theorem complement_perm {k l : List Par} (h : k.Perm l) : complement k = complement l := by
  unfold complement
  have : k.contains Par.rho = l.contains Par.rho := by
    rw [Bool.eq_iff_iff, List.contains_iff_mem, List.contains_iff_mem, h.mem_iff]
  simp only [avail_perm h, this]

/-- **C40, order independence.** Supplying the same parameters in another order leads to the same outcome: the same
exception, or an object in which the same things were set, by the same rules in the same order. -/
theorem C40_order_independent (fg : List (List Par × Par)) {k l : List Par} (h : k.Perm l) :
    (∃ e, tlresolver fg k = .error e ∧ tlresolver fg l = .error e) ∨
    ∃ s t, tlresolver fg k = .ok s ∧ tlresolver fg l = .ok t ∧ s.der = t.der ∧ ∀ p, s.src p = t.src p := by
  have ha : k.all Par.accepted = l.all Par.accepted := by
    rw [Bool.eq_iff_iff, List.all_eq_true, List.all_eq_true]
    exact ⟨fun H x hx => H x (h.mem_iff.2 hx), fun H x hx => H x (h.mem_iff.1 hx)⟩
  have hst : start fg l = (start fg k).withInp l := by
    unfold start St.withInp; rw [complement_perm h]
  have hs := solveit_withInp (n := fuel) (s := start fg k) (l := l) h
  rw [← hst] at hs
  unfold tlresolver
  rw [← ha, hs]
  split
  · cases hk : solveit fuel (start fg k) with
    | error e => exact .inl ⟨e, rfl, rfl⟩
    | ok s =>
      have hi : s.inp.Perm l := by
        rw [(steps_inp (steps_of_solveit hk).1).1]; exact h
      have hkn : (s.withInp l).known = s.known := funext (known_withInp hi)
      have hb : (s.withInp l).broken = s.broken := by unfold St.broken; rw [hkn]; rfl
      simp only [Except.map]
      rw [hkn, hb]
      have hsrc : ∀ p, s.src p = (s.withInp l).src p := by
        intro p
        unfold St.src
        show _ = match lastSet s.der p with | some x => some x | none => if p ∈ l then some .input else none
        simp only [hi.mem_iff]
        cases lastSet s.der p <;> rfl
      split
      · exact .inr ⟨s, _, rfl, rfl, rfl, hsrc⟩
      · split
        · exact .inr ⟨s, _, rfl, rfl, rfl, hsrc⟩
        · exact .inl ⟨_, rfl, rfl⟩
  · exact .inl ⟨_, rfl, rfl⟩

/-! ## When it resolves -/

/-- something is known about the conductor losses of the inner (outer) conductor: its surface resistance, its
resistivity, or one resistivity for both -/
def SurfI (k : List Par) : Prop := RsI ∈ k ∨ rhoI ∈ k ∨ (Par.rho ∈ k ∧ rhoO ∉ k)
/-- see `SurfI` -/
def SurfO (k : List Par) : Prop := RsO ∈ k ∨ rhoO ∈ k ∨ (Par.rho ∈ k ∧ rhoI ∉ k)

/-- the series resistance can be found: given, or its inner and outer part, each given or from a surface resistance and a
geometry -/
def Series (k : List Par) : Prop :=
  rTL ∈ k ∨ ((rTLI ∈ k ∨ (SurfI k ∧ (qTLI ∈ k ∨ ID ∈ k ∨ OD ∈ k))) ∧
    (rTLO ∈ k ∨ (SurfO k ∧ (qTLO ∈ k ∨ ID ∈ k ∨ OD ∈ k))))

/-- nothing supplied about conductor losses -/
def NoConductor (k : List Par) : Prop := ∀ p ∈ [Rs, RsI, RsO, rTL, rTLO, rTLI, Par.rho, rhoI, rhoO], p ∉ k

/-- The parameter sets that describe a line completely, as a user would put it: with an attenuation, one loss
mechanism must be known (or none supplied at all, then the losses are the conductor's); without one, the conductor losses
are given fully or not at all. -/
def Resolvable (k : List Par) : Prop :=
  if A ∈ k ∨ AdB ∈ k then
    (NoConductor k ∧ sigma ∉ k ∧ tand ∉ k) ∨ gTL ∈ k ∨ sigma ∈ k ∨ tand ∈ k ∨ Series k
  else NoConductor k ∨ Series k

/-- a set of parameters closed under the equations that contains what is given contains what is derivable -/
theorem derivable_closed {fg : List (List Par × Par)} {K C : Par → Prop} (hK : ∀ p, K p → C p)
    (hC : ∀ e ∈ EQNS, (∀ d ∈ e.deps, C d) → C e.kw) {p : Par} (h : Derivable fg K p) : C p := by
  induction h with
  | base h => exact hK _ h
  | step e he _ _ ih => exact hC e he ih

theorem avail_false {k ps : List Par} : avail k ps = false ↔ ∀ p ∈ ps, p ∉ k := by
  simp [avail, List.any_eq_false]

theorem mem_complement {k : List Par} {p : Par} : p ∈ (complement k).map Prod.fst ↔
    ((p = rhoO ∨ p = rhoI) ∧ Par.rho ∈ k ∧ rhoI ∉ k ∧ rhoO ∉ k) ∨
    (p = gTL ∧ A ∉ k ∧ AdB ∉ k ∧ sigma ∉ k ∧ tand ∉ k) ∨
    (p = rTL ∧ A ∉ k ∧ AdB ∉ k ∧ NoConductor k) ∨
    (p = gTL ∧ (A ∈ k ∨ AdB ∈ k) ∧ NoConductor k ∧ sigma ∉ k ∧ tand ∉ k) := by
  have h1 : avail k [rhoI, rhoO] = false ↔ rhoI ∉ k ∧ rhoO ∉ k := by rw [avail_false]; simp
  have h2 : avail k [A, AdB] = false ↔ A ∉ k ∧ AdB ∉ k := by rw [avail_false]; simp
  have h3 : avail k medium = false ↔ sigma ∉ k ∧ tand ∉ k := by rw [avail_false]; simp [medium]
  have h4 : avail k conductor = false ↔ NoConductor k := by rw [avail_false]; rfl
  have h5 : avail k (conductor ++ medium) = false ↔ NoConductor k ∧ sigma ∉ k ∧ tand ∉ k := by
    rw [← h4, ← h3, avail_false, avail_false, avail_false]
    simp only [List.mem_append]
    exact ⟨fun H => ⟨fun p hp => H p (.inl hp), fun p hp => H p (.inr hp)⟩,
      fun H p hp => hp.elim (H.1 p) (H.2 p)⟩
  unfold complement
  simp only [List.map_append, List.mem_append]
  have e1 : (p ∈ List.map Prod.fst (if (k.contains Par.rho && !avail k [rhoI, rhoO]) = true then
      [(rhoO, Src.rho), (rhoI, Src.rho)] else [])) ↔ ((p = rhoO ∨ p = rhoI) ∧ Par.rho ∈ k ∧ rhoI ∉ k ∧ rhoO ∉ k) := by
    by_cases hc : Par.rho ∈ k ∧ rhoI ∉ k ∧ rhoO ∉ k
    · rw [if_pos (by simp [h1.2 hc.2, hc.1])]
      simp [hc]
    · rw [if_neg]
      · exact ⟨fun h => absurd h (by simp), fun h => absurd h.2 hc⟩
      · simp only [Bool.and_eq_true, List.contains_iff_mem, Bool.not_eq_true', h1]; exact hc
  rw [e1]
  refine or_congr Iff.rfl ?_
  by_cases ha : A ∉ k ∧ AdB ∉ k
  · rw [if_pos (by simp [h2.2 ha])]
    rw [List.map_append, List.mem_append]
    have e2 : (p ∈ List.map Prod.fst (if (!avail k medium) = true then [(gTL, Src.zero)] else [])) ↔
        (p = gTL ∧ sigma ∉ k ∧ tand ∉ k) := by
      by_cases hc : sigma ∉ k ∧ tand ∉ k
      · rw [if_pos (by simp [h3.2 hc])]; simp [hc]
      · rw [if_neg]
        · exact ⟨fun h => absurd h (by simp), fun h => absurd h.2 hc⟩
        · simp only [Bool.not_eq_true', h3]; exact hc
    have e3 : (p ∈ List.map Prod.fst (if (!avail k conductor) = true then [(rTL, Src.zero)] else [])) ↔
        (p = rTL ∧ NoConductor k) := by
      by_cases hc : NoConductor k
      · rw [if_pos (by simp [h4.2 hc])]; simp [hc]
      · rw [if_neg]
        · exact ⟨fun h => absurd h (by simp), fun h => absurd h.2 hc⟩
        · simp only [Bool.not_eq_true', h4]; exact hc
    rw [e2, e3]
    obtain ⟨a1, a2⟩ := ha
    simp only [a1, a2, not_false_eq_true, true_and, false_and, and_false, or_false]
  · rw [if_neg (by simp only [Bool.not_eq_true', h2]; exact ha)]
    have e2 : (p ∈ List.map Prod.fst (if (!avail k (conductor ++ medium)) = true then [(gTL, Src.zero)] else [])) ↔
        (p = gTL ∧ NoConductor k ∧ sigma ∉ k ∧ tand ∉ k) := by
      by_cases hc : NoConductor k ∧ sigma ∉ k ∧ tand ∉ k
      · rw [if_pos (by simp [h5.2 hc])]; simp [hc]
      · rw [if_neg]
        · exact ⟨fun h => absurd h (by simp), fun h => absurd h.2 hc⟩
        · simp only [Bool.not_eq_true', h5]; exact hc
    rw [e2]
    have ha' : A ∈ k ∨ AdB ∈ k := by
      by_contra hc; exact ha (not_or.1 hc)
    constructor
    · rintro ⟨rfl, h⟩; exact .inr (.inr ⟨rfl, ha', h⟩)
    · rintro (⟨_, h1, h2, _⟩ | ⟨_, h1, h2, _⟩ | ⟨rfl, _, h⟩)
      · exact absurd ⟨h1, h2⟩ ha
      · exact absurd ⟨h1, h2⟩ ha
      · exact ⟨rfl, h⟩

/-- a closed set used when the losses are not determined: `bad` are excluded, the parts of the series resistance are
included as far as they can be found -/
def Closed (k : List Par) (bad : List Par) : Par → Prop
  | rTLI => rTLI ∈ k ∨ (SurfI k ∧ (qTLI ∈ k ∨ ID ∈ k ∨ OD ∈ k))
  | rTLO => rTLO ∈ k ∨ (SurfO k ∧ (qTLO ∈ k ∨ ID ∈ k ∨ OD ∈ k))
  | RsI => SurfI k
  | RsO => SurfO k
  | rhoI => rhoI ∈ k ∨ (Par.rho ∈ k ∧ rhoO ∉ k)
  | rhoO => rhoO ∈ k ∨ (Par.rho ∈ k ∧ rhoI ∉ k)
  | qTLI => qTLI ∈ k ∨ ID ∈ k ∨ OD ∈ k
  | qTLO => qTLO ∈ k ∨ ID ∈ k ∨ OD ∈ k
  | ID => ID ∈ k ∨ OD ∈ k
  | OD => ID ∈ k ∨ OD ∈ k
  | p => p ∉ bad

theorem closed_of_mem {k bad : List Par} {p : Par} (h : p ∈ k) (hb : p ∉ bad) : Closed k bad p := by
  cases p <;> simp only [Closed, SurfI, SurfO] <;> tauto

set_option maxHeartbeats 1000000 in
theorem closed_eqns1 {k : List Par} (h : ¬ Series k) :
    ∀ e ∈ EQNS, (∀ d ∈ e.deps, Closed k [rTL, rjwL, Zc, gamma, A, AdB] d) →
      Closed k [rTL, rjwL, Zc, gamma, A, AdB] e.kw := by
  intro e he
  unfold Series at h
  fin_cases he <;>
    simp only [eqn, List.mem_cons, List.not_mem_nil, Closed, SurfI, SurfO, reduceCtorEq,
      or_false, or_true, not_true_eq_false, not_false_eq_true, false_and, and_false, false_implies, implies_true,
      true_and, and_true, forall_eq_or_imp, forall_eq] at h ⊢ <;> tauto

set_option maxHeartbeats 1000000 in
theorem closed_eqns2 {k : List Par} (h : ¬ Series k) :
    ∀ e ∈ EQNS, (∀ d ∈ e.deps, Closed k [rTL, rjwL, gTL, gjwC, Zc, gamma, sigma, tand] d) →
      Closed k [rTL, rjwL, gTL, gjwC, Zc, gamma, sigma, tand] e.kw := by
  intro e he
  unfold Series at h
  fin_cases he <;>
    simp only [eqn, List.mem_cons, List.not_mem_nil, Closed, SurfI, SurfO, reduceCtorEq,
      or_false, or_true, not_true_eq_false, not_false_eq_true, false_and, and_false, false_implies, implies_true,
      true_and, and_true, forall_eq_or_imp, forall_eq] at h ⊢ <;> tauto

end PyRFtk.Resolver
