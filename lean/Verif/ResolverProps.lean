import Verif.Resolver

/-!
# The search of `TLresolver` is a closure (C40)
-/

namespace PyRFtk.Resolver
open Par

/-! ## Specification -/

/-- What can be derived from the parameters in `K` with the equations that are not forgotten: the least set that
contains `K` and, with the inputs of an equation, its output. -/
inductive Derivable (fg : List (List Par × Par)) (K : Par → Prop) : Par → Prop
  | base {p} : K p → Derivable fg K p
  | step (e : Eqn) : e ∈ EQNS → forgotten fg e = false → (∀ d ∈ e.deps, Derivable fg K d) → Derivable fg K e.kw

/-- the parameters known before the search: the supplied ones and the complements -/
def Given (kws : List Par) (p : Par) : Prop := p ∈ kws ∨ p ∈ (complement kws).map Prod.fst

/-! ## Basic facts -/

theorem known_iff (s : St) (p : Par) : s.known p = true ↔ p ∈ s.inp ∨ p ∈ s.der.map Prod.fst := by
  unfold St.known
  simp only [Bool.or_eq_true, List.contains_iff_mem, List.any_eq_true, beq_iff_eq, List.mem_map]

theorem known_apply (s : St) (e : Eqn) (p : Par) :
    (s.apply e).known p = true ↔ p = e.kw ∨ s.known p = true := by
  rw [known_iff, known_iff]
  simp only [St.apply, List.map_cons, List.mem_cons]
  tauto

/-- what a pass over the table can conclude -/
theorem scan_use {s : St} {l : List Eqn} {e : Eqn} (h : scan s l = .use e) :
    e ∈ l ∧ s.known e.kw = false ∧ (∀ d ∈ e.deps, s.known d = true) ∧ forgotten s.forget e = false := by
  induction l with
  | nil => cases h
  | cons a l ih =>
    unfold scan at h
    split at h
    · obtain ⟨h1, h2⟩ := ih h; exact ⟨List.mem_cons_of_mem _ h1, h2⟩
    · rename_i hf
      split at h
      · rename_i hk
        injection h with h; subst h
        simp only [Bool.and_eq_true, Bool.not_eq_true', List.all_eq_true] at hk
        simp only [Bool.or_eq_true, not_or, Bool.not_eq_true] at hf
        exact ⟨List.mem_cons_self, hk.1, hk.2, hf.2⟩
      · split at h
        · split at h
          · cases h
          · obtain ⟨h1, h2⟩ := ih h; exact ⟨List.mem_cons_of_mem _ h1, h2⟩
        · obtain ⟨h1, h2⟩ := ih h; exact ⟨List.mem_cons_of_mem _ h1, h2⟩

/-- nothing found: every equation is used, forgotten, already answered or not ready -/
theorem scan_nothing {s : St} {l : List Eqn} (h : scan s l = .nothing) : ∀ e ∈ l,
    s.used.any (fun u => u.isPerm e.sig) = true ∨ forgotten s.forget e = true ∨ s.known e.kw = true ∨
      ∃ d ∈ e.deps, s.known d = false := by
  induction l with
  | nil => simp
  | cons a l ih =>
    intro e he
    have key : scan s l = .nothing ∧ (s.used.any (fun u => u.isPerm a.sig) = true ∨ forgotten s.forget a = true ∨
        s.known a.kw = true ∨ ∃ d ∈ a.deps, s.known d = false) := by
      unfold scan at h
      split at h
      · rename_i hf; rw [Bool.or_eq_true] at hf; exact ⟨h, by tauto⟩
      · split at h
        · cases h
        · rename_i hk
          have : s.known a.kw = true ∨ ∃ d ∈ a.deps, s.known d = false := by
            simp only [Bool.and_eq_true, Bool.not_eq_true', List.all_eq_true, not_and, not_forall] at hk
            cases hkk : s.known a.kw with
            | true => exact .inl rfl
            | false =>
              obtain ⟨d, hd, hd'⟩ := hk hkk
              exact .inr ⟨d, hd, by simpa using hd'⟩
          split at h
          · split at h
            · cases h
            · exact ⟨h, by tauto⟩
          · exact ⟨h, by tauto⟩
    rcases List.mem_cons.1 he with rfl | he
    · exact key.2
    · exact ih key.1 e he

/-! ## The invariant of the search -/

/-- everything in `used` is about known parameters -/
def UsedKnown (s : St) : Prop := ∀ u ∈ s.used, ∀ p ∈ u, s.known p = true

theorem usedKnown_apply {s : St} {e : Eqn} (h : UsedKnown s) (hd : ∀ d ∈ e.deps, s.known d = true) :
    UsedKnown (s.apply e) := by
  intro u hu p hp
  rw [known_apply]
  rcases List.mem_cons.1 hu with rfl | hu
  · simp only [Eqn.sig, List.mem_append, List.mem_singleton] at hp
    rcases hp with hp | hp
    · exact .inr (hd p hp)
    · exact .inl hp
  · exact .inr (h u hu p hp)

/-- how the search relates to its starting point: supplied names and the `forget` table stay, and what was set since
came one equation at a time, each of a parameter that was unknown, from parameters that were known -/
inductive Steps : St → St → Prop
  | refl (s) : Steps s s
  | step {s t} (e : Eqn) : Steps s t → scan t EQNS = .use e → (t.known Zc && t.known gamma) = false →
      Steps s (t.apply e)

theorem steps_head {s t : St} {e : Eqn} (h : scan s EQNS = .use e) (hz : (s.known Zc && s.known gamma) = false)
    (h' : Steps (s.apply e) t) : Steps s t := by
  induction h' with
  | refl => exact .step e (.refl _) h hz
  | step e' _ h2 h3 ih => exact .step e' ih h2 h3

theorem steps_of_solveit {n : ℕ} {s t : St} (h : solveit n s = .ok t) :
    Steps s t ∧ ((t.known Zc && t.known gamma) = true ∨ scan t EQNS = .nothing) := by
  induction n generalizing s with
  | zero => cases h
  | succ n ih =>
    unfold solveit at h
    split at h
    · rename_i hz; injection h with h; subst h; exact ⟨.refl _, .inl hz⟩
    · rename_i hz
      cases hs : scan s EQNS with
      | use e =>
        rw [hs] at h
        obtain ⟨h1, h2⟩ := ih h
        exact ⟨steps_head hs (by simpa using hz) h1, h2⟩
      | nothing => rw [hs] at h; injection h with h; subst h; exact ⟨.refl _, .inr hs⟩
      | raised => rw [hs] at h; cases h

theorem steps_inp {s t : St} (h : Steps s t) : t.inp = s.inp ∧ t.forget = s.forget := by
  induction h with
  | refl => exact ⟨rfl, rfl⟩
  | step e _ _ _ ih => exact ih

theorem steps_known {s t : St} (h : Steps s t) {p : Par} (hp : s.known p = true) : t.known p = true := by
  induction h with
  | refl => exact hp
  | step e _ _ _ ih => exact (known_apply _ _ _).2 (.inr ih)

theorem steps_usedKnown {s t : St} (h : Steps s t) (hs : UsedKnown s) : UsedKnown t := by
  induction h with
  | refl => exact hs
  | step e _ h2 _ ih => exact usedKnown_apply ih (scan_use h2).2.2.1

theorem steps_derivable {s t : St} (h : Steps s t) {p : Par} (hp : t.known p = true) :
    Derivable s.forget (fun q => s.known q = true) p := by
  induction h generalizing p with
  | refl => exact .base hp
  | step e h1 h2 _ ih =>
    obtain ⟨he, _, hd, hf⟩ := scan_use h2
    rcases (known_apply _ _ _).1 hp with rfl | hp
    · exact .step e he (by rw [← (steps_inp h1).2]; exact hf) (fun d hd' => ih (hd d hd'))
    · exact ih hp

/-- at rest the known parameters are closed under the equations that are not forgotten -/
theorem closed_of_nothing {t : St} (hu : UsedKnown t) (h : scan t EQNS = .nothing) {K : Par → Prop}
    (hK : ∀ p, K p → t.known p = true) {p : Par} (hp : Derivable t.forget K p) : t.known p = true := by
  induction hp with
  | base hp => exact hK _ hp
  | step e he hf _ ih =>
    rcases scan_nothing h e he with h1 | h1 | h1 | ⟨d, hd, h1⟩
    · rw [List.any_eq_true] at h1
      obtain ⟨u, hu', h1⟩ := h1
      exact hu u hu' _ ((List.isPerm_iff.1 h1).mem_iff.2 (by simp [Eqn.sig]))
    · rw [hf] at h1; cases h1
    · exact h1
    · rw [ih d hd] at h1; cases h1

/-! ## Termination -/

/-- the parameters still unknown -/
def unknowns (s : St) : ℕ := Par.all.countP (fun p => !s.known p)

theorem unknowns_apply {s : St} {e : Eqn} (h : s.known e.kw = false) : unknowns (s.apply e) < unknowns s := by
  unfold unknowns
  have h1 : ∀ l : List Par, l.countP (fun p => !(s.apply e).known p) ≤ l.countP (fun p => !s.known p) ∧
      (e.kw ∈ l → l.countP (fun p => !(s.apply e).known p) < l.countP (fun p => !s.known p)) := by
    intro l
    induction l with
    | nil => simp
    | cons a l ih =>
      simp only [List.countP_cons, List.mem_cons]
      by_cases ha : a = e.kw
      · subst ha
        have h2 : (s.apply e).known e.kw = true := (known_apply _ _ _).2 (.inl rfl)
        simp only [h2, h, Bool.not_true, Bool.not_false, if_true, Bool.false_eq_true, if_false]
        exact ⟨by omega, fun _ => by omega⟩
      · have h2 : (s.apply e).known a = s.known a := by
          rw [Bool.eq_iff_iff, known_apply]; simp [ha]
        rw [h2]
        refine ⟨by omega, ?_⟩
        rintro (h3 | h3)
        · exact absurd h3.symm ha
        · have := ih.2 h3; omega
  exact (h1 _).2 (mem_all _)

theorem solveit_fuel {n m : ℕ} {s : St} (hn : unknowns s < n) (hm : unknowns s < m) : solveit n s = solveit m s := by
  induction n generalizing m s with
  | zero => omega
  | succ n ih =>
    obtain ⟨m, rfl⟩ : ∃ k, m = k + 1 := ⟨m - 1, by omega⟩
    unfold solveit
    split
    · rfl
    · cases hs : scan s EQNS with
      | use e =>
        have := unknowns_apply (scan_use hs).2.1
        exact ih (by omega) (by omega)
      | nothing => rfl
      | raised => rfl

theorem solveit_no_hang {n : ℕ} {s : St} (hn : unknowns s < n) : solveit n s ≠ .error .hang := by
  induction n generalizing s with
  | zero => omega
  | succ n ih =>
    unfold solveit
    split
    · simp
    · cases hs : scan s EQNS with
      | use e =>
        have := unknowns_apply (scan_use hs).2.1
        exact ih (by omega)
      | nothing => simp
      | raised => simp

theorem unknowns_lt (s : St) : unknowns s < fuel := by
  have : unknowns s ≤ Par.all.length := List.countP_le_length
  have h : Par.all.length < fuel := by decide
  omega

/-! ## C40 -/

/-- the constructor's outcome in terms of the search -/
theorem tlresolver_ok {fg : List (List Par × Par)} {kws : List Par} {s : St} (h : tlresolver fg kws = .ok s) :
    (∀ p ∈ kws, Par.accepted p = true) ∧ Steps (start fg kws) s ∧
      ((s.known Zc && s.known gamma) = true ∨ scan s EQNS = .nothing) := by
  unfold tlresolver at h
  split at h
  · rename_i ha
    cases hs : solveit fuel (start fg kws) with
    | error e => rw [hs] at h; cases h
    | ok t =>
      rw [hs] at h
      have : t = s := by
        simp only at h
        split at h
        · injection h
        · split at h
          · injection h
          · cases h
      subst this
      exact ⟨by simpa using ha, steps_of_solveit hs⟩
  · cases h

theorem given_iff {fg : List (List Par × Par)} {kws : List Par} {p : Par} :
    (start fg kws).known p = true ↔ Given kws p := known_iff _ _

/-- **C40, termination.** Whatever is supplied and whatever is to be forgotten, the constructor returns (or raises): the
number of passes its loop needs is bounded by the number of parameter names, and more passes change nothing. -/
theorem C40_terminates (fg : List (List Par × Par)) (kws : List Par) :
    tlresolver fg kws ≠ .error .hang ∧ ∀ n, fuel ≤ n → solveit n (start fg kws) = solveit fuel (start fg kws) := by
  constructor
  · unfold tlresolver
    split
    · have := solveit_no_hang (unknowns_lt (start fg kws))
      cases hs : solveit fuel (start fg kws) with
      | error e => intro h; injection h with h; subst h; exact this hs
      | ok t =>
        simp only
        split
        · simp
        · split <;> simp
    · simp
  · intro n hn
    have := unknowns_lt (start fg kws)
    exact solveit_fuel (by omega) this

/-- **C40, success.** When the constructor returns, the object has the characteristic impedance and the propagation
constant exactly if both can be derived, by the equations that are not forgotten, from the supplied parameters and the
complements. -/
theorem C40_success_iff {fg : List (List Par × Par)} {kws : List Par} {s : St} (h : tlresolver fg kws = .ok s) :
    (s.known Zc = true ∧ s.known gamma = true) ↔
      (Derivable fg (Given kws) Zc ∧ Derivable fg (Given kws) gamma) := by
  obtain ⟨_, h1, h2⟩ := tlresolver_ok h
  have hK : ∀ p, Derivable fg (fun q => (start fg kws).known q = true) p ↔ Derivable fg (Given kws) p := by
    intro p
    have : (fun q => (start fg kws).known q = true) = Given kws := by
      funext q; exact propext given_iff
    rw [this]
  constructor
  · rintro ⟨hz, hg⟩
    exact ⟨(hK _).1 (steps_derivable h1 hz), (hK _).1 (steps_derivable h1 hg)⟩
  · rintro ⟨hz, hg⟩
    rcases h2 with h2 | h2
    · simpa using h2
    · have hu : UsedKnown s := steps_usedKnown h1 (by intro u hu; cases hu)
      have hb : ∀ p, Given kws p → s.known p = true := fun p hp => steps_known h1 (given_iff.2 hp)
      rw [← show s.forget = fg from (steps_inp h1).2] at hz hg
      exact ⟨closed_of_nothing hu h2 hb hz, closed_of_nothing hu h2 hb hg⟩

/-- **C40, only derivable things are set.** -/
theorem C40_known_derivable {fg : List (List Par × Par)} {kws : List Par} {s : St} (h : tlresolver fg kws = .ok s)
    {p : Par} (hp : s.known p = true) : Derivable fg (Given kws) p := by
  have h1 := steps_derivable (tlresolver_ok h).2.1 hp
  have : (fun q => (start fg kws).known q = true) = Given kws := by
    funext q; exact propext given_iff
  rwa [this] at h1

theorem steps_der {s t : St} (h : Steps s t) : ∃ l : List (Par × Src), t.der = l ++ s.der ∧
    ∀ l1 p x l2, l = l1 ++ (p, x) :: l2 → ∃ e, x = .eqn e ∧ e ∈ EQNS ∧ e.kw = p ∧ forgotten s.forget e = false ∧
      (p ∉ s.inp ∧ p ∉ (l2 ++ s.der).map Prod.fst) ∧
      ∀ d ∈ e.deps, d ∈ s.inp ∨ d ∈ (l2 ++ s.der).map Prod.fst := by
  induction h with
  | refl => exact ⟨[], rfl, by simp⟩
  | step e h1 h2 hz ih =>
    rename_i t
    obtain ⟨l, hl, ih⟩ := ih
    refine ⟨(e.kw, .eqn e) :: l, by simp [St.apply, hl], ?_⟩
    intro l1 p x l2 hh
    cases l1 with
    | cons a l1 =>
      simp only [List.cons_append, List.cons.injEq] at hh
      exact ih l1 p x l2 hh.2
    | nil =>
      simp only [List.nil_append, List.cons.injEq, Prod.mk.injEq] at hh
      obtain ⟨⟨rfl, rfl⟩, rfl⟩ := hh
      obtain ⟨he, hk, hd, hf⟩ := scan_use h2
      have hi := steps_inp h1
      refine ⟨e, rfl, he, rfl, by rw [← hi.2]; exact hf, ?_, ?_⟩
      · have : ¬ t.known e.kw = true := by rw [hk]; simp
        rw [known_iff, hl, hi.1] at this
        exact not_or.1 this
      · intro d hd'
        have := hd d hd'
        rwa [known_iff, hl, hi.1] at this

/-- **C40, each rule once, after its inputs.** What the search sets, it sets by an equation of the table that is not
forgotten, when the parameter had no function yet and every parameter the equation waits for had been supplied or
set earlier. (`l` lists what the search set, latest first.) -/
theorem C40_inputs_first {fg : List (List Par × Par)} {kws : List Par} {s : St} (h : tlresolver fg kws = .ok s) :
    ∃ l : List (Par × Src), s.der = l ++ complement kws ∧
    ∀ later p x earlier, l = later ++ (p, x) :: earlier →
      ∃ e, x = .eqn e ∧ e ∈ EQNS ∧ e.kw = p ∧ forgotten fg e = false ∧
      (p ∉ kws ∧ p ∉ (earlier ++ complement kws).map Prod.fst) ∧
      ∀ d ∈ e.deps, d ∈ kws ∨ d ∈ (earlier ++ complement kws).map Prod.fst :=
  steps_der (tlresolver_ok h).2.1

theorem lastSet_none {l : List (Par × Src)} {p : Par} : lastSet l p = none ↔ p ∉ l.map Prod.fst := by
  induction l with
  | nil => simp [lastSet]
  | cons a l ih =>
    obtain ⟨q, x⟩ := a
    unfold lastSet
    split
    · rename_i hq; simp [hq]
    · rename_i hq; simp only [ih, List.map_cons, List.mem_cons, not_or]; tauto

theorem lastSet_append {l m : List (Par × Src)} {p : Par} (h : p ∉ l.map Prod.fst) :
    lastSet (l ++ m) p = lastSet m p := by
  induction l with
  | nil => rfl
  | cons a l ih =>
    obtain ⟨q, x⟩ := a
    simp only [List.map_cons, List.mem_cons, not_or] at h
    simp only [List.cons_append, lastSet, if_neg h.1]
    exact ih h.2

/-- what the search sets never hides something that was there at the start -/
theorem src_of_given {fg : List (List Par × Par)} {kws : List Par} {s : St} (h : tlresolver fg kws = .ok s)
    {p : Par} (hp : Given kws p) : s.src p = (start fg kws).src p := by
  obtain ⟨l, hl, hh⟩ := steps_der (tlresolver_ok h).2.1
  have hn : p ∉ l.map Prod.fst := by
    intro hm
    obtain ⟨⟨q, x⟩, hq, rfl⟩ := List.mem_map.1 hm
    obtain ⟨l1, l2, rfl⟩ := List.append_of_mem hq
    obtain ⟨e, _, _, _, _, ⟨h1, h2⟩, _⟩ := hh l1 q x l2 rfl
    rcases hp with hp | hp
    · exact h1 hp
    · exact h2 (by rw [List.map_append, List.mem_append]; exact .inr hp)
  unfold St.src
  rw [hl, lastSet_append hn, (steps_inp (tlresolver_ok h).2.1).1]

theorem complement_given {kws : List Par} {p : Par} (hp : p ∈ (complement kws).map Prod.fst) (hk : p ∈ kws) :
    p = gTL ∧ avail kws medium = false := by
  unfold complement at hp
  simp only [List.map_append, List.mem_append] at hp
  rcases hp with hp | hp
  · split at hp
    · rename_i hc
      simp only [Bool.and_eq_true, Bool.not_eq_true', avail, List.any_eq_false, List.contains_iff_mem] at hc
      simp only [List.map_cons, List.map_nil, List.mem_cons, List.not_mem_nil, or_false] at hp
      rcases hp with rfl | rfl
      · exact absurd hk (hc.2 _ (by decide))
      · exact absurd hk (hc.2 _ (by decide))
    · simp at hp
  · split at hp
    · rw [List.map_append, List.mem_append] at hp
      rcases hp with hp | hp
      · split at hp
        · rename_i hc
          simp only [List.map_cons, List.map_nil, List.mem_cons, List.not_mem_nil, or_false] at hp
          exact ⟨hp, by simpa using hc⟩
        · simp at hp
      · split at hp
        · rename_i hc
          simp only [List.map_cons, List.map_nil, List.mem_cons, List.not_mem_nil, or_false] at hp
          subst hp
          simp only [Bool.not_eq_true', avail, List.any_eq_false, List.contains_iff_mem] at hc
          exact absurd hk (hc _ (by decide))
        · simp at hp
    · split at hp
      · rename_i hc
        simp only [List.map_cons, List.map_nil, List.mem_cons, List.not_mem_nil, or_false] at hp
        refine ⟨hp, ?_⟩
        simp only [Bool.not_eq_true', avail, List.any_eq_false, List.contains_iff_mem] at hc ⊢
        exact fun q hq => hc q (List.mem_append_right _ hq)
      · simp at hp

/-- **C40, supplied parameters are kept** — partial: except `gTL`.  A supplied parameter keeps the function made from
its argument, whatever else is supplied, if it is not `gTL`, or if one of `sigma`, `tand` is supplied with it.
Missing: `gTL`, see `C40_gTL_overwritten`. -/
theorem C40_supplied_kept_partial {fg : List (List Par × Par)} {kws : List Par} {s : St}
    (h : tlresolver fg kws = .ok s) {p : Par} (hp : p ∈ kws) (hg : p ≠ gTL ∨ sigma ∈ kws ∨ tand ∈ kws) :
    s.src p = some .input := by
  rw [src_of_given h (.inl hp)]
  have hn : p ∉ (complement kws).map Prod.fst := by
    intro hc
    obtain ⟨rfl, ha⟩ := complement_given hc hp
    simp only [avail, List.any_eq_false, List.contains_iff_mem] at ha
    rcases hg with hg | hg | hg
    · exact hg rfl
    · exact ha _ (by decide) hg
    · exact ha _ (by decide) hg
  unfold St.src
  have : lastSet (start fg kws).der p = none := lastSet_none.2 hn
  rw [this]
  simp only [start, hp, if_true]

/-- **C40 fails for `gTL`.** A shunt conductance supplied without `sigma` or `tand` (and without an attenuation) is
silently replaced by the constant zero: the test that decides whether anything is known about the medium losses does
not look at `gTL` itself (resolveTLparams.py:312). -/
theorem C40_gTL_overwritten {fg : List (List Par × Par)} {kws : List Par} {s : St} (h : tlresolver fg kws = .ok s)
    (_hg : gTL ∈ kws) (hm : sigma ∉ kws ∧ tand ∉ kws) (ha : A ∉ kws ∧ AdB ∉ kws) : s.src gTL = some .zero := by
  have h1 : avail kws medium = false := by
    simp only [avail, List.any_eq_false, List.contains_iff_mem, medium]
    simp [hm.1, hm.2]
  have h2 : avail kws [A, AdB] = false := by
    simp only [avail, List.any_eq_false, List.contains_iff_mem]
    simp [ha.1, ha.2]
  have h3 : lastSet (complement kws) gTL = some .zero := by
    unfold complement
    rw [h1, h2]
    split <;> simp [lastSet]
  have h4 : Given kws gTL := by
    right
    by_contra hc
    rw [lastSet_none.2 hc] at h3; cases h3
  rw [src_of_given h h4]
  unfold St.src
  have : (start fg kws).der = complement kws := rfl
  rw [this, h3]

end PyRFtk.Resolver
