import Verif.ResolverWrong
import Verif.LinfunProps

/-!
# C57: a line treated as uniform is uniform

`kwset[kw]['ddx']` (resolveTLparams.py:287-294, 303-342, 366-372) tells whether a parameter depends on the position; `rfTRL` uses the
closed formula of a uniform line when neither `rjwL` nor `gjwC` is flagged (rfTRL.py:253-255).
-/

set_option linter.unusedSectionVars false

namespace PyRFtk.Resolver
open Par

/-! ## model -/

/-- `kwset[p]['ddx']` when the parameters were set as in the list (latest first); `base` are the flags of the supplied ones -/
def flags (base : Par → Bool) : List (Par × Src) → Par → Bool
  | [], p => base p
  | (q, .eqn e) :: rest, p => if p = q then e.deps.any (flags base rest) else flags base rest p
  | (q, .zero) :: rest, p => if p = q then false else flags base rest p
  | (q, .rho) :: rest, p => if p = q then flags base rest Par.rho else flags base rest p
  | (q, .input) :: rest, p => if p = q then base p else flags base rest p

/-- `kwset[p]['ddx']` of the finished object -/
def St.ddx (s : St) (base : Par → Bool) (p : Par) : Bool := flags base s.der p

/-- `rfTRL.constant` (rfTRL.py:253-255) -/
def St.constant (s : St) (base : Par → Bool) : Bool := !(s.ddx base rjwL || s.ddx base gjwC)

/-! ## the flags of a finished object -/

/-- the flags and the sources of the parameters fit together -/
structure FlagOK (base : Par → Bool) (s : St) : Prop where
  eqn : ∀ p e, s.src p = some (.eqn e) → s.ddx base p = e.deps.any (s.ddx base)
  zero : ∀ p, s.src p = some .zero → s.ddx base p = false
  rho : ∀ p, s.src p = some .rho → s.ddx base p = s.ddx base Par.rho
  input : ∀ p, s.src p = some .input → s.ddx base p = base p
  /-- what an equation waited for is known and does not wait for it -/
  deps : ∀ p e, s.src p = some (.eqn e) → ∀ d ∈ e.deps, s.known d = true
  acyclic : ∀ p e, s.src p = some (.eqn e) → ∀ d ∈ e.deps, ∀ e', s.src d = some (.eqn e') → p ∉ e'.deps

theorem ddx_apply_ne {base : Par → Bool} {s : St} {e : Eqn} {p : Par} (h : p ≠ e.kw) : (s.apply e).ddx base p = s.ddx base p := by
  simp only [St.ddx, St.apply, flags, if_neg h]

theorem ddx_apply_self {base : Par → Bool} {s : St} {e : Eqn} : (s.apply e).ddx base e.kw = e.deps.any (s.ddx base) := by
  simp only [St.ddx, St.apply, flags, if_true]
  rfl

theorem known_src {s : St} {p : Par} {x : Src} (h : s.src p = some x) : s.known p = true := by
  by_contra hc
  have := src_none_iff.2 (by simpa using hc)
  rw [this] at h; cases h

theorem rho_not_set : ∀ e ∈ EQNS, e.kw ≠ Par.rho := by decide

theorem flagOK_apply {base : Par → Bool} {s : St} (h : FlagOK base s) {e : Eqn} (he : e ∈ EQNS) (hk : s.known e.kw = false)
    (hd : ∀ d ∈ e.deps, s.known d = true) : FlagOK base (s.apply e) := by
  have hne : ∀ d, s.known d = true → d ≠ e.kw := by
    rintro d hd rfl
    rw [hk] at hd; cases hd
  have hany : ∀ l : List Par, (∀ d ∈ l, s.known d = true) → l.any ((s.apply e).ddx base) = l.any (s.ddx base) := by
    intro l hl
    induction l with
    | nil => rfl
    | cons d l ih =>
      rw [List.any_cons, List.any_cons, ih fun d hd => hl d (List.mem_cons_of_mem _ hd), ddx_apply_ne (hne d (hl d List.mem_cons_self))]
  have hold : ∀ {p x}, p ≠ e.kw → (s.apply e).src p = some x → s.src p = some x := by
    intro p x hp hs
    rwa [src_apply_ne hp] at hs
  have hself : ∀ {x}, (s.apply e).src e.kw = some x → x = .eqn e := by
    intro x hx
    rw [src_apply_self] at hx
    injection hx with hx; exact hx.symm
  refine ⟨?_, ?_, ?_, ?_, ?_, ?_⟩
  · intro p e' hs
    by_cases hp : p = e.kw
    · subst hp
      injection hself hs with h1
      subst h1
      rw [ddx_apply_self, hany _ hd]
    · have h1 := hold hp hs
      rw [ddx_apply_ne hp, h.eqn p e' h1, hany _ (h.deps p e' h1)]
  · intro p hs
    by_cases hp : p = e.kw
    · subst hp; cases hself hs
    · rw [ddx_apply_ne hp]; exact h.zero p (hold hp hs)
  · intro p hs
    by_cases hp : p = e.kw
    · subst hp; cases hself hs
    · rw [ddx_apply_ne hp, ddx_apply_ne (rho_not_set e he).symm]; exact h.rho p (hold hp hs)
  · intro p hs
    by_cases hp : p = e.kw
    · subst hp; cases hself hs
    · rw [ddx_apply_ne hp]; exact h.input p (hold hp hs)
  · intro p e' hs d hd'
    rw [known_apply]
    by_cases hp : p = e.kw
    · subst hp
      injection hself hs with h1
      subst h1
      exact Or.inr (hd d hd')
    · exact Or.inr (h.deps p e' (hold hp hs) d hd')
  · intro p e' hs d hd' e2 hs2
    have hdk : s.known d = true := by
      by_cases hp : p = e.kw
      · subst hp
        injection hself hs with h1
        subst h1
        exact hd d hd'
      · exact h.deps p e' (hold hp hs) d hd'
    have hs2' := hold (hne d hdk) hs2
    by_cases hp : p = e.kw
    · subst hp
      intro hc
      exact hne _ (h.deps d e2 hs2' _ hc) rfl
    · exact h.acyclic p e' (hold hp hs) d hd' e2 hs2'

theorem flags_rho {base : Par → Bool} : ∀ {l : List (Par × Src)}, (∀ p x, (p, x) ∈ l → x = .zero ∨ x = .rho) →
    (∀ p x, (p, x) ∈ l → p ≠ Par.rho) → flags base l Par.rho = base Par.rho
  | [], _, _ => rfl
  | (q, x) :: l, h, h' => by
    have hq : Par.rho ≠ q := fun hc => h' q x List.mem_cons_self hc.symm
    have ih := flags_rho (base := base) (l := l) (fun p x hm => h p x (List.mem_cons_of_mem _ hm)) (fun p x hm => h' p x (List.mem_cons_of_mem _ hm))
    rcases h q x List.mem_cons_self with rfl | rfl <;> simp only [flags, if_neg hq, ih]

theorem flags_simple {base : Par → Bool} {p : Par} : ∀ {l : List (Par × Src)}, (∀ p x, (p, x) ∈ l → x = .zero ∨ x = .rho) →
    (∀ p x, (p, x) ∈ l → p ≠ Par.rho) →
    match lastSet l p with
    | none => flags base l p = base p
    | some .zero => flags base l p = false
    | some .rho => flags base l p = base Par.rho
    | some _ => True
  | [], _, _ => rfl
  | (q, x) :: l, h, h' => by
    have hl := fun p x hm => h p x (List.mem_cons_of_mem _ hm)
    have hl' := fun p x hm => h' p x (List.mem_cons_of_mem _ hm)
    have ih := flags_simple (base := base) (p := p) (l := l) hl hl'
    by_cases hp : p = q
    · rcases h q x List.mem_cons_self with rfl | rfl
      · simp only [lastSet, if_pos hp, flags]
      · simp only [lastSet, if_pos hp, flags]
        exact flags_rho hl hl'
    · rcases h q x List.mem_cons_self with rfl | rfl <;> simp only [lastSet, if_neg hp, flags] <;> exact ih

theorem flagOK_start {base : Par → Bool} {fg : List (List Par × Par)} {k : List Par} : FlagOK base (start fg k) := by
  have hno : ∀ p e, (start fg k).src p ≠ some (.eqn e) := by
    intro p e hc
    rcases src_mem hc with h | h
    · cases h.1
    · rcases complement_src h with h | h <;> cases h
  have hall : ∀ p x, (p, x) ∈ complement k → x = .zero ∨ x = .rho := fun p x h => complement_src h
  have hall' : ∀ p x, (p, x) ∈ complement k → p ≠ Par.rho := by
    rintro p x h rfl
    simp only [complement, List.mem_append] at h
    rcases h with h | h
    · split at h <;> simp at h
    · split at h
      · rcases List.mem_append.1 h with h | h <;> split at h <;> simp at h
      · split at h <;> simp at h
  refine ⟨fun p e h => absurd h (hno p e), ?_, ?_, ?_, fun p e h => absurd h (hno p e), fun p e h => absurd h (hno p e)⟩
  · intro p hs
    rw [St.src] at hs
    have h := flags_simple (base := base) (p := p) (l := complement k) hall hall'
    change flags base (complement k) p = _
    cases hl : lastSet (complement k) p with
    | none => simp only [start, hl] at hs; by_cases hpk : p ∈ k <;> simp [hpk] at hs
    | some x =>
      simp only [start, hl, Option.some.injEq] at hs
      subst hs
      rw [hl] at h; exact h
  · intro p hs
    rw [St.src] at hs
    have h := flags_simple (base := base) (p := p) (l := complement k) hall hall'
    have hr := flags_rho (base := base) hall hall'
    change flags base (complement k) p = flags base (complement k) Par.rho
    cases hl : lastSet (complement k) p with
    | none => simp only [start, hl] at hs; by_cases hpk : p ∈ k <;> simp [hpk] at hs
    | some x =>
      simp only [start, hl, Option.some.injEq] at hs
      subst hs
      rw [hl] at h; rw [hr]; exact h
  · intro p hs
    rw [St.src] at hs
    have h := flags_simple (base := base) (p := p) (l := complement k) hall hall'
    change flags base (complement k) p = _
    cases hl : lastSet (complement k) p with
    | none => rw [hl] at h; exact h
    | some x =>
      simp only [start, hl, Option.some.injEq] at hs
      subst hs
      rcases hall _ _ (lastSet_mem hl) with h | h
      · cases h
      · cases h

theorem flagOK_ok {base : Par → Bool} {fg : List (List Par × Par)} {k : List Par} {s : St} (h : tlresolver fg k = .ok s) : FlagOK base s := by
  have hst := (tlresolver_ok h).2.1
  clear h
  induction hst with
  | refl => exact flagOK_start
  | step e _ h2 _ ih =>
    obtain ⟨h3, h4, h5, -⟩ := scan_use h2
    exact flagOK_apply ih h3 h4 h5

/-! ## values -/

theorem eqn_plain : ∀ e ∈ EQNS, e.kw ≠ rTL → e.kw ≠ rTLO → e.kw ≠ rTLI → e.reads = e.deps ∧ rTLO ∉ e.reads ∧ rTLI ∉ e.reads := by decide

theorem eqn_rTL : ∀ e ∈ EQNS, e.kw = rTL → e.reads = e.deps ∧ (rTLI ∈ e.deps ∧ rTLO ∈ e.deps ∨ rTLO ∉ e.reads ∧ rTLI ∉ e.reads) := by decide

theorem eqn_rTLI : ∀ e ∈ EQNS, e.kw = rTLI → e.reads = e.deps ∧ (RsI ∈ e.deps ∧ rTLO ∉ e.reads ∧ rTLI ∉ e.reads ∨ rTL ∈ e.deps ∧ rTLO ∈ e.deps) := by
  decide

theorem eqn_rTLO : ∀ e ∈ EQNS, e.kw = rTLO → (e.reads = e.deps ∧ rTLI ∈ e.deps ∧ rTLO ∉ e.reads) ∨
    (rTLO ∉ e.reads ∧ rTLI ∉ e.reads ∧ ∀ r ∈ e.reads, r ∈ e.deps ∨ r = RsI) := by decide

/-- the positions matter only through flagged parameters -/
theorem uniform_aux {N : Nature} {Zb : ℂ} {w : ℝ} {inp inp' : Par → ℂ} {base : Par → Bool} {fg : List (List Par × Par)} {k : List Par} {s : St}
    (h : tlresolver fg k = .ok s) (hin : ∀ p ∈ k, base p = false → inp p = inp' p) (hI : rTLI ∉ k) {p : Par} {z : ℂ}
    (hz : Ev N Zb w inp s p z) (hp : s.ddx base p = false) (hO : p = rTLO → s.ddx base RsI = false)
    (hII : p = rTLI → ∀ e, s.src rTLI = some (.eqn e) → RsI ∈ e.deps) : Ev N Zb w inp' s p z := by
  have hF : FlagOK base s := flagOK_ok h
  have hst := (tlresolver_ok h).2.1
  have hT : FromTable s := fromTable_steps hst fromTable_start
  have hinp : s.inp = k := (steps_inp hst).1
  have hdeps : ∀ {l : List Par}, l.any (s.ddx base) = false → ∀ d ∈ l, s.ddx base d = false := by
    intro l hl d hd
    rw [List.any_eq_false] at hl
    simpa using hl d hd
  induction hz with
  | @input p hs =>
    have hpk : p ∈ k := by
      rcases src_mem hs with h | h
      · rw [← hinp]; exact h.2
      · exfalso
        have : ∀ {a b : St}, Steps a b → (p, Src.input) ∉ a.der → (p, Src.input) ∉ b.der := by
          intro a b hab ha
          induction hab with
          | refl => exact ha
          | step e _ _ _ ih =>
            intro hc
            rcases List.mem_cons.1 hc with hc | hc
            · cases hc
            · exact ih hc
        refine this hst ?_ h
        intro hc
        rcases complement_src hc with h | h <;> cases h
    rw [hin p hpk (by rw [← hF.input p hs]; exact hp)]
    exact .input hs
  | zero hs => exact .zero hs
  | rho hs _ ih => exact .rho hs (ih (by rw [← hF.rho _ hs]; exact hp) (by intro h; cases h) (by intro h; cases h))
  | @eqn p e v hs hr ih =>
    obtain ⟨he, hkw⟩ := hT p e (src_eqn_mem hs)
    have hd := hdeps ((hF.eqn p e hs).symm.trans hp)
    refine .eqn v hs ?_
    -- the chosen source of `rTLI` cannot go through `p` again
    by_cases h1 : p = rTL
    · subst h1
      obtain ⟨e1, e2⟩ := eqn_rTL e he hkw
      rw [e1] at hr ih ⊢
      rcases e2 with ⟨e2, e3⟩ | ⟨e2, e3⟩
      · -- the source of rTLI
        have hk1 : s.known rTLI = true := hF.deps _ e hs _ e2
        have hsrc : ∃ e', s.src rTLI = some (.eqn e') ∧ RsI ∈ e'.deps := by
          cases hsI : s.src rTLI with
          | none => rw [src_none_iff] at hsI; rw [hsI] at hk1; cases hk1
          | some x =>
            cases x with
            | input =>
              exfalso
              rcases src_mem hsI with h | h
              · exact hI (hinp ▸ h.2)
              · have : ∀ {a b : St}, Steps a b → (rTLI, Src.input) ∉ a.der → (rTLI, Src.input) ∉ b.der := by
                  intro a b hab ha
                  induction hab with
                  | refl => exact ha
                  | step e _ _ _ ih =>
                    intro hc
                    rcases List.mem_cons.1 hc with hc | hc
                    · injection hc with _ h2; cases h2
                    · exact ih hc
                refine this hst ?_ h
                intro hc
                rcases complement_src hc with h | h <;> cases h
            | zero | rho =>
              exfalso
              rcases src_mem hsI with h | h
              · cases h.1
              · have : ∀ {a b : St}, Steps a b → ∀ x, (rTLI, x) ∈ b.der → (∃ e, x = .eqn e) ∨ (rTLI, x) ∈ a.der := by
                  intro a b hab
                  induction hab with
                  | refl => intro x hx; exact Or.inr hx
                  | step e _ _ _ ih =>
                    intro x hc
                    rcases List.mem_cons.1 hc with hc | hc
                    · injection hc with h1 h2; exact Or.inl ⟨e, h2⟩
                    · exact ih x hc
                rcases this hst _ h with ⟨e, h⟩ | h
                · cases h
                · rcases complement_kind h with h | h <;> simp at h
            | eqn e' =>
              refine ⟨e', rfl, ?_⟩
              obtain ⟨he', hkw'⟩ := hT _ e' (src_eqn_mem hsI)
              rcases (eqn_rTLI e' he' hkw').2 with h | h
              · exact h.1
              · exact absurd h.1 (hF.acyclic _ e hs _ e2 e' hsI)
        obtain ⟨e', hs', hRs⟩ := hsrc
        have hRsI : s.ddx base RsI = false := hdeps ((hF.eqn _ e' hs').symm.trans (hd _ e2)) _ hRs
        intro r hrm
        refine ih r hrm (hd r hrm) (fun _ => hRsI) ?_
        rintro rfl e'' he''
        rw [hs'] at he''
        injection he'' with he''; injection he'' with he''; subst he''
        exact hRs
      · intro r hrm
        exact ih r hrm (hd r hrm) (by rintro rfl; exact absurd (e1 ▸ hrm) e2) (by rintro rfl; exact absurd (e1 ▸ hrm) e3)
    by_cases h2 : p = rTLO
    · subst h2
      rcases eqn_rTLO e he hkw with ⟨e1, e2, e3⟩ | ⟨e1, e2, e3⟩
      · intro r hrm
        rw [e1] at hrm
        refine ih r (e1 ▸ hrm) (hd r hrm) (by rintro rfl; exact absurd (e1 ▸ hrm) e3) ?_
        rintro rfl e' he'
        obtain ⟨he1, hkw1⟩ := hT _ e' (src_eqn_mem he')
        rcases (eqn_rTLI e' he1 hkw1).2 with h | h
        · exact h.1
        · exact absurd h.2 (hF.acyclic _ e hs _ e2 e' he')
      · intro r hrm
        refine ih r hrm ?_ (by rintro rfl; exact absurd hrm e1) (by rintro rfl; exact absurd hrm e2)
        rcases e3 r hrm with h | rfl
        · exact hd r h
        · exact hO rfl
    by_cases h3 : p = rTLI
    · subst h3
      obtain ⟨e1, e2⟩ := eqn_rTLI e he hkw
      rcases e2 with ⟨-, e3, e4⟩ | ⟨e3, e4⟩
      · intro r hrm
        refine ih r hrm (hd r (e1 ▸ hrm)) (by rintro rfl; exact absurd hrm e3) (by rintro rfl; exact absurd hrm e4)
      · exfalso
        have := hII rfl e hs
        have hno : ∀ e ∈ EQNS, e.kw = rTLI → rTLO ∈ e.deps → RsI ∉ e.deps := by decide
        exact hno e he hkw e4 this
    · obtain ⟨e1, e2, e3⟩ := eqn_plain e he (hkw ▸ h1) (hkw ▸ h2) (hkw ▸ h3)
      intro r hrm
      exact ih r hrm (hd r (e1 ▸ hrm)) (by rintro rfl; exact absurd hrm e2) (by rintro rfl; exact absurd hrm e3)

open Linfun in
/-- **C57**: if `TLresolver` says that the line is uniform (`rfTRL.constant`), then its series impedance and shunt admittance per length are
the same everywhere: `val x p` is the value at `x` of the function the parameter `p` was supplied as, and the value `z` of `rjwL` or `gjwC`
at one position is the value at every other.  The one excluded description supplies the inner resistance `rTLI` directly. -/
theorem C57_uniform_partial {N : Nature} {Zb : ℂ} {w : ℝ} {fg : List (List Par × Par)} {k : List Par} {s : St} (h : tlresolver fg k = .ok s)
    {L : Option ℝ} {given : Par → Param ℝ ℂ} {g : Par → Fn ℝ ℂ} {ddw ddx : Par → Bool}
    (hlin : ∀ p ∈ k, linfunL L (given p) = .ok (g p, ddw p, ddx p))
    (hsig : ∀ p ∈ k, ∀ sig f, given p = .call sig f → ∀ n ∈ sig, n = "w" ∨ n = "x")
    {val : ℝ → Par → ℂ} (hval : ∀ x, ∀ p ∈ k, (g p).call w x = .ok (val x p)) (hI : rTLI ∉ k) (hc : s.constant ddx = true) (x x' : ℝ) :
    (∀ z, Ev N Zb w (val x) s rjwL z → Ev N Zb w (val x') s rjwL z) ∧ ∀ z, Ev N Zb w (val x) s gjwC z → Ev N Zb w (val x') s gjwC z := by
  have hin : ∀ p ∈ k, ddx p = false → val x p = val x' p := by
    intro p hp hd
    have h1 := (C56_flags (hlin p hp) (hsig p hp)).2 hd w x x'
    rw [hval x p hp, hval x' p hp] at h1
    injection h1
  unfold St.constant at hc
  simp only [Bool.not_eq_true', Bool.or_eq_false_iff] at hc
  exact ⟨fun z hz => uniform_aux h hin hI hz hc.1 (by intro h; cases h) (by intro h; cases h),
    fun z hz => uniform_aux h hin hI hz hc.2 (by intro h; cases h) (by intro h; cases h)⟩

/-- the flag of a supplied description -/
def ddxOf (k : List Par) (base : Par → Bool) : Option Bool :=
  match tlresolver [] k with
  | .ok s => some (s.constant base)
  | .error _ => none

/-- **C57, where it fails**: the inner resistance per length given directly, the inner surface resistance `RsI` varying along the line: the
outer conductor's resistance is computed with `RsI`, but flagged by `RsO`. The line is taken as uniform although its series impedance
follows `RsI`. -/
theorem C57_uniform_wrong {N : Nature} {Zb : ℂ} {w : ℝ} :
    ∃ s, tlresolver [] [rTLI, RsI, RsO, OD, LTL, CTL] = .ok s ∧ s.constant (fun p => p == RsI) = true ∧
      (∀ inp : Par → ℂ, Ev N Zb w inp s rjwL (inp rTLI + 1 / (Real.pi * inp OD) * inp RsI + Complex.I * w * inp LTL)) ∧
      ∀ inp : Par → ℂ, ∀ R : ℂ, inp OD ≠ 0 → R ≠ inp RsI → ∀ z z', Ev N Zb w inp s rjwL z → Ev N Zb w (upd inp RsI R) s rjwL z' → z ≠ z' := by
  obtain ⟨s, h, -⟩ := C40_returns (k := [rTLI, RsI, RsO, OD, LTL, CTL]) (by decide) (.inl (by decide))
  have hs := srcOf_ok h
  have hc : s.constant (fun p => p == RsI) = true := by
    have h1 : ddxOf [rTLI, RsI, RsO, OD, LTL, CTL] (fun p => p == RsI) = some true := by decide
    unfold ddxOf at h1
    rw [h] at h1
    simpa using h1
  have key : ∀ inp : Par → ℂ, Ev N Zb w inp s rjwL (inp rTLI + 1 / (Real.pi * inp OD) * inp RsI + Complex.I * w * inp LTL) := by
    intro inp
    have iI : Ev N Zb w inp s rTLI (inp rTLI) := .input ((hs _).trans (by decide))
    have iR : Ev N Zb w inp s RsI (inp RsI) := .input ((hs _).trans (by decide))
    have iD : Ev N Zb w inp s OD (inp OD) := .input ((hs _).trans (by decide))
    have iL : Ev N Zb w inp s LTL (inp LTL) := .input ((hs _).trans (by decide))
    have sq : s.src qTLO = some (.eqn (eqn 23 qTLO [OD])) := (hs _).trans (by decide)
    have so : s.src rTLO = some (.eqn ⟨21, rTLO, [RsO, qTLO], [qTLO, RsI]⟩) := (hs _).trans (by decide)
    have sr : s.src rTL = some (.eqn (eqn 17 rTL [rTLI, rTLO])) := (hs _).trans (by decide)
    have sz : s.src rjwL = some (.eqn (eqn 2 rjwL [rTL, LTL])) := (hs _).trans (by decide)
    have eq : Ev N Zb w inp s qTLO (1 / (Real.pi * inp OD)) := by
      have := Ev.eqn (N := N) (Zb := Zb) (w := w) (inp := inp) (s := s) inp sq (by simp [eqn, iD])
      exact this
    have eo : Ev N Zb w inp s rTLO (1 / (Real.pi * inp OD) * inp RsI) := by
      have := Ev.eqn (N := N) (Zb := Zb) (w := w) (inp := inp) (s := s) (upd inp qTLO (1 / (Real.pi * inp OD))) so (by
        intro r hr
        simp only [List.mem_cons, List.not_mem_nil, or_false] at hr
        rcases hr with rfl | rfl
        · simpa [upd] using eq
        · simpa [upd] using iR)
      simpa [value, upd] using this
    have er : Ev N Zb w inp s rTL (inp rTLI + 1 / (Real.pi * inp OD) * inp RsI) := by
      have := Ev.eqn (N := N) (Zb := Zb) (w := w) (inp := inp) (s := s) (upd inp rTLO (1 / (Real.pi * inp OD) * inp RsI)) sr (by
        intro r hr
        simp only [eqn, List.mem_cons, List.not_mem_nil, or_false] at hr
        rcases hr with rfl | rfl
        · simpa [upd] using iI
        · simpa [upd] using eo)
      simpa [value, upd, eqn] using this
    have := Ev.eqn (N := N) (Zb := Zb) (w := w) (inp := inp) (s := s) (upd inp rTL (inp rTLI + 1 / (Real.pi * inp OD) * inp RsI)) sz (by
      intro r hr
      simp only [eqn, List.mem_cons, List.not_mem_nil, or_false] at hr
      rcases hr with rfl | rfl
      · simpa [upd] using er
      · simpa [upd] using iL)
    simpa [value, upd, eqn] using this
  refine ⟨s, h, hc, key, ?_⟩
  intro inp R hD hR z z' hz hz' he
  have hT : FromTable s := fromTable_steps (tlresolver_ok h).2.1 fromTable_start
  have h1 := ev_unique hT hz (key inp)
  have h2 := ev_unique hT hz' (key (upd inp RsI R))
  rw [h1, h2] at he
  simp only [upd, if_true, reduceCtorEq, if_false] at he
  apply hR
  have hpi : (Real.pi : ℂ) ≠ 0 := by exact_mod_cast Real.pi_ne_zero
  have hne : (1 / (Real.pi * inp OD) : ℂ) ≠ 0 := one_div_ne_zero (mul_ne_zero hpi hD)
  have h3 : 1 / (Real.pi * inp OD) * (R - inp RsI) = 0 := by linear_combination -he
  rcases mul_eq_zero.1 h3 with h | h
  · exact absurd h hne
  · exact sub_eq_zero.1 h

open Linfun in
/-- a tapered and a uniform description in the scope of the theorem: `OD`, `ID` and a dielectric -/
theorem C57_witness : ∃ s, tlresolver [] [OD, ID, epsr] = .ok s ∧ s.constant (fun _ => false) = true ∧ s.constant (fun p => p == OD) = false ∧
    (linfunL (some (1 : ℝ)) (.num (1 : ℂ)) = .ok (.fn fun _ _ => .ok 1, false, false)) := by
  obtain ⟨s, h, -⟩ := C40_returns (k := [OD, ID, epsr]) (by decide) (.inr (by decide))
  refine ⟨s, h, ?_, ?_, rfl⟩
  · have h1 : ddxOf [OD, ID, epsr] (fun _ => false) = some true := by decide
    unfold ddxOf at h1
    rw [h] at h1
    simpa using h1
  · have h1 : ddxOf [OD, ID, epsr] (fun p => p == OD) = some false := by decide
    unfold ddxOf at h1
    rw [h] at h1
    simpa using h1

end PyRFtk.Resolver
