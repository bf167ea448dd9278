import Verif.CircuitEmbed

/-!
# C25: stale results
-/

set_option linter.unusedSectionVars false

namespace PyRFtk.Circuit

section
variable {K O F Fl : Type*} [Field K] [DecidableEq F] [DecidableEq Fl]
variable {ops : ObjOps K O F Fl} {beh : O → F → K → Fl → Except Err (SMat K)} {nan zb : K} {names : List Node}
variable {net : Net K} {bh : Behave K F Fl} {s s' s'' : St K O F Fl} {ph : Phase}

/-- **C25 (fresh).** Whatever the history — evaluations, new loads, changed loads, replaced objects in any order — if the
circuit holds no matrix for this frequency and these flags, the matrix `getS` returns is that of the network as it is now.
With `C20_getS_sound` (which needs no such condition but excludes histories whose last change was a changed load) this
covers every history; what is left is `C25_reterminate_stale`. -/
theorem C25_fresh [CharZero K] (hlaw : Lawful ops beh) (h : Built ops beh nan zb names net bh s ph) {f : F} {fl : Fl}
    {S : SMat K} (hmiss : s.S = none ∨ s.f ≠ some f ∨ s.flags ≠ some fl) (hs : getS ops s f none fl = (s', .ok S)) :
    (∃ Sof, Given net bh f zb fl Sof) ∧
    ∀ Sof, Given net bh f zb fl Sof → IsScattering (net.Laws zb Sof) net.nodes s'.ports S := by
  have h1 := Built.eval h hs
  have h2 : afterEval ph s f fl (.ok S) = .evaluated := by
    unfold afterEval; rw [if_neg]; rintro ⟨_, hc⟩; exact hc ⟨hmiss, S, rfl⟩
  rw [h2] at h1
  have e1 : s'.S = some S ∧ s'.f = some f ∧ s'.flags = some fl := by
    have hs1 : get1S ops s f fl = (s', .ok S) := by
      unfold getS at hs
      cases hg : get1S ops s f fl with
      | mk s1 r1 =>
        rw [hg] at hs
        cases r1 with
        | error e => simp at hs
        | ok M => simp only [Prod.mk.injEq, Except.ok.injEq] at hs; rw [hs.1, hs.2]
    rcases get1S_eq (ops := ops) s f fl with ⟨M, e1, e2, e3, e4⟩ | ⟨_, e2⟩
    · exfalso
      rcases hmiss with g | g | g
      · rw [e1] at g; cases g
      · exact g e2
      · exact g e3
    · rw [e2] at hs1
      obtain ⟨_, q2, _⟩ := recompute_spec hlaw (h.inv hlaw) f fl hs1
      obtain ⟨a1, a2, a3, _⟩ := q2 S rfl
      exact ⟨a1, a2, a3⟩
  refine C20_getS_sound hlaw h1 (by decide) (s' := s') (f := f) (fl := fl) ?_
  unfold getS get1S
  rw [e1.1]
  simp only [e1.2.1, e1.2.2, and_self, if_true]

/-- **C25 (changes seen).** A load on a new port, and a replaced object, discard the stored matrix: whatever was evaluated
before, the next `getS` computes. -/
theorem C25_changes_discard [CharZero K] (hlaw : Lawful ops beh) (h : Built ops beh nan zb names net bh s ph) :
    (∀ p args, p ∉ net.loads.map Prod.fst → terminate s p args = (s', .ok ()) → s'.S = none) ∧
    (∀ name obj spec relpos, addblock ops nan s name obj spec relpos = (s', .ok ()) → s'.S = none) ∧
    (∀ ps, connect ops s ps = (s', .ok ()) → s'.S = none) ∧
    (∀ int ext, deembed s int ext = (s', .ok ()) → s'.S = none) := by
  refine ⟨fun p args hp hs => ?_, fun name obj spec relpos hs => ?_, fun ps hs => (connect_frame hs).2.2.2,
    fun int ext hs => (deembed_frame hs).2.2⟩
  · obtain ⟨-, -, g3⟩ := terminate_frame hs
    rcases g3 rfl with h1 | ⟨h1, h2, -⟩
    · exact h1
    · exfalso
      apply hp
      rw [(h.inv hlaw).rep.rep.loads_keys]
      by_contra h3
      rw [← dictGet_none] at h3
      have h4 : dictGet p s.T = none := h3
      rw [h4] at h2; cases h2
  · unfold addblock at hs
    simp only at hs
    cases hf : s.blocks.find? (fun b => b.name = name) with
    | some b =>
      rw [hf] at hs
      simp only at hs
      split at hs
      · simp at hs
      · simp only [Prod.mk.injEq, and_true] at hs; rw [← hs]
    | none =>
      rw [hf] at hs
      simp only at hs
      cases hr : resolvePorts ops obj spec with
      | error e => rw [hr] at hs; simp at hs
      | ok ports => rw [hr] at hs; simp only [Prod.mk.injEq, and_true] at hs; rw [← hs]

/-- **C25 (violation, general form).** After an evaluation, changing the load of a port that already has one is not seen
by `getS` at the same frequency: for *every* circuit, *every* loaded port and *every* new load, the old matrix is
returned. -/
theorem C25_reterminate_stale [CharZero K] (hlaw : Lawful ops beh) (h : Built ops beh nan zb names net bh s ph) {f : F} {fl : Fl}
    {M : SMat K} (hs : getS ops s f none fl = (s', .ok M)) {p : Node} (hp : p ∈ net.loads.map Prod.fst) {args : TermArgs K}
    (ht : terminate s' p args = (s'', .ok ())) : getS ops s'' f none fl = (s'', .ok M) := by
  have h1 := Built.eval h hs
  have hi := h1.inv hlaw
  have hT : (dictGet p s'.T).isSome := by
    have h2 : p ∈ s'.T.map Prod.fst := by
      have := hi.rep.rep.loads_keys
      rw [this] at hp; exact hp
    cases hd : dictGet p s'.T with
    | some v => rfl
    | none => exact absurd h2 (dictGet_none.1 hd)
  have e1 : s'.S = some M ∧ s'.f = some f ∧ s'.flags = some fl := by
    have hs1 : get1S ops s f fl = (s', .ok M) := by
      unfold getS at hs
      cases hg : get1S ops s f fl with
      | mk s1 r1 =>
        rw [hg] at hs
        cases r1 with
        | error e => simp at hs
        | ok M => simp only [Prod.mk.injEq, Except.ok.injEq] at hs; rw [hs.1, hs.2]
    rcases get1S_eq (ops := ops) s f fl with ⟨M', e1, e2, e3, e4⟩ | ⟨_, e2⟩
    · rw [e4] at hs1
      simp only [Prod.mk.injEq, Except.ok.injEq] at hs1
      rw [← hs1.1, ← hs1.2]; exact ⟨e1, e2, e3⟩
    · rw [e2] at hs1
      obtain ⟨_, q2, _⟩ := recompute_spec hlaw (h.inv hlaw) f fl hs1
      obtain ⟨a1, a2, a3, _⟩ := q2 M rfl
      exact ⟨a1, a2, a3⟩
  have e2 : s''.S = s'.S ∧ s''.f = s'.f ∧ s''.flags = s'.flags := by
    unfold terminate at ht
    cases hr : termRho s'.zbase args with
    | error e => rw [hr] at ht; simp at ht
    | ok rho =>
      cases hd : dictGet p s'.T with
      | none => rw [hd] at hT; cases hT
      | some v =>
        rw [hr] at ht
        simp only [hd, Prod.mk.injEq, and_true] at ht
        rw [← ht]; exact ⟨rfl, rfl, rfl⟩
  unfold getS get1S
  rw [e2.1, e1.1]
  simp only [e2.2.1, e2.2.2, e1.2.1, e1.2.2, and_self, if_true]

end

/-! ## the returned matrix is then wrong -/

namespace Ex

/-- the example network with the load changed to 50 -/
def net' : Net ℚ := net.load (.blk "B" "2") (.Z 50)

theorem laws_iff' (w : Wave → ℚ) : net'.Laws 50 Sof w ↔
    (w (.out, .blk "A" "1") = 1/2 * w (.inn, .blk "A" "2") ∧
     w (.out, .blk "A" "2") = 1/2 * w (.inn, .blk "A" "1") ∧
     w (.out, .blk "B" "1") = 1/3 * w (.inn, .blk "B" "1") + 2/3 * w (.inn, .blk "B" "2") ∧
     w (.out, .blk "B" "2") = 2/3 * w (.inn, .blk "B" "1") - 1/3 * w (.inn, .blk "B" "2")) ∧
    w (.inn, .blk "A" "2") = w (.out, .blk "B" "1") ∧ w (.inn, .blk "B" "1") = w (.out, .blk "A" "2") ∧
    w (.inn, .blk "B" "2") = 0 := by
  have hA : BlockLaw (Sof "A") "A" ["1", "2"] w ↔ w (.out, .blk "A" "1") = 1/2 * w (.inn, .blk "A" "2") ∧
     w (.out, .blk "A" "2") = 1/2 * w (.inn, .blk "A" "1") := by
    simp only [BlockLaw, List.length_cons, List.length_nil]
    rw [Fin.forall_fin_two]
    simp [SMat.at, Sof, mA, Fin.sum_univ_two]
  have hB : BlockLaw (Sof "B") "B" ["1", "2"] w ↔
     w (.out, .blk "B" "1") = 1/3 * w (.inn, .blk "B" "1") + 2/3 * w (.inn, .blk "B" "2") ∧
     w (.out, .blk "B" "2") = 2/3 * w (.inn, .blk "B" "1") + -1/3 * w (.inn, .blk "B" "2") := by
    simp only [BlockLaw, List.length_cons, List.length_nil]
    rw [Fin.forall_fin_two]
    simp [SMat.at, Sof, mB, Fin.sum_univ_two]
  have hn : net'.loads = [(.blk "B" "2", .Z 50)] := by simp [net', Net.load, net, dictSet]
  simp only [Net.Laws, Net.CoreLaws, hn]
  simp only [net', Net.load, net, List.forall_mem_cons, List.not_mem_nil, false_implies, implies_true, and_true,
    hA, hB, pair_law, Load.Law]
  constructor
  · rintro ⟨⟨⟨a, b⟩, c, d⟩, h, e6⟩
    refine ⟨⟨a, b, c, by linarith⟩, h.1, h.2, ?_⟩; linarith
  · rintro ⟨⟨a, b, c, d⟩, e1, e2, e3⟩
    refine ⟨⟨⟨a, b⟩, c, by linarith⟩, ⟨e1, e2⟩, by linarith⟩

/-- **C25 (violation, witness).** In the example circuit: evaluate, change the load of `B.2` from 100 to 50 Ohm (accepted),
evaluate at the same frequency.  The matrix returned is not the scattering matrix of the network with the new load
(`7/60` is returned, `1/12` would be right), although the history is one of the supported ones. -/
theorem C25_stale_witness : ∃ (t t' : E) (ph : Phase) (M : SMat ℚ), Built o Imm.beh 0 50 [] net' bh t ph ∧
    getS o t () none () = (t', .ok M) ∧ Given net' bh () 50 () Sof ∧
    Solvable (net'.Laws 50 Sof) net'.nodes net'.free ∧
    ¬ IsScattering (net'.Laws 50 Sof) net'.nodes t'.ports M ∧ M.at 0 0 = 7/60 ∧
    ∀ S, IsScattering (net'.Laws 50 Sof) net'.nodes t'.ports S → S.at 0 0 = 1/12 := by
  have hl := imm_lawful ℚ Unit Unit
  obtain ⟨s', M, hs⟩ := (C20_getS_complete hl built (by decide) given (by decide) (Or.inl names)).2 solvable
  have hb1 := Built.eval built hs
  have hM := (C20_getS_sound hl built (by decide) hs).2 Sof given
  have hi1 := hb1.inv hl
  have hports : s'.ports = [.blk "A" "1"] := by
    have h2 := hi1.rep.ports_perm
    rw [free] at h2
    exact List.perm_singleton.1 h2
  have hlast : M.at 0 0 = 7/60 := by
    obtain ⟨w, h1, h2⟩ := hM.exists_sol fun _ => 1
    have h3 := hM.out w h1 ⟨0, by simp [hports]⟩
    rw [laws_iff] at h1
    obtain ⟨⟨a, b, c, e⟩, e1, e2, e3⟩ := h1
    have h4 := h2 (.blk "A" "1") (by simp [hports])
    have h5 : ∑ j : Fin s'.ports.length, M.at 0 j * w (.inn, s'.ports[j]) = M.at 0 0 * w (.inn, .blk "A" "1") := by
      have : ∀ (l : List Node), l = [.blk "A" "1"] → ∑ j : Fin l.length, M.at 0 j * w (.inn, l[j]) =
          M.at 0 0 * w (.inn, .blk "A" "1") := by
        rintro l rfl; simp
      exact this _ hports
    have h6 : w (.out, .blk "A" "1") = M.at 0 0 * w (.inn, .blk "A" "1") := by
      rw [← h5, ← h3]; simp [hports]
    rw [h4] at h6
    linarith
  -- the accepted call
  have hrho : termRho s'.zbase (.Z (50 : ℚ)) = .ok 0 := by
    have h3 : s'.zbase = 50 := hi1.zb
    simp only [termRho, h3]; norm_num
  have hT : ∃ v, dictGet (.blk "B" "2") s'.T = some v := by
    cases hd : dictGet (Node.blk "B" "2") s'.T with
    | some v => exact ⟨v, rfl⟩
    | none =>
      have h4 := hi1.rep.rep.loads_keys
      exact absurd (show Node.blk "B" "2" ∈ s'.T.map Prod.fst by
        have : s'.T.map Prod.fst = net.loads.map Prod.fst := h4.symm
        rw [this]; decide) (dictGet_none.1 hd)
  obtain ⟨v, hv⟩ := hT
  have ht : ∃ t, terminate s' (.blk "B" "2") (.Z 50) = (t, .ok ()) := by
    unfold terminate
    rw [hrho]
    simp only [hv]
    exact ⟨_, rfl⟩
  obtain ⟨t, ht⟩ := ht
  have hb2 := Built.terminate hb1 (l := .Z 50) rfl ht
  have hg := C25_reterminate_stale hl built hs (p := .blk "B" "2") (by decide) ht
  have hports2 : t.ports = [.blk "A" "1"] := by
    have h2 := (hb2.inv hl).rep.ports_perm
    have h3 : (net.load (.blk "B" "2") (.Z 50)).free = [.blk "A" "1"] := by decide
    rw [h3] at h2
    exact List.perm_singleton.1 h2
  have hright : ∀ S, IsScattering (net'.Laws 50 Sof) net'.nodes t.ports S → S.at 0 0 = 1/12 := by
    intro S hS
    obtain ⟨w, h1, h2⟩ := hS.exists_sol fun _ => 1
    have h3 := hS.out w h1 ⟨0, by simp [hports2]⟩
    rw [laws_iff'] at h1
    obtain ⟨⟨a, b, c, e⟩, e1, e2, e3⟩ := h1
    have h4 := h2 (.blk "A" "1") (by simp [hports2])
    have h5 : ∀ (l : List Node), l = [.blk "A" "1"] → ∑ j : Fin l.length, S.at 0 j * w (.inn, l[j]) =
          S.at 0 0 * w (.inn, .blk "A" "1") := by
        rintro l rfl; simp
    have h6 : w (.out, .blk "A" "1") = S.at 0 0 * w (.inn, .blk "A" "1") := by
      rw [← h5 _ hports2, ← h3]; simp [hports2]
    rw [h4] at h6
    linarith
  refine ⟨t, t, _, M, hb2, hg, given, ?_, ?_, hlast, hright⟩
  · have h3 : net'.free = [.blk "A" "1"] := by decide
    rw [h3]
    constructor
    · intro a
      set α := a (.blk "A" "1") with hα
      refine ⟨fun x =>
        if x = (.inn, .blk "A" "1") then α
        else if x = (.out, .blk "A" "2") ∨ x = (.inn, .blk "B" "1") then α / 2
        else if x = (.out, .blk "B" "2") then 2/3 * (α / 2)
        else if x = (.out, .blk "B" "1") ∨ x = (.inn, .blk "A" "2") then 1/3 * (α / 2)
        else if x = (.out, .blk "A" "1") then 1/2 * (1/3 * (α / 2)) else 0, ?_, ?_⟩
      · rw [laws_iff']; simp; ring
      · simp [hα]
    · intro w w' h h' hi n hn d
      rw [laws_iff'] at h h'
      have hi := hi (.blk "A" "1") (by simp)
      obtain ⟨⟨a, b, c, e⟩, e1, e2, e3⟩ := h
      obtain ⟨⟨a', b', c', e'⟩, e1', e2', e3'⟩ := h'
      simp only [net', Net.load, net, List.mem_cons, List.not_mem_nil, or_false] at hn
      rcases hn with rfl | rfl | rfl | rfl <;> cases d <;> linarith
  · intro hS
    have := hright M hS
    rw [hlast] at this
    norm_num at this

end Ex
end PyRFtk.Circuit
