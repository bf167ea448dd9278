import Verif.CircuitBuilt

/-!
# The invariant holds in every reachable state (proof infrastructure)
-/

set_option linter.unusedSectionVars false

namespace PyRFtk.Circuit

section
variable {K O F Fl : Type*} [Field K] [DecidableEq F] [DecidableEq Fl]
variable {ops : ObjOps K O F Fl} {beh : O → F → K → Fl → Except Err (SMat K)} {nan zb : K} {names : List Node}
variable {net : Net K} {bh : Behave K F Fl} {s s' : St K O F Fl} {ph : Phase}

theorem terminate_E {p : Node} {args : TermArgs K} (h : terminate s p args = (s', .ok ())) (hE : s.E = []) : s'.E = [] := by
  unfold terminate at h
  simp only at h
  cases h1 : termRho s.zbase args with
  | error e => simp [h1] at h
  | ok rho =>
    simp only [h1] at h
    cases h2 : dictGet p s.T with
    | some t =>
      simp only [h2, Prod.mk.injEq, and_true] at h
      subst h; exact hE
    | none =>
      simp only [h2] at h
      have h3 : dictGet p s.E = none := by rw [hE]; rfl
      simp only [h3] at h
      cases h4 : pyIndex s.ports p with
      | error e => simp [h4] at h
      | ok kp =>
        simp only [h4] at h
        cases h5 : pyPop s.xpos kp with
        | error e => simp [h5] at h
        | ok xs =>
          simp only [h5] at h
          split at h
          · simp at h
          · simp only [Prod.mk.injEq, and_true] at h
            subst h; exact hE

theorem deembed_E (h : Rep ops net s) (hE : s.E = []) {int ext : List (Node × Node)}
    (hfresh : ∀ x ∈ int, x.2 ∉ net.nodes) (hnd : (int.map Prod.snd).Nodup)
    (hs : deembed s int ext = (s', .ok ())) : s'.E = [] := by
  unfold deembed at hs
  simp only at hs
  obtain ⟨p1, p2⟩ := h.rep.pad
  have hw : s.core.waves.length = s.cols := h.wlen
  rw [hw] at p1 p2
  split at hs
  · cases hs
  · rename_i s1 u h1
    obtain ⟨g1, g2, g3, g4, g5⟩ := iter_deembedInt int (s := { s with S := none, invM := none, rows := s.rows.map (padRow s.cols), cols := s.cols + 2 * int.length }) p1 p2 hE hfresh hnd h1
    obtain ⟨k1, k2, k3, k4, k5⟩ := iter_deembedExt ext g1 g2 hs
    exact k2

/-- `ports` order is preserved by operations that only append new nodes at the end and remove ports -/
theorem Ordered.grow {net' : Net K} {more : List Node} (h : Ordered net s) (ha : s'.aliased = s.aliased)
    (hp : s'.portnames = s.portnames) (hn : net'.nodes = net.nodes ++ more)
    (hs : s'.ports.Sublist (s.ports ++ more)) (hbuild : s.aliased = true → more = []) : Ordered net' s' := by
  refine ⟨fun h1 => ?_, fun h1 => ?_⟩
  · rw [ha] at h1
    rw [hn]
    exact hs.trans (List.Sublist.append_right (h.1 h1) more)
  · rw [ha] at h1
    have hm := hbuild h1
    subst hm
    simp only [List.append_nil] at hs hn
    rw [hp, hn]
    exact hs.trans (h.2 h1)

theorem nodes_deembed (net : Net K) (int ext : List (Node × Node)) :
    (net.deembed int ext).nodes = net.nodes ++ int.map Prod.snd := by
  simp only [Net.deembed, nodes_foldl_same, nodes_foldl_cross]

/-- at most one name of a `connect` call that succeeds is new -/
theorem connect_new (hr : Rep ops net s) {ps : List Node} (h : connect ops s ps = (s', .ok ())) :
    ps.filter (fun p => (Dir.inn, p) ∉ s.waves) = (ps.find? (· ∉ net.nodes)).toList := by
  have hnew : ps.filter (fun p => (Dir.inn, p) ∉ s.waves) = ps.filter (· ∉ net.nodes) := by
    refine List.filter_congr fun p _ => ?_
    have := hr.rep.wmem .inn p
    simp only [St.core] at this
    simp [this]
  unfold connect at h
  rw [hnew] at h ⊢
  rw [← List.head?_filter]
  match hn : ps.filter (fun p => decide (p ∉ net.nodes)) with
  | [] => rfl
  | [x] => rfl
  | _ :: _ :: _ => simp only [hn] at h; cases h

theorem nodes_connect (net : Net K) (ps : List Node) :
    (net.connect ps).nodes = net.nodes ++ (ps.find? (· ∉ net.nodes)).toList := rfl

/-- everything known about a reachable state -/
theorem Built.all [CharZero K] (hlaw : Lawful ops beh) (h : Built ops beh nan zb names net bh s ph) :
    Inv ops beh zb names net bh s ∧
    (ph = .building → s.E = [] ∧ s.aliased = false ∧ s.S = none) ∧
    (ph ≠ .reloaded → CacheOK net bh s) := by
  induction h with
  | init bh =>
    refine ⟨⟨rep_init zb names, by simp [St.init], rfl, rfl, ⟨fun _ => by simp [St.init], fun h => by simp [St.init] at h⟩⟩,
      fun _ => ⟨rfl, rfl, rfl⟩, fun _ M hM => by simp [St.init] at hM⟩
  | @addblock net bh s s' name obj spec relpos ports hb hname hres hnd hs ih =>
    obtain ⟨⟨hrep, hbhv, hz, hnm, hord⟩, hb', _⟩ := ih
    obtain ⟨hE, hal, hS⟩ := hb' rfl
    have hrep' := rep_addblock hrep hE hname hres hnd hs
    have hfind : s.blocks.find? (fun b => b.name = name) = none := by
      rw [List.find?_eq_none]
      intro b hb
      simp only [decide_eq_true_eq]
      rintro rfl
      apply hname
      rw [hrep.rep.blks, List.map_map]
      exact List.mem_map_of_mem hb
    unfold Circuit.addblock at hs
    simp only [hfind, hres] at hs
    injection hs with hs _
    subst hs
    refine ⟨⟨hrep', ?_, hz, hnm, ?_⟩, fun _ => ⟨hE, hal, rfl⟩, fun _ M hM => (by simp at hM)⟩
    · intro b hbm
      simp only [List.mem_append, List.mem_singleton] at hbm
      rcases hbm with hbm | rfl
      · rw [Function.update_of_ne, hbhv b hbm]
        rintro rfl
        rw [List.find?_eq_none] at hfind
        exact hfind b hbm (by simp)
      · simp
    · exact Ordered.grow (s' := { s with S := none, invM := none, blocks := _, waves := _, ports := _, rows := _, cols := _, eqns := _, xpos := _ })
        (more := ports.map (Node.blk name)) hord rfl rfl rfl (List.Sublist.refl _) (by simp [hal])
  | @replace net bh s s' ph name obj spec relpos hb hname hs ih =>
    obtain ⟨⟨hrep, hbhv, hz, hnm, hord⟩, hb', _⟩ := ih
    obtain ⟨hrep', rfl⟩ := rep_replace hrep hname hs
    refine ⟨⟨hrep', ?_, hz, hnm, hord⟩, ?_, fun _ M hM => (by simp at hM)⟩
    · intro b hbm
      simp only [replaceObj, List.mem_map] at hbm
      obtain ⟨b0, hb0, rfl⟩ := hbm
      by_cases hn : b0.name = name
      · rw [if_pos hn]; simp [hn]
      · rw [if_neg hn, Function.update_of_ne hn]; exact hbhv b0 hb0
    · intro hp
      have : ph = .building := by
        by_cases h1 : ph = .reloaded
        · rw [if_pos h1] at hp; cases hp
        · rwa [if_neg h1] at hp
      obtain ⟨hE, hal, _⟩ := hb' this
      exact ⟨hE, hal, rfl⟩
  | @connect net bh s s' ps hb hs ih =>
    obtain ⟨⟨hrep, hbhv, hz, hnm, hord⟩, hb', _⟩ := ih
    obtain ⟨hE, hal, hS⟩ := hb' rfl
    have hrep' := rep_connect hrep hE hs
    obtain ⟨⟨f1, f2, f3, f4, f5, f6⟩, g2, g3, g4⟩ := connect_frame hs
    rw [connect_new hrep hs] at g2
    refine ⟨⟨hrep', by rw [f2]; exact hbhv, f1.trans hz, f3.trans hnm, ?_⟩, fun _ => ⟨g3.trans hE, f4.trans hal, g4⟩,
      fun _ M hM => (by rw [g4] at hM; cases hM)⟩
    exact hord.grow f4 f3 (nodes_connect net ps) g2 (by simp [hal])
  | @terminate net bh s s' ph p args l hb hl hs ih =>
    obtain ⟨⟨hrep, hbhv, hz, hnm, hord⟩, hb', hc⟩ := ih
    obtain ⟨l', hl', hrep'⟩ := rep_terminate hrep hs
    rw [hl] at hl'; injection hl' with hl'; subst hl'
    obtain ⟨⟨f1, f2, f3, f4, f5, f6⟩, g2, g3⟩ := terminate_frame hs
    have hkey : (dictGet p s.T).isSome → p ∈ net.loads.map Prod.fst := by
      intro h1
      rw [hrep.rep.loads_keys]
      by_contra h2
      rw [← dictGet_none] at h2
      have h3 : dictGet p s.T = none := h2
      rw [h3] at h1; cases h1
    refine ⟨⟨hrep', by rw [f2]; exact hbhv, f1.trans hz, f3.trans hnm, ?_⟩, ?_, ?_⟩
    · exact hord.grow (more := []) f4 f3 (by simp [Net.load]) (by simpa using g2) (by simp)
    · intro hp
      have : ph = .building := by
        split at hp
        · cases hp
        · split at hp
          · cases hp
          · exact hp
      obtain ⟨hE, hal, hS⟩ := hb' this
      refine ⟨terminate_E hs hE, f4.trans hal, ?_⟩
      rcases g3 rfl with h1 | ⟨h1, _⟩
      · exact h1
      · rw [h1]; exact hS
    · intro hp M hM
      rcases g3 rfl with h1 | ⟨h1, h2, h3⟩
      · rw [h1] at hM; cases hM
      · exfalso
        have := hkey h2
        by_cases h4 : ph = .building
        · have := (hb' h4).2.2
          rw [h1, this] at hM; cases hM
        · rw [if_pos ⟨h4, this⟩] at hp
          exact hp rfl
  | @deembed net bh s s' int ext hb hfresh hnd hdot hs ih =>
    obtain ⟨⟨hrep, hbhv, hz, hnm, hord⟩, hb', _⟩ := ih
    obtain ⟨hE, hal, hS⟩ := hb' rfl
    have hrep' := rep_deembed hrep hE hfresh hnd hdot hs
    obtain ⟨⟨f1, f2, f3, f4, f5, f6⟩, g2, g3⟩ := deembed_frame hs
    refine ⟨⟨hrep', by rw [f2]; exact hbhv, f1.trans hz, f3.trans hnm, ?_⟩,
      fun _ => ⟨deembed_E hrep hE hfresh hnd hs, f4.trans hal, g3⟩, fun _ M hM => (by rw [g3] at hM; cases hM)⟩
    exact hord.grow f4 f3 (nodes_deembed net int ext) g2 (by simp [hal])
  | @used net bh s ph bs hb hu ih =>
    obtain ⟨⟨hrep, hbhv, hz, hnm, hord⟩, hb', hc⟩ := ih
    refine ⟨⟨hrep.used (hu.imp fun _ _ x => x.1), ?_, hz, hnm, hord⟩, hb', hc⟩
    intro b hbm
    obtain ⟨b0, h0, h1, h2⟩ := forall₂_mem_right hu hbm
    rw [h2, hbhv b0 h0, h1.1]
  | @eval net bh s s' ph f z fl r hb hs ih =>
    obtain ⟨hinv, hb', hc⟩ := ih
    have hs1 : ∃ r1, get1S ops s f fl = (s', r1) := by
      unfold getS at hs
      cases hg : get1S ops s f fl with
      | mk s1 r1 =>
        rw [hg] at hs
        refine ⟨r1, ?_⟩
        cases r1 with
        | error e => simp only [Prod.mk.injEq] at hs; rw [hs.1]
        | ok M =>
          simp only at hs
          cases z with
          | none => simp only [Prod.mk.injEq] at hs; rw [hs.1]
          | some z =>
            simp only at hs
            split at hs <;> (simp only [Prod.mk.injEq] at hs; rw [hs.1])
    obtain ⟨r1, hs1⟩ := hs1
    have hnb : ∀ x : Prop, afterEval ph s f fl r = .building → x := fun x hx => absurd hx afterEval_ne_building
    rcases get1S_eq (ops := ops) s f fl with ⟨M, e1, e2, e3, e4⟩ | ⟨e1, e2⟩
    · rw [e4] at hs1
      simp only [Prod.mk.injEq] at hs1
      obtain ⟨rfl, _⟩ := hs1
      refine ⟨hinv, hnb _, fun hp => hc ?_⟩
      rcases afterEval_ne_reloaded hp with h | ⟨h, _⟩
      · exact h
      · rcases h with h | h | h
        · rw [e1] at h; cases h
        · exact absurd e2 h
        · exact absurd e3 h
    · rw [e2] at hs1
      obtain ⟨q1, q2, q3, _⟩ := recompute_spec hlaw hinv f fl hs1
      refine ⟨q1, hnb _, fun hp => ?_⟩
      cases r1 with
      | ok M =>
        obtain ⟨a1, a2, a3, a4, a5, a6, a7, a8, a9⟩ := q2 M rfl
        intro M' hM'
        rw [a1] at hM'; injection hM' with hM'; subst hM'
        refine ⟨a4, f, fl, a2, a3, by rw [q1.zb]; exact a8, ?_⟩
        rw [q1.zb]
        intro Sof hS
        exact (a9 Sof hS).2
      | error e =>
        have hp' : ph ≠ .reloaded := by
          rcases afterEval_ne_reloaded hp with h | ⟨_, M, h⟩
          · exact h
          · exfalso
            unfold getS at hs
            rw [e2, hs1] at hs
            simp only [Prod.mk.injEq] at hs
            rw [← hs.2] at h; cases h
        obtain ⟨b1, b2, b3⟩ := q3 e rfl
        intro M' hM'
        rcases b1 with h | ⟨h, h'⟩
        · rw [h] at hM'; cases hM'
        · rw [h] at hM'
          have := hc hp' M' hM'
          rw [b2, b3, q1.zb, h', ← hinv.zb]
          exact this

theorem Built.inv [CharZero K] (hlaw : Lawful ops beh) (h : Built ops beh nan zb names net bh s ph) :
    Inv ops beh zb names net bh s := (h.all hlaw).1

end
end PyRFtk.Circuit
