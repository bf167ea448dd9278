import Verif.CircuitLin

/-!
# Frame facts: what the operations leave alone (proof infrastructure)
-/

set_option linter.unusedSectionVars false

namespace PyRFtk.Circuit

section
variable {K O F Fl : Type*} [Field K] [DecidableEq F] [DecidableEq Fl]
variable {ops : ObjOps K O F Fl} {net : Net K} {c : Core K O} {k : ℕ}

/-- the attributes that connect, terminate and deembed never touch -/
def St.Same (s s' : St K O F Fl) : Prop :=
  s'.zbase = s.zbase ∧ s'.blocks = s.blocks ∧ s'.portnames = s.portnames ∧ s'.aliased = s.aliased ∧
  s'.f = s.f ∧ s'.flags = s.flags

theorem St.Same.refl (s : St K O F Fl) : s.Same s := ⟨rfl, rfl, rfl, rfl, rfl, rfl⟩

theorem St.Same.trans {s s' s'' : St K O F Fl} (h : s.Same s') (h' : s'.Same s'') : s.Same s'' := by
  obtain ⟨a1, a2, a3, a4, a5, a6⟩ := h
  obtain ⟨b1, b2, b3, b4, b5, b6⟩ := h'
  exact ⟨b1.trans a1, b2.trans a2, b3.trans a3, b4.trans a4, b5.trans a5, b6.trans a6⟩

theorem consume_frame {new : List Node} : ∀ {ps : List Node} {s s' : St K O F Fl} {r : Except Err Unit},
    consume new ps s = (s', r) → s.Same s' ∧ s'.ports.Sublist s.ports ∧ s'.E = s.E ∧ s'.S = s.S
  | [], s, s', r, h => by
    simp only [consume, Prod.mk.injEq] at h
    obtain ⟨rfl, _⟩ := h
    exact ⟨St.Same.refl _, List.Sublist.refl _, rfl, rfl⟩
  | p :: ps, s, s', r, h => by
    unfold consume at h
    by_cases hp : p ∈ new
    · rw [if_pos hp] at h
      exact consume_frame h
    · rw [if_neg hp] at h
      cases hi : pyIndex s.ports p with
      | error e =>
        simp only [hi, Prod.mk.injEq] at h
        obtain ⟨rfl, _⟩ := h
        exact ⟨St.Same.refl _, List.Sublist.refl _, rfl, rfl⟩
      | ok kp =>
        simp only [hi] at h
        cases hx : pyPop s.xpos kp with
        | error e =>
          simp only [hx, Prod.mk.injEq] at h
          obtain ⟨rfl, _⟩ := h
          exact ⟨⟨rfl, rfl, rfl, rfl, rfl, rfl⟩, List.eraseIdx_sublist _ _, rfl, rfl⟩
        | ok xs =>
          simp only [hx] at h
          obtain ⟨h1, h2, h3, h4⟩ := consume_frame h
          exact ⟨St.Same.trans ⟨rfl, rfl, rfl, rfl, rfl, rfl⟩ h1, h2.trans (List.eraseIdx_sublist _ _), h3, h4⟩

theorem connectTail_frame {new ps : List Node} {s s' : St K O F Fl} (h : connectTail new ps s = (s', .ok ())) :
    s.Same s' ∧ s'.ports.Sublist s.ports ∧ s'.E = s.E ∧ s'.S = none := by
  unfold connectTail at h
  cases h1 : mapE (fun p => pyIndex s.waves (waveA new p)) ps with
  | error e => simp [h1] at h
  | ok As =>
    cases h2 : mapE (fun p => pyIndex s.waves (waveB new p)) ps with
    | error e => simp [h1, h2] at h
    | ok Bs =>
      simp only [h1, h2] at h
      cases h3 : consume new ps s with
      | mk s1 r =>
        obtain ⟨g1, g2, g3, g4⟩ := consume_frame h3
        cases r with
        | error e => simp [h3] at h
        | ok u =>
          simp only [h3, Prod.mk.injEq] at h
          obtain ⟨rfl, _⟩ := h
          exact ⟨g1.trans ⟨rfl, rfl, rfl, rfl, rfl, rfl⟩, g2, g3, rfl⟩

theorem connect_frame {s s' : St K O F Fl} {ps : List Node} (h : connect ops s ps = (s', .ok ())) :
    s.Same s' ∧ s'.ports.Sublist (s.ports ++ ps.filter (fun p => (Dir.inn, p) ∉ s.waves)) ∧ s'.E = s.E ∧ s'.S = none := by
  unfold connect at h
  match hn : ps.filter (fun p => decide ((Dir.inn, p) ∉ s.waves)) with
  | [] =>
    simp only [hn] at h
    obtain ⟨g1, g2, g3, g4⟩ := connectTail_frame h
    exact ⟨g1, by simpa using g2, g3, g4⟩
  | [.blk _ _] => simp only [hn] at h; cases h
  | _ :: _ :: _ => simp only [hn] at h; cases h
  | [.ext n] =>
    simp only [hn] at h
    cases ho : ps.filter (fun p => decide ((Dir.inn, p) ∈ s.waves)) with
    | nil => simp [ho] at h
    | cons o os =>
      simp only [ho] at h
      cases hg : getpos ops { s with waves := s.waves ++ [(Dir.inn, .ext n), (.out, .ext n)], ports := s.ports ++ [.ext n] } o with
      | error e => simp [hg] at h
      | ok x =>
        simp only [hg] at h
        obtain ⟨g1, g2, g3, g4⟩ := connectTail_frame h
        exact ⟨g1, g2, g3, g4⟩

theorem terminate_frame {s s' : St K O F Fl} {p : Node} {args : TermArgs K} {r : Except Err Unit}
    (h : terminate s p args = (s', r)) :
    s.Same s' ∧ s'.ports.Sublist s.ports ∧
    (r = .ok () → (s'.S = none ∨ (s'.S = s.S ∧ (dictGet p s.T).isSome ∧ s'.ports = s.ports))) := by
  unfold terminate at h
  simp only at h
  cases h1 : termRho s.zbase args with
  | error e =>
    simp only [h1, Prod.mk.injEq] at h
    obtain ⟨rfl, rfl⟩ := h
    exact ⟨St.Same.refl _, List.Sublist.refl _, by simp⟩
  | ok rho =>
    simp only [h1] at h
    cases h2 : dictGet p s.T with
    | some t =>
      simp only [h2, Prod.mk.injEq] at h
      obtain ⟨rfl, rfl⟩ := h
      exact ⟨⟨rfl, rfl, rfl, rfl, rfl, rfl⟩, List.Sublist.refl _, fun _ => Or.inr ⟨rfl, by simp, rfl⟩⟩
    | none =>
      simp only [h2] at h
      cases h3 : dictGet p s.E with
      | some e =>
        simp only [h3] at h
        split at h
        · simp only [Prod.mk.injEq] at h
          obtain ⟨rfl, rfl⟩ := h
          exact ⟨St.Same.refl _, List.Sublist.refl _, by simp⟩
        · cases h4 : pyIndex s.ports p with
          | error e =>
            simp only [h4, Prod.mk.injEq] at h
            obtain ⟨rfl, rfl⟩ := h
            exact ⟨⟨rfl, rfl, rfl, rfl, rfl, rfl⟩, List.Sublist.refl _, by simp⟩
          | ok kp =>
            simp only [h4] at h
            cases h5 : pyPop s.xpos kp with
            | error e =>
              simp only [h5, Prod.mk.injEq] at h
              obtain ⟨rfl, rfl⟩ := h
              exact ⟨⟨rfl, rfl, rfl, rfl, rfl, rfl⟩, List.eraseIdx_sublist _ _, by simp⟩
            | ok xs =>
              simp only [h5, Prod.mk.injEq] at h
              obtain ⟨rfl, rfl⟩ := h
              exact ⟨⟨rfl, rfl, rfl, rfl, rfl, rfl⟩, List.eraseIdx_sublist _ _, fun _ => Or.inl rfl⟩
      | none =>
        simp only [h3] at h
        cases h4 : pyIndex s.ports p with
        | error e =>
          simp only [h4, Prod.mk.injEq] at h
          obtain ⟨rfl, rfl⟩ := h
          exact ⟨St.Same.refl _, List.Sublist.refl _, by simp⟩
        | ok kp =>
          simp only [h4] at h
          cases h5 : pyPop s.xpos kp with
          | error e =>
            simp only [h5, Prod.mk.injEq] at h
            obtain ⟨rfl, rfl⟩ := h
            exact ⟨⟨rfl, rfl, rfl, rfl, rfl, rfl⟩, List.eraseIdx_sublist _ _, by simp⟩
          | ok xs =>
            simp only [h5] at h
            split at h
            · simp only [Prod.mk.injEq] at h
              obtain ⟨rfl, rfl⟩ := h
              exact ⟨⟨rfl, rfl, rfl, rfl, rfl, rfl⟩, List.eraseIdx_sublist _ _, by simp⟩
            · simp only [Prod.mk.injEq] at h
              obtain ⟨rfl, rfl⟩ := h
              exact ⟨⟨rfl, rfl, rfl, rfl, rfl, rfl⟩, List.eraseIdx_sublist _ _, fun _ => Or.inl rfl⟩

theorem deembedInt_frame {s s' : St K O F Fl} {dp ip : Node} (h : deembedInt s dp ip = (s', .ok ())) :
    s.Same s' ∧ s'.ports.Sublist (s.ports ++ [ip]) ∧ s'.S = s.S := by
  unfold deembedInt at h
  by_cases h1 : ip ∈ s.ports
  · simp [h1] at h
  · rw [if_neg h1] at h
    simp only at h
    split at h
    · simp at h
    · split at h
      · simp at h
      · simp at h
      · simp only [Prod.mk.injEq, and_true] at h
        subst h
        exact ⟨⟨rfl, rfl, rfl, rfl, rfl, rfl⟩, List.erase_sublist, rfl⟩

theorem deembedExt_frame {s s' : St K O F Fl} {dp ep : Node} (h : deembedExt s dp ep = (s', .ok ())) :
    s.Same s' ∧ s'.ports.Sublist s.ports ∧ s'.S = s.S := by
  unfold deembedExt at h
  split at h
  · simp at h
  · split at h
    · simp at h
    · simp only at h
      split at h
      · split at h
        · simp at h
        · simp only [Prod.mk.injEq, and_true] at h
          subst h
          exact ⟨⟨rfl, rfl, rfl, rfl, rfl, rfl⟩, (List.eraseIdx_sublist _ _).trans List.erase_sublist, rfl⟩
      · simp at h

theorem deembed_frame {s s' : St K O F Fl} {int ext : List (Node × Node)} (h : deembed s int ext = (s', .ok ())) :
    s.Same s' ∧ s'.ports.Sublist (s.ports ++ int.map Prod.snd) ∧ s'.S = none := by
  have hint : ∀ (int : List (Node × Node)) {s s' : St K O F Fl}, iter (fun s x => deembedInt s x.1 x.2) s int = (s', .ok ()) →
      s.Same s' ∧ s'.ports.Sublist (s.ports ++ int.map Prod.snd) ∧ s'.S = s.S := by
    intro int
    induction int with
    | nil =>
      intro s s' h
      simp only [iter, Prod.mk.injEq, and_true] at h
      subst h; exact ⟨St.Same.refl _, by simp, rfl⟩
    | cons x int ih =>
      intro s s' h
      unfold iter at h
      cases h1 : deembedInt s x.1 x.2 with
      | mk s1 r =>
        cases r with
        | error e => simp [h1] at h
        | ok u =>
          simp only [h1] at h
          obtain ⟨a1, a2, a3⟩ := deembedInt_frame h1
          obtain ⟨b1, b2, b3⟩ := ih h
          refine ⟨a1.trans b1, ?_, b3.trans a3⟩
          have := b2.trans (List.Sublist.append_right a2 (int.map Prod.snd))
          simpa using this
  have hext : ∀ (int : List (Node × Node)) {s s' : St K O F Fl}, iter (fun s x => deembedExt s x.1 x.2) s int = (s', .ok ()) →
      s.Same s' ∧ s'.ports.Sublist s.ports ∧ s'.S = s.S := by
    intro int
    induction int with
    | nil =>
      intro s s' h
      simp only [iter, Prod.mk.injEq, and_true] at h
      subst h; exact ⟨St.Same.refl _, by simp, rfl⟩
    | cons x int ih =>
      intro s s' h
      unfold iter at h
      cases h1 : deembedExt s x.1 x.2 with
      | mk s1 r =>
        cases r with
        | error e => simp [h1] at h
        | ok u =>
          simp only [h1] at h
          obtain ⟨a1, a2, a3⟩ := deembedExt_frame h1
          obtain ⟨b1, b2, b3⟩ := ih h
          exact ⟨a1.trans b1, b2.trans a2, b3.trans a3⟩
  unfold deembed at h
  simp only at h
  split at h
  · cases h
  · rename_i s1 u h1
    obtain ⟨a1, a2, a3⟩ := hint int h1
    obtain ⟨b1, b2, b3⟩ := hext ext h
    exact ⟨St.Same.trans ⟨rfl, rfl, rfl, rfl, rfl, rfl⟩ (a1.trans b1), b2.trans a2, b3.trans a3⟩

/-! ## replacing the object of a block -/

theorem rep_replace {s s' : St K O F Fl} (h : Rep ops net s) {nan : K} {name : String} {obj : O} {spec : PortSpec}
    {relpos : ℚ} (hname : name ∈ net.blks.map Prod.fst)
    (hs : addblock ops nan s name obj spec relpos = (s', .ok ())) :
    Rep ops net s' ∧ s' = { s with S := none, invM := none, blocks := replaceObj name obj s.blocks } := by
  have hmem : name ∈ s.blocks.map Blk.name := by
    rw [h.rep.blks, List.map_map] at hname; exact hname
  unfold addblock at hs
  simp only at hs
  cases hf : s.blocks.find? (fun b => b.name = name) with
  | none =>
    exfalso
    rw [List.find?_eq_none] at hf
    simp only [List.mem_map] at hmem
    obtain ⟨b, hb, rfl⟩ := hmem
    exact hf b hb (by simp)
  | some b =>
    simp only [hf] at hs
    by_cases hl : ops.len obj ≠ ops.len b.obj
    · rw [if_pos hl] at hs; cases hs
    · rw [if_neg hl] at hs
      simp only [Prod.mk.injEq, and_true] at hs
      subst hs
      push Not at hl
      have hbm : b ∈ s.blocks := List.mem_of_find?_eq_some hf
      have hbn : b.name = name := by simpa using List.find?_some hf
      have hlike : List.Forall₂ (Blk.Like ops) s.blocks (replaceObj name obj s.blocks) := by
        unfold replaceObj
        rw [List.forall₂_map_right_iff, List.forall₂_same]
        intro x hx
        by_cases hn : x.name = name
        · rw [if_pos hn]
          have : x = b := List.inj_on_of_nodup_map h.rep.bnd hx hbm (hn.trans hbn.symm)
          subst this
          exact ⟨rfl, rfl, rfl, hl⟩
        · rw [if_neg hn]; exact Blk.Like.refl x
      refine ⟨⟨h.rep.fill (RowsAgree.refl _ _) hlike, h.wlen, ?_⟩, rfl⟩
      intro c p hc
      have h1 : (replaceObj name obj s.blocks).map (fun b => (b.name, b.ports)) = s.blocks.map (fun b => (b.name, b.ports)) :=
        forall₂_like_map hlike
      have h2 := congrArg (List.map Prod.fst) h1
      simp only [List.map_map] at h2
      show c ∈ (replaceObj name obj s.blocks).map Blk.name
      have h3 : (replaceObj name obj s.blocks).map Blk.name = s.blocks.map Blk.name := h2
      rw [h3]
      exact h.bnode c p hc

end
end PyRFtk.Circuit
