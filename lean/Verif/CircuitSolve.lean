import Verif.CircuitEval
import Mathlib.LinearAlgebra.Matrix.NonsingularInverse
import Mathlib.LinearAlgebra.Matrix.ToLinearEquiv

/-!
# Evaluation: squaring up and solving (proof infrastructure)
-/

set_option linter.unusedSectionVars false

namespace PyRFtk.Circuit

section
variable {K O F Fl : Type*} [Field K] [DecidableEq F] [DecidableEq Fl]
variable {ops : ObjOps K O F Fl} {net : Net K} {c : Core K O} {k : ℕ}

/-! ## squareUp -/

theorem idx_lt_of_mem {α : Type*} [DecidableEq α] {l : List α} {x : α} (h : x ∈ l) : idx l x < l.length :=
  List.idxOf_lt_length_of_mem h

theorem iter_addE : ∀ (ps : List Node) (s : St K O F Fl), (∀ p ∈ ps, (Dir.inn, p) ∈ s.waves) →
    s.waves.length ≤ s.cols → ps.Nodup →
    (∀ p ∈ ps, p ∉ s.E.map Prod.fst) →
    iter addE s ps = ({ s with rows := s.rows ++ ps.map (fun p => eRow (idx s.waves (.inn, p)))
                               eqns := s.eqns ++ ps.map .E
                               E := s.E ++ ps.zipIdx s.rows.length }, .ok ())
  | [], s, _, _, _, _ => by simp [iter]
  | p :: ps, s, h1, hw, h2, h3 => by
    rw [List.nodup_cons] at h2
    have hp := h1 p (by simp)
    have hs : addE s p = ({ s with rows := s.rows ++ [eRow (idx s.waves (.inn, p))]
                                   eqns := s.eqns ++ [.E p]
                                   E := s.E ++ [(p, s.rows.length)] }, .ok ()) := by
      unfold addE
      rw [pyIndex_of_mem hp]
      simp only
      rw [if_neg (by have := idx_lt_of_mem hp; omega)]
      rw [dictSet_not_mem (h3 p (by simp))]
      rfl
    unfold iter
    rw [hs]
    simp only
    refine (iter_addE ps { s with rows := s.rows ++ [eRow (idx s.waves (.inn, p))]
                                  eqns := s.eqns ++ [.E p]
                                  E := s.E ++ [(p, s.rows.length)] } (fun q hq => h1 q (by simp [hq])) hw h2.2 (by
      intro q hq
      show q ∉ (s.E ++ [(p, s.rows.length)]).map Prod.fst
      simp only [List.map_append, List.map_cons, List.map_nil, List.mem_append, List.mem_singleton, not_or]
      exact ⟨h3 q (by simp [hq]), fun e => h2.1 (e ▸ hq)⟩)).trans ?_
    simp [List.zipIdx_cons]

/-- adding the equations of the external ports -/
theorem RepD.addE (h : RepD ops net c k) (hE : c.E = []) {ps : List Node} (hnd : ps.Nodup)
    (hps : ∀ p, p ∈ ps ↔ p ∈ c.ports) :
    RepD ops net { c with rows := c.rows ++ ps.map (fun p => eRow (idx c.waves (.inn, p)))
                          eqns := c.eqns ++ ps.map .E
                          E := ps.zipIdx c.rows.length
                          ports := ps
                          aliased := true } k := by
  have hel := h.elen
  have ecase : ∀ {i : ℕ} {e : Eqn}, (c.eqns ++ ps.map Eqn.E)[i]? = some e →
      (∀ n, e ≠ .E n) → c.eqns[i]? = some e := by
    intro i e hi hne
    rcases getElem?_append_cases hi with h1 | ⟨_, h1⟩
    · exact h1
    · have := List.mem_of_getElem? h1
      simp only [List.mem_map] at this
      obtain ⟨p, _, rfl⟩ := this
      exact absurd rfl (hne _)
  have hmemw : ∀ p ∈ ps, (Dir.inn, p) ∈ c.waves := by
    intro p hp
    rw [h.wmem]; exact ((h.pmem p).1 ((hps p).1 hp)).1
  have hkeys : ∀ n, ((ps.zipIdx n).map Prod.fst) = ps := by
    intro n
    exact List.zipIdx_map_fst n ps
  refine { h with brow := ?_, elen := ?_, eS := ?_, eS' := ?_, tT := ?_, tT' := ?_, eE := ?_, eE' := ?_, ednd := ?_,
                  core := ?_, pnd := hnd, pmem := ?_, count := ?_, ekeys := ?_ }
  · intro b hb k hk
    obtain ⟨r, h1, h2⟩ := h.brow b hb k hk
    exact ⟨r, getElem?_append_some h1, h2⟩
  · simp [hel]
  · intro b hb k hk; exact getElem?_append_some (h.eS b hb k hk)
  · intro i n hi; exact h.eS' i n (ecase hi (by simp))
  · refine h.tT.imp ?_
    rintro l t ⟨h1, h2, h3, h4, rho, r, h5, h6, h7⟩
    exact ⟨h1, h2, h3, getElem?_append_some h4, rho, r, h5, getElem?_append_some h6, h7⟩
  · intro i p hi; exact h.tT' i p (ecase hi (by simp))
  · intro p e hpe
    have hpe' := List.mem_zipIdx hpe
    obtain ⟨h1, h2, h3⟩ := hpe'
    have hlt : e - c.rows.length < ps.length := by omega
    have hg : ps[e - c.rows.length]? = some p := by rw [List.getElem?_eq_getElem hlt, h3]
    refine ⟨?_, idx c.waves (.inn, p), eRow (idx c.waves (.inn, p)), ?_, ?_, fun _ _ => rfl⟩
    · show (c.eqns ++ ps.map Eqn.E)[e]? = some (.E p)
      rw [List.getElem?_append_right (by omega), hel]
      simp [hg]
    · exact getElem?_idx (hmemw p (List.mem_of_getElem? hg))
    · show (c.rows ++ _)[e]? = some _
      rw [List.getElem?_append_right (by omega)]
      simp [hg]
  · intro i p hi
    rcases getElem?_append_cases hi with h1 | ⟨h0, h1⟩
    · have := h.eE' i p h1
      rw [hE] at this; simp at this
    · simp only [List.getElem?_map, Option.map_eq_some_iff] at h1
      obtain ⟨q, hq, e⟩ := h1
      injection e with e; subst e
      show (q, i) ∈ ps.zipIdx c.rows.length
      rw [List.mk_mem_zipIdx_iff_le_and_getElem?_sub]
      exact ⟨by omega, by rw [hel] at hq; exact hq⟩
  · show ((ps.zipIdx c.rows.length).map Prod.fst).Nodup
    rw [hkeys]; exact hnd
  · intro w
    rw [← h.core w]
    constructor
    · intro H i r e hr he hc
      exact H i r e (getElem?_append_some hr) (getElem?_append_some he) hc
    · intro H i r e hr he hc
      have he' := ecase he (by rintro n rfl; simp [Eqn.IsCore] at hc)
      have hi : i < c.rows.length := by rw [← hel]; exact (List.getElem?_eq_some_iff.1 he').1
      have hr' : c.rows[i]? = some r := by
        have : (c.rows ++ ps.map (fun p => (eRow (idx c.waves (.inn, p)) : ℕ → K)))[i]? = some r := hr
        rwa [List.getElem?_append_left hi] at this
      exact H i r e hr' he' hc
  · intro p; rw [hps]; exact h.pmem p
  · have := h.count
    have hlen : ps.length = c.ports.length :=
      ((List.perm_ext_iff_of_nodup hnd h.pnd).2 hps).length_eq
    rw [hE] at this
    simp only [List.length_append, List.length_map, List.length_zipIdx, List.length_nil] at this ⊢
    omega
  · right
    refine ⟨rfl, fun p => ?_⟩
    show p ∈ (ps.zipIdx c.rows.length).map Prod.fst ↔ _
    rw [hkeys]

theorem RepD.lenE (h : RepD ops net c 0) (hne : c.rows.length ≠ c.waves.length) : c.E = [] := by
  rcases h.ekeys with h1 | ⟨_, h1⟩
  · exact h1
  · exfalso
    have : List.Perm (c.E.map Prod.fst) c.ports := (List.perm_ext_iff_of_nodup h.ednd h.pnd).2 h1
    have := this.length_eq
    have := h.count
    simp at *; omega

/-- what `squareUp` does on a well-formed state -/
theorem squareUp_spec {s : St K O F Fl} (h : Rep ops net s) :
    Rep ops net (squareUp s).1 ∧ (squareUp s).1.blocks = s.blocks ∧ (squareUp s).1.zbase = s.zbase ∧
    (squareUp s).1.f = s.f ∧ (squareUp s).1.flags = s.flags ∧ ((squareUp s).1.S = s.S ∨ (squareUp s).1.S = none) ∧
    (squareUp s).1.invM = s.invM ∧
    ((squareUp s).2 = .ok () → (squareUp s).1.rows.length = (squareUp s).1.cols ∧
      (∃ R, (squareUp s).1.rows = s.rows ++ R) ∧
      (s.rows.length = s.cols ∨ (squareUp s).1.aliased = true) ∧
      (s.rows.length ≠ s.cols → (squareUp s).1.ports = if s.names = [] then s.ports else s.names)) ∧
    ((squareUp s).2 = .ok () ↔
      (s.rows.length = s.cols ∨ s.names = [] ∨ List.Perm s.names s.ports)) ∧
    ((squareUp s).2 ≠ .ok () → (squareUp s).1 = { s with S := none } ∧ (squareUp s).2 = .error .valueError) := by
  by_cases hsq : s.rows.length = s.cols
  · have : squareUp s = (s, .ok ()) := by unfold squareUp; rw [if_pos hsq]
    rw [this]
    refine ⟨h, rfl, rfl, rfl, rfl, Or.inl rfl, rfl, fun _ => ⟨hsq, ⟨[], by simp⟩, Or.inl hsq, fun hn => absurd hsq hn⟩, ?_, by simp⟩
    simp [hsq]
  · have hlw : s.waves.length = s.cols := h.wlen
    have hE : s.E = [] := h.rep.lenE (by show s.rows.length ≠ s.waves.length; omega)
    have hrep0 : Rep ops net { s with S := none } := ⟨h.rep, h.wlen, h.bnode⟩
    -- the successful case for a port list
    have key : ∀ ps : List Node, ps.Nodup → (∀ p, p ∈ ps ↔ p ∈ s.ports) →
        ∃ R, iter addE { s with S := none, ports := ps, aliased := true } ps =
          ({ s with S := none, ports := ps, aliased := true, rows := s.rows ++ R
                    eqns := s.eqns ++ ps.map .E, E := ps.zipIdx s.rows.length }, .ok ()) ∧
          Rep ops net ({ s with S := none, ports := ps, aliased := true, rows := s.rows ++ R
                                eqns := s.eqns ++ ps.map .E, E := ps.zipIdx s.rows.length } : St K O F Fl) ∧
          (s.rows ++ R).length = s.cols := by
      intro ps hnd hps
      refine ⟨ps.map (fun p => eRow (idx s.waves (.inn, p))), ?_, ?_, ?_⟩
      · refine (iter_addE ps _ ?_ (by exact le_of_eq h.wlen) hnd ?_).trans ?_
        · intro p hp
          have := (h.rep.wmem .inn p).2 ((h.rep.pmem p).1 ((hps p).1 hp)).1
          exact this
        · simp [hE]
        · simp [hE]
      · exact ⟨h.rep.addE hE hnd hps, h.wlen, h.bnode⟩
      · have hlen : ps.length = s.ports.length := ((List.perm_ext_iff_of_nodup hnd h.rep.pnd).2 hps).length_eq
        have := h.rep.count
        simp only [St.core, hE, List.length_nil] at this
        simp only [List.length_append, List.length_map]; omega
    have hpnd : s.ports.Nodup := h.rep.pnd
    by_cases hn : s.names = []
    · obtain ⟨R, k1, k2, k3⟩ := key s.ports hpnd (fun _ => Iff.rfl)
      have hnn : ({ s with S := none } : St K O F Fl).names = [] := hn
      have : squareUp s = iter addE { s with S := none, ports := s.ports, aliased := true } s.ports := by
        unfold squareUp
        rw [if_neg hsq]
        simp only
        rw [if_neg (by simp [hnn])]
      rw [this, k1]
      refine ⟨k2, rfl, rfl, rfl, rfl, Or.inr rfl, rfl, fun _ => ⟨k3, ⟨R, rfl⟩, Or.inr rfl, fun _ => by simp [hn]⟩, by simp [hn], by simp⟩
    · by_cases hl : s.names.length ≠ s.ports.length
      · have : squareUp s = ({ s with S := none }, .error .valueError) := by
          unfold squareUp
          rw [if_neg hsq]
          simp only
          rw [if_pos (show ({ s with S := none } : St K O F Fl).names ≠ [] from hn), if_pos (show ({ s with S := none } : St K O F Fl).names.length ≠ s.ports.length from hl)]
        rw [this]
        refine ⟨hrep0, rfl, rfl, rfl, rfl, Or.inr rfl, rfl, by simp, ?_, fun _ => ⟨rfl, rfl⟩⟩
        simp only [reduceCtorEq, false_iff, not_or]
        exact ⟨hsq, hn, fun hp => hl hp.length_eq⟩
      · push Not at hl
        by_cases hx : ∃ p ∈ s.ports, p ∉ s.names
        · have : squareUp s = ({ s with S := none }, .error .valueError) := by
            unfold squareUp
            rw [if_neg hsq]
            simp only
            rw [if_pos (show ({ s with S := none } : St K O F Fl).names ≠ [] from hn), if_neg (show ¬ ({ s with S := none } : St K O F Fl).names.length ≠ s.ports.length from not_not.2 hl)]
            exact if_pos hx
          rw [this]
          refine ⟨hrep0, rfl, rfl, rfl, rfl, Or.inr rfl, rfl, by simp, ?_, fun _ => ⟨rfl, rfl⟩⟩
          simp only [reduceCtorEq, false_iff, not_or]
          refine ⟨hsq, hn, fun hp => ?_⟩
          obtain ⟨p, h1, h2⟩ := hx
          exact h2 (hp.mem_iff.2 h1)
        · push Not at hx
          have hsp : List.Subperm s.ports s.names := hpnd.subperm hx
          have hperm : List.Perm s.ports s.names := hsp.perm_of_length_le (by omega)
          obtain ⟨R, k1, k2, k3⟩ := key s.names (hperm.nodup_iff.1 hpnd) (fun p => hperm.symm.mem_iff)
          have : squareUp s = iter addE { s with S := none, ports := s.names, aliased := true } s.names := by
            unfold squareUp
            rw [if_neg hsq]
            simp only
            rw [if_pos (show ({ s with S := none } : St K O F Fl).names ≠ [] from hn), if_neg (show ¬ ({ s with S := none } : St K O F Fl).names.length ≠ s.ports.length from not_not.2 hl)]
            exact (if_neg (by push Not; exact hx))
          rw [this, k1]
          exact ⟨k2, rfl, rfl, rfl, rfl, Or.inr rfl, rfl, fun _ => ⟨k3, ⟨R, rfl⟩, Or.inr rfl, fun _ => by simp [hn]⟩, by simp [hperm.symm], by simp⟩

end
end PyRFtk.Circuit
