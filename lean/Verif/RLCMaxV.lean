import Verif.RLCProps2
import Verif.RfBase

/-!
# `rfRLC.maxV` (C48)
-/

namespace PyRFtk.RLC

/-- `E[p]` -/
def excitation (E : List (String × ℂ)) (p : String) : Except Err ℂ :=
  match RfBase.dictGet E p with
  | some x => .ok x
  | none => .error .keyError

/-- `maxV(f, E, Zbase)`, `rfRLC.py:261-273`: `ports` are the names given to the object (default `['s', 'p']`).
Simplification: the returned table (positions zero, voltages) is left out. -/
noncomputable def maxV (npc : Bool) (s : St) (ports : List String) (f : ℝ) (E : List (String × ℂ)) (Zb : Option ℝ) :
    St × Except Err (ℝ × String) :=
  match mapE (excitation E) ports with                                            -- 267
  | .error e => (s, .error e)
  | .ok Ea => match getS1 npc s Zb (fun _ => none) f with                         -- 268
    | (s', .error e) => (s', .error e)
    | (s', .ok S) =>
      if Ea.length ≠ 2 then (s', .error .valueError) else                         -- `@` of a 2x2 matrix
      let a : Fin 2 → ℂ := fun i => Ea.getD i.1 0
      match RfBase.maxAt ((List.finRange 2).map fun i => ‖a i + S.mulVec a i‖) with   -- 269-271
      | none => (s', .error .valueError)
      | some (m, k) => match ports[k]? with
        | none => (s', .error .indexError)
        | some p => (s', .ok (m, p))

/-- **C48 (rfRLC.maxV).** Away from DC: what is returned is the larger of the two port voltage magnitudes, and the name of
that port, in a state of the documented circuit whose forward waves on the reference asked for are the ones given. -/
theorem C48_rfRLC_maxV {npc : Bool} {s s' : St} {ports : List String} {f : ℝ} (hf : f ≠ 0) {E : List (String × ℂ)}
    {Zb : Option ℝ} (hz : refZ s Zb ≠ 0) {m : ℝ} {p : String} (h : maxV npc s ports f E Zb = (s', .ok (m, p))) :
    ∃ hl : ports.length = 2, ∃ V I : Fin 2 → ℂ, Law s.elem (omega f) V I ∧
      (∀ i : Fin 2, RfBase.dictGet E ports[i] = some ((V i + refZ s Zb * I i) / 2)) ∧
      (∀ i, ‖V i‖ ≤ m) ∧ ∃ i : Fin 2, ports[i] = p ∧ ‖V i‖ = m := by
  unfold maxV at h
  cases hE : mapE (excitation E) ports with
  | error e => simp [hE] at h
  | ok Ea =>
    rw [hE] at h
    simp only at h
    cases hS : getS1 npc s Zb (fun _ => none) f with
    | mk s1 r =>
      rw [hS] at h
      cases r with
      | error e => simp at h
      | ok S =>
        simp only at h
        split at h
        · simp at h
        rename_i hl
        rw [not_not] at hl
        have hfa := mapE_eq_ok.1 hE
        have hlp : ports.length = 2 := by rw [hfa.length_eq, hl]
        set a : Fin 2 → ℂ := fun i => Ea.getD i.1 0 with ha
        cases hm : RfBase.maxAt ((List.finRange 2).map fun i => ‖a i + S.mulVec a i‖) with
        | none =>
          have := RfBase.maxAt_none.1 hm
          simp at this
        | some q =>
          obtain ⟨m', k⟩ := q
          rw [hm] at h
          simp only at h
          cases hk : ports[k]? with
          | none => simp [hk] at h
          | some p' =>
            simp only [hk, Prod.mk.injEq, Except.ok.injEq] at h
            obtain ⟨rfl, rfl, rfl⟩ := h
            obtain ⟨h1, h2, -⟩ := RfBase.maxAt_some hm
            have hz' : (refZ s Zb : ℂ) ≠ 0 := by exact_mod_cast hz
            have hfw : ∀ i, ((a + S.mulVec a) i + refZ s Zb * (((a i - S.mulVec a i)) / refZ s Zb)) / 2 = a i := by
              intro i; simp only [Pi.add_apply]; field_simp; ring
            refine ⟨hlp, a + S.mulVec a, fun i => (a i - S.mulVec a i) / refZ s Zb, ?_, ?_, ?_, ?_⟩
            · have := (C13_documented_circuit hf hS (a + S.mulVec a) (fun i => (a i - S.mulVec a i) / refZ s Zb)).1 (by
                unfold ScatterV
                simp only [hfw]
                funext i; simp only [Pi.add_apply]; field_simp; ring)
              exact this
            · intro i
              have hi : i.1 < ports.length := by omega
              have hi2 : i.1 < Ea.length := by omega
              have h3 := List.Forall₂.get hfa hi hi2
              simp only [List.get_eq_getElem, excitation] at h3
              rw [hfw]
              show RfBase.dictGet E ports[i.1] = _
              cases hd : RfBase.dictGet E ports[i.1] with
              | none => rw [hd] at h3; cases h3
              | some x =>
                rw [hd] at h3
                injection h3 with h3
                rw [h3, ha]
                simp [List.getD_eq_getElem?_getD, List.getElem?_eq_getElem hi2]
            · intro i
              exact h2 _ (List.mem_map.2 ⟨i, List.mem_finRange i, rfl⟩)
            · obtain ⟨hk1, hk2⟩ := List.getElem?_eq_some_iff.1 hk
              refine ⟨⟨k, by omega⟩, hk2, ?_⟩
              rw [List.getElem?_map] at h1
              have : (List.finRange 2)[k]? = some ⟨k, by omega⟩ := by
                rw [List.getElem?_eq_getElem (by simp; omega)]; simp
              rw [this] at h1
              exact Option.some.inj h1

/-- **C48 (rfRLC.maxV: refusal).** A port without excitation is not taken as undriven: KeyError, and nothing changes. -/
theorem C48_rfRLC_missing {npc : Bool} {s : St} {ports : List String} {f : ℝ} {E : List (String × ℂ)} {Zb : Option ℝ}
    {p : String} (hp : p ∈ ports) (h : p ∉ E.map Prod.fst) : maxV npc s ports f E Zb = (s, .error .keyError) := by
  have : mapE (excitation E) ports = .error .keyError := by
    cases hm : mapE (excitation E) ports with
    | error e =>
      obtain ⟨x, -, hx⟩ := mapE_eq_error hm
      unfold excitation at hx
      split at hx
      · cases hx
      · injection hx with hx; rw [← hx]
    | ok l =>
      exfalso
      have hf := mapE_eq_ok.1 hm
      obtain ⟨i, hi, rfl⟩ := List.mem_iff_getElem.1 hp
      have h1 := List.Forall₂.get hf hi (by rw [← hf.length_eq]; exact hi)
      simp only [List.get_eq_getElem, excitation] at h1
      cases hd : RfBase.dictGet E ports[i] with
      | none => simp [hd] at h1
      | some x =>
        unfold RfBase.dictGet at hd
        cases hq : E.find? (fun x => x.1 = ports[i]) with
        | none => simp [hq] at hd
        | some y =>
          have h3 := List.find?_some hq
          simp only [decide_eq_true_eq] at h3
          exact h (by rw [← h3]; exact List.mem_map_of_mem (List.mem_of_find?_eq_some hq))
  unfold maxV
  rw [this]

/-- **C48 (rfRLC.maxV), unknown names.** A wave for a name that is not a port is silently ignored. -/
theorem C48_rfRLC_unknown_ignored {npc : Bool} {s : St} {ports : List String} {f : ℝ} {E : List (String × ℂ)}
    {Zb : Option ℝ} {q : String} (v : ℂ) (hq : q ∉ ports) :
    maxV npc s ports f ((q, v) :: E) Zb = maxV npc s ports f E Zb := by
  have : ∀ l : List String, (∀ p ∈ l, p ∈ ports) → mapE (excitation ((q, v) :: E)) l = mapE (excitation E) l := by
    intro l
    induction l with
    | nil => intro _; rfl
    | cons p l ih =>
      intro hl
      have hne : q ≠ p := fun hc => hq (hc ▸ hl p (by simp))
      have e : excitation ((q, v) :: E) p = excitation E p := by
        unfold excitation RfBase.dictGet
        rw [List.find?_cons_of_neg (by simpa using hne)]
      unfold mapE
      rw [e, ih fun x hx => hl x (by simp [hx])]
  unfold maxV
  rw [this ports fun p hp => hp]

namespace Ex

/-- 10 Ohm and 1 F in series, 100 Ohm shunt, driven with 1 at `s` -/
theorem C48_rfRLC_witness : ∃ s' r, maxV false obj ["s", "p"] 1 [("s", 1), ("p", 0)] none = (s', .ok r) := by
  obtain ⟨s', S, h, -⟩ := C14_witness 1 one_ne_zero
  unfold maxV
  have e : mapE (excitation [("s", (1 : ℂ)), ("p", 0)]) ["s", "p"] = .ok [1, 0] := by
    simp [mapE, excitation, RfBase.dictGet]
  rw [e]
  simp only [h]
  rw [if_neg (by simp)]
  cases hm : RfBase.maxAt ((List.finRange 2).map fun i => ‖([1, 0] : List ℂ).getD i.1 0 + S.mulVec (fun i : Fin 2 => ([1, 0] : List ℂ).getD i.1 0) i‖) with
  | none =>
    have := RfBase.maxAt_none.1 hm
    simp at this
  | some q =>
    obtain ⟨m, k⟩ := q
    obtain ⟨h1, -, -⟩ := RfBase.maxAt_some hm
    have hk : k < 2 := by
      have := (List.getElem?_eq_some_iff.1 h1).1
      simpa using this
    simp only
    rw [List.getElem?_eq_getElem (by simpa using hk)]
    exact ⟨_, _, rfl⟩

end Ex
end PyRFtk.RLC
