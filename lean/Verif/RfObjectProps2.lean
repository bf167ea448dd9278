import Verif.RfObjectProps

/-!
# `rfObject`: reference change, port order, pickling, port voltages (C34, C36, C48, C52)
-/

namespace PyRFtk.RfObject

variable {n : ℕ}

theorem onRef_ok {Zown Z : ℝ} {S T : Mat n} (hz : Z ≠ 0) (h : onRef Zown Z S = .ok T) :
    (Z = Zown → T = S) ∧ ∀ V I, ScatterV (Zown : ℂ) S V I ↔ ScatterV (Z : ℂ) T V I := by
  unfold onRef at h
  by_cases hZ : Z = Zown
  · rw [if_pos hZ] at h
    injection h with h
    subst h hZ
    exact ⟨fun _ => rfl, fun _ _ => Iff.rfl⟩
  · rw [if_neg hZ] at h
    refine ⟨fun h => absurd h hZ, ?_⟩
    cases hc : convertGeneral (.d0 (Z : ℂ)) (.d2 n n S) (.d0 (Zown : ℂ)) "V" "V" with
    | error e => simp [hc] at h
    | ok R =>
      simp only [hc] at h
      obtain ⟨S', rfl, hS⟩ := convertVV_one (by exact_mod_cast hz) hc
      simp only [asMat, and_self, dite_true, Except.ok.injEq] at h
      have h : S' = T := h
      subst h
      exact hS

/-- **C34 (rfObject, other reference).** `getS(f, Zbase)` describes, on the requested reference, exactly the port voltages and
currents that the matrix of the object on its own reference describes. -/
theorem C34_rfObject_reference {env : Env n} {o o' : Obj n} {f Z : ℝ} {T : Mat n} (hz : Z ≠ 0)
    (h : getS env o f (some Z) = (o', .ok T)) :
    ∃ S, getS env o f none = (o', .ok S) ∧ ∀ V I, ScatterV (o.Zbase : ℂ) S V I ↔ ScatterV (Z : ℂ) T V I := by
  unfold getS at h ⊢
  cases hg : get1S env o f with
  | mk o1 r =>
    cases r with
    | error e => simp [hg] at h
    | ok S =>
      simp only [hg, Option.getD_some] at h
      obtain ⟨rfl, h2⟩ := Prod.mk.inj h
      refine ⟨S, ?_, (onRef_ok hz h2).2⟩
      simp [onRef]

/-- **C34 (rfObject, empty sequence: violation).** `getS([])` raises UnboundLocalError instead of returning an empty array. -/
theorem C34_rfObject_empty (env : Env n) (o : Obj n) (Zb : Option ℝ) : getSs env o [] Zb = (o, .error .unboundLocal) := by
  simp [getSs]

/-- **C34 (rfObject, sequences).** `getS` of a sequence returns one matrix per frequency, and at every stored frequency it is a
matrix stored for that frequency. -/
theorem C34_rfObject_sequence {env : Env n} (hs : env.Sorts) {o o' : Obj n} {data fs l} (h : Logged env o data)
    (hg : getSs env o fs none = (o', .ok l)) :
    List.Forall₂ (fun f S => f ∈ data.map Prod.fst → (f, S) ∈ data) fs l := by
  unfold getSs at hg
  split at hg
  · cases (Prod.mk.inj hg).2
  simp only [Option.getD_none] at hg
  clear * - h hs hg
  have hZ : ∀ (p : Obj n), Logged env p data → p.Zbase = o.Zbase → ∀ l, getSsLoop env o.Zbase p fs = (o', .ok l) →
      List.Forall₂ (fun f S => f ∈ data.map Prod.fst → (f, S) ∈ data) fs l := by
    clear hg l h
    induction fs with
    | nil => intro p hp _ l hg; cases (Prod.mk.inj hg).2; exact .nil
    | cons f fs ih =>
      intro p hp hZ l hg
      unfold getSsLoop at hg
      cases h1 : getS env p f (some o.Zbase) with
      | mk o1 r =>
        cases r with
        | error e => simp [h1] at hg
        | ok S =>
          simp only [h1] at hg
          have hp1 := hp.getS h1
          have e1 : get1S env p f = (o1, (get1S env p f).2) := Prod.ext (by rw [← getS_fst (Zb := some o.Zbase), h1]) rfl
          have hZ1 : o1.Zbase = o.Zbase := by rw [(get1S_inv hs (hp.inv hs) e1).2.2.1, hZ]
          cases h2 : getSsLoop env o.Zbase o1 fs with
          | mk o2 r =>
            cases r with
            | error e => simp [h2] at hg
            | ok l' =>
              simp only [h2] at hg
              obtain ⟨rfl, e⟩ := Prod.mk.inj hg
              cases e
              refine .cons (fun hf => ?_) (ih _ hp1 hZ1 _ h2)
              obtain ⟨T, hT, hgT⟩ := C34_rfObject_stored hs hp hf
              have : getS env p f (some o.Zbase) = getS env p f none := by simp [getS, hZ]
              rw [this, hgT] at h1
              obtain ⟨-, e⟩ := Prod.mk.inj h1
              cases e
              exact hT
  exact hZ o h rfl l hg

/-! ## C36 -/

/-- `x` is the entry of `S` from the port named `q` to the port named `p` -/
def Between (ports : List String) (S : Mat n) (p q : String) (x : ℂ) : Prop :=
  ∃ i j : Fin n, ports[i.1]? = some p ∧ ports[j.1]? = some q ∧ S i j = x

theorem portOrder_perm {env : Env n} (hs : env.Sorts) {ports : List String} {order idxs}
    (h : portOrder env ports order = .ok idxs) : idxs.Perm (List.range ports.length) := by
  unfold portOrder at h
  cases order with
  | none =>
    simp only at h
    injection h with h
    subst h
    exact hs.strperm _
  | some order =>
    simp only at h
    cases hm : mapE (fun p => if p ∈ ports then Except.ok (ports.idxOf p) else .error Err.valueError) order with
    | error e => simp [hm] at h
    | ok l =>
      simp only [hm] at h
      split at h
      · cases h
      · rename_i hl
        injection h with h
        subst h
        have hsub : List.range ports.length ⊆ l ++ (List.range ports.length).filter (fun k => decide (k ∉ l)) := by
          intro k hk
          by_cases hkl : k ∈ l
          · simp [hkl]
          · simp only [List.mem_append, List.mem_filter, hk, hkl]; simp
        have hsp := List.subperm_of_subset List.nodup_range hsub
        refine (hsp.perm_of_length_le ?_).symm
        simpa using (not_not.1 hl).le

theorem asMap_some {idxs : List ℕ} (h : idxs.Perm (List.range n)) :
    ∃ σ : Fin n → Fin n, asMap n idxs = some σ ∧ Function.Bijective σ ∧ ∀ i, idxs[i.1]? = some (σ i).1 := by
  have hc : idxs.length = n ∧ ∀ k ∈ idxs, k < n :=
    ⟨by simpa using h.length_eq, fun k hk => by simpa using h.subset hk⟩
  refine ⟨_, dif_pos hc, ?_, fun i => List.getElem?_eq_getElem _⟩
  apply (Finite.injective_iff_bijective).1
  intro i j hij
  have hnd : idxs.Nodup := h.nodup_iff.2 List.nodup_range
  have := (List.Nodup.getElem_inj_iff hnd).1 (Fin.mk.inj hij)
  exact Fin.ext this

theorem take_getElem? {α : Type} {l : List α} {idxs : List ℕ} (h : ∀ k ∈ idxs, k < l.length) (i : ℕ) :
    (take l idxs)[i]? = idxs[i]?.bind fun k => l[k]? := by
  have := congrArg (fun m => m[i]?) (take_map h)
  simp only [List.getElem?_map] at this
  cases hi : idxs[i]? with
  | none => rw [hi] at this; simpa using this
  | some k =>
    rw [hi] at this
    cases ht : (take l idxs)[i]? with
    | none => rw [ht] at this; simp at this
    | some x => rw [ht] at this; simpa using this

theorem between_perm {ports : List String} (hp : ports.length = n) {idxs : List ℕ} (h : idxs.Perm (List.range n)) {σ : Fin n → Fin n}
    (hb : Function.Bijective σ) (hσ : ∀ i, idxs[i.1]? = some (σ i).1) (S : Mat n) (p q : String) (x : ℂ) :
    Between (take ports idxs) (S.submatrix σ σ) p q x ↔ Between ports S p q x := by
  have hlt : ∀ k ∈ idxs, k < ports.length := fun k hk => by rw [hp]; simpa using h.subset hk
  have e : ∀ i : Fin n, (take ports idxs)[i.1]? = ports[(σ i).1]? := by
    intro i; rw [take_getElem? hlt, hσ]; rfl
  constructor
  · rintro ⟨i, j, h1, h2, h3⟩
    rw [e] at h1 h2
    exact ⟨σ i, σ j, h1, h2, h3⟩
  · rintro ⟨i, j, h1, h2, h3⟩
    obtain ⟨i', rfl⟩ := hb.2 i
    obtain ⟨j', rfl⟩ := hb.2 j
    exact ⟨i', j', by rw [e]; exact h1, by rw [e]; exact h2, h3⟩

/-- what `sortports` does -/
theorem sortports_cases {env : Env n} (hs : env.Sorts) {o o' : Obj n} (hp : o.ports.length = n) {order r}
    (h : sortports env o order = (o', r)) :
    (o' = o ∧ ∃ e, r = .error e) ∨ ∃ idxs σ, portOrder env o.ports order = .ok idxs ∧ idxs.Perm (List.range n) ∧ Function.Bijective σ ∧
      (∀ i : Fin n, idxs[i.1]? = some (σ i).1) ∧ o'.ports = take o.ports idxs ∧ o'.Ss = o.Ss.map (fun S => S.submatrix σ σ) ∧
      o'.fs = o.fs ∧ o'.sorted = o.sorted ∧ o'.interp = o.interp ∧ o'.xpos = o.xpos ∧ o'.Zbase = o.Zbase ∧
      (r = .error .indexError ∧ o.colsOk = false ∧ n ≠ 0 ∨ r = .ok ()) := by
  unfold sortports at h
  cases ho : portOrder env o.ports order with
  | error e =>
    simp only [ho] at h
    obtain ⟨rfl, rfl⟩ := Prod.mk.inj h
    exact .inl ⟨rfl, e, rfl⟩
  | ok idxs =>
    have hperm := portOrder_perm hs ho
    rw [hp] at hperm
    obtain ⟨σ, h1, h2, h3⟩ := asMap_some hperm
    simp only [ho, h1] at h
    refine .inr ⟨idxs, σ, rfl, hperm, h2, h3, ?_⟩
    split at h
    · rename_i hc
      obtain ⟨rfl, rfl⟩ := Prod.mk.inj h
      exact ⟨rfl, rfl, rfl, rfl, rfl, rfl, rfl, .inl ⟨rfl, hc⟩⟩
    · obtain ⟨rfl, rfl⟩ := Prod.mk.inj h
      exact ⟨rfl, rfl, rfl, rfl, rfl, rfl, rfl, .inr rfl⟩

/-- **C36 (stored frequencies).** Whatever the order asked for, and whether the call succeeds or raises, after `sortports` every
stored matrix has between any two named ports the entry it had before; the names are the same ones. -/
theorem C36_stored {env : Env n} (hs : env.Sorts) {o o' : Obj n} (hp : o.ports.length = n) {order r}
    (h : sortports env o order = (o', r)) :
    o'.fs = o.fs ∧ o'.ports.Perm o.ports ∧
    List.Forall₂ (fun S S' => ∀ p q x, Between o.ports S p q x ↔ Between o'.ports S' p q x) o.Ss o'.Ss := by
  rcases sortports_cases hs hp h with ⟨rfl, -⟩ | ⟨idxs, σ, -, hperm, hb, hσ, e1, e2, e3, -⟩
  · exact ⟨rfl, .refl _, List.forall₂_same.2 fun _ _ _ _ _ => Iff.rfl⟩
  · rw [e1, e2, e3]
    refine ⟨rfl, take_perm (by rw [hp]; exact hperm), ?_⟩
    rw [List.forall₂_map_right_iff]
    exact List.forall₂_same.2 fun S _ p q x => (between_perm hp hperm hb hσ S p q x).symm

theorem take_append {α : Type} (l : List α) (a b : List ℕ) : take l (a ++ b) = take l a ++ take l b := by
  simp [take, List.filterMap_append]

/-- **C36 (requested order).** A successful `sortports(order)` puts the ports named in `order` first, in that order, and keeps the
others behind them in their previous relative order. -/
theorem C36_order {env : Env n} (hs : env.Sorts) {o o' : Obj n} (hp : o.ports.length = n) (hnd : o.ports.Nodup) {order}
    (h : sortports env o (some order) = (o', .ok ())) :
    o'.ports = order ++ o.ports.filter (fun p => decide (p ∉ order)) := by
  rcases sortports_cases hs hp h with ⟨-, e, he⟩ | ⟨idxs, σ, ho, hperm, hb, hσ, e1, -⟩
  · cases he
  rw [e1]
  unfold portOrder at ho
  simp only at ho
  cases hm : mapE (fun p => if p ∈ o.ports then Except.ok (o.ports.idxOf p) else .error Err.valueError) order with
  | error e => simp [hm] at ho
  | ok l =>
    simp only [hm] at ho
    split at ho
    · cases ho
    injection ho with ho
    subst ho
    rw [take_append]
    have hf := mapE_eq_ok.1 hm
    have hl : take o.ports l = order ∧ ∀ k, k ∈ l ↔ ∃ p ∈ order, p ∈ o.ports ∧ o.ports.idxOf p = k := by
      clear hm hσ hperm e1 h
      rename_i hX; clear hX
      induction hf with
      | nil => exact ⟨rfl, by simp⟩
      | @cons p k order l h1 _ ih =>
        split at h1
        · rename_i hpm
          injection h1 with h1
          have hk : o.ports[k]? = some p := by
            rw [← h1, List.getElem?_eq_getElem (List.idxOf_lt_length_iff.2 hpm), List.getElem_idxOf]
          refine ⟨?_, ?_⟩
          · unfold take at ih ⊢
            simp only [List.filterMap_cons, hk, ih.1]
          · intro j
            rw [List.mem_cons, ih.2]
            constructor
            · rintro (rfl | ⟨q, hq, h⟩)
              · exact ⟨p, by simp, hpm, h1⟩
              · exact ⟨q, by simp [hq], h⟩
            · rintro ⟨q, hq, h2, h3⟩
              rcases List.mem_cons.1 hq with rfl | hq
              · left; rw [← h3, h1]
              · exact .inr ⟨q, hq, h2, h3⟩
        · cases h1
    rw [hl.1]
    congr 1
    have key : ∀ m ≤ o.ports.length, take o.ports ((List.range m).filter (fun k => decide (k ∉ l))) =
        (o.ports.take m).filter (fun p => decide (p ∉ order)) := by
      intro m
      induction m with
      | zero => intro _; simp [take]
      | succ m ih =>
        intro hm
        rw [List.range_succ, List.filter_append, take_append, ih (by omega), List.take_succ_eq_append_getElem (by omega),
          List.filter_append]
        congr 1
        have hmm : o.ports[m]? = some o.ports[m] := List.getElem?_eq_getElem _
        have hiff : m ∈ l ↔ o.ports[m] ∈ order := by
          rw [hl.2]
          constructor
          · rintro ⟨p, h1, h2, rfl⟩
            rw [List.getElem_idxOf]; exact h1
          · intro h
            exact ⟨_, h, List.getElem_mem _, hnd.idxOf_getElem m _⟩
        by_cases hml : m ∈ l
        · have := hiff.1 hml
          simp [hml, this, take]
        · have : o.ports[m] ∉ order := fun h => hml (hiff.2 h)
          simp [hml, this, take, hmm]
    have := key o.ports.length le_rfl
    rwa [List.take_length] at this

/-- **C36 (refusal).** Naming a port the object does not have, or naming one twice, is refused and changes nothing. -/
theorem C36_refused (env : Env n) (o : Obj n) (order : List String)
    (h : (∃ p ∈ order, p ∉ o.ports) ∨ ¬ order.Nodup) : sortports env o (some order) = (o, .error .valueError) := by
  have key : portOrder env o.ports (some order) = .error .valueError := by
    unfold portOrder
    simp only
    cases hm : mapE (fun p => if p ∈ o.ports then Except.ok (o.ports.idxOf p) else .error Err.valueError) order with
    | error e =>
      obtain ⟨x, -, hx⟩ := mapE_eq_error hm
      split at hx
      · cases hx
      · injection hx with hx; rw [← hx]
    | ok l =>
      have hf := mapE_eq_ok.1 hm
      have hall : ∀ p ∈ order, p ∈ o.ports := by
        clear hm h
        induction hf with
        | nil => simp
        | cons h1 _ ih =>
          intro p hp
          rcases List.mem_cons.1 hp with rfl | hp
          · by_contra hn; rw [if_neg hn] at h1; cases h1
          · exact ih p hp
      have hnd : ¬ order.Nodup := by
        rcases h with ⟨p, h1, h2⟩ | h
        · exact absurd (hall p h1) h2
        · exact h
      have hl : l = order.map o.ports.idxOf := by
        clear hm h hnd
        induction hf with
        | nil => rfl
        | cons h1 _ ih =>
          rw [if_pos (hall _ (by simp))] at h1
          injection h1 with h1
          rw [List.map_cons, h1, ← ih fun p hp => hall p (by simp [hp])]
      simp only
      rw [if_pos]
      intro hlen
      have hsub : List.range o.ports.length ⊆ l ++ (List.range o.ports.length).filter (fun k => decide (k ∉ l)) := by
        intro k hk
        by_cases hkl : k ∈ l
        · simp [hkl]
        · simp only [List.mem_append, List.mem_filter, hk, hkl]; simp
      have hperm := (List.subperm_of_subset List.nodup_range hsub).perm_of_length_le (by simpa using hlen.le)
      have hn2 : l.Nodup := (List.nodup_append.1 (hperm.nodup_iff.1 List.nodup_range)).1
      rw [hl] at hn2
      exact hnd hn2.of_map
  simp only [sortports, key]

/-- interpolating is done entry by entry: reordering the ports of the data reorders the result -/
def Env.Entrywise (env : Env n) : Prop := ∀ fs Ss (σ : Fin n → Fin n), Function.Bijective σ →
  env.build fs (Ss.map fun S => S.submatrix σ σ) = match env.build fs Ss with
    | .error e => .error e
    | .ok F => .ok fun f => match F f with | .error e => .error e | .ok S => .ok (S.submatrix σ σ)

/-- **C36 (interpolated frequencies, partial).** If no interpolator has been built since the last `setS`, the interpolated matrices
too keep their entries between named ports. Missing: the case where interpolators are already built, which is false
(`C36_stale`). -/
theorem C36_interpolated_partial {env : Env n} (hs : env.Sorts) (he : env.Entrywise) {o o' : Obj n} (hp : o.ports.length = n)
    (ho : o.sorted = true) (hF : o.interp = none) {order r} (h : sortports env o order = (o', r)) {f : ℝ} (hf : f ∉ o.fs)
    {S' : Mat n} (hg : (getS env o' f none).2 = .ok S') :
    ∃ S, (getS env o f none).2 = .ok S ∧ ∀ p q x, Between o.ports S p q x ↔ Between o'.ports S' p q x := by
  rcases sortports_cases hs hp h with ⟨rfl, -⟩ | ⟨idxs, σ, -, hperm, hb, hσ, e1, e2, e3, e4, e5, e6, e7, -⟩
  · exact ⟨S', hg, fun _ _ _ => Iff.rfl⟩
  have hk : (List.range o.fs.length).find? (fun k => o.fs[k]? = some f) = none := by
    rw [List.find?_eq_none]
    intro j _ hj
    exact hf (List.mem_of_getElem? (by simpa using hj))
  have g : ∀ p : Obj n, p.fs = o.fs → p.sorted = true → p.interp = none → (getS env p f none).2 =
      match env.build p.fs p.Ss with | .error e => .error e | .ok F => F f := by
    intro p h1 h2 h3
    unfold getS get1S
    rw [h1]
    simp only [hk, interpolators, h3, sortFs, h2, if_true]
    rw [h1]
    cases hb : env.build o.fs p.Ss with
    | error e => rfl
    | ok F =>
      simp only
      cases hr : F f with
      | error e => rfl
      | ok S => simp [onRef]
  rw [g o' e3 (e4.trans ho) (e5.trans hF), e3, e2, he _ _ _ hb] at hg
  rw [g o rfl ho hF]
  cases hbu : env.build o.fs o.Ss with
  | error e => simp [hbu] at hg
  | ok F =>
    simp only [hbu] at hg ⊢
    cases hr : F f with
    | error e => simp [hr] at hg
    | ok S =>
      simp only [hr, Except.ok.injEq] at hg
      subst hg
      refine ⟨S, rfl, fun p q x => ?_⟩
      rw [e1]
      exact (between_perm hp hperm hb hσ S p q x).symm

/-- **C36 (violation: stale interpolators).** Once an interpolation has been done, `sortports` renames the ports of the interpolated
matrices without reordering them: the matrix returned is the same one as before, under the new names. -/
theorem C36_stale {env : Env n} (hs : env.Sorts) {o o' : Obj n} (hp : o.ports.length = n) {F : Fn n} (hF : o.interp = some F)
    {order r} (h : sortports env o order = (o', r)) {f : ℝ} (hf : f ∉ o.fs) :
    (getS env o' f none).2 = F f ∧ (getS env o f none).2 = F f := by
  have hk : (List.range o.fs.length).find? (fun k => o.fs[k]? = some f) = none := by
    rw [List.find?_eq_none]
    intro j _ hj
    exact hf (List.mem_of_getElem? (by simpa using hj))
  have g : ∀ p : Obj n, p.fs = o.fs → p.interp = o.interp → (getS env p f none).2 = F f := by
    intro p h1 h2
    unfold getS get1S
    rw [h1]
    simp only [hk, interpolators, h2, hF]
    cases hr : F f with
    | error e => rfl
    | ok S => simp [onRef]
  refine ⟨?_, g o rfl rfl⟩
  rcases sortports_cases hs hp h with ⟨rfl, -⟩ | ⟨idxs, σ, -, hperm, hb, hσ, e1, e2, e3, e4, e5, -⟩
  · exact g _ rfl rfl
  · exact g _ e3 e5

/-- **C36 (violation: port positions).** `sortports` never moves the port positions. -/
theorem C36_xpos {env : Env n} (hs : env.Sorts) {o o' : Obj n} (hp : o.ports.length = n) {order r}
    (h : sortports env o order = (o', r)) : o'.xpos = o.xpos := by
  rcases sortports_cases hs hp h with ⟨rfl, -⟩ | ⟨idxs, σ, -, hperm, hb, hσ, e1, e2, e3, e4, e5, e6, -⟩
  · rfl
  · exact e6

/-! ## C52: pickling -/

/-- **C52.** In every history a pickled and reloaded object gives the same answers as the original at every frequency and on every
reference. -/
theorem C52_pickle {env : Env n} (hs : env.Sorts) {o : Obj n} {data} (h : Logged env o data) (f : ℝ) (Zb : Option ℝ) :
    (getS env (pickled o) f Zb).2 = (getS env o f Zb).2 := by
  have hi := h.inv hs
  have key : (get1S env (pickled o) f).2 = (get1S env o f).2 := by
    unfold get1S
    have e : (pickled o).fs = o.fs := rfl
    have e' : (pickled o).Ss = o.Ss := rfl
    rw [e, e']
    cases hk : (List.range o.fs.length).find? (fun k => o.fs[k]? = some f) with
    | some k => rfl
    | none =>
      simp only
      cases ho : o.sorted with
      | false =>
        have hs1 : (interpolators env (pickled o)).2 = .error .indexError :=
          (interpolators_inv (o' := (interpolators env (pickled o)).1) hs (h.pickle.inv hs) rfl).2.2.2 ho
        have hs2 : (interpolators env o).2 = .error .indexError :=
          (interpolators_inv (o' := (interpolators env o).1) hs hi rfl).2.2.2 ho
        cases h1 : interpolators env (pickled o) with
        | mk a b =>
          cases h2 : interpolators env o with
          | mk c d =>
            rw [h1] at hs1; rw [h2] at hs2
            simp only at hs1 hs2
            subst hs1 hs2
            rfl
      | true =>
        have e1 : interpolators env (pickled o) = match env.build o.fs o.Ss with
          | .error e => (pickled o, .error e)
          | .ok F => ({ pickled o with interp := some F }, .ok F) := by
          have : (pickled o).sorted = true := ho
          simp only [interpolators, pickled, sortFs, ho, if_true]
          cases env.build o.fs o.Ss <;> rfl
        rw [e1]
        cases hF : o.interp with
        | some F => simp only [interpolators, hF, hi.cache F hF]
        | none =>
          simp only [interpolators, hF, sortFs, ho, if_true]
          cases env.build o.fs o.Ss <;> rfl
  have hg : ∀ p : Obj n, p.Zbase = o.Zbase → (getS env p f Zb).2 = match (get1S env p f).2 with
      | .error e => .error e
      | .ok S => onRef o.Zbase (Zb.getD o.Zbase) S := by
    intro p hp
    unfold getS
    cases h1 : get1S env p f with
    | mk a b => cases b <;> simp [hp]
  rw [hg (pickled o) rfl, hg o rfl, key]

/-- **C52 (violation).** After pickling, `sortports` raises IndexError on every object filled with `setS` (with at least one port),
while on the original it succeeds. -/
theorem C52_pickle_sortports {env : Env n} (hs : env.Sorts) (hn : n ≠ 0) {o : Obj n} {data} (h : Logged env o data) (hc : o.colsOk = true)
    : (sortports env o none).2 = .ok () ∧ (sortports env (pickled o) none).2 = .error .indexError := by
  have hi := h.inv hs
  have hp := hi.ports
  have e : portOrder env o.ports none = .ok (env.strsort o.ports) := rfl
  have hperm := portOrder_perm hs e
  rw [hp] at hperm
  obtain ⟨σ, h1, -, -⟩ := asMap_some hperm
  constructor
  · simp only [sortports, e, h1, hc]
    rw [if_neg (by simp)]
  · have e2 : (pickled o).ports = o.ports := rfl
    have e3 : (pickled o).colsOk = false := by simp [pickled, hi.rows.1]
    simp only [sortports, e2, e, h1, e3]
    rw [if_pos ⟨by simp, hn⟩]

/-! ## C48 -/

theorem lexLe_iff {a b : ℂ} : lexLe a b = true ↔ a.re < b.re ∨ a.re = b.re ∧ a.im ≤ b.im := by simp [lexLe]

theorem lexMaxAt_some : ∀ {l : List ℂ} {m : ℂ} {k : ℕ}, lexMaxAt l = some (m, k) → l[k]? = some m ∧ ∀ x ∈ l, x.re ≤ m.re
  | [], m, k, h => by simp [lexMaxAt] at h
  | x :: xs, m, k, h => by
    unfold lexMaxAt at h
    cases hm : lexMaxAt xs with
    | none =>
      have : xs = [] := by
        cases xs with
        | nil => rfl
        | cons y ys =>
          unfold lexMaxAt at hm
          cases hq : lexMaxAt ys with
          | none => simp [hq] at hm
          | some q => obtain ⟨a, b⟩ := q; simp only [hq] at hm; split at hm <;> cases hm
      subst this
      simp [lexMaxAt] at h
      obtain ⟨rfl, rfl⟩ := h
      simp
    | some q =>
      obtain ⟨m', k'⟩ := q
      obtain ⟨h1, h2⟩ := lexMaxAt_some hm
      simp only [hm] at h
      split at h
      · rename_i hle
        simp only [Option.some.injEq, Prod.mk.injEq] at h
        obtain ⟨rfl, rfl⟩ := h
        refine ⟨rfl, fun y hy => ?_⟩
        rcases List.mem_cons.1 hy with rfl | hy
        · exact le_rfl
        · rcases lexLe_iff.1 hle with h | h
          · exact (h2 y hy).trans h.le
          · exact (h2 y hy).trans h.1.le
      · rename_i hle
        simp only [Option.some.injEq, Prod.mk.injEq] at h
        obtain ⟨rfl, rfl⟩ := h
        refine ⟨by simpa using h1, fun y hy => ?_⟩
        rcases List.mem_cons.1 hy with rfl | hy
        · rw [lexLe_iff] at hle
          push Not at hle
          by_contra hc
          exact absurd (hle.1) (not_le.2 (not_le.1 hc))
        · exact h2 y hy

/-- **C48 (rfObject.maxV, partial).** With an excitation for every port, the value returned is the complex voltage of the port
named and no port voltage has a larger real part. Missing: it is not the largest magnitude (`C48_rfObject_wrong`). -/
theorem C48_rfObject_partial {ports : List String} (hn : ports.length = n) {S : Mat n} {E : List (String × ℂ)} {a : Fin n → ℂ}
    (ha : ∀ i : Fin n, RfBase.dictGet E (ports.get (i.cast hn.symm)) = some (a i)) {m : ℂ} {p : String}
    (h : maxV ports (.ok S) E = .ok (m, p)) :
    (∃ i : Fin n, ports[i.1]? = some p ∧ (a + S.mulVec a) i = m) ∧ ∀ i, ((a + S.mulVec a) i).re ≤ m.re := by
  unfold maxV at h
  cases hm : mapE (excitation E) ports with
  | error e => simp [hm] at h
  | ok l =>
    have hf := mapE_eq_ok.1 hm
    have hl : (fun i : Fin n => l.getD i.1 0) = a := by
      funext i
      have hi : i.1 < ports.length := by omega
      have hi2 : i.1 < l.length := by rw [← hf.length_eq]; exact hi
      have h1 := List.Forall₂.get hf hi hi2
      have h2 := ha i
      have h2 : RfBase.dictGet E (ports[i.1]) = some (a i) := h2
      simp only [List.get_eq_getElem, excitation, h2, Except.ok.injEq] at h1
      rw [List.getD_eq_getElem?_getD, List.getElem?_eq_getElem hi2, Option.getD_some, h1]
    simp only [hm, hl] at h
    cases hx : lexMaxAt ((List.finRange n).map fun i => l.getD i.1 0 + S.mulVec (fun i : Fin n => l.getD i.1 0) i) with
    | none => rw [hl] at hx; simp only [hx] at h; cases h
    | some q =>
      obtain ⟨m', k⟩ := q
      rw [hl] at hx
      have hl' : ∀ i : Fin n, l.getD i.1 0 = a i := fun i => congrFun hl i
      simp only [hl'] at h hx
      simp only [hx] at h
      cases hpk : ports[k]? with
      | none => simp [hpk] at h
      | some p' =>
        simp only [hpk, Except.ok.injEq, Prod.mk.injEq] at h
        obtain ⟨rfl, rfl⟩ := h
        obtain ⟨h1, h2⟩ := lexMaxAt_some hx
        have hk : k < n := by rw [← hn]; exact (List.getElem?_eq_some_iff.1 hpk).1
        refine ⟨⟨⟨k, hk⟩, hpk, ?_⟩, fun i => ?_⟩
        · rw [List.getElem?_map] at h1
          have : (List.finRange n)[k]? = some ⟨k, hk⟩ := by
            rw [List.getElem?_eq_getElem (by simp; omega)]; simp
          rw [this] at h1
          exact Option.some.inj h1
        · exact h2 _ (List.mem_map.2 ⟨i, List.mem_finRange i, rfl⟩)

/-- **C48 (rfObject.maxV: violation).** On a matched two-port driven with 1 and −2 the value returned is 1 although one port
voltage has magnitude 2. -/
theorem C48_rfObject_wrong : maxV (n := 2) ["1", "2"] (.ok 0) [("1", 1), ("2", -2)] = .ok (1, "1") ∧
    ‖(-2 : ℂ) + (0 : Mat 2).mulVec ![1, -2] 1‖ = 2 := by
  constructor
  · have h1 : RfBase.dictGet [("1", (1 : ℂ)), ("2", -2)] "1" = some 1 := by simp [RfBase.dictGet]
    have h2 : RfBase.dictGet [("1", (1 : ℂ)), ("2", -2)] "2" = some (-2) := by
      simp [RfBase.dictGet]
    have hle : lexLe (-2) 1 = true := by rw [lexLe_iff]; left; norm_num
    simp [maxV, mapE, excitation, h1, h2, List.finRange_succ, lexMaxAt, hle]
  · simp

/-- **C48 (rfObject.maxV: violation).** Unlike the other classes, a port without excitation is not taken as undriven: KeyError. -/
theorem C48_rfObject_missing (ports : List String) (S : Except Err (Mat n)) (E : List (String × ℂ)) {p : String} (hp : p ∈ ports)
    (h : p ∉ E.map Prod.fst) : maxV ports S E = .error .keyError := by
  have : mapE (excitation E) ports = .error .keyError := by
    cases hm : mapE (excitation E) ports with
    | error e =>
      obtain ⟨x, -, hx⟩ := mapE_eq_error hm
      unfold excitation at hx
      split at hx
      · cases hx
      · injection hx with hx; rw [← hx]
    | ok l =>
      exfalso
      have hf := mapE_eq_ok.1 hm
      obtain ⟨i, hi, rfl⟩ := List.mem_iff_getElem.1 hp
      have h1 := List.Forall₂.get hf hi (by rw [← hf.length_eq]; exact hi)
      simp only [List.get_eq_getElem, excitation] at h1
      cases hd : RfBase.dictGet E ports[i] with
      | none => simp [hd] at h1
      | some x =>
        unfold RfBase.dictGet at hd
        cases hq : E.find? (fun x => x.1 = ports[i]) with
        | none => simp [hq] at hd
        | some y =>
          have h3 := List.mem_of_find?_eq_some hq
          have h4 := List.find?_some hq
          exact h (List.mem_map.2 ⟨y, h3, by simpa using h4⟩)
  simp only [maxV, this]

end PyRFtk.RfObject
