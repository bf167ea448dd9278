import Verif.CircuitConnect

/-!
# `terminate` and `deembed` preserve the representation invariant
-/

set_option linter.unusedSectionVars false

namespace PyRFtk.Circuit

section
variable {K O F Fl : Type*} [Field K] [DecidableEq F] [DecidableEq Fl]
variable {ops : ObjOps K O F Fl} {net : Net K} {c : Core K O} {k : ℕ}

/-! ### dictionaries -/

section dict
variable {α β γ : Type*} [DecidableEq α]

theorem dictGet_mem {d : List (α × β)} {k : α} {v : β} (h : dictGet k d = some v) : (k, v) ∈ d := by
  unfold dictGet at h
  induction d with
  | nil => simp at h
  | cons x d ih =>
    obtain ⟨k', v'⟩ := x
    rw [List.lookup_cons] at h
    by_cases hk : k = k'
    · subst hk; simp at h; simp [h]
    · rw [beq_false_of_ne hk] at h; exact List.mem_cons_of_mem _ (ih h)

theorem dictGet_none {d : List (α × β)} {k : α} : dictGet k d = none ↔ k ∉ d.map Prod.fst := by
  unfold dictGet
  rw [List.lookup_eq_none_iff]
  constructor
  · intro h hm
    obtain ⟨x, hx, rfl⟩ := List.mem_map.1 hm
    simpa using h x hx
  · intro h x hx
    simp only [ne_eq, bne_iff_ne]
    rintro rfl
    exact h (List.mem_map_of_mem hx)

theorem dictGet_of_mem {d : List (α × β)} (hnd : (d.map Prod.fst).Nodup) {k : α} {v : β} (h : (k, v) ∈ d) :
    dictGet k d = some v := by
  unfold dictGet
  induction d with
  | nil => simp at h
  | cons x d ih =>
    obtain ⟨k', v'⟩ := x
    simp only [List.map_cons, List.nodup_cons] at hnd
    rw [List.lookup_cons]
    simp only [List.mem_cons, Prod.mk.injEq] at h
    rcases h with ⟨rfl, rfl⟩ | h
    · simp
    · have : k ≠ k' := by
        rintro rfl; exact hnd.1 (List.mem_map_of_mem h)
      rw [beq_false_of_ne this]; exact ih hnd.2 h

theorem dictSet_keys_mem {d : List (α × β)} {k : α} {v : β} (h : k ∈ d.map Prod.fst) :
    (dictSet k v d).map Prod.fst = d.map Prod.fst := by
  induction d with
  | nil => simp at h
  | cons x d ih =>
    obtain ⟨k', v'⟩ := x
    unfold dictSet
    by_cases hk : k' = k
    · simp [hk]
    · rw [if_neg hk]
      simp only [List.map_cons, List.cons.injEq, true_and]
      refine ih ?_
      simpa [Ne.symm hk] using h

theorem dictSet_not_mem {d : List (α × β)} {k : α} {v : β} (h : k ∉ d.map Prod.fst) :
    dictSet k v d = d ++ [(k, v)] := by
  induction d with
  | nil => simp [dictSet]
  | cons x d ih =>
    obtain ⟨k', v'⟩ := x
    simp only [List.map_cons, List.mem_cons, not_or] at h
    unfold dictSet
    rw [if_neg (Ne.symm h.1), ih h.2]; simp

theorem dictSet_self {d : List (α × β)} {k : α} {v : β} (h : dictGet k d = some v) : dictSet k v d = d := by
  unfold dictGet at h
  induction d with
  | nil => simp at h
  | cons x d ih =>
    obtain ⟨k', v'⟩ := x
    rw [List.lookup_cons] at h
    unfold dictSet
    by_cases hk : k' = k
    · subst hk; simp at h; simp [h]
    · rw [beq_false_of_ne (Ne.symm hk)] at h
      rw [if_neg hk, ih h]

theorem mem_dictSet {d : List (α × β)} {k : α} {v : β} {x : α × β} (h : x ∈ dictSet k v d) :
    x = (k, v) ∨ (x ∈ d) := by
  induction d with
  | nil => simp [dictSet] at h; exact Or.inl h
  | cons y d ih =>
    obtain ⟨k', v'⟩ := y
    unfold dictSet at h
    by_cases hk : k' = k
    · rw [if_pos hk] at h
      rcases List.mem_cons.1 h with h | h
      · exact Or.inl h
      · exact Or.inr (by simp [h])
    · rw [if_neg hk] at h
      rcases List.mem_cons.1 h with h | h
      · exact Or.inr (by simp [h])
      · rcases ih h with h | h
        · exact Or.inl h
        · exact Or.inr (by simp [h])

theorem forall₂_dictSet {R R' : α × β → α × γ → Prop} {p : α} {v : β} {v' : γ} (hkey : ∀ x y, R x y → x.1 = y.1)
    (hother : ∀ x y, R x y → x.1 ≠ p → R' x y) (hnew : R' (p, v) (p, v')) :
    ∀ {l : List (α × β)} {t : List (α × γ)}, (l.map Prod.fst).Nodup → List.Forall₂ R l t →
      List.Forall₂ R' (dictSet p v l) (dictSet p v' t) := by
  intro l t hnd h
  induction h with
  | nil => simpa [dictSet] using hnew
  | @cons x y l t h1 h2 ih =>
    obtain ⟨k1, v1⟩ := x
    obtain ⟨k2, v2⟩ := y
    have hk : k1 = k2 := hkey _ _ h1
    subst hk
    simp only [List.map_cons, List.nodup_cons] at hnd
    unfold dictSet
    by_cases hp : k1 = p
    · subst hp
      rw [if_pos rfl, if_pos rfl]
      refine .cons hnew ?_
      -- the rest does not contain the key
      have : ∀ {l : List (α × β)} {t : List (α × γ)}, k1 ∉ l.map Prod.fst → List.Forall₂ R l t → List.Forall₂ R' l t := by
        intro l t hn h
        induction h with
        | nil => exact .nil
        | cons g1 _ ih =>
          simp only [List.map_cons, List.mem_cons, not_or] at hn
          exact .cons (hother _ _ g1 (Ne.symm hn.1)) (ih hn.2)
      exact this hnd.1 h2
    · rw [if_neg hp, if_neg hp]
      exact .cons (hother _ _ h1 hp) (ih hnd.2)

theorem forall₂_keys {R : α × β → α × γ → Prop} (hkey : ∀ x y, R x y → x.1 = y.1) {l : List (α × β)}
    {t : List (α × γ)} (h : List.Forall₂ R l t) : l.map Prod.fst = t.map Prod.fst := by
  induction h with
  | nil => rfl
  | cons h1 _ ih => simp [hkey _ _ h1, ih]
end dict

theorem termRho_load {zb : K} {args : TermArgs K} {rho : K} (h : termRho zb args = .ok rho) :
    ∃ l, args.load = some l ∧ loadRho zb l rho := by
  cases args with
  | Z z =>
    simp only [termRho] at h
    split at h
    · cases h
    · rename_i hz; injection h with h; exact ⟨.Z z, rfl, hz, h.symm⟩
  | Y y =>
    simp only [termRho] at h
    split at h
    · cases h
    · rename_i hz; injection h with h; exact ⟨.Y y, rfl, hz, h.symm⟩
  | RC r => simp only [termRho] at h; injection h with h; exact ⟨.RC r, rfl, h.symm⟩
  | default => simp only [termRho] at h; injection h with h; exact ⟨.RC 0, rfl, h.symm⟩
  | several => simp [termRho] at h
  | unknown => simp [termRho] at h

/-- The row of a termination holds iff the load's law holds (C19). -/
theorem loadRho_law {zb : K} {l : Load K} {rho i o : K} (h : loadRho zb l rho) :
    rho * o - i = 0 ↔ l.Law zb i o := by
  cases l with
  | Z z =>
    obtain ⟨h1, rfl⟩ := h
    simp only [Load.Law]
    rw [sub_eq_zero, div_mul_eq_mul_div, div_eq_iff h1]
    constructor <;> intro h <;> linear_combination -h
  | Y y =>
    obtain ⟨h1, rfl⟩ := h
    simp only [Load.Law]
    rw [sub_eq_zero, div_mul_eq_mul_div, div_eq_iff h1]
    constructor <;> intro h <;> linear_combination h
  | RC r =>
    simp only [loadRho] at h; subst h
    simp only [Load.Law]
    rw [sub_eq_zero]; exact eq_comm

theorem rowEval_tRow {waves : List Wave} {w : Wave → K} {a b : ℕ} {rho : K} {x y : Wave} (ha : waves[a]? = some x)
    (hb : waves[b]? = some y) (hab : a ≠ b) : rowEval waves (tRow a b rho) w = rho * w y - w x := by
  unfold tRow
  rw [rowEval_setCol hb, rowEval_setCol ha, rowEval_zero, setCol_ne (Ne.symm hab)]
  simp [zeroRow]; ring

theorem getElem?_inj_of_nodup {α : Type*} {l : List α} (hnd : l.Nodup) {i j : ℕ} {x : α} (hi : l[i]? = some x)
    (hj : l[j]? = some x) : i = j := by
  have h1 := (List.getElem?_eq_some_iff.1 hi)
  have h2 := (List.getElem?_eq_some_iff.1 hj)
  obtain ⟨h1, e1⟩ := h1
  obtain ⟨h2, e2⟩ := h2
  exact (List.Nodup.getElem_inj_iff hnd).1 (e1.trans e2.symm)

theorem RepD.loads_keys (h : RepD ops net c k) : net.loads.map Prod.fst = c.T.map Prod.fst :=
  forall₂_keys (fun _ _ hh => hh.1) h.tT

theorem used_load_mem {p : Node} {l : Load K} (h : p ∈ net.loads.map Prod.fst) : (net.load p l).used = net.used := by
  simp [Net.used, Net.load, dictSet_keys_mem h]

theorem used_load_not_mem {p : Node} {l : Load K} (h : p ∉ net.loads.map Prod.fst) :
    (net.load p l).used = net.used ++ [p] := by
  simp [Net.used, Net.load, dictSet_not_mem h]

theorem modify_getElem?_ne {α : Type*} {l : List α} {i j : ℕ} {f : α → α} (h : i ≠ j) : (l.modify i f)[j]? = l[j]? := by
  rw [List.getElem?_modify]; simp [h]

theorem modify_getElem?_self {α : Type*} {l : List α} {i : ℕ} {f : α → α} {x : α} (h : l[i]? = some x) :
    (l.modify i f)[i]? = some (f x) := by
  rw [List.getElem?_modify]; simp [h]

/-- changing the value of an existing termination -/
theorem RepD.reterminate (h : RepD ops net c k) {p : Node} {a b e : ℕ} {l : Load K} {rho : K}
    (hT : dictGet p c.T = some (a, b, e)) (hl : loadRho c.zbase l rho) :
    RepD ops (net.load p l) { c with rows := setEntry c.rows e b rho } k := by
  have hmem := dictGet_mem hT
  have hkeys := h.loads_keys
  obtain ⟨h1, h2, h3, rho0, r0, h5, h6⟩ : c.waves[a]? = some (.inn, p) ∧ c.waves[b]? = some (.out, p) ∧
      c.eqns[e]? = some (.T p) ∧ ∃ rho0 r0, c.rows[e]? = some r0 ∧ ∀ j, j < c.waves.length → r0 j = tRow a b rho0 j := by
    obtain ⟨i, hi⟩ := List.getElem?_of_mem hmem
    have hlen := h.tT.length_eq
    have hi' : i < net.loads.length := by rw [hlen]; exact (List.getElem?_eq_some_iff.1 hi).1
    have := (List.forall₂_iff_get.1 h.tT).2 i hi' (by rw [← hlen]; exact hi')
    have hg : c.T.get ⟨i, by rw [← hlen]; exact hi'⟩ = (p, (a, b, e)) := by
      obtain ⟨q, hq⟩ := List.getElem?_eq_some_iff.1 hi; exact hq
    rw [hg] at this
    obtain ⟨g1, g2, g3, g4, rho0, r, _, g6, g7⟩ := this
    simp only at g1 g2 g3 g4 g6 g7
    rw [g1] at g2 g3 g4
    exact ⟨g2, g3, g4, rho0, r, g6, g7⟩
  have hne : ∀ {i : ℕ} {x : Eqn}, c.eqns[i]? = some x → x ≠ .T p → e ≠ i := by
    rintro i x hi hx rfl
    rw [h3] at hi; injection hi with hi; exact hx hi.symm
  have hab : a ≠ b := by rintro rfl; rw [h1] at h2; simp at h2
  refine { h with brow := ?_, elen := ?_, tT := ?_, eE := ?_, core := ?_, count := ?_, pmem := ?_, und := ?_, usub := ?_ }
  · intro x hx k hk
    obtain ⟨r, g1, g2⟩ := h.brow x hx k hk
    refine ⟨r, ?_, g2⟩
    show (c.rows.modify e _)[_]? = _
    rw [modify_getElem?_ne (hne (h.eS x hx k hk) (by simp))]; exact g1
  · simpa [setEntry] using h.elen
  · rw [← dictSet_self hT]
    show List.Forall₂ _ (dictSet p l net.loads) _
    refine forall₂_dictSet (R := TRep c) (fun _ _ hh => hh.1) ?_ ?_ (by rw [hkeys]; exact h.tnd) h.tT
    · rintro x t ⟨g1, g2, g3, g4, rho1, r, g5, g6, g7⟩ hx
      refine ⟨g1, g2, g3, g4, rho1, r, g5, ?_, g7⟩
      show (c.rows.modify e _)[_]? = _
      rw [modify_getElem?_ne (hne g4 (by simpa using hx))]; exact g6
    · refine ⟨rfl, h1, h2, h3, rho, setCol r0 b rho, hl, ?_, ?_⟩
      · exact modify_getElem?_self h5
      · intro j hj
        by_cases hjb : j = b
        · subst hjb; simp [tRow, setCol]
        · rw [setCol_ne hjb, h6 j hj]
          simp only [tRow]; rw [setCol_ne hjb, setCol_ne hjb]
  · intro q e' hq
    obtain ⟨g1, a', r, g2, g3, g4⟩ := h.eE q e' hq
    refine ⟨g1, a', r, g2, ?_, g4⟩
    show (c.rows.modify e _)[_]? = _
    rw [modify_getElem?_ne (hne g1 (by simp))]; exact g3
  · intro w
    show CoreHold _ w ↔ net.CoreLaws w
    rw [← h.core w]
    constructor
    · intro H i r x hr hx hc
      refine H i r x ?_ hx hc
      show (c.rows.modify e _)[_]? = _
      rw [modify_getElem?_ne (hne hx (by rintro rfl; simp [Eqn.IsCore] at hc))]; exact hr
    · intro H i r x hr hx hc
      refine H i r x ?_ hx hc
      have hr : (c.rows.modify e _)[i]? = _ := hr
      rw [modify_getElem?_ne (hne hx (by rintro rfl; simp [Eqn.IsCore] at hc))] at hr; exact hr
  · intro q
    rw [used_load_mem (by rw [hkeys]; exact List.mem_map_of_mem hmem)]
    exact h.pmem q
  · rw [used_load_mem (by rw [hkeys]; exact List.mem_map_of_mem hmem)]; exact h.und
  · rw [used_load_mem (by rw [hkeys]; exact List.mem_map_of_mem hmem)]; exact h.usub
  · simpa [setEntry] using h.count

theorem set_getElem?_ne {α : Type*} {l : List α} {i j : ℕ} {x : α} (h : i ≠ j) : (l.set i x)[j]? = l[j]? := by
  rw [List.getElem?_set]; simp [h]

theorem set_getElem?_self {α : Type*} {l : List α} {i : ℕ} {x y : α} (h : l[i]? = some y) :
    (l.set i x)[i]? = some x := by
  rw [List.getElem?_set]; simp [(List.getElem?_eq_some_iff.1 h).1]

theorem dictPop_mem {α β : Type*} [DecidableEq α] {d : List (α × β)} {k : α} {x : α × β} :
    x ∈ dictPop k d ↔ x ∈ d ∧ x.1 ≠ k := by simp [dictPop]

theorem dictPop_length {α β : Type*} [DecidableEq α] {d : List (α × β)} {k : α} (hnd : (d.map Prod.fst).Nodup)
    (h : k ∈ d.map Prod.fst) : (dictPop k d).length + 1 = d.length := by
  induction d with
  | nil => simp at h
  | cons x d ih =>
    simp only [List.map_cons, List.nodup_cons] at hnd
    simp only [List.map_cons, List.mem_cons] at h
    unfold dictPop at *
    by_cases hk : x.1 = k
    · rw [List.filter_cons_of_neg (by simpa using hk)]
      have : d.filter (fun e => decide (e.1 ≠ k)) = d := by
        rw [List.filter_eq_self]
        intro y hy
        simp only [ne_eq, decide_not, Bool.not_eq_eq_eq_not, Bool.not_true, decide_eq_false_iff_not]
        rintro rfl
        exact hnd.1 (hk ▸ List.mem_map_of_mem hy)
      rw [this]; simp
    · rw [List.filter_cons_of_pos (by simpa using hk)]
      have := ih hnd.2 (by rcases h with h | h; exact absurd h.symm hk; exact h)
      simpa using this

/-- terminating a port that was external in an evaluated circuit -/
theorem RepD.termExt (h : RepD ops net c k) {p : Node} {a b e : ℕ} {l : Load K} {rho : K}
    (hT : dictGet p c.T = none) (hEp : dictGet p c.E = some e) (hl : loadRho c.zbase l rho)
    (ha : c.waves[a]? = some (.inn, p)) (hb : c.waves[b]? = some (.out, p)) :
    RepD ops (net.load p l) { c with
      rows := setEntry (setEntry c.rows e a (-1)) e b rho
      eqns := c.eqns.set e (.T p)
      T := dictSet p (a, b, e) c.T
      E := dictPop p c.E
      ports := c.ports.filter (fun q => q ≠ p) } k := by
  have hmem := dictGet_mem hEp
  have hkeys := h.loads_keys
  have hpl : p ∉ net.loads.map Prod.fst := by rw [hkeys]; exact dictGet_none.1 hT
  have hEne : c.E ≠ [] := by rintro h0; rw [h0] at hmem; simp at hmem
  obtain ⟨hal, hek⟩ := h.ekeys.resolve_left hEne
  have hpp : p ∈ c.ports := (hek p).1 (List.mem_map_of_mem hmem)
  obtain ⟨h3, a', r0, h4, h5, h6⟩ := h.eE p e hmem
  have : a' = a := getElem?_inj_of_nodup h.wnd h4 ha
  subst this
  have hab : a' ≠ b := by rintro rfl; rw [ha] at hb; simp at hb
  have hne : ∀ {i : ℕ} {x : Eqn}, c.eqns[i]? = some x → x ≠ .E p → e ≠ i := by
    rintro i x hi hx rfl
    rw [h3] at hi; injection hi with hi; exact hx hi.symm
  have hrow : ∀ {i : ℕ}, e ≠ i → (setEntry (setEntry c.rows e a' (-1)) e b rho)[i]? = c.rows[i]? := by
    intro i hi
    unfold setEntry
    rw [modify_getElem?_ne hi, modify_getElem?_ne hi]
  have hrow' : (setEntry (setEntry c.rows e a' (-1)) e b rho)[e]? = some (setCol (setCol r0 a' (-1)) b rho) := by
    unfold setEntry
    exact modify_getElem?_self (modify_getElem?_self h5)
  have heq : ∀ {i : ℕ} {x : Eqn}, (c.eqns.set e (.T p))[i]? = some x → x ≠ .T p → c.eqns[i]? = some x ∧ e ≠ i := by
    intro i x hi hx
    by_cases hei : e = i
    · subst hei
      rw [set_getElem?_self h3] at hi; injection hi with hi; exact absurd hi.symm hx
    · rw [set_getElem?_ne hei] at hi; exact ⟨hi, hei⟩
  have heq' : ∀ {i : ℕ} {x : Eqn}, c.eqns[i]? = some x → x ≠ .E p → (c.eqns.set e (.T p))[i]? = some x := by
    intro i x hi hx
    rw [set_getElem?_ne (hne hi hx)]; exact hi
  refine { h with brow := ?_, elen := ?_, eS := ?_, eS' := ?_, tT := ?_, tT' := ?_, tnd := ?_, eE := ?_, eE' := ?_,
                  ednd := ?_, core := ?_, count := ?_, pnd := h.pnd.filter _, pmem := ?_, und := ?_, usub := ?_,
                  ekeys := ?_ }
  · intro x hx k hk
    obtain ⟨r, g1, g2⟩ := h.brow x hx k hk
    exact ⟨r, by rw [hrow (hne (h.eS x hx k hk) (by simp))]; exact g1, g2⟩
  · simpa [setEntry] using h.elen
  · intro x hx k hk
    exact heq' (h.eS x hx k hk) (by simp)
  · intro i n hi
    exact h.eS' i n (heq hi (by simp)).1
  · show List.Forall₂ _ (dictSet p l net.loads) _
    refine forall₂_dictSet (R := TRep c) (fun _ _ hh => hh.1) ?_ ?_ (by rw [hkeys]; exact h.tnd) h.tT
    · rintro x t ⟨g1, g2, g3, g4, rho1, r, g5, g6, g7⟩ hx
      exact ⟨g1, g2, g3, heq' g4 (by simp), rho1, r, g5, by rw [hrow (hne g4 (by simp))]; exact g6, g7⟩
    · refine ⟨rfl, ha, hb, set_getElem?_self h3, rho, _, hl, hrow', ?_⟩
      intro j hj
      by_cases hjb : j = b
      · subst hjb; simp [tRow, setCol]
      · simp only [tRow]
        rw [setCol_ne hjb, setCol_ne hjb]
        by_cases hja : j = a'
        · subst hja; simp [setCol]
        · rw [setCol_ne hja, setCol_ne hja, h6 j hj, eRow, setCol_ne hja]
  · intro i q hi
    by_cases hq : q = p
    · subst hq
      by_cases hei : e = i
      · subst hei
        refine ⟨a', b, ?_⟩
        show _ ∈ dictSet _ _ _
        rw [dictSet_not_mem (dictGet_none.1 hT)]; simp
      · have hi : (c.eqns.set e (.T q))[i]? = _ := hi
        rw [set_getElem?_ne hei] at hi
        obtain ⟨x, y, hxy⟩ := h.tT' i q hi
        exact absurd (List.mem_map_of_mem hxy) (dictGet_none.1 hT)
    · obtain ⟨x, y, hxy⟩ := h.tT' i q (heq hi (by simpa using hq)).1
      refine ⟨x, y, ?_⟩
      show _ ∈ dictSet _ _ _
      rw [dictSet_not_mem (dictGet_none.1 hT)]; simp [hxy]
  · show ((dictSet _ _ _).map _).Nodup
    rw [dictSet_not_mem (dictGet_none.1 hT)]
    simp only [List.map_append, List.map_cons, List.map_nil]
    refine List.Nodup.append h.tnd (by simp) ?_
    intro x h1 h2
    simp only [List.mem_singleton] at h2; subst h2
    exact dictGet_none.1 hT h1
  · intro q e' hq
    obtain ⟨hq, hqp⟩ := dictPop_mem.1 hq
    obtain ⟨g1, x, r, g2, g3, g4⟩ := h.eE q e' hq
    have hx : Eqn.E q ≠ .E p := by simpa using hqp
    exact ⟨heq' g1 hx, x, r, g2, by rw [hrow (hne g1 hx)]; exact g3, g4⟩
  · intro i q hi
    obtain ⟨g1, g2⟩ := heq hi (by simp)
    refine dictPop_mem.2 ⟨h.eE' i q g1, ?_⟩
    simp only
    rintro rfl
    have := h.eE' i q g1
    have e1 := dictGet_of_mem h.ednd this
    rw [hEp] at e1; injection e1 with e1; exact g2 e1
  · exact h.ednd.sublist ((List.filter_sublist).map _)
  · intro w
    show CoreHold _ w ↔ net.CoreLaws w
    rw [← h.core w]
    constructor
    · intro H i r x hr hx hc
      have hx1 : x ≠ .E p := by rintro rfl; simp [Eqn.IsCore] at hc
      exact H i r x (by rw [hrow (hne hx hx1)]; exact hr) (heq' hx hx1) hc
    · intro H i r x hr hx hc
      obtain ⟨g1, g2⟩ := heq hx (by rintro rfl; simp [Eqn.IsCore] at hc)
      exact H i r x (by have hr : (setEntry _ _ _ _)[i]? = _ := hr; rw [hrow g2] at hr; exact hr) g1 hc
  · intro q
    rw [used_load_not_mem hpl]
    simp only [List.mem_filter, decide_eq_true_eq, List.mem_append, List.mem_singleton, not_or]
    rw [h.pmem]; simp only [Net.load]; tauto
  · rw [used_load_not_mem hpl]
    refine List.Nodup.append h.und (by simp) ?_
    intro x h1 h2
    simp only [List.mem_singleton] at h2; subst h2
    exact ((h.pmem x).1 hpp).2 h1
  · intro q hq
    rw [used_load_not_mem hpl, List.mem_append, List.mem_singleton] at hq
    rcases hq with hq | rfl
    · exact h.usub q hq
    · exact ((h.pmem q).1 hpp).1
  · have h1 := h.count
    have h2 := dictPop_length h.ednd (List.mem_map_of_mem hmem)
    have h3 : (c.ports.filter (fun q => q ≠ p)).length + 1 = c.ports.length := by
      rw [← nodup_eraseIdx_idxOf h.pnd, List.length_eraseIdx, if_pos (idx_lt hpp)]
      have := idx_lt hpp
      omega
    have h4 : (setEntry (setEntry c.rows e a' (-1)) e b rho).length = c.rows.length := by simp [setEntry]
    simp only at h2 ⊢
    rw [h4]; omega
  · right
    refine ⟨hal, fun q => ?_⟩
    simp only [List.mem_map, dictPop_mem, List.mem_filter, decide_eq_true_eq]
    rw [← hek q, List.mem_map]
    constructor
    · rintro ⟨x, ⟨h1, h2⟩, rfl⟩; exact ⟨⟨x, h1, rfl⟩, h2⟩
    · rintro ⟨⟨x, h1, rfl⟩, h2⟩; exact ⟨x, ⟨h1, h2⟩, rfl⟩

/-- terminating a free port of a circuit without external-port equations -/
theorem RepD.termNew (h : RepD ops net c k) {p : Node} {a b : ℕ} {l : Load K} {rho : K} {j : ℕ}
    (hT : dictGet p c.T = none) (hE : c.E = []) (hl : loadRho c.zbase l rho) (hp : p ∈ c.ports)
    (ha : c.waves[a]? = some (.inn, p)) (hb : c.waves[b]? = some (.out, p)) (hj : j = c.rows.length) :
    RepD ops (net.load p l) { c with
      rows := c.rows ++ [tRow a b rho]
      eqns := c.eqns ++ [.T p]
      T := dictSet p (a, b, j) c.T
      ports := c.ports.filter (fun q => q ≠ p) } k := by
  have hkeys := h.loads_keys
  have hpl : p ∉ net.loads.map Prod.fst := by rw [hkeys]; exact dictGet_none.1 hT
  have hel := h.elen
  have heq : ∀ {i : ℕ} {x : Eqn}, (c.eqns ++ [Eqn.T p])[i]? = some x → x ≠ .T p → c.eqns[i]? = some x := by
    intro i x hi hx
    rcases getElem?_append_cases hi with h1 | ⟨_, h1⟩
    · exact h1
    · have := List.mem_of_getElem? h1
      simp only [List.mem_singleton] at this
      exact absurd this hx
  have hnew : (c.rows ++ [(tRow a b rho : ℕ → K)])[j]? = some (tRow a b rho) := by
    rw [List.getElem?_append_right (by omega), hj]; simp
  refine { h with brow := ?_, elen := ?_, eS := ?_, eS' := ?_, tT := ?_, tT' := ?_, tnd := ?_, eE := ?_, eE' := ?_,
                  core := ?_, count := ?_, pnd := h.pnd.filter _, pmem := ?_, und := ?_, usub := ?_,
                  ekeys := Or.inl hE }
  · intro x hx k hk
    obtain ⟨r, g1, g2⟩ := h.brow x hx k hk
    exact ⟨r, getElem?_append_some g1, g2⟩
  · simp [hel]
  · intro x hx k hk
    exact getElem?_append_some (h.eS x hx k hk)
  · intro i n hi
    exact h.eS' i n (heq hi (by simp))
  · show List.Forall₂ _ (dictSet p l net.loads) _
    refine forall₂_dictSet (R := TRep c) (fun _ _ hh => hh.1) ?_ ?_ (by rw [hkeys]; exact h.tnd) h.tT
    · rintro x t ⟨g1, g2, g3, g4, rho1, r, g5, g6, g7⟩ hx
      exact ⟨g1, g2, g3, getElem?_append_some g4, rho1, r, g5, getElem?_append_some g6, g7⟩
    · refine ⟨rfl, ha, hb, ?_, rho, _, hl, hnew, fun _ _ => rfl⟩
      simp only
      rw [List.getElem?_append_right (by omega), hj, hel]; simp
  · intro i q hi
    show ∃ x y, _ ∈ dictSet _ _ _
    rw [dictSet_not_mem (dictGet_none.1 hT)]
    rcases getElem?_append_cases hi with h1 | ⟨h1, h2⟩
    · obtain ⟨x, y, hxy⟩ := h.tT' i q h1
      exact ⟨x, y, by simp [hxy]⟩
    · have h3 := (List.getElem?_eq_some_iff.1 h2).1
      have h4 := List.mem_of_getElem? h2
      simp only [List.mem_singleton, Eqn.T.injEq] at h4
      subst h4
      simp only [List.length_singleton] at h3
      have : i = j := by omega
      subst this
      exact ⟨a, b, by simp⟩
  · show ((dictSet _ _ _).map _).Nodup
    rw [dictSet_not_mem (dictGet_none.1 hT)]
    simp only [List.map_append, List.map_cons, List.map_nil]
    refine List.Nodup.append h.tnd (by simp) ?_
    intro x h1 h2
    simp only [List.mem_singleton] at h2; subst h2
    exact dictGet_none.1 hT h1
  · intro q e' hq
    rw [hE] at hq; simp at hq
  · intro i q hi
    exact h.eE' i q (heq hi (by simp))
  · intro w
    show CoreHold _ w ↔ net.CoreLaws w
    rw [← h.core w]
    constructor
    · intro H i r x hr hx hc
      exact H i r x (getElem?_append_some hr) (getElem?_append_some hx) hc
    · intro H i r x hr hx hc
      have g1 := heq hx (by rintro rfl; simp [Eqn.IsCore] at hc)
      rcases getElem?_append_cases hr with h1 | ⟨h1, _⟩
      · exact H i r x h1 g1 hc
      · have := (List.getElem?_eq_some_iff.1 g1).1; omega
  · intro q
    rw [used_load_not_mem hpl]
    simp only [List.mem_filter, decide_eq_true_eq, List.mem_append, List.mem_singleton, not_or]
    rw [h.pmem]; simp only [Net.load]; tauto
  · rw [used_load_not_mem hpl]
    refine List.Nodup.append h.und (by simp) ?_
    intro x h1 h2
    simp only [List.mem_singleton] at h2; subst h2
    exact ((h.pmem x).1 hp).2 h1
  · intro q hq
    rw [used_load_not_mem hpl, List.mem_append, List.mem_singleton] at hq
    rcases hq with hq | rfl
    · exact h.usub q hq
    · exact ((h.pmem q).1 hp).1
  · have h1 := h.count
    have h3 : (c.ports.filter (fun q => q ≠ p)).length + 1 = c.ports.length := by
      rw [← nodup_eraseIdx_idxOf h.pnd, List.length_eraseIdx, if_pos (idx_lt hp)]
      have := idx_lt hp
      omega
    simp only [List.length_append, List.length_singleton]
    omega

theorem rep_terminate {s s' : St K O F Fl} (h : Rep ops net s) {p : Node} {args : TermArgs K}
    (hs : terminate s p args = (s', .ok ())) : ∃ l, args.load = some l ∧ Rep ops (net.load p l) s' := by
  unfold terminate at hs
  cases hr : termRho s.zbase args with
  | error e => simp [hr] at hs
  | ok rho =>
    obtain ⟨l, hl1, hl2⟩ := termRho_load hr
    refine ⟨l, hl1, ?_⟩
    simp only [hr] at hs
    cases hT : dictGet p s.T with
    | some t =>
      obtain ⟨a, b, e⟩ := t
      simp only [hT] at hs
      injection hs with hs _
      subst hs
      exact ⟨h.rep.reterminate hT hl2, h.wlen, h.bnode⟩
    | none =>
      simp only [hT] at hs
      cases hE : dictGet p s.E with
      | some e =>
        simp only [hE] at hs
        cases ha : pyIndex s.waves (.inn, p) with
        | error e => simp [ha] at hs
        | ok a =>
          cases hb : pyIndex s.waves (.out, p) with
          | error e => simp [ha, hb] at hs
          | ok b =>
            simp only [ha, hb] at hs
            cases hp : pyIndex s.ports p with
            | error e => simp [hp] at hs
            | ok kp =>
              simp only [hp] at hs
              cases hx : pyPop s.xpos kp with
              | error e => simp [hx] at hs
              | ok xs =>
                simp only [hx] at hs
                injection hs with hs _
                subst hs
                obtain ⟨_, rfl⟩ := pyIndex_ok hp
                have := h.rep.termExt hT hE hl2 (pyIndex_ok ha).1 (pyIndex_ok hb).1
                refine ⟨?_, h.wlen, h.bnode⟩
                have hnd : s.ports.Nodup := h.rep.pnd
                show RepD ops _ ⟨_, _, _, s.ports.eraseIdx _, _, _, _, _, _⟩ 0
                rw [nodup_eraseIdx_idxOf hnd]
                exact this
      | none =>
        simp only [hE] at hs
        cases hp : pyIndex s.ports p with
        | error e => simp [hp] at hs
        | ok kp =>
          simp only [hp] at hs
          cases hx : pyPop s.xpos kp with
          | error e => simp [hx] at hs
          | ok xs =>
            simp only [hx] at hs
            cases ha : pyIndex s.waves (.inn, p) with
            | error e => simp [ha] at hs
            | ok a =>
              cases hb : pyIndex s.waves (.out, p) with
              | error e => simp [ha, hb] at hs
              | ok b =>
                simp only [ha, hb] at hs
                injection hs with hs _
                subst hs
                have hpm := pyIndex_isOk hp
                obtain ⟨_, rfl⟩ := pyIndex_ok hp
                have hE0 : s.E = [] := by
                  rcases h.rep.ekeys with h0 | ⟨_, h1⟩
                  · exact h0
                  · exact absurd ((h1 p).2 hpm) (dictGet_none.1 hE)
                have := h.rep.termNew hT hE0 hl2 hpm (pyIndex_ok ha).1 (pyIndex_ok hb).1 rfl
                refine ⟨?_, h.wlen, h.bnode⟩
                have hnd : s.ports.Nodup := h.rep.pnd
                show RepD ops _ ⟨_, _, _, s.ports.eraseIdx _, _, _, _, _, _⟩ 0
                rw [nodup_eraseIdx_idxOf hnd]
                exact this

end
end PyRFtk.Circuit
