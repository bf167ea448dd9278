import Verif.HeapSet

/-!
# What `set` does (C32)
-/

set_option linter.unusedSectionVars false

namespace PyRFtk.Tree

open Classical

variable {V : Type*}

/-! ## `set` succeeds for dictionaries that address existing parameters -/

/-- for every recursion limit that is large enough, `obj.set(**d)` for the object at `b` is the sequence `t` of assignments -/
def Performs (g : Heap V) (b : Addr) (d : List (Name × Val V)) (t : List (Assign V)) : Prop :=
  ∃ N, ∀ fuel, N ≤ fuel → setObj fuel g b d = ((runs g t).1, .ok (runs g t).2)

theorem settable_add {h : Heap V} {xs : List Addr} {t : List (Assign V)} :
    (∀ s ∈ t.map (Assign.add xs), Settable h s) ↔ ∀ s ∈ t, Settable h s := by
  constructor
  · intro H s hs
    exact H (s.add xs) (List.mem_map_of_mem hs)
  · intro H s hs
    obtain ⟨x, hx, rfl⟩ := List.mem_map.1 hs
    exact H x hx

theorem performs_of_loop {g : Heap V} {b : Addr} {c : Circ V} (hb : g[b]? = some (.circ c)) {d : List (Name × Val V)}
    {t : List (Assign V)}
    (H : ∃ N, ∀ fuel, N ≤ fuel → setLoop (setObj fuel) c.blocks g d false = ((runs g t).1, .ok (runs g t).2)) :
    Performs g b d (t.map (Assign.add [b])) := by
  obtain ⟨N, hN⟩ := H
  refine ⟨N + 1, fun fuel hf => ?_⟩
  obtain ⟨f, rfl⟩ : ∃ f, fuel = f + 1 := ⟨fuel - 1, by omega⟩
  rw [setObj, hb]
  simp only [hN f (by omega), runs_add]

theorem performs_leaf {h : Heap V} {b : Addr} {l : Leaf V} (hb : h[b]? = some (.leaf l)) {d : List (Name × Val V)}
    (hs : ∀ s ∈ leafAssigns b d, Settable h s) : Performs h b d (leafAssigns b d) := by
  refine ⟨1, fun fuel hf => ?_⟩
  obtain ⟨f, rfl⟩ : ∃ f, fuel = f + 1 := ⟨fuel - 1, by omega⟩
  rw [setObj, hb]
  simp only
  obtain ⟨l', g1, g2⟩ := setLeaf_runs d h l false hb (fun x hx => by
    obtain ⟨l2, h1, h2⟩ := hs _ (List.mem_map_of_mem hx)
    rw [hb] at h1
    injection h1 with h1
    injection h1 with h1
    subst h1
    exact h2)
  simp only [g1, g2, Bool.false_or]
  simp

theorem setDict_complete {h : Heap V} {d : List (Name × Val V)} (hd : d ≠ []) {b : Addr} {T : List (Assign V)}
    (hcal : ∀ g, Shape h g → Performs g b d T) : ∀ (n : ℕ) (k : Name) (a : Addr) (c : Circ V), k.length ≤ n → k ≠ [] →
    h[a]? = some (.circ c) → findObj h a k = .ok (some b) → ∀ g, Shape h g →
    ∃ N, ∀ fuel, N ≤ fuel → setDict (setObj fuel) g c.blocks k d =
      ((runs g (T.map (Assign.add (through h a k).tail))).1, .ok (runs g (T.map (Assign.add (through h a k).tail))).2)
  | 0, k, a, c, hn, hk, _, _ => by
    exact absurd (List.length_pos_iff.2 hk) (by omega)
  | n + 1, k, a, c, hn, hk, ha, hf => by
    intro g hg
    cases hl : c.blocks.lookup (split1 k).1 with
    | none =>
      exfalso
      unfold findObj at hf
      rw [if_neg hk, ha] at hf
      simp only [hl] at hf
      cases hf
    | some b0 =>
      obtain ⟨hf1, ht1⟩ := findObj_step ha hk hl
      rw [hf1] at hf
      rw [ht1, List.tail_cons]
      have hlen := split1_getD_lt k hk
      unfold setDict
      simp only [hl]
      generalize (split1 k).2.getD [] = rest at *
      by_cases hr : rest = []
      · subst hr
        rw [findObj, if_pos rfl] at hf
        simp only [Except.ok.injEq, Option.some.injEq] at hf
        subst hf
        obtain ⟨N, hN⟩ := hcal g hg
        refine ⟨N, fun fuel hfu => ?_⟩
        rw [if_pos rfl, hN fuel hfu, through, if_pos rfl, add_nil]
        simp only [hd, if_false]
      · have hb0 : ∃ c0, h[b0]? = some (.circ c0) := by
          unfold findObj at hf
          rw [if_neg hr] at hf
          cases hb0 : h[b0]? with
          | none => rw [hb0] at hf; cases hf
          | some x =>
            cases x with
            | circ c0 => exact ⟨c0, rfl⟩
            | leaf l => rw [hb0] at hf; cases hf
            | arr l => rw [hb0] at hf; cases hf
        obtain ⟨c0, hb0⟩ := hb0
        obtain ⟨c1, hc1, hbl⟩ := hg.blocks hb0
        obtain ⟨N, hN⟩ := setDict_complete hd hcal n rest b0 c0 (by omega) hr hb0 hf g hg
        obtain ⟨N', hN'⟩ := performs_of_loop (t := T.map (Assign.add (through h b0 rest).tail)) hc1 (d := [(rest, .dict d)])
          ⟨N, fun fuel hfu => by
            simp only [setLoop, setItem]
            rw [hbl, hN fuel hfu]
            simp⟩
        rw [add_add] at hN'
        have hth : [b0] ++ (through h b0 rest).tail = through h b0 rest := by
          conv_rhs => unfold through
          conv_lhs => unfold through
          rw [if_neg hr, hb0]
          simp only
          cases c0.blocks.lookup (split1 rest).1 <;> rfl
        rw [hth] at hN'
        refine ⟨N', fun fuel hfu => ?_⟩
        rw [if_neg hr, hc1]
        simp only [hN' fuel hfu, hd, if_false]

theorem setLoop_complete {h : Heap V} {a : Addr} {kws : List (Name × Val V)} {T : List (Assign V)} (M : Means h a kws T) :
    (∀ s ∈ T, Settable h s) → ∀ c, h[a]? = some (.circ c) → ∃ T', T = T'.map (Assign.add [a]) ∧
    ∀ g, Shape h g → ∃ N, ∀ fuel, N ≤ fuel → ∀ m, setLoop (setObj fuel) c.blocks g kws m =
      ((runs g T').1, .ok (m || (runs g T').2)) := by
  have hhead : ∀ {a k c}, k ≠ [] → h[a]? = some (.circ c) → [a] ++ (through h a k).tail = through h a k := by
    intro a k c hk ha
    conv_rhs => unfold through
    conv_lhs => unfold through
    rw [if_neg hk, ha]
    simp only
    cases c.blocks.lookup (split1 k).1 <;> rfl
  -- one item followed by the others
  have glue : ∀ {a : Addr} {c : Circ V} {kw : Name} {v : Val V} {rest : List (Name × Val V)} {t1 t' : List (Assign V)},
      h[a]? = some (.circ c) →
      (∀ g, Shape h g → ∃ N, ∀ fuel, N ≤ fuel → setItem (setObj fuel) g c.blocks kw v = ((runs g t1).1, .ok (runs g t1).2)) →
      (∀ g, Shape h g → ∃ N, ∀ fuel, N ≤ fuel → ∀ m, setLoop (setObj fuel) c.blocks g rest m =
        ((runs g t').1, .ok (m || (runs g t').2))) →
      ∀ g, Shape h g → ∃ N, ∀ fuel, N ≤ fuel → ∀ m, setLoop (setObj fuel) c.blocks g ((kw, v) :: rest) m =
        ((runs g (t1 ++ t')).1, .ok (m || (runs g (t1 ++ t')).2)) := by
    intro a c kw v rest t1 t' ha H1 H2 g hg
    obtain ⟨N1, h1⟩ := H1 g hg
    obtain ⟨N2, h2⟩ := H2 (runs g t1).1 (hg.trans (runs_shape t1 g))
    refine ⟨max N1 N2, fun fuel hf m => ?_⟩
    rw [setLoop, h1 fuel (le_trans (le_max_left _ _) hf)]
    simp only
    rw [h2 fuel (le_trans (le_max_right _ _) hf), runs_append, Bool.or_assoc]
  induction M with
  | nil a =>
    intro _ c ha
    exact ⟨[], rfl, fun g _ => ⟨0, fun fuel _ m => by simp [setLoop, runs]⟩⟩
  | @num a k attr v b l rest t h1 h2 h3 h4 h5 ih =>
    intro hs c ha
    obtain ⟨t', rfl, H2⟩ := ih (fun s hs' => hs s (by simp [hs'])) c ha
    refine ⟨(leafAssigns b [(attr, .num v)]).map (Assign.add (through h a k).tail) ++ t', ?_, ?_⟩
    · rw [List.map_append, add_add, hhead h1 ha]
      simp [leafAssigns, Assign.add]
    · refine glue ha (fun g hg => ?_) H2
      have hcal : ∀ g, Shape h g → Performs g b [(attr, .num v)] (leafAssigns b [(attr, .num v)]) := by
        intro g hg
        obtain ⟨l', q1, -⟩ := hg.leaf h4
        refine performs_leaf q1 fun s hs' => ?_
        simp only [leafAssigns, List.map_cons, List.map_nil, List.mem_singleton] at hs'
        subst hs'
        exact (hs ⟨through h a k, b, attr, .num v⟩ (by simp)).shape hg
      obtain ⟨N, hN⟩ := setDict_complete (by simp) hcal k.length k a c (le_refl _) h1 ha h3 g hg
      refine ⟨N, fun fuel hf => ?_⟩
      rw [setItem, rsplit1_some.2 ⟨rfl, h2⟩]
      exact hN fuel hf
  | @leaf a k d b l rest t h1 h2 h3 h4 h5 ih =>
    intro hs c ha
    obtain ⟨t', rfl, H2⟩ := ih (fun s hs' => hs s (List.mem_append_right _ hs')) c ha
    refine ⟨(leafAssigns b d).map (Assign.add (through h a k).tail) ++ t', ?_, ?_⟩
    · rw [List.map_append, add_add, hhead h1 ha, leafAssigns, List.map_map]
      congr 1
      apply List.map_congr_left
      intro x _
      simp [Assign.add]
    · refine glue ha (fun g hg => ?_) H2
      have hcal : ∀ g, Shape h g → Performs g b d (leafAssigns b d) := by
        intro g hg
        obtain ⟨l', q1, -⟩ := hg.leaf h4
        refine performs_leaf q1 fun s hs' => ?_
        obtain ⟨x, hx, rfl⟩ := List.mem_map.1 hs'
        exact (hs ⟨through h a k, b, x.1, x.2⟩ (List.mem_append_left _ (List.mem_map_of_mem hx))).shape hg
      exact setDict_complete h2 hcal k.length k a c (le_refl _) h1 ha h3 g hg
  | @circ a k d b cb t1 rest t h1 h2 h3 h4 h5 h6 ih1 ih2 =>
    intro hs c ha
    obtain ⟨t', rfl, H2⟩ := ih2 (fun s hs' => hs s (List.mem_append_right _ hs')) c ha
    have hs1 : ∀ s ∈ t1, Settable h s := settable_add.1 (fun s hs' => hs s (List.mem_append_left _ hs'))
    obtain ⟨t1', rfl, H1⟩ := ih1 hs1 cb h4
    refine ⟨(t1'.map (Assign.add [b])).map (Assign.add (through h a k).tail) ++ t', ?_, ?_⟩
    · rw [List.map_append, add_add [a], hhead h1 ha]
    · refine glue ha (fun g hg => ?_) H2
      have hcal : ∀ g, Shape h g → Performs g b d (t1'.map (Assign.add [b])) := by
        intro g hg
        obtain ⟨c1, q1, q2⟩ := hg.blocks h4
        refine performs_of_loop q1 ?_
        obtain ⟨N, hN⟩ := H1 g hg
        refine ⟨N, fun fuel hf => ?_⟩
        rw [q2, hN fuel hf, Bool.false_or]
      exact setDict_complete h2 hcal k.length k a c (le_refl _) h1 ha h3 g hg

/-! ## what a sequence of assignments does -/

theorem valAt_put {h : Heap V} {b x : Addr} {n k : Name} {v : Val V} {l : Leaf V} (hb : h[b]? = some (.leaf l)) :
    valAt (h.modify b (Cell.put n v)) x k = if x = b ∧ k = n then some v else valAt h x k := by
  unfold valAt
  rw [List.getElem?_modify]
  by_cases hx : b = x
  · subst hx
    rw [hb]
    by_cases hk : k = n
    · subst hk; simp [Cell.put]
    · simp [Cell.put, hk]
  · simp [hx, Ne.symm hx]

theorem valAt_clears (xs : List Addr) (h : Heap V) (b : Addr) (n : Name) : valAt (xs.foldl uncache h) b n = valAt h b n := by
  induction xs generalizing h with
  | nil => rfl
  | cons x xs ih => rw [List.foldl_cons, ih, valAt_uncache]

theorem valAt_assign {h : Heap V} {s : Assign V} (hs : Settable h s) (x : Addr) (k : Name) :
    valAt (assign h s) x k = if x = s.obj ∧ k = s.attr then some s.val else valAt h x k := by
  obtain ⟨l, hl, -⟩ := hs
  unfold assign
  simp only
  split
  · rw [valAt_clears, valAt_put hl]
  · rw [valAt_put hl]

/-- parameters that are not addressed keep their value -/
theorem runs_other : ∀ (t : List (Assign V)) (h : Heap V), (∀ s ∈ t, Settable h s) → ∀ (x : Addr) (k : Name),
    (∀ s ∈ t, ¬ (s.obj = x ∧ s.attr = k)) → valAt (runs h t).1 x k = valAt h x k
  | [], h, _, x, k, _ => rfl
  | s :: t, h, hs, x, k, hno => by
    rw [runs, runs_other t (assign h s) (fun y hy => (hs y (by simp [hy])).shape (assign_shape h s)) x k
      (fun y hy => hno y (by simp [hy])), valAt_assign (hs s (by simp)), if_neg]
    rintro ⟨rfl, rfl⟩
    exact hno s (by simp) ⟨rfl, rfl⟩

/-- the last assignment to a parameter is the one that counts -/
theorem runs_last {t t' : List (Assign V)} {s : Assign V} {h : Heap V} (hs : ∀ y ∈ t ++ s :: t', Settable h y)
    (hlast : ∀ y ∈ t', ¬ (y.obj = s.obj ∧ y.attr = s.attr)) : valAt (runs h (t ++ s :: t')).1 s.obj s.attr = some s.val := by
  rw [runs_append]
  simp only [runs]
  have hsh := runs_shape t h
  rw [runs_other t' _ (fun y hy => ((hs y (by simp [hy])).shape hsh).shape (assign_shape _ s)) _ _ hlast,
    valAt_assign ((hs s (by simp)).shape hsh)]
  simp

theorem put_same {h : Heap V} {b : Addr} {n : Name} {v : Val V} (hv : valAt h b n = some v) :
    h.modify b (Cell.put n v) = h := by
  unfold valAt at hv
  cases hb : h[b]? with
  | none => rw [hb] at hv; cases hv
  | some x =>
    cases x with
    | circ c => rw [hb] at hv; cases hv
    | arr c => rw [hb] at hv; cases hv
    | leaf l =>
      rw [hb] at hv
      simp only [Option.some.injEq] at hv
      rw [modify_eq_set hb]
      have : Cell.put n v (.leaf l) = .leaf l := by
        simp only [Cell.put, ← hv, Function.update_eq_self]
      rw [this]
      exact set_same hb

/-- when nothing was changed everything is as before -/
theorem runs_false : ∀ (t : List (Assign V)) (h : Heap V), (runs h t).2 = false → (runs h t).1 = h
  | [], h, _ => rfl
  | s :: t, h, e => by
    simp only [runs, Bool.or_eq_false_iff, decide_eq_false_iff_not] at e
    have hA : assign h s = h := by
      unfold assign
      rw [if_neg e.1]
      exact put_same (by simpa [Assign.changes] using e.1)
    rw [runs, runs_false t _ e.2, hA]

/-- no parameter is addressed twice -/
def Once (t : List (Assign V)) : Prop := t.Pairwise fun s s' => ¬ (s.obj = s'.obj ∧ s.attr = s'.attr)

theorem runs_changed : ∀ (t : List (Assign V)) (h : Heap V), (∀ s ∈ t, Settable h s) → Once t →
    ((runs h t).2 = true ↔ ∃ s ∈ t, valAt h s.obj s.attr ≠ some s.val)
  | [], h, _, _ => by simp [runs]
  | s :: t, h, hs, ho => by
    obtain ⟨ho1, ho2⟩ := List.pairwise_cons.1 ho
    have ih := runs_changed t (assign h s) (fun y hy => (hs y (by simp [hy])).shape (assign_shape h s)) ho2
    simp only [runs, Bool.or_eq_true, decide_eq_true_eq, ih, List.mem_cons, exists_eq_or_imp]
    refine or_congr Iff.rfl (exists_congr fun y => and_congr_right fun hy => ?_)
    rw [valAt_assign (hs s (by simp)), if_neg]
    rintro ⟨g1, g2⟩
    exact ho1 y hy ⟨g1.symm, g2.symm⟩

/-- whether an object holds a stored matrix -/
def cachedAt (h : Heap V) (x : Addr) : Bool := match h[x]? with
  | some (.leaf l) => l.cached
  | some (.circ c) => c.cached
  | _ => false

theorem cachedAt_uncache (h : Heap V) (y x : Addr) : cachedAt (uncache h y) x = (cachedAt h x && !decide (x = y)) := by
  unfold cachedAt
  simp only [List.getElem?_modify]
  by_cases hx : y = x
  · subst hx
    cases h[y]? with
    | none => simp
    | some c => cases c <;> simp [Cell.forget]
  · simp [hx, Ne.symm hx]

theorem cachedAt_put (h : Heap V) (b x : Addr) (n : Name) (v : Val V) :
    cachedAt (h.modify b (Cell.put n v)) x = cachedAt h x := by
  unfold cachedAt
  simp only [List.getElem?_modify]
  by_cases hx : b = x
  · subst hx
    cases h[b]? with
    | none => simp
    | some c => cases c <;> simp [Cell.put]
  · simp [hx]

theorem cachedAt_clears (xs : List Addr) (h : Heap V) (x : Addr) :
    cachedAt (xs.foldl uncache h) x = (cachedAt h x && !decide (x ∈ xs)) := by
  induction xs generalizing h with
  | nil => simp
  | cons y xs ih =>
    rw [List.foldl_cons, ih, cachedAt_uncache]
    by_cases h1 : x = y <;> by_cases h2 : x ∈ xs <;> simp [h1, h2]

theorem cachedAt_assign (h : Heap V) (s : Assign V) (x : Addr) :
    cachedAt (assign h s) x = true ↔ cachedAt h x = true ∧ (s.changes h → x ≠ s.obj ∧ x ∉ s.via) := by
  unfold assign
  simp only
  split
  · rename_i hc
    rw [cachedAt_clears, cachedAt_put]
    simp [hc]
  · rename_i hc
    rw [cachedAt_put]
    simp [hc]

/-- a stored matrix survives exactly in the objects that no change was made to or through -/
theorem runs_cached : ∀ (t : List (Assign V)) (h : Heap V), (∀ s ∈ t, Settable h s) → Once t → ∀ x,
    (cachedAt (runs h t).1 x = true ↔ cachedAt h x = true ∧
      ∀ s ∈ t, valAt h s.obj s.attr ≠ some s.val → x ≠ s.obj ∧ x ∉ s.via)
  | [], h, _, _, x => by simp [runs]
  | s :: t, h, hs, ho, x => by
    obtain ⟨ho1, ho2⟩ := List.pairwise_cons.1 ho
    have ih := runs_cached t (assign h s) (fun y hy => (hs y (by simp [hy])).shape (assign_shape h s)) ho2 x
    rw [runs, ih, cachedAt_assign]
    have hv : ∀ y ∈ t, valAt (assign h s) y.obj y.attr = valAt h y.obj y.attr := by
      intro y hy
      rw [valAt_assign (hs s (by simp)), if_neg]
      rintro ⟨g1, g2⟩
      exact ho1 y hy ⟨g1.symm, g2.symm⟩
    simp only [List.mem_cons, forall_eq_or_imp, and_assoc]
    refine and_congr Iff.rfl (and_congr Iff.rfl (forall_congr' fun y => forall_congr' fun hy => ?_))
    rw [hv y hy]

/-! ## the theorems -/

/-- **C32 (`set` is the sequence of assignments its arguments mean).**  For a circuit in any tree and any dictionary of dotted
names and (nested) dictionaries: a `set` that is accepted does exactly the assignments the dictionary means (`Means`: the
objects are the ones `findObj` finds), all of them to parameters that exist, in the order of the dictionary, and returns
whether one of them changed a value. -/
theorem C32_set_sound {h : Heap V} (hw : WF h) {fuel : ℕ} {a : Addr} {c : Circ V} (ha : h[a]? = some (.circ c))
    {kws : List (Name × Val V)} {h' : Heap V} {m : Bool} (e : setObj fuel h a kws = (h', .ok m)) :
    ∃ t, Means h a kws t ∧ (∀ s ∈ t, Settable h s) ∧ runs h t = (h', m) := by
  obtain ⟨t, D, h1, h2⟩ := setObj_ok fuel h a kws h' m hw e
  rcases D with ⟨l, hl, -⟩ | ⟨c', hc', M⟩
  · rw [ha] at hl; cases hl
  · exact ⟨t, M, h1, h2⟩

/-- **C32 (what is addressed correctly is accepted).**  Conversely a dictionary whose names all lead to existing parameters is
accepted. -/
theorem C32_set_complete {h : Heap V} {a : Addr} {c : Circ V} (ha : h[a]? = some (.circ c)) {kws : List (Name × Val V)}
    {t : List (Assign V)} (M : Means h a kws t) (hs : ∀ s ∈ t, Settable h s) :
    ∃ N, ∀ fuel, N ≤ fuel → setObj fuel h a kws = ((runs h t).1, .ok (runs h t).2) := by
  obtain ⟨t', rfl, H⟩ := setLoop_complete M hs c ha
  obtain ⟨N, hN⟩ := H h (Shape.refl h)
  exact performs_of_loop ha ⟨N, fun fuel hf => by rw [hN fuel hf, Bool.false_or]⟩

/-- **C32 (unknown names raise).**  A dictionary that does not mean assignments to existing parameters is refused: whatever the
depth at which the name is missing. -/
theorem C32_unknown_raises {h : Heap V} (hw : WF h) (fuel : ℕ) {a : Addr} {c : Circ V} (ha : h[a]? = some (.circ c))
    {kws : List (Name × Val V)} (hno : ¬ ∃ t, Means h a kws t ∧ ∀ s ∈ t, Settable h s) :
    ∃ h' er, setObj fuel h a kws = (h', .error er) := by
  cases e : setObj fuel h a kws with
  | mk h' r =>
    cases r with
    | error er => exact ⟨h', er, rfl⟩
    | ok m =>
      obtain ⟨t, h1, h2, -⟩ := C32_set_sound hw ha e
      exact absurd ⟨t, h1, h2⟩ hno

/-- **C32.**  For a circuit in any tree and any dictionary of dotted names and (nested) dictionaries, after an accepted `set`:
* the dictionary means assignments `t` to parameters that exist, of the objects that `findObj` finds;
* every addressed parameter has the value given (the last one given, if it is addressed several times);
* every other parameter of every object has the value it had, and nothing else of the tree has changed (`Shape`: kinds, numbers of
  ports, blocks and their objects);
* `False` is returned only if nothing at all has changed; if no parameter is addressed twice, `True` is returned exactly if some
  parameter has got another value;
* (no parameter addressed twice) an object keeps its stored matrix exactly if no parameter of it was changed and no changed
  parameter was addressed through it. -/
theorem C32_set {h : Heap V} (hw : WF h) {fuel : ℕ} {a : Addr} {c : Circ V} (ha : h[a]? = some (.circ c))
    {kws : List (Name × Val V)} {h' : Heap V} {m : Bool} (e : setObj fuel h a kws = (h', .ok m)) :
    ∃ t, Means h a kws t ∧ (∀ s ∈ t, Settable h s) ∧
    (∀ t1 s t2, t = t1 ++ s :: t2 → (∀ y ∈ t2, ¬ (y.obj = s.obj ∧ y.attr = s.attr)) → valAt h' s.obj s.attr = some s.val) ∧
    (∀ x k, (∀ s ∈ t, ¬ (s.obj = x ∧ s.attr = k)) → valAt h' x k = valAt h x k) ∧ Shape h h' ∧
    (m = false → h' = h) ∧
    (Once t → (m = true ↔ ∃ s ∈ t, valAt h s.obj s.attr ≠ some s.val) ∧
      ∀ x, cachedAt h' x = true ↔ cachedAt h x = true ∧
        ∀ s ∈ t, valAt h s.obj s.attr ≠ some s.val → x ≠ s.obj ∧ x ∉ s.via) := by
  obtain ⟨t, M, hs, hr⟩ := C32_set_sound hw ha e
  have h1 : h' = (runs h t).1 := by rw [hr]
  have h2 : m = (runs h t).2 := by rw [hr]
  refine ⟨t, M, hs, ?_, ?_, by rw [h1]; exact runs_shape t h, fun hm => ?_, fun ho => ⟨?_, fun x => ?_⟩⟩
  · rintro t1 s t2 rfl hlast
    rw [h1]; exact runs_last hs hlast
  · intro x k hno
    rw [h1]; exact runs_other t h hs x k hno
  · rw [h1]; exact runs_false t h (by rw [← h2, hm])
  · rw [h2]; exact runs_changed t h hs ho
  · rw [h1]; exact runs_cached t h hs ho x

/-! ### positional arguments -/

theorem lookup_filter_ne {k k' : Name} (hk : k' ≠ k) : ∀ kw : List (Name × Val V),
    (kw.filter (fun x => x.1 ≠ k)).lookup k' = kw.lookup k'
  | [] => rfl
  | (n, v) :: kw => by
    by_cases hn : n = k
    · have : (k' == n) = false := by rw [hn]; simpa using hk
      rw [List.filter_cons_of_neg (by simp [hn]), List.lookup_cons, this, lookup_filter_ne hk kw]
    · rw [List.filter_cons_of_pos (by simp [hn]), List.lookup_cons, List.lookup_cons, lookup_filter_ne hk kw]

/-- **C32 (positional arguments).**  `set(*args, **kwargs)` with pairs and `'name', value` arguments is `set` of one dictionary,
in which a keyword argument has priority over a positional one and an *earlier* positional one over a later one with the same
name; a malformed argument list is refused before anything is set. -/
theorem C32_args (fuel : ℕ) (h : Heap V) (a : Addr) : ∀ (args : List (Option (Name × Val V))) (kw : List (Name × Val V)),
    ((∃ x ∈ args, x = none) → setCall fuel h a args kw = (h, .error .valueError)) ∧
    (∀ ps : List (Name × Val V), args = ps.map some → ∃ kws, setCall fuel h a args kw = setObj fuel h a kws ∧
      ∀ k, kws.lookup k = (kw.lookup k).or (ps.lookup k)) := by
  intro args
  induction args with
  | nil =>
    intro kw
    refine ⟨by simp, fun ps hps => ?_⟩
    have : ps = [] := by simpa using hps.symm
    subst this
    exact ⟨kw, rfl, fun k => by simp⟩
  | cons x args ih =>
    intro kw
    cases x with
    | none =>
      refine ⟨fun _ => rfl, fun ps hps => ?_⟩
      cases ps <;> simp at hps
    | some y =>
      obtain ⟨k, v⟩ := y
      obtain ⟨h1, h2⟩ := ih ((k, (kw.lookup k).getD v) :: kw.filter (fun x => x.1 ≠ k))
      have hstep : setCall fuel h a (some (k, v) :: args) kw =
          setCall fuel h a args ((k, (kw.lookup k).getD v) :: kw.filter (fun x => x.1 ≠ k)) := rfl
      rw [hstep]
      refine ⟨fun hx => h1 (by simpa using hx), fun ps hps => ?_⟩
      cases ps with
      | nil => simp at hps
      | cons p ps =>
        simp only [List.map_cons, List.cons.injEq, Option.some.injEq] at hps
        obtain ⟨rfl, rfl⟩ := hps
        obtain ⟨kws, g1, g2⟩ := h2 ps rfl
        refine ⟨kws, g1, fun k' => ?_⟩
        rw [g2, List.lookup_cons, List.lookup_cons]
        by_cases hk : k' = k
        · subst hk
          simp only [beq_self_eq_true]
          cases kw.lookup k' <;> simp
        · have : (k' == k) = false := by simpa using hk
          simp only [this, lookup_filter_ne hk]

/-! ### refused calls -/

theorem setDict_shape {sub : Heap V → Addr → List (Name × Val V) → Heap V × Except Err Bool}
    (hsub : ∀ h b d, Shape h (sub h b d).1) (h : Heap V) (bs : List (Name × Addr)) (k : Name) (d : List (Name × Val V)) :
    Shape h (setDict sub h bs k d).1 := by
  unfold setDict
  cases bs.lookup (split1 k).1 with
  | none => rfl
  | some b =>
    simp only
    generalize hr : (if (split1 k).2.getD [] = [] then sub h b d else _) = r
    have hs : Shape h r.1 := by
      rw [← hr]
      split
      · exact hsub _ _ _
      · split
        · exact hsub _ _ _
        · rfl
        · rfl
    obtain ⟨h', x⟩ := r
    cases x with
    | error e => exact hs
    | ok m =>
      simp only
      split <;> exact hs

theorem setLoop_shape {sub : Heap V → Addr → List (Name × Val V) → Heap V × Except Err Bool}
    (hsub : ∀ h b d, Shape h (sub h b d).1) (bs : List (Name × Addr)) : ∀ (kws : List (Name × Val V)) (h : Heap V) (m : Bool),
    Shape h (setLoop sub bs h kws m).1
  | [], h, m => rfl
  | (kw, v) :: r, h, m => by
    have hi : Shape h (setItem sub h bs kw v).1 := by
      cases v with
      | num v =>
        unfold setItem
        cases rsplit1 kw with
        | none => rfl
        | some x => exact setDict_shape hsub _ _ _ _
      | dict d => exact setDict_shape hsub _ _ _ _
    unfold setLoop
    cases hx : setItem sub h bs kw v with
    | mk h1 res =>
      rw [hx] at hi
      cases res with
      | error e => exact hi
      | ok m1 => exact hi.trans (setLoop_shape hsub bs r h1 _)

theorem setLeaf_bare : ∀ (d : List (Name × Val V)) (l : Leaf V) (m : Bool),
    (Cell.leaf (setLeaf l d m).1).bare = (Cell.leaf l).bare
  | [], l, m => by
    unfold setLeaf
    cases m <;> rfl
  | (n, v) :: d, l, m => by
    unfold setLeaf
    split
    · rw [setLeaf_bare d]; rfl
    · rfl

/-- **C32 (nothing but values).**  Whatever the outcome, `set` changes only values of parameters and stored matrices: the same
objects are found at the same paths afterwards. -/
theorem C32_shape : ∀ (fuel : ℕ) (h : Heap V) (a : Addr) (kws : List (Name × Val V)), Shape h (setObj fuel h a kws).1
  | 0, h, a, kws => rfl
  | fuel + 1, h, a, kws => by
    unfold setObj
    cases ha : h[a]? with
    | none => rfl
    | some cell =>
      cases cell with
      | arr n => rfl
      | leaf l =>
        show Shape h (h.set a (.leaf (setLeaf l kws false).1))
        have : h.set a (.leaf (setLeaf l kws false).1) = h.modify a (fun x => match x with
            | .leaf l => .leaf (setLeaf l kws false).1
            | x => x) := by rw [modify_eq_set ha]
        rw [this]
        refine modify_shape h a _ fun c => ?_
        cases c with
        | leaf l => exact setLeaf_bare kws l false
        | circ c => rfl
        | arr n => rfl
      | circ c =>
        simp only
        have hs := setLoop_shape (C32_shape fuel) c.blocks kws h false
        cases hl : setLoop (setObj fuel) c.blocks h kws false with
        | mk h1 r =>
          rw [hl] at hs
          cases r with
          | error e => exact hs
          | ok m =>
            cases m
            · exact hs
            · exact hs.trans (modify_shape h1 a _ forget_bare)

end PyRFtk.Tree
