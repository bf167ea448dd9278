import Verif.Heap
import Mathlib.Data.List.Forall2

/-!
# Copies of trees of objects (C31): a copy looks like the original and shares nothing with it
-/

set_option linter.unusedSectionVars false

namespace PyRFtk.Tree

variable {V : Type*}

/-! ## specification -/

/-- what can be seen of a circuit without looking into its blocks -/
structure Node (V : Type*) where
  len : ℕ
  names : List Name
  pars : Name → List (Name × V)

/-- what can be seen of an object without looking into its blocks -/
inductive View (V : Type*)
  | leaf (l : Leaf V)
  | arr (len : ℕ)
  | circ (n : Node V) (cached : Bool)

def Circ.node (c : Circ V) : Node V := ⟨c.len, c.blocks.map Prod.fst, c.pars⟩

def Cell.view : Cell V → View V
  | .leaf l => .leaf l
  | .arr n => .arr n
  | .circ c => .circ c.node c.cached

/-- what is seen at an address -/
def view (h : Heap V) (a : Addr) : Option (View V) := h[a]?.map Cell.view

/-- what is seen at a path from an address (`none` if the path leads nowhere) -/
def seen (h : Heap V) (a : Addr) (ns : List Name) : Option (View V) := (walk h a ns).bind (view h)

/-- two objects that look alike, at all depths -/
def Same (h : Heap V) (a : Addr) (h' : Heap V) (a' : Addr) : Prop := ∀ ns, seen h a ns = seen h' a' ns

/-- `b` is `a` or lies inside it -/
def Reach (h : Heap V) (a b : Addr) : Prop := ∃ ns, walk h a ns = some b

/-! ## walking -/

theorem walk_append {h : Heap V} : ∀ {p : List Name} {a : Addr} {q : List Name},
    walk h a (p ++ q) = (walk h a p).bind fun b => walk h b q
  | [], a, q => by simp [walk]
  | n :: p, a, q => by
    rw [List.cons_append]
    simp only [walk]
    cases h[a]? with
    | none => rfl
    | some cell =>
      cases cell with
      | leaf l => rfl
      | arr k => rfl
      | circ c =>
        simp only
        cases c.blocks.lookup n with
        | none => rfl
        | some b => exact walk_append

/-- a walk depends on the objects it goes through, not on the one it ends at -/
theorem walk_congr {h h' : Heap V} : ∀ {q : List Name} {a : Addr},
    (∀ p x, p <+: q → p ≠ q → walk h a p = some x → h'[x]? = h[x]?) → walk h' a q = walk h a q
  | [], a, _ => rfl
  | n :: q, a, H => by
    have ha : h'[a]? = h[a]? := H [] a (List.nil_prefix) (by simp) rfl
    unfold walk
    rw [ha]
    cases hc : h[a]? with
    | none => rfl
    | some cell =>
      cases cell with
      | leaf l => rfl
      | arr k => rfl
      | circ c =>
        simp only
        cases hl : c.blocks.lookup n with
        | none => rfl
        | some b =>
          simp only
          refine walk_congr fun p x hp hne hw => H (n :: p) x ?_ (by simpa using hne) ?_
          · exact List.cons_prefix_cons.2 ⟨rfl, hp⟩
          · exact walk_cons.2 ⟨c, b, hc, hl, hw⟩

theorem seen_congr {h h' : Heap V} {q : List Name} {a : Addr}
    (H : ∀ p x, p <+: q → walk h a p = some x → h'[x]? = h[x]?) : seen h' a q = seen h a q := by
  have hw : walk h' a q = walk h a q := walk_congr fun p x hp _ hw => H p x hp hw
  unfold seen
  rw [hw]
  cases hx : walk h a q with
  | none => rfl
  | some x =>
    simp only [Option.bind_some, view]
    rw [H q x List.prefix_rfl hx]

theorem walk_lt {h : Heap V} (hw : WF h) : ∀ {q : List Name} {a x : Addr}, a < h.length → walk h a q = some x → x < h.length
  | [], a, x, ha, e => by
    simp only [walk, Option.some.injEq] at e
    omega
  | n :: q, a, x, ha, e => by
    obtain ⟨c, d, h1, h2, h3⟩ := walk_cons.1 e
    exact walk_lt hw (hw.closed a c h1 _ (lookup_mem h2)) h3

theorem getElem?_ext {h e : Heap V} {x : Addr} (hx : x < h.length) : (h ++ e)[x]? = h[x]? := by
  rw [List.getElem?_append_left hx]

theorem walk_ext {h e : Heap V} (hw : WF h) {a : Addr} (ha : a < h.length) (q : List Name) :
    walk (h ++ e) a q = walk h a q :=
  walk_congr fun _ _ _ _ hx => getElem?_ext (walk_lt hw ha hx)

theorem seen_ext {h e : Heap V} (hw : WF h) {a : Addr} (ha : a < h.length) (q : List Name) :
    seen (h ++ e) a q = seen h a q :=
  seen_congr fun _ _ _ hx => getElem?_ext (walk_lt hw ha hx)

theorem lt_of_get {h : Heap V} {a : Addr} {c : Cell V} (ha : h[a]? = some c) : a < h.length := by
  obtain ⟨h1, -⟩ := List.getElem?_eq_some_iff.1 ha
  exact h1

theorem WF.snoc {h : Heap V} (hw : WF h) (x : Cell V)
    (hc : ∀ c, x = .circ c → (∀ y ∈ c.blocks, y.2 < h.length) ∧ (∀ y ∈ c.blocks, Plain y.1) ∧ (c.blocks.map Prod.fst).Nodup) :
    WF (h ++ [x]) := by
  have key : ∀ (a : Addr) c, (h ++ [x])[a]? = some (Cell.circ c) → h[a]? = some (.circ c) ∨ x = .circ c := by
    intro a c e
    rcases Nat.lt_trichotomy a h.length with hlt | heq | hgt
    · rw [getElem?_ext hlt] at e; exact Or.inl e
    · subst heq
      simp only [List.getElem?_append_right (le_refl _), Nat.sub_self, List.getElem?_cons_zero, Option.some.injEq] at e
      exact Or.inr e
    · rw [List.getElem?_eq_none (by simp; omega)] at e; cases e
  refine ⟨fun a c e y hy => ?_, fun a c e y hy => ?_, fun a c e => ?_⟩
  · rcases key a c e with g | g
    · have := hw.closed a c g y hy; simp; omega
    · have := (hc c g).1 y hy; simp; omega
  · rcases key a c e with g | g
    · exact hw.plain a c g y hy
    · exact (hc c g).2.1 y hy
  · rcases key a c e with g | g
    · exact hw.nodup a c g
    · exact (hc c g).2.2

/-! ## the copy -/

/-- `h'` extends `h` by new objects whose blocks are earlier new objects -/
structure Fresh (h h' : Heap V) : Prop where
  ext : ∃ e, h' = h ++ e
  wf : WF h'
  down : ∀ (x : Addr) c, h.length ≤ x → h'[x]? = some (Cell.circ c) → ∀ y ∈ c.blocks, h.length ≤ y.2 ∧ y.2 < x

theorem Fresh.le {h h' : Heap V} (f : Fresh h h') : h.length ≤ h'.length := by
  obtain ⟨e, rfl⟩ := f.ext
  simp

theorem Fresh.get {h h' : Heap V} (f : Fresh h h') {x : Addr} (hx : x < h.length) : h'[x]? = h[x]? := by
  obtain ⟨e, rfl⟩ := f.ext
  exact getElem?_ext hx

theorem Fresh.refl {h : Heap V} (hw : WF h) : Fresh h h :=
  ⟨⟨[], by simp⟩, hw, fun x c hx e => absurd (lt_of_get e) (by omega)⟩

theorem Fresh.trans {h h1 h2 : Heap V} (f : Fresh h h1) (g : Fresh h1 h2) : Fresh h h2 := by
  obtain ⟨e, rfl⟩ := f.ext
  obtain ⟨e', rfl⟩ := g.ext
  refine ⟨⟨e ++ e', by simp⟩, g.wf, fun x c hx hc y hy => ?_⟩
  by_cases hlt : x < (h ++ e).length
  · rw [getElem?_ext hlt] at hc
    exact f.down x c hx hc y hy
  · have := g.down x c (by omega) hc y hy
    have := f.le
    omega

/-- walks from a new object only meet new objects, and go down -/
theorem Fresh.walk {h h' : Heap V} (f : Fresh h h') : ∀ {q : List Name} {a x : Addr}, h.length ≤ a →
    walk h' a q = some x → h.length ≤ x ∧ (q ≠ [] → x < a)
  | [], a, x, ha, e => by
    simp only [Tree.walk, Option.some.injEq] at e
    subst e; exact ⟨ha, by simp⟩
  | n :: q, a, x, ha, e => by
    obtain ⟨c, d, h1, h2, h3⟩ := walk_cons.1 e
    obtain ⟨g1, g2⟩ := f.down a c ha h1 _ (lookup_mem h2)
    obtain ⟨g3, g4⟩ := f.walk (q := q) g1 h3
    refine ⟨g3, fun _ => ?_⟩
    cases q with
    | nil => simp only [Tree.walk, Option.some.injEq] at h3; omega
    | cons m q => have := g4 (by simp); omega

/-- a copy: new objects only, and it looks like the original -/
structure IsCopy (h : Heap V) (a : Addr) (h' : Heap V) (a' : Addr) : Prop where
  fresh : Fresh h h'
  new : h.length ≤ a'
  lt : a' < h'.length
  same : Same h a h' a'

theorem IsCopy.later {h h1 h2 : Heap V} {a a' : Addr} (hc : IsCopy h a h1 a') (f : Fresh h1 h2) : IsCopy h a h2 a' := by
  refine ⟨hc.fresh.trans f, hc.new, by have := f.le; have := hc.lt; omega, fun ns => ?_⟩
  obtain ⟨e, rfl⟩ := f.ext
  rw [seen_ext hc.fresh.wf hc.lt]
  exact hc.same ns

theorem lookup_forall2 {R : Addr → Addr → Prop} : ∀ {bs bs' : List (Name × Addr)},
    List.Forall₂ (fun x y => x.1 = y.1 ∧ R x.2 y.2) bs bs' → ∀ n,
    (bs.lookup n = none ∧ bs'.lookup n = none) ∨ ∃ b b', bs.lookup n = some b ∧ bs'.lookup n = some b' ∧ R b b'
  | [], [], .nil, n => Or.inl ⟨rfl, rfl⟩
  | (m, b) :: bs, (m', b') :: bs', .cons ⟨h1, h2⟩ H, n => by
    simp only at h1 h2
    subst h1
    rw [List.lookup_cons, List.lookup_cons]
    by_cases hm : n = m
    · subst hm
      simp only [beq_self_eq_true]
      exact Or.inr ⟨b, b', rfl, rfl, h2⟩
    · have : (n == m) = false := by simpa using hm
      rw [this]
      exact lookup_forall2 H n

theorem fst_forall2 {R : Addr → Addr → Prop} : ∀ {bs bs' : List (Name × Addr)},
    List.Forall₂ (fun x y => x.1 = y.1 ∧ R x.2 y.2) bs bs' → bs.map Prod.fst = bs'.map Prod.fst
  | [], [], .nil => rfl
  | _ :: _, _ :: _, .cons ⟨h1, _⟩ H => by simp [h1, fst_forall2 H]

theorem exists_of_forall2 {R : Name × Addr → Name × Addr → Prop} : ∀ {bs bs' : List (Name × Addr)},
    List.Forall₂ R bs bs' → ∀ y ∈ bs', ∃ x ∈ bs, R x y
  | [], [], .nil, y, hy => by cases hy
  | x :: _, _ :: _, .cons h H, y, hy => by
    rcases List.mem_cons.1 hy with rfl | hy
    · exact ⟨x, by simp, h⟩
    · obtain ⟨z, hz, hr⟩ := exists_of_forall2 H y hy
      exact ⟨z, by simp [hz], hr⟩

theorem copyBlocks_spec {cp : Heap V → Addr → Option (Heap V × Addr)}
    (hcp : ∀ h a h' a', WF h → cp h a = some (h', a') → IsCopy h a h' a') {h0 : Heap V} (hw : WF h0) :
    ∀ (bs : List (Name × Addr)) (h : Heap V) (memo : List (Addr × Addr)) (h' : Heap V) (bs' : List (Name × Addr)),
      Fresh h0 h → (∀ x ∈ bs, x.2 < h0.length) → (∀ x ∈ memo, IsCopy h0 x.1 h x.2) →
      copyBlocks cp h bs memo = some (h', bs') →
      Fresh h h' ∧ List.Forall₂ (fun x y => x.1 = y.1 ∧ IsCopy h0 x.2 h' y.2) bs bs'
  | [], h, memo, h', bs', hf, _, _, e => by
    simp only [copyBlocks, Option.some.injEq, Prod.mk.injEq] at e
    obtain ⟨rfl, rfl⟩ := e
    exact ⟨Fresh.refl hf.wf, .nil⟩
  | (n, b) :: bs, h, memo, h', bs', hf, hlt, hm, e => by
    unfold copyBlocks at e
    cases hl : memo.lookup b with
    | some b' =>
      rw [hl] at e
      simp only at e
      have hmem : (b, b') ∈ memo := by
        clear e hm
        induction memo with
        | nil => cases hl
        | cons x memo ih =>
          obtain ⟨k, v⟩ := x
          rw [List.lookup_cons] at hl
          by_cases hk : b = k
          · subst hk
            simp only [beq_self_eq_true, Option.some.injEq] at hl
            subst hl; simp
          · have : (b == k) = false := by simpa using hk
            rw [this] at hl
            exact List.mem_cons_of_mem _ (ih hl)
      cases hr : copyBlocks cp h bs memo with
      | none => rw [hr] at e; cases e
      | some r =>
        obtain ⟨h1, bs1⟩ := r
        rw [hr] at e
        simp only [Option.some.injEq, Prod.mk.injEq] at e
        obtain ⟨rfl, rfl⟩ := e
        obtain ⟨f, F⟩ := copyBlocks_spec hcp hw bs h memo h1 bs1 hf (fun x hx => hlt x (by simp [hx])) hm hr
        exact ⟨f, .cons ⟨rfl, (hm _ hmem).later f⟩ F⟩
    | none =>
      rw [hl] at e
      simp only at e
      cases hc : cp h b with
      | none => rw [hc] at e; cases e
      | some r =>
        obtain ⟨h1, b'⟩ := r
        rw [hc] at e
        simp only at e
        have hcopy := hcp h b h1 b' hf.wf hc
        have hb : IsCopy h0 b h1 b' := by
          refine ⟨hf.trans hcopy.fresh, by have := hf.le; have := hcopy.new; omega, hcopy.lt, fun ns => ?_⟩
          rw [← hcopy.same ns]
          obtain ⟨e', rfl⟩ := hf.ext
          rw [seen_ext hw (hlt (n, b) (by simp))]
        cases hr : copyBlocks cp h1 bs ((b, b') :: memo) with
        | none => rw [hr] at e; cases e
        | some r =>
          obtain ⟨h2, bs1⟩ := r
          rw [hr] at e
          simp only [Option.some.injEq, Prod.mk.injEq] at e
          obtain ⟨rfl, rfl⟩ := e
          obtain ⟨f, F⟩ := copyBlocks_spec hcp hw bs h1 ((b, b') :: memo) h2 bs1 (hf.trans hcopy.fresh)
            (fun x hx => hlt x (by simp [hx])) (by
              intro x hx
              rcases List.mem_cons.1 hx with rfl | hx
              · exact hb
              · exact (hm x hx).later hcopy.fresh) hr
          exact ⟨hcopy.fresh.trans f, .cons ⟨rfl, hb.later f⟩ F⟩

theorem walk_view_cell {h : Heap V} {a : Addr} (hno : ∀ c, h[a]? ≠ some (.circ c)) (n : Name) (ns : List Name) :
    walk h a (n :: ns) = none := by
  cases hw : walk h a (n :: ns) with
  | none => rfl
  | some b =>
    obtain ⟨c, d, h1, -⟩ := walk_cons.1 hw
    exact absurd h1 (hno c)

theorem seen_cons {h : Heap V} {a : Addr} {c : Circ V} (ha : h[a]? = some (.circ c)) (n : Name) (ns : List Name) :
    seen h a (n :: ns) = (c.blocks.lookup n).bind fun b => seen h b ns := by
  unfold seen
  conv_lhs => unfold walk
  rw [ha]
  simp only
  cases c.blocks.lookup n <;> rfl

theorem copyObj_spec : ∀ (fuel : ℕ) (h : Heap V) (a : Addr) (h' : Heap V) (a' : Addr), WF h →
    copyObj fuel h a = some (h', a') → IsCopy h a h' a'
  | 0, h, a, h', a', _, e => by cases e
  | fuel + 1, h, a, h', a', hw, e => by
    unfold copyObj at e
    have atom : ∀ x : Cell V, h[a]? = some x → (∀ c, x ≠ .circ c) → IsCopy h a (h ++ [x]) h.length := by
      intro x hx hno
      have hlen : (h ++ [x])[h.length]? = some x := by simp
      refine ⟨⟨⟨[x], rfl⟩, hw.snoc x fun c e => absurd e (hno c), ?_⟩, le_refl _, by simp, ?_⟩
      · intro y c hy e
        have : y = h.length := by have := lt_of_get e; simp at this; omega
        subst this
        rw [hlen] at e
        injection e with e
        exact absurd e (hno c)
      · intro ns
        cases ns with
        | nil => simp [seen, walk, view, hx]
        | cons n ns =>
          unfold seen
          rw [walk_view_cell (by rw [hx]; intro c e; injection e with e; exact hno c e),
            walk_view_cell (by rw [hlen]; intro c e; injection e with e; exact hno c e)]
          rfl
    cases ha : h[a]? with
    | none => rw [ha] at e; cases e
    | some cell =>
      rw [ha] at e
      cases cell with
      | leaf l =>
        simp only [Option.some.injEq, Prod.mk.injEq] at e
        obtain ⟨rfl, rfl⟩ := e
        exact atom _ ha (by simp)
      | arr l =>
        simp only [Option.some.injEq, Prod.mk.injEq] at e
        obtain ⟨rfl, rfl⟩ := e
        exact atom _ ha (by simp)
      | circ c =>
        simp only at e
        cases hb : copyBlocks (copyObj fuel) h c.blocks [] with
        | none => rw [hb] at e; cases e
        | some r =>
          obtain ⟨h1, bs'⟩ := r
          rw [hb] at e
          simp only [Option.some.injEq, Prod.mk.injEq] at e
          obtain ⟨rfl, rfl⟩ := e
          obtain ⟨f, F⟩ := copyBlocks_spec (copyObj_spec fuel) hw c.blocks h [] h1 bs' (Fresh.refl hw) (hw.closed a c ha)
            (by simp) hb
          have hfst := fst_forall2 (R := fun b b' => IsCopy h b h1 b') F
          have hlen : (h1 ++ [Cell.circ { c with blocks := bs' }])[h1.length]? = some (.circ { c with blocks := bs' }) := by simp
          have hbs : ∀ y ∈ bs', h.length ≤ y.2 ∧ y.2 < h1.length := by
            intro y hy
            obtain ⟨x, -, hxy⟩ := exists_of_forall2 F y hy
            exact ⟨hxy.2.new, hxy.2.lt⟩
          have hwf : WF (h1 ++ [Cell.circ { c with blocks := bs' }]) := by
            refine f.wf.snoc _ ?_
            intro c' e'
            injection e' with e'
            subst e'
            refine ⟨fun y hy => (hbs y hy).2, fun y hy => ?_, ?_⟩
            · have : y.1 ∈ c.blocks.map Prod.fst := by rw [hfst]; exact List.mem_map_of_mem hy
              obtain ⟨x, hx, hxy⟩ := List.mem_map.1 this
              rw [← hxy]
              exact hw.plain a c ha x hx
            · show (bs'.map Prod.fst).Nodup
              rw [← hfst]
              exact hw.nodup a c ha
          refine ⟨⟨?_, hwf, ?_⟩, f.le, by simp, ?_⟩
          · obtain ⟨e', rfl⟩ := f.ext
            exact ⟨e' ++ [.circ { c with blocks := bs' }], by simp⟩
          · intro x c' hx e' y hy
            by_cases hlt : x < h1.length
            · rw [getElem?_ext hlt] at e'
              exact f.down x c' hx e' y hy
            · have : x = h1.length := by have := lt_of_get e'; simp at this; omega
              subst this
              rw [hlen] at e'
              injection e' with e'
              injection e' with e'
              subst e'
              exact hbs y hy
          · intro ns
            cases ns with
            | nil => simp [seen, walk, view, ha, Cell.view, Circ.node, hfst]
            | cons n ns =>
              rw [seen_cons ha, seen_cons hlen]
              rcases lookup_forall2 (R := fun b b' => IsCopy h b h1 b') F n with ⟨g1, g2⟩ | ⟨b, b', g1, g2, g3⟩
              · simp only [g1, g2, Option.bind_none]
              · simp only [g1, g2, Option.bind_some]
                rw [g3.same ns, seen_ext f.wf g3.lt]

/-- **C31 (a copy looks like the original).**  `copy()` of any object in any tree: at every dotted path the copy shows what the
original shows (kind, number of ports, parameters, block names, stored matrix or not). -/
theorem C31_copy_looks_alike {h : Heap V} (hw : WF h) {fuel : ℕ} {a a' : Addr} {h' : Heap V}
    (e : copyObj fuel h a = some (h', a')) : Same h a h' a' := (copyObj_spec fuel h a h' a' hw e).same

/-- **C31 (a copy shares nothing with the original).**  Copying changes no object that was there, and no object that was there
is part of the copy: so nothing that is done to the objects of the copy can change an object of the original, nor the
reverse. -/
theorem C31_copy_independent {h : Heap V} (hw : WF h) {fuel : ℕ} {a a' : Addr} {h' : Heap V}
    (e : copyObj fuel h a = some (h', a')) :
    (∀ x, x < h.length → h'[x]? = h[x]?) ∧
    (∀ x y, Reach h' a' x → y < h.length → ¬ Reach h' y x) := by
  have hc := copyObj_spec fuel h a h' a' hw e
  refine ⟨fun x hx => hc.fresh.get hx, ?_⟩
  rintro x y ⟨p, hp⟩ hy ⟨q, hq⟩
  have h1 := (hc.fresh.walk hc.new hp).1
  have h2 : x < h.length := by
    obtain ⟨e', rfl⟩ := hc.fresh.ext
    rw [walk_ext hw hy] at hq
    exact walk_lt hw hy hq
  omega

/-- **C31 (independence, seen from outside).**  Whatever is done afterwards to objects of the copy (or to objects made later),
every object that was there before shows the same thing at every path; and whatever is done to objects that were there before
(and to objects made later) the copy shows the same. -/
theorem C31_copy_undisturbed {h : Heap V} (hw : WF h) {fuel : ℕ} {a a' : Addr} {h' h'' : Heap V}
    (e : copyObj fuel h a = some (h', a')) :
    ((∀ x, ¬ Reach h' a' x → x < h'.length → h''[x]? = h'[x]?) → ∀ y ns, y < h.length → seen h'' y ns = seen h y ns) ∧
    ((∀ x, Reach h' a' x → h''[x]? = h'[x]?) → ∀ ns, seen h'' a' ns = seen h a ns) := by
  have hc := copyObj_spec fuel h a h' a' hw e
  refine ⟨fun H y ns hy => ?_, fun H ns => ?_⟩
  · obtain ⟨e', rfl⟩ := hc.fresh.ext
    rw [← seen_ext (e := e') hw hy]
    refine seen_congr fun p x _ hx => H x ?_ (walk_lt hc.fresh.wf (by simp; omega) hx)
    intro hr
    exact (C31_copy_independent hw e).2 x y hr hy ⟨p, hx⟩
  · rw [hc.same ns]
    exact seen_congr fun p x _ hx => H x ⟨p, hx⟩

end PyRFtk.Tree
