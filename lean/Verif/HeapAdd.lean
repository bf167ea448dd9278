import Verif.HeapCopy
import Mathlib.Logic.Function.Basic

/-!
# Replacing a block at a dotted path (C33)
-/

set_option linter.unusedSectionVars false

namespace PyRFtk.Tree

variable {V : Type*}

/-! ## specification -/

/-- what a circuit on the path shows after `addblock(path, obj, params=pr)`, `path` being taken from that circuit and `k` the
number of ports of `obj`: a new name in the last circuit makes that circuit larger; the circuit above the last one has the
parameters of the sub-circuit replaced. -/
def nodeAfter (pr : List (Name × V)) (k : ℕ) : List Name → Node V → Node V
  | [n], nd => if n ∈ nd.names then nd else
    { len := nd.len + k, names := nd.names ++ [n], pars := Function.update nd.pars n pr }
  | [n, _], nd => { nd with pars := Function.update nd.pars n pr }
  | _, nd => nd

/-- no path leads from the circuit back to itself -/
def NotInside (h : Heap V) (a : Addr) : Prop := ∀ q, q ≠ [] → walk h a q ≠ some a

/-! ## lemmas -/

theorem setBlk_fst (n : Name) (b : Addr) : ∀ bs : List (Name × Addr), (setBlk n b bs).map Prod.fst = bs.map Prod.fst
  | [] => rfl
  | (m, c) :: bs => by
    unfold setBlk
    by_cases h : m = n
    · rw [if_pos h]; simp
    · rw [if_neg h]; simp [setBlk_fst n b bs]

theorem setBlk_lookup_self (n : Name) (b : Addr) : ∀ {bs : List (Name × Addr)} {d : Addr}, bs.lookup n = some d →
    (setBlk n b bs).lookup n = some b
  | (m, c) :: bs, d, h => by
    unfold setBlk
    rw [List.lookup_cons] at h
    by_cases hm : m = n
    · rw [if_pos hm, List.lookup_cons, hm]; simp
    · rw [if_neg hm, List.lookup_cons]
      have : (n == m) = false := by simpa using fun e => hm e.symm
      rw [this] at h ⊢
      exact setBlk_lookup_self n b h

theorem setBlk_lookup_ne {n k : Name} (b : Addr) (hk : k ≠ n) : ∀ {bs : List (Name × Addr)},
    (setBlk n b bs).lookup k = bs.lookup k
  | [] => rfl
  | (m, c) :: bs => by
    unfold setBlk
    by_cases hm : m = n
    · rw [if_pos hm, List.lookup_cons, List.lookup_cons]
      have : (k == m) = false := by rw [hm]; simpa using hk
      rw [this]
    · rw [if_neg hm, List.lookup_cons, List.lookup_cons, setBlk_lookup_ne b hk]

theorem setBlk_mem {n : Name} {b : Addr} : ∀ {bs : List (Name × Addr)} {x : Name × Addr}, x ∈ setBlk n b bs →
    x ∈ bs ∨ (x.2 = b)
  | [], x, h => by cases h
  | (m, c) :: bs, x, h => by
    unfold setBlk at h
    by_cases hm : m = n
    · rw [if_pos hm] at h
      rcases List.mem_cons.1 h with rfl | h
      · exact Or.inr rfl
      · exact Or.inl (by simp [h])
    · rw [if_neg hm] at h
      rcases List.mem_cons.1 h with rfl | h
      · exact Or.inl (by simp)
      · rcases setBlk_mem h with h | h
        · exact Or.inl (by simp [h])
        · exact Or.inr h

theorem get_set_self {h : Heap V} {a : Addr} (x : Cell V) (ha : a < h.length) : (h.set a x)[a]? = some x := by
  simp [ha]

theorem get_set_ne {h : Heap V} {a y : Addr} (x : Cell V) (hy : y ≠ a) : (h.set a x)[y]? = h[y]? := by
  rw [List.getElem?_set_ne (Ne.symm hy)]

theorem WF.set {h : Heap V} (hw : WF h) (a : Addr) (c' : Circ V) (h1 : ∀ y ∈ c'.blocks, y.2 < h.length)
    (h2 : ∀ y ∈ c'.blocks, Plain y.1) (h3 : (c'.blocks.map Prod.fst).Nodup) : WF (h.set a (.circ c')) := by
  have key : ∀ (x : Addr) c, (h.set a (Cell.circ c'))[x]? = some (Cell.circ c) → h[x]? = some (.circ c) ∨ c' = c := by
    intro x c e
    by_cases hx : x = a
    · subst hx
      have hlt : x < h.length := by simpa using lt_of_get e
      rw [get_set_self _ hlt] at e
      injection e with e
      injection e with e
      exact Or.inr e
    · rw [get_set_ne _ hx] at e; exact Or.inl e
  refine ⟨fun x c e y hy => ?_, fun x c e y hy => ?_, fun x c e => ?_⟩
  · rw [List.length_set]
    rcases key x c e with g | rfl
    · exact hw.closed x c g y hy
    · exact h1 y hy
  · rcases key x c e with g | rfl
    · exact hw.plain x c g y hy
    · exact h2 y hy
  · rcases key x c e with g | rfl
    · exact hw.nodup x c g
    · exact h3

theorem lenAt_eq {h h' : Heap V} {a : Addr} (e : h'[a]? = h[a]?) : lenAt h' a = lenAt h a := by
  unfold lenAt; rw [e]

theorem lenAt_uncached {h : Heap V} {a : Addr} {c : Circ V} (ha : h[a]? = some (.circ c)) (x : Addr) :
    lenAt (h.set a (.circ { c with cached := false })) x = lenAt h x := by
  by_cases hx : x = a
  · subst hx
    unfold lenAt
    rw [get_set_self _ (lt_of_get ha), ha]
    rfl
  · exact lenAt_eq (get_set_ne _ hx)

theorem dot_mem_join {m : Name} {ns : List Name} (hm : Plain m) : '.' ∈ join (m :: ns) ↔ ns ≠ [] := by
  cases ns with
  | nil => simpa [join] using hm.2
  | cons k ns => simp [join]

theorem lookup_names {n : Name} {bs : List (Name × Addr)} : n ∈ bs.map Prod.fst ↔ ∃ b, bs.lookup n = some b := by
  induction bs with
  | nil => simp
  | cons x bs ih =>
    obtain ⟨m, c⟩ := x
    rw [List.lookup_cons, List.map_cons, List.mem_cons, ih]
    by_cases hm : n = m
    · subst hm; simp
    · have : (n == m) = false := by simpa using hm
      rw [this]; simp [hm]

theorem lookup_none {n : Name} {bs : List (Name × Addr)} (h : bs.lookup n = none) : n ∉ bs.map Prod.fst := by
  rw [lookup_names, h]; simp

theorem lookup_snoc_self {n : Name} {b : Addr} : ∀ {bs : List (Name × Addr)}, bs.lookup n = none →
    (bs ++ [(n, b)]).lookup n = some b
  | [], _ => by simp
  | (m, c) :: bs, h => by
    rw [List.lookup_cons] at h
    rw [List.cons_append, List.lookup_cons]
    by_cases hm : n = m
    · subst hm; simp at h
    · have : (n == m) = false := by simpa using hm
      rw [this] at h ⊢
      exact lookup_snoc_self h

theorem lookup_snoc_ne {n k : Name} {b : Addr} (hk : k ≠ n) : ∀ {bs : List (Name × Addr)},
    (bs ++ [(n, b)]).lookup k = bs.lookup k
  | [] => by
    have : (k == n) = false := by simpa using hk
    simp [List.lookup_cons, this]
  | (m, c) :: bs => by
    rw [List.cons_append, List.lookup_cons, List.lookup_cons, lookup_snoc_ne hk]

/-! ## one call -/

variable {fuel : ℕ} {chk : Except Err Unit} {obj : Addr} {pr : List (Name × V)}

theorem addblock_dot {h : Heap V} {a : Addr} {c : Circ V} (ha : h[a]? = some (.circ c)) {n : Name} (hn : '.' ∉ n)
    (rest : Name) : addblock fuel chk obj pr h a (n ++ '.' :: rest) =
    let c0 : Circ V := { c with cached := false }
    let h0 := h.set a (.circ c0)
    match c.blocks.lookup n with
    | none => (h0, .error .valueError)
    | some b => match copyObj fuel h0 b with
      | none => (h0, .error .runtimeError)
      | some (h1, b') => match addblock fuel chk obj pr h1 b' rest with
        | (h2, .error e) => (h2, .error e)
        | (h2, .ok _) => (h2.set a (.circ { c0 with
            blocks := setBlk n b' c.blocks
            pars := if '.' ∈ rest then c.pars else Function.update c.pars n pr }), .ok ()) := by
  conv_lhs => unfold addblock
  rw [ha]
  simp only
  have hs := split1_dot hn rest
  split
  · rename_i r hr
    rw [hs] at hr
    simp only [Option.some.injEq] at hr
    subst hr
    rw [hs]
    cases c.blocks.lookup n with
    | none => rfl
    | some b =>
      simp only
      cases copyObj fuel (h.set a (.circ { c with cached := false })) b with
      | none => rfl
      | some r =>
        obtain ⟨h1, b'⟩ := r
        simp only
        cases addblock fuel chk obj pr h1 b' rest with
        | mk h2 r => cases r <;> rfl
  · rename_i hr
    rw [hs] at hr
    cases hr

theorem addblock_plain {h : Heap V} {a : Addr} {c : Circ V} (ha : h[a]? = some (.circ c)) {n : Name} (hn : '.' ∉ n) :
    addblock fuel chk obj pr h a n =
    let c0 : Circ V := { c with cached := false }
    let h0 := h.set a (.circ c0)
    match c.blocks.lookup n with
    | some b => if lenAt h obj ≠ lenAt h b then
        (h0, .error (if (c.blocks.map Prod.fst).contains "object".toList then .valueError else .keyError))
      else (h0.set a (.circ { c0 with blocks := setBlk n obj c.blocks }), .ok ())
    | none => match chk with
      | .error e => (h0, .error e)
      | .ok _ => (h0.set a (.circ { c0 with
          blocks := c.blocks ++ [(n, obj)]
          pars := Function.update c.pars n pr
          len := c.len + lenAt h obj }), .ok ()) := by
  conv_lhs => unfold addblock
  rw [ha]
  simp only
  have hs := split1_plain hn
  split
  · rename_i r hr
    rw [hs] at hr
    cases hr
  · cases c.blocks.lookup n with
    | none =>
      simp only [lenAt_uncached ha]
      cases chk <;> rfl
    | some b =>
      simp only [lenAt_uncached ha]

/-- what a successful `addblock` at a path does -/
structure Replaced (pr : List (Name × V)) (k : ℕ) (h : Heap V) (a : Addr) (ns : List Name) (obj : Addr) (h' : Heap V) :
    Prop where
  le : h.length ≤ h'.length
  wf : WF h'
  other : ∀ x, x < h.length → x ≠ a → h'[x]? = h[x]?
  found : walk h' a ns = some obj
  inner : NotInside h a → ∀ p x, ¬ ns <+: p → walk h' a p = some x → Reach h a x ∨ h.length ≤ x
  off : NotInside h a → ∀ p j r k q, ns = p ++ j :: r → j ≠ k → seen h' a (p ++ k :: q) = seen h a (p ++ k :: q)
  on : NotInside h a → ∀ p r, ns = p ++ r → r ≠ [] → ∃ nd b, seen h a p = some (.circ nd b) ∧
    seen h' a p = some (.circ (nodeAfter pr k r nd) false)

/-- paths that leave the circuit by a block which was not touched -/
theorem untouched {h h' : Heap V} (hw : WF h) {a : Addr} {c : Circ V} (ha : h[a]? = some (.circ c)) (hni : NotInside h a)
    (hoth : ∀ x, x < h.length → x ≠ a → h'[x]? = h[x]?) {k : Name} {d : Addr} (hk : c.blocks.lookup k = some d)
    (q : List Name) : walk h' d q = walk h d q ∧ seen h' d q = seen h d q := by
  have hd : d < h.length := hw.closed a c ha _ (lookup_mem hk)
  have key : ∀ p x, walk h d p = some x → h'[x]? = h[x]? := by
    intro p x hx
    refine hoth x (walk_lt hw hd hx) ?_
    rintro rfl
    exact hni (k :: p) (by simp) (walk_cons.2 ⟨c, d, ha, hk, hx⟩)
  exact ⟨walk_congr fun p x _ _ hx => key p x hx, seen_congr fun p x _ hx => key p x hx⟩

theorem seen_nil {h : Heap V} {a : Addr} {c : Circ V} (ha : h[a]? = some (.circ c)) :
    seen h a [] = some (.circ c.node c.cached) := by
  simp [seen, walk, view, ha, Cell.view]

theorem addblock_ok : ∀ (ns : List Name), ns ≠ [] → (∀ n ∈ ns, Plain n) → ∀ (h : Heap V) (a : Addr) (h' : Heap V), WF h →
    obj < h.length → addblock fuel chk obj pr h a (join ns) = (h', .ok ()) → Replaced pr (lenAt h obj) h a ns obj h' := by
  intro ns
  induction ns with
  | nil => exact fun h => absurd rfl h
  | cons n ns ih =>
    intro _ hp h a h' hw hobj e
    have hn := hp n (by simp)
    obtain ⟨c, ha⟩ : ∃ c, h[a]? = some (.circ c) := by
      unfold addblock at e
      cases hc : h[a]? with
      | none => rw [hc] at e; cases e
      | some cell =>
        cases cell with
        | circ c => exact ⟨c, rfl⟩
        | leaf l => rw [hc] at e; cases e
        | arr l => rw [hc] at e; cases e
    have hlt := lt_of_get ha
    have hlt0 : a < (h.set a (Cell.circ { c with cached := false })).length := by simpa using hlt
    cases ns with
    | nil =>
      rw [join, addblock_plain ha hn.2] at e
      simp only at e
      cases hl : c.blocks.lookup n with
      | some b =>
        rw [hl] at e
        simp only at e
        split at e
        · cases e
        simp only [Prod.mk.injEq, and_true] at e
        rw [List.set_set] at e
        have h'a : h'[a]? = some (.circ { c with cached := false, blocks := setBlk n obj c.blocks }) := by
          rw [← e]; exact get_set_self _ hlt
        have hoth : ∀ x, x < h.length → x ≠ a → h'[x]? = h[x]? := by
          intro x _ hx
          rw [← e]; exact get_set_ne _ hx
        have hpre : ∀ p, ¬ [n] <+: p → p ≠ [] → ∃ k q, p = k :: q ∧ k ≠ n := by
          intro p hp h0
          cases p with
          | nil => exact absurd rfl h0
          | cons k q =>
            refine ⟨k, q, rfl, ?_⟩
            rintro rfl
            exact hp (List.cons_prefix_cons.2 ⟨rfl, List.nil_prefix⟩)
        refine ⟨by rw [← e]; simp, ?_, hoth, ?_, ?_, ?_, ?_⟩
        · rw [← e]
          refine hw.set a _ (fun y hy => ?_) (fun y hy => ?_) ?_
          · rcases setBlk_mem hy with hy | hy
            · exact hw.closed a c ha y hy
            · rw [hy]; exact hobj
          · have : y.1 ∈ c.blocks.map Prod.fst := by
              rw [← setBlk_fst n obj]; exact List.mem_map_of_mem hy
            obtain ⟨x, hx, hxy⟩ := List.mem_map.1 this
            rw [← hxy]; exact hw.plain a c ha x hx
          · show ((setBlk n obj c.blocks).map Prod.fst).Nodup
            rw [setBlk_fst]; exact hw.nodup a c ha
        · exact walk_cons.2 ⟨_, obj, h'a, setBlk_lookup_self n obj hl, rfl⟩
        · intro hni p x hp hx
          by_cases h0 : p = []
          · subst h0
            exact Or.inl ⟨[], hx⟩
          · obtain ⟨k, q, rfl, hk⟩ := hpre p hp h0
            obtain ⟨c', d, g1, g2, g3⟩ := walk_cons.1 hx
            rw [h'a] at g1
            injection g1 with g1
            injection g1 with g1
            subst g1
            simp only [setBlk_lookup_ne obj hk] at g2
            rw [(untouched hw ha hni hoth g2 q).1] at g3
            exact Or.inl ⟨k :: q, walk_cons.2 ⟨c, d, ha, g2, g3⟩⟩
        · intro hni p j r k q hns hjk
          obtain rfl : p = [] := by
            cases p with
            | nil => rfl
            | cons y p => simp at hns
          simp only [List.nil_append, List.cons.injEq] at hns
          obtain ⟨rfl, rfl⟩ := hns
          rw [List.nil_append, seen_cons h'a, seen_cons ha]
          simp only [setBlk_lookup_ne obj (Ne.symm hjk)]
          cases hk : c.blocks.lookup k with
          | none => rfl
          | some d => exact (untouched hw ha hni hoth hk q).2
        · intro hni p r hns hr
          obtain rfl : p = [] := by
            cases p with
            | nil => rfl
            | cons y p => simp at hns; exact absurd hns.2.2 hr
          simp only [List.nil_append] at hns
          subst hns
          refine ⟨_, _, seen_nil ha, ?_⟩
          rw [seen_nil h'a]
          have hmem : n ∈ c.node.names := lookup_names.2 ⟨b, hl⟩
          simp only [nodeAfter, if_pos hmem]
          simp only [Circ.node, setBlk_fst]
      | none =>
        rw [hl] at e
        simp only at e
        split at e
        · cases e
        simp only [Prod.mk.injEq, and_true] at e
        rw [List.set_set] at e
        have h'a : h'[a]? = some (.circ ⟨c.len + lenAt h obj, c.blocks ++ [(n, obj)], Function.update c.pars n pr, false⟩) := by
          rw [← e]; exact get_set_self _ hlt
        have hoth : ∀ x, x < h.length → x ≠ a → h'[x]? = h[x]? := by
          intro x _ hx
          rw [← e]; exact get_set_ne _ hx
        have hpre : ∀ p, ¬ [n] <+: p → p ≠ [] → ∃ k q, p = k :: q ∧ k ≠ n := by
          intro p hp h0
          cases p with
          | nil => exact absurd rfl h0
          | cons k q =>
            refine ⟨k, q, rfl, ?_⟩
            rintro rfl
            exact hp (List.cons_prefix_cons.2 ⟨rfl, List.nil_prefix⟩)
        refine ⟨by rw [← e]; simp, ?_, hoth, ?_, ?_, ?_, ?_⟩
        · rw [← e]
          refine hw.set a _ (fun y hy => ?_) (fun y hy => ?_) ?_
          · rcases List.mem_append.1 hy with hy | hy
            · exact hw.closed a c ha y hy
            · simp only [List.mem_singleton] at hy
              rw [hy]; exact hobj
          · rcases List.mem_append.1 hy with hy | hy
            · exact hw.plain a c ha y hy
            · simp only [List.mem_singleton] at hy
              rw [hy]; exact hn
          · show ((c.blocks ++ [(n, obj)]).map Prod.fst).Nodup
            rw [List.map_append, List.map_singleton]
            exact List.nodup_append.2 ⟨hw.nodup a c ha, by simp, by
              intro y hy z hz
              simp only [List.mem_singleton] at hz
              subst hz
              rintro rfl
              exact lookup_none hl hy⟩
        · exact walk_cons.2 ⟨_, obj, h'a, lookup_snoc_self hl, rfl⟩
        · intro hni p x hp hx
          by_cases h0 : p = []
          · subst h0
            exact Or.inl ⟨[], hx⟩
          · obtain ⟨k, q, rfl, hk⟩ := hpre p hp h0
            obtain ⟨c', d, g1, g2, g3⟩ := walk_cons.1 hx
            rw [h'a] at g1
            injection g1 with g1
            injection g1 with g1
            subst g1
            simp only [lookup_snoc_ne hk] at g2
            rw [(untouched hw ha hni hoth g2 q).1] at g3
            exact Or.inl ⟨k :: q, walk_cons.2 ⟨c, d, ha, g2, g3⟩⟩
        · intro hni p j r k q hns hjk
          obtain rfl : p = [] := by
            cases p with
            | nil => rfl
            | cons y p => simp at hns
          simp only [List.nil_append, List.cons.injEq] at hns
          obtain ⟨rfl, rfl⟩ := hns
          rw [List.nil_append, seen_cons h'a, seen_cons ha]
          simp only [lookup_snoc_ne (Ne.symm hjk)]
          cases hk : c.blocks.lookup k with
          | none => rfl
          | some d => exact (untouched hw ha hni hoth hk q).2
        · intro hni p r hns hr
          obtain rfl : p = [] := by
            cases p with
            | nil => rfl
            | cons y p => simp at hns; exact absurd hns.2.2 hr
          simp only [List.nil_append] at hns
          subst hns
          refine ⟨_, _, seen_nil ha, ?_⟩
          rw [seen_nil h'a]
          have hmem : n ∉ c.node.names := lookup_none hl
          simp only [nodeAfter, if_neg hmem]
          simp only [Circ.node, List.map_append, List.map_cons, List.map_nil]
    | cons m ns =>
      have hj : join (n :: m :: ns) = n ++ '.' :: join (m :: ns) := rfl
      rw [hj, addblock_dot ha hn.2] at e
      simp only at e
      cases hl : c.blocks.lookup n with
      | none => rw [hl] at e; cases e
      | some b =>
        rw [hl] at e
        simp only at e
        have hw0 : WF (h.set a (.circ { c with cached := false })) :=
          hw.set a _ (hw.closed a c ha) (hw.plain a c ha) (hw.nodup a c ha)
        generalize hh0 : h.set a (Cell.circ { c with cached := false }) = h0 at e hw0 hlt0
        have hlen0 : h0.length = h.length := by rw [← hh0]; simp
        cases hc : copyObj fuel h0 b with
        | none => rw [hc] at e; cases e
        | some r =>
          obtain ⟨h1, b'⟩ := r
          rw [hc] at e
          simp only at e
          have hcp := copyObj_spec fuel h0 b h1 b' hw0 hc
          have hle1 := hcp.fresh.le
          cases hr : addblock fuel chk obj pr h1 b' (join (m :: ns)) with
          | mk h2 r =>
            rw [hr] at e
            cases r with
            | error x => cases e
            | ok u =>
              simp only [Prod.mk.injEq, and_true] at e
              have IH := ih (by simp) (fun x hx => hp x (by simp at hx ⊢; tauto)) h1 b' h2 hcp.fresh.wf (by omega) hr
              have hni1 : NotInside h1 b' := by
                intro q hq hx
                have := (hcp.fresh.walk hcp.new hx).2 hq
                omega
              have hlenobj : lenAt h1 obj = lenAt h obj := by
                rw [lenAt_eq (hcp.fresh.get (x := obj) (by omega)), ← hh0, lenAt_uncached ha]
              rw [hlenobj] at IH
              have hle2 := IH.le
              have h'a : h'[a]? = some (.circ { c with
                  cached := false
                  blocks := setBlk n b' c.blocks
                  pars := if '.' ∈ join (m :: ns) then c.pars else Function.update c.pars n pr }) := by
                rw [← e]; exact get_set_self _ (by omega)
              have hoth2 : ∀ x, x ≠ a → h'[x]? = h2[x]? := by
                intro x hx
                rw [← e]; exact get_set_ne _ hx
              have hoth : ∀ x, x < h.length → x ≠ a → h'[x]? = h[x]? := by
                intro x hx hxa
                have hnew := hcp.new
                rw [hoth2 x hxa, IH.other x (by omega) (by omega), hcp.fresh.get (by omega), ← hh0, get_set_ne _ hxa]
              -- walks into the copy, off the path, meet new objects only
              have hfar : ∀ p x, ¬ (m :: ns) <+: p → walk h2 b' p = some x → h.length ≤ x := by
                intro p x hp hx
                rcases IH.inner hni1 p x hp hx with ⟨q, hq⟩ | hx
                · have := (hcp.fresh.walk hcp.new hq).1
                  omega
                · omega
              have hwalk : ∀ p, ¬ (m :: ns) <+: p → walk h' b' p = walk h2 b' p ∧ seen h' b' p = seen h2 b' p := by
                intro p hp
                have key : ∀ y x, y <+: p → walk h2 b' y = some x → h'[x]? = h2[x]? := by
                  intro y x hy hx
                  have := hfar y x (fun hh => hp (hh.trans hy)) hx
                  exact hoth2 x (by omega)
                exact ⟨walk_congr fun y x hy _ hx => key y x hy hx, seen_congr fun y x hy hx => key y x hy hx⟩
              have hproper : ∀ y, y <+: (m :: ns) → y ≠ m :: ns → ¬ (m :: ns) <+: y := by
                intro y h1 h2 h3
                exact h2 (List.IsPrefix.eq_of_length_le h1 h3.length_le)
              have hcopyb : ∀ (hni : NotInside h a) p, seen h1 b' p = seen h b p := by
                intro hni p
                rw [← hcp.same p, ← hh0]
                exact (untouched hw ha hni (fun x _ hx => get_set_ne _ hx) hl p).2
              have hstep : ∀ p, seen h' a (n :: p) = seen h' b' p := by
                intro p
                rw [seen_cons h'a]
                simp only [setBlk_lookup_self n b' hl, Option.bind_some]
              have hstep0 : ∀ p, seen h a (n :: p) = seen h b p := by
                intro p
                rw [seen_cons ha, hl]
                rfl
              refine ⟨by rw [← e]; simp; omega, ?_, hoth, ?_, ?_, ?_, ?_⟩
              · rw [← e]
                refine IH.wf.set a _ (fun y hy => ?_) (fun y hy => ?_) ?_
                · rcases setBlk_mem hy with hy | hy
                  · have := hw.closed a c ha y hy
                    omega
                  · have := hcp.lt
                    omega
                · have : y.1 ∈ c.blocks.map Prod.fst := by
                    rw [← setBlk_fst n b']; exact List.mem_map_of_mem hy
                  obtain ⟨x, hx, hxy⟩ := List.mem_map.1 this
                  rw [← hxy]; exact hw.plain a c ha x hx
                · show ((setBlk n b' c.blocks).map Prod.fst).Nodup
                  rw [setBlk_fst]; exact hw.nodup a c ha
              · refine walk_cons.2 ⟨_, b', h'a, setBlk_lookup_self n b' hl, ?_⟩
                rw [← IH.found]
                refine walk_congr fun y x hy hne hx => ?_
                have := hfar y x (hproper y hy hne) hx
                exact hoth2 x (by omega)
              · intro hni p x hp hx
                cases p with
                | nil => exact Or.inl ⟨[], hx⟩
                | cons k q =>
                  obtain ⟨c', d, g1, g2, g3⟩ := walk_cons.1 hx
                  rw [h'a] at g1
                  injection g1 with g1
                  injection g1 with g1
                  subst g1
                  by_cases hk : k = n
                  · subst hk
                    simp only [setBlk_lookup_self k b' hl, Option.some.injEq] at g2
                    subst g2
                    have hq : ¬ (m :: ns) <+: q := fun hh => hp (List.cons_prefix_cons.2 ⟨rfl, hh⟩)
                    rw [(hwalk q hq).1] at g3
                    exact Or.inr (hfar q x hq g3)
                  · simp only [setBlk_lookup_ne b' hk] at g2
                    rw [(untouched hw ha hni hoth g2 q).1] at g3
                    exact Or.inl ⟨k :: q, walk_cons.2 ⟨c, d, ha, g2, g3⟩⟩
              · intro hni p j r k q hns hjk
                cases p with
                | nil =>
                  simp only [List.nil_append, List.cons.injEq] at hns
                  obtain ⟨rfl, rfl⟩ := hns
                  rw [List.nil_append, seen_cons h'a, seen_cons ha]
                  simp only [setBlk_lookup_ne b' (Ne.symm hjk)]
                  cases hk : c.blocks.lookup k with
                  | none => rfl
                  | some d => exact (untouched hw ha hni hoth hk q).2
                | cons y p =>
                  simp only [List.cons_append, List.cons.injEq] at hns
                  obtain ⟨rfl, hns⟩ := hns
                  have hq : ¬ (m :: ns) <+: (p ++ k :: q) := by
                    rw [hns]
                    intro hh
                    have := (List.prefix_append_right_inj p).1 hh
                    exact hjk (List.cons_prefix_cons.1 this).1
                  rw [List.cons_append, hstep, hstep0, (hwalk _ hq).2, IH.off hni1 p j r k q hns hjk, hcopyb hni]
              · intro hni p r hns hr
                cases p with
                | nil =>
                  simp only [List.nil_append] at hns
                  subst hns
                  refine ⟨_, _, seen_nil ha, ?_⟩
                  rw [seen_nil h'a]
                  have hd := dot_mem_join (ns := ns) (hp m (by simp))
                  cases ns with
                  | nil =>
                    rw [if_neg (fun g => hd.1 g rfl)]
                    simp only [nodeAfter, Circ.node, setBlk_fst]
                  | cons k ns =>
                    rw [if_pos (hd.2 (by simp))]
                    simp only [nodeAfter, Circ.node, setBlk_fst]
                | cons y p =>
                  simp only [List.cons_append, List.cons.injEq] at hns
                  obtain ⟨rfl, hns⟩ := hns
                  obtain ⟨nd, bb, g1, g2⟩ := IH.on hni1 p r hns hr
                  have hq : ¬ (m :: ns) <+: p := by
                    rw [hns]
                    intro hh
                    have hlen := hh.length_le
                    have hpos : 0 < r.length := List.length_pos_iff.2 hr
                    rw [List.length_append] at hlen
                    omega
                  refine ⟨nd, bb, ?_, ?_⟩
                  · rw [hstep0, ← hcopyb hni, g1]
                  · rw [hstep, (hwalk p hq).2, g2]

/-- a refused `addblock` at a path changes no object; the circuit itself only loses its stored matrix -/
theorem addblock_error : ∀ (ns : List Name), (∀ n ∈ ns, Plain n) → ns ≠ [] → ∀ (h : Heap V) (a : Addr) (h' : Heap V) (er : Err)
    (c : Circ V), WF h → h[a]? = some (.circ c) → addblock fuel chk obj pr h a (join ns) = (h', .error er) →
    h'[a]? = some (.circ { c with cached := false }) ∧ ∀ x, x < h.length → x ≠ a → h'[x]? = h[x]? := by
  intro ns
  induction ns with
  | nil => exact fun _ h => absurd rfl h
  | cons n ns ih =>
    intro hp _ h a h' er c hw ha e
    have hn := hp n (by simp)
    have hlt := lt_of_get ha
    have base : h.set a (.circ { c with cached := false }) = h' →
        h'[a]? = some (.circ { c with cached := false }) ∧ ∀ x, x < h.length → x ≠ a → h'[x]? = h[x]? := by
      rintro rfl
      exact ⟨get_set_self _ hlt, fun x _ hx => get_set_ne _ hx⟩
    cases ns with
    | nil =>
      rw [join, addblock_plain ha hn.2] at e
      simp only at e
      cases hl : c.blocks.lookup n with
      | some b =>
        rw [hl] at e
        simp only at e
        split at e
        · exact base (Prod.mk.inj e).1
        · cases e
      | none =>
        rw [hl] at e
        simp only at e
        split at e
        · exact base (Prod.mk.inj e).1
        · cases e
    | cons m ns =>
      have hj : join (n :: m :: ns) = n ++ '.' :: join (m :: ns) := rfl
      rw [hj, addblock_dot ha hn.2] at e
      simp only at e
      cases hl : c.blocks.lookup n with
      | none => rw [hl] at e; exact base (Prod.mk.inj e).1
      | some b =>
        rw [hl] at e
        simp only at e
        have hw0 : WF (h.set a (.circ { c with cached := false })) :=
          hw.set a _ (hw.closed a c ha) (hw.plain a c ha) (hw.nodup a c ha)
        cases hc : copyObj fuel (h.set a (.circ { c with cached := false })) b with
        | none => rw [hc] at e; exact base (Prod.mk.inj e).1
        | some r =>
          obtain ⟨h1, b'⟩ := r
          rw [hc] at e
          simp only at e
          have hcp := copyObj_spec fuel _ b h1 b' hw0 hc
          have hle := hcp.fresh.le
          have hnew := hcp.new
          simp only [List.length_set] at hle hnew
          have hget : ∀ x, x < h.length → h1[x]? = (h.set a (.circ { c with cached := false }))[x]? := fun x hx =>
            hcp.fresh.get (by simpa using hx)
          have hb : ∀ x, x < h.length → h'[x]? = h1[x]? := by
            intro x hx
            cases hr : addblock fuel chk obj pr h1 b' (join (m :: ns)) with
            | mk h2 r =>
              rw [hr] at e
              cases r with
              | ok u => cases e
              | error er' =>
                simp only [Prod.mk.injEq, Except.error.injEq] at e
                obtain ⟨rfl, rfl⟩ := e
                obtain ⟨cell, hcell⟩ : ∃ y, h1[b']? = some y := ⟨_, List.getElem?_eq_getElem hcp.lt⟩
                cases cell with
                | circ c' =>
                  exact (ih (fun y hy => hp y (by simp at hy ⊢; tauto)) (by simp) h1 b' h2 er' c' hcp.fresh.wf hcell hr).2 x
                    (by omega) (by omega)
                | leaf l =>
                  unfold addblock at hr
                  rw [hcell] at hr
                  rw [(Prod.mk.inj hr).1]
                | arr l =>
                  unfold addblock at hr
                  rw [hcell] at hr
                  rw [(Prod.mk.inj hr).1]
          refine ⟨?_, fun x hx hxa => ?_⟩
          · rw [hb a hlt, hget a hlt, get_set_self _ hlt]
          · rw [hb x hx, hget x hx, get_set_ne _ hxa]

/-! ## the theorems -/

/-- the paths inside an object are shorter than `d` (so no circuit is inside itself) -/
def Depth (h : Heap V) (a : Addr) (d : ℕ) : Prop := ∀ ns, (walk h a ns).isSome → ns.length < d

theorem Depth.notInside {h : Heap V} {a : Addr} {d : ℕ} (hd : Depth h a d) : NotInside h a := by
  intro q hq hx
  have key : ∀ k, walk h a (List.replicate k q).flatten = some a := by
    intro k
    induction k with
    | zero => rfl
    | succ k ih => rw [List.replicate_succ, List.flatten_cons, walk_append, hx]; exact ih
  have h1 := hd _ (by rw [key d]; rfl)
  have h2 : 0 < q.length := List.length_pos_iff.2 hq
  simp only [List.length_flatten, List.map_replicate, List.sum_replicate, smul_eq_mul] at h1
  nlinarith

/-- **C33 (dotted `addblock`).**  `addblock(path, obj, params=pr)` on a circuit of any tree, when it is accepted:
* `findObj(path)` is `obj`, and what is inside it is what was inside `obj`;
* no object that existed changes, except the circuit itself: other circuits that use the same sub-circuits, siblings that
  shared the replaced object, and the replaced object are as they were;
* at every path that neither leads to the place nor goes through it the circuit shows what it showed;
* the circuits on the way forget their stored matrix and otherwise show what they showed, but for a new name in the last one
  and for the parameters of the last sub-circuit (`nodeAfter`). -/
theorem C33_dotted {h : Heap V} (hw : WF h) {a : Addr} {d : ℕ} (hd : Depth h a d) (hobj : obj < h.length) {ns : List Name}
    (hne : ns ≠ []) (hp : ∀ n ∈ ns, Plain n) {h' : Heap V} (e : addblock fuel chk obj pr h a (join ns) = (h', .ok ())) :
    findObj h' a (join ns) = .ok (some obj) ∧
    (¬ Reach h obj a → ∀ q, seen h' a (ns ++ q) = seen h obj q) ∧
    (∀ x, x < h.length → x ≠ a → h'[x]? = h[x]?) ∧
    (∀ q, ¬ q <+: ns → ¬ ns <+: q → seen h' a q = seen h a q) ∧
    (∀ p r, ns = p ++ r → r ≠ [] → ∃ nd b, seen h a p = some (.circ nd b) ∧
      seen h' a p = some (.circ (nodeAfter pr (lenAt h obj) r nd) false)) := by
  have R := addblock_ok ns hne hp h a h' hw hobj e
  refine ⟨(findObj_join h' ns hp a obj).2 R.found, ?_, R.other, ?_, R.on hd.notInside⟩
  · intro hr q
    have : seen h' a (ns ++ q) = seen h' obj q := by
      unfold seen
      rw [walk_append, R.found]
      rfl
    rw [this]
    refine seen_congr fun p x _ hx => R.other x (walk_lt hw hobj hx) ?_
    rintro rfl
    exact hr ⟨p, hx⟩
  · intro q h1 h2
    have key : ∀ (q ns : List Name), ¬ q <+: ns → ¬ ns <+: q → ∃ p j r k s, ns = p ++ j :: r ∧ q = p ++ k :: s ∧ j ≠ k := by
      intro q
      induction q with
      | nil => exact fun ns h1 _ => absurd List.nil_prefix h1
      | cons k q ih =>
        intro ns h1 h2
        cases ns with
        | nil => exact absurd List.nil_prefix h2
        | cons j ns =>
          by_cases hjk : j = k
          · subst hjk
            obtain ⟨p, j', r, k', s, rfl, rfl, hne⟩ := ih ns (fun g => h1 (List.cons_prefix_cons.2 ⟨rfl, g⟩))
              (fun g => h2 (List.cons_prefix_cons.2 ⟨rfl, g⟩))
            exact ⟨j :: p, j', r, k', s, rfl, rfl, hne⟩
          · exact ⟨[], j, ns, k, q, rfl, rfl, hjk⟩
    obtain ⟨p, j, r, k, s, rfl, rfl, hjk⟩ := key q ns h1 h2
    exact R.off hd.notInside p j r k s rfl hjk

/-- **C33 (refused `addblock`).**  A refused `addblock` at a dotted path leaves every object as it was; the circuit itself only
loses its stored matrix. -/
theorem C33_refused {h : Heap V} (hw : WF h) {a : Addr} {c : Circ V} (ha : h[a]? = some (.circ c)) {ns : List Name}
    (hne : ns ≠ []) (hp : ∀ n ∈ ns, Plain n) {h' : Heap V} {er : Err}
    (e : addblock fuel chk obj pr h a (join ns) = (h', .error er)) :
    h'[a]? = some (.circ { c with cached := false }) ∧ ∀ x, x < h.length → x ≠ a → h'[x]? = h[x]? :=
  addblock_error ns hp hne h a h' er c hw ha e

theorem seen_isSome {h : Heap V} (hw : WF h) {a : Addr} (ha : a < h.length) (q : List Name) :
    (seen h a q).isSome = (walk h a q).isSome := by
  unfold seen
  cases hx : walk h a q with
  | none => rfl
  | some x =>
    have := walk_lt hw ha hx
    simp [view, this]

theorem copy_ends : ∀ (fuel : ℕ) (h0 h : Heap V) (a : Addr), Depth h0 a fuel → a < h0.length → WF h0 → Fresh h0 h →
    ∃ h' a', copyObj fuel h a = some (h', a')
  | 0, h0, h, a, hd, _, _, _ => absurd (hd [] rfl) (by simp)
  | fuel + 1, h0, h, a, hd, hlt, hw, f => by
    unfold copyObj
    rw [f.get hlt]
    obtain ⟨cell, ha⟩ : ∃ x, h0[a]? = some x := ⟨_, List.getElem?_eq_getElem hlt⟩
    rw [ha]
    cases cell with
    | leaf x => exact ⟨_, _, rfl⟩
    | arr x => exact ⟨_, _, rfl⟩
    | circ c =>
      simp only
      have hcl := hw.closed a c ha
      have hdc : ∀ x ∈ c.blocks, Depth h0 x.2 fuel := by
        intro x hx ns hs
        obtain ⟨y, hy⟩ := Option.isSome_iff_exists.1 hs
        have := hd (x.1 :: ns) (by
          rw [walk_cons.2 ⟨c, x.2, ha, lookup_of_mem (hw.nodup a c ha) hx, hy⟩]; rfl)
        simpa using this
      have key : ∀ (bs : List (Name × Addr)) (h : Heap V) (memo : List (Addr × Addr)), (∀ x ∈ bs, Depth h0 x.2 fuel) →
          (∀ x ∈ bs, x.2 < h0.length) → Fresh h0 h → ∃ r, copyBlocks (copyObj fuel) h bs memo = some r := by
        intro bs
        induction bs with
        | nil => exact fun h memo _ _ _ => ⟨_, rfl⟩
        | cons x bs ih =>
          obtain ⟨n, b⟩ := x
          intro h memo h1 h2 f
          unfold copyBlocks
          cases memo.lookup b with
          | some b' =>
            obtain ⟨r, hr⟩ := ih h memo (fun y hy => h1 y (by simp [hy])) (fun y hy => h2 y (by simp [hy])) f
            simp only [hr]
            exact ⟨_, rfl⟩
          | none =>
            obtain ⟨h', b', e⟩ := copy_ends fuel h0 h b (h1 (n, b) (by simp)) (h2 (n, b) (by simp)) hw f
            have f' := (copyObj_spec fuel h b h' b' f.wf e).fresh
            obtain ⟨r, hr⟩ := ih h' ((b, b') :: memo) (fun y hy => h1 y (by simp [hy])) (fun y hy => h2 y (by simp [hy]))
              (f.trans f')
            simp only [e, hr]
            exact ⟨_, rfl⟩
      obtain ⟨r, hr⟩ := key c.blocks h [] hdc hcl f
      simp only [hr]
      exact ⟨_, _, rfl⟩

/-- **C31 (copying ends).**  `copy()` of an object whose nesting stays below the recursion limit returns. -/
theorem C31_copy_ends {h : Heap V} (hw : WF h) {a : Addr} (ha : a < h.length) (hd : Depth h a fuel) :
    ∃ h' a', copyObj fuel h a = some (h', a') := copy_ends fuel h h a hd ha hw (Fresh.refl hw)

def View.len : View V → ℕ
  | .leaf l => l.len
  | .arr n => n
  | .circ n _ => n.len

theorem lenAt_view (h : Heap V) (a : Addr) : lenAt h a = ((view h a).map View.len).getD 0 := by
  unfold lenAt view
  cases h[a]? with
  | none => rfl
  | some c => cases c <;> rfl

theorem addblock_accepts : ∀ (ns : List Name), ns ≠ [] → (∀ n ∈ ns, Plain n) → ∀ (h : Heap V) (a old : Addr), WF h →
    a < h.length → obj < h.length → Depth h a fuel → walk h a ns = some old → lenAt h obj = lenAt h old →
    ∃ h', addblock fuel chk obj pr h a (join ns) = (h', .ok ()) := by
  intro ns
  induction ns with
  | nil => exact fun h => absurd rfl h
  | cons n ns ih =>
    intro _ hp h a old hw hlt hobj hd hwalk hlen
    have hn := hp n (by simp)
    obtain ⟨c, b, ha, hl, hwb⟩ := walk_cons.1 hwalk
    cases ns with
    | nil =>
      simp only [walk, Option.some.injEq] at hwb
      subst hwb
      rw [join, addblock_plain ha hn.2]
      simp only [hl, hlen, ne_eq, not_true_eq_false, if_false]
      exact ⟨_, rfl⟩
    | cons m ns =>
      have hj : join (n :: m :: ns) = n ++ '.' :: join (m :: ns) := rfl
      rw [hj, addblock_dot ha hn.2]
      simp only [hl]
      have hw0 : WF (h.set a (.circ { c with cached := false })) :=
        hw.set a _ (hw.closed a c ha) (hw.plain a c ha) (hw.nodup a c ha)
      have hb : b < h.length := hw.closed a c ha _ (lookup_mem hl)
      have hun := untouched (h' := h.set a (.circ { c with cached := false })) hw ha hd.notInside
        (fun x _ hx => get_set_ne _ hx) hl
      generalize hh0 : h.set a (Cell.circ { c with cached := false }) = h0 at hw0 hun ⊢
      have hlen0 : h0.length = h.length := by rw [← hh0]; simp
      have hd0 : Depth h0 b fuel := by
        intro q hq
        rw [(hun q).1] at hq
        obtain ⟨y, hy⟩ := Option.isSome_iff_exists.1 hq
        have := hd (n :: q) (by rw [walk_cons.2 ⟨c, b, ha, hl, hy⟩]; rfl)
        simp at this; omega
      obtain ⟨h1, b', hc⟩ := C31_copy_ends hw0 (by omega : b < h0.length) hd0
      have hcp := copyObj_spec fuel h0 b h1 b' hw0 hc
      have hle := hcp.fresh.le
      have hs1 : ∀ q, seen h1 b' q = seen h b q := fun q => by rw [← hcp.same q, (hun q).2]
      have hd1 : Depth h1 b' fuel := by
        intro q hq
        rw [← seen_isSome hcp.fresh.wf hcp.lt, ← hcp.same q, seen_isSome hw0 (by omega)] at hq
        exact hd0 q hq
      have hold := hs1 (m :: ns)
      have hsome : (seen h b (m :: ns)).isSome := by rw [seen_isSome hw hb, hwb]; rfl
      rw [← hold, seen_isSome hcp.fresh.wf hcp.lt] at hsome
      obtain ⟨old', hold'⟩ := Option.isSome_iff_exists.1 hsome
      have hlen' : lenAt h1 obj = lenAt h1 old' := by
        rw [lenAt_eq (hcp.fresh.get (x := obj) (by omega)), ← hh0, lenAt_uncached ha, hlen, lenAt_view, lenAt_view]
        unfold seen at hold
        rw [hold', hwb] at hold
        simp only [Option.bind_some] at hold
        rw [hold]
      obtain ⟨h2, h2e⟩ := ih (by simp) (fun x hx => hp x (by simp at hx ⊢; tauto)) h1 b' old' hcp.fresh.wf hcp.lt (by omega)
        hd1 hold' hlen'
      simp only [hc, h2e]
      exact ⟨_, rfl⟩

/-- **C33 (every listed path can be replaced).**  For every path at which the circuit has an object and every object with as many
ports, `addblock(path, obj)` is accepted. -/
theorem C33_replace_accepted {h : Heap V} (hw : WF h) {a old : Addr} (hlt : a < h.length) (hobj : obj < h.length)
    (hd : Depth h a fuel) {ns : List Name} (hne : ns ≠ []) (hp : ∀ n ∈ ns, Plain n)
    (hf : findObj h a (join ns) = .ok (some old)) (hlen : lenAt h obj = lenAt h old) :
    ∃ h', addblock fuel chk obj pr h a (join ns) = (h', .ok ()) :=
  addblock_accepts ns hne hp h a old hw hlt hobj hd ((findObj_join h ns hp a old).1 hf) hlen

end PyRFtk.Tree
