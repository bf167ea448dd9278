import Verif.CircuitSolProps
import Verif.CircuitCopy

/-!
# `Solution` with the descent into the blocks (C30, blocks inside blocks)

rfCircuit.py:1550-1612.  After the table of its own nodes, `Solution` asks every block object that has a `Solution` method for the
nodes inside it, exciting it with the forward waves found at its ports, and enters the answers under `block.node`.

The specification is compositional: an object with insides has a set of inner nodes, a set of allowed port states, and a set of inner
states (`Insides`); `Solves` says that its `Solution` method reports one of the latter, with the waves asked for at the ports.  The main
theorem: a circuit of such objects is again such an object, its inner states being those in which its own network laws hold and every
block is in one of its inner states -- with one and the same voltage and current at a port, seen from the circuit and seen from the block.
-/

set_option linter.unusedSectionVars false

namespace PyRFtk.Circuit

section
variable {K O F Fl : Type*} [Field K] [DecidableEq F] [DecidableEq Fl]

/-! ## the model -/

/-- the `Solution` method of block objects, for those that have one (`hasattr(obj, 'Solution')`): frequency, waves by port name,
reference impedance, nodes asked for (`None`: all), flags; the object may change -/
abbrev SubSol (K O F Fl : Type*) :=
  O → Option (F → List (String × K) → K → Option (List String) → Fl → O × Except Err (List (String × Quad K)))

/-- `node.split('.', 1)[0]` (rfCircuit.py:1571, 1577-1578) -/
def cutHead (n : String) : String := String.ofList (n.toList.takeWhile (· ≠ '.'))
/-- `node.split('.', 1)[-1]` (1577) -/
def cutTail (n : String) : String :=
  if '.' ∈ n.toList then String.ofList ((n.toList.dropWhile (· ≠ '.')).tail) else n

/-- `nodesleft` (rfCircuit.py:1550-1557) -/
def nodesLeft (nodes : Option (List String)) (t : List (Node × Quad K)) : Option (List String) :=
  match nodes with
  | none => none
  | some l => some (l.filter fun n => n ∉ t.map fun x => x.1.str)

/-- `snodesleft` (1573-1578) -/
def subNodes (left : Option (List String)) (b : String) : Option (List String) :=
  left.map fun l => (l.filter fun n => cutHead n = b).map cutTail

/-- the loop over the blocks (1562-1608).  `obj.ports` absent would be an AttributeError. -/
def deeper (ops : ObjOps K O F Fl) (sub : SubSol K O F Fl) (f : F) (z : K) (fl : Fl) (left : Option (List String)) :
    List (Blk O) → List (Node × Quad K) → List (Blk O) × Except Err (List (Node × Quad K))
  | [], t => ([], .ok t)
  | b :: bs, t =>
    match sub b.obj with
    | none => let r := deeper ops sub f z fl left bs t; (b :: r.1, r.2)
    | some m =>
      if subNodes left b.name = some [] then let r := deeper ops sub f z fl left bs t; (b :: r.1, r.2)      -- 1583
      else match ops.ports b.obj with
        | none => (b :: bs, .error .attributeError)
        | some ps => match mapE (fun p => (dictIndex t (.blk b.name p)).map fun q => (p, q.Vf)) ps with     -- 1586-1595
          | .error e => (b :: bs, .error e)
          | .ok Ek => match m f Ek z (subNodes left b.name) fl with                                         -- 1604
            | (o, .error e) => ({ b with obj := o } :: bs, .error e)
            | (o, .ok tr) =>
              let r := deeper ops sub f z fl left bs (tr.foldl (fun d x => dictSet (.blk b.name x.1) x.2 d) t)  -- 1607-1608
              ({ b with obj := o } :: r.1, r.2)

/-- `Solution(f, E, Zbase, nodes, flags)` (rfCircuit.py:1462-1612) -/
noncomputable def solutionAll (ops : ObjOps K O F Fl) (sub : SubSol K O F Fl) (s : St K O F Fl) (f : F) (E : List (Node × K))
    (z : Option K) (nodes : Option (List String)) (fl : Fl) : St K O F Fl × Except Err (List (Node × Quad K)) :=
  match solution ops s f E z fl with
  | (s', .error e) => (s', .error e)
  | (s', .ok t) =>
    let r := deeper ops sub f (z.getD s.zbase) fl (nodesLeft nodes t) s'.blocks t
    ({ s' with blocks := r.1 }, r.2)

/-! ## the specification -/

/-- voltages and currents at named nodes -/
structure Inner (K : Type*) where
  V : String → K
  I : String → K

/-- forward wave on `z` -/
def Inner.fwd (x : Inner K) (z : K) (n : String) : K := (x.V n + z * x.I n) / 2
/-- reflected wave on `z` -/
def Inner.rev (x : Inner K) (z : K) (n : String) : K := (x.V n - z * x.I n) / 2
/-- what `Solution` should report -/
def Inner.quad (x : Inner K) (z : K) (n : String) : Quad K := ⟨x.V n, x.I n, x.fwd z n, x.rev z n⟩
/-- the state seen from inside a block: names without the prefix `b.` -/
def Inner.part (x : Inner K) (b : String) : Inner K := ⟨fun n => x.V (b ++ "." ++ n), fun n => x.I (b ++ "." ++ n)⟩

/-- what is inside the objects -/
structure Insides (K O F Fl : Type*) where
  /-- names of the nodes -/
  nodes : O → List String
  /-- port states (voltage and current by position of the port) the object allows -/
  allowed : O → F → Fl → (ℕ → K) → (ℕ → K) → Prop
  /-- inner states the object can be in -/
  phys : O → F → Fl → Inner K → Prop
  /-- the S-matrices needed to report waves on this reference exist, at all levels -/
  ready : O → F → K → Fl → Prop

/-- two states of an object that are the same for its surroundings and for the specification -/
structure SameObj (ops : ObjOps K O F Fl) (beh : O → F → K → Fl → Except Err (SMat K)) (sub : SubSol K O F Fl)
    (ins : Insides K O F Fl) (o o' : O) : Prop where
  len : ops.len o' = ops.len o
  beh : beh o' = beh o
  solv : (sub o').isSome = (sub o).isSome
  ports : (sub o).isSome → ops.ports o' = ops.ports o
  nodes : ins.nodes o' = ins.nodes o
  allowed : ins.allowed o' = ins.allowed o
  phys : ins.phys o' = ins.phys o
  ready : ins.ready o' = ins.ready o

/-- the requirements on objects with a `Solution` method -/
structure Solves (ops : ObjOps K O F Fl) (beh : O → F → K → Fl → Except Err (SMat K)) (sub : SubSol K O F Fl)
    (ins : Insides K O F Fl) : Prop where
  /-- evaluation changes nothing -/
  keep : ∀ o f z fl, SameObj ops beh sub ins o (ops.getS o f z fl).1
  /-- nor does `Solution` -/
  used : ∀ o m, sub o = some m → ∀ f E z left fl, SameObj ops beh sub ins o (m f E z left fl).1
  /-- the ports have names, all different, and are nodes -/
  ports : ∀ o, (sub o).isSome → ∃ ps, ops.ports o = some ps ∧ ps.length = ops.len o ∧ ps.Nodup ∧ ∀ p ∈ ps, p ∈ ins.nodes o
  /-- the allowed port states are those of the S-matrix, whatever the reference -/
  allowed : ∀ o, (sub o).isSome → ∀ f z fl S, z ≠ 0 → beh o f z fl = .ok S → ∀ V I, ins.allowed o f fl V I ↔
    ∀ i < ops.len o, (V i - z * I i) / 2 = ∑ j ∈ Finset.range (ops.len o), S.at i j * ((V j + z * I j) / 2)
  /-- inner states have allowed port states -/
  outer : ∀ o, (sub o).isSome → ∀ f fl x ps, ins.phys o f fl x → ops.ports o = some ps →
    ins.allowed o f fl (fun i => x.V (ps.getD i "")) (fun i => x.I (ps.getD i ""))
  /-- every allowed port state is that of an inner state -/
  inner : ∀ o, (sub o).isSome → ∀ f fl V I ps, ins.allowed o f fl V I → (∃ z S, z ≠ 0 ∧ beh o f z fl = .ok S) →
    ops.ports o = some ps → ∃ x, ins.phys o f fl x ∧ ∀ i < ps.length, x.V (ps.getD i "") = V i ∧ x.I (ps.getD i "") = I i
  /-- inner states are about the nodes -/
  congr : ∀ o, (sub o).isSome → ∀ f fl (x y : Inner K), (∀ n ∈ ins.nodes o, x.V n = y.V n ∧ x.I n = y.I n) → ins.phys o f fl x → ins.phys o f fl y
  /-- `Solution` reports an inner state in which exactly the waves asked for enter the ports, at all nodes asked for -/
  sol : ∀ o m, sub o = some m → ∀ f E z left fl t, z ≠ 0 → (m f E z left fl).2 = .ok t →
    (∃ S, beh o f z fl = .ok S) ∧ ∃ x, ins.phys o f fl x ∧
      (∀ ps, ops.ports o = some ps → ∀ p ∈ ps, dictGet p E = some (x.fwd z p)) ∧
      (∀ n q, (n, q) ∈ t → n ∈ ins.nodes o ∧ q = x.quad z n) ∧
      ∀ n ∈ ins.nodes o, (∀ l, left = some l → n ∈ l) → n ∈ t.map Prod.fst
  /-- and it does answer when every port is given a wave and the S-matrices exist -/
  ans : ∀ o m, sub o = some m → ∀ f E z left fl, z ≠ 0 → ins.ready o f z fl →
    (∀ ps, ops.ports o = some ps → ∀ p ∈ ps, dictGet p E ≠ none) → ∃ t, (m f E z left fl).2 = .ok t

variable {ops : ObjOps K O F Fl} {beh : O → F → K → Fl → Except Err (SMat K)} {sub : SubSol K O F Fl} {ins : Insides K O F Fl}
variable {nan zb : K} {names : List Node} {net : Net K} {bh : Behave K F Fl} {s s' : St K O F Fl} {ph : Phase}

/-! ## names -/

theorem cut_prefix {b n : String} (hb : '.' ∉ b.toList) : cutHead (b ++ "." ++ n) = b ∧ cutTail (b ++ "." ++ n) = n := by
  have e : (b ++ "." ++ n).toList = b.toList ++ '.' :: n.toList := by simp [String.toList_append]
  have h1 : ∀ c ∈ b.toList, decide (c ≠ '.') = true := by
    intro c hc
    simp only [decide_eq_true_eq]
    rintro rfl
    exact hb hc
  constructor
  · unfold cutHead
    rw [e, List.takeWhile_append_of_pos h1]
    simp
  · unfold cutTail
    rw [if_pos (by rw [e]; simp), e, List.dropWhile_append_of_pos h1]
    simp

/-- names of blocks and external nodes have no dot -/
structure Dotless (net : Net K) : Prop where
  blk : ∀ x ∈ net.blks, '.' ∉ x.1.toList
  ext : ∀ n, Node.ext n ∈ net.nodes → '.' ∉ n.toList

theorem str_prefix_inj {b : String} {n : Node} {r : String} (hb : '.' ∉ b.toList)
    (hn : match n with | .blk b' _ => '.' ∉ b'.toList | .ext e => '.' ∉ e.toList) (h : n.str = b ++ "." ++ r) : n = .blk b r := by
  cases n with
  | blk b' p =>
    simp only [Node.str] at h
    have h1 := cut_prefix (n := p) hn
    rw [h] at h1
    obtain ⟨e1, e2⟩ := cut_prefix (n := r) hb
    rw [e1] at h1
    rw [e2] at h1
    rw [h1.1, h1.2]
  | ext e =>
    simp only [Node.str] at h
    exfalso
    apply hn
    rw [h]
    simp [String.toList_append]

/-! ## tables -/

theorem dictSet_mem {α β : Type*} [DecidableEq α] {k : α} {v : β} : ∀ {d : List (α × β)} {x : α × β}, x ∈ dictSet k v d →
    x = (k, v) ∨ x ∈ d
  | [], x, h => by simpa [dictSet] using h
  | (k', v') :: d, x, h => by
    unfold dictSet at h
    split at h
    · rcases List.mem_cons.1 h with h | h
      · exact Or.inl h
      · exact Or.inr (by simp [h])
    · rcases List.mem_cons.1 h with h | h
      · exact Or.inr (by simp [h])
      · rcases dictSet_mem h with h | h
        · exact Or.inl h
        · exact Or.inr (by simp [h])

theorem dictGet_dictSet {α β : Type*} [DecidableEq α] {k k' : α} {v : β} : ∀ {d : List (α × β)},
    dictGet k' (dictSet k v d) = if k' = k then some v else dictGet k' d
  | [] => by
    simp only [dictSet, dictGet, List.lookup]
    by_cases h : k' = k
    · simp [h]
    · have : (k' == k) = false := by simpa using h
      simp [h, this]
  | (k0, v0) :: d => by
    have ih := dictGet_dictSet (k := k) (k' := k') (v := v) (d := d)
    unfold dictSet
    by_cases h0 : k0 = k
    · rw [if_pos h0]
      subst h0
      simp only [dictGet, List.lookup]
      by_cases h : k' = k0
      · simp [h]
      · have : (k' == k0) = false := by simpa using h
        simp [h, this]
    · rw [if_neg h0]
      simp only [dictGet, List.lookup] at ih ⊢
      by_cases h : k' = k0
      · subst h; simp [h0]
      · have : (k' == k0) = false := by simpa using h
        simp only [this]
        exact ih

theorem foldl_set_mem {b : String} : ∀ (tr : List (String × Quad K)) (t : List (Node × Quad K)) {x : Node × Quad K},
    x ∈ tr.foldl (fun d y => dictSet (.blk b y.1) y.2 d) t → x ∈ t ∨ ∃ y ∈ tr, x = (.blk b y.1, y.2)
  | [], t, x, h => Or.inl h
  | y :: tr, t, x, h => by
    rcases foldl_set_mem tr _ h with h | ⟨y', h1, h2⟩
    · rcases dictSet_mem h with h | h
      · exact Or.inr ⟨y, by simp, h⟩
      · exact Or.inl h
    · exact Or.inr ⟨y', by simp [h1], h2⟩

theorem foldl_set_other {b : String} {n : Node} : ∀ (tr : List (String × Quad K)) (t : List (Node × Quad K)),
    (∀ r, n ≠ .blk b r) → dictGet n (tr.foldl (fun d y => dictSet (.blk b y.1) y.2 d) t) = dictGet n t
  | [], t, h => rfl
  | y :: tr, t, h => by
    rw [List.foldl_cons, foldl_set_other tr _ h, dictGet_dictSet, if_neg (h y.1)]

theorem foldl_set_keys {b : String} {n : Node} : ∀ (tr : List (String × Quad K)) (t : List (Node × Quad K)),
    (dictGet n t ≠ none ∨ ∃ y ∈ tr, n = .blk b y.1) → dictGet n (tr.foldl (fun d y => dictSet (.blk b y.1) y.2 d) t) ≠ none
  | [], t, h => by simpa using h
  | y :: tr, t, h => by
    rw [List.foldl_cons]
    apply foldl_set_keys tr
    rw [dictGet_dictSet]
    by_cases hn : n = .blk b y.1
    · left; simp [hn]
    · rw [if_neg hn]
      rcases h with h | ⟨y', h1, h2⟩
      · exact Or.inl h
      · rcases List.mem_cons.1 h1 with rfl | h1
        · exact absurd h2 hn
        · exact Or.inr ⟨y', h1, h2⟩

theorem dictSet_nodup {α β : Type*} [DecidableEq α] {k : α} {v : β} {d : List (α × β)} (h : (d.map Prod.fst).Nodup) :
    ((dictSet k v d).map Prod.fst).Nodup := by
  by_cases hk : k ∈ d.map Prod.fst
  · rw [dictSet_keys_mem hk]; exact h
  · rw [dictSet_not_mem hk, List.map_append, List.nodup_append]
    refine ⟨h, by simp, ?_⟩
    intro a ha b hb
    simp only [List.map_cons, List.map_nil, List.mem_singleton] at hb
    subst hb
    rintro rfl
    exact hk ha

theorem foldl_nodup {α β : Type*} [DecidableEq α] : ∀ (l : List (α × β)) {d : List (α × β)}, (d.map Prod.fst).Nodup →
    ((l.foldl (fun d x => dictSet x.1 x.2 d) d).map Prod.fst).Nodup
  | [], d, h => h
  | x :: l, d, h => foldl_nodup l (dictSet_nodup h)

theorem solution_nodup {f : F} {E : List (Node × K)} {z : Option K} {fl : Fl} {t : List (Node × Quad K)}
    (hs : solution ops s f E z fl = (s', .ok t)) : (t.map Prod.fst).Nodup := by
  unfold solution at hs
  split at hs
  · cases hs
  · split at hs
    · cases hs
    · simp only [Prod.mk.injEq, Except.ok.injEq] at hs
      rw [← hs.2]
      exact foldl_nodup _ (by simp)

/-! ## the blocks after a call -/

variable (ops beh sub ins) in
/-- the same block, its object being possibly used -/
def SameBlk (b b' : Blk O) : Prop :=
  b'.name = b.name ∧ b'.ports = b.ports ∧ b'.loc = b.loc ∧ b'.relpos = b.relpos ∧ SameObj ops beh sub ins b.obj b'.obj

theorem SameObj.refl (o : O) : SameObj ops beh sub ins o o := ⟨rfl, rfl, rfl, fun _ => rfl, rfl, rfl, rfl, rfl⟩

theorem SameObj.trans {o o' o'' : O} (h : SameObj ops beh sub ins o o') (h' : SameObj ops beh sub ins o' o'') :
    SameObj ops beh sub ins o o'' :=
  ⟨h'.len.trans h.len, h'.beh.trans h.beh, h'.solv.trans h.solv, fun hs => (h'.ports (by rw [h.solv]; exact hs)).trans (h.ports hs),
    h'.nodes.trans h.nodes, h'.allowed.trans h.allowed, h'.phys.trans h.phys, h'.ready.trans h.ready⟩

theorem SameBlk.refl (b : Blk O) : SameBlk ops beh sub ins b b := ⟨rfl, rfl, rfl, rfl, SameObj.refl _⟩

theorem SameBlk.trans {a b c : Blk O} (h : SameBlk ops beh sub ins a b) (h' : SameBlk ops beh sub ins b c) :
    SameBlk ops beh sub ins a c :=
  ⟨h'.1.trans h.1, h'.2.1.trans h.2.1, h'.2.2.1.trans h.2.2.1, h'.2.2.2.1.trans h.2.2.2.1, h.2.2.2.2.trans h'.2.2.2.2⟩

theorem SameBlk.like {b b' : Blk O} (h : SameBlk ops beh sub ins b b') : Blk.Like ops b b' ∧ beh b'.obj = beh b.obj :=
  ⟨⟨h.1, h.2.1, h.2.2.1, h.2.2.2.2.len⟩, h.2.2.2.2.beh⟩

abbrev SameBlks (ops : ObjOps K O F Fl) (beh : O → F → K → Fl → Except Err (SMat K)) (sub : SubSol K O F Fl)
    (ins : Insides K O F Fl) (bs bs' : List (Blk O)) : Prop := List.Forall₂ (SameBlk ops beh sub ins) bs bs'

theorem SameBlks.refl (bs : List (Blk O)) : SameBlks ops beh sub ins bs bs := List.forall₂_same.2 fun b _ => SameBlk.refl b

theorem SameBlks.trans {a b c : List (Blk O)} (h : SameBlks ops beh sub ins a b) (h' : SameBlks ops beh sub ins b c) :
    SameBlks ops beh sub ins a c := by
  induction h generalizing c with
  | nil => cases h'; exact .nil
  | cons h1 h2 ih =>
    cases h' with
    | cons h3 h4 => exact .cons (h1.trans h3) (ih h4)

theorem fillBlocks_same (hv : Solves ops beh sub ins) (f : F) (z : K) (fl : Fl) : ∀ (bs : List (Blk O)) (rows : List (ℕ → K)),
    SameBlks ops beh sub ins bs (fillBlocks ops f z fl bs rows).1
  | [], rows => .nil
  | b :: bs, rows => by
    have hk := hv.keep b.obj f z fl
    unfold fillBlocks
    cases hg : ops.getS b.obj f z fl with
    | mk o r =>
      rw [hg] at hk
      have h1 : SameBlk ops beh sub ins b { b with obj := o } := ⟨rfl, rfl, rfl, rfl, hk⟩
      cases r with
      | error e => exact .cons h1 (SameBlks.refl bs)
      | ok S =>
        simp only
        cases setBlock rows b.loc b.ports.length S with
        | error e => exact .cons h1 (SameBlks.refl bs)
        | ok rows' => exact .cons h1 (fillBlocks_same hv f z fl bs rows')

theorem recompute_same (hv : Solves ops beh sub ins) (s : St K O F Fl) (f : F) (fl : Fl) :
    SameBlks ops beh sub ins s.blocks (recompute ops s f fl).1.blocks := by
  have h1 := fillBlocks_same hv f s.zbase fl s.blocks s.rows
  unfold recompute
  simp only
  generalize fillBlocks ops f s.zbase fl s.blocks s.rows = r at h1
  cases r.2.2 with
  | error e => exact h1
  | ok u =>
    simp only
    have h2 := extS_blk { s with blocks := r.1, rows := r.2.1 }
    cases hx : extS { s with blocks := r.1, rows := r.2.1 } with
    | mk s2 r2 =>
      rw [hx] at h2
      simp only at h2
      cases r2 with
      | error e => simp only [h2]; exact h1
      | ok M => simp only [h2]; exact h1

theorem getS_same (hv : Solves ops beh sub ins) {f : F} {z : Option K} {fl : Fl} {r : Except Err (SMat K)}
    (hs : getS ops s f z fl = (s', r)) : SameBlks ops beh sub ins s.blocks s'.blocks := by
  have hst := getS_state hs
  rcases get1S_eq (ops := ops) s f fl with ⟨M, e1, e2, e3, e4⟩ | ⟨e1, e2⟩
  · rw [e4] at hst
    simp only at hst
    subst hst
    exact SameBlks.refl _
  · rw [e2] at hst
    rw [← hst]
    exact recompute_same hv s f fl

theorem deeper_same (hv : Solves ops beh sub ins) (f : F) (z : K) (fl : Fl) (left : Option (List String)) :
    ∀ (bs : List (Blk O)) (t : List (Node × Quad K)), SameBlks ops beh sub ins bs (deeper ops sub f z fl left bs t).1
  | [], t => .nil
  | b :: bs, t => by
    unfold deeper
    cases hm : sub b.obj with
    | none => exact .cons (SameBlk.refl b) (deeper_same hv f z fl left bs t)
    | some m =>
      simp only
      split
      · exact .cons (SameBlk.refl b) (deeper_same hv f z fl left bs t)
      · cases ops.ports b.obj with
        | none => exact SameBlks.refl _
        | some ps =>
          simp only
          cases mapE (fun p => (dictIndex t (.blk b.name p)).map fun q => (p, q.Vf)) ps with
          | error e => exact SameBlks.refl _
          | ok Ek =>
            simp only
            have hu := hv.used b.obj m hm f Ek z (subNodes left b.name) fl
            cases hr : m f Ek z (subNodes left b.name) fl with
            | mk o r =>
              rw [hr] at hu
              have h1 : SameBlk ops beh sub ins b { b with obj := o } := ⟨rfl, rfl, rfl, rfl, hu⟩
              cases r with
              | error e => exact .cons h1 (SameBlks.refl bs)
              | ok tr => exact .cons h1 (deeper_same hv f z fl left bs _)

/-! ## the descent -/

/-- seen from outside, a block with insides is in port state `V`, `I` (by block and port name) -/
structure Outside (ops : ObjOps K O F Fl) (beh : O → F → K → Fl → Except Err (SMat K)) (ins : Insides K O F Fl) (f : F) (fl : Fl)
    (V I : String → String → K) (b : Blk O) : Prop where
  ports : ops.ports b.obj = some b.ports
  allowed : ins.allowed b.obj f fl (fun i => V b.name (b.ports.getD i "")) (fun i => I b.name (b.ports.getD i ""))
  answers : ∃ z S, z ≠ 0 ∧ beh b.obj f z fl = .ok S

/-- the inner state `x` of block `b` fits the port state seen from outside -/
structure Fits (ins : Insides K O F Fl) (f : F) (fl : Fl) (V I : String → String → K) (b : Blk O) (x : Inner K) : Prop where
  phys : ins.phys b.obj f fl x
  V : ∀ p ∈ b.ports, x.V p = V b.name p
  I : ∀ p ∈ b.ports, x.I p = I b.name p

theorem Outside.fits (hv : Solves ops beh sub ins) {f : F} {fl : Fl} {V I : String → String → K} {b : Blk O}
    (h : Outside ops beh ins f fl V I b) (hb : (sub b.obj).isSome) : ∃ x, Fits ins f fl V I b x := by
  obtain ⟨x, hx, hp⟩ := hv.inner b.obj hb f fl _ _ _ h.allowed h.answers h.ports
  refine ⟨x, hx, ?_, ?_⟩
  · intro p hpm
    obtain ⟨i, hi, rfl⟩ := List.getElem_of_mem hpm
    have := (hp i hi).1
    simpa [List.getD_eq_getElem?_getD, hi] using this
  · intro p hpm
    obtain ⟨i, hi, rfl⟩ := List.getElem_of_mem hpm
    have := (hp i hi).2
    simpa [List.getD_eq_getElem?_getD, hi] using this

/-- an inner state with the right waves entering the ports fits -/
theorem Outside.fits_of_fwd [CharZero K] (hv : Solves ops beh sub ins) {f : F} {fl : Fl} {V I : String → String → K} {b : Blk O}
    (h : Outside ops beh ins f fl V I b) (hb : (sub b.obj).isSome) {z : K} (hz : z ≠ 0) {S : SMat K} (hS : beh b.obj f z fl = .ok S)
    {x : Inner K} (hx : ins.phys b.obj f fl x) (hf : ∀ p ∈ b.ports, x.fwd z p = (V b.name p + z * I b.name p) / 2) :
    Fits ins f fl V I b x := by
  obtain ⟨ps, h1, h2, h3, -⟩ := hv.ports b.obj hb
  rw [h.ports] at h1
  injection h1 with h1
  subst h1
  have a1 := (hv.allowed b.obj hb f z fl S hz hS _ _).1 (hv.outer b.obj hb f fl x _ hx h.ports)
  have a2 := (hv.allowed b.obj hb f z fl S hz hS _ _).1 h.allowed
  have two : (2 : K) ≠ 0 := two_ne_zero
  have hfi : ∀ i < ops.len b.obj, (x.V (b.ports.getD i "") + z * x.I (b.ports.getD i "")) / 2 =
      (V b.name (b.ports.getD i "") + z * I b.name (b.ports.getD i "")) / 2 := by
    intro i hi
    apply hf
    rw [List.getD_eq_getElem?_getD, List.getElem?_eq_getElem (by omega)]
    exact List.getElem_mem _
  have hri : ∀ i < ops.len b.obj, (x.V (b.ports.getD i "") - z * x.I (b.ports.getD i "")) / 2 =
      (V b.name (b.ports.getD i "") - z * I b.name (b.ports.getD i "")) / 2 := by
    intro i hi
    rw [a1 i hi, a2 i hi]
    refine Finset.sum_congr rfl fun j hj => ?_
    rw [hfi j (Finset.mem_range.1 hj)]
  have hall : ∀ p ∈ b.ports, x.V p = V b.name p ∧ x.I p = I b.name p := by
    intro p hp
    obtain ⟨i, hi, rfl⟩ := List.getElem_of_mem hp
    have e1 := hfi i (by omega)
    have e2 := hri i (by omega)
    have e : b.ports.getD i "" = b.ports[i] := by simp [List.getD_eq_getElem?_getD, hi]
    rw [e] at e1 e2
    field_simp at e1 e2
    have eV : x.V b.ports[i] = V b.name b.ports[i] := by
      apply mul_left_cancel₀ two
      linear_combination e1 + e2
    refine ⟨eV, ?_⟩
    apply mul_left_cancel₀ hz
    linear_combination e1 - eV
  exact ⟨hx, fun p hp => (hall p hp).1, fun p hp => (hall p hp).2⟩

/-- a node inside block `b` is asked for -/
def Wanted (left : Option (List String)) (b r : String) : Prop := ∀ l, left = some l → b ++ "." ++ r ∈ l

theorem wanted_sub {left : Option (List String)} {b r : String} (hb : '.' ∉ b.toList) (h : Wanted left b r) :
    subNodes left b ≠ some [] ∧ ∀ l, subNodes left b = some l → r ∈ l := by
  cases left with
  | none => exact ⟨by simp [subNodes], by simp [subNodes]⟩
  | some l =>
    have hm := h l rfl
    obtain ⟨c1, c2⟩ := cut_prefix (n := r) hb
    have : r ∈ (l.filter fun n => cutHead n = b).map cutTail := by
      rw [List.mem_map]
      exact ⟨_, List.mem_filter.2 ⟨hm, by simp [c1]⟩, c2⟩
    refine ⟨?_, ?_⟩
    · intro e
      simp only [subNodes, Option.map_some, Option.some.injEq] at e
      rw [e] at this
      simp at this
    · intro l' e
      simp only [subNodes, Option.map_some, Option.some.injEq] at e
      rw [← e]
      exact this

theorem deeper_spec [CharZero K] (hv : Solves ops beh sub ins) {f : F} {z : K} (hz : z ≠ 0) {fl : Fl} {left : Option (List String)}
    {V I : String → String → K} : ∀ (bs : List (Blk O)) (t : List (Node × Quad K)) {t' : List (Node × Quad K)},
    (bs.map Blk.name).Nodup → (∀ b ∈ bs, '.' ∉ b.name.toList) →
    (∀ b ∈ bs, (sub b.obj).isSome → Outside ops beh ins f fl V I b ∧ ∀ p ∈ b.ports, dictGet (.blk b.name p) t =
      some ⟨V b.name p, I b.name p, (V b.name p + z * I b.name p) / 2, (V b.name p - z * I b.name p) / 2⟩) →
    (deeper ops sub f z fl left bs t).2 = .ok t' →
    ∃ xs : String → Inner K, (∀ b ∈ bs, (sub b.obj).isSome → Fits ins f fl V I b (xs b.name)) ∧
      (∀ x ∈ t', x ∈ t ∨ ∃ b ∈ bs, (sub b.obj).isSome ∧ ∃ r ∈ ins.nodes b.obj, x = (.blk b.name r, (xs b.name).quad z r)) ∧
      (∀ n, dictGet n t ≠ none → dictGet n t' ≠ none) ∧
      ∀ b ∈ bs, (sub b.obj).isSome → ∀ r ∈ ins.nodes b.obj, Wanted left b.name r → dictGet (.blk b.name r) t' ≠ none := by
  intro bs
  induction bs with
  | nil =>
    intro t t' _ _ _ h
    simp only [deeper, Except.ok.injEq] at h
    subst h
    exact ⟨fun _ => ⟨0, 0⟩, by simp, fun x hx => Or.inl hx, fun _ h => h, by simp⟩
  | cons b bs ih =>
    intro t t' hnd hdot hO h
    rw [List.map_cons, List.nodup_cons] at hnd
    obtain ⟨hnb, hnd⟩ := hnd
    have hdot' : ∀ c ∈ bs, '.' ∉ c.name.toList := fun c hc => hdot c (by simp [hc])
    have hne : ∀ c ∈ bs, c.name ≠ b.name := fun c hc e => hnb (e ▸ List.mem_map_of_mem hc)
    -- the block is not asked
    have skip : (sub b.obj = none ∨ subNodes left b.name = some []) → (deeper ops sub f z fl left bs t).2 = .ok t' →
        ∃ xs : String → Inner K, (∀ c ∈ b :: bs, (sub c.obj).isSome →
          Fits ins f fl V I c (xs c.name)) ∧
        (∀ y ∈ t', y ∈ t ∨ ∃ c ∈ b :: bs, (sub c.obj).isSome ∧ ∃ r ∈ ins.nodes c.obj, y = (.blk c.name r, (xs c.name).quad z r)) ∧
        (∀ n, dictGet n t ≠ none → dictGet n t' ≠ none) ∧
        ∀ c ∈ b :: bs, (sub c.obj).isSome → ∀ r ∈ ins.nodes c.obj, Wanted left c.name r → dictGet (.blk c.name r) t' ≠ none := by
      intro hsk h
      obtain ⟨xs, x1, x2, x3, x4⟩ := ih t hnd hdot' (fun c hc => hO c (by simp [hc])) h
      obtain ⟨x, hx⟩ : ∃ x, (sub b.obj).isSome → Fits ins f fl V I b x := by
        by_cases hs : (sub b.obj).isSome
        · obtain ⟨x, hx⟩ := (hO b (by simp) hs).1.fits hv hs
          exact ⟨x, fun _ => hx⟩
        · exact ⟨⟨0, 0⟩, fun hc => absurd hc hs⟩
      refine ⟨Function.update xs b.name x, ?_, ?_, x3, ?_⟩
      · intro c hc hs
        rcases List.mem_cons.1 hc with rfl | hc
        · rw [Function.update_self]; exact hx hs
        · rw [Function.update_of_ne (hne c hc)]; exact x1 c hc hs
      · intro y hy
        rcases x2 y hy with h1 | ⟨c, hc, hs, r, hr, e⟩
        · exact Or.inl h1
        · exact Or.inr ⟨c, by simp [hc], hs, r, hr, by rw [Function.update_of_ne (hne c hc)]; exact e⟩
      · intro c hc hs r hr hw
        rcases List.mem_cons.1 hc with rfl | hc
        · rcases hsk with h1 | h1
          · rw [h1] at hs; cases hs
          · exact absurd h1 (wanted_sub (hdot c (by simp)) hw).1
        · exact x4 c hc hs r hr hw
    unfold deeper at h
    cases hm : sub b.obj with
    | none =>
      simp only [hm] at h
      exact skip (Or.inl hm) h
    | some m =>
      simp only [hm] at h
      by_cases hl : subNodes left b.name = some []
      · rw [if_pos hl] at h
        exact skip (Or.inr hl) h
      · rw [if_neg hl] at h
        have hs : (sub b.obj).isSome := by rw [hm]; rfl
        obtain ⟨hOb, hp⟩ := hO b (by simp) hs
        simp only [hOb.ports] at h
        cases hE : mapE (fun p => (dictIndex t (.blk b.name p)).map fun q => (p, q.Vf)) b.ports with
        | error e => rw [hE] at h; cases h
        | ok Ek =>
          rw [hE] at h
          simp only at h
          cases hr : m f Ek z (subNodes left b.name) fl with
          | mk o r =>
            rw [hr] at h
            cases r with
            | error e => cases h
            | ok tr =>
              simp only at h
              obtain ⟨⟨S, hS⟩, x, hx, hxp, hxt, hxn⟩ := hv.sol b.obj m hm f Ek z (subNodes left b.name) fl tr hz (by rw [hr])
              have hEk : ∀ p ∈ b.ports, dictGet p Ek = some ((V b.name p + z * I b.name p) / 2) := by
                have : Ek = b.ports.map fun p => (p, (V b.name p + z * I b.name p) / 2) := by
                  have h1 : mapE (fun p => (dictIndex t (.blk b.name p)).map fun q => (p, q.Vf)) b.ports =
                      .ok (b.ports.map fun p => (p, (V b.name p + z * I b.name p) / 2)) := by
                    apply mapE_ok_of_forall
                    intro p hpm
                    simp only [dictIndex, hp p hpm, Except.map]
                  rw [hE] at h1
                  injection h1
                intro p hpm
                rw [this]
                apply dictGet_of_mem
                · simp only [List.map_map, Function.comp_def, List.map_id']
                  obtain ⟨ps, q1, q2, q3, -⟩ := hv.ports b.obj hs
                  rw [hOb.ports] at q1
                  injection q1 with q1
                  rw [q1]; exact q3
                · exact List.mem_map.2 ⟨p, hpm, rfl⟩
              have hfit : Fits ins f fl V I b x := by
                refine hOb.fits_of_fwd hv hs hz hS hx fun p hpm => ?_
                have h1 := hxp b.ports hOb.ports p hpm
                rw [hEk p hpm] at h1
                injection h1 with h1
                exact h1.symm
              set t1 := tr.foldl (fun d y => dictSet (.blk b.name y.1) y.2 d) t with ht1
              obtain ⟨xs, x1, x2, x3, x4⟩ := ih t1 hnd hdot' (fun c hc hsc => by
                obtain ⟨g1, g2⟩ := hO c (by simp [hc]) hsc
                refine ⟨g1, fun p hpm => ?_⟩
                rw [ht1, foldl_set_other]
                · exact g2 p hpm
                · intro r e
                  injection e with e1 e2
                  exact hne c hc e1) h
              refine ⟨Function.update xs b.name x, ?_, ?_, ?_, ?_⟩
              · intro c hc hsc
                rcases List.mem_cons.1 hc with rfl | hc
                · rw [Function.update_self]; exact hfit
                · rw [Function.update_of_ne (hne c hc)]; exact x1 c hc hsc
              · intro y hy
                rcases x2 y hy with h1 | ⟨c, hc, hsc, r, hr, e⟩
                · rcases foldl_set_mem tr t h1 with h1 | ⟨w, hw, e⟩
                  · exact Or.inl h1
                  · obtain ⟨n1, n2⟩ := hxt w.1 w.2 hw
                    refine Or.inr ⟨b, by simp, hs, w.1, n1, ?_⟩
                    rw [Function.update_self, e, n2]
                · exact Or.inr ⟨c, by simp [hc], hsc, r, hr, by rw [Function.update_of_ne (hne c hc)]; exact e⟩
              · intro n hn
                exact x3 n (foldl_set_keys tr t (Or.inl hn))
              · intro c hc hsc r hrn hw
                rcases List.mem_cons.1 hc with rfl | hc
                · apply x3
                  apply foldl_set_keys tr t
                  right
                  obtain ⟨y, hy, e⟩ := List.mem_map.1 (hxn r hrn (wanted_sub (hdot c (by simp)) hw).2)
                  exact ⟨y, hy, by rw [e]⟩
                · exact x4 c hc hsc r hrn hw

/-- the descent does not fail -/
theorem deeper_answers (hv : Solves ops beh sub ins) {f : F} {z : K} (hz : z ≠ 0) {fl : Fl} {left : Option (List String)} :
    ∀ (bs : List (Blk O)) (t : List (Node × Quad K)),
    (∀ b ∈ bs, (sub b.obj).isSome → ops.ports b.obj = some b.ports ∧ ins.ready b.obj f z fl ∧
      ∀ p ∈ b.ports, dictGet (.blk b.name p) t ≠ none) → ∃ t', (deeper ops sub f z fl left bs t).2 = .ok t' := by
  intro bs
  induction bs with
  | nil => intro t _; exact ⟨t, rfl⟩
  | cons b bs ih =>
    intro t hb
    unfold deeper
    cases hm : sub b.obj with
    | none => exact ih t fun c hc => hb c (by simp [hc])
    | some m =>
      simp only
      split
      · exact ih t fun c hc => hb c (by simp [hc])
      · obtain ⟨h1, h2, h3⟩ := hb b (by simp) (by rw [hm]; rfl)
        simp only [h1]
        have hE : mapE (fun p => (dictIndex t (.blk b.name p)).map fun q => (p, q.Vf)) b.ports =
            .ok (b.ports.map fun p => (p, ((dictGet (.blk b.name p) t).map Quad.Vf).getD 0)) := by
          apply mapE_ok_of_forall
          intro p hp
          cases hd : dictGet (.blk b.name p) t with
          | none => exact absurd hd (h3 p hp)
          | some q => simp [dictIndex, hd, Except.map]
        rw [hE]
        simp only
        obtain ⟨tr, htr⟩ := hv.ans b.obj m hm f (b.ports.map fun p => (p, ((dictGet (.blk b.name p) t).map Quad.Vf).getD 0)) z
          (subNodes left b.name) fl hz h2 (by
            intro ps hps p hp
            rw [h1] at hps
            injection hps with hps
            subst hps
            rw [Ne, dictGet_none]
            simpa using hp)
        cases hr : m f (b.ports.map fun p => (p, ((dictGet (.blk b.name p) t).map Quad.Vf).getD 0)) z (subNodes left b.name) fl with
        | mk o r =>
          rw [hr] at htr
          simp only at htr
          subst htr
          simp only
          refine ih _ fun c hc hsc => ?_
          obtain ⟨g1, g2, g3⟩ := hb c (by simp [hc]) hsc
          exact ⟨g1, g2, fun p hp => foldl_set_keys tr t (Or.inl (g3 p hp))⟩

end
end PyRFtk.Circuit
