import Verif.CircuitPos

/-!
# `getpos` in nested circuits (C61)

rfCircuit.py:739-763.  A name is written as the list of its parts between the dots (`"X.A.1"` is `["X", "A", "1"]`), which is the same thing as the
string: `'.' in node` means more than one part, `node.split('.', 1)` takes the first part off.
-/

namespace PyRFtk.Circuit

/-! ## model -/

/-- a name, as the parts between its dots -/
abbrev Path := List String

/-- what `getpos` sees of an object: its ports and positions, and, of a circuit, its blocks (name, port names in the circuit, position, object) -/
inductive PTree
  | leaf (ports : List Path) (xpos : List ℚ)
  | circ (blocks : List (String × List Path × ℚ × PTree)) (ports : List Path) (xpos : List ℚ)

def PTree.ports : PTree → List Path
  | .leaf ps _ => ps
  | .circ _ ps _ => ps

def PTree.xpos : PTree → List ℚ
  | .leaf _ xs => xs
  | .circ _ _ xs => xs

/-- lines 758-763: the index in the names given to the block, or else in the object's own names; `block` is unbound when there was no dot -/
def posOf (B : Option (List Path)) (o : PTree) (r : ℚ) (node : Path) : Except Err ℚ :=
  match (show Except Err ℕ from match B with
    | some ps => if node ∈ ps then .ok (idx ps node) else pyIndex o.ports node
    | none => pyIndex o.ports node) with
  | .error e => .error e
  | .ok k => match o.xpos[k]? with
    | none => .error .indexError
    | some v => .ok (r + v)

/-- the loop 745-757: the position found, or the rest of the name when a block is not known (`except KeyError`) -/
def walk : Path → Option (List Path) → PTree → ℚ → Except Err ℚ ⊕ Path
  | a :: b :: rest, B, o, r => match o with
    | .leaf _ _ => .inl (posOf B o r (a :: b :: rest))                                  -- 752-754
    | .circ bs _ _ => match dictGet a bs with
      | none => .inr (b :: rest)                                                           -- 755-757
      | some (ps, x, o') => walk (b :: rest) (some ps) o' (r + x)                          -- 748-751
  | node, B, o, r => .inl (posOf B o r node)

theorem walk_shorter : ∀ {node rest : Path} {B : Option (List Path)} {o : PTree} {r : ℚ}, walk node B o r = .inr rest → rest.length < node.length
  | [], _, _, _, _, h => by simp [walk] at h
  | [_], _, _, _, _, h => by simp [walk] at h
  | a :: b :: l, rest, B, .leaf _ _, r, h => by simp [walk] at h
  | a :: b :: l, rest, B, .circ bs _ _, r, h => by
    unfold walk at h
    simp only at h
    split at h
    · injection h with h; subst h; simp
    · have := walk_shorter h
      simp only [List.length_cons] at this ⊢; omega

/-- `self.getpos(node)` -/
def getposT (t : PTree) (node : Path) : Except Err ℚ :=
  match h : walk node none t 0 with
  | .inl v => v
  | .inr rest => getposT t rest                                                            -- 757: return self.getpos(node)
termination_by node.length
decreasing_by exact walk_shorter h

/-! ## specification -/

/-- a circuit that says the truth about its positions: the blocks have different names; the port names in a block are different; a nested
circuit's ports have kept their own names, or have got new names without dots; every port of the circuit is a name made by `connect` or a port of
a block, and in that case its position is that of the block plus that of the port in the block's object; the same in every nested circuit. -/
inductive Truthful : PTree → Prop
  | leaf {ports xpos} : ports.length ≤ xpos.length → Truthful (.leaf ports xpos)
  | circ {blocks ports xpos} :
      (blocks.map Prod.fst).Nodup → ports.Nodup → ports.length = xpos.length →
      (∀ b ∈ blocks, Truthful b.2.2.2) →
      (∀ b ∈ blocks, b.2.1.Nodup ∧ b.2.1.length = b.2.2.2.ports.length ∧
        ((∃ ps xs, b.2.2.2 = .leaf ps xs) ∨ ∀ (k : ℕ) (p : Path), b.2.1[k]? = some p → p.length = 1 ∨ b.2.2.2.ports[k]? = some p)) →
      (∀ (k : ℕ) (p : Path), ports[k]? = some p → p.length = 1 ∨
        ∃ b ∈ blocks, ∃ (j : ℕ) (q : Path), b.2.1[j]? = some q ∧ q ≠ [] ∧ p = b.1 :: q ∧ ∃ x : ℚ, b.2.2.2.xpos[j]? = some x ∧ xpos[k]? = some (b.2.2.1 + x)) →
      Truthful (.circ blocks ports xpos)

/-! ## properties -/

theorem posOf_ok {ps : List Path} {o : PTree} {r : ℚ} {node : Path} {j : ℕ} {x : ℚ} (hnd : ps.Nodup) (hj : ps[j]? = some node)
    (hx : o.xpos[j]? = some x) : posOf (some ps) o r node = .ok (r + x) := by
  have hm : node ∈ ps := List.mem_of_getElem? hj
  have hi : idx ps node = j := getElem?_inj_of_nodup hnd (getElem?_idx hm) hj
  simp only [posOf, hm, if_true, hi, hx]

theorem walk_truthful : ∀ {o : PTree}, Truthful o → ∀ {node : Path} {j : ℕ} {x r : ℚ} {ps : List Path}, node ≠ [] → ps.Nodup → ps[j]? = some node →
    o.xpos[j]? = some x → (node.length = 1 ∨ (∃ a b, o = .leaf a b) ∨ o.ports[j]? = some node) → walk node (some ps) o r = .inl (.ok (r + x)) := by
  intro o ho
  induction ho with
  | leaf h =>
    intro node j x r ps hne hnd hj hx _
    match node, hne with
    | [a], _ => unfold walk; rw [posOf_ok hnd hj hx]
    | a :: b :: l, _ => unfold walk; simp only; rw [posOf_ok hnd hj hx]
  | @circ blocks ports xpos h1 h2 h3 h0 h4 h5 ih =>
    intro node j x r ps hne hnd hj hx hc
    match node, hne with
    | [a], _ => unfold walk; rw [posOf_ok hnd hj hx]
    | a :: b :: l, _ =>
      have hp : ports[j]? = some (a :: b :: l) := by
        rcases hc with hc | ⟨_, _, hc⟩ | hc
        · simp at hc
        · cases hc
        · exact hc
      rcases h5 j _ hp with hc | ⟨blk, hb, i, q, hq, hq0, e, y, hy, hy'⟩
      · simp at hc
      · injection e with e1 e2
        have hget : dictGet blk.1 blocks = some blk.2 := dictGet_of_mem h1 hb
        obtain ⟨g2, g3, g4⟩ := h4 blk hb
        unfold walk
        simp only
        rw [e1, hget, e2]
        simp only
        have hxv : x = blk.2.2.1 + y := by
          have : (PTree.circ blocks ports xpos).xpos[j]? = xpos[j]? := rfl
          rw [this, hy'] at hx; injection hx with hx; exact hx.symm
        rw [ih blk hb hq0 g2 hq hy (by
          rcases g4 with g4 | g4
          · exact Or.inr (Or.inl g4)
          · rcases g4 i q hq with g | g
            · exact Or.inl g
            · exact Or.inr (Or.inr g)), hxv, add_assoc]

/-- **C61 (nested)**: `getpos` of a port of a circuit is the entry of the list of positions, however deep the port is -/
theorem C61_getpos_nested {blocks : List (String × List Path × ℚ × PTree)} {ports : List Path} {xpos : List ℚ}
    (h : Truthful (.circ blocks ports xpos)) {k : ℕ} {p : Path} {x : ℚ} (hk : ports[k]? = some p) (hx : xpos[k]? = some x) :
    getposT (.circ blocks ports xpos) p = .ok x := by
  cases h with
  | circ h1 h2 h3 h0 h4 h5 =>
    have hm : p ∈ ports := List.mem_of_getElem? hk
    have hi : idx ports p = k := getElem?_inj_of_nodup h2 (getElem?_idx hm) hk
    have key : walk p none (.circ blocks ports xpos) 0 = .inl (.ok x) := by
      rcases h5 k p hk with hl | ⟨blk, hb, i, q, hq, hq0, rfl, y, hy, hy'⟩
      · match p, hl with
        | [a], _ =>
          unfold walk
          have hm' : [a] ∈ (PTree.circ blocks ports xpos).ports := hm
          have hi' : idx (PTree.circ blocks ports xpos).ports [a] = k := hi
          have hx' : (PTree.circ blocks ports xpos).xpos[k]? = some x := hx
          simp only [posOf, pyIndex_of_mem hm', hi', hx', zero_add]
      · have hget : dictGet blk.1 blocks = some blk.2 := dictGet_of_mem h1 hb
        obtain ⟨g2, g3, g4⟩ := h4 blk hb
        match q, hq0 with
        | b :: l, _ =>
          unfold walk
          simp only [hget, zero_add]
          rw [walk_truthful (h0 blk hb) (by simp) g2 hq hy (by
            rcases g4 with g4 | g4
            · exact Or.inr (Or.inl g4)
            · rcases g4 i _ hq with g | g
              · exact Or.inl g
              · exact Or.inr (Or.inr g))]
          rw [hx] at hy'; injection hy' with hy'; rw [hy']
    unfold getposT
    split
    · rename_i v hv; rw [key] at hv; injection hv with hv; exact hv.symm
    · rename_i rest hv; rw [key] at hv; cases hv

/-- **a node that does not exist gets a position**: the name of an unknown block is just left out -/
theorem C61_unknown_block {blocks : List (String × List Path × ℚ × PTree)} {ports : List Path} {xpos : List ℚ} {a b : String} {rest : Path}
    (h : a ∉ blocks.map Prod.fst) :
    getposT (.circ blocks ports xpos) (a :: b :: rest) = getposT (.circ blocks ports xpos) (b :: rest) := by
  have hw : walk (a :: b :: rest) none (.circ blocks ports xpos) 0 = .inr (b :: rest) := by
    unfold walk
    simp only [dictGet_none.2 h]
  conv_lhs => unfold getposT
  split
  · rename_i v hv; rw [hw] at hv; cases hv
  · rename_i r hv; rw [hw] at hv; injection hv with hv; rw [hv]

/-! ## examples -/

namespace ExPosNest

/-- a line of length 2 -/
def line : PTree := .leaf [["1"], ["2"]] [0, 2]
/-- a circuit of that line, put at 1 -/
def inner : PTree := .circ [("A", [["1"], ["2"]], 1, line)] [["A", "1"], ["A", "2"]] [1, 3]
/-- the inner circuit, put at 10 -/
def outer : PTree := .circ [("X", [["A", "1"], ["A", "2"]], 10, inner)] [["X", "A", "1"], ["X", "A", "2"]] [11, 13]
/-- the same with the names of the ports exchanged -/
def swapped : PTree := .circ [("X", [["A", "2"], ["A", "1"]], 10, inner)] [["X", "A", "2"], ["X", "A", "1"]] [11, 13]

theorem two_get {α : Type*} {a b p : α} {k : ℕ} (h : [a, b][k]? = some p) : (k = 0 ∧ p = a) ∨ (k = 1 ∧ p = b) := by
  match k with
  | 0 => simp at h; exact Or.inl ⟨rfl, h.symm⟩
  | 1 => simp at h; exact Or.inr ⟨rfl, h.symm⟩
  | k + 2 => simp at h

theorem inner_truthful : Truthful inner := by
  refine Truthful.circ (by decide) (by decide) (by decide) ?_ ?_ ?_
  · intro b hb; simp only [List.mem_singleton] at hb; subst hb; exact Truthful.leaf (by decide)
  · intro b hb; simp only [List.mem_singleton] at hb; subst hb; exact ⟨by decide, by decide, Or.inl ⟨_, _, rfl⟩⟩
  · intro k p hk
    right
    refine ⟨("A", [["1"], ["2"]], 1, line), by simp, k, ?_⟩
    rcases two_get hk with ⟨rfl, rfl⟩ | ⟨rfl, rfl⟩
    · exact ⟨["1"], rfl, by decide, rfl, 0, rfl, by simp⟩
    · exact ⟨["2"], rfl, by decide, rfl, 2, rfl, by simp; norm_num⟩

theorem outer_truthful : Truthful outer := by
  refine Truthful.circ (by decide) (by decide) (by decide) ?_ ?_ ?_
  · intro b hb; simp only [List.mem_singleton] at hb; subst hb; exact inner_truthful
  · intro b hb; simp only [List.mem_singleton] at hb; subst hb; exact ⟨by decide, by decide, Or.inr fun k p hk => Or.inr hk⟩
  · intro k p hk
    right
    refine ⟨("X", [["A", "1"], ["A", "2"]], 10, inner), by simp, k, ?_⟩
    rcases two_get hk with ⟨rfl, rfl⟩ | ⟨rfl, rfl⟩
    · exact ⟨["A", "1"], rfl, by decide, rfl, 1, rfl, by simp; norm_num⟩
    · exact ⟨["A", "2"], rfl, by decide, rfl, 3, rfl, by simp; norm_num⟩

theorem C61_nested_witness : getposT outer ["X", "A", "2"] = .ok 13 := C61_getpos_nested (k := 1) outer_truthful rfl rfl

/-- **C61 is violated for a nested circuit whose ports get dotted names**: the list of positions puts `X.A.2` (the first port of the object) at 11,
`getpos` at 13, because it follows the name into the nested circuit. -/
theorem C61_renamed_nested : swapped.ports[0]? = some ["X", "A", "2"] ∧ swapped.xpos[0]? = some 11 ∧ getposT swapped ["X", "A", "2"] = .ok 13 := by
  refine ⟨rfl, rfl, ?_⟩
  have hw : walk ["X", "A", "2"] none swapped 0 = .inl (.ok 13) := by
    have : walk ["X", "A", "2"] none swapped 0 = .inl (.ok (0 + 10 + 1 + 2)) := rfl
    rw [this]; norm_num
  unfold getposT
  split
  · rename_i v hv; rw [hw] at hv; injection hv with hv; exact hv.symm
  · rename_i r hv; rw [hw] at hv; cases hv

/-- `getpos("Q.X.A.2")` answers, though there is no block `Q` -/
theorem C61_unknown_block_witness : getposT outer ["Q", "X", "A", "2"] = .ok 13 := by
  have h := C61_unknown_block (blocks := [("X", [["A", "1"], ["A", "2"]], 10, inner)]) (ports := [["X", "A", "1"], ["X", "A", "2"]]) (xpos := [11, 13])
    (a := "Q") (b := "X") (rest := ["A", "2"]) (by decide)
  exact h.trans C61_nested_witness

end ExPosNest

end PyRFtk.Circuit
