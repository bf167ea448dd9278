import Verif.CircuitSpec
import Mathlib.Algebra.BigOperators.Group.Finset.Piecewise
import Mathlib.Data.List.Nodup
import Mathlib.Data.List.Perm.Basic
import Mathlib.Data.List.Perm.Subperm
import Mathlib.Tactic.LinearCombination
import Mathlib.Tactic.Ring
import Mathlib.Tactic.FieldSimp
import Mathlib.Algebra.CharZero.Defs

/-!
# The representation invariant of a circuit state (proof infrastructure)

`Rep ops net c`: the rows, waves, ports, dictionaries of the code's state represent exactly the laws of the
network `net`.
-/

set_option linter.unusedSectionVars false

namespace PyRFtk.Circuit

/-- the part of the state the invariant talks about -/
structure Core (K O : Type*) where
  zbase : K
  rows : List (ℕ → K)
  waves : List Wave
  ports : List Node
  blocks : List (Blk O)
  eqns : List Eqn
  T : List (Node × (ℕ × ℕ × ℕ))
  E : List (Node × ℕ)
  aliased : Bool

def St.core {K O F Fl : Type*} (s : St K O F Fl) : Core K O :=
  ⟨s.zbase, s.rows, s.waves, s.ports, s.blocks, s.eqns, s.T, s.E, s.aliased⟩

def wdef : Wave := (.inn, .ext "")

/-- tags of the rows that express interconnection laws -/
def Eqn.IsCore : Eqn → Prop
  | .C _ => True | .Di _ => True | .De _ => True | _ => False

section
variable {K O F Fl : Type*} [Field K] [DecidableEq F] [DecidableEq Fl]

/-- value of the `j`-th unknown -/
def wv (waves : List Wave) (w : Wave → K) (j : ℕ) : K := w (waves.getD j wdef)

/-- left-hand side of the equation expressed by a row -/
def rowEval (waves : List Wave) (r : ℕ → K) (w : Wave → K) : K :=
  ∑ j ∈ Finset.range waves.length, r j * wv waves w j

theorem wv_of_getElem? {waves : List Wave} {j : ℕ} {x : Wave} (h : waves[j]? = some x) (w : Wave → K) :
    wv waves w j = w x := by simp [wv, List.getD, h]

theorem wv_append_left {waves ws : List Wave} {j : ℕ} (h : j < waves.length) (w : Wave → K) :
    wv (waves ++ ws) w j = wv waves w j := by
  simp [wv, List.getD, List.getElem?_append_left h]

theorem rowEval_append {waves ws : List Wave} {r : ℕ → K} {w : Wave → K}
    (h : ∀ j, waves.length ≤ j → r j = 0) : rowEval (waves ++ ws) r w = rowEval waves r w := by
  unfold rowEval
  rw [List.length_append, Finset.sum_range_add]
  have : ∑ x ∈ Finset.range ws.length, r (waves.length + x) * wv (waves ++ ws) w (waves.length + x) = 0 :=
    Finset.sum_eq_zero fun x _ => by rw [h _ (by omega)]; simp
  rw [this, add_zero]
  refine Finset.sum_congr rfl fun j hj => ?_
  rw [wv_append_left (by simpa using hj)]

theorem rowEval_congr {waves : List Wave} {r r' : ℕ → K} {w : Wave → K}
    (h : ∀ j, j < waves.length → r j = r' j) : rowEval waves r w = rowEval waves r' w :=
  Finset.sum_congr rfl fun j hj => by rw [h j (by simpa using hj)]

theorem rowEval_zero {waves : List Wave} {w : Wave → K} : rowEval waves zeroRow w = 0 := by
  simp [rowEval, zeroRow]

theorem rowEval_setCol {waves : List Wave} {r : ℕ → K} {w : Wave → K} {i : ℕ} {v : K} {x : Wave}
    (hi : waves[i]? = some x) : rowEval waves (setCol r i v) w = rowEval waves r w + (v - r i) * w x := by
  unfold rowEval setCol
  have hlt : i < waves.length := (List.getElem?_eq_some_iff.1 hi).1
  have hmem : i ∈ Finset.range waves.length := by simpa using hlt
  rw [← Finset.add_sum_erase _ _ hmem, ← Finset.add_sum_erase (Finset.range waves.length) (fun j => r j * wv waves w j) hmem]
  have : ∑ x ∈ (Finset.range waves.length).erase i, Function.update r i v x * wv waves w x
      = ∑ x ∈ (Finset.range waves.length).erase i, r x * wv waves w x := by
    refine Finset.sum_congr rfl fun j hj => ?_
    rw [Function.update_of_ne (Finset.ne_of_mem_erase hj)]
  rw [this, Function.update_self, wv_of_getElem? hi]
  ring

theorem setCol_ne {r : ℕ → K} {i j : ℕ} {v : K} (h : j ≠ i) : setCol r i v j = r j := Function.update_of_ne h _ _
theorem setCol_self {r : ℕ → K} {i : ℕ} {v : K} : setCol r i v i = v := Function.update_self _ _ _

/-- the row of a termination -/
def tRow (a b : ℕ) (rho : K) : ℕ → K := setCol (setCol zeroRow a (-1)) b rho
/-- the row of an external port -/
def eRow (a : ℕ) : ℕ → K := setCol zeroRow a 1

/-- The load described by reflection coefficient `rho` -/
def loadRho (zb : K) : Load K → K → Prop
  | .Z z, rho => z + zb ≠ 0 ∧ rho = (z - zb) / (z + zb)
  | .Y y, rho => 1 + y * zb ≠ 0 ∧ rho = (1 - y * zb) / (1 + y * zb)
  | .RC r, rho => rho = r

/-- entry `t` of the termination table represents the load `l` -/
def TRep (c : Core K O) (l : Node × Load K) (t : Node × (ℕ × ℕ × ℕ)) : Prop :=
  l.1 = t.1 ∧ c.waves[t.2.1]? = some (.inn, l.1) ∧ c.waves[t.2.2.1]? = some (.out, l.1) ∧
  c.eqns[t.2.2.2]? = some (.T l.1) ∧
  ∃ rho r, loadRho c.zbase l.2 rho ∧ c.rows[t.2.2.2]? = some r ∧
    ∀ j, j < c.waves.length → r j = tRow t.2.1 t.2.2.1 rho j

/-- the rows that express interconnection laws all hold -/
def CoreHold (c : Core K O) (w : Wave → K) : Prop :=
  ∀ (i : ℕ) (r : ℕ → K) (e : Eqn), c.rows[i]? = some r → c.eqns[i]? = some e → e.IsCore → rowEval c.waves r w = 0

/-- The representation invariant, `k` equations short. -/
structure RepD (ops : ObjOps K O F Fl) (net : Net K) (c : Core K O) (k : ℕ) : Prop where
  wnd : c.waves.Nodup
  wmem : ∀ d n, (d, n) ∈ c.waves ↔ n ∈ net.nodes
  nnd : net.nodes.Nodup
  blks : net.blks = c.blocks.map fun b => (b.name, b.ports)
  bnd : (c.blocks.map Blk.name).Nodup
  blen : ∀ b ∈ c.blocks, b.ports.length = ops.len b.obj
  bcol : ∀ b ∈ c.blocks, ∀ (k : ℕ) (_ : k < b.ports.length),
    c.waves[b.loc.2 + k]? = some (.inn, .blk b.name b.ports[k]) ∧
    c.waves[b.loc.2 + b.ports.length + k]? = some (.out, .blk b.name b.ports[k])
  brow : ∀ b ∈ c.blocks, ∀ k, k < b.ports.length → ∃ r, c.rows[b.loc.1 + k]? = some r ∧
    ∀ j, j < c.waves.length → ¬ (b.loc.2 ≤ j ∧ j < b.loc.2 + b.ports.length) →
      r j = if j = b.loc.2 + b.ports.length + k then -1 else 0
  elen : c.eqns.length = c.rows.length
  eS : ∀ b ∈ c.blocks, ∀ (k : ℕ) (_ : k < b.ports.length),
    c.eqns[b.loc.1 + k]? = some (.S (.blk b.name b.ports[k]))
  eS' : ∀ i n, c.eqns[i]? = some (.S n) → ∃ b ∈ c.blocks, ∃ k, k < b.ports.length ∧ i = b.loc.1 + k
  tT : List.Forall₂ (TRep c) net.loads c.T
  tT' : ∀ i p, c.eqns[i]? = some (.T p) → ∃ a b, (p, (a, b, i)) ∈ c.T
  tnd : (c.T.map Prod.fst).Nodup
  eE : ∀ p e, (p, e) ∈ c.E → c.eqns[e]? = some (.E p) ∧ ∃ a r, c.waves[a]? = some (.inn, p) ∧
    c.rows[e]? = some r ∧ ∀ j, j < c.waves.length → r j = eRow a j
  eE' : ∀ i p, c.eqns[i]? = some (.E p) → (p, i) ∈ c.E
  ednd : (c.E.map Prod.fst).Nodup
  core : ∀ w, CoreHold c w ↔ net.CoreLaws w
  pnd : c.ports.Nodup
  pmem : ∀ p, p ∈ c.ports ↔ p ∈ net.nodes ∧ p ∉ net.used
  und : net.used.Nodup
  usub : ∀ p ∈ net.used, p ∈ net.nodes
  count : c.rows.length + c.ports.length + k = c.waves.length + c.E.length
  ekeys : c.E = [] ∨ (c.aliased = true ∧ ∀ p, p ∈ c.E.map Prod.fst ↔ p ∈ c.ports)

/-- no row mentions a column that does not exist yet -/
def Tight (c : Core K O) : Prop := ∀ r ∈ c.rows, ∀ j, c.waves.length ≤ j → r j = 0

variable {ops : ObjOps K O F Fl} {net : Net K} {c : Core K O} {k : ℕ}

theorem RepD.pad (h : RepD ops net c k) :
    RepD ops net { c with rows := c.rows.map (padRow c.waves.length) } k ∧
      Tight { c with rows := c.rows.map (padRow c.waves.length) } := by
  have hp : ∀ (r : ℕ → K) j, j < c.waves.length → padRow c.waves.length r j = r j := by
    intro r j hj; simp [padRow, hj]
  have get : ∀ (i : ℕ) r', (c.rows.map (padRow c.waves.length))[i]? = some r' ↔
      ∃ r, c.rows[i]? = some r ∧ padRow c.waves.length r = r' := by
    intro i r'; simp
  refine ⟨{ h with brow := ?_, elen := ?_, tT := ?_, eE := ?_, core := ?_, count := ?_ }, ?_⟩
  · intro b hb k hk
    obtain ⟨r, h1, h2⟩ := h.brow b hb k hk
    exact ⟨_, (get _ _).2 ⟨r, h1, rfl⟩, fun j hj hn => by rw [hp _ _ hj]; exact h2 j hj hn⟩
  · simpa using h.elen
  · refine h.tT.imp ?_
    rintro l t ⟨h1, h2, h3, h4, rho, r, h5, h6, h7⟩
    exact ⟨h1, h2, h3, h4, rho, _, h5, (get _ _).2 ⟨r, h6, rfl⟩, fun j hj => by rw [hp _ _ hj]; exact h7 j hj⟩
  · intro p e hpe
    obtain ⟨h1, a, r, h2, h3, h4⟩ := h.eE p e hpe
    exact ⟨h1, a, _, h2, (get _ _).2 ⟨r, h3, rfl⟩, fun j hj => by rw [hp _ _ hj]; exact h4 j hj⟩
  · intro w
    rw [← h.core w]
    constructor
    · intro H i r e hr he hc
      have := H i _ e ((get _ _).2 ⟨r, hr, rfl⟩) he hc
      rwa [rowEval_congr (fun j hj => hp r j hj)] at this
    · intro H i r' e hr he hc
      obtain ⟨r, hr2, rfl⟩ := (get _ _).1 hr
      have := H i r e hr2 he hc
      rwa [← rowEval_congr (fun j hj => hp r j hj)] at this
  · simpa using h.count
  · intro r' hr' j hj
    simp only [List.mem_map] at hr'
    obtain ⟨r, _, rfl⟩ := hr'
    simp only at hj
    simp [padRow, hj]

/-- new nodes -/
theorem RepD.extend (h : RepD ops net c k) (ht : Tight c) (ns : List Node) (ws : List Wave)
    (hws : ws.Nodup) (hns : ns.Nodup) (hmem : ∀ d n, (d, n) ∈ ws ↔ n ∈ ns) (hfresh : ∀ n ∈ ns, n ∉ net.nodes)
    (hl : ws.length = ns.length + k') (hE : c.E = []) :
    RepD ops { net with nodes := net.nodes ++ ns } { c with waves := c.waves ++ ws, ports := c.ports ++ ns } (k + k') := by
  have gl : ∀ {i : ℕ} {x : Wave}, c.waves[i]? = some x → (c.waves ++ ws)[i]? = some x := by
    intro i x hi
    rw [List.getElem?_append_left (List.getElem?_eq_some_iff.1 hi).1]; exact hi
  have glt : ∀ {i : ℕ} {x : Wave}, c.waves[i]? = some x → i < c.waves.length := fun hi =>
    (List.getElem?_eq_some_iff.1 hi).1
  have mr : ∀ {i : ℕ} {r : ℕ → K}, c.rows[i]? = some r → ∀ j, c.waves.length ≤ j → r j = 0 := by
    intro i r hr j hj; exact ht r (List.mem_of_getElem? hr) j hj
  refine { h with wnd := ?_, wmem := ?_, nnd := ?_, bcol := ?_, brow := ?_, tT := ?_, eE := ?_, core := ?_, pnd := ?_,
                  pmem := ?_, usub := ?_, count := ?_, ekeys := Or.inl hE }
  · refine List.Nodup.append h.wnd hws ?_
    rintro ⟨d, n⟩ h1 h2
    exact hfresh n ((hmem d n).1 h2) ((h.wmem d n).1 h1)
  · intro d n; simp [h.wmem, hmem]
  · refine List.Nodup.append h.nnd hns ?_
    intro n h1 h2; exact hfresh n h2 h1
  · intro b hb k hk
    exact ⟨gl (h.bcol b hb k hk).1, gl (h.bcol b hb k hk).2⟩
  · intro b hb k hk
    obtain ⟨r, h1, h2⟩ := h.brow b hb k hk
    refine ⟨r, h1, fun j hj hn => ?_⟩
    by_cases hjl : j < c.waves.length
    · exact h2 j hjl hn
    · rw [mr h1 j (by omega), if_neg]
      have := glt (h.bcol b hb k hk).2
      omega
  · refine h.tT.imp ?_
    rintro l t ⟨h1, h2, h3, h4, rho, r, h5, h6, h7⟩
    refine ⟨h1, gl h2, gl h3, h4, rho, r, h5, h6, fun j hj => ?_⟩
    by_cases hjl : j < c.waves.length
    · exact h7 j hjl
    · have := glt h2; have := glt h3
      rw [mr h6 j (by omega), tRow, setCol_ne (by omega), setCol_ne (by omega)]; rfl
  · intro p e hpe; rw [hE] at hpe; simp at hpe
  · intro w
    show CoreHold _ w ↔ net.CoreLaws w
    rw [← h.core w]
    constructor
    · intro H i r e hr he hc
      have := H i r e hr he hc
      rwa [rowEval_append (mr hr)] at this
    · intro H i r e hr he hc
      show rowEval (c.waves ++ ws) r w = 0
      rw [rowEval_append (mr hr)]; exact H i r e hr he hc
  · refine List.Nodup.append h.pnd hns ?_
    intro n h1 h2; exact hfresh n h2 ((h.pmem n).1 h1).1
  · intro p
    simp only [List.mem_append]
    constructor
    · rintro (hp | hp)
      · exact ⟨Or.inl ((h.pmem p).1 hp).1, ((h.pmem p).1 hp).2⟩
      · exact ⟨Or.inr hp, fun hu => hfresh p hp (h.usub p hu)⟩
    · rintro ⟨hp | hp, hu⟩
      · exact Or.inl ((h.pmem p).2 ⟨hp, hu⟩)
      · exact Or.inr hp
  · intro p hp; simp only [List.mem_append]; exact Or.inl (h.usub p hp)
  · have := h.count
    simp only [List.length_append]; omega

theorem Tight.extend (ht : Tight c) (ws : List Wave) (ps : List Node) :
    Tight { c with waves := c.waves ++ ws, ports := ps } := by
  intro r hr j hj
  refine ht r hr j ?_
  simp only [List.length_append] at hj
  omega

theorem getElem?_append_some {α : Type*} {l m : List α} {i : ℕ} {x : α} (h : l[i]? = some x) :
    (l ++ m)[i]? = some x := by
  rw [List.getElem?_append_left (List.getElem?_eq_some_iff.1 h).1]; exact h

theorem getElem?_append_cases {α : Type*} {l m : List α} {i : ℕ} {x : α} (h : (l ++ m)[i]? = some x) :
    l[i]? = some x ∨ (l.length ≤ i ∧ m[i - l.length]? = some x) := by
  by_cases hi : i < l.length
  · left; rwa [List.getElem?_append_left hi] at h
  · right; push Not at hi; exact ⟨hi, by rwa [List.getElem?_append_right hi] at h⟩

/-- appending interconnection equations and consuming ports -/
theorem RepD.addCore (h : RepD ops net c k) (hE : c.E = []) (net' : Net K) (R : List (ℕ → K)) (tags : List Eqn)
    (ports' consumed : List Node) (Law : (Wave → K) → Prop) (k' : ℕ)
    (htags : ∀ e ∈ tags, e.IsCore) (hlen : tags.length = R.length)
    (hR : ∀ w, (∀ r ∈ R, rowEval c.waves r w = 0) ↔ Law w)
    (hnodes : net'.nodes = net.nodes) (hblks : net'.blks = net.blks) (hloads : net'.loads = net.loads)
    (hlaws : ∀ w, net'.CoreLaws w ↔ net.CoreLaws w ∧ Law w)
    (hused : List.Perm net'.used (net.used ++ consumed))
    (hc1 : consumed.Nodup) (hc2 : ∀ p ∈ consumed, p ∈ c.ports)
    (hp1 : ports'.Nodup) (hp2 : ∀ p, p ∈ ports' ↔ p ∈ c.ports ∧ p ∉ consumed)
    (hk : k' + R.length = k + consumed.length) :
    RepD ops net' { c with rows := c.rows ++ R, eqns := c.eqns ++ tags, ports := ports' } k' := by
  have hel := h.elen
  have ecase : ∀ {i : ℕ} {e : Eqn}, (c.eqns ++ tags)[i]? = some e → ¬ e.IsCore → c.eqns[i]? = some e := by
    intro i e hi hne
    rcases getElem?_append_cases hi with h1 | ⟨_, h1⟩
    · exact h1
    · exact absurd (htags e (List.mem_of_getElem? h1)) hne
  have hplen : ports'.length + consumed.length = c.ports.length := by
    have : List.Perm (ports' ++ consumed) c.ports := by
      rw [List.perm_ext_iff_of_nodup _ h.pnd]
      · intro p
        simp only [List.mem_append, hp2]
        constructor
        · rintro (h1 | h1)
          · exact h1.1
          · exact hc2 p h1
        · intro h1
          by_cases h2 : p ∈ consumed
          · exact Or.inr h2
          · exact Or.inl ⟨h1, h2⟩
      · refine List.Nodup.append hp1 hc1 ?_
        intro p h1 h2; exact ((hp2 p).1 h1).2 h2
    simpa using this.length_eq
  refine { wnd := h.wnd, wmem := ?_, nnd := ?_, blks := ?_, bnd := h.bnd, blen := h.blen, bcol := h.bcol, brow := ?_,
           elen := ?_, eS := ?_, eS' := ?_, tT := ?_, tT' := ?_, tnd := h.tnd, eE := ?_, eE' := ?_, ednd := h.ednd,
           core := ?_, pnd := hp1, pmem := ?_, und := ?_, usub := ?_, count := ?_, ekeys := Or.inl hE }
  · intro d n; rw [hnodes]; exact h.wmem d n
  · rw [hnodes]; exact h.nnd
  · rw [hblks]; exact h.blks
  · intro b hb k hk
    obtain ⟨r, h1, h2⟩ := h.brow b hb k hk
    exact ⟨r, getElem?_append_some h1, h2⟩
  · simp [hel, hlen]
  · intro b hb k hk; exact getElem?_append_some (h.eS b hb k hk)
  · intro i n hi; exact h.eS' i n (ecase hi (by simp [Eqn.IsCore]))
  · rw [hloads]
    refine h.tT.imp ?_
    rintro l t ⟨h1, h2, h3, h4, rho, r, h5, h6, h7⟩
    exact ⟨h1, h2, h3, getElem?_append_some h4, rho, r, h5, getElem?_append_some h6, h7⟩
  · intro i p hi; exact h.tT' i p (ecase hi (by simp [Eqn.IsCore]))
  · intro p e hpe; rw [hE] at hpe; simp at hpe
  · intro i p hi; exact h.eE' i p (ecase hi (by simp [Eqn.IsCore]))
  · intro w
    rw [hlaws, ← h.core w, ← hR w]
    constructor
    · intro H
      refine ⟨fun i r e hr he hc => H i r e (getElem?_append_some hr) (getElem?_append_some he) hc, ?_⟩
      intro r hr
      obtain ⟨j, hj, rfl⟩ := List.getElem_of_mem hr
      have h1 : (c.rows ++ R)[c.rows.length + j]? = some R[j] := by
        rw [List.getElem?_append_right (by omega)]; simp [hj]
      have hj' : j < tags.length := by omega
      have h2 : (c.eqns ++ tags)[c.rows.length + j]? = some tags[j] := by
        rw [List.getElem?_append_right (by omega), hel]; simp [hj']
      exact H _ _ _ h1 h2 (htags _ (List.getElem_mem hj'))
    · rintro ⟨H1, H2⟩ i r e hr he hc
      rcases getElem?_append_cases hr with h1 | ⟨h0, h1⟩
      · rcases getElem?_append_cases he with h2 | ⟨h2, _⟩
        · exact H1 i r e h1 h2 hc
        · have := (List.getElem?_eq_some_iff.1 h1).1; omega
      · exact H2 r (List.mem_of_getElem? h1)
  · intro p
    rw [hp2, h.pmem, hnodes, hused.mem_iff]
    simp only [List.mem_append, not_or]
    tauto
  · rw [hused.nodup_iff]
    refine List.Nodup.append h.und hc1 ?_
    intro p h1 h2; exact ((h.pmem p).1 (hc2 p h2)).2 h1
  · intro p hp
    rw [hnodes]
    rcases List.mem_append.1 (hused.mem_iff.1 hp) with h1 | h1
    · exact h.usub p h1
    · exact ((h.pmem p).1 (hc2 p h1)).1
  · have := h.count
    simp only [List.length_append]; omega

end
end PyRFtk.Circuit
