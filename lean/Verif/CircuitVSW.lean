import Verif.CircuitMaxV
import Verif.VSW

/-!
# The table of voltages returned by `rfCircuit.maxV` (C77)

rfCircuit.py:1648-1832.  Beside the maximum and its place `maxV` returns a table: for every node its position and the magnitude of its
voltage, and for every block what the block's own `maxV` returned.  `CircuitMaxV.lean` models the maximum; here the whole answer is
modelled.
-/

set_option linter.unusedSectionVars false

namespace PyRFtk.Circuit

/-! ## the model -/

mutual
/-- a value in a table: a dictionary, a pair (positions, voltage magnitudes), or a number (what `rfBase.maxV` puts in, rfBase.py:487-489) -/
inductive Tab
  | dict (t : Tabs)
  | pair (xs us : List ℝ)
  | num (u : ℝ)
/-- the items of a dictionary.  A key is the name of a node (with one dot: port of a block; without: made by `connect`); the name `b` of a
block is the key `Node.ext b`, so that it is the same key as that of a node called `b`. -/
inductive Tabs
  | nil
  | cons (key : Node) (val : Tab) (rest : Tabs)
end

/-- `d[k] = v` -/
def Tabs.set (k : Node) (v : Tab) : Tabs → Tabs
  | .nil => .cons k v .nil
  | .cons k' v' r => if k' = k then .cons k v r else .cons k' v' (r.set k v)

/-- `d[k]`, `none` when absent -/
def Tabs.get (k : Node) : Tabs → Option Tab
  | .nil => none
  | .cons k' v r => if k' = k then some v else r.get k

/-- `if len(VSW) == 1 and blkID in VSW: VSW = VSW[blkID]` (1799-1803) -/
def squeeze (b : String) : Tab → Tab
  | .dict (.cons k v .nil) => if k = .ext b then v else .dict (.cons k v .nil)
  | v => v

open Classical in
/-- 1810-1818: the positions of a pair are mapped linearly onto the positions of the object's first two ports (all onto the first, if the
ends coincide); anything else is kept.  `x0` is `relpos + blk['xpos']`; `obj` is the object's `xpos`, of which `len(obj)` entries are read. -/
noncomputable def replace_ (x0 : ℝ) (len : ℕ) (obj : Option (List ℚ)) : Tab → Except Err Tab
  | .pair xs us => match obj with
    | none => .error .attributeError
    | some ps => if ps.length < len then .error .indexError else
      match xs.head?, xs.getLast? with
      | some a, some z => match (ps.take len).map (fun q : ℚ => x0 + (q : ℝ)) with
        | [] => .error .indexError
        | p0 :: more => if z = a then .ok (.pair (xs.map fun _ => p0) us)
          else match more with
            | [] => .error .indexError
            | p1 :: _ => .ok (.pair (xs.map fun x => p0 + (x - a) * (p1 - p0) / (z - a)) us)
      | _, _ => .error .indexError
  | v => .ok v

section
variable {O F Fl : Type*} [DecidableEq F] [DecidableEq Fl]

/-- the `maxV` method of block objects, for those that have one: frequency, waves by port name, reference, `Id`, flags, `xpos` ↦ maximum,
place, table.  Simplification: the evaluation inside is not seen to change the object. -/
abbrev SubTab (O F Fl : Type*) :=
  O → Option (F → List (String × ℂ) → ℂ → String → Fl → ℝ → Except Err (ℝ × String × Tab))

/-- what the loops carry: the running maximum and `VSWs[Id]` -/
abbrev Acc := Option (ℝ × Place) × Tabs

/-- one pass of the loop 1745-1758 for the wave at position `k` -/
noncomputable def tabNode (ops : ObjOps ℂ O F Fl) (s : St ℂ O F Fl) (sol : SVec ℂ) (relpos : ℝ) (acc : Acc) (wk : Wave × ℕ) :
    Except Err Acc :=
  match wk with
  | ((.out, _), _) => .ok acc
  | ((.inn, n), k) => match pyIndex s.waves (.out, n) with                                  -- 1747
    | .error e => .error e
    | .ok k1 => match sol.get k, sol.get k1 with
      | .error e, _ => .error e
      | _, .error e => .error e
      | .ok a, .ok b => match getpos ops s n with                                           -- 1750
        | .error e => .error e
        | .ok x => .ok (better acc.1 ‖a + b‖ (.node n),                                     -- 1753-1754
            acc.2.set n (.pair [relpos + (x : ℝ)] [‖a + b‖]))                               -- 1751

/-- one pass of the loop 1769-1825: the block is asked, its table entered under its name -/
noncomputable def tabBlock (ops : ObjOps ℂ O F Fl) (sub : SubTab O F Fl) (s : St ℂ O F Fl) (sol : SVec ℂ) (f : F) (fl : Fl) (relpos : ℝ)
    (acc : Acc) (b : Blk O) : Except Err Acc :=
  match ops.ports b.obj, sub b.obj with
  | some ps, some mx =>
    match mx f (blockE s.waves sol b.name ps) s.zbase b.name fl (relpos + (b.relpos : ℝ)) with        -- 1795-1797
    | .error e => .error e
    | .ok (t1, n1, v) =>
      match replace_ (relpos + (b.relpos : ℝ)) (ops.len b.obj) (ops.xpos b.obj) (squeeze b.name v) with
      | .error e => .error e
      | .ok v' => .ok (better acc.1 t1 (.inside b.name n1), acc.2.set (.ext b.name) v')     -- 1820-1822
  | _, _ => .ok acc

/-- `maxV(f, E, Zbase, Id, flags=…, xpos=relpos)` (rfCircuit.py:1651-1828): maximum, place (`none` stands for `-inf, 'N/A'`), and
`VSWs[Id]`; what is returned as table is `{Id: VSWs[Id]}`. -/
noncomputable def maxVT (ops : ObjOps ℂ O F Fl) (sub : SubTab O F Fl) (s : St ℂ O F Fl) (f : F) (E : List (Node × ℂ))
    (z : Option ℂ) (fl : Fl) (relpos : ℝ) : St ℂ O F Fl × Except Err Acc :=
  if s.xpos.length < s.ports.length then (s, .error .indexError) else                       -- 1687-1689
  match mapE (dictIndex E) s.ports with                                                     -- 1698-1704
  | .error _ => (s, .error .valueError)
  | .ok _ => match solve ops s f E z fl with                                                -- 1707-1731
    | (s, .error e) => (s, .error e)
    | (s, .ok sol) => match foldE (tabNode ops s sol relpos) (none, .nil) s.waves.zipIdx with
      | .error e => (s, .error e)
      | .ok acc => (s, foldE (tabBlock ops sub s sol f fl relpos) acc s.blocks)

/-! ## specification -/

mutual
/-- the voltages in a table -/
def Tab.volts : Tab → List ℝ
  | .dict t => t.volts
  | .pair _ us => us
  | .num u => [u]
/-- the same for the items -/
def Tabs.volts : Tabs → List ℝ
  | .nil => []
  | .cons _ v r => v.volts ++ r.volts
end

mutual
/-- the table with every voltage multiplied by `c` -/
noncomputable def Tab.times (c : ℝ) : Tab → Tab
  | .dict t => .dict (t.times c)
  | .pair xs us => .pair xs (us.map (c * ·))
  | .num u => .num (c * u)
/-- the same for the items -/
noncomputable def Tabs.times (c : ℝ) : Tabs → Tabs
  | .nil => .nil
  | .cons k v r => .cons k (v.times c) (r.times c)
end

/-- the blocks that are asked for a table -/
def AskedTab (ops : ObjOps ℂ O F Fl) (sub : SubTab O F Fl) (b : Blk O) : Prop := (ops.ports b.obj).isSome ∧ (sub b.obj).isSome

/-! ## tables -/

theorem Tabs.get_set (k k' : Node) (v : Tab) : ∀ t : Tabs, (t.set k v).get k' = if k = k' then some v else t.get k'
  | .nil => by simp [Tabs.set, Tabs.get]
  | .cons k₀ v₀ r => by
    have ih := Tabs.get_set k k' v r
    by_cases h : k₀ = k
    · subst h
      simp only [Tabs.set, if_true, Tabs.get]
      split <;> rfl
    · simp only [Tabs.set, if_neg h, Tabs.get, ih]
      by_cases h' : k₀ = k'
      · subst h'; simp [Ne.symm h]
      · simp [h']

theorem Tabs.volts_set (k : Node) (v : Tab) (u : ℝ) : ∀ t : Tabs, u ∈ (t.set k v).volts → u ∈ v.volts ∨ u ∈ t.volts
  | .nil => by simp [Tabs.set, Tabs.volts]
  | .cons k₀ v₀ r => by
    have ih := Tabs.volts_set k v u r
    simp only [Tabs.set]
    split
    · simp only [Tabs.volts, List.mem_append]; tauto
    · simp only [Tabs.volts, List.mem_append]; tauto

theorem Tabs.times_set (c : ℝ) (k : Node) (v : Tab) : ∀ t : Tabs, (t.set k v).times c = (t.times c).set k (v.times c)
  | .nil => by simp [Tabs.set, Tabs.times]
  | .cons k₀ v₀ r => by
    have ih := Tabs.times_set c k v r
    by_cases h : k₀ = k
    · simp [Tabs.set, Tabs.times, h]
    · simp [Tabs.set, Tabs.times, h, ih]

theorem Tabs.volts_get {k : Node} {v : Tab} {u : ℝ} (hu : u ∈ v.volts) : ∀ {t : Tabs}, t.get k = some v → u ∈ t.volts
  | .nil, h => by simp [Tabs.get] at h
  | .cons k₀ v₀ r, h => by
    simp only [Tabs.get] at h
    simp only [Tabs.volts, List.mem_append]
    split at h
    · injection h with h; subst h; exact Or.inl hu
    · exact Or.inr (Tabs.volts_get hu h)

theorem squeeze_volts (b : String) (v : Tab) : (squeeze b v).volts = v.volts := by
  unfold squeeze
  split
  · split
    · simp [Tab.volts, Tabs.volts]
    · rfl
  · rfl

theorem replace_volts {x0 : ℝ} {len : ℕ} {obj : Option (List ℚ)} {v v' : Tab} (h : replace_ x0 len obj v = .ok v') :
    v'.volts = v.volts := by
  cases v with
  | dict t => simp only [replace_, Except.ok.injEq] at h; rw [h]
  | num u => simp only [replace_, Except.ok.injEq] at h; rw [h]
  | pair xs us =>
    unfold replace_ at h
    dsimp only at h
    repeat' split at h
    all_goals first
      | (cases h; done)
      | (simp only [Except.ok.injEq] at h; rw [← h]; rfl)

theorem squeeze_times (c : ℝ) (b : String) (v : Tab) : squeeze b (v.times c) = (squeeze b v).times c := by
  cases v with
  | pair xs us => rfl
  | num u => rfl
  | dict t =>
    cases t with
    | nil => rfl
    | cons k v r =>
      cases r with
      | cons k' v' r' => rfl
      | nil =>
        simp only [Tab.times, Tabs.times, squeeze]
        split
        · rfl
        · simp [Tab.times, Tabs.times]

theorem replace_times (c : ℝ) {x0 : ℝ} {len : ℕ} {obj : Option (List ℚ)} (v : Tab) :
    replace_ x0 len obj (v.times c) = (replace_ x0 len obj v).map (Tab.times c) := by
  cases v with
  | dict t => simp [replace_, Tab.times, Except.map]
  | num u => simp [replace_, Tab.times, Except.map]
  | pair xs us =>
    simp only [Tab.times, replace_]
    repeat' split
    all_goals simp [Except.map, Tab.times]

/-! ## the properties -/

variable {ops : ObjOps ℂ O F Fl} {beh : O → F → ℂ → Fl → Except Err (SMat ℂ)} {nan zb : ℂ} {names : List Node}
variable {net : Net ℂ} {bh : Behave ℂ F Fl} {s s' : St ℂ O F Fl} {ph : Phase}

/-- one pass over a node -/
theorem tabNode_ok (h : Rep ops net s) {sol : SVec ℂ} (hn : sol.n = s.cols) {relpos : ℝ} {acc r : Acc} {n : Node} {k : ℕ}
    (hk : s.waves[k]? = some (.inn, n)) (hg : tabNode ops s sol relpos acc ((.inn, n), k) = .ok r) :
    ∃ x, getpos ops s n = .ok x ∧
      r = (better acc.1 ‖volt (wOf s fun i => sol.v (Fin.cast hn.symm i)) n‖ (.node n),
        acc.2.set n (.pair [relpos + (x : ℝ)] [‖volt (wOf s fun i => sol.v (Fin.cast hn.symm i)) n‖])) := by
  have hlw : s.waves.length = s.cols := h.wlen
  have hwnd : s.waves.Nodup := h.rep.wnd
  have hm : (Dir.inn, n) ∈ s.waves := List.mem_of_getElem? hk
  have hm' : (Dir.out, n) ∈ s.waves := (h.rep.wmem .out n).2 ((h.rep.wmem .inn n).1 hm)
  have hkc : k < s.cols := by rw [← hlw]; exact (List.getElem?_eq_some_iff.1 hk).1
  have hkr : idx s.waves (.out, n) < s.cols := by rw [← hlw]; exact idx_lt hm'
  have g1 : sol.get k = .ok (wOf s (fun i => sol.v (Fin.cast hn.symm i)) (.inn, n)) := by
    rw [wOf_of_getElem hwnd hk hkc]
    unfold SVec.get
    rw [dif_pos (by omega)]
    rfl
  have g2 : sol.get (idx s.waves (.out, n)) = .ok (wOf s (fun i => sol.v (Fin.cast hn.symm i)) (.out, n)) := by
    rw [wOf_of_getElem hwnd (getElem?_idx hm') hkr]
    unfold SVec.get
    rw [dif_pos (by omega)]
    rfl
  unfold tabNode at hg
  simp only [pyIndex_of_mem hm', g1, g2] at hg
  cases hp : getpos ops s n with
  | error e => rw [hp] at hg; cases hg
  | ok x =>
    rw [hp] at hg
    simp only [Except.ok.injEq] at hg
    exact ⟨x, rfl, hg.symm⟩

/-- one pass over a block -/
theorem tabBlock_ok {sub : SubTab O F Fl} {sol : SVec ℂ} {f : F} {fl : Fl} {relpos : ℝ} {acc r : Acc} {b : Blk O}
    (hg : tabBlock ops sub s sol f fl relpos acc b = .ok r) :
    (¬ AskedTab ops sub b ∧ r = acc) ∨ ∃ ps mx t1 n1 v v', ops.ports b.obj = some ps ∧ sub b.obj = some mx ∧
      mx f (blockE s.waves sol b.name ps) s.zbase b.name fl (relpos + (b.relpos : ℝ)) = .ok (t1, n1, v) ∧
      replace_ (relpos + (b.relpos : ℝ)) (ops.len b.obj) (ops.xpos b.obj) (squeeze b.name v) = .ok v' ∧
      r = (better acc.1 t1 (.inside b.name n1), acc.2.set (.ext b.name) v') := by
  unfold tabBlock at hg
  cases hps : ops.ports b.obj with
  | none =>
    simp only [hps, Except.ok.injEq] at hg
    exact Or.inl ⟨fun hc => by simp [AskedTab, hps] at hc, hg.symm⟩
  | some ps =>
    cases hmx : sub b.obj with
    | none =>
      simp only [hps, hmx, Except.ok.injEq] at hg
      exact Or.inl ⟨fun hc => by simp [AskedTab, hmx] at hc, hg.symm⟩
    | some mx =>
      simp only [hps, hmx] at hg
      cases hans : mx f (blockE s.waves sol b.name ps) s.zbase b.name fl (relpos + (b.relpos : ℝ)) with
      | error e => rw [hans] at hg; simp at hg
      | ok tnv =>
        obtain ⟨t1, n1, v⟩ := tnv
        rw [hans] at hg
        simp only at hg
        cases hr : replace_ (relpos + (b.relpos : ℝ)) (ops.len b.obj) (ops.xpos b.obj) (squeeze b.name v) with
        | error e => rw [hr] at hg; simp at hg
        | ok v' =>
          rw [hr] at hg
          simp only [Except.ok.injEq] at hg
          exact Or.inr ⟨ps, mx, t1, n1, v, v', rfl, rfl, hans, hr, hg.symm⟩

/-- **C77 (the table).** What `maxV` returns: the voltages are those of a state `w` satisfying all laws of the network, the wave entering the
`k`-th external port being the one given for the port in `k`-th position before the call.  In the table every node stands with the position
`getpos` tells (shifted by `xpos`) and the magnitude of its voltage -- unless its name is that of a block, whose table then replaces it; every
block that can be asked stands with what it answers when excited by the waves entering it, told its name and its position; nothing else
stands in the table; and the maximum returned is at least every node's voltage and every block's maximum, and is one of them. -/
theorem C77_table (hlaw : Lawful ops beh) (h : Built ops beh nan zb names net bh s ph)
    (hph : ph ≠ .reloaded) (hzb : zb ≠ 0) {sub : SubTab O F Fl} {f : F} {fl : Fl} {E : List (Node × ℂ)} {z : Option ℂ} {relpos : ℝ}
    {t : ℝ} {pl : Place} {tab : Tabs} (hs : maxVT ops sub s f E z fl relpos = (s', .ok (some (t, pl), tab))) :
    ∃ Sof, Given net bh f zb fl Sof ∧ ∃ w, net.Laws zb Sof w ∧
      (∀ i (hi : i < s.ports.length) (hi' : i < s'.ports.length),
        dictGet s.ports[i] E = some ((stateOf zb w).fwd (z.getD zb) s'.ports[i])) ∧
      (∀ n ∈ net.nodes, ‖(stateOf zb w).V n‖ ≤ t ∧ ((∀ b ∈ s'.blocks, AskedTab ops sub b → n ≠ .ext b.name) →
        ∃ x, getpos ops s' n = .ok x ∧ tab.get n = some (.pair [relpos + (x : ℝ)] [‖(stateOf zb w).V n‖]))) ∧
      (∀ b ∈ s'.blocks, ∀ ps mx, ops.ports b.obj = some ps → sub b.obj = some mx →
        ∃ t1 n1 v v', mx f (incident zb w b ps) zb b.name fl (relpos + (b.relpos : ℝ)) = .ok (t1, n1, v) ∧ t1 ≤ t ∧
          replace_ (relpos + (b.relpos : ℝ)) (ops.len b.obj) (ops.xpos b.obj) (squeeze b.name v) = .ok v' ∧
          tab.get (.ext b.name) = some v') ∧
      (∀ k v, tab.get k = some v → k ∈ net.nodes ∨ ∃ b ∈ s'.blocks, AskedTab ops sub b ∧ k = .ext b.name) ∧
      (∀ n, pl = .node n → n ∈ net.nodes ∧ ‖(stateOf zb w).V n‖ = t) ∧
      (∀ bn wh, pl = .inside bn wh → ∃ b ∈ s'.blocks, b.name = bn ∧ ∃ ps mx v, ops.ports b.obj = some ps ∧
        sub b.obj = some mx ∧ mx f (incident zb w b ps) zb b.name fl (relpos + (b.relpos : ℝ)) = .ok (t, wh, v)) ∧
      (∀ u ∈ tab.volts, (∃ n ∈ net.nodes, u = ‖(stateOf zb w).V n‖) ∨
        ∃ b ∈ s'.blocks, ∃ ps mx t1 n1 v, ops.ports b.obj = some ps ∧ sub b.obj = some mx ∧
          mx f (incident zb w b ps) zb b.name fl (relpos + (b.relpos : ℝ)) = .ok (t1, n1, v) ∧ u ∈ v.volts) := by
  unfold maxVT at hs
  split at hs
  · simp at hs
  cases hEa : mapE (dictIndex E) s.ports with
  | error e => rw [hEa] at hs; simp at hs
  | ok Ea =>
    rw [hEa] at hs
    simp only at hs
    cases hsol : solve ops s f E z fl with
    | mk s1 r1 =>
      rw [hsol] at hs
      cases r1 with
      | error e => simp at hs
      | ok sol =>
        simp only at hs
        obtain ⟨⟨S, hS⟩, hz, Sof, hSof, w, hw1, hw2, hn, hw3⟩ := solve_spec hlaw h hph hzb hsol
        have hi1 := (Built.eval h hS).inv hlaw
        cases hf1 : foldE (tabNode ops s1 sol relpos) (none, .nil) s1.waves.zipIdx with
        | error e => rw [hf1] at hs; simp at hs
        | ok best =>
          rw [hf1] at hs
          simp only [Prod.mk.injEq] at hs
          obtain ⟨rfl, hf2⟩ := hs
          have hV : ∀ n ∈ net.nodes, volt (wOf s1 fun i => sol.v (Fin.cast hn.symm i)) n = volt w n := by
            intro n hnn
            simp only [volt, hw3 n hnn]
          -- the nodes
          have hnodes := foldE_inv (P := fun pre (acc : Acc) =>
              (∀ x ∈ pre, x.1.1 = Dir.inn → (∃ t p, acc.1 = some (t, p) ∧ ‖volt w x.1.2‖ ≤ t) ∧
                ∃ y, getpos ops s1 x.1.2 = .ok y ∧ acc.2.get x.1.2 = some (.pair [relpos + (y : ℝ)] [‖volt w x.1.2‖])) ∧
              (∀ t p, acc.1 = some (t, p) → ∃ n, p = .node n ∧ n ∈ net.nodes ∧ ‖volt w n‖ = t) ∧
              (∀ k v, acc.2.get k = some v → k ∈ net.nodes) ∧
              ∀ u ∈ acc.2.volts, ∃ n ∈ net.nodes, u = ‖volt w n‖)
            (pre := []) (l := s1.waves.zipIdx) (b := (none, .nil)) (c := best) (g := tabNode ops s1 sol relpos) (by
              rintro pre b ⟨⟨d, n⟩, k⟩ c hx ⟨p1, p2, p3, p4⟩ hg
              have hk := List.mem_zipIdx_iff_getElem?.1 hx
              simp only at hk
              cases d with
              | out =>
                simp only [tabNode, Except.ok.injEq] at hg
                subst hg
                refine ⟨fun x hx hd => ?_, p2, p3, p4⟩
                rw [List.mem_append, List.mem_singleton] at hx
                rcases hx with hx | rfl
                · exact p1 x hx hd
                · cases hd
              | inn =>
                have hnn : n ∈ net.nodes := (hi1.rep.rep.wmem .inn n).1 (List.mem_of_getElem? hk)
                obtain ⟨y, hy, hr⟩ := tabNode_ok hi1.rep hn hk hg
                simp only [hV n hnn] at hr
                obtain ⟨tn, pn, e0, h1, h2, h3⟩ := better_spec b.1 ‖volt w n‖ (.node n)
                rw [e0] at hr
                subst hr
                refine ⟨fun x hx hd => ?_, ?_, ?_, ?_⟩
                · rw [List.mem_append, List.mem_singleton] at hx
                  rcases hx with hx | rfl
                  · obtain ⟨⟨t, p, e, hle⟩, y', hy', hget⟩ := p1 x hx hd
                    refine ⟨⟨_, _, rfl, hle.trans (h2 t p e)⟩, y', hy', ?_⟩
                    simp only [Tabs.get_set]
                    by_cases hnx : n = x.1.2
                    · subst hnx
                      rw [hy] at hy'
                      injection hy' with hy'
                      simp [hy']
                    · rw [if_neg hnx]; exact hget
                  · exact ⟨⟨_, _, rfl, h1⟩, y, hy, by simp only [Tabs.get_set, if_true]⟩
                · intro t p e
                  simp only [Option.some.injEq, Prod.mk.injEq] at e
                  obtain ⟨rfl, rfl⟩ := e
                  rcases h3 with h3 | ⟨h3, h4⟩
                  · exact p2 _ _ h3
                  · exact ⟨n, h4, hnn, h3.symm⟩
                · intro k' v hkv
                  simp only [Tabs.get_set] at hkv
                  split at hkv
                  · rename_i e; rw [← e]; exact hnn
                  · exact p3 _ _ hkv
                · intro u hu
                  rcases Tabs.volts_set _ _ _ _ hu with hu | hu
                  · simp only [Tab.volts, List.mem_singleton] at hu
                    exact ⟨n, hnn, hu⟩
                  · exact p4 u hu)
            ⟨by simp, by simp, by simp [Tabs.get], by simp [Tabs.volts]⟩ hf1
          rw [List.nil_append] at hnodes
          obtain ⟨m1, m2, m3, m4⟩ := hnodes
          have hz1 : s1.zbase = zb := hi1.zb
          have hinc : ∀ bl ∈ s1.blocks, ∀ ps, blockE s1.waves sol bl.name ps = incident zb w bl ps := by
            intro bl hbl ps
            rw [blockE_eq hi1.rep ((Built.eval h hS).blk_node hlaw) hn hbl]
            unfold incident
            congr 1
            refine List.map_congr_left fun p hp => ?_
            have hnn : Node.blk bl.name p ∈ net.nodes := by
              obtain ⟨k, hk, rfl⟩ := List.getElem_of_mem hp
              exact (hi1.rep.rep.wmem .inn _).1 (List.mem_of_getElem? (hi1.rep.rep.bcol bl hbl k hk).1)
            rw [hw3 _ hnn]
            simp only [Field.State.fwd, stateOf, volt, curr]
            field_simp
            ring
          -- the blocks
          have hblocks := foldE_inv (P := fun pre (acc : Acc) =>
              (∀ bl ∈ pre, bl ∈ s1.blocks) ∧
              (∀ t0 p0, best.1 = some (t0, p0) → ∃ t p, acc.1 = some (t, p) ∧ t0 ≤ t) ∧
              (∀ t p, acc.1 = some (t, p) → acc.1 = best.1 ∨ ∃ bl ∈ pre, ∃ ps mx wh v, ops.ports bl.obj = some ps ∧
                sub bl.obj = some mx ∧ mx f (incident zb w bl ps) zb bl.name fl (relpos + (bl.relpos : ℝ)) = .ok (t, wh, v) ∧
                p = .inside bl.name wh) ∧
              (∀ bl ∈ pre, ∀ ps mx, ops.ports bl.obj = some ps → sub bl.obj = some mx →
                ∃ t1 n1 t p v v', mx f (incident zb w bl ps) zb bl.name fl (relpos + (bl.relpos : ℝ)) = .ok (t1, n1, v) ∧
                  acc.1 = some (t, p) ∧ t1 ≤ t ∧
                  replace_ (relpos + (bl.relpos : ℝ)) (ops.len bl.obj) (ops.xpos bl.obj) (squeeze bl.name v) = .ok v' ∧
                  acc.2.get (.ext bl.name) = some v') ∧
              (∀ k, (∀ bl ∈ pre, AskedTab ops sub bl → k ≠ .ext bl.name) → acc.2.get k = best.2.get k) ∧
              (∀ u ∈ acc.2.volts, u ∈ best.2.volts ∨ ∃ bl ∈ pre, ∃ ps mx t1 n1 v, ops.ports bl.obj = some ps ∧ sub bl.obj = some mx ∧
                mx f (incident zb w bl ps) zb bl.name fl (relpos + (bl.relpos : ℝ)) = .ok (t1, n1, v) ∧ u ∈ v.volts))
            (pre := []) (l := s1.blocks) (b := best) (c := (some (t, pl), tab)) (g := tabBlock ops sub s1 sol f fl relpos) (by
              rintro pre b bl c hx ⟨p0, p1, p2, p3, p4, p5⟩ hg
              have p0' : ∀ b' ∈ pre ++ [bl], b' ∈ s1.blocks := by
                intro b' hb'
                rw [List.mem_append, List.mem_singleton] at hb'
                rcases hb' with hb' | rfl
                · exact p0 b' hb'
                · exact hx
              rcases tabBlock_ok hg with ⟨hna, rfl⟩ | ⟨ps0, mx0, t1, n1, v, v', hps, hmx, hans, hrep, rfl⟩
              · refine ⟨p0', p1, ?_, ?_, ?_, ?_⟩
                · intro t p e
                  rcases p2 t p e with h | ⟨bl', h1, h2⟩
                  · exact Or.inl h
                  · exact Or.inr ⟨bl', by simp [h1], h2⟩
                · intro bl' hb' ps mx e1 e2
                  rw [List.mem_append, List.mem_singleton] at hb'
                  rcases hb' with hb' | rfl
                  · exact p3 bl' hb' ps mx e1 e2
                  · exact absurd ⟨by rw [e1]; rfl, by rw [e2]; rfl⟩ hna
                · exact fun k hk => p4 k fun b' hb' => hk b' (by simp [hb'])
                · intro u hu
                  rcases p5 u hu with h | ⟨bl', h1, h2⟩
                  · exact Or.inl h
                  · exact Or.inr ⟨bl', by simp [h1], h2⟩
              · rw [hinc bl hx, hz1] at hans
                obtain ⟨tn, pn, e0, h1, h2, h3⟩ := better_spec b.1 t1 (.inside bl.name n1)
                rw [e0]
                refine ⟨p0', ?_, ?_, ?_, ?_, ?_⟩
                · intro t0 p0 e
                  obtain ⟨t', p', e', hle⟩ := p1 t0 p0 e
                  exact ⟨tn, pn, rfl, hle.trans (h2 t' p' e')⟩
                · intro t p e
                  simp only [Option.some.injEq, Prod.mk.injEq] at e
                  obtain ⟨rfl, rfl⟩ := e
                  rcases h3 with h3 | ⟨h3, h4⟩
                  · rcases p2 tn pn h3 with h | ⟨bl', h1, h2⟩
                    · left; rw [← h3]; exact h
                    · exact Or.inr ⟨bl', by simp [h1], h2⟩
                  · right
                    exact ⟨bl, by simp, ps0, mx0, n1, v, hps, hmx, by rw [hans, h3], h4⟩
                · intro bl' hb' ps mx e1 e2
                  rw [List.mem_append, List.mem_singleton] at hb'
                  by_cases hbb : bl' = bl
                  · subst hbb
                    rw [hmx] at e2
                    injection e2 with e2
                    rw [hps] at e1
                    injection e1 with e1
                    subst e1 e2
                    exact ⟨t1, n1, tn, pn, v, v', hans, rfl, h1, hrep, by simp [Tabs.get_set]⟩
                  · rcases hb' with hb' | hb'
                    · obtain ⟨t1', n1', t', p', v1, v1', k1, k2, k3, k4, k5⟩ := p3 bl' hb' ps mx e1 e2
                      refine ⟨t1', n1', tn, pn, v1, v1', k1, rfl, k3.trans (h2 t' p' k2), k4, ?_⟩
                      simp only [Tabs.get_set]
                      rw [if_neg, k5]
                      intro hc
                      injection hc with hc
                      exact hbb (List.inj_on_of_nodup_map hi1.rep.rep.bnd (p0 bl' hb') hx hc.symm)
                    · exact absurd hb' hbb
                · intro k hk
                  simp only [Tabs.get_set]
                  rw [if_neg]
                  · exact p4 k fun b' hb' => hk b' (by simp [hb'])
                  · exact fun hc => hk bl (by simp) ⟨by rw [hps]; rfl, by rw [hmx]; rfl⟩ hc.symm
                · intro u hu
                  rcases Tabs.volts_set _ _ _ _ hu with hu | hu
                  · rw [replace_volts hrep, squeeze_volts] at hu
                    exact Or.inr ⟨bl, by simp, ps0, mx0, t1, n1, v, hps, hmx, hans, hu⟩
                  · rcases p5 u hu with h | ⟨bl', h1, h2⟩
                    · exact Or.inl h
                    · exact Or.inr ⟨bl', by simp [h1], h2⟩)
            ⟨by simp, fun t0 p0 e => ⟨t0, p0, e, le_refl _⟩, fun _ _ _ => Or.inl rfl, by simp, fun _ _ => rfl, fun u hu => Or.inl hu⟩ hf2
          rw [List.nil_append] at hblocks
          obtain ⟨-, b1, b2, b3, b4, b5⟩ := hblocks
          refine ⟨Sof, hSof, w, hw1, hw2, ?_, ?_, ?_, ?_, ?_, ?_⟩
          · intro n hnn
            have hm : (Dir.inn, n) ∈ s1.waves := (hi1.rep.rep.wmem .inn n).2 hnn
            obtain ⟨k, hk, e⟩ := List.getElem_of_mem hm
            have hx : ((Dir.inn, n), k) ∈ s1.waves.zipIdx := by
              rw [List.mem_zipIdx_iff_getElem?]
              simp only
              rw [List.getElem?_eq_getElem hk, e]
            obtain ⟨⟨t0, p0, e0, hle⟩, y, hy, hget⟩ := m1 _ hx rfl
            obtain ⟨t', p', e', hle'⟩ := b1 t0 p0 e0
            simp only [Option.some.injEq, Prod.mk.injEq] at e'
            refine ⟨?_, fun hno => ⟨y, hy, ?_⟩⟩
            · show ‖volt w n‖ ≤ t
              rw [e'.1]; exact hle.trans hle'
            · rw [show tab.get n = best.2.get n from b4 n hno]; exact hget
          · intro bl hbl ps mx e1 e2
            obtain ⟨t1, n1, t', p', v, v', k1, k2, k3, k4, k5⟩ := b3 bl hbl ps mx e1 e2
            simp only [Option.some.injEq, Prod.mk.injEq] at k2
            exact ⟨t1, n1, v, v', k1, by rw [k2.1]; exact k3, k4, k5⟩
          · intro k v hkv
            by_cases hc : ∃ b ∈ s1.blocks, AskedTab ops sub b ∧ k = .ext b.name
            · exact Or.inr hc
            · left
              refine m3 k v ?_
              rw [← show tab.get k = best.2.get k from b4 k fun b hb ha e => hc ⟨b, hb, ha, e⟩]
              exact hkv
          · rintro n rfl
            rcases b2 t _ rfl with h | ⟨bl, _, _, _, _, _, _, _, _, e⟩
            · obtain ⟨m, e, hm1, hm2⟩ := m2 t _ h.symm
              injection e with e
              subst e
              exact ⟨hm1, hm2⟩
            · cases e
          · rintro bn wh rfl
            rcases b2 t _ rfl with h | ⟨bl, hbl, ps, mx, wh', v, e1, e2, e3, e⟩
            · obtain ⟨m, e, _⟩ := m2 t _ h.symm
              cases e
            · injection e with e e'
              subst e e'
              exact ⟨bl, hbl, rfl, ps, mx, v, e1, e2, e3⟩
          · intro u hu
            rcases b5 u hu with hu | hu
            · exact Or.inl (m4 u hu)
            · exact Or.inr hu

/-! ### the maximum is not exceeded in the table -/

/-- a block object's `maxV` is honest: nothing in its table exceeds its maximum -/
def Honest (sub : SubTab O F Fl) : Prop := ∀ o mx, sub o = some mx → ∀ f E z id fl x t n v, mx f E z id fl x = .ok (t, n, v) →
  ∀ u ∈ v.volts, u ≤ t

/-- **C77 (maximum).** If this is so for the blocks, no voltage in the table of the circuit, at any depth, exceeds the maximum returned;
this holds for a circuit in any state whatever. -/
theorem C77_maximum {sub : SubTab O F Fl} (hh : Honest sub) {f : F} {fl : Fl} {E : List (Node × ℂ)} {z : Option ℂ} {relpos : ℝ}
    {best : Option (ℝ × Place)} {tab : Tabs} (hs : maxVT ops sub s f E z fl relpos = (s', .ok (best, tab))) :
    ∀ u ∈ tab.volts, ∃ t p, best = some (t, p) ∧ u ≤ t := by
  unfold maxVT at hs
  split at hs
  · simp at hs
  cases hEa : mapE (dictIndex E) s.ports with
  | error e => rw [hEa] at hs; simp at hs
  | ok Ea =>
    rw [hEa] at hs
    simp only at hs
    cases hsol : solve ops s f E z fl with
    | mk s1 r1 =>
      rw [hsol] at hs
      cases r1 with
      | error e => simp at hs
      | ok sol =>
        simp only at hs
        cases hf1 : foldE (tabNode ops s1 sol relpos) (none, .nil) s1.waves.zipIdx with
        | error e => rw [hf1] at hs; simp at hs
        | ok acc =>
          rw [hf1] at hs
          simp only [Prod.mk.injEq] at hs
          obtain ⟨rfl, hf2⟩ := hs
          have step : ∀ (acc : Acc) V pl k (v : Tab), (∀ u ∈ v.volts, u ≤ V) → (∀ u ∈ acc.2.volts, ∃ t p, acc.1 = some (t, p) ∧ u ≤ t) →
              ∀ u ∈ (acc.2.set k v).volts, ∃ t p, better acc.1 V pl = some (t, p) ∧ u ≤ t := by
            intro acc V pl k v hv ha u hu
            obtain ⟨tn, pn, e0, h1, h2, -⟩ := better_spec acc.1 V pl
            refine ⟨tn, pn, e0, ?_⟩
            rcases Tabs.volts_set _ _ _ _ hu with hu | hu
            · exact (hv u hu).trans h1
            · obtain ⟨t, p, e, hle⟩ := ha u hu
              exact hle.trans (h2 t p e)
          have i1 := foldE_inv (P := fun _ (acc : Acc) => ∀ u ∈ acc.2.volts, ∃ t p, acc.1 = some (t, p) ∧ u ≤ t) (pre := [])
            (by
              rintro pre b ⟨⟨d, n⟩, k⟩ c - hb hg
              unfold tabNode at hg
              repeat' split at hg
              all_goals first
                | (cases hg; done)
                | skip
              · simp only [Except.ok.injEq] at hg; rw [← hg]; exact hb
              · simp only [Except.ok.injEq] at hg
                rw [← hg]
                exact step _ _ _ _ _ (by simp [Tab.volts]) hb)
            (by simp [Tabs.volts]) hf1
          exact foldE_inv (P := fun _ (acc : Acc) => ∀ u ∈ acc.2.volts, ∃ t p, acc.1 = some (t, p) ∧ u ≤ t) (pre := [])
            (by
              intro pre b x c _ hb hg
              rcases tabBlock_ok hg with ⟨-, rfl⟩ | ⟨ps, mx, t1, n1, v, v', hps, hmx, hans, hrep, rfl⟩
              · exact hb
              · refine step _ _ _ _ _ ?_ hb
                rw [replace_volts hrep, squeeze_volts]
                exact hh _ _ hmx _ _ _ _ _ _ _ _ _ hans)
            i1 hf2

/-! ### proportionality -/

/-- an excitation multiplied by `c` -/
def timesE {α : Type*} (c : ℂ) (E : List (α × ℂ)) : List (α × ℂ) := E.map fun x => (x.1, c * x.2)

/-- an answer multiplied by `c`: maximum and table, the place being the same -/
noncomputable def timesA (c : ℝ) (r : ℝ × String × Tab) : ℝ × String × Tab := (c * r.1, r.2.1, r.2.2.times c)

/-- a block object's `maxV` is proportional to the excitation -/
def Homog (sub : SubTab O F Fl) : Prop := ∀ o mx, sub o = some mx → ∀ (c : ℂ), c ≠ 0 → ∀ f E z id fl x,
  mx f (timesE c E) z id fl x = (mx f E z id fl x).map (timesA ‖c‖)

theorem dictIndex_times {α : Type*} [DecidableEq α] (c : ℂ) (E : List (α × ℂ)) (k : α) :
    dictIndex (timesE c E) k = (dictIndex E k).map (c * ·) := by
  have : dictGet k (timesE c E) = (dictGet k E).map (c * ·) := by
    unfold dictGet timesE
    induction E with
    | nil => rfl
    | cons x l ih =>
      obtain ⟨a, b⟩ := x
      simp only [List.map_cons, List.lookup_cons, ih]
      cases k == a <;> rfl
  unfold dictIndex
  rw [this]
  cases dictGet k E <;> rfl

theorem mapE_times {α β : Type*} {g h : α → Except Err β} {m : β → β} (H : ∀ x, h x = (g x).map m) : ∀ l : List α,
    mapE h l = (mapE g l).map (List.map m)
  | [] => rfl
  | x :: l => by
    unfold mapE
    rw [H x, mapE_times H l]
    cases g x with
    | error e => rfl
    | ok y =>
      simp only [Except.map]
      cases mapE g l <;> rfl

theorem applyS_times (c : ℂ) (S : SMat ℂ) (Ea : List ℂ) : applyS S (Ea.map (c * ·)) = (applyS S Ea).map (List.map (c * ·)) := by
  unfold applyS
  rw [List.length_map]
  split
  · simp only [Except.map, List.map_map, Except.ok.injEq]
    refine List.map_congr_left fun i _ => ?_
    simp only [Function.comp]
    rw [Finset.mul_sum]
    refine Finset.sum_congr rfl fun j _ => ?_
    have : (Ea.map (c * ·)).getD j 0 = c * Ea.getD j 0 := by
      simp only [List.getD_eq_getElem?_getD, List.getElem?_map]
      cases Ea[(j : ℕ)]? <;> simp
    rw [this]; ring
  · rfl

theorem fillEs_times (c : ℂ) (D : List (Node × ℕ)) (N : ℕ) : ∀ (l : List (Node × ℂ)) (Es : ℕ → ℂ),
    fillEs D N (timesE c l) (fun i => c * Es i) = (fillEs D N l Es).map (fun g i => c * g i)
  | [], Es => rfl
  | (p, v) :: l, Es => by
    have ih := fillEs_times c D N l
    unfold timesE at ih ⊢
    simp only [List.map_cons, fillEs]
    cases dictIndex D p with
    | error e => rfl
    | ok k =>
      simp only
      split
      · rw [← ih]
        congr 1
        funext i
        by_cases h : i = k
        · subst h; simp
        · simp [h]
      · rfl

/-- a vector multiplied by `c` -/
def SVec.times (c : ℂ) (x : SVec ℂ) : SVec ℂ := ⟨x.n, fun i => c * x.v i⟩

theorem applyInv_times (c : ℂ) (s : St ℂ O F Fl) (N : ℕ) (Es : ℕ → ℂ) :
    applyInv s N (fun i => c * Es i) = ((applyInv s N Es).1, (applyInv s N Es).2.map (SVec.times c)) := by
  have key : ∀ {n : ℕ} (W : Matrix (Fin n) (Fin n) ℂ), (⟨n, W.mulVec fun i => c * Es i⟩ : SVec ℂ) = SVec.times c ⟨n, W.mulVec fun i => Es i⟩ := by
    intro n W
    unfold SVec.times
    congr 1
    funext i
    simp only [Matrix.mulVec, dotProduct, Finset.mul_sum]
    exact Finset.sum_congr rfl fun j _ => by ring
  unfold applyInv
  cases s.invM with
  | some M =>
    obtain ⟨n, W⟩ := M
    simp only
    split
    · simp only [key, Except.map]
    · rfl
  | none =>
    simp only
    cases extS s with
    | mk s1 r1 =>
      cases r1 with
      | error e => rfl
      | ok S =>
        simp only
        cases s1.invM with
        | none => rfl
        | some M =>
          obtain ⟨n, W⟩ := M
          simp only
          split
          · simp only [key, Except.map]
          · rfl

theorem solve_times (c : ℂ) (s : St ℂ O F Fl) (f : F) (E : List (Node × ℂ)) (z : Option ℂ) (fl : Fl) :
    solve ops s f (timesE c E) z fl = ((solve ops s f E z fl).1, (solve ops s f E z fl).2.map (SVec.times c)) := by
  unfold solve
  simp only [mapE_times (dictIndex_times c E)]
  cases mapE (dictIndex E) s.ports with
  | error e => rfl
  | ok Ea =>
    simp only [Except.map]
    cases getS ops s f (some (z.getD s.zbase)) fl with
    | mk s1 r1 =>
      cases r1 with
      | error e => rfl
      | ok S =>
        simp only [applyS_times]
        cases applyS S Ea with
        | error e => rfl
        | ok Eb =>
          simp only [Except.map]
          split
          · rfl
          · have e1 : (List.map (fun x => onOwn s1.zbase (z.getD s.zbase) x.1 x.2) ((Ea.map (c * ·)).zip (Eb.map (c * ·)))) =
                ((Ea.zip Eb).map fun x => onOwn s1.zbase (z.getD s.zbase) x.1 x.2).map (c * ·) := by
              rw [List.zip_map, List.map_map, List.map_map]
              refine List.map_congr_left fun x _ => ?_
              simp only [Function.comp, Prod.map, onOwn]
              ring
            have e2 : ∀ l : List ℂ, s1.ports.zip (l.map (c * ·)) = timesE c (s1.ports.zip l) := by
              intro l
              rw [List.zip_map_right]
              rfl
            have e3 := fillEs_times c s1.E s1.rows.length
              (s1.ports.zip ((Ea.zip Eb).map fun x => onOwn s1.zbase (z.getD s.zbase) x.1 x.2)) (fun _ => 0)
            simp only [mul_zero] at e3
            rw [e1, e2, e3]
            cases fillEs s1.E s1.rows.length
              (s1.ports.zip ((Ea.zip Eb).map fun x => onOwn s1.zbase (z.getD s.zbase) x.1 x.2)) (fun _ => 0) with
            | error e => rfl
            | ok Es => simp only [Except.map]; exact applyInv_times c s1 _ Es

theorem SVec.get_times (c : ℂ) (x : SVec ℂ) (k : ℕ) : (x.times c).get k = (x.get k).map (c * ·) := by
  unfold SVec.get SVec.times
  dsimp only
  split <;> rfl

/-- the running maximum multiplied by a positive number -/
noncomputable def timesB (r : ℝ) (b : Option (ℝ × Place)) : Option (ℝ × Place) := b.map fun x => (r * x.1, x.2)

theorem better_times {r : ℝ} (hr : 0 < r) (b : Option (ℝ × Place)) (V : ℝ) (pl : Place) :
    better (timesB r b) (r * V) pl = timesB r (better b V pl) := by
  cases b with
  | none => rfl
  | some x =>
    obtain ⟨t, p⟩ := x
    simp only [timesB, Option.map_some, better]
    by_cases h : t < V
    · rw [if_pos h, if_pos (mul_lt_mul_of_pos_left h hr)]; rfl
    · rw [if_neg h, if_neg (not_lt.2 (mul_le_mul_of_nonneg_left (not_lt.1 h) hr.le))]; rfl

/-- what the loops carry, multiplied -/
noncomputable def timesAcc (r : ℝ) (a : Acc) : Acc := (timesB r a.1, a.2.times r)

theorem foldE_times {α β : Type*} {g h : β → α → Except Err β} {m : β → β} (H : ∀ b x, h (m b) x = (g b x).map m) :
    ∀ (l : List α) (b : β), foldE h (m b) l = (foldE g b l).map m
  | [], b => rfl
  | x :: l, b => by
    unfold foldE
    rw [H b x]
    cases g b x with
    | error e => rfl
    | ok b' => exact foldE_times H l b'

theorem blockE_times (c : ℂ) (waves : List Wave) (sol : SVec ℂ) (b : String) (ps : List String) :
    blockE waves (sol.times c) b ps = timesE c (blockE waves sol b ps) := by
  unfold blockE timesE
  rw [show (fun x : String × ℂ => (x.1, c * x.2)) = Prod.map id (c * ·) from rfl, ← List.zip_map_right, List.map_filterMap]
  congr 1
  refine List.filterMap_congr fun wk _ => ?_
  obtain ⟨⟨d, n⟩, k⟩ := wk
  cases d with
  | out => rfl
  | inn =>
    cases n with
    | ext n => rfl
    | blk b' p =>
      simp only [SVec.get_times]
      split
      · cases sol.get k <;> rfl
      · rfl

theorem tabNode_times {c : ℂ} (hc : c ≠ 0) (s : St ℂ O F Fl) (sol : SVec ℂ) (relpos : ℝ) (acc : Acc) (wk : Wave × ℕ) :
    tabNode ops s (sol.times c) relpos (timesAcc ‖c‖ acc) wk = (tabNode ops s sol relpos acc wk).map (timesAcc ‖c‖) := by
  have hr : 0 < ‖c‖ := norm_pos_iff.2 hc
  obtain ⟨⟨d, n⟩, k⟩ := wk
  cases d with
  | out => rfl
  | inn =>
    simp only [tabNode, SVec.get_times]
    cases pyIndex s.waves (.out, n) with
    | error e => rfl
    | ok k1 =>
      simp only
      cases sol.get k with
      | error e => rfl
      | ok a =>
        simp only [Except.map]
        cases sol.get k1 with
        | error e => rfl
        | ok b =>
          simp only
          cases getpos ops s n with
          | error e => rfl
          | ok x =>
            have e : ‖c * a + c * b‖ = ‖c‖ * ‖a + b‖ := by rw [← mul_add, norm_mul]
            simp only [timesAcc, e, better_times hr, Tabs.times_set, Tab.times, List.map_cons, List.map_nil]

theorem tabBlock_times {c : ℂ} (hc : c ≠ 0) {sub : SubTab O F Fl} (hh : Homog sub) (s : St ℂ O F Fl) (sol : SVec ℂ) (f : F) (fl : Fl)
    (relpos : ℝ) (acc : Acc) (b : Blk O) :
    tabBlock ops sub s (sol.times c) f fl relpos (timesAcc ‖c‖ acc) b =
      (tabBlock ops sub s sol f fl relpos acc b).map (timesAcc ‖c‖) := by
  have hr : 0 < ‖c‖ := norm_pos_iff.2 hc
  unfold tabBlock
  cases hps : ops.ports b.obj with
  | none => rfl
  | some ps =>
    cases hmx : sub b.obj with
    | none => rfl
    | some mx =>
      simp only [blockE_times, hh _ _ hmx c hc]
      cases mx f (blockE s.waves sol b.name ps) s.zbase b.name fl (relpos + (b.relpos : ℝ)) with
      | error e => rfl
      | ok r =>
        obtain ⟨t1, n1, v⟩ := r
        simp only [Except.map, timesA, squeeze_times, replace_times]
        cases replace_ (relpos + (b.relpos : ℝ)) (ops.len b.obj) (ops.xpos b.obj) (squeeze b.name v) with
        | error e => rfl
        | ok v' => simp only [timesAcc, better_times hr, Tabs.times_set]

/-- **C77 (proportionality).** If the blocks' answers are proportional to the excitation, so is the circuit's: for the excitation multiplied
by `c` the call raises or answers as before, leaves the same circuit, finds the maximum multiplied by `|c|` at the same place, and returns the
table with every voltage multiplied by `|c|` -- for a circuit in any state whatever. -/
theorem C77_proportional {c : ℂ} (hc : c ≠ 0) {sub : SubTab O F Fl} (hh : Homog sub) (s : St ℂ O F Fl) (f : F) (fl : Fl) (E : List (Node × ℂ))
    (z : Option ℂ) (relpos : ℝ) :
    maxVT ops sub s f (timesE c E) z fl relpos =
      ((maxVT ops sub s f E z fl relpos).1, (maxVT ops sub s f E z fl relpos).2.map
        fun r => (r.1.map fun x => (‖c‖ * x.1, x.2), r.2.times ‖c‖)) := by
  unfold maxVT
  simp only [mapE_times (dictIndex_times c E)]
  split
  · rfl
  cases mapE (dictIndex E) s.ports with
  | error e => rfl
  | ok Ea =>
    simp only [Except.map, solve_times]
    cases solve ops s f E z fl with
    | mk s1 r1 =>
      cases r1 with
      | error e => rfl
      | ok sol =>
        simp only
        have e0 : ((none, .nil) : Acc) = timesAcc ‖c‖ (none, .nil) := rfl
        have e1 := foldE_times (tabNode_times (ops := ops) hc s1 sol relpos) s1.waves.zipIdx (none, .nil)
        rw [← e0] at e1
        rw [e1]
        cases foldE (tabNode ops s1 sol relpos) (none, .nil) s1.waves.zipIdx with
        | error e => rfl
        | ok acc =>
          simp only [Except.map]
          rw [foldE_times (tabBlock_times (ops := ops) hc hh s1 sol f fl relpos) s1.blocks acc]
          rfl

/-! ### circuits in circuits -/

/-- the place as `maxV` says it (1754, 1822): the name of the circuit stands before a node, not before a block -/
def Place.str (id : String) : Place → String
  | .node n => id ++ "." ++ n.str
  | .inside b wh => b ++ "." ++ wh

/-- `maxV` of a circuit, called by the circuit in which it is a block (1795-1797); `nodeOf` reads its port names.  Simplification: a circuit
without nodes, whose maximum is `-inf`, is an error here. -/
noncomputable def circTab (ops : ObjOps ℂ O F Fl) (sub : SubTab O F Fl) (nodeOf : String → Node) : SubTab (St ℂ O F Fl) F Fl :=
  fun c => some fun f E z id fl x =>
    match (maxVT ops sub c f (E.map fun e => (nodeOf e.1, e.2)) (some z) fl x).2 with
    | .error e => .error e
    | .ok (none, _) => .error .nonFinite
    | .ok (some (t, pl), tab) => .ok (t, pl.str id, .dict (.cons (.ext id) (.dict tab) .nil))                -- 1744, 1828

/-- **C77 (nesting).** Circuits of circuits of … inherit both: no voltage in the table exceeds the maximum, and everything is proportional to
the excitation, at every depth of nesting. -/
theorem C77_nested {sub : SubTab O F Fl} (nodeOf : String → Node) :
    (Honest sub → Honest (circTab ops sub nodeOf)) ∧ (Homog sub → Homog (circTab ops sub nodeOf)) := by
  constructor
  · intro hh o mx hmx f E z id fl x t n v hans u hu
    simp only [circTab, Option.some.injEq] at hmx
    subst hmx
    simp only at hans
    cases hm : maxVT ops sub o f (E.map fun e => (nodeOf e.1, e.2)) (some z) fl x with
    | mk s1 r1 =>
      rw [hm] at hans
      cases r1 with
      | error e => simp at hans
      | ok a =>
        obtain ⟨best, tab⟩ := a
        cases best with
        | none => simp at hans
        | some tp =>
          obtain ⟨t', pl⟩ := tp
          simp only [Except.ok.injEq, Prod.mk.injEq] at hans
          obtain ⟨rfl, -, rfl⟩ := hans
          simp only [Tab.volts, Tabs.volts, List.append_nil] at hu
          obtain ⟨t, p, e, hle⟩ := C77_maximum hh hm u hu
          simp only [Option.some.injEq, Prod.mk.injEq] at e
          rw [e.1]; exact hle
  · intro hh o mx hmx c hc f E z id fl x
    simp only [circTab, Option.some.injEq] at hmx
    subst hmx
    simp only
    have e : (timesE c E).map (fun e => (nodeOf e.1, e.2)) = timesE c (E.map fun e => (nodeOf e.1, e.2)) := by
      simp [timesE, Function.comp_def]
    rw [e, C77_proportional hc hh]
    cases (maxVT ops sub o f (E.map fun e => (nodeOf e.1, e.2)) (some z) fl x).2 with
    | error e => rfl
    | ok a =>
      obtain ⟨best, tab⟩ := a
      cases best with
      | none => rfl
      | some tp => simp [Except.map, timesA, Tab.times, Tabs.times]

/-! ### positions -/

/-- **C77 (positions of a line).** A pair of a block whose positions run from `a` to `z ≠ a` gets the positions `P0 … P1` of the object's first two
ports: the first point stands at `P0`, the last at `P1`, the others in proportion; the voltages are untouched. -/
theorem C77_line_positions {x0 a z : ℝ} (haz : z ≠ a) {xs us : List ℝ} (ha : xs.head? = some a) (hz : xs.getLast? = some z) {len : ℕ}
    {p0 p1 : ℚ} {ps : List ℚ} (hl : 2 ≤ len) (hps : len ≤ (p0 :: p1 :: ps).length) :
    ∃ xs', replace_ x0 len (some (p0 :: p1 :: ps)) (.pair xs us) = .ok (.pair xs' us) ∧ xs'.length = xs.length ∧
      xs'.head? = some (x0 + p0) ∧ xs'.getLast? = some (x0 + p1) ∧
      ∀ (i : ℕ) (x : ℝ), xs[i]? = some x → ∃ x', xs'[i]? = some x' ∧ (x' - (x0 + p0)) * (z - a) = (x - a) * ((x0 + p1) - (x0 + p0)) := by
  have hne : z - a ≠ 0 := sub_ne_zero.2 haz
  obtain ⟨m, rfl⟩ : ∃ m, len = m + 2 := ⟨len - 2, by omega⟩
  refine ⟨xs.map fun x => (x0 + p0) + (x - a) * ((x0 + p1) - (x0 + p0)) / (z - a), ?_, by simp, ?_, ?_, ?_⟩
  · unfold replace_
    dsimp only
    rw [if_neg (by omega), ha, hz]
    simp only [List.take_succ_cons, List.map_cons, if_neg haz]
  · simp [List.head?_map, ha]
  · rw [List.getLast?_map, hz]
    simp only [Option.map_some, Option.some.injEq]
    field_simp
    ring
  · intro i x hx
    refine ⟨_, by rw [List.getElem?_map, hx]; rfl, ?_⟩
    field_simp
    ring

/-- **C77, violated for lumped elements**: `rfRLC.maxV` returns its two port voltages with positions 0, 0 (rfRLC.py:271); a circuit enters both at the
position of the first port, wherever the second port is. -/
theorem C77_lumped_positions (x0 : ℝ) (p0 p1 : ℚ) (u0 u1 : ℝ) :
    replace_ x0 2 (some [p0, p1]) (.pair [0, 0] [u0, u1]) = .ok (.pair [x0 + p0, x0 + p0] [u0, u1]) := by
  simp [replace_]

/-- **C77, refused**: a table with a pair cannot be entered if the object has no positions; nor, unless the positions of the pair begin and end at one
place, if it has only one port. -/
theorem C77_one_port_refused {x0 a z : ℝ} (haz : z ≠ a) {xs us : List ℝ} (ha : xs.head? = some a) (hz : xs.getLast? = some z) (p0 : ℚ)
    (ps : List ℚ) : replace_ x0 1 (some (p0 :: ps)) (.pair xs us) = .error .indexError ∧
      ∀ len, replace_ x0 len none (.pair xs us) = .error .attributeError := by
  refine ⟨?_, fun _ => rfl⟩
  unfold replace_
  dsimp only
  rw [if_neg (by simp), ha, hz]
  simp [haz]

/-! ### scaling the table -/

mutual
/-- the table as `scaleVSW` (plotVSWs.py:204-217) sees it -/
noncomputable def Tab.toTree : Tab → VSW.Tree
  | .dict t => .dict t.toForest
  | .pair xs us => .seq (xs.map some) (us.map fun u : ℝ => (u : ℂ))
  | .num _ => .other
/-- the same for the items -/
noncomputable def Tabs.toForest : Tabs → VSW.Forest
  | .nil => .nil
  | .cons k v r => .cons k.str v.toTree r.toForest
end

mutual
/-- a table in which every voltage stands in a pair -/
def Tab.Paired : Tab → Prop
  | .dict t => t.Paired
  | .pair _ _ => True
  | .num _ => False
/-- the same for the items -/
def Tabs.Paired : Tabs → Prop
  | .nil => True
  | .cons _ v r => v.Paired ∧ r.Paired
end

mutual
theorem toTree_scale (r : ℝ) : ∀ t : Tab, (VSW.Wf t.toTree ↔ t.Paired) ∧ (t.times r).toTree = VSW.times (r : ℂ) t.toTree
  | .dict t => by
    have := toForest_scale r t
    simp only [Tab.toTree, VSW.Wf, Tab.Paired, Tab.times, VSW.times, this.1, this.2, and_self]
  | .pair xs us => by
    simp only [Tab.toTree, VSW.Wf, Tab.Paired, Tab.times, VSW.times, List.map_map, Function.comp_def, true_and]
    congr 1
    exact List.map_congr_left fun u _ => by push_cast; ring
  | .num u => by simp [Tab.toTree, VSW.Wf, Tab.Paired, Tab.times, VSW.times]
theorem toForest_scale (r : ℝ) : ∀ t : Tabs, (VSW.WfF t.toForest ↔ t.Paired) ∧ (t.times r).toForest = VSW.timesF (r : ℂ) t.toForest
  | .nil => by simp [Tabs.toForest, VSW.WfF, Tabs.Paired, Tabs.times, VSW.timesF]
  | .cons k v t => by
    have h1 := toTree_scale r v
    have h2 := toForest_scale r t
    simp only [Tabs.toForest, VSW.WfF, Tabs.Paired, Tabs.times, VSW.timesF, h1.1, h1.2, h2.1, h2.2, and_self]
end

mutual
/-- the entries of a table, each with the names leading to it: positions and voltages, or a plain number -/
def Tab.entries (p : List String) : Tab → List (List String × (List ℝ × List ℝ ⊕ ℝ))
  | .dict t => t.entries p
  | .pair xs us => [(p, .inl (xs, us))]
  | .num u => [(p, .inr u)]
/-- the same for the items -/
def Tabs.entries (p : List String) : Tabs → List (List String × (List ℝ × List ℝ ⊕ ℝ))
  | .nil => []
  | .cons k v r => v.entries (p ++ [k.str]) ++ r.entries p
end

/-- an entry as `scaleVSW` sees it -/
noncomputable def asSeen : List ℝ × List ℝ ⊕ ℝ → VSW.Tree
  | .inl (xs, us) => .seq (xs.map some) (us.map fun u : ℝ => (u : ℂ))
  | .inr _ => .other

mutual
theorem toTree_entries : ∀ (t : Tab) (p : List String), VSW.leavesT p t.toTree = (t.entries p).map fun e => (e.1, asSeen e.2)
  | .dict t, p => by rw [Tab.toTree, VSW.leavesT, Tab.entries]; exact toForest_entries t p
  | .pair xs us, p => by simp [Tab.toTree, VSW.leavesT, Tab.entries, asSeen]
  | .num u, p => by simp [Tab.toTree, VSW.leavesT, Tab.entries, asSeen]
theorem toForest_entries : ∀ (t : Tabs) (p : List String), VSW.leavesF p t.toForest = (t.entries p).map fun e => (e.1, asSeen e.2)
  | .nil, p => by simp [Tabs.toForest, VSW.leavesF, Tabs.entries]
  | .cons k v r, p => by
    rw [Tabs.toForest, VSW.leavesF, Tabs.entries, toTree_entries v, toForest_entries r, List.map_append]
end

/-- **C77 (what is scaled).** `scaleVSW` of the table of `maxV`: every pair keeps its place and its positions, and each of its voltages
is multiplied. -/
theorem C77_scaled_entries (r : ℝ) {tab : Tabs} (hp : tab.Paired) {f' : VSW.Forest} (h : VSW.scaleF (r : ℂ) tab.toForest = (f', .ok ())) :
    VSW.leavesF [] f' = (tab.entries []).map fun e => (e.1, match e.2 with
      | .inl (xs, us) => .seq (xs.map some) (us.map fun u : ℝ => ((r * u : ℝ) : ℂ))
      | .inr _ => .other) := by
  have hw := (toForest_scale r tab).1.2 hp
  rw [(VSW.scaleF_ok _ _).1 hw] at h
  injection h with h _
  rw [← h, (VSW.leavesF_wf _ _ [] hw).2, toForest_entries, List.map_map]
  apply List.map_congr_left
  rintro ⟨p, xs | u⟩ _
  · simp only [Function.comp_def, asSeen, VSW.times, List.map_map]
    congr 2
    exact List.map_congr_left fun u _ => by push_cast; ring
  · simp [asSeen, VSW.times]

/-- **C77 (scaling instead of asking again).** The table of a circuit whose blocks are proportional, multiplied by `|c|` with `scaleVSW`, is the table
`maxV` returns for the excitation multiplied by `c` -- provided every voltage stands in a pair. -/
theorem C77_scaleVSW {c : ℂ} (hc : c ≠ 0) {sub : SubTab O F Fl} (hh : Homog sub) {f : F} {fl : Fl} {E : List (Node × ℂ)} {z : Option ℂ}
    {relpos : ℝ} {b b' : Option (ℝ × Place)} {tab tab' : Tabs} {s1 s1' : St ℂ O F Fl}
    (h : maxVT ops sub s f E z fl relpos = (s1, .ok (b, tab))) (h' : maxVT ops sub s f (timesE c E) z fl relpos = (s1', .ok (b', tab')))
    (hp : tab.Paired) : VSW.scaleF (‖c‖ : ℝ) tab.toForest = (tab'.toForest, .ok ()) := by
  rw [C77_proportional hc hh, h] at h'
  simp only [Except.map, Prod.mk.injEq, Except.ok.injEq] at h'
  rw [← h'.2.2, (toForest_scale ‖c‖ tab).2]
  exact (VSW.scaleF_ok _ _).1 ((toForest_scale ‖c‖ tab).1.2 hp)

/-- **C77, violated for blocks whose `maxV` is `rfBase`'s** (rfBase.py:450-490; also rfArcObj, rfCoupler): they return plain numbers, not pairs, and the
table of a circuit with such a block cannot be scaled: `scaleVSW` raises on any table in which a number stands. -/
theorem C77_numbers_refused (r : ℂ) {tab : Tabs} (h : ¬ tab.Paired) : ∃ e, (VSW.scaleF r tab.toForest).2 = .error e := by
  cases hs : VSW.scaleF r tab.toForest with
  | mk f' x =>
    cases x with
    | error e => exact ⟨e, rfl⟩
    | ok u => exact absurd ((toForest_scale 1 tab).1.1 ((VSW.scaleF_ok r _).2 _ hs)) h

/-! ### ports of a block -/

/-- the voltages `|a + S a|` for the waves `a` of an excitation (rfBase.py:482-485, rfRLC.py:267-269) -/
noncomputable def portVolts (S : SMat ℂ) (E : List (String × ℂ)) : List ℝ :=
  (List.range E.length).map fun k => ‖(E.map Prod.snd).getD k 0 + ∑ j : Fin E.length, S.at k j * (E.map Prod.snd).getD j 0‖

/-- **C77 (blocks and nodes agree).** A block that answers with the voltages `|a + S a|` at its ports, `S` being its scattering matrix on the circuit's
reference: what the table says under the block's name for its `k`-th port is what the table says for that node. -/
theorem C77_ports_agree (hlaw : Lawful ops beh) (h : Built ops beh nan zb names net bh s ph)
    (hph : ph ≠ .reloaded) (hzb : zb ≠ 0) {sub : SubTab O F Fl} {f : F} {fl : Fl} {E : List (Node × ℂ)} {z : Option ℂ} {relpos : ℝ}
    {t : ℝ} {pl : Place} {tab : Tabs} (hs : maxVT ops sub s f E z fl relpos = (s', .ok (some (t, pl), tab)))
    {b : Blk O} (hb : b ∈ s'.blocks) (hnet : (b.name, b.ports) ∈ net.blks) {ps : List String} (hps : ops.ports b.obj = some ps) (hlen : ps.length = b.ports.length) {mx}
    (hmx : sub b.obj = some mx) {S : SMat ℂ} (hS : bh b.name f zb fl = .ok S)
    (hans : ∀ Ek t1 n1 v, mx f Ek zb b.name fl (relpos + (b.relpos : ℝ)) = .ok (t1, n1, v) → ∃ xs, v = .pair xs (portVolts S Ek)) :
    ∃ xs us, tab.get (.ext b.name) = some (.pair xs us) ∧ us.length = b.ports.length ∧
      ∀ (k : ℕ) (p : String), b.ports[k]? = some p → ∃ x u, tab.get (.blk b.name p) = some (.pair [x] [u]) ∧ us[k]? = some u := by
  obtain ⟨Sof, hSof, w, hw, -, hnodes, hblocks, -⟩ := C77_table hlaw h hph hzb hs
  obtain ⟨t1, n1, v, v', e1, -, e2, e3⟩ := hblocks b hb ps mx hps hmx
  obtain ⟨xs, rfl⟩ := hans _ _ _ _ e1
  have hSS : S = Sof b.name := by
    have := hSof _ hnet
    rw [hS] at this
    injection this
  subst hSS
  obtain ⟨xs', rfl⟩ : ∃ xs', v' = .pair xs' (portVolts (Sof b.name) (incident zb w b ps)) := by
    simp only [squeeze] at e2
    unfold replace_ at e2
    dsimp only at e2
    repeat' split at e2
    all_goals first
      | (cases e2; done)
      | (simp only [Except.ok.injEq] at e2; exact ⟨_, e2.symm⟩)
  have hil : (incident zb w b ps).length = b.ports.length := by simp [incident, hlen]
  have hmap : (incident zb w b ps).map Prod.snd = b.ports.map fun p => (stateOf zb w).fwd zb (.blk b.name p) := by
    unfold incident
    rw [List.map_snd_zip]
    simp [hlen]
  refine ⟨xs', _, e3, by simp [portVolts, hil], ?_⟩
  intro k p hk
  have hkl : k < b.ports.length := (List.getElem?_eq_some_iff.1 hk).1
  have hkp : b.ports[k] = p := (List.getElem?_eq_some_iff.1 hk).2
  have hnn : Node.blk b.name p ∈ net.nodes := by
    have hE : ∃ S, getS ops s f (some (z.getD zb)) fl = (s', .ok S) := by
      unfold maxVT at hs
      split at hs
      · simp at hs
      split at hs
      · simp at hs
      cases hsol : solve ops s f E z fl with
      | mk s1 r1 =>
        rw [hsol] at hs
        cases r1 with
        | error e => simp at hs
        | ok sol =>
          simp only at hs
          obtain ⟨hS, -⟩ := solve_spec hlaw h hph hzb hsol
          split at hs
          · simp at hs
          · simp only [Prod.mk.injEq] at hs
            rw [← hs.1]; exact hS
    obtain ⟨S, hS⟩ := hE
    have hi1 := (Built.eval h hS).inv hlaw
    have := (hi1.rep.rep.wmem .inn _).1 (List.mem_of_getElem? (hi1.rep.rep.bcol b hb k hkl).1)
    rw [hkp] at this; exact this
  obtain ⟨x, -, hget⟩ := (hnodes _ hnn).2 (fun _ _ _ hc => by cases hc)
  refine ⟨_, _, hget, ?_⟩
  unfold portVolts
  rw [List.getElem?_map, List.getElem?_range (by omega)]
  simp only [Option.map_some, Option.some.injEq, hmap]
  have e : ∀ n, (stateOf zb w).fwd zb n = w (.inn, n) := by
    intro n
    simp only [Field.State.fwd, stateOf, volt, curr]
    field_simp
    ring
  have hg : ∀ j : ℕ, ∀ hj : j < b.ports.length, (b.ports.map fun p => (stateOf zb w).fwd zb (.blk b.name p)).getD j 0 = w (.inn, .blk b.name b.ports[j]) := by
    intro j hj
    simp [List.getD_eq_getElem?_getD, hj, e]
  have hlaw' := hw.1 _ hnet ⟨k, hkl⟩
  simp only [Fin.getElem_fin, hkp] at hlaw'
  rw [hg k hkl, hkp]
  have hsum : (∑ j : Fin (incident zb w b ps).length, (Sof b.name).at k j *
      (b.ports.map fun p => (stateOf zb w).fwd zb (.blk b.name p)).getD j 0) = w (.out, .blk b.name p) := by
    rw [hlaw']
    refine Fintype.sum_equiv (finCongr hil) _ _ fun j => ?_
    have hj : (j : ℕ) < b.ports.length := by have := j.2; omega
    rw [hg j hj]
    rfl
  rw [hsum]
  rfl

/-! ### answers -/

/-- the nodes' loop runs through when that of `CircuitMaxV.lean` does -/
theorem tabNode_of_max {sol : SVec ℂ} {relpos : ℝ} (acc : Acc) (wk : Wave × ℕ) :
    (tabNode ops s sol relpos acc wk).map Prod.fst = maxNode ops s sol acc.1 wk := by
  obtain ⟨⟨d, n⟩, k⟩ := wk
  cases d with
  | out => rfl
  | inn =>
    simp only [tabNode, maxNode]
    cases pyIndex s.waves (.out, n) with
    | error e => rfl
    | ok k1 =>
      simp only
      cases sol.get k with
      | error e => rfl
      | ok a =>
        cases sol.get k1 with
        | error e => rfl
        | ok b =>
          simp only
          cases getpos ops s n <;> rfl

theorem tabNodes_of_max {sol : SVec ℂ} {relpos : ℝ} : ∀ (l : List (Wave × ℕ)) (acc : Acc),
    (foldE (tabNode ops s sol relpos) acc l).map Prod.fst = foldE (maxNode ops s sol) acc.1 l
  | [], acc => rfl
  | x :: l, acc => by
    unfold foldE
    rw [← tabNode_of_max (relpos := relpos)]
    cases tabNode ops s sol relpos acc x with
    | error e => rfl
    | ok a => exact tabNodes_of_max l a

/-- **C77 (answers).** If the objects of all blocks have positions, no named node has been used up inside, every external port is given a wave, `getS` answers
on the reference asked for and every block that is asked answers with a table that can be entered, then `maxV` returns a maximum and a table. -/
theorem C77_answers (hlaw : Lawful ops beh) (hpos : Positioned ops) (h : Built ops beh nan zb names net bh s ph)
    (hph : ph ≠ .reloaded) (hzb : zb ≠ 0) {sub : SubTab O F Fl} {f : F} {fl : Fl} {E : List (Node × ℂ)} {z : Option ℂ} {relpos : ℝ}
    (hz : z.getD zb ≠ 0) (hn : net.nodes ≠ []) (hext : ∀ n, Node.ext n ∈ net.nodes → Node.ext n ∈ net.free)
    (hE : ∀ p ∈ net.free, dictGet p E ≠ none)
    {S : SMat ℂ} (hS : getS ops s f (some (z.getD zb)) fl = (s', .ok S))
    (hxs : ∀ b ∈ s'.blocks, ∃ xs, ops.xpos b.obj = some xs)
    (hsub : ∀ b ∈ s'.blocks, ∀ mx, sub b.obj = some mx → ∀ Ek, ∃ t n v v', mx f Ek zb b.name fl (relpos + (b.relpos : ℝ)) = .ok (t, n, v) ∧
      replace_ (relpos + (b.relpos : ℝ)) (ops.len b.obj) (ops.xpos b.obj) (squeeze b.name v) = .ok v') :
    ∃ t pl tab, maxVT ops sub s f E z fl relpos = (s', .ok (some (t, pl), tab)) := by
  obtain ⟨t, pl, hm⟩ := C48_circuit_maxV_answers (sub := fun _ => none) hlaw hpos h hph hzb hz hn hext hE (by simp) hS hxs
  have hz1 : s'.zbase = zb := ((Built.eval h hS).inv hlaw).zb
  unfold maxV at hm
  unfold maxVT
  split at hm
  · simp at hm
  rename_i hx
  rw [if_neg hx]
  cases hEa : mapE (dictIndex E) s.ports with
  | error e => rw [hEa] at hm; simp at hm
  | ok Ea =>
    rw [hEa] at hm
    simp only at hm ⊢
    cases hsol : solve ops s f E z fl with
    | mk s1 r1 =>
      rw [hsol] at hm
      cases r1 with
      | error e => simp at hm
      | ok sol =>
        simp only at hm ⊢
        have hnm := tabNodes_of_max (ops := ops) (s := s1) (sol := sol) (relpos := relpos) s1.waves.zipIdx (none, .nil)
        simp only at hnm
        cases hf1 : foldE (maxNode ops s1 sol) none s1.waves.zipIdx with
        | error e => rw [hf1] at hm; simp at hm
        | ok best =>
          rw [hf1] at hm hnm
          simp only [Prod.mk.injEq] at hm
          obtain ⟨rfl, hm⟩ := hm
          have hbest : best = some (t, pl) := by
            have : ∀ (l : List (Blk O)), foldE (maxBlock ops (fun _ => none) s1 sol f fl) best l = .ok best := by
              intro l
              induction l with
              | nil => rfl
              | cons x l ih =>
                unfold foldE maxBlock
                cases ops.ports x.obj <;> exact ih
            rw [this] at hm
            injection hm
          subst hbest
          cases hf2 : foldE (tabNode ops s1 sol relpos) (none, .nil) s1.waves.zipIdx with
          | error e => rw [hf2] at hnm; cases hnm
          | ok acc =>
            rw [hf2] at hnm
            simp only [Except.map, Except.ok.injEq] at hnm
            simp only
            have hblock : ∀ acc : Acc, acc.1 ≠ none → ∀ b ∈ s1.blocks, ∃ c : Acc, tabBlock ops sub s1 sol f fl relpos acc b = .ok c ∧ c.1 ≠ none := by
              intro acc ha b hb
              unfold tabBlock
              cases hp : ops.ports b.obj with
              | none => exact ⟨acc, rfl, ha⟩
              | some ps =>
                cases hmx : sub b.obj with
                | none => exact ⟨acc, rfl, ha⟩
                | some mx =>
                  obtain ⟨t1, n1, v, v', h1, h2⟩ := hsub b hb mx hmx (blockE s1.waves sol b.name ps)
                  simp only [hz1, h1, h2]
                  refine ⟨_, rfl, ?_⟩
                  obtain ⟨t, p, e, _⟩ := better_spec acc.1 t1 (.inside b.name n1)
                  simp only [e, ne_eq, reduceCtorEq, not_false_eq_true]
            have hall : ∀ (l : List (Blk O)), (∀ b ∈ l, b ∈ s1.blocks) → ∀ acc : Acc, acc.1 ≠ none →
                ∃ c : Acc, foldE (tabBlock ops sub s1 sol f fl relpos) acc l = .ok c ∧ c.1 ≠ none := by
              intro l
              induction l with
              | nil => exact fun _ acc ha => ⟨acc, rfl, ha⟩
              | cons x l ih =>
                intro hl acc ha
                obtain ⟨c, hc, hc'⟩ := hblock acc ha x (hl x (by simp))
                unfold foldE
                rw [hc]
                exact ih (fun b hb => hl b (by simp [hb])) c hc'
            obtain ⟨c, hc, hc'⟩ := hall s1.blocks (fun _ hb => hb) acc (by rw [hnm]; simp)
            obtain ⟨best', tab⟩ := c
            cases best' with
            | none => exact absurd rfl hc'
            | some tp => exact ⟨tp.1, tp.2, tab, by rw [hc]⟩

end

namespace Ex

/-- the `maxV` of a block for the examples: the magnitude of the wave into port 1 at the two ends of a line of length 2, and a third in the middle -/
noncomputable def lineTab : SubTab (Imm ℂ Unit Unit) Unit Unit := fun _ => some fun _ E _ _ _ _ =>
  let a := ‖(E.map Prod.snd).getD 0 0‖
  .ok (a, "middle", .pair [0, 1, 2] [a / 2, a / 4, a])

/-- the block is honest and proportional -/
theorem lineTab_ok : Honest lineTab ∧ Homog lineTab := by
  constructor
  · intro o mx hmx f E z id fl x t n v h u hu
    simp only [lineTab, Option.some.injEq] at hmx
    subst hmx
    simp only [Except.ok.injEq, Prod.mk.injEq] at h
    obtain ⟨rfl, -, rfl⟩ := h
    have h0 : 0 ≤ ‖(E.map Prod.snd).getD 0 0‖ := norm_nonneg _
    simp only [Tab.volts, List.mem_cons, List.not_mem_nil, or_false] at hu
    rcases hu with rfl | rfl | rfl <;> linarith
  · intro o mx hmx c hc f E z id fl x
    simp only [lineTab, Option.some.injEq] at hmx
    subst hmx
    have : ((timesE c E).map Prod.snd).getD 0 0 = c * (E.map Prod.snd).getD 0 0 := by
      cases E <;> simp [timesE]
    simp only [this, norm_mul, Except.map, timesA, Tab.times, List.map_cons, List.map_nil]
    congr 4
    simp only [List.cons.injEq, and_true]
    constructor <;> ring

theorem lineTab_place (a : ℝ) : replace_ 5 2 (some [0, 1]) (.pair [0, 1, 2] [a / 2, a / 4, a]) =
    .ok (.pair [5, 11 / 2, 6] [a / 2, a / 4, a]) := by
  simp only [replace_, List.length_cons, List.length_nil, lt_irrefl, if_false, List.head?_cons, List.getLast?_cons_cons, List.getLast?_singleton,
    List.take_succ_cons, List.take_nil, List.map_cons, List.map_nil, OfNat.ofNat_ne_zero]
  norm_num

/-- C77_table, C77_maximum, C77_proportional, C77_scaleVSW and C77_answers apply: the loaded through line of `CircuitPower.lean`, placed at 5 m -/
theorem C77_witness : ∃ s' t pl tab, maxVT oc lineTab c2 () [(.blk "A" "1", 1)] none () 5 = (s', .ok (some (t, pl), tab)) ∧
    (∃ x u, tab.get (.blk "A" "1") = some (.pair [x] [u])) ∧
    ∃ a, tab.get (.ext "A") = some (.pair [5, 11 / 2, 6] [a / 2, a / 4, a]) ∧ a ≤ t := by
  obtain ⟨s', S, hs⟩ := getS_c2
  replace hs := getS_own hs ((Built.eval builtc hs).inv (imm_lawful _ _ _)).zb
  have hb : s'.blocks = c2.blocks := getS_blocks (fun _ _ _ _ => rfl) hs
  have e : c2.blocks = [⟨"A", ["1", "2"], (0, 0), thru, 0⟩] := rfl
  rw [e] at hb
  have hx : oc.xpos thru = some [0, 1] := rfl
  have hl : oc.len thru = 2 := rfl
  obtain ⟨t, pl, tab, h⟩ := C77_answers (sub := lineTab) (relpos := 5) (imm_lawful ℂ Unit Unit)
    (imm_positioned _ _ _) builtc (by decide) (by norm_num) (E := [(.blk "A" "1", 1)]) (z := none) (by norm_num) (by simp [netc])
    (by intro n hn; simp [netc] at hn)
    (by intro p hp; have hf : netc.free = [.blk "A" "1"] := rfl
        rw [hf, List.mem_singleton] at hp; subst hp; simp [dictGet]) hs
    (by rw [hb]; intro b hbm; rw [List.mem_singleton] at hbm; subst hbm; exact ⟨_, rfl⟩)
    (by
      rw [hb]; intro b hbm mx hmx Ek
      rw [List.mem_singleton] at hbm; subst hbm
      simp only [lineTab, Option.some.injEq] at hmx
      subst hmx
      refine ⟨_, _, _, .pair [5, 11 / 2, 6] [‖(Ek.map Prod.snd).getD 0 0‖ / 2, ‖(Ek.map Prod.snd).getD 0 0‖ / 4, ‖(Ek.map Prod.snd).getD 0 0‖], rfl, ?_⟩
      simp only [squeeze, hx, hl, Rat.cast_zero, add_zero]
      exact lineTab_place _)
  refine ⟨s', t, pl, tab, h, ?_⟩
  obtain ⟨Sof, -, w, -, -, h1, h2, -⟩ := C77_table (imm_lawful ℂ Unit Unit) builtc (by decide) (by norm_num) h
  refine ⟨?_, ?_⟩
  · obtain ⟨x, -, hget⟩ := (h1 (.blk "A" "1") (by simp [netc])).2 (fun _ _ _ hc => by cases hc)
    exact ⟨_, _, hget⟩
  · obtain ⟨t1, n1, v, v', e1, e2, e3, e4⟩ := h2 ⟨"A", ["1", "2"], (0, 0), thru, 0⟩ (by rw [hb]; simp) ["1", "2"] _ rfl rfl
    simp only [Except.ok.injEq, Prod.mk.injEq] at e1
    obtain ⟨rfl, -, rfl⟩ := e1
    simp only [squeeze, hx, hl, Rat.cast_zero, add_zero] at e3
    rw [lineTab_place] at e3
    injection e3 with e3
    subst e3
    exact ⟨_, e4, e2⟩

/-- the `maxV` of a block that tells its port voltages, as rfRLC's does -/
noncomputable def portTab : SubTab (Imm ℂ Unit Unit) Unit Unit := fun _ => some fun _ E _ _ _ _ =>
  .ok (0, "1", .pair [0, 0] (portVolts ⟨2, !![0, 1; 1, 0]⟩ E))

/-- C77_ports_agree applies: the same line -/
theorem C77_ports_witness : ∃ s' t pl tab, maxVT oc portTab c2 () [(.blk "A" "1", 1)] none () 5 = (s', .ok (some (t, pl), tab)) ∧
    ∃ xs us, tab.get (.ext "A") = some (.pair xs us) ∧ us.length = 2 ∧ ∃ x u, tab.get (.blk "A" "2") = some (.pair [x] [u]) ∧ us[1]? = some u := by
  obtain ⟨s', S, hs⟩ := getS_c2
  replace hs := getS_own hs ((Built.eval builtc hs).inv (imm_lawful _ _ _)).zb
  have hb : s'.blocks = c2.blocks := getS_blocks (fun _ _ _ _ => rfl) hs
  have e : c2.blocks = [⟨"A", ["1", "2"], (0, 0), thru, 0⟩] := rfl
  rw [e] at hb
  have hx : oc.xpos thru = some [0, 1] := rfl
  have hl : oc.len thru = 2 := rfl
  obtain ⟨t, pl, tab, h⟩ := C77_answers (sub := portTab) (relpos := 5) (imm_lawful ℂ Unit Unit)
    (imm_positioned _ _ _) builtc (by decide) (by norm_num) (E := [(.blk "A" "1", 1)]) (z := none) (by norm_num) (by simp [netc])
    (by intro n hn; simp [netc] at hn)
    (by intro p hp; have hf : netc.free = [.blk "A" "1"] := rfl
        rw [hf, List.mem_singleton] at hp; subst hp; simp [dictGet]) hs
    (by rw [hb]; intro b hbm; rw [List.mem_singleton] at hbm; subst hbm; exact ⟨_, rfl⟩)
    (by
      rw [hb]; intro b hbm mx hmx Ek
      rw [List.mem_singleton] at hbm; subst hbm
      simp only [portTab, Option.some.injEq] at hmx
      subst hmx
      refine ⟨_, _, _, .pair [5, 5] (portVolts ⟨2, !![0, 1; 1, 0]⟩ Ek), rfl, ?_⟩
      simp only [squeeze, hx, hl, Rat.cast_zero, add_zero]
      simp [replace_])
  refine ⟨s', t, pl, tab, h, ?_⟩
  obtain ⟨xs, us, g1, g2, g3⟩ := C77_ports_agree (imm_lawful ℂ Unit Unit) builtc (by decide) (by norm_num) h
    (b := ⟨"A", ["1", "2"], (0, 0), thru, 0⟩) (by rw [hb]; simp) (by simp [netc]) (ps := ["1", "2"]) rfl rfl rfl (S := ⟨2, !![0, 1; 1, 0]⟩) rfl
    (by
      intro Ek t1 n1 v hv
      simp only [Except.ok.injEq, Prod.mk.injEq] at hv
      exact ⟨_, hv.2.2.symm⟩)
  exact ⟨xs, us, g1, g2, g3 1 "2" rfl⟩

end Ex
end PyRFtk.Circuit
