import Verif.CircuitSolProps
import Verif.CircuitRefuse
import Verif.CircuitPower

/-!
# `rfCircuit.maxV` (C48)
-/

set_option linter.unusedSectionVars false

namespace PyRFtk.Circuit

/-! ## the model -/

/-- the place of the maximum: a node of the circuit, or a place inside a block -/
inductive Place
  | node (n : Node)
  | inside (b : String) (where_ : String)
deriving DecidableEq

section
variable {O F Fl : Type*} [DecidableEq F] [DecidableEq Fl]

/-- what the circuit uses of a block's `maxV`: absent (a numpy array), or its answer (maximum, place) for an excitation
by port name on a reference impedance -/
abbrev SubMax (O F Fl : Type*) := O → Option (F → List (String × ℂ) → ℂ → Fl → Except Err (ℝ × String))

/-- keep the larger of the running maximum (`none`: `-np.inf, 'N/A'`) and a candidate (1761-1762, 1829-1830) -/
noncomputable def better (best : Option (ℝ × Place)) (V : ℝ) (pl : Place) : Option (ℝ × Place) :=
  match best with
  | none => some (V, pl)
  | some (t, p) => if t < V then some (V, pl) else some (t, p)

/-- one pass of the loop 1749-1762 for the wave at position `k`: nothing for a reflected wave; otherwise the position is
looked up (`getpos`, which may raise) and the magnitude of the voltage compared.  Simplification: the table `VSWs` is left
out. -/
noncomputable def maxNode (ops : ObjOps ℂ O F Fl) (s : St ℂ O F Fl) (sol : SVec ℂ) (best : Option (ℝ × Place))
    (wk : Wave × ℕ) : Except Err (Option (ℝ × Place)) :=
  match wk with
  | ((.out, _), _) => .ok best
  | ((.inn, n), k) => match pyIndex s.waves (.out, n) with
    | .error e => .error e
    | .ok k1 => match sol.get k, sol.get k1 with
      | .error e, _ => .error e
      | _, .error e => .error e
      | .ok a, .ok b => match getpos ops s n with
        | .error e => .error e
        | .ok _ => .ok (better best ‖a + b‖ (.node n))

/-- the excitation passed to a block: the waves `->b.…` in order, zipped with the object's own port names (1794-1805) -/
def blockE (waves : List Wave) (sol : SVec ℂ) (b : String) (ports : List String) : List (String × ℂ) :=
  ports.zip (waves.zipIdx.filterMap fun wk => match wk with
    | ((.inn, .blk b' _), k) => if b' = b then (match sol.get k with | .ok v => some v | .error _ => none) else none
    | _ => none)

/-- one pass of the loop 1777-1834: a block is asked for its own maximum -/
noncomputable def maxBlock (ops : ObjOps ℂ O F Fl) (sub : SubMax O F Fl) (s : St ℂ O F Fl) (sol : SVec ℂ) (f : F) (fl : Fl)
    (best : Option (ℝ × Place)) (b : Blk O) : Except Err (Option (ℝ × Place)) :=
  match ops.ports b.obj, sub b.obj with
  | some ps, some mx => match mx f (blockE s.waves sol b.name ps) s.zbase fl with
    | .error e => .error e
    | .ok (t1, n1) => .ok (better best t1 (.inside b.name n1))
  | _, _ => .ok best

/-- a loop that carries a value and may raise -/
def foldE {α β : Type*} (g : β → α → Except Err β) : β → List α → Except Err β
  | b, [] => .ok b
  | b, x :: l => match g b x with
    | .error e => .error e
    | .ok b' => foldE g b' l

/-- `maxV(f, E, Zbase, flags=…)` (rfCircuit.py:1648-1838): maximum and place (`none` stands for `-inf, 'N/A'`). -/
noncomputable def maxV (ops : ObjOps ℂ O F Fl) (sub : SubMax O F Fl) (s : St ℂ O F Fl) (f : F) (E : List (Node × ℂ))
    (z : Option ℂ) (fl : Fl) : St ℂ O F Fl × Except Err (Option (ℝ × Place)) :=
  if s.xpos.length < s.ports.length then (s, .error .indexError) else                       -- 1687-1689
  match mapE (dictIndex E) s.ports with                                                     -- 1698-1704
  | .error _ => (s, .error .valueError)
  | .ok _ => match solve ops s f E z fl with                                                -- 1707-1727
    | (s, .error e) => (s, .error e)
    | (s, .ok sol) => match foldE (maxNode ops s sol) none s.waves.zipIdx with
      | .error e => (s, .error e)
      | .ok best => (s, foldE (maxBlock ops sub s sol f fl) best s.blocks)

/-! ## the property -/

theorem foldE_append {α β : Type*} {g : β → α → Except Err β} : ∀ {l l' : List α} {b c : β},
    foldE g b (l ++ l') = .ok c ↔ ∃ d, foldE g b l = .ok d ∧ foldE g d l' = .ok c
  | [], l', b, c => by simp [foldE]
  | x :: l, l', b, c => by
    simp only [List.cons_append, foldE]
    cases hx : g b x with
    | error e => simp
    | ok d => exact foldE_append

/-- an invariant of a loop -/
theorem foldE_inv {α β : Type*} {g : β → α → Except Err β} {P : List α → β → Prop} :
    ∀ {l pre : List α} {b c : β}, (∀ pre b x c, x ∈ l → P pre b → g b x = .ok c → P (pre ++ [x]) c) →
    P pre b → foldE g b l = .ok c → P (pre ++ l) c
  | [], pre, b, c, _, hb, h => by
    simp only [foldE, Except.ok.injEq] at h
    subst h; simpa using hb
  | x :: l, pre, b, c, hg, hb, h => by
    unfold foldE at h
    cases hx : g b x with
    | error e => rw [hx] at h; cases h
    | ok d =>
      rw [hx] at h
      simp only at h
      have h1 := hg pre b x d (by simp) hb hx
      have := foldE_inv (fun pre b y c hy => hg pre b y c (by simp [hy])) h1 h
      simpa using this

/-- if the loop succeeds, so does every pass, whatever the carried value did -/
theorem foldE_mem {α β : Type*} {g : β → α → Except Err β} : ∀ {l : List α} {b c : β} {x : α}, x ∈ l →
    foldE g b l = .ok c → ∃ d d', g d x = .ok d'
  | [], _, _, _, hx, _ => by simp at hx
  | y :: l, b, c, x, hx, h => by
    unfold foldE at h
    cases hy : g b y with
    | error e => rw [hy] at h; cases h
    | ok d =>
      rw [hy] at h
      simp only at h
      rw [List.mem_cons] at hx
      rcases hx with rfl | hx
      · exact ⟨b, d, hy⟩
      · exact foldE_mem hx h

variable {ops : ObjOps ℂ O F Fl} {beh : O → F → ℂ → Fl → Except Err (SMat ℂ)} {nan zb : ℂ} {names : List Node}
variable {net : Net ℂ} {bh : Behave ℂ F Fl} {s s' : St ℂ O F Fl} {ph : Phase}

/-- the running maximum -/
theorem better_spec (best : Option (ℝ × Place)) (V : ℝ) (pl : Place) :
    ∃ t p, better best V pl = some (t, p) ∧ V ≤ t ∧ (∀ t' p', best = some (t', p') → t' ≤ t) ∧
      (best = some (t, p) ∨ (t = V ∧ p = pl)) := by
  cases best with
  | none => exact ⟨V, _, rfl, le_refl _, by simp, Or.inr ⟨rfl, rfl⟩⟩
  | some tp =>
    obtain ⟨t0, p0⟩ := tp
    unfold better
    by_cases hlt : t0 < V
    · simp only
      rw [if_pos hlt]
      refine ⟨V, _, rfl, le_refl _, ?_, Or.inr ⟨rfl, rfl⟩⟩
      intro t' p' e
      simp only [Option.some.injEq, Prod.mk.injEq] at e
      rw [← e.1]; exact hlt.le
    · simp only
      rw [if_neg hlt]
      refine ⟨t0, p0, rfl, not_lt.1 hlt, ?_, Or.inl rfl⟩
      intro t' p' e
      simp only [Option.some.injEq, Prod.mk.injEq] at e
      rw [← e.1]

/-- **Specification**: the excitation of a block in the state `w`: its `k`-th port (own name `ps[k]`) receives the forward
wave, on the circuit's reference, of the circuit node of the block's `k`-th port. -/
noncomputable def incident (zb : ℂ) (w : Wave → ℂ) (b : Blk O) (ps : List String) : List (String × ℂ) :=
  ps.zip (b.ports.map fun p => (stateOf zb w).fwd zb (.blk b.name p))

/-- picking the waves into a block finds them in the order of its ports -/
theorem blockE_eq (h : Rep ops net s) (hbn : ∀ {b p}, Node.blk b p ∈ net.nodes → ∃ ps, (b, ps) ∈ net.blks ∧ p ∈ ps)
    {sol : SVec ℂ} (hn : sol.n = s.cols) {b : Blk O} (hb : b ∈ s.blocks) {ps : List String} :
    blockE s.waves sol b.name ps =
      ps.zip (b.ports.map fun p => wOf s (fun i => sol.v (Fin.cast hn.symm i)) (.inn, .blk b.name p)) := by
  unfold blockE
  congr 1
  have hwnd : s.waves.Nodup := h.rep.wnd
  have hlw : s.waves.length = s.cols := h.wlen
  have hbc : ∀ (k : ℕ) (hk : k < b.ports.length), s.waves[b.loc.2 + k]? = some (Dir.inn, Node.blk b.name b.ports[k]) :=
    fun k hk => (h.rep.bcol b hb k hk).1
  -- the values
  have hval : ∀ wk ∈ s.waves.zipIdx, sol.get wk.2 = .ok (wOf s (fun i => sol.v (Fin.cast hn.symm i)) wk.1) := by
    rintro ⟨v, k⟩ hk
    rw [List.mem_zipIdx_iff_getElem?] at hk
    have hkc : k < s.cols := by rw [← hlw]; exact (List.getElem?_eq_some_iff.1 hk).1
    rw [wOf_of_getElem hwnd hk hkc]
    unfold SVec.get
    rw [dif_pos (show k < sol.n by omega)]
    rfl
  let g : Wave → Option ℂ := fun v => match v with
    | (.inn, .blk b' p) => if b' = b.name then some (wOf s (fun i => sol.v (Fin.cast hn.symm i)) (.inn, .blk b' p)) else none
    | _ => none
  have e1 : s.waves.zipIdx.filterMap (fun wk => match wk with
      | ((.inn, .blk b' _), k) => if b' = b.name then (match sol.get k with | .ok v => some v | .error _ => none) else none
      | _ => none) = s.waves.filterMap g := by
    have : s.waves = s.waves.zipIdx.map Prod.fst := by simp
    conv_rhs => rw [this, List.filterMap_map]
    refine List.filterMap_congr fun wk hwk => ?_
    have hv := hval wk hwk
    obtain ⟨⟨d, n⟩, k⟩ := wk
    cases d with
    | out => rfl
    | inn =>
      cases n with
      | ext n => rfl
      | blk b' p =>
        simp only at hv
        simp only [Function.comp, g, hv]
  rw [e1]
  -- split the waves at the block
  have hsplit : s.waves = s.waves.take b.loc.2 ++ (b.ports.map fun p => (Dir.inn, Node.blk b.name p)) ++
      s.waves.drop (b.loc.2 + b.ports.length) := by
    have e2 : (s.waves.drop b.loc.2).take b.ports.length = b.ports.map fun p => (Dir.inn, Node.blk b.name p) := by
      refine List.ext_getElem? fun k => ?_
      rw [List.getElem?_take]
      by_cases hk : k < b.ports.length
      · rw [if_pos hk, List.getElem?_drop, hbc k hk, List.getElem?_map, List.getElem?_eq_getElem hk]
        rfl
      · rw [if_neg hk, List.getElem?_map, List.getElem?_eq_none (by omega)]
        rfl
    rw [← e2, List.append_assoc, ← List.drop_drop, List.take_append_drop, List.take_append_drop]
  have hno : ∀ v, v ∉ (b.ports.map fun p => (Dir.inn, Node.blk b.name p)) → v ∈ s.waves → g v = none := by
    rintro ⟨d, n⟩ hv hm
    cases d with
    | out => rfl
    | inn =>
      cases n with
      | ext n => rfl
      | blk b' p =>
        simp only [g]
        rw [if_neg]
        rintro rfl
        apply hv
        obtain ⟨ps', h1, h2⟩ := hbn ((h.rep.wmem .inn _).1 hm)
        have hbl : net.blks = s.blocks.map fun b => (b.name, b.ports) := h.rep.blks
        rw [hbl, List.mem_map] at h1
        obtain ⟨b2, hb2, e⟩ := h1
        injection e with e e'
        have : b2 = b := List.inj_on_of_nodup_map h.rep.bnd hb2 hb e
        subst this e'
        exact List.mem_map_of_mem h2
  have hsum : s.waves.filterMap g = (b.ports.map fun p => (Dir.inn, Node.blk b.name p)).filterMap g := by
    rw [hsplit, List.nodup_append, List.nodup_append] at hwnd
    obtain ⟨⟨-, -, d1⟩, -, d2⟩ := hwnd
    conv_lhs => rw [hsplit]
    rw [List.filterMap_append, List.filterMap_append]
    have z1 : (s.waves.take b.loc.2).filterMap g = [] := by
      rw [List.filterMap_eq_nil_iff]
      exact fun v hv => hno v (fun hc => d1 v hv v hc rfl) (List.mem_of_mem_take hv)
    have z2 : (s.waves.drop (b.loc.2 + b.ports.length)).filterMap g = [] := by
      rw [List.filterMap_eq_nil_iff]
      exact fun v hv => hno v (fun hc => d2 v (List.mem_append_right _ hc) v hv rfl) (List.mem_of_mem_drop hv)
    rw [z1, z2]
    simp
  rw [hsum, List.filterMap_map, ← List.filterMap_eq_map]
  refine List.filterMap_congr fun p hp => ?_
  simp [g]

/-- the voltages of the waves -/
theorem maxNode_ok (h : Rep ops net s) {sol : SVec ℂ} (hn : sol.n = s.cols) {best r : Option (ℝ × Place)} {n : Node} {k : ℕ}
    (hk : s.waves[k]? = some (.inn, n)) (hg : maxNode ops s sol best ((.inn, n), k) = .ok r) :
    (∃ x, getpos ops s n = .ok x) ∧
    r = better best ‖volt (wOf s fun i => sol.v (Fin.cast hn.symm i)) n‖ (.node n) := by
  have hlw : s.waves.length = s.cols := h.wlen
  have hwnd : s.waves.Nodup := h.rep.wnd
  have hm : (Dir.inn, n) ∈ s.waves := List.mem_of_getElem? hk
  have hm' : (Dir.out, n) ∈ s.waves := (h.rep.wmem .out n).2 ((h.rep.wmem .inn n).1 hm)
  have hkc : k < s.cols := by rw [← hlw]; exact (List.getElem?_eq_some_iff.1 hk).1
  have hkr : idx s.waves (.out, n) < s.cols := by rw [← hlw]; exact idx_lt hm'
  have g1 : sol.get k = .ok (wOf s (fun i => sol.v (Fin.cast hn.symm i)) (.inn, n)) := by
    rw [wOf_of_getElem hwnd hk hkc]
    unfold SVec.get
    rw [dif_pos (by omega)]
    rfl
  have g2 : sol.get (idx s.waves (.out, n)) = .ok (wOf s (fun i => sol.v (Fin.cast hn.symm i)) (.out, n)) := by
    rw [wOf_of_getElem hwnd (getElem?_idx hm') hkr]
    unfold SVec.get
    rw [dif_pos (by omega)]
    rfl
  unfold maxNode at hg
  simp only [pyIndex_of_mem hm', g1, g2] at hg
  cases hp : getpos ops s n with
  | error e => rw [hp] at hg; cases hg
  | ok x =>
    rw [hp] at hg
    simp only [Except.ok.injEq] at hg
    exact ⟨⟨x, rfl⟩, hg.symm⟩

/-- **C48 (rfCircuit.maxV).** What `maxV` returns is at least the voltage magnitude at every node of the network and at
least what every block reports for itself, and it is one of these: the voltages are those of a state `w` satisfying all
laws of the network, the wave entering the `k`-th external port being the one given for the port in `k`-th position before
the call (see `C30_solution_positions`). -/
theorem C48_circuit_maxV (hlaw : Lawful ops beh) (h : Built ops beh nan zb names net bh s ph)
    (hph : ph ≠ .reloaded) (hzb : zb ≠ 0) {sub : SubMax O F Fl} {f : F} {fl : Fl} {E : List (Node × ℂ)} {z : Option ℂ}
    {t : ℝ} {pl : Place} (hs : maxV ops sub s f E z fl = (s', .ok (some (t, pl)))) :
    ∃ Sof, Given net bh f zb fl Sof ∧ ∃ w, net.Laws zb Sof w ∧
      (∀ i (hi : i < s.ports.length) (hi' : i < s'.ports.length),
        dictGet s.ports[i] E = some ((stateOf zb w).fwd (z.getD zb) s'.ports[i])) ∧
      (∀ n ∈ net.nodes, ‖(stateOf zb w).V n‖ ≤ t) ∧
      (∀ n, pl = .node n → n ∈ net.nodes ∧ ‖(stateOf zb w).V n‖ = t) ∧
      (∀ b ∈ s'.blocks, ∀ ps mx, ops.ports b.obj = some ps → sub b.obj = some mx →
        ∃ t1 n1, mx f (incident zb w b ps) zb fl = .ok (t1, n1) ∧ t1 ≤ t) ∧
      (∀ bn wh, pl = .inside bn wh → ∃ b ∈ s'.blocks, b.name = bn ∧ ∃ ps mx, ops.ports b.obj = some ps ∧
        sub b.obj = some mx ∧ mx f (incident zb w b ps) zb fl = .ok (t, wh)) := by
  unfold maxV at hs
  split at hs
  · simp at hs
  cases hEa : mapE (dictIndex E) s.ports with
  | error e => rw [hEa] at hs; simp at hs
  | ok Ea =>
    rw [hEa] at hs
    simp only at hs
    cases hsol : solve ops s f E z fl with
    | mk s1 r1 =>
      rw [hsol] at hs
      cases r1 with
      | error e => simp at hs
      | ok sol =>
        simp only at hs
        obtain ⟨⟨S, hS⟩, hz, Sof, hSof, w, hw1, hw2, hn, hw3⟩ := solve_spec hlaw h hph hzb hsol
        have hi1 := (Built.eval h hS).inv hlaw
        cases hf1 : foldE (maxNode ops s1 sol) none s1.waves.zipIdx with
        | error e => rw [hf1] at hs; simp at hs
        | ok best =>
          rw [hf1] at hs
          simp only [Prod.mk.injEq] at hs
          obtain ⟨rfl, hf2⟩ := hs
          have hV : ∀ n ∈ net.nodes, volt (wOf s1 fun i => sol.v (Fin.cast hn.symm i)) n = volt w n := by
            intro n hnn
            simp only [volt, hw3 n hnn]
          -- the nodes
          have hnodes := foldE_inv (P := fun pre best =>
              (∀ x ∈ pre, x.1.1 = Dir.inn → ∃ t p, best = some (t, p) ∧ ‖volt w x.1.2‖ ≤ t) ∧
              ∀ t p, best = some (t, p) → ∃ n, p = .node n ∧ n ∈ net.nodes ∧ ‖volt w n‖ = t)
            (pre := []) (l := s1.waves.zipIdx) (b := none) (c := best) (g := maxNode ops s1 sol) (by
              rintro pre b ⟨⟨d, n⟩, k⟩ c hx ⟨p1, p2⟩ hg
              have hk := List.mem_zipIdx_iff_getElem?.1 hx
              simp only at hk
              cases d with
              | out =>
                simp only [maxNode, Except.ok.injEq] at hg
                subst hg
                refine ⟨fun x hx hd => ?_, p2⟩
                rw [List.mem_append, List.mem_singleton] at hx
                rcases hx with hx | rfl
                · exact p1 x hx hd
                · cases hd
              | inn =>
                have hnn : n ∈ net.nodes := (hi1.rep.rep.wmem .inn n).1 (List.mem_of_getElem? hk)
                obtain ⟨-, hr⟩ := maxNode_ok hi1.rep hn hk hg
                simp only [hV n hnn] at hr
                obtain ⟨tn, pn, e0, h1, h2, h3⟩ := better_spec b ‖volt w n‖ (.node n)
                rw [e0] at hr
                subst hr
                refine ⟨fun x hx hd => ?_, ?_⟩
                · rw [List.mem_append, List.mem_singleton] at hx
                  rcases hx with hx | rfl
                  · obtain ⟨t, p, e, hle⟩ := p1 x hx hd
                    exact ⟨_, _, rfl, hle.trans (h2 t p e)⟩
                  · exact ⟨_, _, rfl, h1⟩
                · intro t p e
                  simp only [Option.some.injEq, Prod.mk.injEq] at e
                  obtain ⟨rfl, rfl⟩ := e
                  rcases h3 with h3 | ⟨h3, h4⟩
                  · exact p2 _ _ h3
                  · exact ⟨n, h4, hnn, h3.symm⟩)
            ⟨by simp, by simp⟩ hf1
          rw [List.nil_append] at hnodes
          obtain ⟨m1, m2⟩ := hnodes
          -- the blocks
          have hblocks := foldE_inv (P := fun pre (b : Option (ℝ × Place)) =>
              (∀ t0 p0, best = some (t0, p0) → ∃ t p, b = some (t, p) ∧ t0 ≤ t) ∧
              (∀ t p, b = some (t, p) → b = best ∨ ∃ bl ∈ pre, ∃ ps mx wh, ops.ports bl.obj = some ps ∧
                sub bl.obj = some mx ∧ mx f (blockE s1.waves sol bl.name ps) s1.zbase fl = .ok (t, wh) ∧ p = .inside bl.name wh) ∧
              (∀ bl ∈ pre, ∀ ps mx, ops.ports bl.obj = some ps → sub bl.obj = some mx →
                ∃ t1 n1 t p, mx f (blockE s1.waves sol bl.name ps) s1.zbase fl = .ok (t1, n1) ∧ b = some (t, p) ∧ t1 ≤ t))
            (pre := []) (l := s1.blocks) (b := best) (c := some (t, pl)) (g := maxBlock ops sub s1 sol f fl) (by
              rintro pre b bl c hx ⟨p1, p2, p3⟩ hg
              unfold maxBlock at hg
              cases hps : ops.ports bl.obj with
              | none =>
                simp only [hps, Except.ok.injEq] at hg
                subst hg
                refine ⟨p1, ?_, ?_⟩
                · intro t p e
                  rcases p2 t p e with h | ⟨bl', h1, h2⟩
                  · exact Or.inl h
                  · exact Or.inr ⟨bl', by simp [h1], h2⟩
                · intro bl' hb' ps mx e1 e2
                  rw [List.mem_append, List.mem_singleton] at hb'
                  rcases hb' with hb' | rfl
                  · exact p3 bl' hb' ps mx e1 e2
                  · rw [hps] at e1; cases e1
              | some ps0 =>
                cases hmx : sub bl.obj with
                | none =>
                  simp only [hps, hmx, Except.ok.injEq] at hg
                  subst hg
                  refine ⟨p1, ?_, ?_⟩
                  · intro t p e
                    rcases p2 t p e with h | ⟨bl', h1, h2⟩
                    · exact Or.inl h
                    · exact Or.inr ⟨bl', by simp [h1], h2⟩
                  · intro bl' hb' ps mx e1 e2
                    rw [List.mem_append, List.mem_singleton] at hb'
                    rcases hb' with hb' | rfl
                    · exact p3 bl' hb' ps mx e1 e2
                    · rw [hmx] at e2; cases e2
                | some mx0 =>
                  simp only [hps, hmx] at hg
                  cases hans : mx0 f (blockE s1.waves sol bl.name ps0) s1.zbase fl with
                  | error e => rw [hans] at hg; simp at hg
                  | ok tn =>
                    obtain ⟨t1, n1⟩ := tn
                    rw [hans] at hg
                    simp only [Except.ok.injEq] at hg
                    subst hg
                    obtain ⟨tn, pn, e0, h1, h2, h3⟩ := better_spec b t1 (.inside bl.name n1)
                    rw [e0]
                    refine ⟨?_, ?_, ?_⟩
                    · intro t0 p0 e
                      obtain ⟨t', p', e', hle⟩ := p1 t0 p0 e
                      exact ⟨tn, pn, rfl, hle.trans (h2 t' p' e')⟩
                    · intro t p e
                      simp only [Option.some.injEq, Prod.mk.injEq] at e
                      obtain ⟨rfl, rfl⟩ := e
                      rcases h3 with h3 | ⟨h3, h4⟩
                      · rcases p2 tn pn h3 with h | ⟨bl', h1, h2⟩
                        · left; rw [← h3]; exact h
                        · exact Or.inr ⟨bl', by simp [h1], h2⟩
                      · right
                        exact ⟨bl, by simp, ps0, mx0, n1, hps, hmx, by rw [hans, h3], h4⟩
                    · intro bl' hb' ps mx e1 e2
                      rw [List.mem_append, List.mem_singleton] at hb'
                      rcases hb' with hb' | rfl
                      · obtain ⟨t1', n1', t', p', k1, k2, k3⟩ := p3 bl' hb' ps mx e1 e2
                        exact ⟨t1', n1', tn, pn, k1, rfl, k3.trans (h2 t' p' k2)⟩
                      · rw [hmx] at e2
                        injection e2 with e2
                        rw [hps] at e1
                        injection e1 with e1
                        subst e1 e2
                        exact ⟨t1, n1, tn, pn, hans, rfl, h1⟩)
            ⟨fun t0 p0 e => ⟨t0, p0, e, le_refl _⟩, fun _ _ _ => Or.inl rfl, by simp⟩ hf2
          rw [List.nil_append] at hblocks
          obtain ⟨b1, b2, b3⟩ := hblocks
          have hz1 : s1.zbase = zb := hi1.zb
          rw [hz1] at b2 b3
          have hinc : ∀ bl ∈ s1.blocks, ∀ ps, blockE s1.waves sol bl.name ps = incident zb w bl ps := by
            intro bl hbl ps
            rw [blockE_eq hi1.rep ((Built.eval h hS).blk_node hlaw) hn hbl]
            unfold incident
            congr 1
            refine List.map_congr_left fun p hp => ?_
            have hnn : Node.blk bl.name p ∈ net.nodes := by
              obtain ⟨k, hk, rfl⟩ := List.getElem_of_mem hp
              exact (hi1.rep.rep.wmem .inn _).1 (List.mem_of_getElem? (hi1.rep.rep.bcol bl hbl k hk).1)
            rw [hw3 _ hnn]
            simp only [Field.State.fwd, stateOf, volt, curr]
            field_simp
            ring
          refine ⟨Sof, hSof, w, hw1, hw2, ?_, ?_, ?_, ?_⟩
          · intro n hnn
            have hm : (Dir.inn, n) ∈ s1.waves := (hi1.rep.rep.wmem .inn n).2 hnn
            obtain ⟨k, hk, e⟩ := List.getElem_of_mem hm
            have hx : ((Dir.inn, n), k) ∈ s1.waves.zipIdx := by
              rw [List.mem_zipIdx_iff_getElem?]
              simp only
              rw [List.getElem?_eq_getElem hk, e]
            obtain ⟨t0, p0, e0, hle⟩ := m1 _ hx rfl
            obtain ⟨t', p', e', hle'⟩ := b1 t0 p0 e0
            simp only [Option.some.injEq, Prod.mk.injEq] at e'
            show ‖volt w n‖ ≤ t
            rw [e'.1]; exact hle.trans hle'
          · rintro n rfl
            rcases b2 t _ rfl with h | ⟨bl, _, _, _, _, _, _, _, e⟩
            · obtain ⟨m, e, hm1, hm2⟩ := m2 t _ h.symm
              injection e with e
              subst e
              exact ⟨hm1, hm2⟩
            · cases e
          · intro bl hbl ps mx e1 e2
            obtain ⟨t1, n1, t', p', k1, k2, k3⟩ := b3 bl hbl ps mx e1 e2
            simp only [Option.some.injEq, Prod.mk.injEq] at k2
            rw [hinc bl hbl] at k1
            exact ⟨t1, n1, k1, by rw [k2.1]; exact k3⟩
          · rintro bn wh rfl
            rcases b2 t _ rfl with h | ⟨bl, hbl, ps, mx, wh', e1, e2, e3, e⟩
            · obtain ⟨m, e, _⟩ := m2 t _ h.symm
              cases e
            · injection e with e e'
              subst e e'
              rw [hinc bl hbl] at e3
              exact ⟨bl, hbl, rfl, ps, mx, e1, e2, e3⟩

/-- **C48 (rfCircuit.maxV), missing port.** An external port that is not mentioned in the excitation is refused (it does
not get zero excitation), and nothing changes. -/
theorem C48_circuit_missing_port (hlaw : Lawful ops beh) (h : Built ops beh nan zb names net bh s ph) {sub : SubMax O F Fl}
    (hx : s.ports.length ≤ s.xpos.length)
    {f : F} {fl : Fl} {E : List (Node × ℂ)} {z : Option ℂ} {p : Node} (hp : p ∈ net.free) (hE : dictGet p E = none) :
    maxV ops sub s f E z fl = (s, .error .valueError) := by
  have hk := C30_missing_port (f := f) (fl := fl) (z := z) hlaw h hp hE
  unfold maxV
  rw [if_neg (by omega)]
  cases hEa : mapE (dictIndex E) s.ports with
  | error e => rfl
  | ok Ea =>
    exfalso
    have hps : p ∈ s.ports := (h.inv hlaw).rep.ports_perm.mem_iff.2 hp
    rw [mapE_eq_ok] at hEa
    obtain ⟨v, _, hv⟩ := forall₂_mem_left hEa hps
    rw [dictIndex_eq_ok, hE] at hv
    cases hv

/-- **C48 is violated for circuits with named inner nodes.** Once a node created by `connect` under a name of its own
(without a dot) has been connected further or terminated, `maxV` never returns a maximum: it raises. -/
theorem C48_circuit_inner_node (hlaw : Lawful ops beh) (h : Built ops beh nan zb names net bh s ph)
    (hph : ph ≠ .reloaded) (hzb : zb ≠ 0) {sub : SubMax O F Fl} {f : F} {fl : Fl} {E : List (Node × ℂ)} {z : Option ℂ}
    {n : String} (hn : Node.ext n ∈ net.nodes) (hf : Node.ext n ∉ net.free) :
    ∃ s' e, maxV ops sub s f E z fl = (s', .error e) := by
  unfold maxV
  split
  · exact ⟨_, _, rfl⟩
  cases hEa : mapE (dictIndex E) s.ports with
  | error e => exact ⟨_, _, rfl⟩
  | ok Ea =>
    simp only
    cases hsol : solve ops s f E z fl with
    | mk s1 r1 =>
      cases r1 with
      | error e => exact ⟨_, _, rfl⟩
      | ok sol =>
        simp only
        cases hf1 : foldE (maxNode ops s1 sol) none s1.waves.zipIdx with
        | error e => exact ⟨_, _, rfl⟩
        | ok best =>
          exfalso
          obtain ⟨⟨S, hS⟩, hz, Sof, hSof, w, hw1, hw2, hnn, hw3⟩ := solve_spec hlaw h hph hzb hsol
          have hi1 := (Built.eval h hS).inv hlaw
          have hm : (Dir.inn, Node.ext n) ∈ s1.waves := (hi1.rep.rep.wmem .inn _).2 hn
          obtain ⟨k, hk, e⟩ := List.getElem_of_mem hm
          have hk' : s1.waves[k]? = some (.inn, .ext n) := by rw [List.getElem?_eq_getElem hk, e]
          have hx : ((Dir.inn, Node.ext n), k) ∈ s1.waves.zipIdx := by
            rw [List.mem_zipIdx_iff_getElem?]; exact hk'
          obtain ⟨d, d', hg⟩ := foldE_mem hx hf1
          obtain ⟨⟨x, hx⟩, -⟩ := maxNode_ok hi1.rep hnn hk' hg
          have hnp : Node.ext n ∉ s1.ports := fun hc => hf (hi1.rep.ports_perm.mem_iff.1 hc)
          have : pyIndex s1.ports (Node.ext n) = .error .valueError := by unfold pyIndex; rw [if_neg hnp]
          unfold getpos at hx
          simp only [this] at hx
          cases hx

theorem foldE_ok {α β : Type*} {g : β → α → Except Err β} : ∀ {l : List α}, (∀ b, ∀ x ∈ l, ∃ c, g b x = .ok c) →
    ∀ b, ∃ c, foldE g b l = .ok c
  | [], _, b => ⟨b, rfl⟩
  | x :: l, h, b => by
    obtain ⟨c, hc⟩ := h b x (by simp)
    unfold foldE
    rw [hc]
    exact foldE_ok (fun b y hy => h b y (by simp [hy])) c

/-- **C48 (rfCircuit.maxV), answers.** If the objects of all blocks have positions and answer `maxV`, no named node has been
used up inside, every external port is given a wave and `getS` answers on the reference asked for, then `maxV` returns a
maximum. -/
theorem C48_circuit_maxV_answers (hlaw : Lawful ops beh) (hpos : Positioned ops) (h : Built ops beh nan zb names net bh s ph)
    (hph : ph ≠ .reloaded) (hzb : zb ≠ 0) {sub : SubMax O F Fl} {f : F} {fl : Fl} {E : List (Node × ℂ)} {z : Option ℂ}
    (hz : z.getD zb ≠ 0) (hn : net.nodes ≠ []) (hext : ∀ n, Node.ext n ∈ net.nodes → Node.ext n ∈ net.free)
    (hE : ∀ p ∈ net.free, dictGet p E ≠ none)
    (hsub : ∀ b ∈ s'.blocks, ∀ ps mx, ops.ports b.obj = some ps → sub b.obj = some mx → ∀ vs : List ℂ, vs.length = b.ports.length →
      ∃ r, mx f (ps.zip vs) zb fl = .ok r)
    {S : SMat ℂ} (hS : getS ops s f (some (z.getD zb)) fl = (s', .ok S))
    (hxs : ∀ b ∈ s'.blocks, ∃ xs, ops.xpos b.obj = some xs) :
    ∃ t pl, maxV ops sub s f E z fl = (s', .ok (some (t, pl))) := by
  obtain ⟨t, ht⟩ := C30_solution_answers hlaw h hph hzb hz hE hS
  have hsol : ∃ sol, solve ops s f E z fl = (s', .ok sol) := by
    unfold solution at ht
    cases hs : solve ops s f E z fl with
    | mk s1 r1 =>
      rw [hs] at ht
      cases r1 with
      | error e => simp at ht
      | ok sol =>
        simp only at ht
        cases hm : mapE (nodeQuad s1 (z.getD s.zbase) sol) s1.waves.zipIdx with
        | error e => rw [hm] at ht; simp at ht
        | ok l => rw [hm] at ht; simp only [Prod.mk.injEq] at ht; exact ⟨sol, by rw [ht.1]⟩
  obtain ⟨sol, hsol⟩ := hsol
  obtain ⟨-, -, Sof, -, w, hw1, -, hnn, hw3⟩ := solve_spec hlaw h hph hzb hsol
  have hb1 := Built.eval h hS
  have hi1 := hb1.inv hlaw
  have hlp := hb1.positions hlaw hpos
  have hlw : s'.waves.length = s'.cols := hi1.rep.wlen
  have hEa : ∃ Ea, mapE (dictIndex E) s.ports = .ok Ea := by
    unfold solve at hsol
    cases hm : mapE (dictIndex E) s.ports with
    | error e => simp [hm] at hsol
    | ok Ea => exact ⟨Ea, rfl⟩
  obtain ⟨Ea, hEa⟩ := hEa
  -- positions
  have hgp : ∀ n ∈ net.nodes, ∃ x, getpos ops s' n = .ok x := by
    intro n hnm
    cases n with
    | ext n =>
      have hp : Node.ext n ∈ s'.ports := hi1.rep.ports_perm.mem_iff.2 (hext n hnm)
      have hl : idx s'.ports (.ext n) < s'.xpos.length := lt_of_lt_of_le (idx_lt hp) hlp
      unfold getpos
      simp only [pyIndex_of_mem hp, List.getElem?_eq_getElem hl]
      exact ⟨_, rfl⟩
    | blk b p =>
      obtain ⟨ps, h1, h2⟩ := hb1.blk_node hlaw hnm
      have hbl : net.blks = s'.blocks.map fun b => (b.name, b.ports) := hi1.rep.rep.blks
      rw [hbl, List.mem_map] at h1
      obtain ⟨b1, hb1m, e⟩ := h1
      simp only [Prod.mk.injEq] at e
      unfold getpos
      cases hf : s'.blocks.find? (fun x => x.name = b) with
      | none =>
        rw [List.find?_eq_none] at hf
        exact absurd e.1 (by simpa using hf b1 hb1m)
      | some b2 =>
        have e2 : b2.name = b := by simpa using List.find?_some hf
        have : b2 = b1 := List.inj_on_of_nodup_map hi1.rep.rep.bnd (List.mem_of_find?_eq_some hf) hb1m (by rw [e2, e.1])
        subst this
        obtain ⟨xs, hxs'⟩ := hxs b2 hb1m
        have hp : p ∈ b2.ports := by rw [e.2]; exact h2
        have hl : idx b2.ports p < xs.length :=
          lt_of_lt_of_le (idx_lt hp) (by rw [hi1.rep.rep.blen b2 hb1m]; exact hpos _ _ hxs')
        refine ⟨b2.relpos + xs[idx b2.ports p], ?_⟩
        simp only [hf, pyIndex_of_mem hp, hxs', List.getElem?_eq_getElem hl]
  have hnode : ∀ best, ∀ wk ∈ s'.waves.zipIdx, ∃ c, maxNode ops s' sol best wk = .ok c := by
    rintro best ⟨⟨d, n⟩, k⟩ hk
    rw [List.mem_zipIdx_iff_getElem?] at hk
    simp only at hk
    have hnm : n ∈ net.nodes := (hi1.rep.rep.wmem d n).1 (List.mem_of_getElem? hk)
    have hkc : k < s'.cols := by rw [← hlw]; exact (List.getElem?_eq_some_iff.1 hk).1
    cases d with
    | out => exact ⟨best, rfl⟩
    | inn =>
      have hm' : (Dir.out, n) ∈ s'.waves := (hi1.rep.rep.wmem .out n).2 hnm
      have hkr : idx s'.waves (.out, n) < s'.cols := by rw [← hlw]; exact idx_lt hm'
      obtain ⟨x, hx⟩ := hgp n hnm
      unfold maxNode
      simp only [pyIndex_of_mem hm', SVec.get, hx]
      rw [dif_pos (show k < sol.n by omega), dif_pos (show idx s'.waves (Dir.out, n) < sol.n by omega)]
      exact ⟨_, rfl⟩
  have hblock : ∀ best, ∀ b ∈ s'.blocks, ∃ c, maxBlock ops sub s' sol f fl best b = .ok c := by
    intro best b hb
    unfold maxBlock
    cases hp : ops.ports b.obj with
    | none => exact ⟨best, rfl⟩
    | some ps =>
      cases hm : sub b.obj with
      | none => exact ⟨best, rfl⟩
      | some mx =>
        have he := blockE_eq hi1.rep (hb1.blk_node hlaw) hnn hb (ps := ps)
        obtain ⟨⟨t1, n1⟩, hr⟩ := hsub b hb _ _ hp hm (b.ports.map fun p => wOf s' (fun i => sol.v (Fin.cast hnn.symm i)) (.inn, .blk b.name p)) (by simp)
        rw [← he] at hr
        simp only [hi1.zb, hr]
        exact ⟨_, rfl⟩
  obtain ⟨best, hbest⟩ := foldE_ok hnode none
  obtain ⟨res, hres⟩ := foldE_ok hblock best
  have hmax : maxV ops sub s f E z fl = (s', .ok res) := by
    unfold maxV
    rw [if_neg (by have := h.positions hlaw hpos; omega), hEa]
    simp only [hsol, hbest, hres]
  cases res with
  | some tp => exact ⟨tp.1, tp.2, hmax⟩
  | none =>
    exfalso
    -- the running maximum is never lost
    have keep : ∀ (l : List (Wave × ℕ)) (b c : Option (ℝ × Place)), foldE (maxNode ops s' sol) b l = .ok c →
        (b ≠ none ∨ ∃ wk ∈ l, wk.1.1 = Dir.inn) → c ≠ none := by
      intro l
      induction l with
      | nil =>
        intro b c hc hb
        simp only [foldE, Except.ok.injEq] at hc
        subst hc
        simpa using hb
      | cons wk l ih =>
        intro b c hc hb
        unfold foldE at hc
        cases hg : maxNode ops s' sol b wk with
        | error e => rw [hg] at hc; cases hc
        | ok d =>
          rw [hg] at hc
          refine ih d c hc ?_
          obtain ⟨⟨dd, n⟩, k⟩ := wk
          cases dd with
          | out =>
            simp only [maxNode, Except.ok.injEq] at hg
            subst hg
            rcases hb with hb | ⟨x, hx, hd⟩
            · exact Or.inl hb
            · rw [List.mem_cons] at hx
              rcases hx with rfl | hx
              · cases hd
              · exact Or.inr ⟨x, hx, hd⟩
          | inn =>
            left
            unfold maxNode at hg
            simp only at hg
            repeat' split at hg
            all_goals first
              | (cases hg; done)
              | skip
            simp only [Except.ok.injEq] at hg
            rw [← hg]
            obtain ⟨t, p, e, _⟩ := better_spec b _ (Place.node n)
            rw [e]; simp
    have keep2 : ∀ (l : List (Blk O)) (b c : Option (ℝ × Place)), foldE (maxBlock ops sub s' sol f fl) b l = .ok c →
        b ≠ none → c ≠ none := by
      intro l
      induction l with
      | nil =>
        intro b c hc hb
        simp only [foldE, Except.ok.injEq] at hc
        subst hc
        exact hb
      | cons bl l ih =>
        intro b c hc hb
        unfold foldE at hc
        cases hg : maxBlock ops sub s' sol f fl b bl with
        | error e => rw [hg] at hc; cases hc
        | ok d =>
          rw [hg] at hc
          refine ih d c hc ?_
          unfold maxBlock at hg
          repeat' split at hg
          · cases hg
          · simp only [Except.ok.injEq] at hg
            rw [← hg]
            obtain ⟨t, p, e, _⟩ := better_spec b _ _
            rw [e]; simp
          · simp only [Except.ok.injEq] at hg
            rw [← hg]; exact hb
    refine keep2 _ _ _ hres (keep _ _ _ hbest (Or.inr ?_)) rfl
    obtain ⟨n, hnm⟩ := List.exists_mem_of_ne_nil _ hn
    have hm : (Dir.inn, n) ∈ s'.waves := (hi1.rep.rep.wmem .inn n).2 hnm
    obtain ⟨k, hk, e⟩ := List.getElem_of_mem hm
    exact ⟨((Dir.inn, n), k), by rw [List.mem_zipIdx_iff_getElem?]; simp only; rw [List.getElem?_eq_getElem hk, e], rfl⟩

theorem extS_blocks {r : Except Err (SMat ℂ)} (h : extS s = (s', r)) : s'.blocks = s.blocks := by
  unfold extS at h
  cases h1 : squareUp s with
  | mk s1 r1 =>
    have hE : ∀ {a b : St ℂ O F Fl} {p : Node} {r : Except Err Unit}, addE a p = (b, r) → b.blocks = a.blocks := by
      intro a b p r h
      unfold addE at h
      repeat' split at h
      all_goals (simp only [Prod.mk.injEq] at h; rw [← h.1])
    have hI : ∀ (l : List Node) (a b : St ℂ O F Fl) (r : Except Err Unit), iter addE a l = (b, r) → b.blocks = a.blocks := by
      intro l
      induction l with
      | nil => intro a b r h; simp only [iter, Prod.mk.injEq] at h; rw [h.1]
      | cons p l ih =>
        intro a b r h
        unfold iter at h
        cases h2 : addE a p with
        | mk a1 r1 =>
          rw [h2] at h
          cases r1 with
          | error e => simp only [Prod.mk.injEq] at h; rw [← h.1]; exact hE h2
          | ok u => exact (ih _ _ _ h).trans (hE h2)
    have e1 : s1.blocks = s.blocks := by
      unfold squareUp at h1
      split at h1
      · simp only [Prod.mk.injEq] at h1; rw [← h1.1]
      · simp only at h1
        split at h1
        · split at h1
          · simp only [Prod.mk.injEq] at h1; rw [← h1.1]
          · split at h1
            · simp only [Prod.mk.injEq] at h1; rw [← h1.1]
            · have := hI _ _ _ _ h1; exact this
        · have := hI _ _ _ _ h1; exact this
    rw [h1] at h
    cases r1 with
    | error e => simp only [Prod.mk.injEq] at h; rw [← h.1, e1]
    | ok u =>
      simp only at h
      unfold solveE at h
      repeat' split at h
      · simp only [Prod.mk.injEq] at h; rw [← h.1]; exact e1
      · simp only [Prod.mk.injEq] at h; rw [← h.1]; exact e1
      · simp only [Prod.mk.injEq] at h; rw [← h.1]; exact e1
      · unfold solveWith at h
        split at h
        · simp only [Prod.mk.injEq] at h; rw [← h.1]; exact e1
        · split at h
          · simp only [Prod.mk.injEq] at h; rw [← h.1]; exact e1
          · simp only at h
            repeat' split at h
            all_goals (simp only [Prod.mk.injEq] at h; rw [← h.1]; exact e1)

/-- asking for the circuit's own reference -/
theorem getS_own {f : F} {fl : Fl} {S : SMat ℂ} {z : ℂ} (hs : getS ops s f none fl = (s', .ok S)) (hz : s'.zbase = z) :
    getS ops s f (some z) fl = (s', .ok S) := by
  unfold getS at hs ⊢
  cases hg : get1S ops s f fl with
  | mk s1 r1 =>
    rw [hg] at hs
    cases r1 with
    | error e => simp at hs
    | ok M =>
      simp only [Prod.mk.injEq, Except.ok.injEq] at hs
      obtain ⟨rfl, rfl⟩ := hs
      simp only
      rw [if_neg (fun hc => hc.2 hz.symm)]

/-- objects that an evaluation does not change stay in place -/
theorem getS_blocks (hk : ∀ o f z fl, (ops.getS o f z fl).1 = o) {f : F} {z : Option ℂ} {fl : Fl}
    {r : Except Err (SMat ℂ)} (hs : getS ops s f z fl = (s', r)) : s'.blocks = s.blocks := by
  have hfill : ∀ (bs : List (Blk O)) (rows : List (ℕ → ℂ)) zb, (fillBlocks ops f zb fl bs rows).1 = bs := by
    intro bs
    induction bs with
    | nil => intro rows zb; rfl
    | cons b bs ih =>
      intro rows zb
      have hko := hk b.obj f zb fl
      unfold fillBlocks
      cases hg : ops.getS b.obj f zb fl with
      | mk o r =>
        rw [hg] at hko
        simp only at hko
        subst hko
        cases r with
        | error e => rfl
        | ok S =>
          simp only
          cases hset : setBlock rows b.loc b.ports.length S with
          | error e => rfl
          | ok rows' => simp only [ih]
  have hre : (recompute ops s f fl).1.blocks = s.blocks := by
    unfold recompute
    simp only
    cases h1 : (fillBlocks ops f s.zbase fl s.blocks s.rows).2.2 with
    | error e => exact hfill _ _ _
    | ok u =>
      simp only
      cases h2 : extS { s with blocks := (fillBlocks ops f s.zbase fl s.blocks s.rows).1, rows := (fillBlocks ops f s.zbase fl s.blocks s.rows).2.1 } with
      | mk s2 r2 =>
        have hb := extS_blocks h2
        cases r2 with
        | error e => simp only [hb]; exact hfill _ _ _
        | ok M => simp only [hb]; exact hfill _ _ _
  rw [← getS_state hs]
  unfold get1S
  cases s.S with
  | none => exact hre
  | some M => simp only; split; · rfl
              exact hre

end

namespace Ex

/-- C48_circuit_maxV and C48_circuit_maxV_answers apply: the loaded through line of `CircuitPower.lean`, whose object
reports 7 V inside -/
theorem C48_circuit_maxV_witness : ∃ s' t pl,
    maxV oc (fun _ => some fun _ _ _ _ => .ok (7, "middle")) c2 () [(.blk "A" "1", 1)] none () = (s', .ok (some (t, pl))) ∧
    7 ≤ t := by
  obtain ⟨s', S, hs⟩ := getS_c2
  replace hs := getS_own hs ((Built.eval builtc hs).inv (imm_lawful _ _ _)).zb
  have hb : s'.blocks = c2.blocks := getS_blocks (fun _ _ _ _ => rfl) hs
  obtain ⟨t, pl, h⟩ := C48_circuit_maxV_answers (sub := fun _ => some fun _ _ _ _ => .ok (7, "middle")) (imm_lawful ℂ Unit Unit)
    (imm_positioned _ _ _) builtc (by decide) (by norm_num) (E := [(.blk "A" "1", 1)]) (z := none) (by norm_num) (by simp [netc])
    (by intro n hn; simp [netc] at hn)
    (by intro p hp; have hf : netc.free = [.blk "A" "1"] := rfl
        rw [hf, List.mem_singleton] at hp; subst hp; simp [dictGet])
    (by intro b _ ps mx _ h2 vs _; injection h2 with h2; subst h2; exact ⟨_, rfl⟩) hs
    (by rw [hb]; intro b hbm
        have e : c2.blocks = [⟨"A", ["1", "2"], (0, 0), thru, 0⟩] := rfl
        rw [e, List.mem_singleton] at hbm; subst hbm; exact ⟨_, rfl⟩)
  refine ⟨s', t, pl, h, ?_⟩
  obtain ⟨Sof, -, w, -, -, -, -, h1, -⟩ := C48_circuit_maxV (imm_lawful ℂ Unit Unit) builtc (by decide) (by norm_num) h
  have e : (⟨"A", ["1", "2"], (0, 0), thru, 0⟩ : Blk (Imm ℂ Unit Unit)) ∈ s'.blocks := by
    rw [hb]
    have e : c2.blocks = [⟨"A", ["1", "2"], (0, 0), thru, 0⟩] := rfl
    rw [e]; simp
  obtain ⟨t1, n1, h2, h3⟩ := h1 _ e ["1", "2"] _ rfl rfl
  injection h2 with h2
  injection h2 with h2 _
  rw [h2]; exact h3

end Ex
end PyRFtk.Circuit
