import Verif.CircuitRep

/-!
# The building operations preserve the representation invariant
-/

set_option linter.unusedSectionVars false

namespace PyRFtk.Circuit

section
variable {K O F Fl : Type*} [Field K] [DecidableEq F] [DecidableEq Fl]
variable {ops : ObjOps K O F Fl} {net : Net K} {c : Core K O} {k : ℕ}

/-- The invariant of a circuit state. -/
structure Rep (ops : ObjOps K O F Fl) (net : Net K) (s : St K O F Fl) : Prop where
  rep : RepD ops net s.core 0
  wlen : s.waves.length = s.cols
  bnode : ∀ b p, Node.blk b p ∈ net.nodes → b ∈ s.blocks.map Blk.name

theorem rep_init (zb : K) (names : List Node) : Rep ops Net.empty (St.init zb names : St K O F Fl) := by
  refine ⟨?_, rfl, by simp [Net.empty]⟩
  constructor <;> simp [St.core, St.init, Net.empty, Net.used, CoreHold, Net.CoreLaws]

theorem RepD.addBlk (h : RepD ops net c k) (hE : c.E = []) (b : Blk O) (R : List (ℕ → K)) (k' : ℕ)
    (hname : b.name ∉ c.blocks.map Blk.name) (hlen : b.ports.length = ops.len b.obj) (hloc : b.loc.1 = c.rows.length)
    (hR : R.length = b.ports.length)
    (hcol : ∀ (k : ℕ) (_ : k < b.ports.length),
      c.waves[b.loc.2 + k]? = some (.inn, .blk b.name b.ports[k]) ∧
      c.waves[b.loc.2 + b.ports.length + k]? = some (.out, .blk b.name b.ports[k]))
    (hrow : ∀ (k : ℕ) r, R[k]? = some r → ∀ j, ¬ (b.loc.2 ≤ j ∧ j < b.loc.2 + b.ports.length) →
      r j = if j = b.loc.2 + b.ports.length + k then -1 else 0)
    (hcnt : k' + b.ports.length = k) :
    RepD ops { net with blks := net.blks ++ [(b.name, b.ports)] }
      { c with rows := c.rows ++ R, eqns := c.eqns ++ b.ports.map (fun p => .S (.blk b.name p)),
               blocks := c.blocks ++ [b] } k' := by
  have hel := h.elen
  have ecase : ∀ {i : ℕ} {e : Eqn}, (c.eqns ++ b.ports.map (fun p => Eqn.S (.blk b.name p)))[i]? = some e →
      (∀ n, e ≠ .S n) → c.eqns[i]? = some e := by
    intro i e hi hne
    rcases getElem?_append_cases hi with h1 | ⟨_, h1⟩
    · exact h1
    · have := List.mem_of_getElem? h1
      simp only [List.mem_map] at this
      obtain ⟨p, _, rfl⟩ := this
      exact absurd rfl (hne _)
  refine { h with blks := ?_, bnd := ?_, blen := ?_, bcol := ?_, brow := ?_, elen := ?_, eS := ?_, eS' := ?_, tT := ?_,
                  tT' := ?_, eE := ?_, eE' := ?_, core := ?_, count := ?_ }
  · simp [h.blks]
  · simp only [List.map_append, List.map_cons, List.map_nil]
    refine List.Nodup.append h.bnd (by simp) ?_
    intro x h1 h2
    simp only [List.mem_singleton] at h2
    subst h2; exact hname h1
  · intro x hx
    simp only [List.mem_append, List.mem_singleton] at hx
    rcases hx with hx | rfl
    · exact h.blen x hx
    · exact hlen
  · intro x hx k hk
    simp only [List.mem_append, List.mem_singleton] at hx
    rcases hx with hx | rfl
    · exact h.bcol x hx k hk
    · exact hcol k hk
  · intro x hx k hk
    simp only [List.mem_append, List.mem_singleton] at hx
    rcases hx with hx | rfl
    · obtain ⟨r, h1, h2⟩ := h.brow x hx k hk
      exact ⟨r, getElem?_append_some h1, h2⟩
    · have hk' : k < R.length := by omega
      refine ⟨R[k], ?_, fun j _ hn => hrow k _ (by simp [hk']) j hn⟩
      show (c.rows ++ R)[x.loc.1 + k]? = _
      rw [hloc, List.getElem?_append_right (by omega)]; simp [hk']
  · simp [hel, hR]
  · intro x hx k hk
    simp only [List.mem_append, List.mem_singleton] at hx
    rcases hx with hx | rfl
    · exact getElem?_append_some (h.eS x hx k hk)
    · show (c.eqns ++ _)[x.loc.1 + k]? = _
      rw [hloc, List.getElem?_append_right (by omega), hel]; simp [hk]
  · intro i n hi
    rcases getElem?_append_cases hi with h1 | ⟨h0, h1⟩
    · obtain ⟨x, hx, k, hk, hi⟩ := h.eS' i n h1
      exact ⟨x, by simp [hx], k, hk, hi⟩
    · refine ⟨b, by simp, i - c.eqns.length, ?_, ?_⟩
      · have := (List.getElem?_eq_some_iff.1 h1).1
        simpa using this
      · rw [hloc]; omega
  · refine h.tT.imp ?_
    rintro l t ⟨h1, h2, h3, h4, rho, r, h5, h6, h7⟩
    exact ⟨h1, h2, h3, getElem?_append_some h4, rho, r, h5, getElem?_append_some h6, h7⟩
  · intro i p hi; exact h.tT' i p (ecase hi (by simp))
  · intro p e hpe; rw [hE] at hpe; simp at hpe
  · intro i p hi; exact h.eE' i p (ecase hi (by simp))
  · intro w
    show CoreHold _ w ↔ net.CoreLaws w
    rw [← h.core w]
    constructor
    · intro H i r e hr he hc
      exact H i r e (getElem?_append_some hr) (getElem?_append_some he) hc
    · intro H i r e hr he hc
      have h2 := ecase he (by rintro n rfl; simp [Eqn.IsCore] at hc)
      rcases getElem?_append_cases hr with h1 | ⟨h0, h1⟩
      · exact H i r e h1 h2 hc
      · have := (List.getElem?_eq_some_iff.1 h2).1; omega
  · have := h.count
    simp only [List.length_append]; omega

theorem resolvePorts_length {obj : O} {spec : PortSpec} {ports : List String}
    (h : resolvePorts ops obj spec = .ok ports) : ports.length = ops.len obj := by
  unfold resolvePorts at h
  cases h1 : objPorts ops obj spec with
  | error e => simp [h1] at h
  | ok x =>
    rw [h1] at h
    cases h2 : specPorts (ops.len obj) x.1 x.2 with
    | error e => simp [h2] at h
    | ok o =>
      simp only [h2] at h
      by_cases h3 : o.length ≠ ops.len obj
      · simp [h3] at h
      · rw [if_neg h3] at h
        injection h with h; subst h; simpa using h3

/-- the branch of `addblock` that creates a block -/
theorem rep_addblock {s : St K O F Fl} (h : Rep ops net s) (hE : s.E = []) {nan : K} {name : String} {obj : O}
    {spec : PortSpec} {relpos : ℚ} {s' : St K O F Fl} {ports : List String}
    (hname : name ∉ net.blks.map Prod.fst) (hports : resolvePorts ops obj spec = .ok ports) (hnd : ports.Nodup)
    (hs : addblock ops nan s name obj spec relpos = (s', .ok ())) : Rep ops (net.addBlk name ports) s' := by
  have hnb : name ∉ s.blocks.map Blk.name := by
    have := h.rep.blks
    intro hm
    apply hname
    rw [this, List.map_map]
    exact hm
  have hfind : s.blocks.find? (fun b => b.name = name) = none := by
    rw [List.find?_eq_none]
    intro b hb
    simp only [decide_eq_true_eq]
    rintro rfl
    exact hnb (List.mem_map_of_mem hb)
  unfold addblock at hs
  simp only [hfind, hports] at hs
  injection hs with hs _
  have hN : ports.length = ops.len obj := resolvePorts_length hports
  obtain ⟨p1, p2⟩ := h.rep.pad
  have hw : s.core.waves.length = s.cols := h.wlen
  rw [hw] at p1 p2
  have hfresh : ∀ n ∈ ports.map (Node.blk name), n ∉ net.nodes := by
    intro n hn
    simp only [List.mem_map] at hn
    obtain ⟨p, _, rfl⟩ := hn
    intro hc
    exact hnb (h.bnode _ _ hc)
  have hinj : Function.Injective (Node.blk name) := fun a b hab => by injection hab
  have p3 := p1.extend (k' := ports.length) p2 (ports.map (Node.blk name))
    (ports.map (fun p => (Dir.inn, Node.blk name p)) ++ ports.map (fun p => (Dir.out, Node.blk name p)))
    (by
      refine List.Nodup.append (hnd.map ?_) (hnd.map ?_) ?_
      · intro a b hab; simpa using hab
      · intro a b hab; simpa using hab
      · intro x h1 h2
        simp only [List.mem_map] at h1 h2
        obtain ⟨p, _, rfl⟩ := h1
        obtain ⟨q, _, h2⟩ := h2
        simp at h2)
    (hnd.map hinj)
    (by
      intro d n
      cases d <;> simp)
    hfresh (by simp) hE
  have hlw : s.waves.length = s.cols := h.wlen
  have p4 := p3.addBlk hE ⟨name, ports, (s.rows.length, s.cols), obj, relpos⟩ (blockRows nan s.cols (ops.len obj)) 0
    hnb hN (by simp [St.core]) (by simp [blockRows, hN])
    (by
      intro k hk
      simp only [St.core] at hk ⊢
      constructor
      · rw [List.getElem?_append_right (by omega), List.getElem?_append_left (by simp; omega)]
        simp [hlw, hk]
      · rw [List.getElem?_append_right (by omega), List.getElem?_append_right (by simp; omega)]
        have : s.cols + ports.length + k - s.waves.length - (ports.map fun p => (Dir.inn, Node.blk name p)).length = k := by
          simp; omega
        rw [this]
        simp [hk])
    (by
      intro k r hr j hj
      simp only [blockRows, List.getElem?_map, Option.map_eq_some_iff] at hr
      obtain ⟨a, ha, rfl⟩ := hr
      have hak : a = k := by
        have := List.getElem?_eq_some_iff.1 ha
        obtain ⟨h1, h2⟩ := this
        simpa using h2.symm
      subst hak
      simp only at hj ⊢
      rw [hN] at hj ⊢
      by_cases h1 : j < s.cols
      · rw [if_pos h1, if_neg (by omega)]
      · rw [if_neg h1, if_neg (by omega)])
    (by simp)
  subst hs
  refine ⟨?_, ?_, ?_⟩
  · have e1 : s.core.waves ++ (ports.map (fun p => (Dir.inn, Node.blk name p)) ++ ports.map (fun p => (Dir.out, Node.blk name p)))
      = s.waves ++ ports.map (fun p => (Dir.inn, Node.blk name p)) ++ ports.map (fun p => (Dir.out, Node.blk name p)) := by
      simp [St.core]
    rw [e1] at p4
    exact p4
  · simp [hlw, hN]; omega
  · intro b p hb
    simp only [Net.addBlk, List.mem_append, List.mem_map] at hb
    simp only [List.map_append, List.mem_append]
    rcases hb with hb | ⟨q, _, hq⟩
    · exact Or.inl (h.bnode b p hb)
    · right; simp at hq; simp [hq.1]

end
end PyRFtk.Circuit
