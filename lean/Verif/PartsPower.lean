import Verif.PartsDeep

/-!
# C82: every elementary part and every load at any depth, and the power balance over all of them
-/

set_option linter.unusedSectionVars false

namespace PyRFtk.Circuit

section
variable {Fl : Type} [DecidableEq Fl]

/-! ## specification -/

/-- the elementary parts (lines, lumped elements, couplers, stored matrices) of an object that appears with the ports `ps`: the part and the names `Solution` gives
to its ports, those of parts inside nested circuits with the names of the blocks in front -/
noncomputable def leafParts (ode : TRL.Ode) (npc : Bool) (face : Face) : (n : ℕ) → (deepTower (Fl := Fl) ode npc face n).O → List String → List (Part × List String)
  | 0 => fun (p : Part) ps => [(p, ps)]
  | n + 1 => Sum.elim (leafParts ode npc face n) fun c _ => c.st.blocks.flatMap fun b =>
      (leafParts ode npc face n b.obj b.ports).map fun y => (y.1, y.2.map fun q => b.name ++ "." ++ q)

/-- the loads inside an object, at all levels: the load, the reference of the circuit it belongs to, the name `Solution` gives to its node -/
noncomputable def deepLoads (ode : TRL.Ode) (npc : Bool) (face : Face) : (n : ℕ) → (deepTower (Fl := Fl) ode npc face n).O → List (Load ℂ × ℂ × String)
  | 0 => fun _ => []
  | n + 1 => Sum.elim (deepLoads ode npc face n) fun c => (c.net.loads.map fun y => (y.2, c.zb, y.1.str)) ++ c.st.blocks.flatMap fun b =>
      (deepLoads ode npc face n b.obj).map fun y => (y.1, y.2.1, b.name ++ "." ++ y.2.2)

/-- no circuit at any level was deembedded -/
def deepPlain (ode : TRL.Ode) (npc : Bool) (face : Face) : (n : ℕ) → (deepTower (Fl := Fl) ode npc face n).O → Prop
  | 0 => fun _ => True
  | n + 1 => Sum.elim (deepPlain ode npc face n) fun c => c.net.Plain ∧ ∀ b ∈ c.st.blocks, deepPlain ode npc face n b.obj

/-- complex power into a node -/
noncomputable def Inner.power (x : Inner ℂ) (m : String) : ℂ := x.V m * star (x.I m)

/-- the power entered in the table of `Solution` under a name -/
noncomputable def reportedAt (t : List (Node × Quad ℂ)) (m : String) : ℂ := ((t.find? fun e => e.1.str = m).map fun e => e.2.V * star e.2.I).getD 0

/-! ## proofs -/

section
variable {O : Type} {ops : ObjOps ℂ O ℝ Fl} {beh : O → ℝ → ℂ → Fl → Except Err (SMat ℂ)} {sub : SubSol ℂ O ℝ Fl} {f : ℝ} {fl : Fl}

/-- Tellegen's theorem for a circuit used as an object -/
theorem circ_power {state : O → ℝ → Fl → (v i : ℕ → ℂ) → Inner ℂ → Prop} (hlaw : Lawful ops beh) (c : SolCirc ops beh sub) (hpl : c.net.Plain) {x : Inner ℂ}
    (hx : DeepPhysics state c.net c.zb c.st.blocks f fl x) :
    (c.net.free.map fun m => x.power m.str).sum = (c.st.blocks.map fun b => (b.ports.map fun q => (x.part b.name).power q).sum).sum -
      (c.net.loads.map fun y => x.power y.1.str).sum := by
  obtain ⟨nan, names, ph, h, -, -⟩ := c.built
  have h1 : (1 : ℝ) ≠ 0 := one_ne_zero
  have hv : ∀ (V I : Node → ℂ) n, volt (wavesOf 1 V I) n = V n := fun V I n => congrFun (wavesOf_eq h1 V I).1 n
  have hc : ∀ (V I : Node → ℂ) n, curr (wavesOf 1 V I) n = I n := fun V I n => by
    have : curr (wavesOf 1 V I) n / ((1 : ℝ) : ℂ) = I n := congrFun (wavesOf_eq h1 V I).2 n
    rw [← this]; simp
  have t := C23_tellegen hlaw h hpl (fun j hj => kirchhoff_waves h1 (hx.juncs j hj)) (fun j hj => kirchhoff_waves h1 (kirchhoff_star (hx.juncs j hj)))
  simp only [hv, hc] at t
  have hb : (c.net.blkNodes.map fun n : Node => x.V n.str * star (x.I n.str)).sum =
      (c.st.blocks.map fun b => (b.ports.map fun q => (x.part b.name).power q).sum).sum := by
    unfold Net.blkNodes
    rw [sum_flatMap, (h.inv hlaw).rep.rep.blks]
    simp only [List.map_map, Function.comp_def]
    rfl
  rw [hb, List.map_map] at t
  rw [t]
  simp only [Function.comp_def, Inner.power]
  ring

end

theorem sum_flatMap' {α β : Type*} (l : List α) (g : α → List β) (c : β → ℂ) :
    ((l.flatMap g).map c).sum = (l.map fun x => ((g x).map c).sum).sum := by
  induction l with
  | nil => rfl
  | cons x l ih => simp [ih]

theorem sum_sub_map {α : Type*} (l : List α) (c d : α → ℂ) : (l.map fun x => c x - d x).sum = (l.map c).sum - (l.map d).sum := by
  induction l with
  | nil => simp
  | cons x l ih => simp only [List.map_cons, List.sum_cons, ih]; ring

variable {ode : TRL.Ode} {npc : Bool} {face : Face} {f : ℝ} {fl : Fl}

/-- the law of a part speaks of its own ports only -/
theorem law_ports {p : Part} {v i v' i' : ℕ → ℂ} (h : ∀ k < p.len, v k = v' k ∧ i k = i' k) (hl : p.Law f v i) : p.Law f v' i' := by
  have e : ∀ {m : ℕ}, m = p.len → (fun k : Fin m => v k) = (fun k : Fin m => v' k) ∧ (fun k : Fin m => i k) = fun k : Fin m => i' k :=
    fun hm => ⟨funext fun k => (h k (hm ▸ k.2)).1, funext fun k => (h k (hm ▸ k.2)).2⟩
  cases p with
  | line l =>
    obtain ⟨a, b⟩ := e (m := 2) rfl
    change TRL.LineLaw _ _ _ (fun k : Fin 2 => v' k) (fun k : Fin 2 => i' k)
    rw [← a, ← b]; exact hl
  | rlc s =>
    obtain ⟨a, b⟩ := e (m := 2) rfl
    change RLC.Law _ _ (fun k : Fin 2 => v' k) (fun k : Fin 2 => i' k)
    rw [← a, ← b]; exact hl
  | base n g Z =>
    obtain ⟨a, b⟩ := e (m := n) rfl
    obtain ⟨T, hT, h⟩ := hl
    refine ⟨T, hT, ?_⟩
    rw [← a, ← b]; exact h

/-- what holds of the parts, the loads and the power inside an object in the state `x` whose ports are called `ps` -/
structure DeepFacts (n : ℕ) (o : (deepTower (Fl := Fl) ode npc face n).O) (f : ℝ) (ps : List String) (x : Inner ℂ) : Prop where
  len : ∀ y ∈ leafParts ode npc face n o ps, y.2.length = y.1.len
  names : ∀ y ∈ leafParts ode npc face n o ps, ∀ q ∈ y.2, q ∈ ps ∨ ((deepTower ode npc face n).sub o).isSome ∧ q ∈ (deepTower ode npc face n).ins.nodes o
  ends : ∀ y ∈ deepLoads ode npc face n o, ((deepTower ode npc face n).sub o).isSome ∧ y.2.2 ∈ (deepTower ode npc face n).ins.nodes o
  parts : ∀ y ∈ leafParts ode npc face n o ps, y.1.Law f (fun k => x.V (y.2.getD k "")) (fun k => x.I (y.2.getD k ""))
  loads : ∀ y ∈ deepLoads ode npc face n o, y.1.Ohm y.2.1 (x.V y.2.2) (x.I y.2.2)
  power : deepPlain ode npc face n o → (ps.map x.power).sum =
    ((leafParts ode npc face n o ps).map fun y => (y.2.map x.power).sum).sum - ((deepLoads ode npc face n o).map fun y => x.power y.2.2).sum

/-- the same for the nodes of a circuit -/
structure CircFacts (n : ℕ) (c : SolCirc (deepTower (Fl := Fl) ode npc face n).ops (deepTower ode npc face n).beh (deepTower ode npc face n).sub) (f : ℝ) (x : Inner ℂ) : Prop where
  len : ∀ y ∈ leafParts ode npc face (n + 1) (.inr c) [], y.2.length = y.1.len
  names : ∀ y ∈ leafParts ode npc face (n + 1) (.inr c) [], ∀ q ∈ y.2, q ∈ solNodes (deepTower ode npc face n).sub (deepTower ode npc face n).ins c
  ends : ∀ y ∈ deepLoads ode npc face (n + 1) (.inr c), y.2.2 ∈ solNodes (deepTower ode npc face n).sub (deepTower ode npc face n).ins c
  parts : ∀ y ∈ leafParts ode npc face (n + 1) (.inr c) [], y.1.Law f (fun k => x.V (y.2.getD k "")) (fun k => x.I (y.2.getD k ""))
  loads : ∀ y ∈ deepLoads ode npc face (n + 1) (.inr c), y.1.Ohm y.2.1 (x.V y.2.2) (x.I y.2.2)
  power : deepPlain ode npc face (n + 1) (.inr c) → (c.net.free.map fun m => x.power m.str).sum =
    ((leafParts ode npc face (n + 1) (.inr c) []).map fun y => (y.2.map x.power).sum).sum - ((deepLoads ode npc face (n + 1) (.inr c)).map fun y => x.power y.2.2).sum

theorem circFacts {n : ℕ} (ih : ∀ (o : (deepTower (Fl := Fl) ode npc face n).O) (ps : List String) (x : Inner ℂ), (deepTower ode npc face n).ops.len o = ps.length →
      (deepTower ode npc face n).state o f fl (fun k => x.V (ps.getD k "")) (fun k => x.I (ps.getD k "")) x → DeepFacts n o f ps x)
    (c : SolCirc (deepTower (Fl := Fl) ode npc face n).ops (deepTower ode npc face n).beh (deepTower ode npc face n).sub) {x : Inner ℂ}
    (hx : DeepPhysics (deepTower ode npc face n).state c.net c.zb c.st.blocks f fl x) : CircFacts n c f x := by
  have hlaw := (deepTower (Fl := Fl) ode npc face n).lawful
  obtain ⟨nan, names, ph, h, -, -⟩ := c.built
  have hb : ∀ b ∈ c.st.blocks, DeepFacts n b.obj f b.ports (x.part b.name) := fun b hb => ih b.obj b.ports (x.part b.name)
    ((h.inv hlaw).rep.rep.blen b hb).symm (hx.parts b hb)
  have hports : ∀ b ∈ c.st.blocks, ∀ q ∈ b.ports, (b.name ++ "." ++ q) ∈ c.net.nodes.map Node.str := by
    intro b hb q hq
    refine List.mem_map.2 ⟨.blk b.name q, h.nodes_perm.mem_iff.2 (List.mem_append_left _ (List.mem_append_left _ ?_)), rfl⟩
    unfold Net.blkNodes
    rw [(h.inv hlaw).rep.rep.blks]
    exact List.mem_flatMap.2 ⟨(b.name, b.ports), List.mem_map.2 ⟨b, hb, rfl⟩, List.mem_map.2 ⟨q, hq, rfl⟩⟩
  have hin : ∀ b ∈ c.st.blocks, ∀ q, ((deepTower ode npc face n).sub b.obj).isSome ∧ q ∈ (deepTower ode npc face n).ins.nodes b.obj →
      (b.name ++ "." ++ q) ∈ solNodes (deepTower ode npc face n).sub (deepTower ode npc face n).ins c := by
    intro b hb q hq
    refine List.mem_append_right _ (List.mem_flatMap.2 ⟨b, hb, ?_⟩)
    rw [if_pos hq.1]
    exact List.mem_map.2 ⟨q, hq.2, rfl⟩
  refine ⟨fun y hy => ?_, fun y hy q hq => ?_, fun y hy => ?_, fun y hy => ?_, fun y hy => ?_, fun hpl => ?_⟩
  · change y ∈ c.st.blocks.flatMap _ at hy
    obtain ⟨b, hb1, hy⟩ := List.mem_flatMap.1 hy
    obtain ⟨u, hu, rfl⟩ := List.mem_map.1 hy
    rw [List.length_map]
    exact (hb b hb1).len u hu
  · change y ∈ c.st.blocks.flatMap _ at hy
    obtain ⟨b, hb1, hy⟩ := List.mem_flatMap.1 hy
    obtain ⟨u, hu, rfl⟩ := List.mem_map.1 hy
    obtain ⟨p, hp, rfl⟩ := List.mem_map.1 hq
    rcases (hb b hb1).names u hu p hp with h1 | h1
    · exact List.mem_append_left _ (hports b hb1 p h1)
    · exact hin b hb1 p h1
  · change y ∈ _ ++ c.st.blocks.flatMap _ at hy
    rcases List.mem_append.1 hy with hy | hy
    · obtain ⟨u, hu, rfl⟩ := List.mem_map.1 hy
      refine List.mem_append_left _ (List.mem_map.2 ⟨u.1, (h.inv hlaw).rep.nodes_split.mem_iff.2 (List.mem_append_left _ ?_), rfl⟩)
      unfold Net.used
      simp only [List.mem_append, List.mem_map]
      exact Or.inr ⟨u, hu, rfl⟩
    · obtain ⟨b, hb1, hy⟩ := List.mem_flatMap.1 hy
      obtain ⟨u, hu, rfl⟩ := List.mem_map.1 hy
      exact hin b hb1 _ ((hb b hb1).ends u hu)
  · change y ∈ c.st.blocks.flatMap _ at hy
    obtain ⟨b, hb1, hy⟩ := List.mem_flatMap.1 hy
    obtain ⟨u, hu, rfl⟩ := List.mem_map.1 hy
    have := (hb b hb1).parts u hu
    refine law_ports ?_ this
    intro k hk
    rw [← (hb b hb1).len u hu] at hk
    simp [Inner.part, hk]
  · change y ∈ _ ++ c.st.blocks.flatMap _ at hy
    rcases List.mem_append.1 hy with hy | hy
    · obtain ⟨u, hu, rfl⟩ := List.mem_map.1 hy
      exact hx.loads u hu
    · obtain ⟨b, hb1, hy⟩ := List.mem_flatMap.1 hy
      obtain ⟨u, hu, rfl⟩ := List.mem_map.1 hy
      exact (hb b hb1).loads u hu
  · obtain ⟨hp1, hp2⟩ : c.net.Plain ∧ ∀ b ∈ c.st.blocks, deepPlain ode npc face n b.obj := hpl
    rw [circ_power hlaw c hp1 hx, List.map_congr_left fun b hb1 => (hb b hb1).power (hp2 b hb1), sum_sub_map]
    change _ = ((c.st.blocks.flatMap _).map _).sum - ((_ ++ c.st.blocks.flatMap _).map _).sum
    rw [List.map_append, List.sum_append, sum_flatMap', sum_flatMap']
    simp only [List.map_map, Function.comp_def]
    rw [show (c.st.blocks.map fun b => ((leafParts ode npc face n b.obj b.ports).map fun y => (y.2.map (x.part b.name).power).sum).sum) =
      c.st.blocks.map fun b => ((leafParts ode npc face n b.obj b.ports).map fun y => (y.2.map fun q => x.power (b.name ++ "." ++ q)).sum).sum from rfl,
      show (c.st.blocks.map fun b => ((deepLoads ode npc face n b.obj).map fun y => (x.part b.name).power y.2.2).sum) =
      c.st.blocks.map fun b => ((deepLoads ode npc face n b.obj).map fun y => x.power (b.name ++ "." ++ y.2.2)).sum from rfl]
    ring

/-- every object in any of its states -/
theorem deepFacts (fl : Fl) : ∀ (n : ℕ) (o : (deepTower (Fl := Fl) ode npc face n).O) (ps : List String) (x : Inner ℂ), (deepTower ode npc face n).ops.len o = ps.length →
    (deepTower ode npc face n).state o f fl (fun k => x.V (ps.getD k "")) (fun k => x.I (ps.getD k "")) x → DeepFacts n o f ps x := by
  intro n
  induction n with
  | zero =>
    intro o ps x hlen hs
    have h1 : ∀ y ∈ leafParts (Fl := Fl) ode npc face 0 o ps, y = (o, ps) := fun y hy => List.mem_singleton.1 hy
    refine ⟨fun y hy => ?_, fun y hy q hq => ?_, fun y hy => (by cases hy), fun y hy => ?_, fun y hy => (by cases hy), fun _ => ?_⟩
    · rw [h1 y hy]; exact hlen.symm
    · rw [h1 y hy] at hq; exact .inl hq
    · rw [h1 y hy]; exact hs
    · change _ = ((([(o, ps)] : List (Part × List String)).map _).sum - ((([] : List (Load ℂ × ℂ × String)).map _).sum))
      simp
  | succ n ih =>
    intro o ps x hlen hs
    cases o with
    | inl a =>
      have := ih a ps x hlen hs
      have hsub : ((deepTower (Fl := Fl) ode npc face n).sub a).isSome → ((deepTower ode npc face (n + 1)).sub (.inl a)).isSome := by
        intro h
        change (((deepTower (Fl := Fl) ode npc face n).sub a).map _).isSome
        exact Option.isSome_map.trans h
      exact ⟨this.len, fun y hy q hq => (this.names y hy q hq).imp id fun h => ⟨hsub h.1, h.2⟩, fun y hy => ⟨hsub (this.ends y hy).1, (this.ends y hy).2⟩,
        this.parts, this.loads, this.power⟩
    | inr c =>
      obtain ⟨hx, hpt⟩ : circState (deepTower ode npc face n).state c f fl (fun k => x.V (ps.getD k "")) (fun k => x.I (ps.getD k "")) x := hs
      have hc := circFacts ih c hx
      refine ⟨hc.len, fun y hy q hq => .inr ⟨rfl, hc.names y hy q hq⟩, fun y hy => ⟨rfl, hc.ends y hy⟩, hc.parts, hc.loads, fun hpl => ?_⟩
      have hp := hc.power hpl
      change _ = ((leafParts ode npc face (n + 1) (.inr c) []).map fun y => (y.2.map x.power).sum).sum - _
      rw [← hp]
      obtain ⟨nan, names, ph, h, -, -⟩ := c.built
      rw [← sum_map_perm ((h.inv (deepTower (Fl := Fl) ode npc face n).lawful).rep.ports_perm)]
      have hlen : c.st.ports.length = ps.length := hlen
      rw [sum_map_fin, sum_map_fin]
      refine Fintype.sum_equiv (finCongr hlen.symm) _ _ fun k => ?_
      have := hpt k (by rw [hlen]; exact k.2)
      unfold Inner.power
      simp only [finCongr_apply, Fin.val_cast, Fin.getElem_fin]
      rw [this.1, this.2]
      simp

/-- **C82 (every part at any depth).** In the state `Solution` reports for a circuit of lines, lumped elements, couplers, stored matrices and circuits of these nested to
any depth, the voltages and currents reported at the ports of every elementary part, at whatever depth, obey the law of that part, and those at every load, at whatever
depth, Ohm's law. If no circuit was deembedded, the power reported to enter the circuit at its free ports is the sum of the powers reported to enter all its elementary
parts and all its loads at all depths; nothing is lost or gained at the boundaries of nested circuits. -/
theorem C82_parts_any_depth (n : ℕ)
    (c : SolCirc (deepTower (Fl := Fl) ode npc face n).ops (deepTower ode npc face n).beh (deepTower ode npc face n).sub)
    {E : List (Node × ℂ)} {z : Option ℝ} {s' : St ℂ (deepTower ode npc face n).O ℝ Fl} {t : List (Node × Quad ℂ)} {r : ℝ}
    (hzb : c.zb = r) (hz : z.getD r ≠ 0) (hp : ∀ b ∈ c.st.blocks, (deepTower ode npc face n).proper b.obj f)
    (hs : solutionAll (deepTower ode npc face n).ops (deepTower ode npc face n).sub c.st f E (z.map Complex.ofReal) none fl = (s', .ok t)) :
    ∃ V I : String → ℂ,
      (∀ m q, (m, q) ∈ t → q.V = V m.str ∧ q.I = I m.str) ∧
      (∀ y ∈ leafParts ode npc face (n + 1) (.inr c) [], y.2.length = y.1.len ∧ (∀ q ∈ y.2, ∃ m ∈ t.map Prod.fst, m.str = q) ∧
        y.1.Law f (fun k => V (y.2.getD k "")) (fun k => I (y.2.getD k ""))) ∧
      (∀ y ∈ deepLoads ode npc face (n + 1) (.inr c), (∃ m ∈ t.map Prod.fst, m.str = y.2.2) ∧ y.1.Ohm y.2.1 (V y.2.2) (I y.2.2)) ∧
      (deepPlain ode npc face (n + 1) (.inr c) → (c.net.free.map fun m => reportedAt t m.str).sum =
        ((leafParts ode npc face (n + 1) (.inr c) []).map fun y => (y.2.map (reportedAt t)).sum).sum -
          ((deepLoads ode npc face (n + 1) (.inr c)).map fun y => reportedAt t y.2.2).sum) := by
  obtain ⟨x, hx, -, ht, hall, -⟩ := C82_any_depth n c hzb hz hp hs
  rw [← hzb] at hx
  have hc := circFacts (deepFacts fl n) c hx
  have hin : ∀ m ∈ solNodes (deepTower ode npc face n).sub (deepTower ode npc face n).ins c, ∃ k ∈ t.map Prod.fst, k.str = m :=
    fun m hm => hall m hm fun l hl => by cases hl
  have hP : ∀ m ∈ solNodes (deepTower ode npc face n).sub (deepTower ode npc face n).ins c, reportedAt t m = x.power m := by
    intro m hm
    obtain ⟨k, hk, hkm⟩ := hin m hm
    obtain ⟨e, he, rfl⟩ := List.mem_map.1 hk
    unfold reportedAt
    cases hf : t.find? fun e => e.1.str = m with
    | none => exact absurd (List.find?_eq_none.1 hf e he) (by simp [hkm])
    | some d =>
      have h1 := List.mem_of_find?_eq_some hf
      have h2 := List.find?_some hf
      simp only [decide_eq_true_eq] at h2
      obtain ⟨-, h3⟩ := ht d.1 d.2 h1
      simp only [Option.map_some, Option.getD_some]
      rw [h3, h2]
      rfl
  refine ⟨x.V, x.I, fun m q hq => ?_, fun y hy => ⟨hc.len y hy, fun q hq => hin q (hc.names y hy q hq), hc.parts y hy⟩,
    fun y hy => ⟨hin _ (hc.ends y hy), hc.loads y hy⟩, fun hpl => ?_⟩
  · rw [(ht m q hq).2]; exact ⟨rfl, rfl⟩
  · obtain ⟨nan, names, ph, h, -, -⟩ := c.built
    have hfree : ∀ m ∈ c.net.free, m.str ∈ solNodes (deepTower ode npc face n).sub (deepTower ode npc face n).ins c := fun m hm =>
      List.mem_append_left _ (List.mem_map.2 ⟨m, (h.inv (deepTower (Fl := Fl) ode npc face n).lawful).rep.nodes_split.mem_iff.2 (List.mem_append_right _ hm), rfl⟩)
    rw [List.map_congr_left fun m hm => hP _ (hfree m hm),
      List.map_congr_left fun y hy => congrArg List.sum (List.map_congr_left fun q hq => hP q (hc.names y hy q hq)),
      List.map_congr_left fun y hy => hP _ (hc.ends y hy)]
    exact hc.power hpl

/-! ## dissipation -/

theorem rlc_absorbs {e : RLC.Elem → RLC.Ext} {w : ℝ} {V I : Fin 2 → ℂ} (hn : RLC.NonNeg e) (h : RLC.Law e w V I) : 0 ≤ portPower V I := by
  obtain ⟨vC, vL, vR, iC, iL, iR, h1, h2, h3, h4, h5, h6, h7, h8⟩ := h
  have cap : ∀ {x : RLC.Ext} {v i : ℂ}, RLC.Capacitor w x v i → (v * star i).re = 0 := by
    intro x v i h
    cases x with
    | fin C =>
      have h : i = Complex.I * w * C * v := h
      rw [h]; simp; ring
    | inf =>
      have h : v = 0 := h
      rw [h]; simp
  have ind : ∀ {x : RLC.Ext} {v i : ℂ}, RLC.Inductor w x v i → (v * star i).re = 0 := by
    intro x v i h
    cases x with
    | fin C =>
      have h : v = Complex.I * w * C * i := h
      rw [h]; simp; ring
    | inf =>
      have h : i = 0 := h
      rw [h]; simp
  have res : ∀ {p : RLC.Elem} {v i : ℂ}, RLC.Resistor (e p) v i → 0 ≤ (v * star i).re := by
    intro p v i h
    cases hx : e p with
    | fin R =>
      rw [hx] at h
      have h : v = R * i := h
      have := hn p R hx
      rw [h]
      have e : ((R : ℂ) * i * star i).re = R * Complex.normSq i := by simp [Complex.normSq_apply]; ring
      rw [e]
      exact mul_nonneg this (Complex.normSq_nonneg _)
    | inf =>
      rw [hx] at h
      have h : i = 0 := h
      rw [h]; simp
  have hV : V 0 = V 1 + (vC + vL + vR) := by linear_combination h4
  have hI : I 1 = iC + iL + iR - I 0 := by linear_combination h8
  have key : portPower V I = ((vC * star (I 0)).re + (vL * star (I 0)).re + (vR * star (I 0)).re) +
      ((V 1 * star iC).re + (V 1 * star iL).re + (V 1 * star iR).re) := by
    unfold portPower
    rw [Fin.sum_univ_two, hV, hI]
    simp
    ring
  rw [key, cap h1, ind h2, cap h5, ind h6]
  have := res h3
  have := res h7
  linarith

/-- a part that cannot deliver power absorbs the power that enters it -/
theorem part_absorbs {p : Part} (hd : p.Dissipative f) {V I : ℕ → ℂ} (h : p.Law f V I) : 0 ≤ portPower (fun k : Fin p.len => V k) (fun k : Fin p.len => I k) := by
  cases p with
  | line l => exact TRL.LineLaw.passive hd.1 (fun x => (hd.2 x).1) (fun x => (hd.2 x).2) h
  | rlc s => exact rlc_absorbs hd h
  | base n g Z =>
    obtain ⟨T, hT, h⟩ := h
    exact portPower_passive hd.1 (hd.2 T hT) h

theorem ohm_absorbs {l : Load ℂ} (hl : l.Passive) {r : ℝ} (hr : 0 < r) {V I : ℂ} (h : l.Ohm (r : ℂ) V I) : (V * star I).re ≤ 0 := by
  cases l with
  | Z z =>
    have h : V = z * (-I) := h
    have e : (V * star I).re = -(z.re * Complex.normSq I) := by rw [h]; simp [Complex.normSq_apply]; ring
    rw [e]
    have := mul_nonneg hl (Complex.normSq_nonneg I)
    linarith
  | Y y =>
    have h : -I = y * V := h
    have h' : I = -(y * V) := by rw [← h, neg_neg]
    have e : (V * star I).re = -(y.re * Complex.normSq V) := by rw [h']; simp [Complex.normSq_apply]; ring
    rw [e]
    have := mul_nonneg hl (Complex.normSq_nonneg V)
    linarith
  | RC ρ =>
    have h : V + r * I = ρ * (V - r * I) := h
    have h1 : ‖V + r * I‖ ^ 2 ≤ ‖V - r * I‖ ^ 2 := by
      rw [h, norm_mul, mul_pow]
      have : ‖ρ‖ ^ 2 ≤ 1 := pow_le_one₀ (norm_nonneg _) hl
      nlinarith [sq_nonneg ‖V - r * I‖]
    have h2 : ‖V + r * I‖ ^ 2 - ‖V - r * I‖ ^ 2 = 4 * r * (V * star I).re := by
      simp only [Complex.sq_norm, Complex.normSq_apply]
      simp
      ring
    have h3 : 4 * r * (V * star I).re ≤ 0 := by linarith
    by_contra h4
    push Not at h4
    have := mul_pos (by linarith : 0 < 4 * r) h4
    linarith

/-- **C82 (dissipation at any depth).** If no part can deliver power, all loads are passive on real positive references and no circuit was deembedded, then no elementary
part and no load, at whatever depth, is reported to deliver power, and none is reported to absorb more than what is reported to enter the circuit at its free ports. -/
theorem C82_dissipation_any_depth (n : ℕ)
    (c : SolCirc (deepTower (Fl := Fl) ode npc face n).ops (deepTower ode npc face n).beh (deepTower ode npc face n).sub)
    {E : List (Node × ℂ)} {z : Option ℝ} {s' : St ℂ (deepTower ode npc face n).O ℝ Fl} {t : List (Node × Quad ℂ)} {r : ℝ}
    (hzb : c.zb = r) (hz : z.getD r ≠ 0) (hp : ∀ b ∈ c.st.blocks, (deepTower ode npc face n).proper b.obj f)
    (hpl : deepPlain ode npc face (n + 1) (.inr c))
    (hd : ∀ y ∈ leafParts ode npc face (n + 1) (.inr c) [], y.1.Dissipative f)
    (hl : ∀ y ∈ deepLoads ode npc face (n + 1) (.inr c), y.1.Passive ∧ ∃ r : ℝ, 0 < r ∧ y.2.1 = r)
    (hs : solutionAll (deepTower ode npc face n).ops (deepTower ode npc face n).sub c.st f E (z.map Complex.ofReal) none fl = (s', .ok t)) :
    (∀ y ∈ leafParts ode npc face (n + 1) (.inr c) [], 0 ≤ ((y.2.map (reportedAt t)).sum).re ∧
      ((y.2.map (reportedAt t)).sum).re ≤ ((c.net.free.map fun m => reportedAt t m.str).sum).re) ∧
    ∀ y ∈ deepLoads ode npc face (n + 1) (.inr c), 0 ≤ (-reportedAt t y.2.2).re ∧
      (-reportedAt t y.2.2).re ≤ ((c.net.free.map fun m => reportedAt t m.str).sum).re := by
  obtain ⟨V, I, ht, h1, h2, h3⟩ := C82_parts_any_depth n c hzb hz hp hs
  have hP : ∀ q, (∃ m ∈ t.map Prod.fst, m.str = q) → reportedAt t q = V q * star (I q) := by
    rintro q ⟨k, hk, hkm⟩
    obtain ⟨e, he, rfl⟩ := List.mem_map.1 hk
    unfold reportedAt
    cases hf : t.find? fun e => e.1.str = q with
    | none => exact absurd (List.find?_eq_none.1 hf e he) (by simp [hkm])
    | some d =>
      have a := List.mem_of_find?_eq_some hf
      have b := List.find?_some hf
      simp only [decide_eq_true_eq] at b
      obtain ⟨c1, c2⟩ := ht d.1 d.2 a
      simp only [Option.map_some, Option.getD_some]
      rw [c1, c2, b]
  have re_sum : ∀ l : List ℂ, l.sum.re = (l.map Complex.re).sum := fun l => by
    induction l with
    | nil => rfl
    | cons x l ih => simp [ih]
  have hA : ∀ y ∈ leafParts ode npc face (n + 1) (.inr c) [], 0 ≤ ((y.2.map (reportedAt t)).sum).re := by
    intro y hy
    obtain ⟨hlen, hin, hlaw⟩ := h1 y hy
    have h := part_absorbs (hd y hy) hlaw
    rw [re_sum, List.map_map, List.map_congr_left (g := fun q => (V q * star (I q)).re) (fun q hq => by rw [Function.comp_apply, hP q (hin q hq)]), sum_map_fin]
    unfold portPower at h
    refine h.trans_eq (Fintype.sum_equiv (finCongr hlen.symm) _ _ fun k => ?_)
    have hk : (k : ℕ) < y.2.length := by rw [hlen]; exact k.2
    have e : y.2.getD k "" = y.2[(k : ℕ)] := by simp [hk]
    dsimp only
    rw [e]
    rfl
  have hB : ∀ y ∈ deepLoads ode npc face (n + 1) (.inr c), 0 ≤ (-reportedAt t y.2.2).re := by
    intro y hy
    obtain ⟨hin, hohm⟩ := h2 y hy
    obtain ⟨hpas, r, hr, he⟩ := hl y hy
    rw [he] at hohm
    rw [hP _ hin, Complex.neg_re]
    have := ohm_absorbs hpas hr hohm
    linarith
  have tot : ((c.net.free.map fun m => reportedAt t m.str).sum).re =
      ((leafParts ode npc face (n + 1) (.inr c) []).map fun y => ((y.2.map (reportedAt t)).sum).re).sum +
        ((deepLoads ode npc face (n + 1) (.inr c)).map fun y => (-reportedAt t y.2.2).re).sum := by
    have neg_sum : ∀ l : List ℝ, (l.map fun x => -x).sum = -l.sum := fun l => by
      induction l with
      | nil => simp
      | cons x l ih => simp [ih]; ring
    rw [h3 hpl, Complex.sub_re, re_sum, re_sum, List.map_map, List.map_map, sub_eq_add_neg, ← neg_sum, List.map_map]
    rfl
  have hsA : 0 ≤ ((leafParts ode npc face (n + 1) (.inr c) []).map fun y => ((y.2.map (reportedAt t)).sum).re).sum :=
    List.sum_nonneg fun x hx => by obtain ⟨y, hy, rfl⟩ := List.mem_map.1 hx; exact hA y hy
  have hsB : 0 ≤ ((deepLoads ode npc face (n + 1) (.inr c)).map fun y => (-reportedAt t y.2.2).re).sum :=
    List.sum_nonneg fun x hx => by obtain ⟨y, hy, rfl⟩ := List.mem_map.1 hx; exact hB y hy
  refine ⟨fun y hy => ⟨hA y hy, ?_⟩, fun y hy => ⟨hB y hy, ?_⟩⟩
  · rw [tot]
    have := List.single_le_sum (l := (leafParts ode npc face (n + 1) (.inr c) []).map fun y => ((y.2.map (reportedAt t)).sum).re)
      (fun x hx => by obtain ⟨y, hy, rfl⟩ := List.mem_map.1 hx; exact hA y hy) _ (List.mem_map_of_mem hy)
    linarith
  · rw [tot]
    have := List.single_le_sum (l := (deepLoads ode npc face (n + 1) (.inr c)).map fun y => (-reportedAt t y.2.2).re)
      (fun x hx => by obtain ⟨y, hy, rfl⟩ := List.mem_map.1 hx; exact hB y hy) _ (List.mem_map_of_mem hy)
    linarith

end

/-! ## witness: the two lines in a circuit in a circuit of `ExDeep` -/

namespace ExDeep
open ExParts
variable (ode : TRL.Ode)

theorem leaves : leafParts (Fl := Unit) ode false ExParts.face 2 (.inr (outer ode)) [] =
    [(.line (line 1), ["X.A.1", "X.A.2"]), (.line (line 2), ["X.B.1", "X.B.2"])] := rfl

theorem no_loads : deepLoads (Fl := Unit) ode false ExParts.face 2 (.inr (outer ode)) = [] := rfl

theorem plain : deepPlain (Fl := Unit) ode false ExParts.face 2 (.inr (outer ode)) := by
  refine ⟨⟨rfl, rfl⟩, fun b hb => ?_⟩
  rw [(blk ode hb).1]
  exact ⟨⟨rfl, rfl⟩, fun b _ => trivial⟩

/-- C82_parts_any_depth and C82_dissipation_any_depth apply: the power reported into the circuit is what is reported into the two lines in the block, and that into
each is not negative -/
theorem C82_parts_witness (f : ℝ) : ∃ s' t, solutionAll (kind ode 1).ops (kind ode 1).sub (outer ode).st f E none none () = (s', .ok t) ∧
    reportedAt t "X.A.1" + reportedAt t "X.B.2" = (reportedAt t "X.A.1" + reportedAt t "X.A.2") + (reportedAt t "X.B.1" + reportedAt t "X.B.2") ∧
    0 ≤ (reportedAt t "X.A.1" + reportedAt t "X.A.2").re ∧ (reportedAt t "X.A.1" + reportedAt t "X.A.2").re ≤ (reportedAt t "X.A.1" + reportedAt t "X.B.2").re := by
  obtain ⟨t, ht⟩ := reports ode f
  obtain ⟨s', hs⟩ : ∃ s', solutionAll (kind ode 1).ops (kind ode 1).sub (outer ode).st f E none none () = (s', .ok t) := pair_of_snd ht
  have hz : (outer ode).zb = ((50 : ℝ) : ℂ) := rfl
  have hp : ∀ b ∈ (outer ode).st.blocks, (kind ode 1).proper b.obj f := fun b hb => is_proper ode f hb
  have hf := free ode
  have hl := leaves ode
  have hn := no_loads ode
  have hpl := plain ode
  generalize outer ode = c at *
  obtain ⟨V, I, -, -, -, h3⟩ := C82_parts_any_depth 1 c (f := f) (fl := ()) (z := none) (r := 50) hz (by norm_num) hp hs
  obtain ⟨h4, -⟩ := C82_dissipation_any_depth 1 c (f := f) (fl := ()) (z := none) (r := 50) hz (by norm_num) hp hpl
    (by
      rw [hl]
      intro y hy
      simp only [List.mem_cons, List.not_mem_nil, or_false] at hy
      rcases hy with rfl | rfl
      · exact ⟨by norm_num [line], fun x => by simp [line]⟩
      · exact ⟨by norm_num [line], fun x => by simp [line]⟩)
    (by rw [hn]; intro y hy; cases hy) hs
  have h3 := h3 hpl
  rw [hf, hl, hn] at h3
  have h4 := h4 _ (by rw [hl]; exact List.mem_cons_self ..)
  rw [hf] at h4
  have e1 : (Node.blk "X" "A.1").str = "X.A.1" := rfl
  have e2 : (Node.blk "X" "B.2").str = "X.B.2" := rfl
  simp only [List.map_cons, List.map_nil, List.sum_cons, List.sum_nil, add_zero, sub_zero, e1, e2] at h3 h4
  exact ⟨s', t, hs, h3, h4⟩

end ExDeep
end PyRFtk.Circuit
