import Verif.PartsNest
import Verif.CircuitSolProps

/-!
# C82: what `Solution` reports is the physical state of the circuit, and power is conserved
-/

set_option linter.unusedSectionVars false

namespace PyRFtk.Circuit

section
variable {Fl : Type} [DecidableEq Fl]
variable {nan : ℂ} {r f : ℝ} {names : List Node} {net : Net ℂ} {bh : Behave ℂ ℝ Fl} {ph : Phase} {fl : Fl}

/-! ## specification -/

/-- the complex power flowing into the network at a node, as reported: `V conj(I)` -/
noncomputable def reportedPower (t : List (Node × Quad ℂ)) (n : Node) : ℂ := ((dictGet n t).map fun x => x.V * star x.I).getD 0

/-- the power a load takes (real part), from the voltage across it or the current through it: `Re(z)|I|²`, `Re(y)|V|²`, incident minus reflected power -/
noncomputable def Load.takes (zb : ℂ) : Load ℂ → (V I : ℂ) → ℝ
  | .Z z, _, I => z.re * ‖I‖ ^ 2
  | .Y y, V, _ => y.re * ‖V‖ ^ 2
  | .RC ρ, V, I => (1 - ‖ρ‖ ^ 2) * ‖V - zb * I‖ ^ 2 / (4 * zb.re)

/-! ## proofs -/

theorem kirchhoff_waves {j : Junction} (hr : r ≠ 0) {V I : Node → ℂ} (h : j.Kirchhoff V I) : j.Law (wavesOf r V I) := by
  have hrc : (r : ℂ) ≠ 0 := by exact_mod_cast hr
  have hv : ∀ n, volt (wavesOf r V I) n = V n := fun n => congrFun (wavesOf_eq hr V I).1 n
  have hc : ∀ n, curr (wavesOf r V I) n = r * I n := fun n => by
    have : curr (wavesOf r V I) n / (r : ℂ) = I n := congrFun (wavesOf_eq hr V I).2 n
    rw [← this]; field_simp
  obtain ⟨h1, h2⟩ := h
  refine ⟨fun p hp q hq => by rw [hv, hv, h1 p hp q hq], ?_⟩
  have hsum : (j.members.map (curr (wavesOf r V I))).sum = r * (j.members.map I).sum := by
    induction j.members with
    | nil => simp
    | cons a l ih => simp only [List.map_cons, List.sum_cons, ih, hc]; ring
  rw [hsum, h2]
  cases j.new with
  | none => simp
  | some n => exact (hc n).symm

theorem kirchhoff_star {j : Junction} {V I : Node → ℂ} (h : j.Kirchhoff V I) : j.Kirchhoff (fun n => star (V n)) (fun n => star (I n)) := by
  obtain ⟨h1, h2⟩ := h
  refine ⟨fun p hp q hq => congrArg star (h1 p hp q hq), ?_⟩
  have : (j.members.map fun n => star (I n)).sum = star (j.members.map I).sum := by
    induction j.members with
    | nil => simp
    | cons p l ih => simp only [List.map_cons, List.sum_cons, star_add, ih]
  rw [this, h2]
  cases j.new with
  | none => simp
  | some n => rfl

/-- Tellegen's theorem for voltages and currents -/
theorem physics_power {O : Type} {ops : ObjOps ℂ O ℝ Fl} {beh : O → ℝ → ℂ → Fl → Except Err (SMat ℂ)} {s : St ℂ O ℝ Fl} (hlaw : Lawful ops beh) (hr : r ≠ 0)
    (h : Built ops beh nan (r : ℂ) names net bh s ph) (hpl : net.Plain) {V I V' I' : Node → ℂ} (hk : ∀ j ∈ net.juncs, j.Kirchhoff V I) (hk' : ∀ j ∈ net.juncs, j.Kirchhoff V' I') :
    (net.free.map fun n => V n * I' n).sum = (s.blocks.map fun b => (b.ports.map fun q => V (.blk b.name q) * I' (.blk b.name q)).sum).sum -
      (net.loads.map fun x => V x.1 * I' x.1).sum := by
  have hrc : (r : ℂ) ≠ 0 := by exact_mod_cast hr
  have hv : ∀ n, volt (wavesOf r V I) n = V n := fun n => congrFun (wavesOf_eq hr V I).1 n
  have hc : ∀ n, curr (wavesOf r V' I') n = r * I' n := fun n => by
    have : curr (wavesOf r V' I') n / (r : ℂ) = I' n := congrFun (wavesOf_eq hr V' I').2 n
    rw [← this]; field_simp
  have t := C23_tellegen hlaw h hpl (fun j hj => kirchhoff_waves hr (hk j hj)) (fun j hj => kirchhoff_waves hr (hk' j hj))
  simp only [hv, hc] at t
  have e : ∀ l : List Node, (l.map fun n => V n * (r * I' n)).sum = r * (l.map fun n => V n * I' n).sum := by
    intro l
    induction l with
    | nil => simp
    | cons a l ih => simp only [List.map_cons, List.sum_cons, ih]; ring
  rw [e, e, e, ← mul_add] at t
  have t := mul_left_cancel₀ hrc t
  have hb : (net.blkNodes.map fun n => V n * I' n).sum = (s.blocks.map fun b => (b.ports.map fun q => V (.blk b.name q) * I' (.blk b.name q)).sum).sum := by
    unfold Net.blkNodes
    rw [sum_flatMap, (h.inv hlaw).rep.rep.blks]
    simp only [List.map_map, Function.comp_def]
    rfl
  rw [hb, List.map_map] at t
  rw [t]
  simp only [Function.comp_def]
  ring

/-- the power a load takes, from Ohm's law -/
theorem ohm_takes (hr : r ≠ 0) {l : Load ℂ} {V I : ℂ} (h : l.Ohm (r : ℂ) V I) : -(V * star I).re = l.takes r V I := by
  cases l with
  | Z z =>
    change V = z * (-I) at h
    change _ = z.re * ‖I‖ ^ 2
    rw [h, ← Complex.normSq_eq_norm_sq, Complex.normSq_apply]
    simp [Complex.mul_re, Complex.mul_im]
    ring
  | Y y =>
    change -I = y * V at h
    change _ = y.re * ‖V‖ ^ 2
    have hI : I = -(y * V) := by rw [← h]; ring
    rw [hI, ← Complex.normSq_eq_norm_sq, Complex.normSq_apply]
    simp [Complex.mul_re, Complex.mul_im]
    ring
  | RC ρ =>
    change V + r * I = ρ * (V - r * I) at h
    change _ = (1 - ‖ρ‖ ^ 2) * ‖V - r * I‖ ^ 2 / (4 * (r : ℂ).re)
    have e : ‖V + r * I‖ ^ 2 = ‖ρ‖ ^ 2 * ‖V - r * I‖ ^ 2 := by rw [h, norm_mul]; ring
    have e2 : ‖V + r * I‖ ^ 2 - ‖V - r * I‖ ^ 2 = 4 * r * (V * star I).re := by
      rw [← Complex.normSq_eq_norm_sq, ← Complex.normSq_eq_norm_sq, Complex.normSq_apply, Complex.normSq_apply]
      simp [Complex.mul_re, Complex.mul_im]
      ring
    have hr4 : (4 * r : ℝ) ≠ 0 := by positivity
    rw [Complex.ofReal_re, eq_div_iff hr4]
    linear_combination e2 - e

/-! ## the property -/

variable {ode : TRL.Ode} {npc : Bool} {face : Face} (n : ℕ) {s s' : St ℂ (partTower (Fl := Fl) ode npc face n).O ℝ Fl}

/-- **C82 (the state).** What `Solution` reports at the nodes of a circuit of lines, lumped elements, couplers, stored matrices and nested circuits is the physical state in
which the waves given enter its ports: voltages and currents that obey all laws; every other state with these waves has the same voltages and currents. -/
theorem C82_solution {E : List (Node × ℂ)} {z : Option ℝ} {t : List (Node × Quad ℂ)} (hr : r ≠ 0) (hz : z.getD r ≠ 0)
    (h : Built (partTower ode npc face n).ops (partTower ode npc face n).beh nan (r : ℂ) names net bh s ph) (hph : ph ≠ .reloaded)
    (hord : names = [] ∨ names = s.ports ∨ s.aliased = true) (hp : ∀ b ∈ s.blocks, (partTower ode npc face n).proper b.obj f)
    (hs : solution (partTower ode npc face n).ops s f E (z.map Complex.ofReal) fl = (s', .ok t)) :
    ∃ V I : Node → ℂ, PhysicsL (fun o => (partTower ode npc face n).law o f fl) net r s.blocks V I ∧
      (∀ p ∈ net.free, dictGet p E = some ((V p + (z.getD r : ℝ) * I p) / 2)) ∧
      (∀ m, dictGet m t = if m ∈ net.nodes then some ⟨V m, I m, (V m + (z.getD r : ℝ) * I m) / 2, (V m - (z.getD r : ℝ) * I m) / 2⟩ else none) ∧
      ∀ V' I', PhysicsL (fun o => (partTower ode npc face n).law o f fl) net r s.blocks V' I' →
        (∀ p ∈ net.free, dictGet p E = some ((V' p + (z.getD r : ℝ) * I' p) / 2)) → ∀ m ∈ net.nodes, V' m = V m ∧ I' m = I m := by
  have hrc : (r : ℂ) ≠ 0 := by exact_mod_cast hr
  have hlaw := (partTower (Fl := Fl) ode npc face n).lawful
  have hob := fun b hb => (partTower (Fl := Fl) ode npc face n).obeys b.obj f r fl (hp b hb) hr
  have hzz : (z.map Complex.ofReal).getD (r : ℂ) = ((z.getD r : ℝ) : ℂ) := by cases z <;> rfl
  obtain ⟨Sof, hS, w, hw, hE, ht⟩ := C30_solution hlaw h hph hrc hord hs
  obtain ⟨T, hT⟩ := solution_getS hlaw h hph hrc hs
  rw [hzz] at hE ht hT
  have hphys := (laws_physics (law := fun o => (partTower ode npc face n).law o f fl) rfl hr (h.inv hlaw) hS hob w).1 hw
  refine ⟨_, _, hphys, hE, ht, fun V' I' hV' hE' m hm => ?_⟩
  -- the voltages and currents at the ports are the same
  have k1 := (physics_of_laws hlaw hr hz h hph hob hT _ _).2 ⟨_, _, hphys, fun k => ⟨rfl, rfl⟩⟩
  have k2 := (physics_of_laws hlaw hr hz h hph hob hT _ _).2 ⟨_, _, hV', fun k => ⟨rfl, rfl⟩⟩
  have hperm : s'.ports.Perm net.free := ((Built.eval h hT).inv hlaw).rep.ports_perm
  have hin : ∀ p ∈ net.free, (volt w p + (z.getD r : ℝ) * (curr w p / r)) / 2 = (V' p + (z.getD r : ℝ) * I' p) / 2 := by
    intro p hpf
    have a := hE p hpf
    rw [hE' p hpf] at a
    exact (Option.some.inj a).symm
  have hout : ∀ k : Fin s'.ports.length, (volt w s'.ports[k] - (z.getD r : ℝ) * (curr w s'.ports[k] / r)) / 2 = (V' s'.ports[k] - (z.getD r : ℝ) * I' s'.ports[k]) / 2 := by
    intro k
    refine (congrFun k1 k).trans (Eq.trans ?_ (congrFun k2 k).symm)
    congr 1
    funext j
    exact hin _ (hperm.mem_iff.1 (List.getElem_mem _))
  have hzc : ((z.getD r : ℝ) : ℂ) ≠ 0 := by exact_mod_cast hz
  have hport : ∀ p ∈ net.free, volt w p = V' p ∧ curr w p / r = I' p := by
    intro p hpf
    obtain ⟨k, hk, rfl⟩ := List.getElem_of_mem (hperm.mem_iff.2 hpf)
    have a := hin _ hpf
    have b := hout ⟨k, hk⟩
    change (volt w s'.ports[k] - (z.getD r : ℝ) * (curr w s'.ports[k] / r)) / 2 = (V' s'.ports[k] - (z.getD r : ℝ) * I' s'.ports[k]) / 2 at b
    exact ⟨by linear_combination a + b, mul_left_cancel₀ hzc (by linear_combination a - b)⟩
  -- so they are the same everywhere
  obtain ⟨eV, eI⟩ := wavesOf_eq hr V' I'
  have hw' := (laws_physics (law := fun o => (partTower ode npc face n).law o f fl) rfl hr (h.inv hlaw) hS hob (wavesOf r V' I')).2 (by rw [eV, eI]; exact hV')
  obtain ⟨M, hM, -⟩ := own_transfer hlaw hr hz h hph hob hT
  have huni := ((C20_getS_sound hlaw h hph hM).2 Sof hS).unique w (wavesOf r V' I') hw hw' (fun p hpp => by
    obtain ⟨a, b⟩ := hport p (hperm.mem_iff.1 hpp)
    have e : w (.inn, p) = (volt w p + r * (curr w p / r)) / 2 := by unfold volt curr; field_simp; ring
    rw [e, a, b]
    rfl) m hm
  have v1 : V' m = volt w m := by
    rw [← eV]
    unfold volt
    rw [huni .inn, huni .out]
  have i1 : I' m = curr w m / r := by
    rw [← eI]
    unfold curr
    rw [huni .inn, huni .out]
  exact ⟨v1, i1⟩

/-- **C82 (power).** The power reported at the free ports is the power reported to enter the blocks plus the power taken by the loads; the reactive power balances, too. -/
theorem C82_power_balance {E : List (Node × ℂ)} {z : Option ℝ} {t : List (Node × Quad ℂ)} (hr : r ≠ 0) (hz : z.getD r ≠ 0)
    (h : Built (partTower ode npc face n).ops (partTower ode npc face n).beh nan (r : ℂ) names net bh s ph) (hph : ph ≠ .reloaded) (hpl : net.Plain)
    (hord : names = [] ∨ names = s.ports ∨ s.aliased = true) (hp : ∀ b ∈ s.blocks, (partTower ode npc face n).proper b.obj f)
    (hs : solution (partTower ode npc face n).ops s f E (z.map Complex.ofReal) fl = (s', .ok t)) :
    (net.free.map (reportedPower t)).sum = (s.blocks.map fun b => (b.ports.map fun q => reportedPower t (.blk b.name q)).sum).sum -
        (net.loads.map fun x => reportedPower t x.1).sum ∧
    ∀ x ∈ net.loads, ∃ q, dictGet x.1 t = some q ∧ -(reportedPower t x.1).re = x.2.takes r q.V q.I := by
  have hlaw := (partTower (Fl := Fl) ode npc face n).lawful
  obtain ⟨V, I, hphys, -, ht, -⟩ := C82_solution n hr hz h hph hord hp hs
  have hrep := (h.inv hlaw).rep
  have hP : ∀ m ∈ net.nodes, reportedPower t m = V m * star (I m) := by
    intro m hm
    unfold reportedPower
    rw [ht, if_pos hm]
    rfl
  have hfree : ∀ m ∈ net.free, m ∈ net.nodes := fun m hm => hrep.nodes_split.mem_iff.2 (List.mem_append_right _ hm)
  have hload : ∀ x ∈ net.loads, x.1 ∈ net.nodes := by
    intro x hx
    refine hrep.nodes_split.mem_iff.2 (List.mem_append_left _ ?_)
    unfold Net.used
    simp only [List.mem_append, List.mem_map]
    exact Or.inr ⟨x, hx, rfl⟩
  have hblk : ∀ b ∈ s.blocks, ∀ q ∈ b.ports, Node.blk b.name q ∈ net.nodes := by
    intro b hb q hq
    refine h.nodes_perm.mem_iff.2 (List.mem_append_left _ ?_)
    have : Node.blk b.name q ∈ net.blkNodes := by
      unfold Net.blkNodes
      rw [hrep.rep.blks]
      refine List.mem_flatMap.2 ⟨(b.name, b.ports), List.mem_map.2 ⟨b, hb, rfl⟩, List.mem_map.2 ⟨q, hq, rfl⟩⟩
    exact List.mem_append_left _ this
  refine ⟨?_, fun x hx => ⟨_, by rw [ht, if_pos (hload x hx)], ?_⟩⟩
  · rw [List.map_congr_left fun m hm => hP m (hfree m hm), List.map_congr_left fun b hb => congrArg List.sum (List.map_congr_left fun q hq => hP _ (hblk b hb q hq)),
      List.map_congr_left fun x hx => hP x.1 (hload x hx)]
    exact physics_power hlaw hr h hpl hphys.juncs fun j hj => kirchhoff_star (hphys.juncs j hj)
  · rw [hP _ (hload x hx)]
    exact ohm_takes hr (hphys.loads x hx)

/-- an object that cannot deliver power takes some -/
theorem law_absorbs {O : Type} {ops : ObjOps ℂ O ℝ Fl} {beh : O → ℝ → ℂ → Fl → Except Err (SMat ℂ)} {law : O → (v i : ℕ → ℂ) → Prop} (hlaw : Lawful ops beh) (hr : 0 < r)
    {o : O} {T : SMat ℂ} (hT : beh o f (r : ℂ) fl = .ok T) (hpas : Passive T.m) (hob : Obeys ops beh law f r fl o) {v i : ℕ → ℂ} (h : law o v i) :
    0 ≤ ∑ k : Fin (ops.len o), (v k * star (i k)).re := by
  have h1 := (hob T hT v i).2 h
  have h2 := of_at (hlaw.sized o f r fl T hT) (fun n m => Passive m) hpas
  exact portPower_passive hr h2 (V := fun k => v k) (I := fun k => i k) (funext fun k => h1 k k.2)

/-- **C82 (nothing is gained).** In a circuit of objects that cannot deliver power with passive loads, every block and every load takes a reported power that is not negative, and
no load takes more than the power reported to enter the circuit at its ports. -/
theorem C82_efficiency {E : List (Node × ℂ)} {z : Option ℝ} {t : List (Node × Quad ℂ)} (hr : 0 < r) (hz : z.getD r ≠ 0)
    (h : Built (partTower ode npc face n).ops (partTower ode npc face n).beh nan (r : ℂ) names net bh s ph) (hph : ph ≠ .reloaded) (hpl : net.Plain)
    (hord : names = [] ∨ names = s.ports ∨ s.aliased = true) (hp : ∀ b ∈ s.blocks, (partTower ode npc face n).proper b.obj f ∧ (partTower ode npc face n).diss b.obj f)
    (hl : ∀ x ∈ net.loads, x.2.Passive) (hs : solution (partTower ode npc face n).ops s f E (z.map Complex.ofReal) fl = (s', .ok t)) :
    (∀ b ∈ s.blocks, 0 ≤ (b.ports.map fun q => (reportedPower t (.blk b.name q)).re).sum) ∧
    ∀ x ∈ net.loads, 0 ≤ -(reportedPower t x.1).re ∧ -(reportedPower t x.1).re ≤ (net.free.map fun p => (reportedPower t p).re).sum := by
  have hlaw := (partTower (Fl := Fl) ode npc face n).lawful
  have hrc : (r : ℂ) ≠ 0 := by exact_mod_cast hr.ne'
  obtain ⟨hbal, hloads⟩ := C82_power_balance n hr.ne' hz h hph hpl hord (fun b hb => (hp b hb).1) hs
  obtain ⟨Sof, hS, -⟩ := C30_solution hlaw h hph hrc hord hs
  obtain ⟨V, I, hphys, -, ht, -⟩ := C82_solution n hr.ne' hz h hph hord (fun b hb => (hp b hb).1) hs
  have hinv := h.inv hlaw
  have hb : ∀ b ∈ s.blocks, 0 ≤ (b.ports.map fun q => (reportedPower t (.blk b.name q)).re).sum := by
    intro b hb
    have hans : (partTower ode npc face n).beh b.obj f (r : ℂ) fl = .ok (Sof b.name) := by
      have hbl : net.blks = s.blocks.map fun b => (b.name, b.ports) := hinv.rep.rep.blks
      have := hS (b.name, b.ports) (by rw [hbl]; exact List.mem_map.2 ⟨b, hb, rfl⟩)
      rw [← hinv.bhv b hb] at this
      exact this
    have key := law_absorbs hlaw hr hans ((partTower ode npc face n).passive _ _ _ _ _ (hp b hb).1 (hp b hb).2 hr hans)
      ((partTower ode npc face n).obeys b.obj f r fl (hp b hb).1 hr.ne') (hphys.parts b hb)
    have hlen : b.ports.length = (partTower (Fl := Fl) ode npc face n).ops.len b.obj := hinv.rep.rep.blen b hb
    rw [← hlen] at key
    rw [sum_map_fin]
    refine le_of_le_of_eq key (Finset.sum_congr rfl fun k _ => ?_)
    have hm : Node.blk b.name b.ports[k] ∈ net.nodes := by
      refine h.nodes_perm.mem_iff.2 (List.mem_append_left _ (List.mem_append_left _ ?_))
      unfold Net.blkNodes
      rw [hinv.rep.rep.blks]
      refine List.mem_flatMap.2 ⟨(b.name, b.ports), List.mem_map.2 ⟨b, hb, rfl⟩, List.mem_map.2 ⟨_, List.getElem_mem _, rfl⟩⟩
    unfold reportedPower
    rw [ht, if_pos hm]
    simp
  have hx0 : ∀ x ∈ net.loads, 0 ≤ -(reportedPower t x.1).re := by
    intro x hx
    obtain ⟨q, -, hq⟩ := hloads x hx
    rw [hq]
    have hpx := hl x hx
    cases hx2 : x.2 with
    | Z z => rw [hx2] at hpx; exact mul_nonneg hpx (by positivity)
    | Y y => rw [hx2] at hpx; exact mul_nonneg hpx (by positivity)
    | RC ρ =>
      rw [hx2] at hpx
      have h1 : ‖ρ‖ ≤ 1 := hpx
      have h2 : ‖ρ‖ ^ 2 ≤ 1 := by nlinarith [norm_nonneg ρ]
      show 0 ≤ (1 - ‖ρ‖ ^ 2) * ‖q.V - r * q.I‖ ^ 2 / (4 * (r : ℂ).re)
      rw [Complex.ofReal_re]
      exact div_nonneg (mul_nonneg (by linarith) (by positivity)) (by linarith)
  refine ⟨hb, fun x hx => ⟨hx0 x hx, ?_⟩⟩
  have hre : ∀ (l : List Node), (l.map (reportedPower t)).sum.re = (l.map fun p => (reportedPower t p).re).sum := by
    intro l
    induction l with
    | nil => simp
    | cons a l ih => simp only [List.map_cons, List.sum_cons, Complex.add_re, ih]
  have hbre : ∀ (l : List (Blk (partTower (Fl := Fl) ode npc face n).O)), (l.map fun (b : Blk (partTower (Fl := Fl) ode npc face n).O) => (b.ports.map fun q => reportedPower t (.blk b.name q)).sum).sum.re =
      (l.map fun (b : Blk (partTower (Fl := Fl) ode npc face n).O) => (b.ports.map fun q => (reportedPower t (.blk b.name q)).re).sum).sum := by
    intro l
    induction l with
    | nil => simp
    | cons a l ih =>
      simp only [List.map_cons, List.sum_cons, Complex.add_re, ih]
      congr 1
      induction a.ports with
      | nil => simp
      | cons q m ih => simp only [List.map_cons, List.sum_cons, Complex.add_re, ih]
  have hlre : ∀ (l : List (Node × Load ℂ)), -(l.map fun x => reportedPower t x.1).sum.re = (l.map fun x => -(reportedPower t x.1).re).sum := by
    intro l
    induction l with
    | nil => simp
    | cons a l ih => simp only [List.map_cons, List.sum_cons, Complex.add_re, ← ih]; ring
  have h1 := congrArg Complex.re hbal
  rw [Complex.sub_re, hre, hbre, sub_eq_add_neg, hlre] at h1
  have h2 : 0 ≤ (s.blocks.map fun b => (b.ports.map fun q => (reportedPower t (.blk b.name q)).re).sum).sum := List.sum_nonneg (by
    intro y hy
    obtain ⟨b, hbm, rfl⟩ := List.mem_map.1 hy
    exact hb b hbm)
  have h3 : -(reportedPower t x.1).re ≤ (net.loads.map fun x => -(reportedPower t x.1).re).sum := by
    refine List.single_le_sum (fun y hy => ?_) _ (List.mem_map.2 ⟨x, hx, rfl⟩)
    obtain ⟨x', hx', rfl⟩ := List.mem_map.1 hy
    exact hx0 x' hx'
  linarith

end

/-! ## a concrete circuit: a through connection loaded with a reflection of 1/2 -/

namespace ExSol
open ExParts

variable (ode : TRL.Ode)

noncomputable abbrev kind : PartKind Unit := partTower ode false ExParts.face 0

/-- a through connection, stored on 50 Ω -/
noncomputable def thr : Part := .base 2 (fun _ => .ok !![0, 1; 1, 0]) 50

noncomputable def d0 : St ℂ (kind ode).O ℝ Unit := St.init ((50 : ℝ) : ℂ) []
noncomputable def d1 : St ℂ (kind ode).O ℝ Unit := (addblock (kind ode).ops 0 (d0 ode) "A" thr .none 0).1
noncomputable def d2 : St ℂ (kind ode).O ℝ Unit := (terminate (d1 ode) (.blk "A" "2") (.RC (1/2))).1

theorem built : ∃ bh, Built (kind ode).ops (kind ode).beh 0 ((50 : ℝ) : ℂ) [] Ex.netc bh (d2 ode) .building := by
  have h0 : Built (kind ode).ops (kind ode).beh 0 ((50 : ℝ) : ℂ) [] Net.empty (fun _ _ _ _ => .error .valueError) (d0 ode) .building := Built.init _
  have h1 := Built.addblock h0 (by decide) (ports := ["1", "2"]) rfl (by decide)
    (show addblock (kind ode).ops 0 (d0 ode) "A" thr .none 0 = (d1 ode, .ok ()) from Prod.ext rfl rfl)
  have h2 := Built.terminate h1 (l := .RC (1/2)) rfl
    (show terminate (d1 ode) (.blk "A" "2") (.RC (1/2)) = (d2 ode, .ok ()) from Prod.ext rfl rfl)
  exact ⟨_, h2⟩

theorem objs : (d2 ode).blocks.map Blk.obj = [thr] := rfl

theorem obj {b : Blk (kind ode).O} (h : b ∈ (d2 ode).blocks) : b.obj = thr := by
  have := List.mem_map_of_mem (f := Blk.obj) h
  rw [objs] at this
  exact List.mem_singleton.1 this

theorem beh_thr (f : ℝ) : (kind ode).beh thr f ((50 : ℝ) : ℂ) () = .ok ⟨2, !![0, 1; 1, 0]⟩ := by
  show (Part.getS ode false thr f ((50 : ℝ) : ℂ)).2 = _
  unfold Part.getS thr
  rw [if_neg (by simp)]
  simp [RfBase.getS, RfBase.getSs, mapE, RfBase.arr, RfBase.first, Except.map]

/-- the circuit answers -/
theorem answers (f : ℝ) : ∃ s' S, getS (kind ode).ops (d2 ode) f (some ((50 : ℝ) : ℂ)) () = (s', .ok S) := by
  obtain ⟨bh, h⟩ := built ode
  have hlaw := (kind ode).lawful
  have hS : Given Ex.netc bh f ((50 : ℝ) : ℂ) () fun _ => ⟨2, !![0, 1; 1, 0]⟩ := by
    intro x hx
    rw [(h.inv hlaw).rep.rep.blks] at hx
    simp only [List.mem_map] at hx
    obtain ⟨b, hb, rfl⟩ := hx
    rw [← (h.inv hlaw).bhv b hb, obj ode hb]
    exact beh_thr ode f
  obtain ⟨s', S, hs⟩ := (C20_getS_complete hlaw h (by decide) (f := f) (fl := ()) hS (by decide) (Or.inl (by
    obtain ⟨hi, hb, -⟩ := h.all hlaw
    obtain ⟨-, ha, -⟩ := hb rfl
    simp [St.names, ha, hi.nm]))).2 Ex.solvable_c
  exact ⟨s', S, getS_own_any hlaw h hs⟩

/-- C82 is met by a circuit: `Solution` answers for a wave of 1 V at its port, and the load takes power, at most what enters -/
theorem C82_witness (f : ℝ) : ∃ s' t bh, Built (kind ode).ops (kind ode).beh 0 ((50 : ℝ) : ℂ) [] Ex.netc bh (d2 ode) .building ∧
    solution (kind ode).ops (d2 ode) f [(.blk "A" "1", 1)] none () = (s', .ok t) ∧
    -(reportedPower t (.blk "A" "2")).re ≤ (reportedPower t (.blk "A" "1")).re ∧ 0 ≤ -(reportedPower t (.blk "A" "2")).re := by
  obtain ⟨bh, h⟩ := built ode
  have hlaw := (kind ode).lawful
  obtain ⟨s', S, hS⟩ := answers ode f
  obtain ⟨t, ht⟩ := C30_solution_answers hlaw h (by decide) (by norm_num) (E := [(.blk "A" "1", 1)]) (z := none) (by norm_num)
    (by decide) hS
  obtain ⟨-, hl⟩ := C82_efficiency 0 (z := none) (by norm_num) (by norm_num) h (by decide) ⟨rfl, rfl⟩ (Or.inl rfl)
    (fun b hb => by
      rw [obj ode hb]
      refine ⟨trivial, ?_⟩
      refine ⟨by norm_num, fun S hS a => ?_⟩
      injection hS with hS
      subst hS
      simp [power, Fin.sum_univ_two, Matrix.mulVec, dotProduct, add_comm])
    (by
      intro x hx
      simp only [Ex.netc, List.mem_cons, List.not_mem_nil, or_false] at hx
      subst hx
      show ‖(1/2 : ℂ)‖ ≤ 1
      norm_num) ht
  have := hl (.blk "A" "2", .RC (1/2)) (by simp [Ex.netc])
  refine ⟨s', t, bh, h, ht, ?_, this.1⟩
  have h2 := this.2
  have hf : Ex.netc.free = [.blk "A" "1"] := rfl
  rw [hf] at h2
  simpa using h2

end ExSol
end PyRFtk.Circuit
