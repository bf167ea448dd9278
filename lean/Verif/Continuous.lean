import Verif.Resonance
import Mathlib.Topology.Instances.Matrix
import Mathlib.Topology.Algebra.Order.LiminfLimsup
import Mathlib.Analysis.Normed.Module.FiniteDimension

/-!
# C91: the answers of a circuit vary continuously with the frequency
-/

set_option linter.unusedSectionVars false

namespace PyRFtk.Circuit

open Filter Topology

/-! ## specification -/

/-- the answers converge: the same size in the end, and every entry tends to that of the limit -/
def SMat.Tends {ι : Type*} (l : Filter ι) (T : ι → SMat ℂ) (T0 : SMat ℂ) : Prop :=
  (∀ᶠ k in l, (T k).n = T0.n) ∧ ∀ i j : ℕ, Tendsto (fun k => (T k).at i j) l (𝓝 (T0.at i j))

/-- `g` returns a matrix at `f0` and at all frequencies near it, and the matrix varies continuously at `f0` -/
def Steady (g : ℝ → Except Err (SMat ℂ)) (f0 : ℝ) : Prop :=
  ∃ T : ℝ → SMat ℂ, (∀ᶠ f in 𝓝 f0, g f = .ok (T f)) ∧ SMat.Tends (𝓝 f0) T (T f0)

/-- what `Solution` reports at a node varies continuously at `f0`: voltage, current, forward and reflected wave -/
def SteadyAt (g : ℝ → Except Err (List (Node × Quad ℂ))) (f0 : ℝ) (n : Node) : Prop :=
  ∃ (t : ℝ → List (Node × Quad ℂ)) (q : ℝ → Quad ℂ), (∀ᶠ f in 𝓝 f0, g f = .ok (t f) ∧ dictGet n (t f) = some (q f)) ∧
    ContinuousAt (fun f => (q f).V) f0 ∧ ContinuousAt (fun f => (q f).I) f0 ∧ ContinuousAt (fun f => (q f).Vf) f0 ∧ ContinuousAt (fun f => (q f).Vr) f0

/-- what varies continuously with the frequency: the parameters of a line of uniform parameters; a lumped element away from frequency 0; a stored or computed matrix when it does -/
def Part.Smooth (f0 : ℝ) : Part → Prop
  | .line l => l.constant = true ∧ ContinuousAt (fun f => l.z (2 * Real.pi * f) 0) f0 ∧ ContinuousAt (fun f => l.y (2 * Real.pi * f) 0) f0
  | .rlc _ => f0 ≠ 0
  | .base n g _ => ∃ A : ℝ → Matrix (Fin n) (Fin n) ℂ, (∀ᶠ f in 𝓝 f0, g f = .ok (A f)) ∧ ∀ i j, ContinuousAt (fun f => A f i j) f0

/-- every line, lumped element and stored matrix inside an object varies continuously, and every part of it answers at `f0` on the reference it is asked for there;
a circuit inside with an order of ports has it for its free ports -/
noncomputable def smoothAt {Fl : Type} [DecidableEq Fl] (ode : TRL.Ode) (npc : Bool) (face : Face) (f0 : ℝ) (fl : Fl) : (n : ℕ) → (partTower (Fl := Fl) ode npc face n).O → ℂ → Prop
  | 0 => fun (p : Part) z => p.Smooth f0 ∧ ∃ T, (p.getS ode npc f0 z).2 = .ok T
  | n + 1 => fun o z => Sum.elim (fun a => smoothAt ode npc face f0 fl n a z)
      (fun c => (c.st.names = [] ∨ c.st.names.Perm c.st.ports) ∧ (∃ T, (Circuit.getS (partTower (Fl := Fl) ode npc face n).ops c.st f0 (some z) fl).2 = .ok T) ∧
        ∀ b ∈ c.st.blocks, smoothAt ode npc face f0 fl n b.obj c.st.zbase) o

/-! ## proofs -/

section
variable {net : Net ℂ} {zb : ℂ}

/-- all nodes the laws mention are nodes of the network -/
structure Net.Tidy (net : Net ℂ) : Prop where
  blks : ∀ x ∈ net.blks, ∀ q ∈ x.2, .blk x.1 q ∈ net.nodes
  used : ∀ p ∈ net.used, p ∈ net.nodes
  news : ∀ j ∈ net.juncs, ∀ n ∈ j.new, n ∈ net.nodes
  crosses : ∀ x ∈ net.crosses, x.2 ∈ net.nodes

/-- laws survive in the limit -/
theorem laws_limit {ι : Type*} {l : Filter ι} [l.NeBot] {Sof : ι → String → SMat ℂ} {Sof0 : String → SMat ℂ} (ht : net.Tidy)
    (hS : ∀ x ∈ net.blks, ∀ i j : ℕ, Tendsto (fun k => (Sof k x.1).at i j) l (𝓝 ((Sof0 x.1).at i j)))
    {w : ι → Wave → ℂ} {w0 : Wave → ℂ} (hw : ∀ᶠ k in l, net.Laws zb (Sof k) (w k))
    (hlim : ∀ n ∈ net.nodes, ∀ d, Tendsto (fun k => w k (d, n)) l (𝓝 (w0 (d, n)))) : net.Laws zb Sof0 w0 := by
  have hmem : ∀ j ∈ net.juncs, ∀ p ∈ j.members ++ j.new.toList, p ∈ net.nodes := by
    intro j hj p hp
    rcases List.mem_append.1 hp with h | h
    · exact ht.used p (by
        unfold Net.used
        simp only [List.mem_append, List.mem_flatMap]
        exact Or.inl (Or.inl (Or.inl ⟨j, hj, h⟩)))
    · exact ht.news j hj p (by simpa using h)
  have hvolt : ∀ n ∈ net.nodes, Tendsto (fun k => volt (w k) n) l (𝓝 (volt w0 n)) := fun n hn => (hlim n hn .inn).add (hlim n hn .out)
  have hcurr : ∀ n ∈ net.nodes, Tendsto (fun k => curr (w k) n) l (𝓝 (curr w0 n)) := fun n hn => (hlim n hn .inn).sub (hlim n hn .out)
  have hsum : ∀ ps : List Node, (∀ p ∈ ps, p ∈ net.nodes) → Tendsto (fun k => (ps.map (curr (w k))).sum) l (𝓝 (ps.map (curr w0)).sum) := by
    intro ps
    induction ps with
    | nil => intro _; simp
    | cons p ps ih =>
      intro h
      simp only [List.map_cons, List.sum_cons]
      exact (hcurr p (h p (by simp))).add (ih fun q hq => h q (by simp [hq]))
  refine ⟨fun x hx i => ?_, ⟨fun j hj => ⟨fun p hp q hq => ?_, ?_⟩, fun x hx => ?_, fun x hx => ?_⟩, fun x hx => ?_⟩
  · have hn : ∀ i : Fin x.2.length, Node.blk x.1 x.2[i] ∈ net.nodes := fun i => ht.blks x hx _ (List.getElem_mem _)
    refine tendsto_nhds_unique_of_eventuallyEq (hlim _ (hn i) .out) (tendsto_finsetSum _ fun j _ => (hS x hx i j).mul (hlim _ (hn j) .inn)) ?_
    filter_upwards [hw] with k hk
    exact hk.1 x hx i
  · refine tendsto_nhds_unique_of_eventuallyEq (hvolt p (hmem j hj p hp)) (hvolt q (hmem j hj q hq)) ?_
    filter_upwards [hw] with k hk
    exact (hk.2.1.1 j hj).1 p hp q hq
  · have h1 := hsum j.members fun p hp => hmem j hj p (List.mem_append_left _ hp)
    have h2 : ∀ᶠ k in l, (j.members.map (curr (w k))).sum = match j.new with | none => 0 | some n => curr (w k) n := by
      filter_upwards [hw] with k hk
      exact (hk.2.1.1 j hj).2
    cases hj2 : j.new with
    | none =>
      rw [hj2] at h2
      exact tendsto_nhds_unique_of_eventuallyEq h1 tendsto_const_nhds h2
    | some n =>
      rw [hj2] at h2
      exact tendsto_nhds_unique_of_eventuallyEq h1 (hcurr n (ht.news j hj n (by simp [hj2]))) h2
  · have m1 : x.1 ∈ net.nodes := ht.used _ (by unfold Net.used; simp only [List.mem_append, List.mem_map]; exact Or.inl (Or.inl (Or.inr ⟨x, hx, rfl⟩)))
    have m2 := ht.crosses x hx
    refine ⟨tendsto_nhds_unique_of_eventuallyEq (hlim _ m1 .inn) (hlim _ m2 .out) ?_, tendsto_nhds_unique_of_eventuallyEq (hlim _ m1 .out) (hlim _ m2 .inn) ?_⟩
    · filter_upwards [hw] with k hk
      exact (hk.2.1.2.1 x hx).1
    · filter_upwards [hw] with k hk
      exact (hk.2.1.2.1 x hx).2
  · have m1 : x.1 ∈ net.nodes := ht.used _ (by
      unfold Net.used; simp only [List.mem_append, List.mem_flatMap]; exact Or.inl (Or.inr ⟨x, hx, by simp⟩))
    have m2 : x.2 ∈ net.nodes := ht.used _ (by
      unfold Net.used; simp only [List.mem_append, List.mem_flatMap]; exact Or.inl (Or.inr ⟨x, hx, by simp⟩))
    refine ⟨tendsto_nhds_unique_of_eventuallyEq (hlim _ m1 .inn) (hlim _ m2 .inn) ?_, tendsto_nhds_unique_of_eventuallyEq (hlim _ m1 .out) (hlim _ m2 .out) ?_⟩
    · filter_upwards [hw] with k hk
      exact (hk.2.1.2.2 x hx).1
    · filter_upwards [hw] with k hk
      exact (hk.2.1.2.2 x hx).2
  · have m1 : x.1 ∈ net.nodes := ht.used _ (by unfold Net.used; simp only [List.mem_append, List.mem_map]; exact Or.inr ⟨x, hx, rfl⟩)
    have hi := hlim _ m1 .inn
    have ho := hlim _ m1 .out
    have h2 : ∀ᶠ k in l, x.2.Law zb (w k (.inn, x.1)) (w k (.out, x.1)) := by
      filter_upwards [hw] with k hk
      exact hk.2.2 x hx
    cases hx2 : x.2 with
    | Z z =>
      rw [hx2] at h2
      exact tendsto_nhds_unique_of_eventuallyEq ((hi.add ho).const_mul zb) ((ho.sub hi).const_mul z) h2
    | Y y =>
      rw [hx2] at h2
      exact tendsto_nhds_unique_of_eventuallyEq (ho.sub hi) (((hi.add ho).const_mul zb).const_mul y) h2
    | RC r =>
      rw [hx2] at h2
      exact tendsto_nhds_unique_of_eventuallyEq hi (ho.const_mul r) h2

/-- the size of a state -/
noncomputable def size (nodes : List Node) (w : Wave → ℂ) : ℝ := (nodes.map fun n => ‖w (.inn, n)‖ + ‖w (.out, n)‖).sum

theorem size_nonneg (nodes : List Node) (w : Wave → ℂ) : 0 ≤ size nodes w :=
  List.sum_nonneg (by
    intro x hx
    obtain ⟨n, -, rfl⟩ := List.mem_map.1 hx
    positivity)

theorem le_size {nodes : List Node} {n : Node} (hn : n ∈ nodes) (d : Dir) (w : Wave → ℂ) : ‖w (d, n)‖ ≤ size nodes w := by
  have h1 : ‖w (.inn, n)‖ + ‖w (.out, n)‖ ≤ size nodes w := List.single_le_sum (by
    intro x hx
    obtain ⟨n, -, rfl⟩ := List.mem_map.1 hx
    positivity) _ (List.mem_map.2 ⟨n, hn, rfl⟩)
  have h2 := norm_nonneg (w (.inn, n))
  have h3 := norm_nonneg (w (.out, n))
  cases d <;> linarith

theorem size_smul (nodes : List Node) (c : ℂ) (w : Wave → ℂ) : size nodes (c • w) = ‖c‖ * size nodes w := by
  unfold size
  rw [← List.sum_map_mul_left]
  congr 1
  refine List.map_congr_left fun n _ => ?_
  simp only [Pi.smul_apply, smul_eq_mul, norm_mul]
  ring

theorem size_tends {ι : Type*} {l : Filter ι} {w : ι → Wave → ℂ} {w0 : Wave → ℂ} : ∀ {nodes : List Node},
    (∀ n ∈ nodes, ∀ d, Tendsto (fun k => w k (d, n)) l (𝓝 (w0 (d, n)))) → Tendsto (fun k => size nodes (w k)) l (𝓝 (size nodes w0))
  | [], _ => by simpa [size] using tendsto_const_nhds
  | n :: ns, h => by
    have h1 := size_tends (nodes := ns) fun m hm => h m (by simp [hm])
    have h2 := ((h n (by simp) .inn).norm.add (h n (by simp) .out).norm).add h1
    simpa [size] using h2

theorem size_congr {nodes : List Node} {w w' : Wave → ℂ} (h : ∀ n ∈ nodes, ∀ d, w (d, n) = w' (d, n)) : size nodes w = size nodes w' := by
  unfold size
  congr 1
  exact List.map_congr_left fun n hn => by rw [h n hn .inn, h n hn .out]

/-- if the excitations determine the waves, the waves follow excitations and matrices continuously -/
theorem waves_tend {ι : Type*} {l : Filter ι} {Sof : ι → String → SMat ℂ} {Sof0 : String → SMat ℂ} (ht : net.Tidy) {ports : List Node} (hports : ∀ p ∈ ports, p ∈ net.nodes)
    (hS : ∀ x ∈ net.blks, ∀ i j : ℕ, Tendsto (fun k => (Sof k x.1).at i j) l (𝓝 ((Sof0 x.1).at i j)))
    (hu : ∀ w w', net.Laws zb Sof0 w → net.Laws zb Sof0 w' → (∀ p ∈ ports, w (.inn, p) = w' (.inn, p)) → ∀ n ∈ net.nodes, ∀ d, w (d, n) = w' (d, n))
    {w : ι → Wave → ℂ} {w0 : Wave → ℂ} (hw : ∀ᶠ k in l, net.Laws zb (Sof k) (w k)) (hw0 : net.Laws zb Sof0 w0)
    (he : ∀ p ∈ ports, Tendsto (fun k => w k (.inn, p)) l (𝓝 (w0 (.inn, p)))) :
    ∀ n ∈ net.nodes, ∀ d, Tendsto (fun k => w k (d, n)) l (𝓝 (w0 (d, n))) := by
  intro n hn d
  rw [tendsto_iff_ultrafilter]
  intro U hU
  set t : ι → ℝ := fun k => (1 + size net.nodes (w k))⁻¹ with htdef
  have hpos : ∀ k, 0 < 1 + size net.nodes (w k) := fun k => by have := size_nonneg net.nodes (w k); linarith
  have ht0 : ∀ k, 0 < t k := fun k => inv_pos.2 (hpos k)
  have ht1 : ∀ k, t k ≤ 1 := fun k => inv_le_one_of_one_le₀ (by have := size_nonneg net.nodes (w k); linarith)
  obtain ⟨T, -, hT⟩ := (isCompact_Icc (a := (0 : ℝ)) (b := 1)).ultrafilter_le_nhds' (U.map t) (by
    show t ⁻¹' _ ∈ U
    exact Filter.univ_mem' fun k => ⟨(ht0 k).le, ht1 k⟩)
  have hT : Tendsto t U (𝓝 T) := hT
  have hx : ∀ m, m ∈ net.nodes → ∀ e, ∃ a : ℂ, Tendsto (fun k => (t k : ℂ) * w k (e, m)) U (𝓝 a) := by
    intro m hm e
    obtain ⟨a, -, ha⟩ := (isCompact_closedBall (0 : ℂ) 1).ultrafilter_le_nhds' (U.map fun k => (t k : ℂ) * w k (e, m)) (by
      show (fun k => (t k : ℂ) * w k (e, m)) ⁻¹' _ ∈ U
      refine Filter.univ_mem' fun k => ?_
      show _ ∈ Metric.closedBall (0 : ℂ) 1
      rw [mem_closedBall_zero_iff, norm_mul, Complex.norm_real, Real.norm_eq_abs, abs_of_pos (ht0 k)]
      have h1 := le_size hm e (w k)
      rw [htdef]
      show (1 + size net.nodes (w k))⁻¹ * _ ≤ 1
      rw [inv_mul_le_iff₀ (hpos k)]
      linarith)
    exact ⟨a, ha⟩
  choose! X hX using fun m => hx m
  let x0 : Wave → ℂ := fun y => X y.2 y.1
  have hx0 : ∀ m ∈ net.nodes, ∀ e, Tendsto (fun k => ((t k : ℂ) • w k) (e, m)) U (𝓝 (x0 (e, m))) := fun m hm e => hX m hm e
  have hlaw : net.Laws zb Sof0 x0 := laws_limit (l := (U : Filter ι)) ht (fun x hx i j => (hS x hx i j).mono_left hU) (w := fun k => (t k : ℂ) • w k)
    ((hw.filter_mono hU).mono fun k hk => hk.smul _) hx0
  have hTc : Tendsto (fun k => (t k : ℂ)) U (𝓝 (T : ℂ)) := (Complex.continuous_ofReal.tendsto T).comp hT
  have hsame := hu x0 ((T : ℂ) • w0) hlaw (hw0.smul _) (fun p hp => by
    refine tendsto_nhds_unique (hx0 p (hports p hp) .inn) ?_
    exact hTc.mul ((he p hp).mono_left hU))
  have hsz := size_tends (l := (U : Filter ι)) (w := fun k => (t k : ℂ) • w k) hx0
  have hsz2 : Tendsto (fun k => size net.nodes ((t k : ℂ) • w k)) U (𝓝 (1 - T)) := by
    refine (tendsto_const_nhds.sub hT).congr fun k => ?_
    rw [size_smul, Complex.norm_real, Real.norm_eq_abs, abs_of_pos (ht0 k)]
    have := (hpos k).ne'
    simp only [htdef]
    field_simp
    ring
  have e1 := tendsto_nhds_unique hsz hsz2
  rw [size_congr hsame, size_smul, Complex.norm_real] at e1
  have hTn : T ≠ 0 := by
    rintro rfl
    simp at e1
  have hTcn : (T : ℂ) ≠ 0 := by exact_mod_cast hTn
  have h3 := (hx0 n hn d).div hTc hTcn
  rw [hsame n hn d] at h3
  have h4 : ((T : ℂ) • w0) (d, n) / (T : ℂ) = w0 (d, n) := by
    simp only [Pi.smul_apply, smul_eq_mul]
    field_simp
  rw [h4] at h3
  refine h3.congr fun k => ?_
  have : (t k : ℂ) ≠ 0 := by exact_mod_cast (ht0 k).ne'
  show (t k : ℂ) * w k (d, n) / (t k : ℂ) = w k (d, n)
  field_simp

/-- near a network whose excitations determine its waves all networks are such -/
theorem unique_near {ι : Type*} {l : Filter ι} {Sof : ι → String → SMat ℂ} {Sof0 : String → SMat ℂ} (ht : net.Tidy) {ports : List Node} (hports : ∀ p ∈ ports, p ∈ net.nodes)
    (hS : ∀ x ∈ net.blks, ∀ i j : ℕ, Tendsto (fun k => (Sof k x.1).at i j) l (𝓝 ((Sof0 x.1).at i j)))
    (hu : ∀ w w', net.Laws zb Sof0 w → net.Laws zb Sof0 w' → (∀ p ∈ ports, w (.inn, p) = w' (.inn, p)) → ∀ n ∈ net.nodes, ∀ d, w (d, n) = w' (d, n)) :
    ∀ᶠ k in l, ∀ w, net.Laws zb (Sof k) w → (∀ p ∈ ports, w (.inn, p) = 0) → ∀ n ∈ net.nodes, ∀ d, w (d, n) = 0 := by
  by_contra hne
  rw [Filter.not_eventually] at hne
  set A : Set ι := {k | ¬ ∀ w, net.Laws zb (Sof k) w → (∀ p ∈ ports, w (.inn, p) = 0) → ∀ n ∈ net.nodes, ∀ d, w (d, n) = 0} with hA
  have hnb : (l ⊓ 𝓟 A).NeBot := Filter.frequently_mem_iff_neBot.1 hne
  have hch : ∀ k ∈ A, ∃ w, net.Laws zb (Sof k) w ∧ (∀ p ∈ ports, w (.inn, p) = 0) ∧ size net.nodes w = 1 := by
    intro k hk
    simp only [hA, Set.mem_ofPred_eq] at hk
    push Not at hk
    obtain ⟨w, h1, h2, n, hn, d, h3⟩ := hk
    have hs : 0 < size net.nodes w := lt_of_lt_of_le (norm_pos_iff.2 h3) (le_size hn d w)
    refine ⟨((size net.nodes w)⁻¹ : ℂ) • w, h1.smul _, fun p hp => by simp [h2 p hp], ?_⟩
    rw [size_smul, norm_inv, Complex.norm_real, Real.norm_eq_abs, abs_of_pos hs, inv_mul_cancel₀ hs.ne']
  choose! W hW1 hW2 hW3 using hch
  have hev : ∀ᶠ k in l ⊓ 𝓟 A, k ∈ A := Filter.eventually_inf_principal.2 (Filter.Eventually.of_forall fun k hk => hk)
  have h0 : net.Laws zb Sof0 (0 : Wave → ℂ) := by
    have hlim : ∀ n ∈ net.nodes, ∀ d : Dir, Tendsto (fun k : ι => (0 : Wave → ℂ) (d, n)) (l ⊓ 𝓟 A) (𝓝 ((0 : Wave → ℂ) (d, n))) := fun n _ d => tendsto_const_nhds
    exact laws_limit (l := l ⊓ 𝓟 A) ht (fun x hx i j => (hS x hx i j).mono_left inf_le_left) (hev.mono fun k hk => by
      have := (hW1 k hk).smul 0
      rwa [zero_smul] at this) hlim
  have hlim := waves_tend (l := l ⊓ 𝓟 A) ht hports (fun x hx i j => (hS x hx i j).mono_left inf_le_left) hu (w := W) (hev.mono hW1) h0 (fun p hp => by
    refine (tendsto_const_nhds (x := (0 : ℂ))).congr' ?_
    filter_upwards [hev] with k hk
    rw [hW2 k hk p hp])
  have h1 := size_tends hlim
  have h2 : size net.nodes (0 : Wave → ℂ) = 0 := by simp [size]
  rw [h2] at h1
  have h3 : Tendsto (fun k => size net.nodes (W k)) (l ⊓ 𝓟 A) (𝓝 1) := (tendsto_const_nhds (x := (1 : ℝ))).congr' (by
    filter_upwards [hev] with k hk
    rw [hW3 k hk])
  exact zero_ne_one (tendsto_nhds_unique h1 h3)

end

section generic
variable {Fl : Type} [DecidableEq Fl] {O : Type} {ops : ObjOps ℂ O ℝ Fl} {beh : O → ℝ → ℂ → Fl → Except Err (SMat ℂ)}
  {nan zb : ℂ} {f0 : ℝ} {names : List Node} {net : Net ℂ} {bh : Behave ℂ ℝ Fl} {s s' : St ℂ O ℝ Fl} {ph : Phase} {fl : Fl}

theorem Built.tidy (hlaw : Lawful ops beh) (h : Built ops beh nan zb names net bh s ph) : net.Tidy := by
  have hp := h.nodes_perm
  refine ⟨fun x hx q hq => hp.mem_iff.2 ?_, (h.inv hlaw).rep.rep.usub, fun j hj n hn => hp.mem_iff.2 ?_, fun x hx => hp.mem_iff.2 ?_⟩
  · simp only [List.mem_append, Net.blkNodes, List.mem_flatMap, List.mem_map]
    exact Or.inl (Or.inl ⟨x, hx, q, hq, rfl⟩)
  · simp only [List.mem_append, List.mem_flatMap]
    exact Or.inl (Or.inr ⟨j, hj, by simpa using hn⟩)
  · simp only [List.mem_append, List.mem_map]
    exact Or.inr ⟨x, hx, rfl⟩

theorem at_eq_sum {S : SMat ℂ} {n : ℕ} {i j : Fin n} : ∑ k : Fin n, S.at i k * (if k = j then 1 else 0) = S.at i j := by
  simp

theorem at_out {S : SMat ℂ} {i j : ℕ} (h : ¬ (i < S.n ∧ j < S.n)) : S.at i j = 0 := by
  unfold SMat.at
  rw [dif_neg h]

/-- one evaluation on the circuit's own reference -/
theorem own_steady (hlaw : Lawful ops beh) (h : Built ops beh nan zb names net bh s ph) (hph : ph ≠ .reloaded) (hfree : net.free ≠ [])
    (hnames : s.names = [] ∨ s.names.Perm net.free) (hb : ∀ b ∈ s.blocks, Steady (fun f => beh b.obj f zb fl) f0)
    (hok : ∃ s' S, getS ops s f0 none fl = (s', .ok S)) : Steady (fun f => (get1S ops s f fl).2) f0 := by
  obtain ⟨hinv, -, hc⟩ := h.all hlaw
  have hp : s.ports ≠ [] := fun e => hfree (by have := hinv.rep.ports_perm; rw [e] at this; exact this.symm.eq_nil)
  have hcond : s.names = [] ∨ s.names.Perm s.ports := hnames.imp_right fun e => e.trans hinv.rep.ports_perm.symm
  have hbad : ¬ Bad s := by
    rintro ⟨-, h1, h2⟩
    rcases hcond with e | e
    · exact h1 e
    · exact h2 e
  have hord : (ordered s).Perm net.free := by
    unfold ordered
    split
    · exact hinv.rep.ports_perm
    · rename_i hn
      rcases hnames with e | e
      · exact absurd (Or.inr e) hn
      · exact e
  have hnd := ordered_nodup hinv.rep hbad
  generalize hordd : ordered s = ord at hord hnd
  have hsub : ∀ p ∈ ord, p ∈ net.nodes := fun p hp => List.mem_of_mem_filter (hord.mem_iff.1 hp)
  -- the blocks' matrices
  let Sof : ℝ → String → SMat ℂ := fun f b => match bh b f zb fl with | .ok S => S | .error _ => ⟨0, 0⟩
  have hblk : ∀ x ∈ net.blks, Steady (fun f => bh x.1 f zb fl) f0 := by
    intro x hx
    rw [hinv.rep.rep.blks] at hx
    obtain ⟨b, hbm, rfl⟩ := List.mem_map.1 hx
    have := hb b hbm
    rw [hinv.bhv b hbm] at this
    exact this
  have hgiven : ∀ᶠ f in 𝓝 f0, Given net bh f zb fl (Sof f) := by
    have : ∀ᶠ f in 𝓝 f0, ∀ x ∈ net.blks, bh x.1 f zb fl = .ok (Sof f x.1) := by
      have key : ∀ l : List (String × List String), (∀ x ∈ l, Steady (fun f => bh x.1 f zb fl) f0) → ∀ᶠ f in 𝓝 f0, ∀ x ∈ l, bh x.1 f zb fl = .ok (Sof f x.1) := by
        intro l
        induction l with
        | nil => intro _; simp
        | cons y l ih =>
          intro hl
          obtain ⟨T, hT, -⟩ := hl y (by simp)
          filter_upwards [hT, ih fun x hx => hl x (by simp [hx])] with f h1 h2 x hx
          rcases List.mem_cons.1 hx with rfl | hx
          · simp only [Sof, h1]
          · exact h2 x hx
      exact key net.blks hblk
    exact this
  have hlimS : ∀ x ∈ net.blks, ∀ i j : ℕ, Tendsto (fun f => (Sof f x.1).at i j) (𝓝 f0) (𝓝 ((Sof f0 x.1).at i j)) := by
    intro x hx i j
    obtain ⟨T, hT, -, hT2⟩ := hblk x hx
    have e : ∀ᶠ f in 𝓝 f0, Sof f x.1 = T f := hT.mono fun f hf => by simp only [Sof, hf]
    rw [e.self_of_nhds]
    exact (hT2 i j).congr' (e.mono fun f hf => by simp only [hf])
  have hfill : ∀ f, Given net bh f zb fl (Sof f) → fillErr beh f zb fl s.blocks = none := by
    intro f hg
    simp only [fillErr, List.findSome?_eq_none_iff]
    intro b hbm
    have := hg (b.name, b.ports) (by rw [hinv.rep.rep.blks]; exact List.mem_map.2 ⟨b, hbm, rfl⟩)
    rw [hinv.bhv b hbm, this]
  have hans : ∀ f, Given net bh f zb fl (Sof f) →
      (Solvable (net.Laws zb (Sof f)) net.nodes ord ∧ ∃ S, (get1S ops s f fl).2 = .ok S ∧ IsScattering (net.Laws zb (Sof f)) net.nodes ord S) ∨
      (¬ Solvable (net.Laws zb (Sof f)) net.nodes ord ∧ (get1S ops s f fl).2 = .error .linAlg) := by
    intro f hg
    have a := (get1S_answer hlaw hinv (hc hph) (h.stored_aliased hlaw) hp f fl (Prod.ext rfl rfl : get1S ops s f fl = (_, _))).1
    rw [hordd] at a
    obtain ⟨Sof', hg', h'⟩ := a.solve (hfill f hg) hbad
    have hcongr := fun w => hg'.laws_congr hg w
    rcases h' with ⟨h1, S, h2, h3⟩ | ⟨h1, h2⟩
    · refine Or.inl ⟨h1.congr hcongr, S, h2, ⟨h1.congr hcongr, h3.size, fun w hw => h3.out w ((hcongr w).2 hw)⟩⟩
    · exact Or.inr ⟨fun hh => h1 (hh.congr fun w => (hcongr w).symm), h2⟩
  have hok1 : ∃ S, (get1S ops s f0 fl).2 = .ok S := by
    obtain ⟨s', S, hs⟩ := hok
    unfold getS at hs
    cases hg : get1S ops s f0 fl with
    | mk s1 r1 =>
      rw [hg] at hs
      cases r1 with
      | error e => cases hs
      | ok M => exact ⟨M, rfl⟩
  obtain ⟨S0, hS0⟩ := hok1
  have hg0 := hgiven.self_of_nhds
  obtain ⟨hsolv0, hsc0⟩ : Solvable (net.Laws zb (Sof f0)) net.nodes ord ∧ IsScattering (net.Laws zb (Sof f0)) net.nodes ord S0 := by
    rcases hans f0 hg0 with ⟨h1, S, h2, h3⟩ | ⟨-, h2⟩
    · rw [hS0] at h2
      cases h2
      exact ⟨h1, h3⟩
    · rw [hS0] at h2; cases h2
  have htidy := h.tidy hlaw
  have hnear := unique_near htidy hsub hlimS hsolv0.unique
  -- near `f0` the circuit answers
  have hev : ∀ᶠ f in 𝓝 f0, Given net bh f zb fl (Sof f) ∧ ∃ S, (get1S ops s f fl).2 = .ok S ∧ IsScattering (net.Laws zb (Sof f)) net.nodes ord S := by
    filter_upwards [hnear, hgiven] with f h1 h2
    refine ⟨h2, ?_⟩
    rcases hans f h2 with ⟨-, h3⟩ | ⟨h3, -⟩
    · exact h3
    · refine absurd ?_ h3
      refine (solvable_of_unique hlaw hinv h2 hcond fun w hw h0 => h1 w hw fun p hp => h0 p (hord.mem_iff.1 hp)).perm fun x => ?_
      exact hord.symm.mem_iff
  let T : ℝ → SMat ℂ := fun f => match (get1S ops s f fl).2 with | .ok S => S | .error _ => ⟨0, 0⟩
  have hT0 : T f0 = S0 := by simp only [T, hS0]
  have hevT : ∀ᶠ f in 𝓝 f0, Given net bh f zb fl (Sof f) ∧ (get1S ops s f fl).2 = .ok (T f) ∧ IsScattering (net.Laws zb (Sof f)) net.nodes ord (T f) := by
    filter_upwards [hev] with f hf
    obtain ⟨hg, S, h1, h2⟩ := hf
    have : T f = S := by simp only [T, h1]
    rw [this]
    exact ⟨hg, h1, h2⟩
  refine ⟨T, hevT.mono fun f hf => hf.2.1, ?_, fun i j => ?_⟩
  · filter_upwards [hevT] with f hf
    rw [hf.2.2.size, hT0, hsc0.size]
  · by_cases hij : i < ord.length ∧ j < ord.length
    · obtain ⟨hi, hj⟩ := hij
      let a : Node → ℂ := fun p => if p = ord[j] then 1 else 0
      have hex : ∀ f, ∃ w : Wave → ℂ, IsScattering (net.Laws zb (Sof f)) net.nodes ord (T f) → net.Laws zb (Sof f) w ∧ ∀ p ∈ ord, w (.inn, p) = a p := by
        intro f
        by_cases hsc : IsScattering (net.Laws zb (Sof f)) net.nodes ord (T f)
        · obtain ⟨w, h1, h2⟩ := hsc.exists_sol a
          exact ⟨w, fun _ => ⟨h1, h2⟩⟩
        · exact ⟨0, fun e => absurd e hsc⟩
      choose w hw using hex
      have hread : ∀ f, IsScattering (net.Laws zb (Sof f)) net.nodes ord (T f) → w f (.out, ord[i]) = (T f).at i j := by
        intro f hsc
        obtain ⟨h1, h2⟩ := hw f hsc
        have h3 := hsc.out (w f) h1 ⟨i, hi⟩
        have h4 : ∀ k : Fin ord.length, w f (.inn, ord[k]) = if k = ⟨j, hj⟩ then 1 else 0 := by
          intro k
          have hk : w f (.inn, ord[k]) = a ord[k] := h2 _ (List.getElem_mem k.2)
          rw [hk]
          simp only [a]
          have : ord[k] = ord[j] ↔ k = ⟨j, hj⟩ := by
            rw [Fin.ext_iff]
            exact hnd.getElem_inj_iff
          simp only [this]
        simp only [h4] at h3
        have h5 : w f (.out, ord[i]) = ∑ k : Fin ord.length, (T f).at i k * (if k = ⟨j, hj⟩ then 1 else 0) := h3
        rw [h5]
        exact at_eq_sum (i := (⟨i, hi⟩ : Fin ord.length)) (j := ⟨j, hj⟩)
      have hsc0' : IsScattering (net.Laws zb (Sof f0)) net.nodes ord (T f0) := by rw [hT0]; exact hsc0
      have hlim := waves_tend htidy hsub hlimS hsolv0.unique (w := w) (w0 := w f0) (hevT.mono fun f hf => (hw f hf.2.2).1) (hw f0 hsc0').1 (fun p hp => by
        refine (tendsto_const_nhds (x := w f0 (.inn, p))).congr' ?_
        filter_upwards [hevT] with f hf
        rw [(hw f0 hsc0').2 p hp, (hw f hf.2.2).2 p hp]) ord[i] (hsub _ (List.getElem_mem _)) .out
      rw [hread f0 hsc0'] at hlim
      refine hlim.congr' ?_
      filter_upwards [hevT] with f hf
      exact hread f hf.2.2
    · have hz : ∀ᶠ f in 𝓝 f0, (T f).at i j = 0 := by
        filter_upwards [hevT] with f hf
        exact at_out (by rw [hf.2.2.size]; exact hij)
      rw [hz.self_of_nhds]
      exact (tendsto_const_nhds (x := (0 : ℂ))).congr' (hz.mono fun f hf => hf.symm)

/-- products with an inverse vary continuously -/
theorem inv_steady {N : ℕ} {D B C : ℝ → Matrix (Fin N) (Fin N) ℂ} (hD : ContinuousAt D f0) (hB : ContinuousAt B f0) (hC : ContinuousAt C f0) {g : ℝ → Except Err (SMat ℂ)}
    (hg : ∀ᶠ f in 𝓝 f0, g f = (npInv (D f)).map fun W => ⟨N, B f * W * C f⟩) (hok : ∃ S, g f0 = .ok S) : Steady g f0 := by
  obtain ⟨S0, hS0⟩ := hok
  rw [hg.self_of_nhds] at hS0
  have hdet0 : (D f0).det ≠ 0 := by
    intro hd
    cases hi : npInv (D f0) with
    | error e => rw [hi] at hS0; cases hS0
    | ok W =>
      have := npInv_eq_ok.1 hi
      have h1 := congrArg Matrix.det this
      rw [Matrix.det_mul, hd, zero_mul, Matrix.det_one] at h1
      exact zero_ne_one h1
  have hdetc : Tendsto (fun f => (D f).det) (𝓝 f0) (𝓝 (D f0).det) := ((continuous_id.matrix_det).tendsto _).comp hD
  have hdet : ∀ᶠ f in 𝓝 f0, (D f).det ≠ 0 := hdetc.eventually_ne hdet0
  let R : ℝ → Matrix (Fin N) (Fin N) ℂ := fun f => B f * ((D f).det⁻¹ • (D f).adjugate) * C f
  have hinv : ∀ f, (D f).det ≠ 0 → npInv (D f) = .ok ((D f).det⁻¹ • (D f).adjugate) := by
    intro f hf
    refine npInv_of_mul_eq_one ?_
    rw [Matrix.mul_smul, Matrix.mul_adjugate, smul_smul, inv_mul_cancel₀ hf, one_smul]
  have hR : Tendsto R (𝓝 f0) (𝓝 (R f0)) := by
    have h2 : Tendsto (fun f => (D f).adjugate) (𝓝 f0) (𝓝 (D f0).adjugate) := ((continuous_id.matrix_adjugate).tendsto _).comp hD
    have hB' : Tendsto B (𝓝 f0) (𝓝 (B f0)) := hB
    have hC' : Tendsto C (𝓝 f0) (𝓝 (C f0)) := hC
    exact (hB'.mul ((hdetc.inv₀ hdet0).smul h2)).mul hC'
  refine ⟨fun f => ⟨N, R f⟩, ?_, Filter.Eventually.of_forall fun f => rfl, fun i j => ?_⟩
  · filter_upwards [hg, hdet] with f h1 h3
    rw [h1, hinv f h3]
    rfl
  · by_cases hij : i < N ∧ j < N
    · have h1 := tendsto_pi_nhds.1 (tendsto_pi_nhds.1 hR ⟨i, hij.1⟩) ⟨j, hij.2⟩
      have e : ∀ f, (⟨N, R f⟩ : SMat ℂ).at i j = R f ⟨i, hij.1⟩ ⟨j, hij.2⟩ := fun f => by simp only [SMat.at, hij, and_self, dite_true]
      simp only [e]
      exact h1
    · have e : ∀ f, (⟨N, R f⟩ : SMat ℂ).at i j = 0 := fun f => at_out hij
      simp only [e]
      exact tendsto_const_nhds

/-- matrices of one size -/
theorem Steady.sized {g : ℝ → Except Err (SMat ℂ)} (hg : Steady g f0) : ∃ (N : ℕ) (A : ℝ → Matrix (Fin N) (Fin N) ℂ), ContinuousAt A f0 ∧ ∀ᶠ f in 𝓝 f0, g f = .ok ⟨N, A f⟩ := by
  obtain ⟨T, hT, hn, hT2⟩ := hg
  generalize (T f0).n = N at hn
  refine ⟨N, fun f => Matrix.of fun i j => (T f).at i j, tendsto_pi_nhds.2 fun i => tendsto_pi_nhds.2 fun j => hT2 i j, ?_⟩
  filter_upwards [hT, hn] with f h1 hf
  rw [h1]
  congr 1
  generalize T f = M at hf ⊢
  obtain ⟨n, m⟩ := M
  change n = N at hf
  subst hf
  congr 1
  ext i j
  simp only [Matrix.of_apply, SMat.at, i.2, j.2, and_self, dite_true]

theorem steady_of_sized {N : ℕ} {A : ℝ → Matrix (Fin N) (Fin N) ℂ} (hA : ContinuousAt A f0) {g : ℝ → Except Err (SMat ℂ)} (hg : ∀ᶠ f in 𝓝 f0, g f = .ok ⟨N, A f⟩) : Steady g f0 := by
  refine inv_steady (D := fun _ => 1) (B := A) (C := fun _ => 1) continuousAt_const hA continuousAt_const (hg.mono fun f hf => ?_) ⟨_, hg.self_of_nhds⟩
  rw [hf, npInv_of_mul_eq_one (B := 1) (by simp)]
  simp [Except.map]

/-- the conversion to another reference -/
theorem convVV_steady {z zb : ℂ} {g : ℝ → Except Err (SMat ℂ)} (hg : Steady g f0) (hok : ∃ S, (g f0).bind (convVV z zb) = .ok S) :
    Steady (fun f => (g f).bind (convVV z zb)) f0 := by
  obtain ⟨N, A, hA, hgA⟩ := hg.sized
  have hcond : ¬ (zb = 0 ∧ N ≠ 0) := by
    intro hc
    obtain ⟨S, hS⟩ := hok
    rw [hgA.self_of_nhds] at hS
    change convVV z zb ⟨N, A f0⟩ = _ at hS
    unfold convVV at hS
    rw [if_pos hc] at hS
    cases hS
  let D : Matrix (Fin N) (Fin N) ℂ → Matrix (Fin N) (Fin N) ℂ := fun M => (2 : ℂ)⁻¹ • (1 + M) + (z / 2) • zb⁻¹ • (1 - M)
  let B : Matrix (Fin N) (Fin N) ℂ → Matrix (Fin N) (Fin N) ℂ := fun M => (2 : ℂ)⁻¹ • (1 + M) - (z / 2) • zb⁻¹ • (1 - M)
  have hD : Continuous D := by
    show Continuous fun M => (2 : ℂ)⁻¹ • (1 + M) + (z / 2) • zb⁻¹ • (1 - M)
    fun_prop
  have hB : Continuous B := by
    show Continuous fun M => (2 : ℂ)⁻¹ • (1 + M) - (z / 2) • zb⁻¹ • (1 - M)
    fun_prop
  refine inv_steady (D := fun f => D (A f)) (B := fun f => B (A f)) (C := fun _ => 1) (hD.continuousAt.comp hA) (hB.continuousAt.comp hA) continuousAt_const
    (hgA.mono fun f hf => ?_) hok
  rw [hf]
  show convVV z zb ⟨N, A f⟩ = _
  unfold convVV
  rw [if_neg hcond]
  simp only [mul_one]
  rfl

/-- what `getS` returns is what the evaluation gives, converted to the reference asked for -/
theorem getS_two (hlaw : Lawful ops beh) (h : Built ops beh nan zb names net bh s ph) {f : ℝ} {z : ℂ} :
    (getS ops s f (some z) fl).2 = if z ≠ 0 ∧ z ≠ zb then (get1S ops s f fl).2.bind (convVV z zb) else (get1S ops s f fl).2 := by
  cases hg : get1S ops s f fl with
  | mk s1 r1 =>
    cases r1 with
    | error e =>
      have : getS ops s f (some z) fl = (s1, .error e) := by unfold getS; rw [hg]
      rw [this]
      split <;> rfl
    | ok M =>
      have hg' : getS ops s f none fl = (s1, .ok M) := by unfold getS; rw [hg]
      have hzb : s1.zbase = zb := ((Built.eval h hg').inv hlaw).zb
      have : getS ops s f (some z) fl = if z ≠ 0 ∧ z ≠ s1.zbase then (s1, convVV z s1.zbase M) else (s1, .ok M) := by unfold getS; rw [hg]
      rw [this, hzb]
      split <;> rfl

theorem any_steady (hlaw : Lawful ops beh) (h : Built ops beh nan zb names net bh s ph) (hph : ph ≠ .reloaded) (hfree : net.free ≠ [])
    (hnames : s.names = [] ∨ s.names.Perm net.free) (hb : ∀ b ∈ s.blocks, Steady (fun f => beh b.obj f zb fl) f0) {z : ℂ}
    (hok : ∃ s' S, getS ops s f0 (some z) fl = (s', .ok S)) : Steady (fun f => (getS ops s f (some z) fl).2) f0 := by
  obtain ⟨s', S, hs⟩ := hok
  have hs2 : (getS ops s f0 (some z) fl).2 = .ok S := by rw [hs]
  rw [getS_two hlaw h] at hs2
  have hok1 : ∃ s' S, getS ops s f0 none fl = (s', .ok S) := by
    cases hg : get1S ops s f0 fl with
    | mk s1 r1 =>
      cases r1 with
      | error e => rw [hg] at hs2; split at hs2 <;> cases hs2
      | ok M => exact ⟨s1, M, by unfold getS; rw [hg]⟩
  have h1 := own_steady hlaw h hph hfree hnames hb hok1
  have e : (fun f => (getS ops s f (some z) fl).2) = fun f => if z ≠ 0 ∧ z ≠ zb then (get1S ops s f fl).2.bind (convVV z zb) else (get1S ops s f fl).2 := by
    funext f; exact getS_two hlaw h
  rw [e]
  by_cases hc : z ≠ 0 ∧ z ≠ zb
  · simp only [if_pos hc] at hs2 ⊢
    exact convVV_steady h1 ⟨S, hs2⟩
  · simp only [if_neg hc]
    exact h1

/-- the matrices of the blocks near a frequency -/
theorem given_near (hlaw : Lawful ops beh) (h : Built ops beh nan zb names net bh s ph) (hb : ∀ b ∈ s.blocks, Steady (fun f => beh b.obj f zb fl) f0) :
    ∃ Sof : ℝ → String → SMat ℂ, (∀ᶠ f in 𝓝 f0, Given net bh f zb fl (Sof f)) ∧
      ∀ x ∈ net.blks, ∀ i j : ℕ, Tendsto (fun f => (Sof f x.1).at i j) (𝓝 f0) (𝓝 ((Sof f0 x.1).at i j)) := by
  have hinv := h.inv hlaw
  let Sof : ℝ → String → SMat ℂ := fun f b => match bh b f zb fl with | .ok S => S | .error _ => ⟨0, 0⟩
  have hblk : ∀ x ∈ net.blks, Steady (fun f => bh x.1 f zb fl) f0 := by
    intro x hx
    rw [hinv.rep.rep.blks] at hx
    obtain ⟨b, hbm, rfl⟩ := List.mem_map.1 hx
    have := hb b hbm
    rw [hinv.bhv b hbm] at this
    exact this
  refine ⟨Sof, ?_, ?_⟩
  · have key : ∀ l : List (String × List String), (∀ x ∈ l, Steady (fun f => bh x.1 f zb fl) f0) → ∀ᶠ f in 𝓝 f0, ∀ x ∈ l, bh x.1 f zb fl = .ok (Sof f x.1) := by
      intro l
      induction l with
      | nil => intro _; simp
      | cons y l ih =>
        intro hl
        obtain ⟨T, hT, -⟩ := hl y (by simp)
        filter_upwards [hT, ih fun x hx => hl x (by simp [hx])] with f h1 h2 x hx
        rcases List.mem_cons.1 hx with rfl | hx
        · simp only [Sof, h1]
        · exact h2 x hx
    exact key net.blks hblk
  · intro x hx i j
    obtain ⟨T, hT, -, hT2⟩ := hblk x hx
    have e : ∀ᶠ f in 𝓝 f0, Sof f x.1 = T f := hT.mono fun f hf => by simp only [Sof, hf]
    rw [e.self_of_nhds]
    exact (hT2 i j).congr' (e.mono fun f hf => by simp only [hf])

theorem same_list {l l' : List Node} (e : l = l') {F G : Node → ℂ} {T : SMat ℂ} (h : ∀ i : Fin l.length, F l[i] = ∑ j : Fin l.length, T.at i j * G l[j]) :
    ∀ i : Fin l'.length, F l'[i] = ∑ j : Fin l'.length, T.at i j * G l'[j] := by
  subst e
  exact h

/-- voltages and currents at all nodes -/
theorem state_steady (hlaw : Lawful ops beh) (h : Built ops beh nan zb names net bh s ph) (hph : ph ≠ .reloaded) (hzb : zb ≠ 0) (hfree : net.free ≠ [])
    (hord : names = [] ∨ names = s.ports ∨ s.aliased = true) (hnames : s.names = [] ∨ s.names.Perm net.free) (hb : ∀ b ∈ s.blocks, Steady (fun f => beh b.obj f zb fl) f0)
    {E : List (Node × ℂ)} {z : Option ℂ} (hz : z.getD zb ≠ 0) (hE : ∀ p ∈ net.free, dictGet p E ≠ none)
    (hok : ∃ s' S, getS ops s f0 (some (z.getD zb)) fl = (s', .ok S)) {n : Node} (hn : n ∈ net.nodes) : SteadyAt (fun f => (solution ops s f E z fl).2) f0 n := by
  obtain ⟨Sof, hgiven, hlimS⟩ := given_near hlaw h hb
  obtain ⟨T, hT, hTn, hTc⟩ := any_steady hlaw h hph hfree hnames hb hok
  have htidy := h.tidy hlaw
  have hperm := (h.inv hlaw).rep.ports_perm
  -- the answers of `Solution`
  let t : ℝ → List (Node × Quad ℂ) := fun f => match (solution ops s f E z fl).2 with | .ok t => t | .error _ => []
  have hsol : ∀ᶠ f in 𝓝 f0, (solution ops s f E z fl).2 = .ok (t f) := by
    filter_upwards [hT] with f hf
    obtain ⟨t', ht'⟩ := C30_solution_answers hlaw h hph hzb hz hE (f := f) (fl := fl) (s' := (getS ops s f (some (z.getD zb)) fl).1) (S := T f) (Prod.ext rfl hf)
    have h2 : (solution ops s f E z fl).2 = .ok t' := by rw [ht']
    simp only [t, h2]
  have hw : ∀ f, ∃ w : Wave → ℂ, (solution ops s f E z fl).2 = .ok (t f) → Given net bh f zb fl (Sof f) → net.Laws zb (Sof f) w ∧
      (∀ p ∈ net.free, dictGet p E = some ((stateOf zb w).fwd (z.getD zb) p)) ∧
      ∀ n, dictGet n (t f) = if n ∈ net.nodes then some ((stateOf zb w).quad (z.getD zb) n) else none := by
    intro f
    by_cases hc : (solution ops s f E z fl).2 = .ok (t f) ∧ Given net bh f zb fl (Sof f)
    · obtain ⟨Sof', hg', w, h1, h2, h3⟩ := C30_solution hlaw h hph hzb hord (s' := (solution ops s f E z fl).1) (Prod.ext rfl hc.1 : solution ops s f E z fl = (_, .ok (t f)))
      exact ⟨w, fun _ _ => ⟨(hg'.laws_congr hc.2 w).1 h1, h2, h3⟩⟩
    · exact ⟨0, fun h1 h2 => absurd ⟨h1, h2⟩ hc⟩
  choose w hw using hw
  have hev : ∀ᶠ f in 𝓝 f0, (getS ops s f (some (z.getD zb)) fl).2 = .ok (T f) ∧ Given net bh f zb fl (Sof f) ∧ net.Laws zb (Sof f) (w f) ∧
      (∀ p ∈ net.free, dictGet p E = some ((stateOf zb (w f)).fwd (z.getD zb) p)) ∧
      ∀ n, dictGet n (t f) = if n ∈ net.nodes then some ((stateOf zb (w f)).quad (z.getD zb) n) else none := by
    filter_upwards [hT, hgiven, hsol] with f h1 h2 h3
    exact ⟨h1, h2, hw f h3 h2⟩
  have h0 := hev.self_of_nhds
  have hu : ∀ w w', net.Laws zb (Sof f0) w → net.Laws zb (Sof f0) w' → (∀ p ∈ net.free, w (.inn, p) = w' (.inn, p)) → ∀ n ∈ net.nodes, ∀ d, w (d, n) = w' (d, n) := by
    refine Solvable.unique (((C20_getS_complete hlaw h hph h0.2.1 hfree hnames).1 ?_))
    cases hg : get1S ops s f0 fl with
    | mk s1 r1 =>
      cases r1 with
      | error e =>
        have := h0.1
        unfold getS at this
        rw [hg] at this
        cases this
      | ok M => exact ⟨s1, M, by unfold getS; rw [hg]⟩
  -- the waves at the ports on the reference asked for
  have hrev : ∀ i (hi : i < s.ports.length), ∀ᶠ f in 𝓝 f0, (stateOf zb (w f)).rev (z.getD zb) s.ports[i] =
      ∑ j : Fin s.ports.length, (T f).at i j * ((dictGet s.ports[j] E).getD 0) := by
    intro i hi
    filter_upwards [hev] with f ⟨h1, h2, h3, h4, h5⟩
    have hS : getS ops s f (some (z.getD zb)) fl = ((getS ops s f (some (z.getD zb)) fl).1, .ok (T f)) := Prod.ext rfl h1
    obtain ⟨-, -, hr⟩ := C20_getS_reference hlaw h hph hz hS
    have hp := getS_keeps_order hlaw h hph hord hS
    have h6 := ((hr _ h2).2 _ h3)
    replace h6 := same_list hp (F := fun p => outOn (z.getD zb) zb (w f (.inn, p)) (w f (.out, p))) (G := fun p => inOn (z.getD zb) zb (w f (.inn, p)) (w f (.out, p))) h6 ⟨i, hi⟩
    dsimp only at h6
    have e1 : ∀ p, outOn (z.getD zb) zb (w f (.inn, p)) (w f (.out, p)) = (stateOf zb (w f)).rev (z.getD zb) p := fun p => rfl
    have e2 : ∀ p, inOn (z.getD zb) zb (w f (.inn, p)) (w f (.out, p)) = (stateOf zb (w f)).fwd (z.getD zb) p := fun p => rfl
    simp only [e1, e2] at h6
    refine h6.trans (Finset.sum_congr rfl fun j _ => ?_)
    rw [h4 s.ports[j] (hperm.mem_iff.1 (List.getElem_mem j.2))]
    rfl
  have hports : ∀ p ∈ net.free, Tendsto (fun f => w f (.inn, p)) (𝓝 f0) (𝓝 (w f0 (.inn, p))) := by
    intro p hp
    obtain ⟨i, hi, rfl⟩ := List.getElem_of_mem (hperm.mem_iff.2 hp)
    have e : ∀ f, w f (.inn, s.ports[i]) = ((stateOf zb (w f)).fwd (z.getD zb) s.ports[i] + (stateOf zb (w f)).rev (z.getD zb) s.ports[i] +
        zb * (((stateOf zb (w f)).fwd (z.getD zb) s.ports[i] - (stateOf zb (w f)).rev (z.getD zb) s.ports[i]) / z.getD zb)) / 2 := by
      intro f
      simp only [Field.State.fwd, Field.State.rev, stateOf, volt, curr]
      field_simp
      ring
    have hf : Tendsto (fun f => (stateOf zb (w f)).fwd (z.getD zb) s.ports[i]) (𝓝 f0) (𝓝 ((stateOf zb (w f0)).fwd (z.getD zb) s.ports[i])) := by
      have hc : ∀ᶠ f in 𝓝 f0, (stateOf zb (w f)).fwd (z.getD zb) s.ports[i] = (stateOf zb (w f0)).fwd (z.getD zb) s.ports[i] := by
        filter_upwards [hev] with f h1
        have a1 := h1.2.2.2.1 _ hp
        rw [h0.2.2.2.1 _ hp] at a1
        injection a1 with a1
        exact a1.symm
      exact (tendsto_const_nhds (x := (stateOf zb (w f0)).fwd (z.getD zb) s.ports[i])).congr' (hc.mono fun f hf => hf.symm)
    have hr : Tendsto (fun f => (stateOf zb (w f)).rev (z.getD zb) s.ports[i]) (𝓝 f0) (𝓝 ((stateOf zb (w f0)).rev (z.getD zb) s.ports[i])) := by
      rw [(hrev i hi).self_of_nhds]
      refine Tendsto.congr' ((hrev i hi).mono fun f hf => hf.symm) ?_
      exact tendsto_finsetSum _ fun j _ => (hTc i j).mul tendsto_const_nhds
    rw [e f0]
    simp only [fun f => e f]
    exact ((hf.add hr).add (tendsto_const_nhds.mul ((hf.sub hr).div_const _))).div_const _
  have hlim := waves_tend htidy (fun p hp => List.mem_of_mem_filter hp) hlimS hu (hev.mono fun f hf => hf.2.2.1) h0.2.2.1 hports n hn
  have hV : ContinuousAt (fun f => (stateOf zb (w f)).V n) f0 := (hlim .inn).add (hlim .out)
  have hI : ContinuousAt (fun f => (stateOf zb (w f)).I n) f0 := ((hlim .inn).sub (hlim .out)).div_const _
  refine ⟨t, fun f => (stateOf zb (w f)).quad (z.getD zb) n, ?_, hV, hI, (hV.add (continuousAt_const.mul hI)).div_const _, (hV.sub (continuousAt_const.mul hI)).div_const _⟩
  filter_upwards [hev, hsol] with f h1 h2
  refine ⟨h2, ?_⟩
  rw [h1.2.2.2.2 n, if_pos hn]

end generic

section leaves
variable {f0 : ℝ}

/-- an even continuous function of the square root does not see the branch cut -/
theorem even_sqrt {φ : ℂ → ℂ} (hc : Continuous φ) (he : ∀ u, φ (-u) = φ u) : Continuous fun w : ℂ => φ (w ^ (1 / 2 : ℂ)) := by
  rw [continuous_iff_continuousAt]
  intro w0
  rw [Metric.continuousAt_iff]
  intro ε hε
  obtain ⟨d1, hd1, h1⟩ := Metric.continuousAt_iff.1 (hc.continuousAt (x := w0 ^ (1 / 2 : ℂ))) ε hε
  obtain ⟨d2, hd2, h2⟩ := Metric.continuousAt_iff.1 (hc.continuousAt (x := -w0 ^ (1 / 2 : ℂ))) ε hε
  refine ⟨d1 * d2, mul_pos hd1 hd2, fun {w} hw => ?_⟩
  have e1 : (w ^ (1 / 2 : ℂ)) ^ 2 = w := TRL.sqrt_sq w
  have e2 : (w0 ^ (1 / 2 : ℂ)) ^ 2 = w0 := TRL.sqrt_sq w0
  generalize w ^ (1 / 2 : ℂ) = a at e1 ⊢
  generalize w0 ^ (1 / 2 : ℂ) = b at e2 h1 h2 ⊢
  rw [dist_eq_norm, ← e1, ← e2, show a ^ 2 - b ^ 2 = (a - b) * (a + b) by ring, norm_mul] at hw
  by_cases hd : ‖a - b‖ < d1
  · exact h1 (by rwa [dist_eq_norm])
  · have : ‖a + b‖ < d2 := by
      by_contra hn
      exact absurd hw (not_lt.2 (mul_le_mul (not_lt.1 hd) (not_lt.1 hn) hd2.le (norm_nonneg _)))
    have := h2 (x := a) (by rw [dist_eq_norm, sub_neg_eq_add]; exact this)
    rwa [he] at this

/-- one matrix as a list of one -/
theorem conv_d3 {N : ℕ} (z r : ℂ) (T : Matrix (Fin N) (Fin N) ℂ) :
    convertGeneral (.d0 z) (.d3 N N [T]) (.d0 r) "V" "V" = (convVV z r ⟨N, T⟩).map fun M => .d3 M.n M.n [M.m] := by
  have h := convVV_eq_convertGeneral z r ⟨N, T⟩
  have hco : ∀ r : ℂ, ∃ c, coeffs 1 N (.d0 r) "V" = .ok [c] := fun r => by simp [coeffs, zTable, coef]
  obtain ⟨c1, h1⟩ := hco r
  obtain ⟨c2, h2⟩ := hco z
  unfold convertGeneral at h ⊢
  simp only [check3D, dite_true, List.length_singleton, h1, h2, convLoop, List.zip_cons_cons, List.zip_nil_right, mapE] at h ⊢
  cases hc : conv1 c1 c2 T with
  | error e =>
    simp only [hc] at h ⊢
    cases hv : convVV z r ⟨N, T⟩ with
    | error x => rw [hv] at h; cases h; rfl
    | ok M => rw [hv] at h; cases h
  | ok X =>
    simp only [hc, convUnstack] at h ⊢
    cases hv : convVV z r ⟨N, T⟩ with
    | error x => rw [hv] at h; cases h
    | ok M =>
      rw [hv] at h
      obtain ⟨n, m⟩ := M
      simp only [Except.map] at h
      injection h with h
      injection h with h1 h2 h3
      cases h1
      cases h3
      rfl

/-- **C91 (an object with a matrix of its own).** -/
theorem C91_table {npc : Bool} {ode : TRL.Ode} {n : ℕ} {g : ℝ → Except Err (Matrix (Fin n) (Fin n) ℂ)} {Z : ℝ} {z : ℂ} (hs : (Part.base n g Z).Smooth f0)
    (hok : ∃ T, ((Part.base n g Z).getS ode npc f0 z).2 = .ok T) : Steady (fun f => ((Part.base n g Z).getS ode npc f z).2) f0 := by
  obtain ⟨A, hA, hc⟩ := hs
  have hA' : ContinuousAt A f0 := tendsto_pi_nhds.2 fun i => tendsto_pi_nhds.2 fun j => hc i j
  have h1 : Steady (fun f => (g f).map fun S => (⟨n, S⟩ : SMat ℂ)) f0 := steady_of_sized hA' (hA.mono fun f hf => by rw [hf]; rfl)
  have e : ∀ f, z.im = 0 → ((Part.base n g Z).getS ode npc f z).2 = if z.re ≠ Z then ((g f).map fun S => (⟨n, S⟩ : SMat ℂ)).bind (convVV ((z.re : ℝ) : ℂ) (Z : ℂ)) else (g f).map fun S => (⟨n, S⟩ : SMat ℂ) := by
    intro f hz
    unfold Part.getS
    rw [if_neg (not_not.2 hz)]
    unfold RfBase.getS RfBase.getSs
    cases hg : g f with
    | error x => simp [mapE, hg, Except.map, Except.bind]
    | ok S =>
      simp only [mapE, hg, Option.getD_some, RfBase.arr, List.isEmpty_cons, Bool.false_eq_true, if_false]
      by_cases hzZ : z.re ≠ Z
      · rw [if_pos hzZ, if_pos hzZ, conv_d3]
        show _ = convVV ((z.re : ℝ) : ℂ) (Z : ℂ) ⟨n, S⟩
        cases hv : convVV ((z.re : ℝ) : ℂ) (Z : ℂ) ⟨n, S⟩ with
        | error x => rfl
        | ok M =>
          have hn : M.n = n := convVV_n hv
          obtain ⟨m, M⟩ := M
          change m = n at hn
          subst hn
          simp [RfBase.first, Except.map]
      · rw [if_neg hzZ, if_neg hzZ]
        simp [RfBase.first, Except.map]
  have him : z.im = 0 := by
    by_contra hn
    obtain ⟨T, hT⟩ := hok
    unfold Part.getS at hT
    rw [if_pos hn] at hT
    cases hT
  simp only [e _ him] at hok ⊢
  by_cases hzZ : z.re ≠ Z
  · simp only [if_pos hzZ] at hok ⊢
    exact convVV_steady h1 hok
  · simp only [if_neg hzZ]
    exact h1

/-- **C91 (a lumped element, away from frequency 0).** -/
theorem C91_rlc {npc : Bool} {ode : TRL.Ode} {s : RLC.St} {z : ℂ} (hf : f0 ≠ 0) (hok : ∃ T, ((Part.rlc s).getS ode npc f0 z).2 = .ok T) :
    Steady (fun f => ((Part.rlc s).getS ode npc f z).2) f0 := by
  have him : z.im = 0 := by
    by_contra hn
    obtain ⟨T, hT⟩ := hok
    unfold Part.getS at hT
    rw [if_pos hn] at hT
    cases hT
  have e : ∀ f, ((Part.rlc s).getS ode npc f z).2 = (RLC.get1S npc s.elem z.re f).map fun S => ⟨2, S⟩ := by
    intro f
    unfold Part.getS
    rw [if_neg (not_not.2 him)]
    dsimp only
    rw [(rlc_eq _ _ _).1]
    rfl
  simp only [e] at hok ⊢
  have hne : ∀ᶠ f in 𝓝 f0, f ≠ 0 := continuousAt_id.eventually_ne hf
  generalize s.elem = el at hok ⊢
  generalize z.re = r at hok ⊢
  have hj : ∀ f : ℝ, f ≠ 0 → RLC.get1S npc el r f = (do
    let jw : ℂ := 2 * Complex.I * Real.pi * f
    let Rs ← RLC.finE (el .Rs)
    let Ls ← RLC.finE (el .Ls)
    let c ← RLC.divE (1 / jw) (el .Cs)
    let zs ← RLC.divE (Rs + jw * Ls + c) (.fin r)
    let g ← RLC.divE 1 (el .Rp)
    let l ← RLC.divE (1 / jw) (el .Lp)
    let Cp ← RLC.finE (el .Cp)
    let yp := (g + l + jw * Cp) * r
    RLC.mkS zs yp) := fun f hf => by
      unfold RLC.get1S
      rw [if_pos hf]
  have hdiv : ∀ (x : ℝ → ℂ) (v : RLC.Ext), ContinuousAt x f0 → (∃ y, RLC.divE (x f0) v = .ok y) → ∃ y : ℝ → ℂ, ContinuousAt y f0 ∧ ∀ f, RLC.divE (x f) v = .ok (y f) := by
    rintro x v hx ⟨y, hy⟩
    cases v with
    | inf => exact ⟨fun _ => 0, continuousAt_const, fun f => rfl⟩
    | fin v =>
      unfold RLC.divE at hy
      dsimp only at hy
      split at hy
      · cases hy
      · rename_i hv
        refine ⟨fun f => x f / (v : ℂ), hx.div_const _, fun f => ?_⟩
        unfold RLC.divE
        dsimp only
        rw [if_neg hv]
  have hjw : ContinuousAt (fun f : ℝ => (2 * Complex.I * Real.pi * f : ℂ)) f0 := by fun_prop
  have hjw0 : (2 * Complex.I * Real.pi * f0 : ℂ) ≠ 0 := by
    simp [hf, Real.pi_ne_zero, Complex.I_ne_zero]
  have hrj : ContinuousAt (fun f : ℝ => 1 / (2 * Complex.I * Real.pi * f : ℂ)) f0 := continuousAt_const.div hjw hjw0
  have bok : ∀ {α β : Type} (a : α) (k : α → Except Err β), ((Except.ok a : Except Err α) >>= k) = k a := fun _ _ => rfl
  have ber : ∀ {α β : Type} (e : Err) (k : α → Except Err β), ((Except.error e : Except Err α) >>= k) = .error e := fun _ _ => rfl
  have bad : ∀ e : Err, ¬ ∃ T, ((Except.error e : Except Err RLC.Mat2).map fun S => (⟨2, S⟩ : SMat ℂ)) = .ok T := by
    rintro e ⟨T, hT⟩; cases hT
  rw [hj f0 hf] at hok
  simp only at hj hok
  cases h1 : RLC.finE (el .Rs) with
  | error e => simp only [h1, ber] at hok; exact absurd hok (bad _)
  | ok Rs =>
  cases h2 : RLC.finE (el .Ls) with
  | error e => simp only [h1, h2, bok, ber] at hok; exact absurd hok (bad _)
  | ok Ls =>
  simp only [h1, h2, bok] at hok hj
  cases h3 : RLC.divE (1 / (2 * Complex.I * Real.pi * f0 : ℂ)) (el .Cs) with
  | error e => simp only [h3, ber] at hok; exact absurd hok (bad _)
  | ok c0 =>
  obtain ⟨c, hc, hc'⟩ := hdiv _ _ hrj ⟨_, h3⟩
  simp only [hc', bok] at hok hj
  have hzs : ContinuousAt (fun f : ℝ => Rs + (2 * Complex.I * Real.pi * f : ℂ) * Ls + c f) f0 := (continuousAt_const.add (hjw.mul continuousAt_const)).add hc
  cases h4 : RLC.divE (Rs + (2 * Complex.I * Real.pi * f0 : ℂ) * Ls + c f0) (.fin r) with
  | error e => simp only [h4, ber] at hok; exact absurd hok (bad _)
  | ok zs0 =>
  obtain ⟨zs, hz, hz'⟩ := hdiv _ _ hzs ⟨_, h4⟩
  simp only [hz', bok] at hok hj
  cases h5 : RLC.divE 1 (el .Rp) with
  | error e => simp only [h5, ber] at hok; exact absurd hok (bad _)
  | ok g =>
  simp only [h5, bok] at hok hj
  cases h6 : RLC.divE (1 / (2 * Complex.I * Real.pi * f0 : ℂ)) (el .Lp) with
  | error e => simp only [h6, ber] at hok; exact absurd hok (bad _)
  | ok l0 =>
  obtain ⟨l, hl, hl'⟩ := hdiv _ _ hrj ⟨_, h6⟩
  simp only [hl', bok] at hok hj
  cases h7 : RLC.finE (el .Cp) with
  | error e => simp only [h7, ber] at hok; exact absurd hok (bad _)
  | ok Cp =>
  simp only [h7, bok] at hok hj
  have hyp : ContinuousAt (fun f : ℝ => (g + l f + (2 * Complex.I * Real.pi * f : ℂ) * Cp) * r) f0 := ((continuousAt_const.add hl).add (hjw.mul continuousAt_const)).mul continuousAt_const
  generalize hY : (fun f : ℝ => (g + l f + (2 * Complex.I * Real.pi * f : ℂ) * Cp) * r) = yp at hyp
  have hY' : ∀ f : ℝ, (g + l f + (2 * Complex.I * Real.pi * f : ℂ) * Cp) * r = yp f := fun f => congrFun hY f
  simp only [hY'] at hj hok
  refine inv_steady (D := fun f => !![1, 1 + yp f; -(1 + zs f), 1]) (B := fun _ => 1) (C := fun f => !![1, 1 - yp f; 1 - zs f, -1]) ?_ continuousAt_const ?_
    (hne.mono fun f hf => ?_) (by rw [hj f0 hf]; exact hok)
  · refine tendsto_pi_nhds.2 fun i => tendsto_pi_nhds.2 fun j => ?_
    have : ContinuousAt (fun f => (!![1, 1 + yp f; -(1 + zs f), 1] : Matrix (Fin 2) (Fin 2) ℂ) i j) f0 := by
      fin_cases i <;> fin_cases j
      · exact continuousAt_const
      · exact continuousAt_const.add hyp
      · exact (continuousAt_const.add hz).neg
      · exact continuousAt_const
    exact this
  · refine tendsto_pi_nhds.2 fun i => tendsto_pi_nhds.2 fun j => ?_
    have : ContinuousAt (fun f => (!![1, 1 - yp f; 1 - zs f, -1] : Matrix (Fin 2) (Fin 2) ℂ) i j) f0 := by
      fin_cases i <;> fin_cases j
      · exact continuousAt_const
      · exact continuousAt_const.sub hyp
      · exact continuousAt_const.sub hz
      · exact continuousAt_const
    exact this
  · rw [hj f hf]
    unfold RLC.mkS
    cases npInv (!![1, 1 + yp f; -(1 + zs f), 1] : Matrix (Fin 2) (Fin 2) ℂ) with
    | error e => rfl
    | ok W => simp only [Except.map, one_mul]

/-- the node matrix at the end of a line of uniform parameters -/
noncomputable def endMat (l : TRL.Line) (f : ℝ) : Matrix (Fin 2) (Fin 2) ℂ :=
  let gm := (l.z (2 * Real.pi * f) 0 * l.y (2 * Real.pi * f) 0) ^ (1 / 2 : ℂ)
  let Zc := l.z (2 * Real.pi * f) 0 / gm
  let egmx := Complex.exp (gm * l.L)
  let I10 := 1 / 2 * (egmx - 1 / egmx) / Zc
  !![1 / 2 * (egmx + 1 / egmx), Zc ^ 2 * I10; I10, 1 / 2 * (egmx + 1 / egmx)]

theorem grid_ok {l : TRL.Line} (hc : l.constant = true) {f f' : ℝ} {xs : List ℝ} (h : TRL.grid l f = .ok xs) : ∃ xs, TRL.grid l f' = .ok xs := by
  unfold TRL.grid at h ⊢
  cases hd : l.dx with
  | int n =>
    simp only [hd, hc, if_true] at h ⊢
    by_cases hn : n = 0
    · simp only [if_pos hn] at h; cases h
    · simp only [if_neg hn]
      cases TRL.wavlen l (2 * Real.pi * f') 0 with
      | none => exact ⟨_, rfl⟩
      | some w => exact ⟨_, rfl⟩
  | float d =>
    simp only [hd] at h ⊢
    exact ⟨xs, h⟩

theorem fresh_zero {ode : TRL.Ode} {l : TRL.Line} (hL : l.L = 0) {f : ℝ} {xs : List ℝ} (h : TRL.grid l f = .ok xs) :
    ((TRL.fresh ode l f).map fun s => (⟨2, s.S⟩ : SMat ℂ)) = (sFromVI (l.Zbase : ℂ) (1 : Matrix (Fin 2) (Fin 2) ℂ)).map fun S => ⟨2, S⟩ := by
  obtain ⟨e1, e2⟩ := TRL.grid_ends h
  unfold TRL.fresh TRL.solveNodes
  simp only [h]
  rw [if_pos (by rw [e1, e2, hL])]
  cases xs with
  | nil => simp at e1
  | cons x r =>
    simp only [List.getLast?_cons_cons, List.getLast?_singleton]
    cases sFromVI (l.Zbase : ℂ) (1 : Matrix (Fin 2) (Fin 2) ℂ) <;> rfl

theorem fresh_long {ode : TRL.Ode} {l : TRL.Line} (hc : l.constant = true) (hL : l.L ≠ 0) {f : ℝ} {xs : List ℝ} (h : TRL.grid l f = .ok xs) :
    ((TRL.fresh ode l f).map fun s => (⟨2, s.S⟩ : SMat ℂ)) = if l.z (2 * Real.pi * f) 0 * l.y (2 * Real.pi * f) 0 = 0 then .error .nonFinite else
      (sFromVI (l.Zbase : ℂ) (endMat l f)).map fun S => ⟨2, S⟩ := by
  obtain ⟨e1, e2⟩ := TRL.grid_ends h
  have hsq := TRL.sqrt_sq (l.z (2 * Real.pi * f) 0 * l.y (2 * Real.pi * f) 0)
  unfold TRL.fresh TRL.solveNodes
  simp only [h]
  rw [if_neg (by rw [e1, e2]; intro h; injection h with h; exact hL h.symm), if_pos hc]
  by_cases hg : (l.z (2 * Real.pi * f) 0 * l.y (2 * Real.pi * f) 0) ^ (1 / 2 : ℂ) = 0
  · rw [if_pos hg, if_pos (by rw [← hsq, hg]; simp)]
    rfl
  · rw [if_neg hg, if_neg (fun h0 => hg (by rw [h0]; simp))]
    simp only [List.getLast?_map, e2, Option.map_some]
    unfold endMat
    dsimp only
    split
    · rename_i x hx; rw [hx]; rfl
    · rename_i S hS; rw [hS]; rfl

theorem endMat_cont {l : TRL.Line} (hz : ContinuousAt (fun f => l.z (2 * Real.pi * f) 0) f0) (hy : ContinuousAt (fun f => l.y (2 * Real.pi * f) 0) f0)
    (h0 : l.z (2 * Real.pi * f0) 0 * l.y (2 * Real.pi * f0) 0 ≠ 0) (i j : Fin 2) : ContinuousAt (fun f => endMat l f i j) f0 := by
  have hz0 : l.z (2 * Real.pi * f0) 0 ≠ 0 := left_ne_zero_of_mul h0
  have hzy : ContinuousAt (fun f => l.z (2 * Real.pi * f) 0 * l.y (2 * Real.pi * f) 0) f0 := hz.mul hy
  have hc1 : ContinuousAt (fun f => Complex.cosh ((l.z (2 * Real.pi * f) 0 * l.y (2 * Real.pi * f) 0) ^ (1 / 2 : ℂ) * l.L)) f0 :=
    (even_sqrt (φ := fun u => Complex.cosh (u * l.L)) (by fun_prop) (fun u => by rw [neg_mul, Complex.cosh_neg])).continuousAt.comp hzy
  have hc2 : ContinuousAt (fun f => (l.z (2 * Real.pi * f) 0 * l.y (2 * Real.pi * f) 0) ^ (1 / 2 : ℂ) *
      Complex.sinh ((l.z (2 * Real.pi * f) 0 * l.y (2 * Real.pi * f) 0) ^ (1 / 2 : ℂ) * l.L)) f0 :=
    (even_sqrt (φ := fun u => u * Complex.sinh (u * l.L)) (by fun_prop) (fun u => by rw [show -u * (l.L : ℂ) = -(u * l.L) by ring, Complex.sinh_neg]; ring)).continuousAt.comp hzy
  have hne : ∀ᶠ f in 𝓝 f0, l.z (2 * Real.pi * f) 0 * l.y (2 * Real.pi * f) 0 ≠ 0 := hzy.eventually_ne h0
  have e00 : ∀ f, endMat l f 0 0 = Complex.cosh ((l.z (2 * Real.pi * f) 0 * l.y (2 * Real.pi * f) 0) ^ (1 / 2 : ℂ) * l.L) := by
    intro f
    rw [Complex.cosh, Complex.exp_neg]
    rw [show endMat l f 0 0 = 1 / 2 * (Complex.exp ((l.z (2 * Real.pi * f) 0 * l.y (2 * Real.pi * f) 0) ^ (1 / 2 : ℂ) * l.L) + 1 / Complex.exp ((l.z (2 * Real.pi * f) 0 * l.y (2 * Real.pi * f) 0) ^ (1 / 2 : ℂ) * l.L)) from rfl, one_div (Complex.exp ((l.z (2 * Real.pi * f) 0 * l.y (2 * Real.pi * f) 0) ^ (1 / 2 : ℂ) * l.L))]
    ring
  have e11 : ∀ f, endMat l f 1 1 = endMat l f 0 0 := fun f => rfl
  have e10 : ∀ f, endMat l f 1 0 = (l.z (2 * Real.pi * f) 0 * l.y (2 * Real.pi * f) 0) ^ (1 / 2 : ℂ) *
      Complex.sinh ((l.z (2 * Real.pi * f) 0 * l.y (2 * Real.pi * f) 0) ^ (1 / 2 : ℂ) * l.L) / l.z (2 * Real.pi * f) 0 := by
    intro f
    rw [Complex.sinh, Complex.exp_neg]
    rw [show endMat l f 1 0 = 1 / 2 * (Complex.exp ((l.z (2 * Real.pi * f) 0 * l.y (2 * Real.pi * f) 0) ^ (1 / 2 : ℂ) * l.L) - 1 / Complex.exp ((l.z (2 * Real.pi * f) 0 * l.y (2 * Real.pi * f) 0) ^ (1 / 2 : ℂ) * l.L)) / (l.z (2 * Real.pi * f) 0 / (l.z (2 * Real.pi * f) 0 * l.y (2 * Real.pi * f) 0) ^ (1 / 2 : ℂ)) from rfl, one_div (Complex.exp ((l.z (2 * Real.pi * f) 0 * l.y (2 * Real.pi * f) 0) ^ (1 / 2 : ℂ) * l.L)), div_div_eq_mul_div]
    ring
  have e01 : ∀ f, l.z (2 * Real.pi * f) 0 * l.y (2 * Real.pi * f) 0 ≠ 0 → endMat l f 0 1 = l.z (2 * Real.pi * f) 0 / l.y (2 * Real.pi * f) 0 * endMat l f 1 0 := by
    intro f hf
    have hsq := TRL.sqrt_sq (l.z (2 * Real.pi * f) 0 * l.y (2 * Real.pi * f) 0)
    have hzf : l.z (2 * Real.pi * f) 0 ≠ 0 := left_ne_zero_of_mul hf
    have hyf : l.y (2 * Real.pi * f) 0 ≠ 0 := right_ne_zero_of_mul hf
    show (l.z (2 * Real.pi * f) 0 / (l.z (2 * Real.pi * f) 0 * l.y (2 * Real.pi * f) 0) ^ (1 / 2 : ℂ)) ^ 2 * endMat l f 1 0 = _
    rw [div_pow, hsq]
    congr 1
    field_simp
  have h10 : ContinuousAt (fun f => endMat l f 1 0) f0 := by
    simp only [e10]
    exact hc2.div hz hz0
  fin_cases i <;> fin_cases j
  · show ContinuousAt (fun f => endMat l f 0 0) f0
    simp only [e00]; exact hc1
  · show ContinuousAt (fun f => endMat l f 0 1) f0
    exact ((hz.div hy (right_ne_zero_of_mul h0)).mul h10).congr (hne.mono fun f hf => (e01 f hf).symm)
  · exact h10
  · show ContinuousAt (fun f => endMat l f 1 1) f0
    simp only [e11, e00]; exact hc1

theorem sFromVI_steady {Zb : ℂ} {M : ℝ → Matrix (Fin 2) (Fin 2) ℂ} (hM : ∀ i j, ContinuousAt (fun f => M f i j) f0) {g : ℝ → Except Err (SMat ℂ)}
    (hg : ∀ᶠ f in 𝓝 f0, g f = (sFromVI Zb (M f)).map fun S => ⟨2, S⟩) (hok : ∃ T, g f0 = .ok T) : Steady g f0 := by
  refine inv_steady (D := fun f => !![1, -Zb; M f 0 0 + Zb * M f 1 0, M f 0 1 + Zb * M f 1 1]) (B := fun f => !![1, Zb; M f 0 0 - Zb * M f 1 0, M f 0 1 - Zb * M f 1 1])
    (C := fun _ => 1) ?_ ?_ continuousAt_const (hg.mono fun f hf => ?_) hok
  · refine tendsto_pi_nhds.2 fun i => tendsto_pi_nhds.2 fun j => ?_
    have : ContinuousAt (fun f => (!![1, -Zb; M f 0 0 + Zb * M f 1 0, M f 0 1 + Zb * M f 1 1] : Matrix (Fin 2) (Fin 2) ℂ) i j) f0 := by
      fin_cases i <;> fin_cases j
      · exact continuousAt_const
      · exact continuousAt_const
      · exact (hM 0 0).add (continuousAt_const.mul (hM 1 0))
      · exact (hM 0 1).add (continuousAt_const.mul (hM 1 1))
    exact this
  · refine tendsto_pi_nhds.2 fun i => tendsto_pi_nhds.2 fun j => ?_
    have : ContinuousAt (fun f => (!![1, Zb; M f 0 0 - Zb * M f 1 0, M f 0 1 - Zb * M f 1 1] : Matrix (Fin 2) (Fin 2) ℂ) i j) f0 := by
      fin_cases i <;> fin_cases j
      · exact continuousAt_const
      · exact continuousAt_const
      · exact (hM 0 0).sub (continuousAt_const.mul (hM 1 0))
      · exact (hM 0 1).sub (continuousAt_const.mul (hM 1 1))
    exact this
  · rw [hf]
    simp only [sFromVI, and_self, dite_true, mul_one]
    cases npInv (!![1, -Zb; M f 0 0 + Zb * M f 1 0, M f 0 1 + Zb * M f 1 1] : Matrix (Fin 2) (Fin 2) ℂ) <;> rfl

theorem findSol_nil (f : ℝ) : TRL.findSol [] f = none := rfl

/-- **C91 (a line of uniform parameters).** -/
theorem C91_line {npc : Bool} {ode : TRL.Ode} {l : TRL.Line} {z : ℂ} (hs : (Part.line l).Smooth f0) (hok : ∃ T, ((Part.line l).getS ode npc f0 z).2 = .ok T) :
    Steady (fun f => ((Part.line l).getS ode npc f z).2) f0 := by
  obtain ⟨hc, hz, hy⟩ := hs
  have him : z.im = 0 := by
    by_contra hn
    obtain ⟨T, hT⟩ := hok
    unfold Part.getS at hT
    rw [if_pos hn] at hT
    cases hT
  -- the matrix on the line's own reference
  let own : ℝ → Except Err (SMat ℂ) := fun f => (TRL.fresh ode l f).map fun s => ⟨2, s.S⟩
  have e : ∀ f, ((Part.line l).getS ode npc f z).2 = if z.re = 0 ∨ z.re = l.Zbase then own f else (own f).bind (convVV ((z.re : ℝ) : ℂ) (l.Zbase : ℂ)) := by
    intro f
    have h1 : TRL.set l [] = ({ l with solved := [] }, .ok ()) := by simp [TRL.set, TRL.setLoop]
    unfold Part.getS
    rw [if_neg (not_not.2 him)]
    unfold TRL.getS
    dsimp only
    rw [h1]
    unfold TRL.get1S TRL.ensure
    dsimp only
    rw [findSol_nil, TRL.fresh_solved]
    cases hf : TRL.fresh ode l f with
    | error x => simp [own, hf, Except.map, Except.bind]
    | ok s =>
      simp only [own, hf]
      by_cases hzz : z.re = 0 ∨ z.re = l.Zbase
      · simp only [if_pos hzz]
        rfl
      · simp only [if_neg hzz]
        have := convVV_eq_convertGeneral ((z.re : ℝ) : ℂ) (l.Zbase : ℂ) ⟨2, s.S⟩
        rw [this]
        show _ = convVV ((z.re : ℝ) : ℂ) (l.Zbase : ℂ) ⟨2, s.S⟩
        cases hv : convVV ((z.re : ℝ) : ℂ) (l.Zbase : ℂ) ⟨2, s.S⟩ with
        | error x => rfl
        | ok M =>
          have hn : M.n = 2 := convVV_n hv
          obtain ⟨m, M⟩ := M
          change m = 2 at hn
          subst hn
          simp [TRL.asMat2, Except.map]
  simp only [e] at hok ⊢
  have hown : (∃ T, own f0 = .ok T) → Steady own f0 := by
    intro hT
    have hgrid : ∃ xs, TRL.grid l f0 = .ok xs := by
      cases hg : TRL.grid l f0 with
      | ok xs => exact ⟨xs, rfl⟩
      | error x =>
        obtain ⟨T, hT⟩ := hT
        have : TRL.fresh ode l f0 = .error x := by
          unfold TRL.fresh TRL.solveNodes
          simp only [hg]
        simp only [own, this] at hT
        cases hT
    obtain ⟨xs, hxs⟩ := hgrid
    by_cases hL : l.L = 0
    · refine sFromVI_steady (Zb := (l.Zbase : ℂ)) (M := fun _ => 1) (fun i j => continuousAt_const) (Filter.Eventually.of_forall fun f => ?_) hT
      obtain ⟨xs', hx'⟩ := grid_ok hc (f' := f) hxs
      exact fresh_zero hL hx'
    · have h0 : l.z (2 * Real.pi * f0) 0 * l.y (2 * Real.pi * f0) 0 ≠ 0 := by
        intro h0
        obtain ⟨T, hT⟩ := hT
        have h1 : own f0 = _ := fresh_long hc hL hxs
        rw [h1, if_pos h0] at hT
        cases hT
      have hne : ∀ᶠ f in 𝓝 f0, l.z (2 * Real.pi * f) 0 * l.y (2 * Real.pi * f) 0 ≠ 0 := (hz.mul hy).eventually_ne h0
      refine sFromVI_steady (Zb := (l.Zbase : ℂ)) (M := endMat l) (fun i j => endMat_cont hz hy h0 i j) (hne.mono fun f hf => ?_) hT
      obtain ⟨xs', hx'⟩ := grid_ok hc (f' := f) hxs
      have h1 : own f = _ := fresh_long hc hL hx'
      rw [h1, if_neg hf]
  by_cases hzz : z.re = 0 ∨ z.re = l.Zbase
  · simp only [if_pos hzz] at hok ⊢
    exact hown hok
  · simp only [if_neg hzz] at hok ⊢
    refine convVV_steady (hown ?_) hok
    cases ho : own f0 with
    | error x => rw [ho] at hok; obtain ⟨T, hT⟩ := hok; cases hT
    | ok M => exact ⟨M, rfl⟩

theorem leaf_steady {npc : Bool} {ode : TRL.Ode} {p : Part} {z : ℂ} (hs : p.Smooth f0) (hok : ∃ T, (p.getS ode npc f0 z).2 = .ok T) :
    Steady (fun f => (p.getS ode npc f z).2) f0 := by
  cases p with
  | line l => exact C91_line hs hok
  | rlc s => exact C91_rlc hs hok
  | base n g Z => exact C91_table hs hok

end leaves

section deep
variable {Fl : Type} [DecidableEq Fl] {ode : TRL.Ode} {npc : Bool} {face : Face} {f0 : ℝ} {fl : Fl}

theorem deep_steady : ∀ (n : ℕ) (o : (partTower (Fl := Fl) ode npc face n).O) (z : ℂ), smoothAt ode npc face f0 fl n o z →
    Steady (fun f => (partTower ode npc face n).beh o f z fl) f0 := by
  intro n
  induction n with
  | zero => exact fun o z h => leaf_steady h.1 h.2
  | succ n ih =>
    intro o z h
    cases o with
    | inl a => exact ih a z h
    | inr c =>
      obtain ⟨hnm, ⟨T, hT⟩, hb⟩ := h
      obtain ⟨nan, zb, names, net, bh, ph, hB, hph, hfree⟩ := c.ok
      have hlaw := (partTower (Fl := Fl) ode npc face n).lawful
      have hzb : c.st.zbase = zb := (hB.inv hlaw).zb
      exact any_steady hlaw hB hph hfree (hnm.imp_right fun e => e.trans (hB.inv hlaw).rep.ports_perm) (fun b hbm => by
        have := ih b.obj _ (hb b hbm)
        rwa [hzb] at this) ⟨_, T, Prod.ext rfl hT⟩

variable {nan zb : ℂ} {names : List Node} {net : Net ℂ} {bh : Behave ℂ ℝ Fl} {ph : Phase} (n : ℕ) {s : St ℂ (partTower (Fl := Fl) ode npc face n).O ℝ Fl}

/-- **C91 (continuity).** Lines of uniform parameters, lumped elements and stored matrices that vary continuously with the frequency, joined to any depth: at a frequency at which
the circuit answers, it answers at all frequencies near it, and every entry of the matrix varies continuously there, on the circuit's own reference and on every other one it can be
converted to.  So a circuit can fail on a closed set of frequencies only, and its answers cannot jump. -/
theorem C91_continuous (h : Built (partTower ode npc face n).ops (partTower ode npc face n).beh nan zb names net bh s ph) (hph : ph ≠ .reloaded) (hfree : net.free ≠ [])
    (hnames : s.names = [] ∨ s.names.Perm net.free) (hb : ∀ b ∈ s.blocks, smoothAt ode npc face f0 fl n b.obj zb) :
    ((∃ s' S, getS (partTower ode npc face n).ops s f0 none fl = (s', .ok S)) → Steady (fun f => (getS (partTower ode npc face n).ops s f none fl).2) f0) ∧
    ∀ z : ℂ, (∃ s' S, getS (partTower ode npc face n).ops s f0 (some z) fl = (s', .ok S)) → Steady (fun f => (getS (partTower ode npc face n).ops s f (some z) fl).2) f0 := by
  have hlaw := (partTower (Fl := Fl) ode npc face n).lawful
  have hb' := fun b hbm => deep_steady n b.obj zb (hb b hbm)
  refine ⟨fun hok => ?_, fun z hok => any_steady hlaw h hph hfree hnames hb' hok⟩
  have h1 := own_steady hlaw h hph hfree hnames hb' hok
  have e : (fun f => (getS (partTower ode npc face n).ops s f none fl).2) = fun f => (get1S (partTower ode npc face n).ops s f fl).2 := by
    funext f
    unfold getS
    cases get1S (partTower ode npc face n).ops s f fl with
    | mk s1 r1 => cases r1 <;> rfl
  rw [e]
  exact h1

/-- **C91 (a band of frequencies).** Over a set of frequencies at which the circuit answers the entries of the matrix are continuous functions of the frequency. -/
theorem C91_band (h : Built (partTower ode npc face n).ops (partTower ode npc face n).beh nan zb names net bh s ph) (hph : ph ≠ .reloaded) (hfree : net.free ≠ [])
    (hnames : s.names = [] ∨ s.names.Perm net.free) {U : Set ℝ} {z : ℂ} {T : ℝ → SMat ℂ} (hb : ∀ f ∈ U, ∀ b ∈ s.blocks, smoothAt ode npc face f fl n b.obj zb)
    (hT : ∀ f ∈ U, (getS (partTower ode npc face n).ops s f (some z) fl).2 = .ok (T f)) : ∀ i j : ℕ, ContinuousOn (fun f => (T f).at i j) U := by
  intro i j f hf
  obtain ⟨T', hT', hn, hc⟩ := (C91_continuous n h hph hfree hnames (hb f hf)).2 z ⟨_, T f, Prod.ext rfl (hT f hf)⟩
  have h0 : T' f = T f := by
    have := hT'.self_of_nhds
    dsimp only at this
    rw [hT f hf] at this
    injection this with this
    exact this.symm
  have h1 : Tendsto (fun k => (T' k).at i j) (𝓝[U] f) (𝓝 ((T f).at i j)) := by
    rw [← h0]
    exact (hc i j).mono_left nhdsWithin_le_nhds
  refine h1.congr' ?_
  filter_upwards [hT'.filter_mono nhdsWithin_le_nhds, self_mem_nhdsWithin] with k hk hkU
  rw [hT k hkU] at hk
  injection hk with hk
  rw [hk]

/-- **C91 (voltages and currents).** … and the voltages, currents and waves that `Solution` reports for fixed waves at its ports vary continuously at every node. -/
theorem C91_solution (h : Built (partTower ode npc face n).ops (partTower ode npc face n).beh nan zb names net bh s ph) (hph : ph ≠ .reloaded) (hzb : zb ≠ 0) (hfree : net.free ≠ [])
    (hord : names = [] ∨ names = s.ports ∨ s.aliased = true) (hnames : s.names = [] ∨ s.names.Perm net.free) (hb : ∀ b ∈ s.blocks, smoothAt ode npc face f0 fl n b.obj zb)
    {E : List (Node × ℂ)} {z : Option ℂ} (hz : z.getD zb ≠ 0) (hE : ∀ p ∈ net.free, dictGet p E ≠ none)
    (hok : ∃ s' S, getS (partTower ode npc face n).ops s f0 (some (z.getD zb)) fl = (s', .ok S)) :
    ∀ x ∈ net.nodes, SteadyAt (fun f => (solution (partTower ode npc face n).ops s f E z fl).2) f0 x := fun _ hx =>
  state_steady (partTower (Fl := Fl) ode npc face n).lawful h hph hzb hfree hord hnames (fun b hbm => deep_steady n b.obj zb (hb b hbm)) hz hE hok hx

end deep

/-! ## a concrete circuit: the line with losses of C90, loaded -/

namespace ExCont
open ExParts ExSol ExRes

/-- the loaded line with losses answers at every frequency on every positive reference, and its answers are continuous there -/
theorem C91_witness (ode : TRL.Ode) (f0 : ℝ) {z : ℝ} (hz : 0 < z) : Steady (fun f => (getS (kind ode).ops (ExRes.d2 ode) f (some (z : ℂ)) ()).2) f0 := by
  obtain ⟨bh, h⟩ := ExRes.built ode
  have hobj : ∀ b ∈ (ExRes.d2 ode).blocks, b.obj = (.line lossy : Part) := by
    intro b hb
    have := List.mem_map_of_mem (f := Blk.obj) hb
    rw [show (ExRes.d2 ode).blocks.map Blk.obj = [(.line lossy : Part)] from rfl] at this
    exact List.mem_singleton.1 this
  refine (C91_continuous 0 h (by decide) (by decide) (Or.inl ?_) fun b hb => ?_).2 _ (C90_lossy_witness ode f0 hz)
  · obtain ⟨hi, hb, -⟩ := h.all (kind ode).lawful
    obtain ⟨-, ha, -⟩ := hb rfl
    simp [St.names, ha, hi.nm]
  · rw [hobj b hb]
    exact ⟨⟨rfl, continuousAt_const, continuousAt_const⟩, answers_lossy ode⟩

/-- … and so are voltage and current at the load, for a wave of 1 V entering the circuit -/
theorem C91_solution_witness (ode : TRL.Ode) (f0 : ℝ) : SteadyAt (fun f => (solution (kind ode).ops (ExRes.d2 ode) f [(.blk "A" "1", 1)] none ()).2) f0 (.blk "A" "2") := by
  obtain ⟨bh, h⟩ := ExRes.built ode
  have hobj : ∀ b ∈ (ExRes.d2 ode).blocks, b.obj = (.line lossy : Part) := by
    intro b hb
    have := List.mem_map_of_mem (f := Blk.obj) hb
    rw [show (ExRes.d2 ode).blocks.map Blk.obj = [(.line lossy : Part)] from rfl] at this
    exact List.mem_singleton.1 this
  refine C91_solution 0 h (by decide) (by norm_num) (by decide) (Or.inl rfl) (Or.inl ?_) (fun b hb => ?_) (z := none) (by norm_num) (by decide) (C90_lossy_witness ode f0 (by norm_num)) _ (by decide)
  · obtain ⟨hi, hb, -⟩ := h.all (kind ode).lawful
    obtain ⟨-, ha, -⟩ := hb rfl
    simp [St.names, ha, hi.nm]
  · rw [hobj b hb]
    exact ⟨⟨rfl, continuousAt_const, continuousAt_const⟩, answers_lossy ode⟩

end ExCont

end PyRFtk.Circuit
