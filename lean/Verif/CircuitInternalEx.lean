import Verif.CircuitInternalProps
import Verif.CircuitSolEx

/-!
# C58: any depth, examples, and fewer nodes than ports
-/

set_option linter.unusedSectionVars false

namespace PyRFtk.Circuit

section
variable {K F Fl : Type} [Field K] [CharZero K] [DecidableEq F] [DecidableEq Fl]

/-- **C58 (any depth)**: `C58_matrix` for circuits of circuits of …, `n` levels deep. -/
theorem C58_any_depth (n : ℕ) (c : SolCirc (solTower K F Fl n).ops (solTower K F Fl n).beh (solTower K F Fl n).sub) {f : F} {fl : Fl}
    {s s' : St K (solTower K F Fl n).O F Fl} {r0 : Except Err (SMat K)} (h0 : getS (solTower K F Fl n).ops s f none fl = (c.st, r0))
    {z : Option K} (hz : z.getD s.zbase ≠ 0) {nodes : List String}
    {pinv : ∀ {n m : ℕ}, Matrix (Fin n) (Fin m) K → Matrix (Fin m) (Fin n) K} {S : SMat K}
    (hs : internalS (solTower K F Fl n).ops (solTower K F Fl n).sub pinv s f nodes z fl = (s', .ok S)) (hn : nodes.length = c.net.free.length) :
    S.n = nodes.length ∧ ∀ x, solPhys (solTower K F Fl n).sub (solTower K F Fl n).ins c f fl x → ∀ i : Fin nodes.length,
      x.ref (z.getD s.zbase) nodes[i] = ∑ j : Fin nodes.length, S.at i j * x.inc (z.getD s.zbase) nodes[j] :=
  C58_matrix (solTower K F Fl n).lawful (solTower K F Fl n).solves (tower_linear K F Fl n) c h0 hz hs hn

/-- **C58 (any depth, fewer nodes)**: `C58_fewer` -/
theorem C58_any_depth_fewer (n : ℕ) (c : SolCirc (solTower K F Fl n).ops (solTower K F Fl n).beh (solTower K F Fl n).sub) {f : F} {fl : Fl}
    {s s' : St K (solTower K F Fl n).O F Fl} {r0 : Except Err (SMat K)} (h0 : getS (solTower K F Fl n).ops s f none fl = (c.st, r0))
    {z : Option K} (hz : z.getD s.zbase ≠ 0) {nodes : List String}
    {pinv : ∀ {n m : ℕ}, Matrix (Fin n) (Fin m) K → Matrix (Fin m) (Fin n) K} (hpinv : ∀ {n m : ℕ} (A : Matrix (Fin n) (Fin m) K), A * pinv A * A = A)
    {S : SMat K} (hs : internalS (solTower K F Fl n).ops (solTower K F Fl n).sub pinv s f nodes z fl = (s', .ok S))
    {T : Matrix (Fin nodes.length) (Fin nodes.length) K}
    (hT : ∀ x, solPhys (solTower K F Fl n).sub (solTower K F Fl n).ins c f fl x → ∀ i : Fin nodes.length,
      x.ref (z.getD s.zbase) nodes[i] = ∑ j, T i j * x.inc (z.getD s.zbase) nodes[j])
    (hfree : ∀ v : Fin nodes.length → K, ∃ x, solPhys (solTower K F Fl n).sub (solTower K F Fl n).ins c f fl x ∧
      ∀ i, x.inc (z.getD s.zbase) nodes[i] = v i) : S = ⟨nodes.length, T⟩ :=
  C58_fewer (solTower K F Fl n).lawful (solTower K F Fl n).solves (tower_linear K F Fl n) c h0 hz hpinv hs hT hfree

/-- **C58 (any depth, answers)**: `C58_answers` -/
theorem C58_any_depth_answers (n : ℕ) (c : SolCirc (solTower K F Fl n).ops (solTower K F Fl n).beh (solTower K F Fl n).sub) {f : F} {fl : Fl}
    {s : St K (solTower K F Fl n).O F Fl} {S0 : SMat K} (h0 : getS (solTower K F Fl n).ops s f none fl = (c.st, .ok S0))
    {z : Option K} (hz : z.getD s.zbase ≠ 0) (hr : solReady (solTower K F Fl n).sub (solTower K F Fl n).ins c f (z.getD s.zbase) fl)
    {nodes : List String} (h1 : nodes ≠ [])
    (hin : ∀ m ∈ nodes, m ≠ "" ∧ (dirOf m).2 ∈ solNodes (solTower K F Fl n).sub (solTower K F Fl n).ins c)
    (pinv : ∀ {n m : ℕ}, Matrix (Fin n) (Fin m) K → Matrix (Fin m) (Fin n) K) :
    (nodes.length = c.net.free.length →
      ((∀ v : Fin nodes.length → K, ∃ x, solPhys (solTower K F Fl n).sub (solTower K F Fl n).ins c f fl x ∧
          ∀ i, x.inc (z.getD s.zbase) nodes[i] = v i) →
        ∃ S, (internalS (solTower K F Fl n).ops (solTower K F Fl n).sub pinv s f nodes z fl).2 = .ok S) ∧
      ((¬ ∀ v : Fin nodes.length → K, ∃ x, solPhys (solTower K F Fl n).sub (solTower K F Fl n).ins c f fl x ∧
          ∀ i, x.inc (z.getD s.zbase) nodes[i] = v i) →
        (internalS (solTower K F Fl n).ops (solTower K F Fl n).sub pinv s f nodes z fl).2 = .error .linAlg)) ∧
    (nodes.length < c.net.free.length →
      ∃ S, (internalS (solTower K F Fl n).ops (solTower K F Fl n).sub pinv s f nodes z fl).2 = .ok S) ∧
    (c.net.free.length < nodes.length →
      (internalS (solTower K F Fl n).ops (solTower K F Fl n).sub pinv s f nodes z fl).2 = .error .valueError) :=
  C58_answers (solTower K F Fl n).lawful (solTower K F Fl n).solves (tower_linear K F Fl n) c h0 hz hr h1 hin pinv

end

section
variable {K O F Fl : Type*} [Field K] [CharZero K] [DecidableEq F] [DecidableEq Fl]
variable {ops : ObjOps K O F Fl} {beh : O → F → K → Fl → Except Err (SMat K)} {sub : SubSol K O F Fl} {ins : Insides K O F Fl}

/-- **C58 is violated for fewer nodes than external ports.**  Whenever two states of the circuit have the same waves running into the nodes
asked for and different waves coming back, no matrix relates them; one is returned all the same. -/
theorem C58_fewer_unrelated (hlaw : Lawful ops beh) (hv : Solves ops beh sub ins) (hl : Linear ops beh sub ins) (c : SolCirc ops beh sub)
    {s : St K O F Fl} {f : F} {fl : Fl} {S0 : SMat K} (h0 : getS ops s f none fl = (c.st, .ok S0)) {z : Option K} (hz : z.getD s.zbase ≠ 0)
    (hr : solReady sub ins c f (z.getD s.zbase) fl) {nodes : List String} (h1 : nodes ≠ [])
    (hin : ∀ n ∈ nodes, n ≠ "" ∧ (dirOf n).2 ∈ solNodes sub ins c) (hlt : nodes.length < c.net.free.length)
    (pinv : ∀ {n m : ℕ}, Matrix (Fin n) (Fin m) K → Matrix (Fin m) (Fin n) K)
    {x y : Inner K} (hx : solPhys sub ins c f fl x) (hy : solPhys sub ins c f fl y)
    (hxy : ∀ n ∈ nodes, x.inc (z.getD s.zbase) n = y.inc (z.getD s.zbase) n)
    (hne : ∃ n ∈ nodes, x.ref (z.getD s.zbase) n ≠ y.ref (z.getD s.zbase) n) :
    (∃ S, (internalS ops sub pinv s f nodes z fl).2 = .ok S) ∧
    ¬ ∃ T : Matrix (Fin nodes.length) (Fin nodes.length) K, ∀ x, solPhys sub ins c f fl x → ∀ i : Fin nodes.length,
      x.ref (z.getD s.zbase) nodes[i] = ∑ j, T i j * x.inc (z.getD s.zbase) nodes[j] := by
  refine ⟨(C58_answers hlaw hv hl c h0 hz hr h1 hin pinv).2.1 hlt, ?_⟩
  rintro ⟨T, hT⟩
  obtain ⟨n, hn, hne⟩ := hne
  obtain ⟨i, hi, rfl⟩ := List.getElem_of_mem hn
  refine hne (((hT x hx ⟨i, hi⟩).trans ?_).trans (hT y hy ⟨i, hi⟩).symm)
  exact Finset.sum_congr rfl fun j _ => congrArg (T ⟨i, hi⟩ j * ·) (hxy _ (List.getElem_mem j.2))

end

namespace Ex

/-- the example circuit in a circuit is ready -/
theorem d1_ready : (∃ s' S', getS T1.ops d1.st () (some 50) () = (s', .ok S')) ∧ solReady T1.sub T1.ins d1 () 50 () := by
  obtain ⟨S0, hS0⟩ := d0_answers
  obtain ⟨s', S', hs'⟩ := oneNet_answers T1.lawful d0_res (by decide) (by simp) (f := ()) (fl := ()) (zb := 50) (S := S0) hS0
  refine ⟨⟨s', S', hs'⟩, ⟨S', ?_⟩, ?_⟩
  · show (getS T1.ops (addblock T1.ops 0 (St.init 50 []) "X" (.inr d0) .none 0).1 () (some 50) ()).2 = _
    rw [hs']
  · intro b hb _
    have hb : b ∈ (addblock T1.ops 0 (St.init 50 []) "X" (.inr d0) .none 0).1.blocks := hb
    rw [oneNet_blocks d0_res, List.mem_singleton] at hb
    subst hb
    exact ⟨⟨S0, hS0⟩, fun b _ h => by cases h⟩

theorem getS_default {O : Type*} {ops : ObjOps ℚ O Unit Unit} {s s' : St ℚ O Unit Unit} {S : SMat ℚ} (hz : s'.zbase = 50)
    (h : getS ops s () (some 50) () = (s', .ok S)) : getS ops s () none () = (s', .ok S) := by
  unfold getS at h ⊢
  cases hg : get1S ops s () () with
  | mk s1 r1 =>
    rw [hg] at h
    cases r1 with
    | error e => simp at h
    | ok M =>
      simp only at h ⊢
      by_cases hc : (50 : ℚ) ≠ 0 ∧ 50 ≠ s1.zbase
      · exfalso
        rw [if_pos hc] at h
        apply hc.2
        rw [← hz]
        simp only [Prod.mk.injEq] at h
        rw [h.1]
      · rw [if_neg hc] at h
        exact h

/-- any state of the example: at the load inside, the wave coming back is 1/3 of the wave running in -/
theorem d1_state {x : Inner ℚ} (hx : solPhys T1.sub T1.ins d1 () () x) :
    x.rev 50 "X.B.2" = 3 * x.fwd 50 "X.B.2" ∧ x.rev 50 "X.B.2" = 3/10 * x.fwd 50 "X.A.1" := by
  obtain ⟨Sof1, w1, -, -, -, hin⟩ := hx
  have hin' := hin ⟨"X", ["A.1"], (0, 0), .inr d0, 0⟩ (by
    show _ ∈ (addblock T1.ops 0 (St.init 50 []) "X" (.inr d0) .none 0).1.blocks
    rw [oneNet_blocks d0_res]
    simp) rfl
  obtain ⟨Sof0, w, g1, g2, g3, -⟩ : solPhys (solTower ℚ Unit Unit 0).sub (solTower ℚ Unit Unit 0).ins d0 () () (x.part "X") := hin'
  have g2 := (laws_iff w).1 ((g1.laws_congr given w).1 g2)
  have hA : x.V "X.A.1" = volt w (.blk "A" "1") ∧ x.I "X.A.1" = curr w (.blk "A" "1") / 50 := g3 (.blk "A" "1") (by decide)
  have hB : x.V "X.B.2" = volt w (.blk "B" "2") ∧ x.I "X.B.2" = curr w (.blk "B" "2") / 50 := g3 (.blk "B" "2") (by decide)
  simp only [Inner.fwd, Inner.rev, hA.1, hA.2, hB.1, hB.2, volt, curr]
  obtain ⟨⟨a, b, c, d⟩, e1, e2, e3⟩ := g2
  constructor <;> linarith

theorem d1_inner : "X.B.2" ∈ solNodes T1.sub T1.ins d1 := by
  unfold solNodes
  apply List.mem_append_right
  rw [List.mem_flatMap]
  refine ⟨⟨"X", ["A.1"], (0, 0), .inr d0, 0⟩, ?_, ?_⟩
  · show _ ∈ (addblock T1.ops 0 (St.init 50 []) "X" (.inr d0) .none 0).1.blocks
    rw [oneNet_blocks d0_res]
    simp
  · rw [if_pos (show (T1.sub (.inr d0)).isSome = true from rfl)]
    refine List.mem_map.2 ⟨"B.2", ?_, by decide⟩
    show "B.2" ∈ solNodes _ _ d0
    unfold solNodes
    apply List.mem_append_left
    decide

/-- The hypotheses of `C58_any_depth` and `C58_any_depth_answers` are met: asked for the node of the 100 Ω load inside the inner circuit, seen
from the other side, the code returns the reflection of that load, 1/3. -/
theorem C58_witness (pinv : ∀ {n m : ℕ}, Matrix (Fin n) (Fin m) ℚ → Matrix (Fin m) (Fin n) ℚ) :
    ∃ S, (internalS T1.ops T1.sub pinv d1.st () ["<X.B.2"] (some 50) ()).2 = .ok S ∧ S.n = 1 ∧ S.at 0 0 = 1/3 := by
  obtain ⟨⟨s1, S1, hs1⟩, hready⟩ := d1_ready
  have hnx := next_getS T1.lawful T1.solves d1 hs1
  have hz1 : s1.zbase = 50 := by
    obtain ⟨nan, names, ph, hb, -, -⟩ := hnx.built
    exact (hb.inv T1.lawful).zb
  have h0 : getS T1.ops d1.st () none () = ((d1.next s1 hnx).st, .ok S1) := getS_default hz1 hs1
  have hsame := solSame T1.lawful T1.solves hnx
  have hr : solReady T1.sub T1.ins (d1.next s1 hnx) () 50 () := (congrFun (congrFun (congrFun hsame.ready ()) 50) ()).mpr hready
  have hphys : ∀ x, solPhys T1.sub T1.ins (d1.next s1 hnx) () () x ↔ solPhys T1.sub T1.ins d1 () () x :=
    fun x => Iff.of_eq (congrFun (congrFun (congrFun hsame.phys ()) ()) x)
  have hnodes : "X.B.2" ∈ solNodes T1.sub T1.ins (d1.next s1 hnx) := by
    rw [show solNodes T1.sub T1.ins (d1.next s1 hnx) = solNodes T1.sub T1.ins d1 from hsame.nodes]
    exact d1_inner
  have hfree : d1.net.free = [.blk "X" "A.1"] := oneNet_free _
  have hdir : dirOf "<X.B.2" = (true, "X.B.2") := by decide
  have h50 : (some 50 : Option ℚ).getD d1.st.zbase = 50 := rfl
  have hinc : ∀ x : Inner ℚ, x.inc 50 "<X.B.2" = x.rev 50 "X.B.2" := fun x => by unfold Inner.inc; rw [hdir]; rfl
  have href : ∀ x : Inner ℚ, x.ref 50 "<X.B.2" = x.fwd 50 "X.B.2" := fun x => by unfold Inner.ref; rw [hdir]; rfl
  -- a state with a wave sent in
  obtain ⟨t, ht⟩ := C30_any_depth_answers 1 d1 (f := ()) (fl := ()) (E := [(.blk "X" "A.1", 1)]) (z := none) none (by norm_num [d1])
    hready (by
      intro p hp
      rw [hfree, List.mem_singleton] at hp
      subst hp
      decide)
  obtain ⟨x, x1, x2, -, -⟩ := C30_any_depth 1 d1 (by norm_num [d1]) (Prod.ext rfl ht)
  have hf' : some (1 : ℚ) = some (x.fwd 50 "X.A.1") := x2 (.blk "X" "A.1") (by rw [hfree]; simp)
  injection hf' with hf'
  obtain ⟨q1, q2⟩ := d1_state x1
  rw [← hf', mul_one] at q2
  have hans := (C58_any_depth_answers 1 (d1.next s1 hnx) (z := some 50) (nodes := ["<X.B.2"]) h0 (by rw [h50]; norm_num) hr (by simp) (by
    intro m hm
    rw [List.mem_singleton] at hm
    subst hm
    rw [hdir]
    exact ⟨by decide, hnodes⟩) pinv).1 (by rw [show (d1.next s1 hnx).net.free = [.blk "X" "A.1"] from hfree]; rfl)
  obtain ⟨S, hS⟩ := hans.1 (by
    intro v
    refine ⟨Inner.comb (v 0 * (10/3)) x 0 x, (hphys _).2 ?_, fun i => ?_⟩
    · exact (sol_linear T1.lawful T1.solves (tower_linear ℚ Unit Unit 1)).comb d1 rfl () () x x x1 x1 _ _
    · have hi : i = 0 := by
        have := i.2
        ext
        simp only [List.length_cons, List.length_nil] at this
        simp only [Fin.val_zero]
        omega
      subst hi
      show Inner.inc _ 50 "<X.B.2" = v 0
      rw [hinc]
      unfold Inner.rev at q2 ⊢
      simp only [Inner.comb]
      linear_combination v 0 * (10/3) * q2)
  obtain ⟨hn, hS'⟩ := C58_any_depth 1 (d1.next s1 hnx) (z := some 50) (nodes := ["<X.B.2"]) (pinv := pinv) h0 (by rw [h50]; norm_num)
    (Prod.ext rfl hS) (by rw [show (d1.next s1 hnx).net.free = [.blk "X" "A.1"] from hfree]; rfl)
  refine ⟨S, hS, hn, ?_⟩
  have e := hS' x ((hphys x).2 x1) 0
  have e : x.ref 50 "<X.B.2" = ∑ j : Fin 1, S.at 0 j * x.inc 50 "<X.B.2" := by
    refine e.trans ?_
    refine Finset.sum_congr rfl fun j _ => ?_
    have : j = (0 : Fin 1) := @Subsingleton.elim (Fin 1) _ j 0
    subst this
    rfl
  rw [href, hinc, Fin.sum_univ_one, q2] at e
  have : x.fwd 50 "X.B.2" = 1/10 := by linarith
  rw [this] at e
  simp only [Fin.val_zero] at e
  linarith

/-- The hypotheses of `C58_fewer_unrelated` are met: one 2-port, asked for one of its two ports.  A 1×1 matrix is returned; there is no
number that is the ratio of the waves there. -/
theorem C58_fewer_wrong (pinv : ∀ {n m : ℕ}, Matrix (Fin n) (Fin m) ℚ → Matrix (Fin m) (Fin n) ℚ) :
    ∃ s' S0, ∃ h : getS o k1 () none () = (s', .ok S0),
    (∃ S, (internalS (solTower ℚ Unit Unit 0).ops (solTower ℚ Unit Unit 0).sub pinv k1 () ["A.1"] none ()).2 = .ok S) ∧
    ¬ ∃ r : ℚ, ∀ x, solPhys (solTower ℚ Unit Unit 0).sub (solTower ℚ Unit Unit 0).ins
        (e0.next s' (next_getS (solTower ℚ Unit Unit 0).lawful (solTower ℚ Unit Unit 0).solves e0 h)) () () x →
      x.rev 50 "A.1" = r * x.fwd 50 "A.1" := by
  obtain ⟨s1, S1, hs1, -⟩ := e0_answers
  have hz1 : s1.zbase = 50 := ((Built.eval builtk hs1).inv (imm_lawful ℚ Unit Unit)).zb
  have h := getS_default hz1 hs1
  refine ⟨s1, S1, h, ?_⟩
  generalize next_getS (solTower ℚ Unit Unit 0).lawful (solTower ℚ Unit Unit 0).solves e0 h = hnx
  have hsame := solSame (solTower ℚ Unit Unit 0).lawful (solTower ℚ Unit Unit 0).solves hnx
  have hr : solReady (solTower ℚ Unit Unit 0).sub (solTower ℚ Unit Unit 0).ins (e0.next s1 hnx) () 50 () := by
    refine (congrFun (congrFun (congrFun hsame.ready ()) 50) ()).mpr ⟨⟨S1, ?_⟩, fun b _ hs => by cases hs⟩
    show (getS o k1 () (some 50) ()).2 = .ok S1
    rw [hs1]
  have hphys : ∀ x, solPhys (solTower ℚ Unit Unit 0).sub (solTower ℚ Unit Unit 0).ins (e0.next s1 hnx) () () x ↔
      solPhys (solTower ℚ Unit Unit 0).sub (solTower ℚ Unit Unit 0).ins e0 () () x :=
    fun x => Iff.of_eq (congrFun (congrFun (congrFun hsame.phys ()) ()) x)
  have hdir : dirOf "A.1" = (false, "A.1") := by decide
  have hinc : ∀ x : Inner ℚ, x.inc 50 "A.1" = x.fwd 50 "A.1" := fun x => by unfold Inner.inc; rw [hdir]; rfl
  have href : ∀ x : Inner ℚ, x.ref 50 "A.1" = x.rev 50 "A.1" := fun x => by unfold Inner.ref; rw [hdir]; rfl
  have h50 : (none : Option ℚ).getD k1.zbase = 50 := rfl
  -- two states: waves (1, 0) and (1, 1)
  have hst : ∀ a : ℚ, ∃ x, solPhys (solTower ℚ Unit Unit 0).sub (solTower ℚ Unit Unit 0).ins e0 () () x ∧ x.fwd 50 "A.1" = 1 ∧
      x.rev 50 "A.1" = 1/3 + 2/3 * a := by
    intro a
    let w : Wave → ℚ := fun x => if x = (.inn, .blk "A" "1") then 1 else if x = (.inn, .blk "A" "2") then a else
      if x = (.out, .blk "A" "1") then 1/3 + 2/3 * a else 2/3 - 1/3 * a
    refine ⟨⟨fun n => if n = "A.1" then volt w (.blk "A" "1") else volt w (.blk "A" "2"),
      fun n => (if n = "A.1" then curr w (.blk "A" "1") else curr w (.blk "A" "2")) / 50⟩, ⟨fun _ => ⟨2, mB⟩, w, giveni, ?_, ?_, ?_⟩, ?_, ?_⟩
    · rw [show e0.net = neti from rfl, show e0.zb = 50 from rfl, lawsi]
      simp [w]
      ring
    · intro n hn
      have hn : n ∈ [Node.blk "A" "1", .blk "A" "2"] := hn
      simp only [List.mem_cons, List.not_mem_nil, or_false] at hn
      rcases hn with rfl | rfl <;> exact ⟨rfl, rfl⟩
    · intro b _ hs
      cases hs
    · simp [Inner.fwd, w, volt, curr]
      ring
    · simp [Inner.rev, w, volt, curr]
      ring
  obtain ⟨x, hx, x1, x2⟩ := hst 0
  obtain ⟨y, hy, y1, y2⟩ := hst 1
  have key := C58_fewer_unrelated (solTower ℚ Unit Unit 0).lawful (solTower ℚ Unit Unit 0).solves (tower_linear ℚ Unit Unit 0)
    (e0.next s1 hnx) (s := k1) (z := none) (nodes := ["A.1"]) h (by rw [h50]; norm_num) hr (by simp) (by
      intro m hm
      rw [List.mem_singleton] at hm
      subst hm
      rw [hdir]
      refine ⟨by decide, ?_⟩
      rw [show solNodes (solTower ℚ Unit Unit 0).sub (solTower ℚ Unit Unit 0).ins (e0.next s1 hnx) = _ from hsame.nodes]
      exact List.mem_append_left _ (by decide)) (show _ < neti.free.length by decide) pinv ((hphys x).2 hx) ((hphys y).2 hy) (by
      intro n hn
      rw [List.mem_singleton] at hn
      subst hn
      rw [h50, hinc, hinc, x1, y1]) (by
      refine ⟨"A.1", by simp, ?_⟩
      rw [h50, href, href, x2, y2]
      norm_num)
  refine ⟨key.1, ?_⟩
  rintro ⟨r, hr⟩
  have e1 := hr x ((hphys x).2 hx)
  have e2 := hr y ((hphys y).2 hy)
  rw [x1, x2] at e1
  rw [y1, y2] at e2
  linarith

end Ex
end PyRFtk.Circuit
