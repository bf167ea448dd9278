import Verif.CircuitSolCirc

/-!
# `Solution` of circuits inside circuits: examples, and what goes wrong with renamed ports (C30)
-/

set_option linter.unusedSectionVars false

namespace PyRFtk.Circuit

section
variable {K O F Fl : Type*} [Field K] [DecidableEq F] [DecidableEq Fl]
variable {ops : ObjOps K O F Fl} {beh : O → F → K → Fl → Except Err (SMat K)} {sub : SubSol K O F Fl} {ins : Insides K O F Fl}
variable {nan zb : K} {names : List Node} {net : Net K} {bh : Behave K F Fl} {s s' : St K O F Fl} {ph : Phase}

theorem mapE_missing {α β : Type*} {g : α → Except Err β} {l : List α} {a : α} {e : Err} (ha : a ∈ l) (hg : g a = .error e) :
    ∀ r, mapE g l ≠ .ok r := by
  intro r hr
  rw [mapE_eq_ok] at hr
  obtain ⟨i, hi, rfl⟩ := List.getElem_of_mem ha
  have := (List.forall₂_iff_get.1 hr).2 i hi (by rw [← hr.length_eq]; exact hi)
  simp only [List.get_eq_getElem] at this
  rw [this] at hg
  cases hg

/-- a port of a block object that is not in the table: the descent fails -/
theorem deeper_missing {f : F} {z : K} {fl : Fl} {left : Option (List String)} {b : Blk O} {ps : List String} {p : String} :
    ∀ (bs : List (Blk O)) (t : List (Node × Quad K)), (bs.map Blk.name).Nodup → b ∈ bs → (sub b.obj).isSome →
    subNodes left b.name ≠ some [] → ops.ports b.obj = some ps → p ∈ ps → dictGet (.blk b.name p) t = none →
    ∀ t', (deeper ops sub f z fl left bs t).2 ≠ .ok t' := by
  intro bs
  induction bs with
  | nil => intro t _ hb; simp at hb
  | cons c bs ih =>
    intro t hnd hb hs hl hps hp ht t' hres
    rw [List.map_cons, List.nodup_cons] at hnd
    rcases List.mem_cons.1 hb with rfl | hb
    · unfold deeper at hres
      cases hm : sub b.obj with
      | none => rw [hm] at hs; cases hs
      | some m =>
        simp only [hm, hps] at hres
        rw [if_neg hl] at hres
        cases hE : mapE (fun p => (dictIndex t (.blk b.name p)).map fun q => (p, q.Vf)) ps with
        | error e => rw [hE] at hres; cases hres
        | ok Ek =>
          refine mapE_missing hp ?_ Ek hE (e := .keyError)
          simp only [dictIndex, ht, Except.map]
    · have hne : c.name ≠ b.name := fun e => hnd.1 (e ▸ List.mem_map_of_mem hb)
      unfold deeper at hres
      cases hm : sub c.obj with
      | none => simp only [hm] at hres; exact ih t hnd.2 hb hs hl hps hp ht t' hres
      | some m =>
        simp only [hm] at hres
        split at hres
        · exact ih t hnd.2 hb hs hl hps hp ht t' hres
        · cases hcp : ops.ports c.obj with
          | none => rw [hcp] at hres; cases hres
          | some qs =>
            simp only [hcp] at hres
            cases hE : mapE (fun p => (dictIndex t (.blk c.name p)).map fun q => (p, q.Vf)) qs with
            | error e => rw [hE] at hres; cases hres
            | ok Ek =>
              rw [hE] at hres
              simp only at hres
              cases hr : m f Ek z (subNodes left c.name) fl with
              | mk o r =>
                rw [hr] at hres
                cases r with
                | error e => cases hres
                | ok tr =>
                  simp only at hres
                  refine ih _ hnd.2 hb hs hl hps hp ?_ t' hres
                  rw [foldl_set_other]
                  · exact ht
                  · intro r e
                    injection e with e1 e2
                    exact hne e1.symm

/-- **C30 is violated for renamed ports of inner circuits.**  If a block that is a circuit was added with other names for its ports
(`addblock(…, ports={…})`) and one of the names of its own is not a node of the outer circuit, `Solution` with `nodes = None` (the default)
never answers: the code looks up the waves under the inner names. -/
theorem C30_renamed_fails [CharZero K] (hlaw : Lawful ops beh) (hv : Solves ops beh sub ins) (h : Built ops beh nan zb names net bh s ph)
    (hph : ph ≠ .reloaded) (hzb : zb ≠ 0) {b : Blk O} (hb : b ∈ s.blocks) (hs : (sub b.obj).isSome) {ps : List String} {p : String}
    (hps : ops.ports b.obj = some ps) (hp : p ∈ ps) (hn : Node.blk b.name p ∉ net.nodes) (f : F) (E : List (Node × K)) (z : Option K) (fl : Fl) :
    ∃ e, (solutionAll ops sub s f E z none fl).2 = .error e := by
  cases hr : (solutionAll ops sub s f E z none fl).2 with
  | error e => exact ⟨e, rfl⟩
  | ok t' =>
    exfalso
    unfold solutionAll at hr
    cases hsol : solution ops s f E z fl with
    | mk s1 r1 =>
      rw [hsol] at hr
      cases r1 with
      | error e => cases hr
      | ok t =>
        simp only at hr
        have hz0 : s.zbase = zb := (h.inv hlaw).zb
        obtain ⟨Sof, hg, w, hw, -, ht⟩ := C30_solution_positions hlaw h hph hzb hsol
        have hsame : SameBlks ops beh sub ins s.blocks s1.blocks ∧ ∃ ph', Built ops beh nan zb names net bh s1 ph' := by
          rcases solution_state hlaw h hph hsol with rfl | ⟨r', hr'⟩
          · exact ⟨SameBlks.refl _, ph, h⟩
          · exact ⟨getS_same hv hr', _, Built.eval h hr'⟩
        obtain ⟨hsame, ph', h1⟩ := hsame
        have : ∃ b' ∈ s1.blocks, SameBlk ops beh sub ins b b' := by
          clear hr hsol h1 h hz0
          generalize s.blocks = bs at hsame hb
          generalize s1.blocks = bs' at hsame
          induction hsame with
          | nil => simp at hb
          | cons g1 g2 ih =>
            rcases List.mem_cons.1 hb with rfl | hb
            · exact ⟨_, by simp, g1⟩
            · obtain ⟨b', k1, k2⟩ := ih hb
              exact ⟨b', by simp [k1], k2⟩
        obtain ⟨b', hb', e1, e2, e3, e4, e5⟩ := this
        refine deeper_missing (b := b') (ps := ps) (p := p) s1.blocks t (SolCirc.blk_nodup hlaw h1) hb' (by rw [e5.solv]; exact hs)
          (by simp [nodesLeft, subNodes]) (by rw [e5.ports hs]; exact hps) hp ?_ t' hr
        rw [ht, e1, if_neg hn]

/-! ## a circuit of one block -/

/-- one block called `X` -/
def oneNet (K : Type*) [Field K] (ports : List String) : Net K := Net.empty.addBlk "X" ports

theorem oneNet_nodes (ports : List String) : (oneNet K ports).nodes = ports.map (.blk "X") := by simp [oneNet, Net.addBlk, Net.empty]

theorem oneNet_free (ports : List String) : (oneNet K ports).free = ports.map (.blk "X") := by
  rw [← oneNet_nodes (K := K)]
  unfold Net.free
  have : (oneNet K ports).used = [] := rfl
  rw [this]
  simp

theorem oneNet_laws (ports : List String) (zb : K) (Sof : String → SMat K) (w : Wave → K) :
    (oneNet K ports).Laws zb Sof w ↔ BlockLaw (Sof "X") "X" ports w := by
  simp [Net.Laws, Net.CoreLaws, oneNet, Net.addBlk, Net.empty]

theorem oneNet_built {obj : O} {spec : PortSpec} {ports : List String} (hres : resolvePorts ops obj spec = .ok ports) (hnd : ports.Nodup) :
    Built ops beh 0 zb [] (oneNet K ports) (Function.update (fun _ _ _ _ => .error .valueError) "X" (beh obj))
      (addblock ops 0 (St.init zb []) "X" obj spec 0).1 .building := by
  refine Built.addblock (Built.init _) (by simp [Net.empty]) hres hnd (Prod.ext rfl ?_)
  unfold addblock
  simp [St.init, hres]

theorem oneNet_blocks {obj : O} {spec : PortSpec} {ports : List String} (hres : resolvePorts ops obj spec = .ok ports) :
    (addblock ops 0 (St.init zb [] : St K O F Fl) "X" obj spec 0).1.blocks = [⟨"X", ports, (0, 0), obj, 0⟩] := by
  unfold addblock
  simp [St.init, hres]

theorem oneNet_solvable {ports : List String} (hnd : ports.Nodup) (zb : K) (Sof : String → SMat K) :
    Solvable ((oneNet K ports).Laws zb Sof) (oneNet K ports).nodes (oneNet K ports).free := by
  rw [oneNet_nodes, oneNet_free]
  constructor
  · intro a
    refine ⟨fun x => match x with
      | (.inn, n) => a n
      | (.out, .blk _ p) => ∑ j : Fin ports.length, (Sof "X").at (ports.idxOf p) j * a (.blk "X" ports[j])
      | (.out, .ext _) => 0, ?_, fun p _ => rfl⟩
    rw [oneNet_laws]
    intro i
    simp only [Fin.getElem_fin, hnd.idxOf_getElem]
  · intro w w' h h' hi n hn d
    rw [oneNet_laws] at h h'
    obtain ⟨p, hp, rfl⟩ := List.mem_map.1 hn
    cases d with
    | inn => exact hi _ hn
    | out =>
      obtain ⟨i, hi', rfl⟩ := List.getElem_of_mem hp
      have h1 := h ⟨i, hi'⟩
      have h2 := h' ⟨i, hi'⟩
      simp only [Fin.getElem_fin] at h1 h2
      rw [h1, h2]
      refine Finset.sum_congr rfl fun j _ => ?_
      rw [hi (.blk "X" ports[(j : ℕ)]) (List.mem_map_of_mem (List.getElem_mem _))]

/-- it answers when the block does -/
theorem oneNet_answers [CharZero K] (hlaw : Lawful ops beh) {obj : O} {spec : PortSpec} {ports : List String}
    (hres : resolvePorts ops obj spec = .ok ports) (hnd : ports.Nodup) (hne : ports ≠ []) {f : F} {fl : Fl} {S : SMat K}
    (hS : beh obj f zb fl = .ok S) :
    ∃ s' S', getS ops (addblock ops 0 (St.init zb []) "X" obj spec 0).1 f (some zb) fl = (s', .ok S') := by
  have hb := oneNet_built (ops := ops) (beh := beh) (zb := zb) hres hnd
  have hg : Given (oneNet K ports) (Function.update (fun _ _ _ _ => .error .valueError) "X" (beh obj)) f zb fl (fun _ => S) := by
    intro x hx
    simp only [oneNet, Net.addBlk, Net.empty, List.nil_append, List.mem_singleton] at hx
    subst hx
    simpa using hS
  have hnames : (addblock ops 0 (St.init zb [] : St K O F Fl) "X" obj spec 0).1.names = [] := by
    obtain ⟨hi, hbb, -⟩ := hb.all hlaw
    obtain ⟨-, ha, -⟩ := hbb rfl
    simp [St.names, ha, hi.nm]
  obtain ⟨s', S', hs⟩ := (C20_getS_complete hlaw hb (by decide) hg (by
    rw [oneNet_free]; simpa using hne) (Or.inl hnames)).2 (oneNet_solvable hnd _ _)
  have hz : s'.zbase = zb := ((Built.eval hb hs).inv hlaw).zb
  refine ⟨s', S', ?_⟩
  unfold getS at hs ⊢
  cases hg : get1S ops (addblock ops 0 (St.init zb []) "X" obj spec 0).1 f fl with
  | mk s1 r1 =>
    rw [hg] at hs
    cases r1 with
    | error e => simp at hs
    | ok M =>
      simp only [Prod.mk.injEq, Except.ok.injEq] at hs
      obtain ⟨rfl, rfl⟩ := hs
      simp only
      rw [if_neg (fun hc => hc.2 hz.symm)]

end

namespace Ex

/-! ## two levels -/

noncomputable abbrev T1 := solTower ℚ Unit Unit 1

/-- the example circuit (blocks `A`, `B`, a load) as an object -/
noncomputable def d0 : SolCirc (solTower ℚ Unit Unit 0).ops (solTower ℚ Unit Unit 0).beh (solTower ℚ Unit Unit 0).sub where
  st := s4
  zb := 50
  net := net
  bh := bh
  built := ⟨0, [], .building, built, by decide, Or.inl rfl⟩
  hzb := by norm_num
  hfree := by rw [free]; simp
  dots := ⟨by decide, by intro n hn; simp [net] at hn⟩
  lab := by intro b _ hs; cases hs

theorem d0_ports : d0.st.ports = [.blk "A" "1"] := by
  have := (built.inv (imm_lawful ℚ Unit Unit)).rep.ports_perm
  rw [free] at this
  exact List.perm_singleton.1 this

theorem d0_answers : ∃ S, solBeh (solTower ℚ Unit Unit 0).ops (solTower ℚ Unit Unit 0).beh (solTower ℚ Unit Unit 0).sub d0 () 50 () = .ok S := by
  obtain ⟨s', t, S, -, hs⟩ := C30_solution_witness
  refine ⟨S, ?_⟩
  show (getS o s4 () (some 50) ()).2 = .ok S
  rw [hs]

theorem d0_res : resolvePorts T1.ops (.inr d0) .none = .ok ["A.1"] := by
  have h1 : T1.ops.ports (.inr d0) = some ["A.1"] := by
    show some (d0.st.ports.map Node.str) = _
    rw [d0_ports]
    decide
  have h2 : T1.ops.len (.inr d0) = 1 := by
    show d0.st.ports.length = 1
    rw [d0_ports]
    rfl
  simp [resolvePorts, objPorts, specPorts, h1, h2, popPorts, dictGet, dictPop]

/-- the outer circuit: the example circuit as block `X` -/
noncomputable def d1 : SolCirc T1.ops T1.beh T1.sub where
  st := (addblock T1.ops 0 (St.init 50 []) "X" (.inr d0) .none 0).1
  zb := 50
  net := oneNet ℚ ["A.1"]
  bh := Function.update (fun _ _ _ _ => .error .valueError) "X" (T1.beh (.inr d0))
  built := ⟨0, [], .building, oneNet_built d0_res (by decide), by decide, Or.inl rfl⟩
  hzb := by norm_num
  hfree := by rw [oneNet_free]; simp
  dots := by
    constructor
    · decide
    · intro n hn
      rw [oneNet_nodes] at hn
      simp at hn
  lab := by
    intro b hb _
    rw [oneNet_blocks d0_res] at hb
    rw [List.mem_singleton] at hb
    subst hb
    show some (d0.st.ports.map Node.str) = _
    rw [d0_ports]
    decide

/-- the hypotheses of `C30_any_depth` and `C30_any_depth_answers` are met; the load inside the inner circuit sees 2/5 V per volt sent in -/
theorem C30_any_depth_witness : ∃ t y, (solutionAll T1.ops T1.sub d1.st () [(.blk "X" "A.1", 1)] none none ()).2 = .ok t ∧
    y ∈ t ∧ y.1.str = "X.B.2" ∧ y.2.V = 2/5 := by
  obtain ⟨S0, hS0⟩ := d0_answers
  obtain ⟨s', S', hs'⟩ := oneNet_answers T1.lawful d0_res (by decide) (by simp) (f := ()) (fl := ()) (zb := 50) (S := S0) hS0
  have hready : solReady T1.sub T1.ins d1 () 50 () := by
    refine ⟨⟨S', ?_⟩, ?_⟩
    · show (getS T1.ops (addblock T1.ops 0 (St.init 50 []) "X" (.inr d0) .none 0).1 () (some 50) ()).2 = _
      rw [hs']
    · intro b hb _
      have hb : b ∈ (addblock T1.ops 0 (St.init 50 []) "X" (.inr d0) .none 0).1.blocks := hb
      rw [oneNet_blocks d0_res, List.mem_singleton] at hb
      subst hb
      exact ⟨⟨S0, hS0⟩, fun b _ h => by cases h⟩
  have hfree : d1.net.free = [.blk "X" "A.1"] := oneNet_free _
  obtain ⟨t, ht⟩ := C30_any_depth_answers 1 d1 (f := ()) (fl := ()) (E := [(.blk "X" "A.1", 1)]) (z := none) none (by norm_num [d1])
    hready (by
      intro p hp
      rw [hfree, List.mem_singleton] at hp
      subst hp
      decide)
  obtain ⟨x, x1, x2, x3, x4⟩ := C30_any_depth 1 d1 (by norm_num [d1]) (Prod.ext rfl ht)
  obtain ⟨Sof1, w1, -, -, -, hin⟩ := x1
  have hin' := hin ⟨"X", ["A.1"], (0, 0), .inr d0, 0⟩ (by
    show _ ∈ (addblock T1.ops 0 (St.init 50 []) "X" (.inr d0) .none 0).1.blocks
    rw [oneNet_blocks d0_res]
    simp) rfl
  obtain ⟨Sof0, w, g1, g2, g3, -⟩ : solPhys (solTower ℚ Unit Unit 0).sub (solTower ℚ Unit Unit 0).ins d0 () () (x.part "X") := hin'
  have g2 := (laws_iff w).1 ((g1.laws_congr given w).1 g2)
  have eA := g3 (.blk "A" "1") (by decide)
  have eB := g3 (.blk "B" "2") (by decide)
  have hA : (x.part "X").V "A.1" = volt w (.blk "A" "1") ∧ (x.part "X").I "A.1" = curr w (.blk "A" "1") / 50 := eA
  have hB : (x.part "X").V "B.2" = volt w (.blk "B" "2") := eB.1
  have hf := x2 (.blk "X" "A.1") (by rw [hfree]; simp)
  have hf' : some (1 : ℚ) = some ((x.V "X.A.1" + 50 * x.I "X.A.1") / 2) := hf
  injection hf' with hf'
  have eX1 : x.V "X.A.1" = volt w (.blk "A" "1") := hA.1
  have eX2 : x.I "X.A.1" = curr w (.blk "A" "1") / 50 := hA.2
  rw [eX1, eX2] at hf'
  simp only [volt, curr] at hf'
  have hV : x.V "X.B.2" = 2/5 := by
    have : x.V "X.B.2" = volt w (.blk "B" "2") := hB
    rw [this, volt]
    obtain ⟨⟨a, b, c, d⟩, e1, e2, e3⟩ := g2
    linarith
  obtain ⟨k, hk, hks⟩ := x4 "X.B.2" (by
    unfold solNodes
    apply List.mem_append_right
    rw [List.mem_flatMap]
    refine ⟨⟨"X", ["A.1"], (0, 0), .inr d0, 0⟩, ?_, ?_⟩
    · show _ ∈ (addblock T1.ops 0 (St.init 50 []) "X" (.inr d0) .none 0).1.blocks
      rw [oneNet_blocks d0_res]
      simp
    · rw [if_pos (show (T1.sub (.inr d0)).isSome = true from rfl)]
      refine List.mem_map.2 ⟨"B.2", ?_, by decide⟩
      show "B.2" ∈ solNodes _ _ d0
      unfold solNodes
      apply List.mem_append_left
      decide) (by simp)
  obtain ⟨y, hy, rfl⟩ := List.mem_map.1 hk
  obtain ⟨k1, k2⟩ := x3 y.1 y.2 hy
  refine ⟨t, y, ht, hy, hks, ?_⟩
  · rw [k2, hks]
    exact hV

theorem foldl_set_get {K : Type*} {b : String} {n : Node} : ∀ (tr : List (String × Quad K)) (t : List (Node × Quad K)),
    (∃ y ∈ tr, n = .blk b y.1) → ∃ y ∈ tr, n = .blk b y.1 ∧
      dictGet n (tr.foldl (fun d y => dictSet (.blk b y.1) y.2 d) t) = some y.2
  | [], t, h => by simp at h
  | y :: tr, t, h => by
    rw [List.foldl_cons]
    by_cases h' : ∃ y ∈ tr, n = .blk b y.1
    · obtain ⟨y', h1, h2⟩ := foldl_set_get tr (dictSet (.blk b y.1) y.2 t) h'
      exact ⟨y', by simp [h1], h2⟩
    · obtain ⟨y', h1, h2⟩ := h
      rcases List.mem_cons.1 h1 with rfl | h1
      · refine ⟨y', by simp, h2, ?_⟩
        have : ∀ (tr : List (String × Quad K)) (t : List (Node × Quad K)), (¬ ∃ y ∈ tr, n = .blk b y.1) →
            dictGet n (tr.foldl (fun d y => dictSet (.blk b y.1) y.2 d) t) = dictGet n t := by
          intro tr
          induction tr with
          | nil => intro t _; rfl
          | cons z tr ih =>
            intro t hz
            rw [List.foldl_cons, ih _ (fun ⟨y, a, c⟩ => hz ⟨y, by simp [a], c⟩), dictGet_dictSet,
              if_neg (fun c => hz ⟨z, by simp, c⟩)]
        rw [this tr _ h', dictGet_dictSet, if_pos h2]
      · exact absurd ⟨y', h1, h2⟩ h'

/-! ## exchanged port names -/

def k1 : E := (addblock o 0 (St.init 50 []) "A" (two mB) .none 0).1

theorem builtk : Built o Imm.beh 0 50 [] neti bhi k1 .building := by
  have h0 : Built o Imm.beh 0 50 [] Net.empty (fun _ _ _ _ => .error .valueError) (St.init 50 [] : E) .building := Built.init _
  exact Built.addblock h0 (by decide) (ports := ["1", "2"]) rfl (by decide) (Prod.ext rfl rfl)

/-- a circuit of one 2-port `A` as an object -/
noncomputable def e0 : SolCirc (solTower ℚ Unit Unit 0).ops (solTower ℚ Unit Unit 0).beh (solTower ℚ Unit Unit 0).sub where
  st := k1
  zb := 50
  net := neti
  bh := bhi
  built := ⟨0, [], .building, builtk, by decide, Or.inl rfl⟩
  hzb := by norm_num
  hfree := by decide
  dots := ⟨by decide, by intro n hn; simp [neti] at hn⟩
  lab := by intro b _ hs; cases hs

theorem e0_ports : e0.st.ports = [.blk "A" "1", .blk "A" "2"] := rfl

theorem e0_answers : ∃ s' S, getS o k1 () (some 50) () = (s', .ok S) ∧ s'.ports = k1.ports := by
  have hl := imm_lawful ℚ Unit Unit
  obtain ⟨s', S, hs⟩ := (C20_getS_complete hl builtk (by decide) giveni (by decide) (Or.inl rfl)).2 solvablei
  have hz : s'.zbase = 50 := ((Built.eval builtk hs).inv hl).zb
  refine ⟨s', S, ?_, C49_labels hl builtk (by decide) (by decide) (Or.inl rfl) hs⟩
  unfold getS at hs ⊢
  cases hg : get1S o k1 () () with
  | mk s1 r1 =>
    rw [hg] at hs
    cases r1 with
    | error e => simp at hs
    | ok M =>
      simp only [Prod.mk.injEq, Except.ok.injEq] at hs
      obtain ⟨rfl, rfl⟩ := hs
      simp only
      rw [if_neg (fun hc => hc.2 hz.symm)]

/-- names exchanged: `addblock('X', circuit, ports={'A.1': 'A.2', 'A.2': 'A.1'})` -/
def swap : PortSpec := .dict [("A.1", "A.2"), ("A.2", "A.1")]

theorem e0_res : resolvePorts T1.ops (.inr e0) swap = .ok ["A.2", "A.1"] := by
  have h1 : T1.ops.ports (.inr e0) = some ["A.1", "A.2"] := by
    show some (e0.st.ports.map Node.str) = _
    rw [e0_ports]
    decide
  have h2 : T1.ops.len (.inr e0) = 2 := by
    show e0.st.ports.length = 2
    rw [e0_ports]
    rfl
  unfold resolvePorts objPorts
  rw [h1, h2]
  rfl

noncomputable def e1 : St ℚ T1.O Unit Unit := (addblock T1.ops 0 (St.init 50 []) "X" (.inr e0) swap 0).1

/-- **C30 is violated for exchanged port names of an inner circuit.**  `X.A.2` is the name given to the inner port `A.1`, whose reflection is
1/3.  With `nodes = []` (own nodes only) `Solution` reports that; with `nodes = None` (the default) it excites the inner circuit at the
wrong port, and overwrites the entry by what is reflected at the inner port `A.2`: -1/3. -/
theorem C30_swapped_wrong : ∃ t t' q q', (solutionAll T1.ops T1.sub e1 () [(.blk "X" "A.2", 1), (.blk "X" "A.1", 0)] none (some []) ()).2 = .ok t ∧
    dictGet (.blk "X" "A.2") t = some q ∧ q.Vr = 1/3 ∧
    (solutionAll T1.ops T1.sub e1 () [(.blk "X" "A.2", 1), (.blk "X" "A.1", 0)] none none ()).2 = .ok t' ∧
    dictGet (.blk "X" "A.2") t' = some q' ∧ q'.Vr = -1/3 := by
  have hl := imm_lawful ℚ Unit Unit
  have hlaw := T1.lawful
  have hv := T1.solves
  obtain ⟨si, Si, hsi, hpi⟩ := e0_answers
  have hbe : T1.beh (.inr e0) () 50 () = .ok Si := by
    show (getS o k1 () (some 50) ()).2 = .ok Si
    rw [hsi]
  have hb := oneNet_built (beh := T1.beh) (zb := 50) e0_res (by decide)
  obtain ⟨s', S', hs'⟩ := oneNet_answers hlaw e0_res (by decide) (by simp) (f := ()) (fl := ()) (zb := 50) (S := Si) hbe
  have h50 : (50 : ℚ) ≠ 0 := by norm_num
  have hfree : (oneNet ℚ ["A.2", "A.1"]).free = [.blk "X" "A.2", .blk "X" "A.1"] := oneNet_free _
  have hnod : (oneNet ℚ ["A.2", "A.1"]).nodes = [.blk "X" "A.2", .blk "X" "A.1"] := oneNet_nodes _
  obtain ⟨t, ht⟩ := C30_solution_answers hlaw hb (by decide) h50 (z := none)
    (E := [(.blk "X" "A.2", 1), (.blk "X" "A.1", 0)]) h50 (by
      intro p hp
      rw [hfree] at hp
      simp only [List.mem_cons, List.not_mem_nil, or_false] at hp
      rcases hp with rfl | rfl <;> decide) hs'
  obtain ⟨Sof, hg, w, hw, hE, htab⟩ := C30_solution hlaw hb (by decide) h50 (Or.inl rfl) ht
  have hSof : Sof "X" = Si := by
    have := hg ("X", ["A.2", "A.1"]) (by simp [oneNet, Net.addBlk, Net.empty])
    simp only [Function.update_self] at this
    rw [hbe] at this
    injection this with this
    exact this.symm
  rw [oneNet_laws, hSof] at hw
  obtain ⟨v, hv1, hv2⟩ := (C22_flatten hl builtk (by decide) h50 h50 hsi giveni "X" ["A.2", "A.1"] (by rw [hpi]; rfl) w).1 hw
  have hpi' : si.ports = [.blk "A" "1", .blk "A" "2"] := hpi.trans rfl
  have r1 := hv2 0 (by decide) (by rw [hpi']; decide)
  have r2 := hv2 1 (by decide) (by rw [hpi']; decide)
  simp only [hpi', List.getElem_cons_zero, List.getElem_cons_succ, volt, curr] at r1 r2
  rw [lawsi] at hv1
  have w1 := hE (.blk "X" "A.2") (by rw [hfree]; simp)
  have w2 := hE (.blk "X" "A.1") (by rw [hfree]; simp)
  have w1' : some (1 : ℚ) = _ := w1
  have w2' : some (0 : ℚ) = _ := w2
  injection w1' with w1'
  injection w2' with w2'
  simp only [Field.State.fwd, stateOf, volt, curr, Option.getD_none] at w1' w2'
  have k1 := htab (.blk "X" "A.2")
  have k2 := htab (.blk "X" "A.1")
  rw [if_pos (by rw [hnod]; simp)] at k1 k2
  have hz1 : e1.zbase = 50 := rfl
  -- the blocks after the own part
  have hsame : SameBlks T1.ops T1.beh T1.sub T1.ins [⟨"X", ["A.2", "A.1"], (0, 0), .inr e0, 0⟩] s'.blocks := by
    have : e1.blocks = [⟨"X", ["A.2", "A.1"], (0, 0), .inr e0, 0⟩] := oneNet_blocks e0_res
    rw [← this]
    rcases solution_state hlaw hb (by decide) ht with rfl | ⟨r', hr'⟩
    · exact SameBlks.refl _
    · exact getS_same hv hr'
  obtain ⟨b', hb', hbl⟩ : ∃ b', SameBlk T1.ops T1.beh T1.sub T1.ins ⟨"X", ["A.2", "A.1"], (0, 0), .inr e0, 0⟩ b' ∧ s'.blocks = [b'] := by
    revert hsame
    generalize s'.blocks = bs
    intro hsame
    cases hsame with
    | cons h1 h2 => cases h2; exact ⟨_, h1, rfl⟩
  obtain ⟨hn, -, -, -, ho⟩ := hb'
  have hn : b'.name = "X" := hn
  have ho : SameObj T1.ops T1.beh T1.sub T1.ins (.inr e0) b'.obj := ho
  obtain ⟨m, hm⟩ : ∃ m, T1.sub b'.obj = some m := Option.isSome_iff_exists.1 (by rw [ho.solv]; rfl)
  have hp : T1.ops.ports b'.obj = some ["A.1", "A.2"] := by
    rw [ho.ports rfl]
    show some (e0.st.ports.map Node.str) = _
    rw [e0_ports]
    decide
  have hrd : T1.ins.ready b'.obj () 50 () := by
    rw [ho.ready]
    exact ⟨⟨Si, hbe⟩, fun b _ hs => by cases hs⟩
  have hEk : mapE (fun p => (dictIndex t (.blk "X" p)).map fun q => (p, q.Vf)) ["A.1", "A.2"] = .ok [("A.1", (0 : ℚ)), ("A.2", 1)] := by
    simp only [mapE, dictIndex, k1, k2, Except.map]
    have q1 : ((stateOf 50 w).quad (none.getD 50) (.blk "X" "A.1")).Vf = 0 := by
      simp only [Field.State.quad, Field.State.fwd, stateOf, volt, curr, Option.getD_none]
      exact w2'.symm
    have q2 : ((stateOf 50 w).quad (none.getD 50) (.blk "X" "A.2")).Vf = 1 := by
      simp only [Field.State.quad, Field.State.fwd, stateOf, volt, curr, Option.getD_none]
      exact w1'.symm
    rw [q1, q2]
  obtain ⟨tr, htr⟩ := hv.ans b'.obj m hm () [("A.1", (0 : ℚ)), ("A.2", 1)] 50 none () h50 hrd (by
    intro ps hps p hpp
    rw [hp] at hps
    injection hps with hps
    subst hps
    simp only [List.mem_cons, List.not_mem_nil, or_false] at hpp
    rcases hpp with rfl | rfl <;> decide)
  obtain ⟨-, x, x1, x2, x3, x4⟩ := hv.sol b'.obj m hm () _ 50 none () tr h50 htr
  rw [ho.phys] at x1
  obtain ⟨Sof0, u, g1, g2, g3, -⟩ : solPhys (solTower ℚ Unit Unit 0).sub (solTower ℚ Unit Unit 0).ins e0 () () x := x1
  have g2 := (lawsi u).1 ((g1.laws_congr giveni u).1 g2)
  have eA := g3 (.blk "A" "1") (by decide)
  have eB := g3 (.blk "A" "2") (by decide)
  have eA : x.V "A.1" = volt u (.blk "A" "1") ∧ x.I "A.1" = curr u (.blk "A" "1") / 50 := eA
  have eB : x.V "A.2" = volt u (.blk "A" "2") ∧ x.I "A.2" = curr u (.blk "A" "2") / 50 := eB
  have fA := x2 _ hp "A.1" (by simp)
  have fB := x2 _ hp "A.2" (by simp)
  have fA : some (0 : ℚ) = some (x.fwd 50 "A.1") := fA
  have fB : some (1 : ℚ) = some (x.fwd 50 "A.2") := fB
  injection fA with fA
  injection fB with fB
  simp only [Inner.fwd, eA.1, eA.2, eB.1, eB.2, volt, curr] at fA fB
  obtain ⟨y, hy, hyn, hget⟩ := foldl_set_get (b := "X") (n := .blk "X" "A.2") tr t (by
    have := x4 "A.2" (by
      rw [ho.nodes]
      exact List.mem_append_left _ (by decide)) (by simp)
    obtain ⟨y, hy, hy'⟩ := List.mem_map.1 this
    exact ⟨y, hy, by rw [hy']⟩)
  have hy1 : y.1 = "A.2" := by injection hyn with _ h; exact h.symm
  have hyq := (x3 y.1 y.2 hy).2
  refine ⟨t, tr.foldl (fun d y => dictSet (.blk "X" y.1) y.2 d) t, _, y.2, ?_, k1, ?_, ?_, hget, ?_⟩
  · unfold solutionAll
    rw [show solution T1.ops e1 () [(.blk "X" "A.2", 1), (.blk "X" "A.1", 0)] none () = (s', .ok t) from ht]
    simp only [hbl, nodesLeft, deeper, hm, subNodes, List.filter_nil, List.map_nil, Option.map_some, if_true]
  · simp only [Field.State.quad, Field.State.rev, stateOf, volt, curr, Option.getD_none]
    linarith [hv1.1, hv1.2, r1.1, r1.2, r2.1, r2.2]
  · unfold solutionAll
    rw [show solution T1.ops e1 () [(.blk "X" "A.2", 1), (.blk "X" "A.1", 0)] none () = (s', .ok t) from ht]
    simp only [hbl, nodesLeft, deeper, hm, subNodes, Option.map_none, hp, hn, hEk, hz1, Option.getD_none]
    cases hmm : m () [("A.1", (0 : ℚ)), ("A.2", 1)] 50 none () with
    | mk o' r' =>
      rw [hmm] at htr
      simp only at htr
      subst htr
      simp
  · rw [hyq, hy1]
    simp only [Inner.quad, Inner.rev, eB.1, eB.2, volt, curr]
    linarith [g2.1, g2.2]

end Ex
end PyRFtk.Circuit
