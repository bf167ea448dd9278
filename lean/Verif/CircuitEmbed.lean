import Verif.CircuitNest
import Mathlib.LinearAlgebra.FiniteDimensional.Lemmas
import Mathlib.LinearAlgebra.Dimension.Constructions

/-!
# C24: deembedding removes what embedding added
-/

set_option linter.unusedSectionVars false

namespace PyRFtk.Circuit

section
variable {K O F Fl : Type*} [Field K] [DecidableEq F] [DecidableEq Fl]
variable {ops : ObjOps K O F Fl} {beh : O → F → K → Fl → Except Err (SMat K)} {nan zb : K} {names : List Node}
variable {net : Net K} {bh : Behave K F Fl} {s s' : St K O F Fl} {ph : Phase}

/-! ## the laws are linear -/

theorem BlockLaw.add {S : SMat K} {b : String} {ps : List String} {w w' : Wave → K} (h : BlockLaw S b ps w)
    (h' : BlockLaw S b ps w') : BlockLaw S b ps (w + w') := by
  intro i
  simp only [Pi.add_apply, h i, h' i, mul_add, Finset.sum_add_distrib]

theorem BlockLaw.smul {S : SMat K} {b : String} {ps : List String} {w : Wave → K} (h : BlockLaw S b ps w) (c : K) :
    BlockLaw S b ps (c • w) := by
  intro i
  simp only [Pi.smul_apply, smul_eq_mul, h i, Finset.mul_sum]
  exact Finset.sum_congr rfl fun j _ => by ring

theorem curr_add (w w' : Wave → K) (l : List Node) :
    (l.map (curr (w + w'))).sum = (l.map (curr w)).sum + (l.map (curr w')).sum := by
  induction l with
  | nil => simp
  | cons x l ih => simp only [List.map_cons, List.sum_cons, ih]; simp only [curr, Pi.add_apply]; ring

theorem curr_smul (w : Wave → K) (c : K) (l : List Node) : (l.map (curr (c • w))).sum = c * (l.map (curr w)).sum := by
  induction l with
  | nil => simp
  | cons x l ih => simp only [List.map_cons, List.sum_cons, ih]; simp only [curr, Pi.smul_apply, smul_eq_mul]; ring

theorem Junction.Law.add {j : Junction} {w w' : Wave → K} (h : j.Law w) (h' : j.Law w') : j.Law (w + w') := by
  refine ⟨fun p hp q hq => ?_, ?_⟩
  · have a := h.1 p hp q hq
    have b := h'.1 p hp q hq
    simp only [volt, Pi.add_apply] at *
    linear_combination a + b
  · rw [curr_add, h.2, h'.2]
    cases j.new with
    | none => simp
    | some n => simp only [curr, Pi.add_apply]; ring

theorem Junction.Law.smul {j : Junction} {w : Wave → K} (h : j.Law w) (c : K) : j.Law (c • w) := by
  refine ⟨fun p hp q hq => ?_, ?_⟩
  · have a := h.1 p hp q hq
    simp only [volt, Pi.smul_apply, smul_eq_mul] at *
    linear_combination c * a
  · rw [curr_smul, h.2]
    cases j.new with
    | none => simp
    | some n => simp only [curr, Pi.smul_apply, smul_eq_mul]; ring

theorem Net.Laws.add {Sof : String → SMat K} {w w' : Wave → K} (h : net.Laws zb Sof w) (h' : net.Laws zb Sof w') :
    net.Laws zb Sof (w + w') := by
  obtain ⟨h1, ⟨h2, h3, h4⟩, h5⟩ := h
  obtain ⟨g1, ⟨g2, g3, g4⟩, g5⟩ := h'
  refine ⟨fun x hx => (h1 x hx).add (g1 x hx), ⟨fun j hj => (h2 j hj).add (g2 j hj), fun x hx => ?_, fun x hx => ?_⟩,
    fun x hx => ?_⟩
  · simp only [Pi.add_apply, (h3 x hx).1, (g3 x hx).1, (h3 x hx).2, (g3 x hx).2, and_self]
  · simp only [Pi.add_apply, (h4 x hx).1, (g4 x hx).1, (h4 x hx).2, (g4 x hx).2, and_self]
  · have a := h5 x hx
    have b := g5 x hx
    cases hl : x.2 <;> rw [hl] at a b <;> simp only [Load.Law, Pi.add_apply] at a b ⊢ <;> linear_combination a + b

theorem Net.Laws.smul {Sof : String → SMat K} {w : Wave → K} (h : net.Laws zb Sof w) (c : K) :
    net.Laws zb Sof (c • w) := by
  obtain ⟨h1, ⟨h2, h3, h4⟩, h5⟩ := h
  refine ⟨fun x hx => (h1 x hx).smul c, ⟨fun j hj => (h2 j hj).smul c, fun x hx => ?_, fun x hx => ?_⟩, fun x hx => ?_⟩
  · simp only [Pi.smul_apply, (h3 x hx).1, (h3 x hx).2, and_self]
  · simp only [Pi.smul_apply, (h4 x hx).1, (h4 x hx).2, and_self]
  · have a := h5 x hx
    cases hl : x.2 <;> rw [hl] at a <;> simp only [Load.Law, Pi.smul_apply, smul_eq_mul] at a ⊢ <;>
      linear_combination c * a

/-! ## a counting argument -/

/-- Two solvable systems with the same number of ports; a renaming `g` of nodes turns solutions of the second into
solutions of the first and maps `tn` onto the ports of the second.  Then every solution of the first comes from one of
the second. -/
theorem Solvable.transport {laws laws0 : (Wave → K) → Prop} {nodes ports nodes0 ports0 tn : List Node}
    (hadd : ∀ w w', laws w → laws w' → laws (w + w')) (hsmul : ∀ (c : K) w, laws w → laws (c • w))
    (hM : Solvable laws nodes ports) (hC : Solvable laws0 nodes0 ports0)
    (g : Node → Node) (hg : ∀ w, laws0 w → laws fun x => w (x.1, g x.2))
    (htn : ∀ n ∈ tn, n ∈ nodes) (h0 : tn.map g = ports0) (hnd : ports.Nodup) (hnd0 : ports0.Nodup)
    (hlen : tn.length = ports.length) {w : Wave → K} (hw : laws w) :
    ∃ w0, laws0 w0 ∧ ∀ n ∈ nodes, ∀ d, w (d, n) = w0 (d, g n) := by
  classical
  -- the solution belonging to an excitation
  have ex : ∀ a : Fin ports.length → K, ∃ w, laws w ∧ ∀ i : Fin ports.length, w (.inn, ports[i]) = a i := by
    intro a
    obtain ⟨w, h1, h2⟩ := hM.exists_sol fun n => if hn : ∃ i : Fin ports.length, ports[i] = n then a hn.choose else 0
    refine ⟨w, h1, fun i => ?_⟩
    have hn : ∃ j : Fin ports.length, ports[j] = ports[i] := ⟨i, rfl⟩
    rw [h2 _ (fin_mem i), dif_pos hn]
    congr 1
    exact Fin.ext ((hnd.getElem_inj_iff).1 hn.choose_spec)
  choose sol hsol hsolin using ex
  have huniq : ∀ w w', laws w → laws w' → (∀ i : Fin ports.length, w (.inn, ports[i]) = w' (.inn, ports[i])) →
      ∀ n ∈ nodes, ∀ d, w (d, n) = w' (d, n) := by
    intro w w' h h' hp
    refine hM.unique w w' h h' fun p hp' => ?_
    obtain ⟨i, hi, rfl⟩ := List.getElem_of_mem hp'
    exact hp ⟨i, hi⟩
  let Ψ : (Fin ports.length → K) →ₗ[K] (Fin tn.length → K) :=
    { toFun := fun a i => sol a (.inn, tn[i])
      map_add' := by
        intro a b
        funext i
        refine huniq _ _ (hsol _) (hadd _ _ (hsol a) (hsol b)) (fun k => ?_) _ (htn _ (fin_mem i)) _
        rw [hsolin, Pi.add_apply, Pi.add_apply, hsolin, hsolin]
      map_smul' := by
        intro c a
        funext i
        refine huniq _ _ (hsol _) (hsmul c _ (hsol a)) (fun k => ?_) _ (htn _ (fin_mem i)) _
        rw [hsolin, Pi.smul_apply, Pi.smul_apply, hsolin] }
  have ex0 : ∀ a : Fin tn.length → K, ∃ w0, laws0 w0 ∧ ∀ i : Fin tn.length, w0 (.inn, g tn[i]) = a i := by
    intro a
    obtain ⟨w, h1, h2⟩ := hC.exists_sol fun n => if hn : ∃ i : Fin tn.length, g tn[i] = n then a hn.choose else 0
    refine ⟨w, h1, fun i => ?_⟩
    have hn : ∃ j : Fin tn.length, g tn[j] = g tn[i] := ⟨i, rfl⟩
    have hmem : g tn[i] ∈ ports0 := by rw [← h0]; exact List.mem_map_of_mem (fin_mem i)
    rw [h2 _ hmem, dif_pos hn]
    congr 1
    have h3 := hn.choose_spec
    have hinj : (tn.map g).Nodup := by rw [h0]; exact hnd0
    refine Fin.ext ?_
    have h4 : (tn.map g)[(hn.choose : ℕ)]'(by simp) = (tn.map g)[(i : ℕ)]'(by simp) := by
      simpa using h3
    exact (hinj.getElem_inj_iff).1 h4
  have hsurj : Function.Surjective Ψ := by
    intro a
    obtain ⟨w0, h1, h2⟩ := ex0 a
    refine ⟨fun i => w0 (.inn, g ports[i]), ?_⟩
    funext i
    rw [← h2 i]
    exact huniq _ _ (hsol _) (hg w0 h1) (fun k => by rw [hsolin]) _ (htn _ (fin_mem i)) _
  have hinj : Function.Injective Ψ :=
    (LinearMap.injective_iff_surjective_of_finrank_eq_finrank (by simp [hlen])).2 hsurj
  obtain ⟨w0, h1, h2⟩ := ex0 fun i => w (.inn, tn[i])
  refine ⟨w0, h1, ?_⟩
  refine huniq w (fun x => w0 (x.1, g x.2)) hw (hg w0 h1) fun k => ?_
  have key : (fun i : Fin ports.length => w (.inn, ports[i])) = fun i : Fin ports.length => w0 (.inn, g ports[i]) := by
    apply hinj
    funext i
    show sol _ (.inn, tn[i]) = sol _ (.inn, tn[i])
    have e1 := huniq _ _ (hsol fun i => w (.inn, ports[i])) hw (fun k => by rw [hsolin]) _ (htn _ (fin_mem i)) .inn
    have e2 := huniq _ _ (hsol fun i => w0 (.inn, g ports[i])) (hg w0 h1) (fun k => by rw [hsolin]) _ (htn _ (fin_mem i)) .inn
    rw [e1, e2, h2]
  exact congrFun key k

/-! ## the theorem -/

/-- How `T` is related to the unknown `U` and the known `X`.
`ties`: `(x, u, n)` port `x` of `X` is connected to port `u` of `U` inside `T`; `deembed` exposes it under the name `n`.
`seen`: `(x, t)` port `x` of `X` is port `t` of `T`.  `kept`: `(u, t)` port `u` of `U` is port `t` of `T`. -/
structure Embedding where
  ties : List (String × String × String)
  seen : List (String × String)
  kept : List (String × String)
  /-- the ports of the three networks, in the order of their matrices -/
  xps : List String
  ups : List String
  tps : List String
  hx : xps.Perm (ties.map (·.1) ++ seen.map (·.1))
  hu : ups.Perm (ties.map (·.2.1) ++ kept.map (·.1))
  ht : tps.Perm (seen.map (·.2) ++ kept.map (·.2))
  xnd : xps.Nodup
  und : ups.Nodup
  tnd : tps.Nodup
  nnd : (ties.map (·.2.2)).Nodup

/-- `U` and `X` connected together, as a network -/
def Embedding.inside (e : Embedding) (U X : String) : Net K where
  blks := [(U, e.ups), (X, e.xps)]
  nodes := e.ups.map (.blk U) ++ e.xps.map (.blk X)
  juncs := e.ties.map fun x => ⟨[.blk U x.2.1, .blk X x.1], none⟩
  loads := []
  crosses := []
  sames := []

/-- what node of the inside is port `t` of `T` -/
def Embedding.Outer (e : Embedding) (U X : String) (t : String) (n : Node) : Prop :=
  (∃ x, (x, t) ∈ e.seen ∧ n = .blk X x) ∨ ∃ u, (u, t) ∈ e.kept ∧ n = .blk U u

/-- which port of `U` is the external port `p` of the deembedded circuit -/
def Embedding.Exposed (e : Embedding) (T : String) (p : Node) (u : String) : Prop :=
  (∃ x n, (x, u, n) ∈ e.ties ∧ p = .ext n) ∨ ∃ t, (u, t) ∈ e.kept ∧ p = .blk T t

/-- the arguments of `deembed` -/
def Embedding.int (e : Embedding) (X : String) : List (Node × Node) := e.ties.map fun x => (.blk X x.1, .ext x.2.2)
def Embedding.ext (e : Embedding) (T X : String) : List (Node × Node) := e.seen.map fun x => (.blk X x.1, .blk T x.2)

theorem deembed_eq (net : Net K) (int ext : List (Node × Node)) : net.deembed int ext =
    { net with crosses := net.crosses ++ int, nodes := net.nodes ++ int.map Prod.snd, sames := net.sames ++ ext } := by
  have h1 : ∀ (int : List (Node × Node)) (net : Net K), int.foldl Net.cross net =
      { net with crosses := net.crosses ++ int, nodes := net.nodes ++ int.map Prod.snd } := by
    intro int
    induction int with
    | nil => intro net; simp
    | cons x l ih => intro net; rw [List.foldl_cons, ih]; simp [Net.cross]
  have h2 : ∀ (ext : List (Node × Node)) (net : Net K), ext.foldl Net.same net =
      { net with sames := net.sames ++ ext } := by
    intro ext
    induction ext with
    | nil => intro net; simp
    | cons x l ih => intro net; rw [List.foldl_cons, ih]; simp [Net.same]
  rw [Net.deembed, h1, h2]

/-- the node renaming: where the waves of the deembedded circuit are found inside `T` -/
def Embedding.assoc (e : Embedding) (U T X : String) : List (Node × Node) :=
  e.ties.map (fun x => (.ext x.2.2, .blk U x.2.1)) ++
    (e.seen.map (fun x => (.blk T x.2, .blk X x.1)) ++ e.kept.map fun x => (.blk T x.2, .blk U x.1))

def Embedding.ren (e : Embedding) (U T X : String) (n : Node) : Node := (dictGet n (e.assoc U T X)).getD n

theorem Embedding.assoc_nodup (e : Embedding) (U T X : String) : ((e.assoc U T X).map Prod.fst).Nodup := by
  simp only [Embedding.assoc, List.map_append, List.map_map]
  have hT : (e.seen.map (·.2) ++ e.kept.map (·.2)).Nodup := (e.ht.nodup_iff).1 e.tnd
  have h1 : ((e.seen.map (·.2) ++ e.kept.map (·.2)).map (Node.blk T)).Nodup :=
    hT.map fun a b h => by injection h
  have h2 : ((e.ties.map (·.2.2)).map Node.ext).Nodup := e.nnd.map fun a b h => by injection h
  simp only [List.map_append, List.map_map] at h1 h2
  refine List.nodup_append.2 ⟨h2, h1, ?_⟩
  intro a ha b hb
  simp only [List.mem_map, Function.comp_apply] at ha
  obtain ⟨x, _, rfl⟩ := ha
  simp only [List.mem_append, List.mem_map, Function.comp_apply] at hb
  rintro rfl
  rcases hb with ⟨y, _, h⟩ | ⟨y, _, h⟩ <;> cases h

theorem Embedding.ren_of_mem (e : Embedding) {U T X : String} {a b : Node} (h : (a, b) ∈ e.assoc U T X) :
    e.ren U T X a = b := by
  rw [Embedding.ren, dictGet_of_mem (e.assoc_nodup U T X) h]; rfl

theorem Embedding.ren_X (e : Embedding) {U T X : String} (hTX : T ≠ X) (x : String) :
    e.ren U T X (.blk X x) = .blk X x := by
  rw [Embedding.ren, dictGet_none.2]
  · rfl
  · simp only [Embedding.assoc, List.map_append, List.map_map, List.mem_append, List.mem_map, Function.comp_apply, not_or]
    refine ⟨?_, ?_, ?_⟩ <;> rintro ⟨y, _, h⟩ <;> injection h
    · exact hTX ‹_›
    · exact hTX ‹_›

theorem pair_law' [CharZero K] (p q : Node) (w : Wave → K) : (⟨[p, q], none⟩ : Junction).Law w ↔
    w (.inn, p) = w (.out, q) ∧ w (.inn, q) = w (.out, p) := by
  simp only [Junction.Law, Option.toList, List.append_nil, List.mem_cons, List.not_mem_nil, or_false, List.map_cons,
    List.map_nil, List.sum_cons, List.sum_nil, volt, curr]
  have h2 : (2 : K) ≠ 0 := by norm_num
  constructor
  · rintro ⟨h1, h2'⟩
    have := h1 p (Or.inl rfl) q (Or.inr rfl)
    constructor <;> refine mul_left_cancel₀ h2 ?_
    · linear_combination this + h2'
    · linear_combination h2' - this
  · rintro ⟨h1, h2'⟩
    refine ⟨?_, by linear_combination h1 + h2'⟩
    rintro x (rfl | rfl) y (rfl | rfl)
    · rfl
    · linear_combination h1 - h2'
    · linear_combination h2' - h1
    · rfl

theorem forall₂_nodup {α β : Type*} {R : α → β → Prop} (hR : ∀ a b c, R a c → R b c → a = b) {l : List α} {l' : List β}
    (h : List.Forall₂ R l l') (hl : l.Nodup) : l'.Nodup := by
  induction h with
  | nil => exact List.nodup_nil
  | @cons a c l l' hac hll ih =>
    rw [List.nodup_cons] at hl ⊢
    refine ⟨fun hc => hl.1 ?_, ih hl.2⟩
    obtain ⟨b, hb, hbc⟩ := forall₂_mem_right hll hc
    rw [hR a b c hac hbc]
    exact hb

theorem map_inj_of_nodup {α β : Type*} {g : α → β} {l : List α} (h : (l.map g).Nodup) {a b : α} (ha : a ∈ l) (hb : b ∈ l)
    (hab : g a = g b) : a = b := List.inj_on_of_nodup_map h ha hb hab

/-- **C24 (deembedding).**  `ST` is the scattering matrix of `U` connected to `X` (`e.inside`), as seen from the nodes
`outer` which are the ports of `T`.  A circuit is made of a block `T` that has this matrix and a block `X`, and
`deembed` is called with the pairs that describe the embedding; as many ports of `X` lead inside as lead outside.  Then
whatever else happens (evaluations, replacement of objects), if `getS(f)` returns `M` while `T` and `X` deliver these
matrices, `M` has the entries of `U`'s scattering matrix between any two exposed ports. -/
theorem C24_deembed [CharZero K] (hlaw : Lawful ops beh) (e : Embedding) {U T X : String} (hTX : T ≠ X) (hUX : U ≠ X)
    {SU SX ST : SMat K} {outer : List Node} (hout : List.Forall₂ (e.Outer U X) e.tps outer)
    {Sin : String → SMat K} (hSU : Sin U = SU) (hSX : Sin X = SX)
    (hT : IsScattering ((e.inside U X : Net K).Laws zb Sin) (e.inside U X : Net K).nodes outer ST)
    (hn : e.ties.length = e.seen.length)
    (h : Built ops beh nan zb names
      (((Net.empty.addBlk T e.tps).addBlk X e.xps).deembed (e.int X) (e.ext T X)) bh s ph) (hph : ph ≠ .reloaded)
    {f : F} {fl : Fl} (gT : bh T f zb fl = .ok ST) (gX : bh X f zb fl = .ok SX) {M : SMat K}
    (hs : getS ops s f none fl = (s', .ok M)) :
    (∀ p, p ∈ s'.ports ↔ ∃ u, e.Exposed T p u) ∧
    ∀ p u q v, e.Exposed T p u → e.Exposed T q v →
      M.at (s'.ports.idxOf p) (s'.ports.idxOf q) = SU.at (e.ups.idxOf u) (e.ups.idxOf v) := by
  classical
  set net := ((Net.empty.addBlk T e.tps).addBlk X e.xps).deembed (e.int X) (e.ext T X) with hnet
  have hinv := (Built.eval h hs).inv hlaw
  obtain ⟨_, hSc⟩ := C20_getS_sound hlaw h hph hs
  let Sof : String → SMat K := fun b => if b = T then ST else SX
  have hneteq : net = { blks := [(T, e.tps), (X, e.xps)], nodes := (e.tps.map (Node.blk T) ++ e.xps.map (Node.blk X)) ++ (e.int X).map Prod.snd, juncs := [], loads := [], crosses := e.int X, sames := e.ext T X } := by
    rw [hnet, deembed_eq]
    simp [Net.addBlk, Net.empty]
  have hG : Given net bh f zb fl Sof := by
    intro x hx
    rw [hneteq] at hx
    simp only [List.mem_cons, List.not_mem_nil, or_false] at hx
    rcases hx with rfl | rfl
    · simpa [Sof] using gT
    · simpa [Sof, hTX.symm] using gX
  have hM := hSc Sof hG
  have hxnd : (e.ties.map (·.1) ++ e.seen.map (·.1)).Nodup := (e.hx.nodup_iff).1 e.xnd
  have hund : (e.ties.map (·.2.1) ++ e.kept.map (·.1)).Nodup := (e.hu.nodup_iff).1 e.und
  have htnd : (e.seen.map (·.2) ++ e.kept.map (·.2)).Nodup := (e.ht.nodup_iff).1 e.tnd
  -- external ports
  have hports : ∀ p, p ∈ s'.ports ↔ ∃ u, e.Exposed T p u := by
    intro p
    rw [show (p ∈ s'.ports ↔ p ∈ net.free) from (hinv.rep.ports_perm).mem_iff, mem_free, hneteq]
    simp only [Net.used, List.flatMap_nil, List.nil_append, List.map_nil, List.append_nil, List.mem_append, List.mem_map,
      List.mem_flatMap, Embedding.int, Embedding.ext, List.map_map, Function.comp_apply, not_or]
    constructor
    · rintro ⟨(⟨t, ht, rfl⟩ | ⟨x, hx, rfl⟩) | ⟨y, hy, rfl⟩, hu1, hu2⟩
      · rw [e.ht.mem_iff, List.mem_append] at ht
        rcases ht with ht | ht
        · obtain ⟨y, hy, rfl⟩ := List.mem_map.1 ht
          exact absurd ⟨(.blk X y.1, .blk T y.2), ⟨y, hy, rfl⟩, by simp⟩ hu2
        · obtain ⟨y, hy, rfl⟩ := List.mem_map.1 ht
          exact ⟨y.1, Or.inr ⟨y.2, hy, rfl⟩⟩
      · rw [e.hx.mem_iff, List.mem_append] at hx
        rcases hx with hx | hx
        · obtain ⟨y, hy, rfl⟩ := List.mem_map.1 hx
          exact absurd ⟨y, hy, rfl⟩ hu1
        · obtain ⟨y, hy, rfl⟩ := List.mem_map.1 hx
          exact absurd ⟨(.blk X y.1, .blk T y.2), ⟨y, hy, rfl⟩, by simp⟩ hu2
      · exact ⟨y.2.1, Or.inl ⟨y.1, y.2.2, hy, rfl⟩⟩
    · rintro ⟨u, ⟨x, n, hx, rfl⟩ | ⟨t, ht, rfl⟩⟩
      · refine ⟨Or.inr ⟨_, hx, rfl⟩, ?_, ?_⟩
        · rintro ⟨y, _, hy⟩; cases hy
        · rintro ⟨y, ⟨z, _, rfl⟩, hy⟩; simp at hy
      · refine ⟨Or.inl (Or.inl ⟨t, ?_, rfl⟩), ?_, ?_⟩
        · rw [e.ht.mem_iff]; exact List.mem_append_right _ (List.mem_map.2 ⟨_, ht, rfl⟩)
        · rintro ⟨y, _, hy⟩; injection hy with hy; exact hTX hy.symm
        · rintro ⟨y, ⟨z, hz, rfl⟩, hy⟩
          simp only [List.mem_cons, Node.blk.injEq, List.not_mem_nil, or_false] at hy
          rcases hy with ⟨hy, _⟩ | ⟨_, hy⟩
          · exact hTX hy
          · exact (List.nodup_append.1 htnd).2.2 _ (List.mem_map.2 ⟨z, hz, rfl⟩) _ (List.mem_map.2 ⟨_, ht, rfl⟩) hy.symm
  refine ⟨hports, ?_⟩
  -- the renaming
  have rT : ∀ t n, e.Outer U X t n → e.ren U T X (.blk T t) = n := by
    rintro t n (⟨x, hx, rfl⟩ | ⟨u, hu, rfl⟩)
    · exact e.ren_of_mem (List.mem_append_right _ (List.mem_append_left _ (List.mem_map.2 ⟨_, hx, rfl⟩)))
    · exact e.ren_of_mem (List.mem_append_right _ (List.mem_append_right _ (List.mem_map.2 ⟨_, hu, rfl⟩)))
  have rE : ∀ p u, e.Exposed T p u → e.ren U T X p = .blk U u := by
    rintro p u (⟨x, n, hx, rfl⟩ | ⟨t, ht, rfl⟩)
    · exact e.ren_of_mem (List.mem_append_left _ (List.mem_map.2 ⟨_, hx, rfl⟩))
    · exact e.ren_of_mem (List.mem_append_right _ (List.mem_append_right _ (List.mem_map.2 ⟨_, ht, rfl⟩)))
  have rX : ∀ x, e.ren U T X (.blk X x) = .blk X x := e.ren_X hTX
  have hmap : (e.tps.map (Node.blk T)).map (e.ren U T X) = outer := by
    rw [List.map_map]
    have : ∀ {l : List String} {m : List Node}, List.Forall₂ (e.Outer U X) l m → l.map (e.ren U T X ∘ Node.blk T) = m := by
      intro l m hlm
      induction hlm with
      | nil => rfl
      | cons h1 _ ih => rw [List.map_cons, ih, Function.comp_apply, rT _ _ h1]
    exact this hout
  have hinjO : ∀ a b c, e.Outer U X a c → e.Outer U X b c → a = b := by
    rintro a b c (⟨x, hx, rfl⟩ | ⟨u, hu, rfl⟩) (⟨y, hy, hc⟩ | ⟨y, hy, hc⟩)
    · injection hc with _ hc; subst hc
      have := map_inj_of_nodup (List.nodup_append.1 hxnd).2.1 hx hy rfl
      injection this
    · injection hc with hc; exact absurd hc.symm hUX
    · injection hc with hc; exact absurd hc hUX
    · injection hc with _ hc; subst hc
      have := map_inj_of_nodup (List.nodup_append.1 hund).2.1 hu hy rfl
      injection this
  have hond : outer.Nodup := forall₂_nodup hinjO hout e.tnd
  have hlawsT : ∀ w, ((e.inside U X : Net K).Laws zb Sin) w → net.Laws zb Sof fun x => w (x.1, e.ren U T X x.2) := by
    intro w hw
    have hTout := hT.out w hw
    obtain ⟨hB, ⟨hJ, -, -⟩, -⟩ := hw
    rw [hneteq]
    refine ⟨?_, ⟨by simp, ?_, ?_⟩, by simp⟩
    · intro x hx
      simp only [List.mem_cons, List.not_mem_nil, or_false] at hx
      rcases hx with rfl | rfl
      · intro i
        have hl : e.tps.length = outer.length := hout.length_eq
        have hidx : ∀ i : Fin e.tps.length, e.ren U T X (.blk T e.tps[i]) = outer[(i : ℕ)]'(hl ▸ i.2) := by
          intro i
          have h1 : outer[(i : ℕ)]'(hl ▸ i.2) = ((e.tps.map (Node.blk T)).map (e.ren U T X))[(i : ℕ)]'(by simp) := by
            congr 1; exact hmap.symm
          rw [h1]; simp
        simp only [hidx, Sof, if_true]
        refine (hTout ⟨i, hl ▸ i.2⟩).trans ?_
        exact Fintype.sum_equiv (finCongr hl.symm) _ _ fun j => rfl
      · have := hB (X, e.xps) (by simp [Embedding.inside])
        intro i
        simp only [rX, Sof, if_neg hTX.symm]
        rw [hSX] at this
        exact this i
    · intro x hx
      simp only [Embedding.int, List.mem_map] at hx
      obtain ⟨y, hy, rfl⟩ := hx
      have hj := hJ ⟨[.blk U y.2.1, .blk X y.1], none⟩ (List.mem_map.2 ⟨y, hy, rfl⟩)
      rw [pair_law'] at hj
      simp only [rX, rE (.ext y.2.2) y.2.1 (Or.inl ⟨_, _, hy, rfl⟩)]
      exact ⟨hj.2, hj.1.symm⟩
    · intro x hx
      simp only [Embedding.ext, List.mem_map] at hx
      obtain ⟨y, hy, rfl⟩ := hx
      simp only [rX, rT y.2 (.blk X y.1) (Or.inl ⟨_, hy, rfl⟩), and_self]
  -- as many exposed ports as ports of T
  have hpperm : s'.ports.Perm (e.ties.map (fun x => Node.ext x.2.2) ++ e.kept.map fun x => Node.blk T x.2) := by
    refine (List.perm_ext_iff_of_nodup hinv.rep.rep.pnd ?_).2 fun p => ?_
    · refine List.nodup_append.2 ⟨?_, ?_, ?_⟩
      · have := e.nnd.map (f := Node.ext) fun a b h => by injection h
        rwa [List.map_map] at this
      · have := (List.nodup_append.1 htnd).2.1.map (f := Node.blk T) fun a b h => by injection h
        rwa [List.map_map] at this
      · intro a ha b hb
        obtain ⟨x, _, rfl⟩ := List.mem_map.1 ha
        obtain ⟨y, _, rfl⟩ := List.mem_map.1 hb
        intro hc; cases hc
    · refine (hports p).trans ?_
      rw [List.mem_append, List.mem_map, List.mem_map]
      constructor
      · rintro ⟨u, ⟨x, n, hx, rfl⟩ | ⟨t, ht, rfl⟩⟩
        · exact Or.inl ⟨_, hx, rfl⟩
        · exact Or.inr ⟨_, ht, rfl⟩
      · rintro (⟨x, hx, rfl⟩ | ⟨x, hx, rfl⟩)
        · exact ⟨x.2.1, Or.inl ⟨_, _, hx, rfl⟩⟩
        · exact ⟨x.1, Or.inr ⟨_, hx, rfl⟩⟩
  have hcount : (e.tps.map (Node.blk T)).length = s'.ports.length := by
    rw [hpperm.length_eq, List.length_map, e.ht.length_eq]
    simp [hn]
  intro p u q v hp hq
  have hpm := (hports p).2 ⟨u, hp⟩
  have hqm := (hports q).2 ⟨v, hq⟩
  obtain ⟨w, hw, hwin⟩ := hM.exists_sol fun n => if n = q then 1 else 0
  obtain ⟨w0, hw0, hww⟩ := Solvable.transport (fun w w' h h' => Net.Laws.add h h') (fun c w h => Net.Laws.smul h c)
    hM.toSolvable hT.toSolvable (e.ren U T X) hlawsT (tn := e.tps.map (Node.blk T))
    (by
      intro n hn
      rw [hneteq]
      exact List.mem_append_left _ (List.mem_append_left _ hn)) hmap hinv.rep.rep.pnd hond hcount hw
  have hpn : ∀ p ∈ s'.ports, p ∈ net.nodes := fun p hp => (mem_free.1 ((hinv.rep.ports_perm).mem_iff.1 hp)).1
  have hval : ∀ p u d, e.Exposed T p u → w (d, p) = w0 (d, .blk U u) := by
    intro p u d hpu
    rw [hww p (hpn p ((hports p).2 ⟨u, hpu⟩)) d, rE p u hpu]
  -- left: M's entry
  have hpi : s'.ports.idxOf p < s'.ports.length := List.idxOf_lt_length_iff.2 hpm
  have hqi : s'.ports.idxOf q < s'.ports.length := List.idxOf_lt_length_iff.2 hqm
  have eL : w (.out, p) = M.at (s'.ports.idxOf p) (s'.ports.idxOf q) := by
    have h1 := hM.out w hw ⟨_, hpi⟩
    simp only [Fin.getElem_fin, List.getElem_idxOf] at h1
    rw [h1, Finset.sum_eq_single ⟨_, hqi⟩]
    · simp only [List.getElem_idxOf]
      rw [hwin q hqm, if_pos rfl, mul_one]
    · intro k _ hk
      rw [hwin _ (List.getElem_mem _), if_neg, mul_zero]
      intro hc
      apply hk
      refine Fin.ext ((hinv.rep.rep.pnd.getElem_inj_iff (hi := k.2) (hj := hqi)).1 ?_)
      show s'.ports[(k : ℕ)] = s'.ports[s'.ports.idxOf q]
      rw [hc, List.getElem_idxOf]
    · simp
  -- right: U's entry
  have hum : ∀ p u, e.Exposed T p u → u ∈ e.ups := by
    rintro p u (⟨x, n, hx, rfl⟩ | ⟨t, ht, rfl⟩) <;> rw [e.hu.mem_iff]
    · exact List.mem_append_left _ (List.mem_map.2 ⟨_, hx, rfl⟩)
    · exact List.mem_append_right _ (List.mem_map.2 ⟨_, ht, rfl⟩)
  have hex : ∀ u ∈ e.ups, ∃ p, e.Exposed T p u := by
    intro u hu
    rw [e.hu.mem_iff, List.mem_append, List.mem_map, List.mem_map] at hu
    rcases hu with ⟨x, hx, rfl⟩ | ⟨x, hx, rfl⟩
    · exact ⟨_, Or.inl ⟨_, _, hx, rfl⟩⟩
    · exact ⟨_, Or.inr ⟨_, hx, rfl⟩⟩
  have hfun : ∀ p u v, e.Exposed T p u → e.Exposed T p v → u = v := by
    intro p u v h1 h2
    have := (rE p u h1).symm.trans (rE p v h2)
    injection this
  have hui : e.ups.idxOf u < e.ups.length := List.idxOf_lt_length_iff.2 (hum p u hp)
  have hvi : e.ups.idxOf v < e.ups.length := List.idxOf_lt_length_iff.2 (hum q v hq)
  have eR : w0 (.out, .blk U u) = SU.at (e.ups.idxOf u) (e.ups.idxOf v) := by
    have h1 := hw0.1 (U, e.ups) (by simp [Embedding.inside]) ⟨_, hui⟩
    simp only [Fin.getElem_fin, List.getElem_idxOf, hSU] at h1
    rw [h1, Finset.sum_eq_single ⟨_, hvi⟩]
    · simp only [List.getElem_idxOf]
      rw [← hval q v .inn hq, hwin q hqm, if_pos rfl, mul_one]
    · intro k _ hk
      obtain ⟨p', hp'⟩ := hex e.ups[k] (fin_mem k)
      have : w0 (.inn, .blk U e.ups[k]) = 0 := by
        rw [← hval p' _ .inn hp', hwin p' ((hports p').2 ⟨_, hp'⟩), if_neg]
        rintro rfl
        have h3 := hfun _ _ _ hp' hq
        apply hk
        refine Fin.ext ((e.und.getElem_inj_iff (hi := k.2) (hj := hvi)).1 ?_)
        rw [List.getElem_idxOf]
        exact h3
      simp only [Fin.getElem_fin] at this
      rw [this, mul_zero]
    · simp
  rw [← eL, ← eR, hval p u .out hp]

end

/-! ## a concrete case: a load of reflection 1/5 behind an attenuator -/

namespace Ex24
open Ex (o E two mA)

def one (r : ℚ) : Imm ℚ Unit Unit where
  len := 1
  ports := some ["1"]
  xpos := some [0]
  beh _ _ _ := .ok ⟨1, fun _ _ => r⟩
  sized _ _ _ S h := by injection h with h; rw [← h]
  placed xs h := by injection h with h; rw [← h]; decide

def emb : Embedding where
  ties := [("2", "1", "u")]
  seen := [("1", "1")]
  kept := []
  xps := ["1", "2"]
  ups := ["1"]
  tps := ["1"]
  hx := by decide
  hu := by decide
  ht := by decide
  xnd := by decide
  und := by decide
  tnd := by decide
  nnd := by decide

def s0 : E := St.init 50 []
def s1 : E := (addblock o 0 s0 "T" (one (1/20)) .none 0).1
def s2 : E := (addblock o 0 s1 "X" (two mA) .none 0).1
def s3 : E := (deembed s2 (emb.int "X") (emb.ext "T" "X")).1

theorem step1 : addblock o 0 s0 "T" (one (1/20)) .none 0 = (s1, .ok ()) := Prod.ext rfl rfl
theorem step2 : addblock o 0 s1 "X" (two mA) .none 0 = (s2, .ok ()) := Prod.ext rfl rfl
theorem step3 : deembed s2 (emb.int "X") (emb.ext "T" "X") = (s3, .ok ()) := Prod.ext rfl rfl

def bh : Behave ℚ Unit Unit :=
  Function.update (Function.update (fun _ _ _ _ => .error .valueError) "T" (one (1/20)).beh) "X" (two mA).beh

theorem built : Built o Imm.beh 0 50 []
    (((Net.empty.addBlk "T" emb.tps).addBlk "X" emb.xps).deembed (emb.int "X") (emb.ext "T" "X")) bh s3 .building := by
  have h0 : Built o Imm.beh 0 50 [] Net.empty (fun _ _ _ _ => .error .valueError) s0 .building := Built.init _
  have h1 := Built.addblock h0 (by decide) (ports := ["1"]) (by decide) (by decide) step1
  have h2 := Built.addblock h1 (by decide) (ports := ["1", "2"]) (by decide) (by decide) step2
  exact Built.deembed h2 (by decide) (by decide) (by simp [emb, Embedding.int]) step3

def Sin : String → SMat ℚ := fun b => if b = "U" then ⟨1, fun _ _ => 1/5⟩ else ⟨2, mA⟩

/-- the load 1/5 seen through the attenuator is 1/20 -/
theorem inside : IsScattering ((emb.inside "U" "X" : Net ℚ).Laws 50 Sin) (emb.inside "U" "X" : Net ℚ).nodes
    [.blk "X" "1"] ⟨1, fun _ _ => 1/20⟩ := by
  have hl : ∀ w, (emb.inside "U" "X" : Net ℚ).Laws 50 Sin w ↔
      w (.out, .blk "U" "1") = 1/5 * w (.inn, .blk "U" "1") ∧
      (w (.out, .blk "X" "1") = 1/2 * w (.inn, .blk "X" "2") ∧ w (.out, .blk "X" "2") = 1/2 * w (.inn, .blk "X" "1")) ∧
      w (.inn, .blk "U" "1") = w (.out, .blk "X" "2") ∧ w (.inn, .blk "X" "2") = w (.out, .blk "U" "1") := by
    intro w
    have hU : BlockLaw (Sin "U") "U" ["1"] w ↔ w (.out, .blk "U" "1") = 1/5 * w (.inn, .blk "U" "1") := by
      simp only [BlockLaw, List.length_cons, List.length_nil]
      rw [Fin.forall_fin_one]
      simp [SMat.at, Sin]
    have hX : BlockLaw (Sin "X") "X" ["1", "2"] w ↔ w (.out, .blk "X" "1") = 1/2 * w (.inn, .blk "X" "2") ∧
       w (.out, .blk "X" "2") = 1/2 * w (.inn, .blk "X" "1") := by
      simp only [BlockLaw, List.length_cons, List.length_nil]
      rw [Fin.forall_fin_two]
      simp [SMat.at, Sin, mA, Fin.sum_univ_two]
    simp only [Net.Laws, Net.CoreLaws, Embedding.inside, emb, List.forall_mem_cons, List.not_mem_nil, false_implies,
      implies_true, and_true, hU, hX, pair_law', List.map_cons, List.map_nil]
    tauto
  refine ⟨⟨fun a => ?_, fun w w' h h' hi n hn d => ?_⟩, rfl, fun w h i => ?_⟩
  · set α := a (.blk "X" "1") with hα
    refine ⟨fun x => if x = (.inn, .blk "X" "1") then α
      else if x = (.out, .blk "X" "2") ∨ x = (.inn, .blk "U" "1") then 1/2 * α
      else if x = (.out, .blk "U" "1") ∨ x = (.inn, .blk "X" "2") then 1/5 * (1/2 * α)
      else if x = (.out, .blk "X" "1") then 1/2 * (1/5 * (1/2 * α)) else 0, ?_, ?_⟩
    · rw [hl]; simp
    · simp [hα]
  · rw [hl] at h h'
    have hi := hi (.blk "X" "1") (by simp)
    obtain ⟨a, ⟨b, c⟩, e, g⟩ := h
    obtain ⟨a', ⟨b', c'⟩, e', g'⟩ := h'
    simp only [Embedding.inside, emb, List.map_cons, List.map_nil, List.mem_append, List.mem_cons, List.not_mem_nil, or_false] at hn
    rcases hn with rfl | rfl | rfl <;> cases d <;> linarith
  · rw [hl] at h
    obtain ⟨a, ⟨b, c⟩, e, g⟩ := h
    have hi0 : i = ⟨0, by simp⟩ := Subsingleton.elim (α := Fin 1) _ _
    subst hi0
    simp [SMat.at]
    linarith

theorem solvable (Sof : String → SMat ℚ) (hT : Sof "T" = ⟨1, fun _ _ => 1/20⟩) (hX : Sof "X" = ⟨2, mA⟩) :
    Solvable ((((Net.empty.addBlk "T" emb.tps).addBlk "X" emb.xps).deembed (emb.int "X") (emb.ext "T" "X") :
      Net ℚ).Laws 50 Sof)
      (((Net.empty.addBlk "T" emb.tps).addBlk "X" emb.xps).deembed (emb.int "X") (emb.ext "T" "X") : Net ℚ).nodes
      (((Net.empty.addBlk "T" emb.tps).addBlk "X" emb.xps).deembed (emb.int "X") (emb.ext "T" "X") : Net ℚ).free := by
  have hl : ∀ w, (((Net.empty.addBlk "T" emb.tps).addBlk "X" emb.xps).deembed (emb.int "X") (emb.ext "T" "X") :
      Net ℚ).Laws 50 Sof w ↔
      w (.out, .blk "T" "1") = 1/20 * w (.inn, .blk "T" "1") ∧
      (w (.out, .blk "X" "1") = 1/2 * w (.inn, .blk "X" "2") ∧ w (.out, .blk "X" "2") = 1/2 * w (.inn, .blk "X" "1")) ∧
      (w (.inn, .blk "X" "2") = w (.out, .ext "u") ∧ w (.out, .blk "X" "2") = w (.inn, .ext "u")) ∧
      (w (.inn, .blk "X" "1") = w (.inn, .blk "T" "1") ∧ w (.out, .blk "X" "1") = w (.out, .blk "T" "1")) := by
    intro w
    have hU : BlockLaw (Sof "T") "T" ["1"] w ↔ w (.out, .blk "T" "1") = 1/20 * w (.inn, .blk "T" "1") := by
      simp only [BlockLaw, List.length_cons, List.length_nil, hT]
      rw [Fin.forall_fin_one]
      simp [SMat.at]
    have hX : BlockLaw (Sof "X") "X" ["1", "2"] w ↔ w (.out, .blk "X" "1") = 1/2 * w (.inn, .blk "X" "2") ∧
       w (.out, .blk "X" "2") = 1/2 * w (.inn, .blk "X" "1") := by
      simp only [BlockLaw, List.length_cons, List.length_nil, hX]
      rw [Fin.forall_fin_two]
      simp [SMat.at, mA, Fin.sum_univ_two]
    rw [deembed_eq]
    simp only [Net.Laws, Net.CoreLaws, Net.addBlk, Net.empty, Embedding.int, Embedding.ext, emb, List.forall_mem_cons,
      List.not_mem_nil, false_implies, implies_true, and_true, true_and, hU, hX, List.map_cons, List.map_nil, List.nil_append,
      List.cons_append]
    tauto
  have hfree : (((Net.empty.addBlk "T" emb.tps).addBlk "X" emb.xps).deembed (emb.int "X") (emb.ext "T" "X") : Net ℚ).free =
      [.ext "u"] := by decide
  have hnodes : (((Net.empty.addBlk "T" emb.tps).addBlk "X" emb.xps).deembed (emb.int "X") (emb.ext "T" "X") : Net ℚ).nodes =
      [.blk "T" "1", .blk "X" "1", .blk "X" "2", .ext "u"] := by decide
  rw [hfree, hnodes]
  refine ⟨fun a => ?_, fun w w' h h' hi n hn d => ?_⟩
  · set α := a (.ext "u") with hα
    refine ⟨fun x => if x = (.inn, .ext "u") ∨ x = (.out, .blk "X" "2") then α
      else if x = (.inn, .blk "X" "1") ∨ x = (.inn, .blk "T" "1") then 2 * α
      else if x = (.out, .blk "X" "1") ∨ x = (.out, .blk "T" "1") then 1/20 * (2 * α)
      else 2 * (1/20 * (2 * α)), ?_, ?_⟩
    · rw [hl]; simp
    · simp [hα]
  · rw [hl] at h h'
    have hi := hi (.ext "u") (by simp)
    obtain ⟨a, ⟨b, c⟩, ⟨e, g⟩, k, l⟩ := h
    obtain ⟨a', ⟨b', c'⟩, ⟨e', g'⟩, k', l'⟩ := h'
    simp only [List.mem_cons, List.not_mem_nil, or_false] at hn
    rcases hn with rfl | rfl | rfl | rfl <;> cases d <;> linarith

/-- the hypotheses of C24 are met: the deembedded circuit evaluates, and what comes out is the 1/5 that went in -/
example : ∃ s' M, getS o s3 () none () = (s', .ok M) ∧ M.at (s'.ports.idxOf (.ext "u")) (s'.ports.idxOf (.ext "u")) = 1/5 := by
  have hG : Given (((Net.empty.addBlk "T" emb.tps).addBlk "X" emb.xps).deembed (emb.int "X") (emb.ext "T" "X") : Net ℚ)
      bh () 50 () (fun b => if b = "T" then ⟨1, fun _ _ => 1/20⟩ else ⟨2, mA⟩) := by
    have : (((Net.empty.addBlk "T" emb.tps).addBlk "X" emb.xps).deembed (emb.int "X") (emb.ext "T" "X") : Net ℚ).blks =
      [("T", ["1"]), ("X", ["1", "2"])] := by decide
    rw [Given, this]
    simp only [List.forall_mem_cons, List.not_mem_nil, false_implies, implies_true, and_true]
    exact ⟨rfl, rfl⟩
  obtain ⟨hi, hb, -⟩ := built.all (imm_lawful _ _ _)
  obtain ⟨-, ha, -⟩ := hb rfl
  have hnm : s3.names = [] := by simp [St.names, ha, hi.nm]
  obtain ⟨s', M, h⟩ := (C20_getS_complete (imm_lawful _ _ _) built (by decide) hG (by decide) (Or.inl hnm)).2
    (solvable _ rfl rfl)
  refine ⟨s', M, h, ?_⟩
  have := (C24_deembed (imm_lawful _ _ _) emb (U := "U") (T := "T") (X := "X") (by decide) (by decide)
    (outer := [.blk "X" "1"]) (List.Forall₂.cons (Or.inl ⟨"1", by simp [emb], rfl⟩) .nil) (Sin := Sin) rfl rfl inside rfl
    built (by decide) rfl rfl h).2 (.ext "u") "1" (.ext "u") "1" (Or.inl ⟨"2", "u", by simp [emb], rfl⟩)
    (Or.inl ⟨"2", "u", by simp [emb], rfl⟩)
  rw [this]
  simp [Sin, SMat.at, emb]

end Ex24
end PyRFtk.Circuit
