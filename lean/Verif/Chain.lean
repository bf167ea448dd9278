import Verif.CircuitExamples
import Verif.CircuitProps
import Verif.CircuitPower
import Mathlib.Tactic.FieldSimp
import Mathlib.Tactic.LinearCombination
import Mathlib.LinearAlgebra.Matrix.Notation

/-!
# C86: a chain of two-ports

The model is `CircuitModel` (rfCircuit.py addblock 538-705, connect 767-923, get1S/getS 1197-1345); the objects in the chain are arbitrary (circuits, lines, data, ...).
-/

namespace PyRFtk.Circuit

/-! ## specification -/

/-- a two-port block of a chain: its name, the name of its first port, the name of its second port -/
structure Link where
  name : String
  p : String
  q : String

def Link.P (l : Link) : Node := .blk l.name l.p
def Link.Q (l : Link) : Node := .blk l.name l.q

/-- each second port is connected to the first port of the next, and to nothing else -/
def Linked (juncs : List Junction) : List Link → Prop
  | a :: b :: ls => (∃ j ∈ juncs, j.new = none ∧ j.members.Perm [a.Q, b.P]) ∧ Linked juncs (b :: ls)
  | _ => True

/-- the network contains the chain -/
structure HasChain {K : Type*} (net : Net K) (ls : List Link) : Prop where
  blks : ∀ l ∈ ls, (l.name, [l.p, l.q]) ∈ net.blks
  linked : Linked net.juncs ls

/-- the network is the chain and nothing else -/
structure IsChainNet {K : Type*} (net : Net K) (ls : List Link) : Prop extends HasChain net ls where
  only_blks : ∀ x ∈ net.blks, ∃ l ∈ ls, x = (l.name, [l.p, l.q])
  only_juncs : ∀ j ∈ net.juncs, ∃ a b, [a, b] <:+: ls ∧ j.new = none ∧ j.members.Perm [a.Q, b.P]
  only_nodes : ∀ n ∈ net.nodes, ∃ l ∈ ls, n = l.P ∨ n = l.Q
  names : (ls.map Link.name).Nodup
  ports : ∀ l ∈ ls, l.p ≠ l.q
  loads : net.loads = []
  crosses : net.crosses = []
  sames : net.sames = []

/-- the transmission matrix of a two-port: (wave out of, wave into port 1) in terms of (wave into, wave out of port 2) -/
def TMat {K : Type*} [Field K] (S : SMat K) : Matrix (Fin 2) (Fin 2) K :=
  !![-(S.at 0 0 * S.at 1 1 - S.at 0 1 * S.at 1 0) / S.at 1 0, S.at 0 0 / S.at 1 0; -S.at 1 1 / S.at 1 0, 1 / S.at 1 0]

/-- the product of the transmission matrices, in the order of the chain -/
def TProd {K : Type*} [Field K] (Sof : String → SMat K) (ls : List Link) : Matrix (Fin 2) (Fin 2) K := (ls.map fun l => TMat (Sof l.name)).prod

/-! ## proofs -/

section
variable {K : Type*} [Field K]

theorem two_T {s11 s12 s21 s22 a1 a2 b1 b2 : K} (h : s21 ≠ 0) :
    (b1 = s11 * a1 + s12 * a2 ∧ b2 = s21 * a1 + s22 * a2) ↔
      b1 = -(s11 * s22 - s12 * s21) / s21 * a2 + s11 / s21 * b2 ∧ a1 = -s22 / s21 * a2 + 1 / s21 * b2 := by
  constructor
  · rintro ⟨h1, h2⟩
    rw [h1, h2]
    constructor <;> (field_simp; ring)
  · rintro ⟨h1, h2⟩
    rw [h1, h2]
    constructor <;> (field_simp; ring)

theorem blockLaw_two {S : SMat K} {b p q : String} {w : Wave → K} : BlockLaw S b [p, q] w ↔
    w (.out, .blk b p) = S.at 0 0 * w (.inn, .blk b p) + S.at 0 1 * w (.inn, .blk b q) ∧
    w (.out, .blk b q) = S.at 1 0 * w (.inn, .blk b p) + S.at 1 1 * w (.inn, .blk b q) := by
  unfold BlockLaw
  simp only [List.length_cons, List.length_nil]
  rw [Fin.forall_fin_two]
  simp [Fin.sum_univ_two]

theorem blockLaw_T {S : SMat K} (h : S.at 1 0 ≠ 0) {b p q : String} {w : Wave → K} : BlockLaw S b [p, q] w ↔
    ![w (.out, .blk b p), w (.inn, .blk b p)] = (TMat S).mulVec ![w (.inn, .blk b q), w (.out, .blk b q)] := by
  rw [blockLaw_two, two_T h]
  unfold TMat
  constructor
  · rintro ⟨h1, h2⟩
    funext k
    fin_cases k
    · simpa [Matrix.mulVec, dotProduct, Fin.sum_univ_two] using h1
    · simpa [Matrix.mulVec, dotProduct, Fin.sum_univ_two] using h2
  · intro e
    have h1 := congrFun e 0
    have h2 := congrFun e 1
    simp [Matrix.mulVec, dotProduct, Fin.sum_univ_two] at h1 h2
    exact ⟨by rw [h1]; ring, by rw [h2]; ring⟩

theorem two_junc [CharZero K] {j : Junction} {x y : Node} (hn : j.new = none) (hm : j.members.Perm [x, y]) {w : Wave → K} :
    j.Law w ↔ w (.inn, x) = w (.out, y) ∧ w (.out, x) = w (.inn, y) := by
  unfold Junction.Law
  rw [hn, (hm.map (curr w)).sum_eq]
  have h2 : (2 : K) ≠ 0 := by norm_num
  constructor
  · rintro ⟨h1, h3⟩
    have h1 := h1 x (by simp [hm.mem_iff]) y (by simp [hm.mem_iff])
    simp only [volt, curr, List.map_cons, List.map_nil, List.sum_cons, List.sum_nil, add_zero] at h1 h3
    constructor
    · refine mul_left_cancel₀ h2 ?_
      linear_combination h1 + h3
    · refine mul_left_cancel₀ h2 ?_
      linear_combination h1 - h3
  · rintro ⟨h1, h3⟩
    have hv : volt w x = volt w y := by unfold volt; rw [h1, h3]; ring
    refine ⟨fun a ha b hb => ?_, ?_⟩
    · simp only [Option.toList_none, List.append_nil, hm.mem_iff, List.mem_cons, List.not_mem_nil, or_false] at ha hb
      rcases ha with rfl | rfl <;> rcases hb with rfl | rfl
      · rfl
      · exact hv
      · exact hv.symm
      · rfl
    · simp only [curr, List.map_cons, List.map_nil, List.sum_cons, List.sum_nil, add_zero]
      rw [h1, h3]; ring

theorem chain_T [CharZero K] {net : Net K} {zb : K} {Sof : String → SMat K} {w : Wave → K} (hw : net.Laws zb Sof w) :
    ∀ (ls : List Link) (a : Link), HasChain net (a :: ls) → (∀ l ∈ a :: ls, (Sof l.name).at 1 0 ≠ 0) →
      ![w (.out, a.P), w (.inn, a.P)] =
        (TProd Sof (a :: ls)).mulVec ![w (.inn, ((a :: ls).getLast (by simp)).Q), w (.out, ((a :: ls).getLast (by simp)).Q)] := by
  intro ls
  induction ls with
  | nil =>
    intro a hc h
    have := (blockLaw_T (h a (by simp))).1 (hw.1 _ (hc.blks a (by simp)))
    simpa [TProd, Link.P, Link.Q] using this
  | cons b ls ih =>
    intro a hc h
    have h1 := (blockLaw_T (h a (by simp))).1 (hw.1 _ (hc.blks a (by simp)))
    have h2 := ih b ⟨fun l hl => hc.blks l (List.mem_cons_of_mem _ hl), hc.linked.2⟩ fun l hl => h l (List.mem_cons_of_mem _ hl)
    obtain ⟨j, hj, hn, hm⟩ := hc.linked.1
    obtain ⟨h3, h4⟩ := (two_junc hn hm).1 (hw.2.1.1 j hj)
    have e : TProd Sof (a :: b :: ls) = TMat (Sof a.name) * TProd Sof (b :: ls) := by simp [TProd]
    rw [e, ← Matrix.mulVec_mulVec, List.getLast_cons (by simp), ← h2, ← h3, ← h4]
    exact h1

theorem chain_matched [CharZero K] {net : Net K} {zb : K} {Sof : String → SMat K} {w : Wave → K} (hw : net.Laws zb Sof w) :
    ∀ (ls : List Link) (a : Link), HasChain net (a :: ls) → (∀ l ∈ a :: ls, (Sof l.name).at 0 0 = 0 ∧ (Sof l.name).at 1 1 = 0) →
      w (.out, ((a :: ls).getLast (by simp)).Q) = ((a :: ls).map fun l => (Sof l.name).at 1 0).prod * w (.inn, a.P) ∧
      w (.out, a.P) = ((a :: ls).map fun l => (Sof l.name).at 0 1).prod * w (.inn, ((a :: ls).getLast (by simp)).Q) := by
  intro ls
  induction ls with
  | nil =>
    intro a hc h
    obtain ⟨h1, h2⟩ := blockLaw_two.1 (hw.1 _ (hc.blks a (by simp)))
    obtain ⟨m1, m2⟩ := h a (by simp)
    rw [m1, zero_mul, zero_add] at h1
    rw [m2, zero_mul, add_zero] at h2
    simpa [Link.P, Link.Q] using ⟨h2, h1⟩
  | cons b ls ih =>
    intro a hc h
    obtain ⟨h1, h2⟩ := blockLaw_two.1 (hw.1 _ (hc.blks a (by simp)))
    obtain ⟨m1, m2⟩ := h a (by simp)
    rw [m1, zero_mul, zero_add] at h1
    rw [m2, zero_mul, add_zero] at h2
    change w (.out, a.P) = _ * w (.inn, a.Q) at h1
    change w (.out, a.Q) = _ * w (.inn, a.P) at h2
    obtain ⟨i1, i2⟩ := ih b ⟨fun l hl => hc.blks l (List.mem_cons_of_mem _ hl), hc.linked.2⟩ fun l hl => h l (List.mem_cons_of_mem _ hl)
    obtain ⟨j, hj, hn, hm⟩ := hc.linked.1
    obtain ⟨h3, h4⟩ := (two_junc hn hm).1 (hw.2.1.1 j hj)
    rw [List.getLast_cons (by simp)]
    constructor
    · rw [i1, ← h4, h2, List.map_cons (l := b :: ls), List.prod_cons]; ring
    · rw [h1, h3, i2, List.map_cons (l := b :: ls), List.prod_cons]; ring

/-! ### all waves in a chain from those at its far end -/

def waveAt (Sof : String → SMat K) (x : Fin 2 → K) : List Link → Wave → K
  | [], _ => 0
  | l :: ls, (d, n) =>
    if n = l.Q then (match d with | .inn => (TProd Sof ls).mulVec x 0 | .out => (TProd Sof ls).mulVec x 1)
    else if n = l.P then (match d with | .out => (TProd Sof (l :: ls)).mulVec x 0 | .inn => (TProd Sof (l :: ls)).mulVec x 1)
    else waveAt Sof x ls (d, n)

theorem waveAt_laws {Sof : String → SMat K} {x : Fin 2 → K} : ∀ {ls : List Link}, (ls.map Link.name).Nodup → (∀ l ∈ ls, l.p ≠ l.q) →
    (∀ l ∈ ls, (Sof l.name).at 1 0 ≠ 0) →
      (∀ l ∈ ls, BlockLaw (Sof l.name) l.name [l.p, l.q] (waveAt Sof x ls)) ∧
      (∀ a b, [a, b] <:+: ls → waveAt Sof x ls (.inn, a.Q) = waveAt Sof x ls (.out, b.P) ∧ waveAt Sof x ls (.out, a.Q) = waveAt Sof x ls (.inn, b.P)) ∧
      (∀ a ∈ ls.head?, waveAt Sof x ls (.out, a.P) = (TProd Sof ls).mulVec x 0 ∧ waveAt Sof x ls (.inn, a.P) = (TProd Sof ls).mulVec x 1) ∧
      (∀ c ∈ ls.getLast?, waveAt Sof x ls (.inn, c.Q) = x 0 ∧ waveAt Sof x ls (.out, c.Q) = x 1) := by
  intro ls
  induction ls with
  | nil => intro _ _ _; simp
  | cons l ls ih =>
    intro hnd hpq hT
    rw [List.map_cons, List.nodup_cons] at hnd
    obtain ⟨i1, i2, i3, i4⟩ := ih hnd.2 (fun l hl => hpq l (List.mem_cons_of_mem _ hl)) (fun l hl => hT l (List.mem_cons_of_mem _ hl))
    have hPQ : l.P ≠ l.Q := fun e => hpq l (by simp) (by injection e)
    have wQ : ∀ d, waveAt Sof x (l :: ls) (d, l.Q) = match d with | .inn => (TProd Sof ls).mulVec x 0 | .out => (TProd Sof ls).mulVec x 1 := fun d => by
      simp only [waveAt, if_true]
    have wP : ∀ d, waveAt Sof x (l :: ls) (d, l.P) = match d with | .out => (TProd Sof (l :: ls)).mulVec x 0 | .inn => (TProd Sof (l :: ls)).mulVec x 1 := fun d => by
      simp only [waveAt, if_true, if_neg hPQ]
    have wO : ∀ m ∈ ls, ∀ d q, waveAt Sof x (l :: ls) (d, .blk m.name q) = waveAt Sof x ls (d, .blk m.name q) := by
      intro m hm d q
      have hne : m.name ≠ l.name := fun e => hnd.1 (e ▸ List.mem_map_of_mem hm)
      have e1 : Node.blk m.name q ≠ l.Q := fun e => hne (by unfold Link.Q at e; injection e)
      have e2 : Node.blk m.name q ≠ l.P := fun e => hne (by unfold Link.P at e; injection e)
      simp only [waveAt, if_neg e1, if_neg e2]
    refine ⟨fun m hm => ?_, fun a b hab => ?_, fun a ha => ?_, fun c hc => ?_⟩
    · rw [List.mem_cons] at hm
      rcases hm with rfl | hm
      · rw [blockLaw_T (hT m (by simp))]
        change ![waveAt Sof x (m :: ls) (.out, m.P), waveAt Sof x (m :: ls) (.inn, m.P)] = (TMat (Sof m.name)).mulVec ![waveAt Sof x (m :: ls) (.inn, m.Q), waveAt Sof x (m :: ls) (.out, m.Q)]
        rw [wQ, wQ, wP, wP]
        dsimp only
        have e : TProd Sof (m :: ls) = TMat (Sof m.name) * TProd Sof ls := by simp [TProd]
        have e2 : ∀ v : Fin 2 → K, ![v 0, v 1] = v := fun v => by funext k; fin_cases k <;> rfl
        rw [e2, e2, e, Matrix.mulVec_mulVec]
      · rw [blockLaw_two, wO m hm, wO m hm, wO m hm, wO m hm, ← blockLaw_two]
        exact i1 m hm
    · cases ls with
      | nil => simp [List.infix_cons_iff] at hab
      | cons c ls =>
        rw [List.infix_cons_iff] at hab
        rcases hab with hab | hab
        · rw [List.cons_prefix_cons, List.cons_prefix_cons] at hab
          obtain ⟨rfl, rfl, -⟩ := hab
          obtain ⟨k1, k2⟩ := i3 b rfl
          rw [wQ, wQ, show b.P = .blk b.name b.p from rfl, wO b (by simp), wO b (by simp)]
          exact ⟨k1.symm, k2.symm⟩
        · have ha : a ∈ c :: ls := hab.subset (by simp)
          have hb : b ∈ c :: ls := hab.subset (by simp)
          rw [show a.Q = .blk a.name a.q from rfl, show b.P = .blk b.name b.p from rfl, wO a ha, wO a ha, wO b hb, wO b hb]
          exact i2 a b hab
    · obtain rfl : l = a := by simpa using ha
      exact ⟨wP .out, wP .inn⟩
    · cases ls with
      | nil =>
        obtain rfl : l = c := by simpa using hc
        rw [wQ, wQ]
        simp [TProd]
      | cons b ls =>
        rw [List.getLast?_cons_cons] at hc
        rw [show c.Q = .blk c.name c.q from rfl, wO c (List.mem_of_getLast? hc), wO c (List.mem_of_getLast? hc)]
        exact i4 c hc

theorem chain_unique_T [CharZero K] {net : Net K} {zb : K} {Sof : String → SMat K} {w w' : Wave → K} (hw : net.Laws zb Sof w) (hw' : net.Laws zb Sof w') :
    ∀ (ls : List Link) (a : Link), HasChain net (a :: ls) → (∀ l ∈ a :: ls, (Sof l.name).at 1 0 ≠ 0) →
      (∀ d, w (d, ((a :: ls).getLast (by simp)).Q) = w' (d, ((a :: ls).getLast (by simp)).Q)) →
      ∀ l ∈ a :: ls, ∀ d, w (d, l.P) = w' (d, l.P) ∧ w (d, l.Q) = w' (d, l.Q) := by
  intro ls
  have step : ∀ a : Link, (a.name, [a.p, a.q]) ∈ net.blks → (Sof a.name).at 1 0 ≠ 0 → (∀ d, w (d, a.Q) = w' (d, a.Q)) → ∀ d, w (d, a.P) = w' (d, a.P) := by
    intro a ha hT hq
    have h1 := (blockLaw_T hT).1 (hw.1 _ ha)
    have h2 := (blockLaw_T hT).1 (hw'.1 _ ha)
    change ![w (.out, a.P), w (.inn, a.P)] = (TMat _).mulVec ![w (.inn, a.Q), w (.out, a.Q)] at h1
    change ![w' (.out, a.P), w' (.inn, a.P)] = (TMat _).mulVec ![w' (.inn, a.Q), w' (.out, a.Q)] at h2
    rw [← hq, ← hq, ← h1] at h2
    intro d
    cases d with
    | inn => exact (congrFun h2 1).symm
    | out => exact (congrFun h2 0).symm
  induction ls with
  | nil =>
    intro a hc hT hq l hl d
    obtain rfl : l = a := by simpa using hl
    exact ⟨step l (hc.blks l (by simp)) (hT l (by simp)) hq d, hq d⟩
  | cons b ls ih =>
    intro a hc hT hq
    have hr := ih b ⟨fun l hl => hc.blks l (List.mem_cons_of_mem _ hl), hc.linked.2⟩ (fun l hl => hT l (List.mem_cons_of_mem _ hl))
      (by rw [List.getLast_cons (by simp)] at hq; exact hq)
    obtain ⟨j, hj, hn, hm⟩ := hc.linked.1
    obtain ⟨h3, h4⟩ := (two_junc hn hm).1 (hw.2.1.1 j hj)
    obtain ⟨h5, h6⟩ := (two_junc hn hm).1 (hw'.2.1.1 j hj)
    have haQ : ∀ d, w (d, a.Q) = w' (d, a.Q) := by
      intro d
      cases d with
      | inn => rw [h3, h5]; exact (hr b (by simp) .out).1
      | out => rw [h4, h6]; exact (hr b (by simp) .inn).1
    intro l hl d
    rw [List.mem_cons] at hl
    rcases hl with rfl | hl
    · exact ⟨step l (hc.blks l (by simp)) (hT l (by simp)) haQ d, haQ d⟩
    · exact hr l hl d

end

section
variable {K O F Fl : Type*} [Field K] [CharZero K] [DecidableEq F] [DecidableEq Fl]
variable {ops : ObjOps K O F Fl} {beh : O → F → K → Fl → Except Err (SMat K)} {nan zb : K} {names : List Node}
variable {net : Net K} {bh : Behave K F Fl} {s s' : St K O F Fl} {ph : Phase} {f : F} {fl : Fl} {S : SMat K} {Sof : String → SMat K}

theorem ends_ne (hlaw : Lawful ops beh) (h : Built ops beh nan zb names net bh s ph) (hs : getS ops s f none fl = (s', .ok S)) {x y : Node}
    (hports : s'.ports = [x, y]) : x ≠ y := by
  intro e
  have hinv := (Built.eval h hs).inv hlaw
  have hnd := hinv.rep.ports_perm.nodup_iff.2 (List.Nodup.filter _ hinv.rep.rep.nnd)
  rw [hports, e] at hnd
  simp at hnd

omit [CharZero K] in
theorem two_drive {laws : (Wave → K) → Prop} {nodes ports : List Node} (hsc : IsScattering laws nodes ports S) {x y : Node} (hports : ports = [x, y]) (hne : x ≠ y)
    (u v : K) : ∃ w, laws w ∧ w (.inn, x) = u ∧ w (.inn, y) = v := by
  obtain ⟨w, h1, h2⟩ := hsc.exists_sol fun n => if n = x then u else v
  rw [hports] at h2
  have e1 := h2 x (by simp)
  have e2 := h2 y (by simp)
  rw [if_pos rfl] at e1
  rw [if_neg (Ne.symm hne)] at e2
  exact ⟨w, h1, e1, e2⟩

omit [CharZero K] in
theorem two_out {laws : (Wave → K) → Prop} {nodes ports : List Node} (hsc : IsScattering laws nodes ports S) {x y : Node} (hports : ports = [x, y]) (w : Wave → K)
    (hw : laws w) : w (.out, x) = S.at 0 0 * w (.inn, x) + S.at 0 1 * w (.inn, y) ∧ w (.out, y) = S.at 1 0 * w (.inn, x) + S.at 1 1 * w (.inn, y) := by
  have := hsc.out w hw
  subst hports
  simp only [List.length_cons, List.length_nil] at this
  rw [Fin.forall_fin_two] at this
  simpa [Fin.sum_univ_two] using this

/-- **C86 (chain).** In a circuit that contains a chain of two-ports, each connected to the next, whose external ports are the two ends of the chain, the transmission
matrix of the answer is the product of those of the two-ports, in the order of the chain. (All the two-ports transmit forward.) -/
theorem C86_chain (hlaw : Lawful ops beh) (h : Built ops beh nan zb names net bh s ph) (hph : ph ≠ .reloaded)
    (hs : getS ops s f none fl = (s', .ok S)) (hS : Given net bh f zb fl Sof) {a : Link} {ls : List Link} (hc : HasChain net (a :: ls))
    (hports : s'.ports = [a.P, ((a :: ls).getLast (by simp)).Q]) (hT : ∀ l ∈ a :: ls, (Sof l.name).at 1 0 ≠ 0) :
    S.n = 2 ∧ S.at 1 0 ≠ 0 ∧ TMat S = TProd Sof (a :: ls) := by
  have hsc := (C20_getS_sound hlaw h hph hs).2 Sof hS
  have hsz := hsc.size
  have key := fun w hw => chain_T (zb := zb) (Sof := Sof) (w := w) hw ls a hc hT
  generalize (a :: ls).getLast (by simp) = c at hports key
  generalize TProd Sof (a :: ls) = P at key
  have hne : a.P ≠ c.Q := ends_ne hlaw h hs hports
  have key2 : ∀ w, net.Laws zb Sof w → w (.out, a.P) = P 0 0 * w (.inn, c.Q) + P 0 1 * w (.out, c.Q) ∧
      w (.inn, a.P) = P 1 0 * w (.inn, c.Q) + P 1 1 * w (.out, c.Q) := by
    intro w hw
    have e := key w hw
    have h1 := congrFun e 0
    have h2 := congrFun e 1
    simp [Matrix.mulVec, dotProduct, Fin.sum_univ_two] at h1 h2
    exact ⟨h1, h2⟩
  obtain ⟨w, hw, e1, e2⟩ := two_drive hsc hports hne 1 0
  obtain ⟨u, hu, f1, f2⟩ := two_drive hsc hports hne 0 1
  obtain ⟨o1, o2⟩ := two_out hsc hports w hw
  obtain ⟨o3, o4⟩ := two_out hsc hports u hu
  obtain ⟨k1, k2⟩ := key2 w hw
  obtain ⟨k3, k4⟩ := key2 u hu
  rw [e1, e2] at o1 o2 k2
  rw [e2] at k1
  rw [f1, f2] at o3 o4 k4
  rw [f2] at k3
  simp only [mul_one, mul_zero, add_zero, zero_add] at o1 o2 o3 o4 k1 k2 k3 k4
  rw [o2] at k1 k2
  rw [o4] at k3 k4
  rw [o1] at k1
  rw [o3] at k3
  have h10 : S.at 1 0 ≠ 0 := by
    intro e
    rw [e, mul_zero] at k2
    exact one_ne_zero k2
  refine ⟨by rw [hsz, hports]; rfl, h10, ?_⟩
  have p11 : P 1 1 = 1 / S.at 1 0 := by rw [eq_div_iff h10]; exact k2.symm
  have p01 : P 0 1 = S.at 0 0 / S.at 1 0 := by rw [eq_div_iff h10]; exact k1.symm
  have p10 : P 1 0 = -S.at 1 1 / S.at 1 0 := by
    rw [eq_div_iff h10]
    rw [p11] at k4
    field_simp at k4
    linear_combination -k4
  have p00 : P 0 0 = -(S.at 0 0 * S.at 1 1 - S.at 0 1 * S.at 1 0) / S.at 1 0 := by
    rw [eq_div_iff h10]
    rw [p01] at k3
    field_simp at k3
    linear_combination -k3
  unfold TMat
  ext i j
  fin_cases i <;> fin_cases j
  · exact p00.symm
  · exact p01.symm
  · exact p10.symm
  · exact p11.symm

/-- **C86 (matched chain).** If the two-ports are matched (no reflections), so is the chain, and its transmissions are the products of theirs. -/
theorem C86_matched (hlaw : Lawful ops beh) (h : Built ops beh nan zb names net bh s ph) (hph : ph ≠ .reloaded)
    (hs : getS ops s f none fl = (s', .ok S)) (hS : Given net bh f zb fl Sof) {a : Link} {ls : List Link} (hc : HasChain net (a :: ls))
    (hports : s'.ports = [a.P, ((a :: ls).getLast (by simp)).Q]) (hT : ∀ l ∈ a :: ls, (Sof l.name).at 0 0 = 0 ∧ (Sof l.name).at 1 1 = 0) :
    S.at 0 0 = 0 ∧ S.at 1 1 = 0 ∧ S.at 1 0 = ((a :: ls).map fun l => (Sof l.name).at 1 0).prod ∧
      S.at 0 1 = ((a :: ls).map fun l => (Sof l.name).at 0 1).prod := by
  have hsc := (C20_getS_sound hlaw h hph hs).2 Sof hS
  have key := fun w hw => chain_matched (zb := zb) (Sof := Sof) (w := w) hw ls a hc hT
  generalize (a :: ls).getLast (by simp) = c at hports key
  have hne : a.P ≠ c.Q := ends_ne hlaw h hs hports
  obtain ⟨w, hw, e1, e2⟩ := two_drive hsc hports hne 1 0
  obtain ⟨u, hu, f1, f2⟩ := two_drive hsc hports hne 0 1
  obtain ⟨o1, o2⟩ := two_out hsc hports w hw
  obtain ⟨o3, o4⟩ := two_out hsc hports u hu
  obtain ⟨k1, k2⟩ := key w hw
  obtain ⟨k3, k4⟩ := key u hu
  rw [e1, e2] at o1 o2
  rw [f1, f2] at o3 o4
  rw [e1] at k1
  rw [e2] at k2
  rw [f1] at k3
  rw [f2] at k4
  simp only [mul_one, mul_zero, add_zero, zero_add] at o1 o2 o3 o4 k1 k2 k3 k4
  exact ⟨o1 ▸ k2, o4 ▸ k3, o2 ▸ k1, o3 ▸ k4⟩

/-- **C86 (when a chain answers).** A circuit that is nothing but a chain of two-ports that transmit forward answers exactly if the product of their transmission matrices
has a non-zero last entry (the forward transmission of the chain is finite). -/
theorem C86_answers (hlaw : Lawful ops beh) (h : Built ops beh nan zb names net bh s ph) (hph : ph ≠ .reloaded)
    (hS : Given net bh f zb fl Sof) {a : Link} {ls : List Link} (hc : IsChainNet net (a :: ls))
    (hfree : net.free = [a.P, ((a :: ls).getLast (by simp)).Q]) (hnames : s.names = [] ∨ s.names.Perm net.free)
    (hT : ∀ l ∈ a :: ls, (Sof l.name).at 1 0 ≠ 0) :
    (∃ s' S, getS ops s f none fl = (s', .ok S)) ↔ TProd Sof (a :: ls) 1 1 ≠ 0 := by
  rw [C20_getS_complete hlaw h hph hS (by rw [hfree]; simp) hnames, hfree]
  have hlast : (a :: ls).getLast? = some ((a :: ls).getLast (by simp)) := List.getLast?_eq_getLast_of_ne_nil (by simp)
  have key := fun w hw => chain_T (zb := zb) (Sof := Sof) (w := w) hw ls a hc.toHasChain hT
  have uni := fun w w' hw hw' => chain_unique_T (zb := zb) (Sof := Sof) (w := w) (w' := w') hw hw' ls a hc.toHasChain hT
  have hmem : (a :: ls).getLast (by simp) ∈ a :: ls := List.getLast_mem _
  generalize (a :: ls).getLast (by simp) = c at *
  have hne : a.P ≠ c.Q := by
    intro e
    have : net.free.Nodup := List.Nodup.filter _ (h.inv hlaw).rep.rep.nnd
    rw [hfree, e] at this
    simp at this
  have key2 : ∀ w, net.Laws zb Sof w → w (.inn, a.P) = TProd Sof (a :: ls) 1 0 * w (.inn, c.Q) + TProd Sof (a :: ls) 1 1 * w (.out, c.Q) := by
    intro w hw
    have := congrFun (key w hw) 1
    simpa [Matrix.mulVec, dotProduct, Fin.sum_univ_two] using this
  constructor
  · intro H e
    obtain ⟨w, hw, h1⟩ := H.exists_sol fun n => if n = a.P then 1 else 0
    have e1 := h1 a.P (by simp)
    have e2 := h1 c.Q (by simp)
    rw [if_pos rfl] at e1
    rw [if_neg (Ne.symm hne)] at e2
    have := key2 w hw
    rw [e1, e2, e] at this
    simp at this
  · intro hP
    refine ⟨fun e => ?_, fun w w' hw hw' hp => ?_⟩
    · let x : Fin 2 → K := ![e c.Q, (e a.P - TProd Sof (a :: ls) 1 0 * e c.Q) / TProd Sof (a :: ls) 1 1]
      obtain ⟨l1, l2, l3, l4⟩ := waveAt_laws (Sof := Sof) (x := x) hc.names hc.ports hT
      refine ⟨waveAt Sof x (a :: ls), ⟨fun y hy => ?_, ⟨fun j hj => ?_, by simp [hc.crosses], by simp [hc.sames]⟩, by simp [hc.loads]⟩, fun p hp => ?_⟩
      · obtain ⟨l, hl, rfl⟩ := hc.only_blks y hy
        exact l1 l hl
      · obtain ⟨u, v, huv, hn, hm⟩ := hc.only_juncs j hj
        exact (two_junc hn hm).2 (l2 u v huv)
      · simp only [List.mem_cons, List.not_mem_nil, or_false] at hp
        rcases hp with rfl | rfl
        · rw [(l3 a rfl).2]
          simp only [Matrix.mulVec, dotProduct, Fin.sum_univ_two, x]
          simp only [Matrix.cons_val_zero, Matrix.cons_val_one]
          field_simp
          ring
        · rw [(l4 c hlast).1]
          rfl
    · have hq : ∀ d, w (d, c.Q) = w' (d, c.Q) := by
        have q1 := hp c.Q (by simp)
        have q2 := hp a.P (by simp)
        rw [key2 w hw, key2 w' hw', q1] at q2
        intro d
        cases d with
        | inn => exact q1
        | out => exact mul_left_cancel₀ hP (add_left_cancel q2)
      intro n hn d
      obtain ⟨l, hl, hnl⟩ := hc.only_nodes n hn
      have := uni w w' hw hw' hq l hl d
      rcases hnl with rfl | rfl
      · exact this.1
      · exact this.2

/-- **C86 (two two-ports).** A circuit of two two-ports, the second port of `a` connected to the first of `b`, answers exactly if the reflections between them do not add
up without bound, `1 - Sa22 Sb11 ≠ 0`; then its entries are those of the well-known formula, also if one of the two does not transmit. -/
theorem C86_pair (hlaw : Lawful ops beh) (h : Built ops beh nan zb names net bh s ph) (hph : ph ≠ .reloaded)
    (hS : Given net bh f zb fl Sof) {a b : Link} (hc : IsChainNet net [a, b]) (hfree : net.free = [a.P, b.Q]) (hnames : s.names = []) :
    ((∃ s' S, getS ops s f none fl = (s', .ok S)) ↔ 1 - (Sof a.name).at 1 1 * (Sof b.name).at 0 0 ≠ 0) ∧
    ∀ s' S, getS ops s f none fl = (s', .ok S) → s'.ports = [a.P, b.Q] →
      S.at 0 0 = (Sof a.name).at 0 0 + (Sof a.name).at 0 1 * (Sof b.name).at 0 0 * (Sof a.name).at 1 0 / (1 - (Sof a.name).at 1 1 * (Sof b.name).at 0 0) ∧
      S.at 0 1 = (Sof a.name).at 0 1 * (Sof b.name).at 0 1 / (1 - (Sof a.name).at 1 1 * (Sof b.name).at 0 0) ∧
      S.at 1 0 = (Sof b.name).at 1 0 * (Sof a.name).at 1 0 / (1 - (Sof a.name).at 1 1 * (Sof b.name).at 0 0) ∧
      S.at 1 1 = (Sof b.name).at 1 1 + (Sof b.name).at 1 0 * (Sof a.name).at 1 1 * (Sof b.name).at 0 1 / (1 - (Sof a.name).at 1 1 * (Sof b.name).at 0 0) := by
  have hans := C20_getS_complete hlaw h hph hS (by rw [hfree]; simp) (Or.inl hnames)
  rw [hfree] at hans
  have hab : a.name ≠ b.name := by have := hc.names; simpa using this
  have haa : a.P ≠ a.Q := fun e => hc.ports a (by simp) (by injection e)
  have hbb : b.P ≠ b.Q := fun e => hc.ports b (by simp) (by injection e)
  have hX : ∀ x y, Node.blk a.name x ≠ Node.blk b.name y := fun x y e => hab (by injection e)
  have laws : ∀ w, net.Laws zb Sof w ↔ (w (.inn, a.Q) = w (.out, b.P) ∧ w (.out, a.Q) = w (.inn, b.P)) ∧
      (w (.out, a.P) = (Sof a.name).at 0 0 * w (.inn, a.P) + (Sof a.name).at 0 1 * w (.inn, a.Q) ∧
        w (.out, a.Q) = (Sof a.name).at 1 0 * w (.inn, a.P) + (Sof a.name).at 1 1 * w (.inn, a.Q)) ∧
      (w (.out, b.P) = (Sof b.name).at 0 0 * w (.inn, b.P) + (Sof b.name).at 0 1 * w (.inn, b.Q) ∧
        w (.out, b.Q) = (Sof b.name).at 1 0 * w (.inn, b.P) + (Sof b.name).at 1 1 * w (.inn, b.Q)) := by
    intro w
    constructor
    · intro hw
      obtain ⟨j, hj, hn, hm⟩ := hc.linked.1
      exact ⟨(two_junc hn hm).1 (hw.2.1.1 j hj), blockLaw_two.1 (hw.1 _ (hc.blks a (by simp))), blockLaw_two.1 (hw.1 _ (hc.blks b (by simp)))⟩
    · rintro ⟨h1, h2, h3⟩
      refine ⟨fun y hy => ?_, ⟨fun j hj => ?_, by simp [hc.crosses], by simp [hc.sames]⟩, by simp [hc.loads]⟩
      · obtain ⟨l, hl, rfl⟩ := hc.only_blks y hy
        simp only [List.mem_cons, List.not_mem_nil, or_false] at hl
        rcases hl with rfl | rfl
        · exact blockLaw_two.2 h2
        · exact blockLaw_two.2 h3
      · obtain ⟨u, v, huv, hn, hm⟩ := hc.only_juncs j hj
        obtain ⟨rfl, rfl⟩ : u = a ∧ v = b := by
          have := huv.eq_of_length rfl
          simpa using this
        exact (two_junc hn hm).2 h1
  generalize hA : Sof a.name = A at *
  generalize hB : Sof b.name = B at *
  -- the waves in terms of the wave `v` between the two
  have mk : ∀ x y v : K, (1 - A.at 1 1 * B.at 0 0) * v = A.at 1 0 * x + A.at 1 1 * B.at 0 1 * y → ∃ w, net.Laws zb Sof w ∧
      w (.inn, a.P) = x ∧ w (.inn, b.Q) = y ∧ w (.inn, b.P) = v := by
    intro x y v hv
    let w : Wave → K := fun z => match z with
      | (.inn, n) => if n = a.P then x else if n = b.Q then y else if n = b.P then v else B.at 0 0 * v + B.at 0 1 * y
      | (.out, n) => if n = a.P then A.at 0 0 * x + A.at 0 1 * (B.at 0 0 * v + B.at 0 1 * y) else if n = b.Q then B.at 1 0 * v + B.at 1 1 * y
          else if n = b.P then B.at 0 0 * v + B.at 0 1 * y else v
    have n1 : a.Q ≠ a.P := haa.symm
    have n2 : a.Q ≠ b.Q := hX _ _
    have n3 : a.Q ≠ b.P := hX _ _
    have n4 : b.Q ≠ a.P := (hX _ _).symm
    have n5 : b.P ≠ a.P := (hX _ _).symm
    refine ⟨w, (laws w).2 ?_, ?_, ?_, ?_⟩
    · simp only [w, if_neg n1, if_neg n2, if_neg n3, if_neg n4, if_neg n5, if_neg hbb, if_true, true_and, and_true]
      linear_combination hv
    · simp [w]
    · simp [w, n4]
    · simp [w, n5, hbb]
  have hv : ∀ w, net.Laws zb Sof w → (1 - A.at 1 1 * B.at 0 0) * w (.inn, b.P) = A.at 1 0 * w (.inn, a.P) + A.at 1 1 * B.at 0 1 * w (.inn, b.Q) := by
    intro w hw
    obtain ⟨⟨h1, h2⟩, ⟨h3, h4⟩, h5, h6⟩ := (laws w).1 hw
    rw [h1, h2, h5] at h4
    linear_combination h4
  have hsolv : Solvable (net.Laws zb Sof) net.nodes [a.P, b.Q] ↔ 1 - A.at 1 1 * B.at 0 0 ≠ 0 := by
    constructor
    · intro H e
      obtain ⟨w, hw, w1, w2, w3⟩ := mk 0 0 1 (by rw [e]; ring)
      obtain ⟨u, hu, u1, u2, u3⟩ := mk 0 0 0 (by ring)
      have hbP : b.P ∈ net.nodes := by
        have hrep := (h.inv hlaw).rep
        have := hc.blks b (by simp)
        obtain ⟨j, hj, hn, hm⟩ := hc.linked.1
        refine hrep.nodes_split.mem_iff.2 (List.mem_append_left _ ?_)
        unfold Net.used
        simp only [List.mem_append]
        exact .inl (.inl (.inl (List.mem_flatMap.2 ⟨j, hj, hm.mem_iff.2 (by simp)⟩)))
      have := H.unique w u hw hu (by
        intro p hp
        simp only [List.mem_cons, List.not_mem_nil, or_false] at hp
        rcases hp with rfl | rfl
        · rw [w1, u1]
        · rw [w2, u2]) b.P hbP .inn
      rw [w3, u3] at this
      exact one_ne_zero this
    · intro hD
      refine ⟨fun e => ?_, fun w w' hw hw' hp n hn d => ?_⟩
      · obtain ⟨w, hw, w1, w2, -⟩ := mk (e a.P) (e b.Q) ((A.at 1 0 * e a.P + A.at 1 1 * B.at 0 1 * e b.Q) / (1 - A.at 1 1 * B.at 0 0)) (by field_simp)
        refine ⟨w, hw, fun p hp => ?_⟩
        simp only [List.mem_cons, List.not_mem_nil, or_false] at hp
        rcases hp with rfl | rfl
        · exact w1
        · exact w2
      · have p1 := hp a.P (by simp)
        have p2 := hp b.Q (by simp)
        have p3 : w (.inn, b.P) = w' (.inn, b.P) := by
          refine mul_left_cancel₀ hD ?_
          rw [hv w hw, hv w' hw', p1, p2]
        obtain ⟨⟨h1, h2⟩, ⟨h3, h4⟩, h5, h6⟩ := (laws w).1 hw
        obtain ⟨⟨g1, g2⟩, ⟨g3, g4⟩, g5, g6⟩ := (laws w').1 hw'
        have q1 : w (.out, b.P) = w' (.out, b.P) := by rw [h5, g5, p2, p3]
        have q2 : w (.out, b.Q) = w' (.out, b.Q) := by rw [h6, g6, p2, p3]
        have q3 : w (.inn, a.Q) = w' (.inn, a.Q) := by rw [h1, g1, q1]
        have q4 : w (.out, a.Q) = w' (.out, a.Q) := by rw [h2, g2, p3]
        have q5 : w (.out, a.P) = w' (.out, a.P) := by rw [h3, g3, p1, q3]
        obtain ⟨l, hl, hnl⟩ := hc.only_nodes n hn
        simp only [List.mem_cons, List.not_mem_nil, or_false] at hl
        rcases hl with rfl | rfl <;> rcases hnl with rfl | rfl <;> cases d <;> assumption
  refine ⟨hans.trans hsolv, fun s' S hs hports => ?_⟩
  have hD := hsolv.1 (hans.1 ⟨s', S, hs⟩)
  have hsc := (C20_getS_sound hlaw h hph hs).2 Sof hS
  have hne : a.P ≠ b.Q := hX _ _
  obtain ⟨w, hw, e1, e2⟩ := two_drive hsc hports hne 1 0
  obtain ⟨u, hu, f1, f2⟩ := two_drive hsc hports hne 0 1
  obtain ⟨o1, o2⟩ := two_out hsc hports w hw
  obtain ⟨o3, o4⟩ := two_out hsc hports u hu
  have v1 := hv w hw
  have v2 := hv u hu
  obtain ⟨⟨h1, h2⟩, ⟨h3, h4⟩, h5, h6⟩ := (laws w).1 hw
  obtain ⟨⟨g1, g2⟩, ⟨g3, g4⟩, g5, g6⟩ := (laws u).1 hu
  rw [e1, e2] at o1 o2 v1
  rw [f1, f2] at o3 o4 v2
  rw [e1] at h3
  rw [e2] at h5 h6
  rw [f1] at g3
  rw [f2] at g5 g6
  simp only [mul_one, mul_zero, add_zero, zero_add] at *
  have x1 : w (.inn, b.P) = A.at 1 0 / (1 - A.at 1 1 * B.at 0 0) := by rw [eq_div_iff hD, mul_comm]; exact v1
  have x2 : u (.inn, b.P) = A.at 1 1 * B.at 0 1 / (1 - A.at 1 1 * B.at 0 0) := by rw [eq_div_iff hD, mul_comm]; exact v2
  refine ⟨?_, ?_, ?_, ?_⟩
  · rw [← o1, h3, h1, h5, x1]; ring
  · rw [eq_div_iff hD, ← o3, g3, g1, g5]; linear_combination A.at 0 1 * B.at 0 0 * v2
  · rw [← o2, h6, x1]; ring
  · rw [← o4, g6, x2]; ring

end

/-! ## witness: three two-ports in a row -/

namespace ExChain
open Ex

def c3 : E := (addblock o 0 s2 "C" (two mA) .none 2).1
def c4 : E := (connect o c3 [.blk "A" "2", .blk "B" "1"]).1
def c5 : E := (connect o c4 [.blk "C" "1", .blk "B" "2"]).1

def net : Net ℚ where
  blks := [("A", ["1", "2"]), ("B", ["1", "2"]), ("C", ["1", "2"])]
  nodes := [.blk "A" "1", .blk "A" "2", .blk "B" "1", .blk "B" "2", .blk "C" "1", .blk "C" "2"]
  juncs := [⟨[.blk "A" "2", .blk "B" "1"], none⟩, ⟨[.blk "C" "1", .blk "B" "2"], none⟩]
  loads := []
  crosses := []
  sames := []

theorem built : ∃ bh, Built o Imm.beh 0 50 [] net bh c5 .building ∧ bh "A" = (two mA).beh ∧ bh "B" = (two mB).beh ∧ bh "C" = (two mA).beh := by
  have h0 : Built o Imm.beh 0 50 [] Net.empty (fun _ _ _ _ => .error .valueError) s0 .building := Built.init _
  have h1 := Built.addblock h0 (by decide) (ports := ["1", "2"]) (by decide) (by decide) step1
  have h2 := Built.addblock h1 (by decide) (ports := ["1", "2"]) (by decide) (by decide) step2
  have h3 := Built.addblock h2 (by decide) (ports := ["1", "2"]) (by decide) (by decide)
    (show addblock o 0 s2 "C" (two mA) .none 2 = (c3, .ok ()) from Prod.ext rfl rfl)
  have h4 := Built.connect h3 (show connect o c3 [.blk "A" "2", .blk "B" "1"] = (c4, .ok ()) from Prod.ext rfl rfl)
  have h5 := Built.connect h4 (show connect o c4 [.blk "C" "1", .blk "B" "2"] = (c5, .ok ()) from Prod.ext rfl rfl)
  exact ⟨_, h5, rfl, rfl, rfl⟩

def A : Link := ⟨"A", "1", "2"⟩
def B : Link := ⟨"B", "1", "2"⟩
def C : Link := ⟨"C", "1", "2"⟩

def Sof : String → SMat ℚ := fun b => if b = "B" then ⟨2, mB⟩ else ⟨2, mA⟩

theorem is_chain : IsChainNet net [A, B, C] where
  blks := by decide
  linked := ⟨⟨_, List.mem_cons_self .., rfl, by decide⟩, ⟨_, List.mem_cons_of_mem _ (List.mem_cons_self ..), rfl, by decide⟩, trivial⟩
  only_blks := by
    intro x hx
    simp only [net, List.mem_cons, List.not_mem_nil, or_false] at hx
    rcases hx with rfl | rfl | rfl
    · exact ⟨A, by simp, rfl⟩
    · exact ⟨B, by simp, rfl⟩
    · exact ⟨C, by simp, rfl⟩
  only_juncs := by
    intro x hx
    simp only [net, List.mem_cons, List.not_mem_nil, or_false] at hx
    rcases hx with rfl | rfl
    · exact ⟨A, B, ⟨[], [C], rfl⟩, rfl, by decide⟩
    · exact ⟨B, C, ⟨[A], [], rfl⟩, rfl, by decide⟩
  only_nodes := by
    intro x hx
    simp only [net, List.mem_cons, List.not_mem_nil, or_false] at hx
    rcases hx with rfl | rfl | rfl | rfl | rfl | rfl
    · exact ⟨A, by simp, .inl rfl⟩
    · exact ⟨A, by simp, .inr rfl⟩
    · exact ⟨B, by simp, .inl rfl⟩
    · exact ⟨B, by simp, .inr rfl⟩
    · exact ⟨C, by simp, .inl rfl⟩
    · exact ⟨C, by simp, .inr rfl⟩
  names := by decide
  ports := by
    intro l hl
    simp only [List.mem_cons, List.not_mem_nil, or_false] at hl
    rcases hl with rfl | rfl | rfl <;> decide
  loads := rfl
  crosses := rfl
  sames := rfl

theorem transmit : ∀ l ∈ [A, B, C], (Sof l.name).at 1 0 ≠ 0 := by
  intro l hl
  simp only [List.mem_cons, List.not_mem_nil, or_false] at hl
  have hA : (⟨2, mA⟩ : SMat ℚ).at 1 0 ≠ 0 := by norm_num [SMat.at, mA]
  have hB : (⟨2, mB⟩ : SMat ℚ).at 1 0 ≠ 0 := by norm_num [SMat.at, mB]
  rcases hl with rfl | rfl | rfl
  · exact hA
  · exact hB
  · exact hA

/-- C86_answers and C86_chain apply: the three two-ports in a row answer with the product of the transmission matrices -/
theorem C86_witness : ∃ s' S, getS o c5 () none () = (s', .ok S) ∧ S.at 1 0 ≠ 0 ∧ TMat S = TProd Sof [A, B, C] ∧ TProd Sof [A, B, C] 1 1 = 6 := by
  obtain ⟨bh, h, hA, hB, hC⟩ := built
  have hl := imm_lawful ℚ Unit Unit
  have hG : Given net bh () 50 () Sof := by
    intro x hx
    simp only [net, List.mem_cons, List.not_mem_nil, or_false] at hx
    rcases hx with rfl | rfl | rfl
    · rw [hA]; rfl
    · rw [hB]; rfl
    · rw [hC]; rfl
  have hfree : net.free = [A.P, C.Q] := by decide
  have hP : TProd Sof [A, B, C] 1 1 = 6 := by
    have e : TProd Sof [A, B, C] = TMat ⟨2, mA⟩ * (TMat ⟨2, mB⟩ * TMat ⟨2, mA⟩) := by
      simp only [TProd, List.map_cons, List.map_nil, List.prod_cons, List.prod_nil, mul_one]
      rfl
    have tA : TMat (⟨2, mA⟩ : SMat ℚ) = !![1/2, 0; 0, 2] := by
      unfold TMat
      ext i j
      fin_cases i <;> fin_cases j <;> norm_num [SMat.at, mA]
    have tB : TMat (⟨2, mB⟩ : SMat ℚ) = !![5/6, 1/2; 1/2, 3/2] := by
      unfold TMat
      ext i j
      fin_cases i <;> fin_cases j <;> norm_num [SMat.at, mB]
    rw [e, tA, tB]
    norm_num [Matrix.mul_apply, Fin.sum_univ_two]
  obtain ⟨s', S, hs⟩ := (C86_answers hl h (by decide) hG is_chain hfree (Or.inl rfl) transmit).2 (by rw [hP]; norm_num)
  have hp : s'.ports = [A.P, C.Q] := by
    have := (C29_ports hl (Built.eval h hs)).2.1 (Or.inr rfl)
    rw [this]; exact hfree
  obtain ⟨-, h1, h2⟩ := C86_chain hl h (by decide) hs hG is_chain.toHasChain hp transmit
  exact ⟨s', S, hs, h1, h2, hP⟩

end ExChain
end PyRFtk.Circuit
