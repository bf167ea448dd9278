import Verif.CircuitShare
import Verif.Chain
import Verif.CircuitSolEx
import Verif.CircuitExamples
import Verif.CircuitProps2
import Mathlib.Tactic.FieldSimp
import Mathlib.Tactic.LinearCombination
import Mathlib.LinearAlgebra.Matrix.Notation

/-!
# C87: the formulas for loading a port and for joining two ports

The model is `CircuitModel` (rfCircuit.py terminate 870-985, connect 767-923, get1S/getS 1197-1345); the entry of a matrix between two of the ports is `SMat.between`.
-/

set_option linter.unusedSectionVars false

namespace PyRFtk.Circuit

section
variable {K : Type*} [Field K]

/-! ## specification -/

/-- the reflection coefficient of a load on the reference `zb`; the matrix entry between two ports is `SMat.between` -/
def Load.reflection (zb : K) : Load K → K
  | .Z z => (z - zb) / (z + zb)
  | .Y y => (1 - y * zb) / (1 + y * zb)
  | .RC r => r

/-! ## networks -/

theorem out_between {laws : (Wave → K) → Prop} {nodes ports : List Node} {S : SMat K} (h : IsScattering laws nodes ports S) (hnd : ports.Nodup) {w : Wave → K} (hw : laws w)
    {q : Node} (hq : q ∈ ports) : w (.out, q) = (ports.map fun r => S.between ports q r * w (.inn, r)).sum := by
  have key := h.out w hw ⟨idx ports q, idx_lt hq⟩
  have e1 : ports[(⟨idx ports q, idx_lt hq⟩ : Fin ports.length)] = q := by simp [idx]
  rw [e1] at key
  rw [key, ← Fin.sum_univ_fun_getElem]
  refine Finset.sum_congr rfl fun j _ => ?_
  have : idx ports ports[j] = j := by
    unfold idx
    exact hnd.idxOf_getElem j.1 j.2
  unfold SMat.between
  rw [show ports[j.1] = ports[j] from rfl, this]

theorem between_of_drive {laws : (Wave → K) → Prop} {nodes ports : List Node} {S : SMat K} (h : IsScattering laws nodes ports S) (hnd : ports.Nodup) {w : Wave → K} (hw : laws w)
    {q r : Node} (hq : q ∈ ports) (hr : r ∈ ports) (h1 : ∀ p ∈ ports, w (.inn, p) = if p = r then 1 else 0) : S.between ports q r = w (.out, q) := by
  rw [out_between h hnd hw hq]
  have : (ports.map fun p => S.between ports q p * w (.inn, p)) = ports.map fun p => if p = r then S.between ports q r else 0 := by
    refine List.map_congr_left fun p hp => ?_
    rw [h1 p hp]
    by_cases e : p = r
    · simp [e]
    · simp [e]
  rw [this, List.sum_map_ite_eq]
  simp [List.count_eq_one_of_mem hnd hr]

/-- a load at one of the ports -/
theorem net_load {laws laws' : (Wave → K) → Prop} {nodes ports ports' : List Node} {S : SMat K} {p : Node} {r : K} (h : IsScattering laws nodes ports S)
    (hl : ∀ w, laws' w ↔ laws w ∧ w (.inn, p) = r * w (.out, p)) (hperm : ports.Perm (p :: ports')) (hnd : ports.Nodup) (hp : p ∈ nodes) :
    (Solvable laws' nodes ports' ↔ 1 - r * S.between ports p p ≠ 0) ∧
    ∀ S', IsScattering laws' nodes ports' S' → ∀ a ∈ ports', ∀ b ∈ ports', S'.between ports' a b =
      S.between ports a b + S.between ports a p * r * S.between ports p b / (1 - r * S.between ports p p) := by
  have hpp : p ∈ ports := hperm.mem_iff.2 (by simp)
  have hnd2 := hperm.nodup_iff.1 hnd
  have hnp : p ∉ ports' := (List.nodup_cons.1 hnd2).1
  have hnd' : ports'.Nodup := (List.nodup_cons.1 hnd2).2
  have hout : ∀ w, laws w → ∀ q ∈ ports, w (.out, q) = S.between ports q p * w (.inn, p) + (ports'.map fun x => S.between ports q x * w (.inn, x)).sum := by
    intro w hw q hq
    rw [out_between h hnd hw hq, (hperm.map _).sum_eq]
    simp
  have key : Solvable laws' nodes ports' ↔ 1 - r * S.between ports p p ≠ 0 := by
    constructor
    · intro H hd
      obtain ⟨w, h1, h2⟩ := h.exists_sol fun q => if q = p then 1 else 0
      obtain ⟨w0, h3, h4⟩ := h.exists_sol fun _ => 0
      have e : ∀ q ∈ ports', w (.inn, q) = 0 := fun q hq => by
        rw [h2 q (hperm.mem_iff.2 (by simp [hq])), if_neg]; rintro rfl; exact hnp hq
      have e0 : ∀ q ∈ ports', w0 (.inn, q) = 0 := fun q hq => h4 q (hperm.mem_iff.2 (by simp [hq]))
      have z : ∀ u : Wave → K, (∀ q ∈ ports', u (.inn, q) = 0) → (ports'.map fun x => S.between ports p x * u (.inn, x)).sum = 0 := by
        intro u hu
        rw [List.sum_eq_zero]
        intro y hy
        obtain ⟨x, hx, rfl⟩ := List.mem_map.1 hy
        rw [hu x hx, mul_zero]
      have o1 := hout w h1 p hpp
      have o2 := hout w0 h3 p hpp
      have i1 := h2 p hpp
      have i2 := h4 p hpp
      rw [if_pos rfl] at i1
      rw [z w e, i1] at o1
      rw [z w0 e0, i2] at o2
      have u := H.unique w w0 ((hl w).2 ⟨h1, by rw [i1, o1]; linear_combination hd⟩) ((hl w0).2 ⟨h3, by rw [i2, o2]; ring⟩) (fun q hq => (e q hq).trans (e0 q hq).symm) p hp .inn
      rw [i1, i2] at u
      exact one_ne_zero u
    · intro hd
      refine ⟨fun a => ?_, fun w w' hw hw' heq n hn d => ?_⟩
      · obtain ⟨w, h1, h2⟩ := h.exists_sol fun q => if q = p then r * (ports'.map fun x => S.between ports p x * a x).sum / (1 - r * S.between ports p p) else a q
        have e : ∀ q ∈ ports', w (.inn, q) = a q := fun q hq => by
          rw [h2 q (hperm.mem_iff.2 (by simp [hq])), if_neg]; rintro rfl; exact hnp hq
        refine ⟨w, (hl w).2 ⟨h1, ?_⟩, e⟩
        have o1 := hout w h1 p hpp
        have i1 := h2 p hpp
        rw [if_pos rfl] at i1
        have : (ports'.map fun x => S.between ports p x * w (.inn, x)) = ports'.map fun x => S.between ports p x * a x :=
          List.map_congr_left fun x hx => by rw [e x hx]
        rw [this] at o1
        rw [o1, i1]
        field_simp
        ring
      · obtain ⟨h1, l1⟩ := (hl w).1 hw
        obtain ⟨h2, l2⟩ := (hl w').1 hw'
        refine h.unique w w' h1 h2 (fun q hq => ?_) n hn d
        have hq := hperm.mem_iff.1 hq
        rw [List.mem_cons] at hq
        rcases hq with rfl | hq
        · have o1 := hout w h1 q hpp
          have o2 := hout w' h2 q hpp
          have : (ports'.map fun x => S.between ports q x * w (.inn, x)) = ports'.map fun x => S.between ports q x * w' (.inn, x) :=
            List.map_congr_left fun x hx => by rw [heq x hx]
          rw [this] at o1
          refine mul_left_cancel₀ hd ?_
          linear_combination l1 - l2 + r * o1 - r * o2
        · exact heq q hq
  refine ⟨key, fun S' h' a ha b hb => ?_⟩
  have hd := key.1 h'.toSolvable
  obtain ⟨w, h1, h2⟩ := h'.exists_sol fun q => if q = b then 1 else 0
  obtain ⟨h3, l3⟩ := (hl w).1 h1
  rw [between_of_drive h' hnd' h1 ha hb h2]
  have sm : ∀ q, (ports'.map fun x => S.between ports q x * w (.inn, x)).sum = S.between ports q b := by
    intro q
    have : (ports'.map fun x => S.between ports q x * w (.inn, x)) = ports'.map fun x => if x = b then S.between ports q b else 0 := by
      refine List.map_congr_left fun x hx => ?_
      rw [h2 x hx]
      by_cases e : x = b
      · simp [e]
      · simp [e]
    rw [this, List.sum_map_ite_eq]
    simp [List.count_eq_one_of_mem hnd' hb]
  have o1 := hout w h3 p hpp
  have o2 := hout w h3 a (hperm.mem_iff.2 (by simp [ha]))
  rw [sm] at o1 o2
  rw [o2]
  have : (1 - r * S.between ports p p) * w (.inn, p) = r * S.between ports p b := by linear_combination l3 + r * o1
  have e : w (.inn, p) = r * S.between ports p b / (1 - r * S.between ports p p) := by rw [← this]; field_simp
  rw [e]
  ring

/-- joining two of the ports -/
theorem net_join {laws laws' : (Wave → K) → Prop} {nodes ports ports' : List Node} {S : SMat K} {p q : Node} (h : IsScattering laws nodes ports S)
    (hl : ∀ w, laws' w ↔ laws w ∧ w (.inn, p) = w (.out, q) ∧ w (.out, p) = w (.inn, q)) (hperm : ports.Perm (p :: q :: ports')) (hnd : ports.Nodup)
    (hp : p ∈ nodes) (hq : q ∈ nodes) :
    (Solvable laws' nodes ports' ↔
      (1 - S.between ports p q) * (1 - S.between ports q p) - S.between ports p p * S.between ports q q ≠ 0) ∧
    ∀ S', IsScattering laws' nodes ports' S' → ∀ a ∈ ports', ∀ b ∈ ports', S'.between ports' a b =
      S.between ports a b + (S.between ports a p * S.between ports q q * S.between ports p b + S.between ports a p * (1 - S.between ports p q) * S.between ports q b +
        S.between ports a q * (1 - S.between ports q p) * S.between ports p b + S.between ports a q * S.between ports p p * S.between ports q b) /
        ((1 - S.between ports p q) * (1 - S.between ports q p) - S.between ports p p * S.between ports q q) := by
  have hpp : p ∈ ports := hperm.mem_iff.2 (by simp)
  have hqq : q ∈ ports := hperm.mem_iff.2 (by simp)
  have hnd2 := hperm.nodup_iff.1 hnd
  rw [List.nodup_cons, List.nodup_cons, List.mem_cons, not_or] at hnd2
  obtain ⟨⟨hpq, hnp⟩, hnq, hnd'⟩ := hnd2
  have hin : ∀ x ∈ ports', x ∈ ports := fun x hx => hperm.mem_iff.2 (by simp [hx])
  have hout : ∀ w, laws w → ∀ x ∈ ports, w (.out, x) = S.between ports x p * w (.inn, p) + S.between ports x q * w (.inn, q) +
      (ports'.map fun y => S.between ports x y * w (.inn, y)).sum := by
    intro w hw x hx
    rw [out_between h hnd hw hx, (hperm.map _).sum_eq]
    simp [add_assoc]
  generalize hpq' : S.between ports p q = spq at *
  generalize hqp' : S.between ports q p = sqp at *
  generalize hpp' : S.between ports p p = spp at *
  generalize hqq' : S.between ports q q = sqq at *
  have drive : ∀ (u v : K) (a : Node → K), ∃ w, laws w ∧ w (.inn, p) = u ∧ w (.inn, q) = v ∧ ∀ x ∈ ports', w (.inn, x) = a x := by
    intro u v a
    obtain ⟨w, h1, h2⟩ := h.exists_sol fun x => if x = p then u else if x = q then v else a x
    refine ⟨w, h1, ?_, ?_, fun x hx => ?_⟩
    · rw [h2 p hpp, if_pos rfl]
    · rw [h2 q hqq, if_neg (Ne.symm hpq), if_pos rfl]
    · rw [h2 x (hin x hx), if_neg, if_neg]
      · rintro rfl; exact hnq hx
      · rintro rfl; exact hnp hx
  have key : Solvable laws' nodes ports' ↔ (1 - spq) * (1 - sqp) - spp * sqq ≠ 0 := by
    constructor
    · intro H hd
      -- a wave with nothing sent in
      have zero : ∀ u v : K, u = sqp * u + sqq * v → v = spp * u + spq * v → u = 0 ∧ v = 0 := by
        intro u v e1 e2
        have z : ∀ w : Wave → K, ∀ x, (∀ y ∈ ports', w (.inn, y) = 0) → (ports'.map fun y => S.between ports x y * w (.inn, y)).sum = 0 := by
          intro w x hu
          rw [List.sum_eq_zero]
          intro y hy
          obtain ⟨x, hx, rfl⟩ := List.mem_map.1 hy
          rw [hu x hx, mul_zero]
        have lawf : ∀ u v : K, u = sqp * u + sqq * v → v = spp * u + spq * v → ∃ w, laws' w ∧ w (.inn, p) = u ∧ w (.inn, q) = v ∧ ∀ x ∈ ports', w (.inn, x) = 0 := by
          intro u v e1 e2
          obtain ⟨w, h1, h2, h3, h4⟩ := drive u v fun _ => 0
          have o1 := hout w h1 p hpp
          have o2 := hout w h1 q hqq
          rw [z w _ h4, h2, h3, hpp', hpq'] at o1
          rw [z w _ h4, h2, h3, hqp', hqq'] at o2
          refine ⟨w, (hl w).2 ⟨h1, ?_, ?_⟩, h2, h3, h4⟩
          · rw [h2, o2]; linear_combination e1
          · rw [h3, o1]; linear_combination -e2
        obtain ⟨w, h1, h2, h3, h4⟩ := lawf u v e1 e2
        obtain ⟨w0, g1, g2, g3, g4⟩ := lawf 0 0 (by simp) (by simp)
        have hun := H.unique w w0 h1 g1 fun x hx => by rw [h4 x hx, g4 x hx]
        exact ⟨h2 ▸ g2 ▸ hun p hp .inn, h3 ▸ g3 ▸ hun q hq .inn⟩
      -- the determinant vanishes, so there is another one
      have a1 := zero sqq (1 - sqp) (by ring) (by linear_combination hd)
      have a2 := zero (1 - spq) spp (by linear_combination hd) (by ring)
      obtain ⟨b1, b2⟩ := zero 1 1 (by linear_combination -(a1.1) + a1.2) (by linear_combination -(a2.2) + a2.1)
      exact one_ne_zero b1
    · intro hd
      refine ⟨fun a => ?_, fun w w' hw hw' heq n hn d => ?_⟩
      · generalize hA : (ports'.map fun y => S.between ports p y * a y).sum = A
        generalize hB : (ports'.map fun y => S.between ports q y * a y).sum = B
        obtain ⟨w, h1, h2, h3, h4⟩ := drive ((sqq * A + (1 - spq) * B) / ((1 - spq) * (1 - sqp) - spp * sqq)) (((1 - sqp) * A + spp * B) / ((1 - spq) * (1 - sqp) - spp * sqq)) a
        have o1 := hout w h1 p hpp
        have o2 := hout w h1 q hqq
        have e : ∀ x, (ports'.map fun y => S.between ports x y * w (.inn, y)) = ports'.map fun y => S.between ports x y * a y :=
          fun x => List.map_congr_left fun y hy => by rw [h4 y hy]
        rw [e, hA, hpp', hpq'] at o1
        rw [e, hB, hqp', hqq'] at o2
        rw [eq_div_iff hd] at h2 h3
        refine ⟨w, (hl w).2 ⟨h1, ?_, ?_⟩, h4⟩
        · refine mul_right_cancel₀ hd ?_
          linear_combination (1 - sqp) * h2 - sqq * h3 - ((1 - spq) * (1 - sqp) - spp * sqq) * o2
        · refine mul_right_cancel₀ hd ?_
          linear_combination -(1 - spq) * h3 + spp * h2 + ((1 - spq) * (1 - sqp) - spp * sqq) * o1
      · obtain ⟨h1, l1, l2⟩ := (hl w).1 hw
        obtain ⟨h2, l3, l4⟩ := (hl w').1 hw'
        have e : ∀ x, (ports'.map fun y => S.between ports x y * w (.inn, y)) = ports'.map fun y => S.between ports x y * w' (.inn, y) :=
          fun x => List.map_congr_left fun y hy => by rw [heq y hy]
        have o1 := hout w h1 p hpp
        have o2 := hout w h1 q hqq
        have o3 := hout w' h2 p hpp
        have o4 := hout w' h2 q hqq
        rw [e, hpp', hpq'] at o1
        rw [e, hqp', hqq'] at o2
        rw [hpp', hpq'] at o3
        rw [hqp', hqq'] at o4
        have f1 : w (.inn, p) - w' (.inn, p) = sqp * (w (.inn, p) - w' (.inn, p)) + sqq * (w (.inn, q) - w' (.inn, q)) := by linear_combination l1 - l3 + o2 - o4
        have f2 : w (.inn, q) - w' (.inn, q) = spp * (w (.inn, p) - w' (.inn, p)) + spq * (w (.inn, q) - w' (.inn, q)) := by linear_combination -l2 + l4 + o1 - o3
        have g1 : w (.inn, p) - w' (.inn, p) = 0 := by
          refine (mul_eq_zero.1 ?_).resolve_left hd
          linear_combination (1 - spq) * f1 + sqq * f2
        have g2 : w (.inn, q) - w' (.inn, q) = 0 := by
          refine (mul_eq_zero.1 ?_).resolve_left hd
          linear_combination (1 - sqp) * f2 + spp * f1
        refine h.unique w w' h1 h2 (fun x hx => ?_) n hn d
        have hx := hperm.mem_iff.1 hx
        rw [List.mem_cons, List.mem_cons] at hx
        rcases hx with rfl | rfl | hx
        · exact sub_eq_zero.1 g1
        · exact sub_eq_zero.1 g2
        · exact heq x hx
  refine ⟨key, fun S' h' a ha b hb => ?_⟩
  have hd := key.1 h'.toSolvable
  obtain ⟨w, h1, h2⟩ := h'.exists_sol fun x => if x = b then 1 else 0
  obtain ⟨h3, l1, l2⟩ := (hl w).1 h1
  rw [between_of_drive h' hnd' h1 ha hb h2]
  have sm : ∀ x, (ports'.map fun y => S.between ports x y * w (.inn, y)).sum = S.between ports x b := by
    intro x
    have : (ports'.map fun y => S.between ports x y * w (.inn, y)) = ports'.map fun y => if y = b then S.between ports x b else 0 := by
      refine List.map_congr_left fun y hy => ?_
      rw [h2 y hy]
      by_cases e : y = b
      · simp [e]
      · simp [e]
    rw [this, List.sum_map_ite_eq]
    simp [List.count_eq_one_of_mem hnd' hb]
  have o1 := hout w h3 p hpp
  have o2 := hout w h3 q hqq
  have o3 := hout w h3 a (hin a ha)
  rw [sm, hpp', hpq'] at o1
  rw [sm, hqp', hqq'] at o2
  rw [sm] at o3
  rw [o3]
  have e1 : w (.inn, p) = (sqq * S.between ports p b + (1 - spq) * S.between ports q b) / ((1 - spq) * (1 - sqp) - spp * sqq) := by
    rw [eq_div_iff hd]
    linear_combination (1 - spq) * (l1 + o2) - sqq * (l2 - o1)
  have e2 : w (.inn, q) = ((1 - sqp) * S.between ports p b + spp * S.between ports q b) / ((1 - spq) * (1 - sqp) - spp * sqq) := by
    rw [eq_div_iff hd]
    linear_combination spp * (l1 + o2) - (1 - sqp) * (l2 - o1)
  rw [e1, e2]
  ring

end

section
variable {K O F Fl : Type*} [Field K] [CharZero K] [DecidableEq F] [DecidableEq Fl]
variable {ops : ObjOps K O F Fl} {beh : O → F → K → Fl → Except Err (SMat K)} {nan zb : K} {names : List Node}
variable {net : Net K} {bh : Behave K F Fl} {s s1 t : St K O F Fl} {ph : Phase} {f : F} {fl : Fl} {S : SMat K}

omit [CharZero K] in
theorem reflection_law {args : TermArgs K} {l : Load K} {r : K} (hl : args.load = some l) (hr : termRho zb args = .ok r) (i o : K) :
    l.Law zb i o ↔ i = l.reflection zb * o := by
  cases args with
  | Z z =>
    injection hl with hl; subst hl
    have hz : z + zb ≠ 0 := fun e => by simp [termRho, e] at hr
    change zb * (i + o) = z * (o - i) ↔ i = (z - zb) / (z + zb) * o
    constructor
    · intro h
      refine mul_left_cancel₀ hz ?_
      field_simp
      linear_combination h
    · intro h
      rw [h]
      field_simp
      ring
  | Y y =>
    injection hl with hl; subst hl
    have hz : 1 + y * zb ≠ 0 := fun e => by simp [termRho, e] at hr
    change o - i = y * (zb * (i + o)) ↔ i = (1 - y * zb) / (1 + y * zb) * o
    constructor
    · intro h
      refine mul_left_cancel₀ hz ?_
      field_simp
      linear_combination -h
    · intro h
      rw [h]
      field_simp
      ring
  | RC x => injection hl with hl; subst hl; rfl
  | default => injection hl with hl; subst hl; rfl
  | several => cases hl
  | unknown => cases hl

omit [CharZero K] [DecidableEq F] [DecidableEq Fl] in
theorem terminate_rho {p : Node} {args : TermArgs K} (hs : terminate s p args = (t, .ok ())) : ∃ r, termRho s.zbase args = .ok r := by
  unfold terminate at hs
  dsimp only at hs
  cases hr : termRho s.zbase args with
  | ok r => exact ⟨r, rfl⟩
  | error e => rw [hr] at hs; simp at hs

omit [CharZero K] in
theorem load_laws {p : Node} {l : Load K} (hp : p ∉ net.loads.map Prod.fst) (Sof : String → SMat K) (w : Wave → K) :
    (net.load p l).Laws zb Sof w ↔ net.Laws zb Sof w ∧ l.Law zb (w (.inn, p)) (w (.out, p)) := by
  unfold Net.Laws Net.CoreLaws Net.load
  simp only [dictSet_not_mem hp, List.mem_append, List.mem_singleton, or_imp, forall_and, forall_eq]
  tauto

omit [CharZero K] in
theorem free_load_perm {p : Node} {l : Load K} (hnd : net.nodes.Nodup) (hp : p ∈ net.free) : net.free.Perm (p :: (net.load p l).free) := by
  have hm := (mem_free.1 hp)
  have hnl : p ∉ net.loads.map Prod.fst := fun h => hm.2 (by simp only [Net.used, List.mem_append]; exact Or.inr h)
  have hu : ∀ x, x ∈ (net.load p l).free ↔ x ∈ net.free ∧ x ≠ p := by
    intro x
    rw [mem_free, mem_free, used_load_not_mem hnl]
    simp [Net.load, not_or, and_assoc]
  rw [List.perm_ext_iff_of_nodup (show net.free.Nodup from hnd.filter _)]
  · intro x
    rw [List.mem_cons, hu]
    by_cases e : x = p
    · simp [e, hp]
    · simp [e]
  · rw [List.nodup_cons, hu]
    exact ⟨fun h => h.2 rfl, hnd.filter _⟩

/-- **C87 (load).** A circuit answers `S`. After a load with reflection coefficient `ρ` was put on its port `p`, it answers exactly if `1 - ρ S(p,p) ≠ 0` (some port being left),
and the answer is, between all remaining ports, `S(a,b) + S(a,p) ρ S(p,b) / (1 - ρ S(p,p))`. -/
theorem C87_load (hlaw : Lawful ops beh) (h : Built ops beh nan zb names net bh s ph) (hph : ph ≠ .reloaded) (hs : getS ops s f none fl = (s1, .ok S))
    {p : Node} (hp : p ∈ net.free) {args : TermArgs K} {l : Load K} (hl : args.load = some l) (ht : terminate s p args = (t, .ok ())) :
    ((net.load p l).free ≠ [] → t.names = [] ∨ t.names.Perm (net.load p l).free →
      ((∃ t1 S', getS ops t f none fl = (t1, .ok S')) ↔ 1 - l.reflection zb * S.between s1.ports p p ≠ 0)) ∧
    ∀ t1 S', getS ops t f none fl = (t1, .ok S') → ∀ a ∈ t1.ports, ∀ b ∈ t1.ports, S'.between t1.ports a b =
      S.between s1.ports a b + S.between s1.ports a p * l.reflection zb * S.between s1.ports p b / (1 - l.reflection zb * S.between s1.ports p p) := by
  obtain ⟨⟨Sof, hS⟩, hsc⟩ := C20_getS_sound hlaw h hph hs
  have hsc := hsc Sof hS
  have hinv := h.inv hlaw
  have hinv1 := (Built.eval h hs).inv hlaw
  have hnd := hinv.rep.rep.nnd
  have hpm := mem_free.1 hp
  have hnl : p ∉ net.loads.map Prod.fst := fun h => hpm.2 (by simp only [Net.used, List.mem_append]; exact Or.inr h)
  have hnd1 : s1.ports.Nodup := hinv1.rep.ports_perm.nodup_iff.2 (hnd.filter _)
  obtain ⟨r, hr⟩ := terminate_rho ht
  rw [hinv.zb] at hr
  have hb := Built.terminate h hl ht
  have hph1 : (if ph ≠ .building ∧ p ∈ net.loads.map Prod.fst then Phase.reloaded else if ph = .reloaded then .evaluated else ph) ≠ .reloaded := by
    rw [if_neg (fun hc => hnl hc.2), if_neg hph]; exact hph
  have hl' : ∀ w, (net.load p l).Laws zb Sof w ↔ net.Laws zb Sof w ∧ w (.inn, p) = l.reflection zb * w (.out, p) :=
    fun w => (load_laws hnl Sof w).trans (and_congr_right fun _ => reflection_law hl hr _ _)
  have hS' : Given (net.load p l) bh f zb fl Sof := hS
  constructor
  · intro hf hn
    rw [C20_getS_complete hlaw hb hph1 hS' hf hn]
    exact (net_load hsc hl' (hinv1.rep.ports_perm.trans (free_load_perm hnd hp)) hnd1 hpm.1).1
  · intro t1 S' hs'
    have hsc' := (C20_getS_sound hlaw hb hph1 hs').2 Sof hS'
    have hp1 := ((Built.eval hb hs').inv hlaw).rep.ports_perm
    exact (net_load hsc hl' (hinv1.rep.ports_perm.trans ((free_load_perm hnd hp).trans (hp1.symm.cons p))) hnd1 hpm.1).2 S' hsc'

omit [CharZero K] [Field K] in
theorem connect_two {p q : Node} (hp : p ∈ net.nodes) (hq : q ∈ net.nodes) : net.connect [p, q] = net.join [p, q] none := by
  unfold Net.connect
  simp [hp, hq]

omit [CharZero K] in
theorem free_join_perm {p q : Node} (hnd : net.nodes.Nodup) (hp : p ∈ net.free) (hq : q ∈ net.free) (hne : p ≠ q) :
    net.free.Perm (p :: q :: (net.join [p, q] none).free) := by
  have hu : ∀ x, x ∈ (net.join [p, q] none).free ↔ x ∈ net.free ∧ x ≠ p ∧ x ≠ q := by
    intro x
    rw [mem_free, mem_free]
    simp only [Net.used, Net.join, List.flatMap_append, List.mem_append, List.flatMap_cons, List.flatMap_nil, List.append_nil, Option.toList_none, List.mem_cons, List.not_mem_nil, or_false]
    tauto
  rw [List.perm_ext_iff_of_nodup (show net.free.Nodup from hnd.filter _)]
  · intro x
    rw [List.mem_cons, List.mem_cons, hu]
    by_cases e : x = p
    · simp [e, hp]
    · by_cases e2 : x = q
      · simp [e2, hq]
      · simp [e, e2]
  · rw [List.nodup_cons, List.nodup_cons, List.mem_cons, hu, hu]
    refine ⟨fun h => h.elim hne fun h => h.2.1 rfl, fun h => h.2.2 rfl, ?_⟩
    exact List.Nodup.filter _ (by simpa [Net.join] using hnd)

/-- **C87 (join).** A circuit would answer `S`. After two different free ports `p`, `q` of it were connected with each other, it answers exactly if
`(1 - S(p,q)) (1 - S(q,p)) - S(p,p) S(q,q) ≠ 0` (some port being left), and then with the matrix of the well-known formula. -/
theorem C87_join (hlaw : Lawful ops beh) (h : Built ops beh nan zb names net bh s .building) (hs : getS ops s f none fl = (s1, .ok S))
    {p q : Node} (hp : p ∈ net.free) (hq : q ∈ net.free) (hne : p ≠ q) (ht : connect ops s [p, q] = (t, .ok ())) :
    ((net.connect [p, q]).free ≠ [] → t.names = [] ∨ t.names.Perm (net.connect [p, q]).free →
      ((∃ t1 S', getS ops t f none fl = (t1, .ok S')) ↔
        (1 - S.between s1.ports p q) * (1 - S.between s1.ports q p) - S.between s1.ports p p * S.between s1.ports q q ≠ 0)) ∧
    ∀ t1 S', getS ops t f none fl = (t1, .ok S') → ∀ a ∈ t1.ports, ∀ b ∈ t1.ports, S'.between t1.ports a b =
      S.between s1.ports a b + (S.between s1.ports a p * S.between s1.ports q q * S.between s1.ports p b +
        S.between s1.ports a p * (1 - S.between s1.ports p q) * S.between s1.ports q b +
        S.between s1.ports a q * (1 - S.between s1.ports q p) * S.between s1.ports p b + S.between s1.ports a q * S.between s1.ports p p * S.between s1.ports q b) /
        ((1 - S.between s1.ports p q) * (1 - S.between s1.ports q p) - S.between s1.ports p p * S.between s1.ports q q) := by
  obtain ⟨⟨Sof, hS⟩, hsc⟩ := C20_getS_sound hlaw h (by simp) hs
  have hsc := hsc Sof hS
  have hinv := h.inv hlaw
  have hinv1 := (Built.eval h hs).inv hlaw
  have hnd := hinv.rep.rep.nnd
  have hpm := mem_free.1 hp
  have hqm := mem_free.1 hq
  have hnd1 : s1.ports.Nodup := hinv1.rep.ports_perm.nodup_iff.2 (hnd.filter _)
  have hb := Built.connect h ht
  rw [connect_two hpm.1 hqm.1] at hb ⊢
  have hl' : ∀ w, (net.join [p, q] none).Laws zb Sof w ↔ net.Laws zb Sof w ∧ w (.inn, p) = w (.out, q) ∧ w (.out, p) = w (.inn, q) := by
    intro w
    rw [← two_junc (j := ⟨[p, q], none⟩) rfl (List.Perm.refl _)]
    unfold Net.Laws Net.CoreLaws Net.join
    simp only [List.mem_append, List.mem_singleton, or_imp, forall_and, forall_eq]
    tauto
  have hS' : Given (net.join [p, q] none) bh f zb fl Sof := hS
  have hnn : ∀ x, x ∈ net.nodes → x ∈ (net.join [p, q] none).nodes := fun x hx => by simpa [Net.join] using hx
  have hnod : (net.join [p, q] none).nodes = net.nodes := by simp [Net.join]
  constructor
  · intro hf hn
    rw [C20_getS_complete hlaw hb (by simp) hS' hf hn, hnod]
    exact (net_join hsc hl' (hinv1.rep.ports_perm.trans (free_join_perm hnd hp hq hne)) hnd1 hpm.1 hqm.1).1
  · intro t1 S' hs'
    have hsc' := (C20_getS_sound hlaw hb (by simp) hs').2 Sof hS'
    have hp1 := ((Built.eval hb hs').inv hlaw).rep.ports_perm
    rw [hnod] at hsc'
    exact (net_join hsc hl' (hinv1.rep.ports_perm.trans ((free_join_perm hnd hp hq hne).trans ((hp1.symm.cons q).cons p))) hnd1 hpm.1 hqm.1).2 S' hsc'

end

namespace ExLoaded

/-- a three-port all whose entries are 1/4 -/
def ob : Imm ℚ Unit Unit where
  len := 3
  ports := some ["1", "2", "3"]
  xpos := none
  beh _ _ _ := .ok ⟨3, fun _ _ => 1/4⟩
  sized _ _ _ S h := by injection h with h; rw [← h]
  placed xs h := by cases h

abbrev o := immOps ℚ Unit Unit
def s : St ℚ (Imm ℚ Unit Unit) Unit Unit := (addblock o 0 (St.init 50 []) "X" ob .none 0).1
def P (k : String) : Node := .blk "X" k
def bh : Behave ℚ Unit Unit := Function.update (fun _ _ _ _ => .error .valueError) "X" ob.beh

theorem built : Built o Imm.beh 0 50 [] (oneNet ℚ ["1", "2", "3"]) bh s .building := oneNet_built (by decide) (by decide)

theorem given : Given (oneNet ℚ ["1", "2", "3"]) bh () 50 () fun _ => ⟨3, fun _ _ => 1/4⟩ := by
  intro x hx
  simp only [oneNet, Net.addBlk, Net.empty, List.nil_append, List.mem_singleton] at hx
  subst hx
  rfl

theorem noNames {net : Net ℚ} {bh : Behave ℚ Unit Unit} {s : St ℚ (Imm ℚ Unit Unit) Unit Unit} (hb : Built o Imm.beh 0 50 [] net bh s .building) : s.names = [] := by
  obtain ⟨hi, hbb, -⟩ := hb.all (imm_lawful ℚ Unit Unit)
  obtain ⟨-, ha, -⟩ := hbb rfl
  simp [St.names, ha, hi.nm]

theorem free : (oneNet ℚ ["1", "2", "3"]).free = [P "1", P "2", P "3"] := oneNet_free _

/-- the three-port alone answers, with entries 1/4 -/
theorem answers : ∃ s1 S, getS o s () none () = (s1, .ok S) ∧ ∀ a ∈ [P "1", P "2", P "3"], ∀ b ∈ [P "1", P "2", P "3"], S.between s1.ports a b = 1/4 := by
  obtain ⟨s1, S, hs⟩ := (C20_getS_complete (imm_lawful ℚ Unit Unit) built (by simp) given (by rw [free]; simp) (Or.inl (noNames built))).2
    (oneNet_solvable (by decide) _ _)
  have hp := ((Built.eval built hs).inv (imm_lawful ℚ Unit Unit)).rep.ports_perm
  rw [free] at hp
  have hsc := (C20_getS_sound (imm_lawful ℚ Unit Unit) built (by simp) hs).2 _ given
  have hnd : s1.ports.Nodup := hp.nodup_iff.2 (by decide)
  refine ⟨s1, S, hs, fun a ha b hb => ?_⟩
  obtain ⟨w, h1, h2⟩ := hsc.exists_sol fun q => if q = b then 1 else 0
  rw [between_of_drive hsc hnd h1 (hp.mem_iff.2 ha) (hp.mem_iff.2 hb) h2]
  rw [oneNet_laws] at h1
  have i1 := h2 (P "1") (hp.mem_iff.2 (by simp))
  have i2 := h2 (P "2") (hp.mem_iff.2 (by simp))
  have i3 := h2 (P "3") (hp.mem_iff.2 (by simp))
  have l0 := h1 ⟨0, by decide⟩
  have l1 := h1 ⟨1, by decide⟩
  have l2 := h1 ⟨2, by decide⟩
  simp [Fin.sum_univ_three, SMat.at] at l0 l1 l2
  have hsum : w (.inn, P "1") + w (.inn, P "2") + w (.inn, P "3") = 1 := by
    rw [i1, i2, i3]
    simp only [List.mem_cons, List.not_mem_nil, or_false] at hb
    rcases hb with rfl | rfl | rfl <;> simp [P]
  unfold P at hsum
  simp only [List.mem_cons, List.not_mem_nil, or_false] at ha
  rcases ha with rfl | rfl | rfl
  · unfold P; rw [l0]; linear_combination (1/4) * hsum
  · unfold P; rw [l1]; linear_combination (1/4) * hsum
  · unfold P; rw [l2]; linear_combination (1/4) * hsum

noncomputable def t : St ℚ (Imm ℚ Unit Unit) Unit Unit := (terminate s (P "3") (.Z 100)).1

theorem loaded : terminate s (P "3") (.Z 100) = (t, .ok ()) := by
  refine Prod.ext rfl ?_
  have h : termRho s.zbase (.Z (100 : ℚ)) = .ok ((100 - s.zbase) / (100 + s.zbase)) := by
    have : s.zbase = 50 := rfl
    simp only [termRho, this]
    norm_num
  unfold terminate
  rw [h]
  rfl

/-- 100 Ohm at the third port of the three-port (reference 50 Ohm): it answers 3/11 at its first port -/
theorem C87_load_witness : ∃ t1 S', getS o t () none () = (t1, .ok S') ∧ S'.between t1.ports (P "1") (P "1") = 3/11 := by
  obtain ⟨s1, S, hs, h4⟩ := answers
  have hb := Built.terminate built (l := .Z 100) rfl loaded
  have key := C87_load (imm_lawful ℚ Unit Unit) built (by simp) hs (p := P "3") (by rw [free]; simp) (l := .Z 100) rfl loaded
  have hr : (Load.Z (100 : ℚ)).reflection 50 = 1/3 := by norm_num [Load.reflection]
  rw [hr] at key
  have hfree : ((oneNet ℚ ["1", "2", "3"]).load (P "3") (.Z 100)).free = [P "1", P "2"] := by decide
  obtain ⟨t1, S', ht⟩ := (key.1 (by rw [hfree]; simp) (Or.inl (noNames hb))).2 (by rw [h4 _ (by simp) _ (by simp)]; norm_num)
  have hp := ((Built.eval hb ht).inv (imm_lawful ℚ Unit Unit)).rep.ports_perm
  rw [hfree] at hp
  refine ⟨t1, S', ht, ?_⟩
  rw [key.2 t1 S' ht _ (hp.mem_iff.2 (by simp)) _ (hp.mem_iff.2 (by simp)), h4 _ (by simp) _ (by simp), h4 _ (by simp) _ (by simp), h4 _ (by simp) _ (by simp),
    h4 _ (by simp) _ (by simp)]
  norm_num

def u : St ℚ (Imm ℚ Unit Unit) Unit Unit := (connect o s [P "2", P "3"]).1

theorem joined : connect o s [P "2", P "3"] = (u, .ok ()) := Prod.ext rfl (by rfl)

/-- the second and third port of the three-port connected: it answers 1/2 at its first port -/
theorem C87_join_witness : ∃ t1 S', getS o u () none () = (t1, .ok S') ∧ S'.between t1.ports (P "1") (P "1") = 1/2 := by
  obtain ⟨s1, S, hs, h4⟩ := answers
  have hb := Built.connect built joined
  have key := C87_join (imm_lawful ℚ Unit Unit) built hs (p := P "2") (q := P "3") (by rw [free]; simp) (by rw [free]; simp) (by decide) joined
  have hfree : ((oneNet ℚ ["1", "2", "3"]).connect [P "2", P "3"]).free = [P "1"] := by decide
  obtain ⟨t1, S', ht⟩ := (key.1 (by rw [hfree]; simp) (Or.inl (noNames hb))).2 (by
    rw [h4 (P "2") (by simp) (P "3") (by simp), h4 (P "3") (by simp) (P "2") (by simp), h4 (P "2") (by simp) (P "2") (by simp), h4 (P "3") (by simp) (P "3") (by simp)]; norm_num)
  have hp := ((Built.eval hb ht).inv (imm_lawful ℚ Unit Unit)).rep.ports_perm
  rw [hfree] at hp
  refine ⟨t1, S', ht, ?_⟩
  have := key.2 t1 S' ht (P "1") (hp.mem_iff.2 (by simp)) (P "1") (hp.mem_iff.2 (by simp))
  rw [this]
  simp only [h4 (P "1") (by simp) (P "1") (by simp), h4 (P "1") (by simp) (P "2") (by simp), h4 (P "1") (by simp) (P "3") (by simp),
    h4 (P "2") (by simp) (P "1") (by simp), h4 (P "2") (by simp) (P "2") (by simp), h4 (P "2") (by simp) (P "3") (by simp),
    h4 (P "3") (by simp) (P "1") (by simp), h4 (P "3") (by simp) (P "2") (by simp), h4 (P "3") (by simp) (P "3") (by simp)]
  norm_num

end ExLoaded

end PyRFtk.Circuit
