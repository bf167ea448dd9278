import Verif.CircuitExamples
import Verif.ConvertSpec
import Mathlib.Analysis.Complex.Basic

/-!
# C23: networks of passive / lossless / reciprocal parts (Tellegen's theorem)
-/

set_option linter.unusedSectionVars false

namespace PyRFtk.Circuit

section
variable {K O F Fl : Type*} [Field K] [DecidableEq F] [DecidableEq Fl]
variable {ops : ObjOps K O F Fl} {beh : O → F → K → Fl → Except Err (SMat K)} {nan zb : K} {names : List Node}
variable {net : Net K} {bh : Behave K F Fl} {s s' : St K O F Fl} {ph : Phase}

/-- the ports of all blocks -/
def Net.blkNodes (net : Net K) : List Node := net.blks.flatMap fun x => x.2.map (Node.blk x.1)

/-- built without deembedding -/
def Net.Plain (net : Net K) : Prop := net.crosses = [] ∧ net.sames = []

theorem Built.nodes_perm (h : Built ops beh nan zb names net bh s ph) :
    net.nodes.Perm (net.blkNodes ++ net.juncs.flatMap (fun j => j.new.toList) ++ net.crosses.map Prod.snd) := by
  induction h with
  | init bh => exact List.Perm.refl _
  | @addblock net bh s s' name obj spec relpos ports _ _ _ _ _ ih =>
    simp only [Net.addBlk, Net.blkNodes, List.flatMap_append, List.flatMap_cons, List.flatMap_nil, List.append_nil]
    rw [← Multiset.coe_eq_coe] at ih ⊢
    simp only [← Multiset.coe_add, ih, Net.blkNodes]
    abel
  | replace _ _ _ ih => exact ih
  | @connect net bh s s' ps _ _ ih =>
    simp only [Net.connect, Net.join, Net.blkNodes, List.flatMap_append, List.flatMap_cons, List.flatMap_nil,
      List.append_nil]
    rw [← Multiset.coe_eq_coe] at ih ⊢
    simp only [← Multiset.coe_add, ih, Net.blkNodes]
    abel
  | terminate _ _ _ ih => exact ih
  | @deembed net bh s s' int ext _ _ _ _ _ ih =>
    have e1 : ∀ (ext : List (Node × Node)) (net : Net K), (ext.foldl Net.same net).blks = net.blks ∧
        (ext.foldl Net.same net).juncs = net.juncs ∧ (ext.foldl Net.same net).crosses = net.crosses := by
      intro ext
      induction ext with
      | nil => intro net; exact ⟨rfl, rfl, rfl⟩
      | cons x l ih => intro net; exact ih _
    have e2 : ∀ (int : List (Node × Node)) (net : Net K), (int.foldl Net.cross net).blks = net.blks ∧
        (int.foldl Net.cross net).juncs = net.juncs ∧ (int.foldl Net.cross net).crosses = net.crosses ++ int := by
      intro int
      induction int with
      | nil => intro net; exact ⟨rfl, rfl, by simp⟩
      | cons x l ih =>
        intro net
        obtain ⟨h1, h2, h3⟩ := ih (net.cross x)
        exact ⟨h1, h2, by rw [List.foldl_cons, h3]; simp [Net.cross]⟩
    rw [nodes_deembed]
    have hb : (net.deembed int ext).blkNodes = net.blkNodes := by
      simp only [Net.blkNodes, Net.deembed, (e1 _ _).1, (e2 _ _).1]
    rw [hb]
    simp only [Net.deembed, (e1 _ _).2, (e2 _ _).2, List.map_append]
    rw [← Multiset.coe_eq_coe] at ih ⊢
    simp only [← Multiset.coe_add, ih]
    abel
  | eval _ _ ih => exact ih
  | used _ _ ih => exact ih

/-- the nodes are the used ones and the free ones -/
theorem Rep.nodes_split (h : Rep ops net s) : net.nodes.Perm (net.used ++ net.free) := by
  have hf : net.free.Nodup := h.rep.nnd.filter _
  refine (List.perm_ext_iff_of_nodup h.rep.nnd ?_).2 fun p => ?_
  · refine List.nodup_append'.2 ⟨h.rep.und, hf, fun p h1 h2 => (mem_free.1 h2).2 h1⟩
  · rw [List.mem_append, mem_free]
    have := h.rep.usub p
    tauto

theorem sum_map_perm {M : Type*} [AddCommMonoid M] {l l' : List Node} (h : l.Perm l') (c : Node → M) :
    (l.map c).sum = (l'.map c).sum := (h.map c).sum_eq

theorem sum_flatMap {α M : Type*} [AddCommMonoid M] (l : List α) (g : α → List Node) (c : Node → M) :
    ((l.flatMap g).map c).sum = (l.map fun x => ((g x).map c).sum).sum := by
  induction l with
  | nil => rfl
  | cons x l ih => simp [ih]

/-- at a junction the "power" `V I'` of the members is that of the new node -/
theorem Junction.Law.power {j : Junction} {w w' : Wave → K} (h : j.Law w) (h' : j.Law w') :
    (j.members.map fun p => volt w p * curr w' p).sum = (j.new.toList.map fun p => volt w p * curr w' p).sum := by
  obtain ⟨members, new⟩ := j
  obtain ⟨hv, -⟩ := h
  obtain ⟨-, hc⟩ := h'
  simp only at hv hc ⊢
  cases members with
  | nil =>
    cases new with
    | none => simp
    | some n =>
      simp only [List.map_nil, List.sum_nil] at hc
      simp [← hc]
  | cons p l =>
    have h1 : ((p :: l).map fun q => volt w q * curr w' q) = (p :: l).map fun q => volt w p * curr w' q := by
      refine List.map_congr_left fun q hq => ?_
      rw [hv q (List.mem_append_left _ hq) p (by simp)]
    rw [h1, List.sum_map_mul_left, hc]
    cases new with
    | none => simp
    | some n =>
      simp only [Option.toList, List.map_cons, List.map_nil, List.sum_cons, List.sum_nil, add_zero]
      rw [hv p (by simp) n (by simp)]

/-- **C23 (Tellegen's theorem).** For any two wave assignments satisfying the junction laws, voltages of the first times
currents of the second: what enters the blocks is what enters the external ports plus what leaves the loads. -/
theorem C23_tellegen [CharZero K] (hlaw : Lawful ops beh) (h : Built ops beh nan zb names net bh s ph)
    (hp : net.Plain) {w w' : Wave → K} (hw : ∀ j ∈ net.juncs, j.Law w) (hw' : ∀ j ∈ net.juncs, j.Law w') :
    (net.blkNodes.map fun p => volt w p * curr w' p).sum =
      ((net.loads.map Prod.fst).map fun p => volt w p * curr w' p).sum +
      (net.free.map fun p => volt w p * curr w' p).sum := by
  have h1 := sum_map_perm h.nodes_perm fun p => volt w p * curr w' p
  have h2 := sum_map_perm (h.inv hlaw).rep.nodes_split fun p => volt w p * curr w' p
  rw [h2] at h1
  simp only [Net.used, hp.1, hp.2, List.map_nil, List.flatMap_nil, List.append_nil, List.map_append, List.sum_append,
    sum_flatMap] at h1
  have h3 : (net.juncs.map fun j => (j.members.map fun p => volt w p * curr w' p).sum) =
      net.juncs.map fun j => (j.new.toList.map fun p => volt w p * curr w' p).sum :=
    List.map_congr_left fun j hj => (hw j hj).power (hw' j hj)
  rw [h3] at h1
  linear_combination -h1

/-- rows of a matrix of the right size -/
theorem at_mulVec (S : SMat K) {k : ℕ} (hk : S.n = k) (v : Fin k → K) (i : Fin k) :
    ∑ j : Fin k, S.at i j * v j = S.m.mulVec (fun j => v (Fin.cast hk j)) (Fin.cast hk.symm i) := by
  subst hk
  simp only [Matrix.mulVec, dotProduct, Fin.cast_eq_self]
  refine Finset.sum_congr rfl fun j _ => ?_
  rw [SMat.at, dif_pos ⟨i.2, j.2⟩]

theorem Inv.size (hlaw : Lawful ops beh) (h : Inv ops beh zb names net bh s) {f : F} {fl : Fl} {Sof : String → SMat K}
    (hS : Given net bh f zb fl Sof) {x : String × List String} (hx : x ∈ net.blks) : (Sof x.1).n = x.2.length := by
  have hb : net.blks = s.blocks.map fun b => (b.name, b.ports) := h.rep.rep.blks
  have hx' := hx
  rw [hb] at hx'
  simp only [List.mem_map] at hx'
  obtain ⟨b, hbm, rfl⟩ := hx'
  have h1 := hS _ hx
  simp only at h1 ⊢
  rw [← h.bhv b hbm] at h1
  rw [hlaw.sized _ _ _ _ _ h1, ← h.rep.rep.blen b hbm]

/-! ## reciprocity -/

theorem sum_map_fin {M : Type*} [AddCommMonoid M] {α : Type*} (l : List α) (c : α → M) :
    (l.map c).sum = ∑ i : Fin l.length, c l[i] := by
  rw [← List.sum_ofFn]
  congr 1
  apply List.ext_getElem <;> simp

/-- `∑ (V I' - V' I) = 2 ∑ (b a' - a b')` vanishes when `b = S a`, `b' = S a'` with symmetric `S` -/
theorem recip_form {S : SMat K} {ports : List Node} (hn : S.n = ports.length) (hr : Reciprocal S.m) {w w' : Wave → K}
    (h : ∀ i : Fin ports.length, w (.out, ports[i]) = ∑ j : Fin ports.length, S.at i j * w (.inn, ports[j]))
    (h' : ∀ i : Fin ports.length, w' (.out, ports[i]) = ∑ j : Fin ports.length, S.at i j * w' (.inn, ports[j])) :
    (ports.map fun p => w (.out, p) * w' (.inn, p)).sum = (ports.map fun p => w (.inn, p) * w' (.out, p)).sum := by
  rw [sum_map_fin, sum_map_fin]
  simp only [h, h', Finset.sum_mul, Finset.mul_sum]
  rw [Finset.sum_comm]
  refine Finset.sum_congr rfl fun j _ => Finset.sum_congr rfl fun i _ => ?_
  have : S.at i j = S.at j i := by
    have hi : (i : ℕ) < S.n := by rw [hn]; exact i.2
    have hj : (j : ℕ) < S.n := by rw [hn]; exact j.2
    rw [SMat.at, SMat.at, dif_pos ⟨hi, hj⟩, dif_pos ⟨hj, hi⟩]
    conv_lhs => rw [← hr]
    rfl
  rw [this]; ring

theorem BlockLaw.ports {S : SMat K} {b : String} {ports : List String} {w : Wave → K} (h : BlockLaw S b ports w)
    (i : Fin (ports.map (Node.blk b)).length) :
    w (.out, (ports.map (Node.blk b))[i]) = ∑ j : Fin (ports.map (Node.blk b)).length,
      S.at i j * w (.inn, (ports.map (Node.blk b))[j]) := by
  have e : (ports.map (Node.blk b)).length = ports.length := by simp
  have := h (Fin.cast e i)
  simp only [Fin.getElem_fin, List.getElem_map, Fin.val_cast] at this ⊢
  rw [this]
  refine Fintype.sum_equiv (finCongr e.symm) _ _ fun j => ?_
  simp

theorem Load.Law.recip [CharZero K] {zb : K} (hz : zb ≠ 0) {l : Load K} {i o i' o' : K} (h : l.Law zb i o)
    (h' : l.Law zb i' o') : o * i' = i * o' := by
  have two : (2 : K) ≠ 0 := two_ne_zero
  suffices H : (i + o) * (o' - i') = (i' + o') * (o - i) by
    apply mul_left_cancel₀ two
    linear_combination -H
  cases l with
  | Z z =>
    simp only [Load.Law] at h h'
    apply mul_left_cancel₀ hz
    linear_combination (o' - i') * h - (o - i) * h'
  | Y y =>
    simp only [Load.Law] at h h'
    linear_combination (i + o) * h' - (i' + o') * h
  | RC r =>
    simp only [Load.Law] at h h'
    rw [h, h']; ring

/-- **C23 (reciprocity).** If all block matrices are symmetric, so is the matrix of the circuit, whatever the loads. -/
theorem C23_reciprocal [CharZero K] (hlaw : Lawful ops beh) (h : Built ops beh nan zb names net bh s ph)
    (hph : ph ≠ .reloaded) (hp : net.Plain) (hz : zb ≠ 0) {f : F} {fl : Fl} {S : SMat K}
    (hs : getS ops s f none fl = (s', .ok S)) {Sof : String → SMat K} (hS : Given net bh f zb fl Sof)
    (hrec : ∀ x ∈ net.blks, Reciprocal (Sof x.1).m) : Reciprocal S.m := by
  have hsc := (C20_getS_sound hlaw h hph hs).2 Sof hS
  have h' := Built.eval h hs
  have hinv := h'.inv hlaw
  have hperm := hinv.rep.ports_perm
  have key : ∀ w w', net.Laws zb Sof w → net.Laws zb Sof w' →
      (s'.ports.map fun p => w (.out, p) * w' (.inn, p)).sum = (s'.ports.map fun p => w (.inn, p) * w' (.out, p)).sum := by
    intro w w' hw hw'
    have t1 := C23_tellegen hlaw h hp hw.2.1.1 hw'.2.1.1
    have t2 := C23_tellegen hlaw h hp hw'.2.1.1 hw.2.1.1
    have e : ∀ l : List Node, (l.map fun p => volt w p * curr w' p).sum - (l.map fun p => volt w' p * curr w p).sum =
        2 * ((l.map fun p => w (.out, p) * w' (.inn, p)).sum - (l.map fun p => w (.inn, p) * w' (.out, p)).sum) := by
      intro l
      induction l with
      | nil => simp
      | cons p l ih =>
        simp only [List.map_cons, List.sum_cons]
        have : volt w p * curr w' p - volt w' p * curr w p = 2 * (w (.out, p) * w' (.inn, p) - w (.inn, p) * w' (.out, p)) := by
          simp only [volt, curr]; ring
        linear_combination ih + this
    have b0 : (net.blkNodes.map fun p => w (.out, p) * w' (.inn, p)).sum =
        (net.blkNodes.map fun p => w (.inn, p) * w' (.out, p)).sum := by
      simp only [Net.blkNodes, sum_flatMap]
      congr 1
      refine List.map_congr_left fun x hx => ?_
      exact recip_form (by rw [(h.inv hlaw).size hlaw hS hx, List.length_map]) (hrec x hx) (hw.1 x hx).ports
        (hw'.1 x hx).ports
    have l0 : ((net.loads.map Prod.fst).map fun p => w (.out, p) * w' (.inn, p)).sum =
        ((net.loads.map Prod.fst).map fun p => w (.inn, p) * w' (.out, p)).sum := by
      simp only [List.map_map]
      congr 1
      refine List.map_congr_left fun x hx => ?_
      exact (hw.2.2 x hx).recip hz (hw'.2.2 x hx)
    have eb := e net.blkNodes
    have el := e (net.loads.map Prod.fst)
    have ef := e net.free
    rw [sum_map_perm hperm, sum_map_perm hperm]
    have two : (2 : K) ≠ 0 := two_ne_zero
    apply mul_left_cancel₀ two
    rw [b0] at eb
    rw [l0] at el
    linear_combination t2 - t1 - ef - el + eb
  -- unit excitations
  have hpnd : s'.ports.Nodup := hinv.rep.rep.pnd
  have hn : S.n = s'.ports.length := hsc.size
  have hkey : ∀ i j : Fin s'.ports.length, S.at i j = S.at j i := by
    intro i j
    obtain ⟨w, hw, hwi⟩ := hsc.exists_sol fun p => if p = s'.ports[i] then 1 else 0
    obtain ⟨w', hw', hwj⟩ := hsc.exists_sol fun p => if p = s'.ports[j] then 1 else 0
    have hin : ∀ k : Fin s'.ports.length, w (.inn, s'.ports[k]) = if k = i then 1 else 0 := by
      intro k
      rw [hwi _ (fin_mem k)]
      simp only [Fin.getElem_fin, hpnd.getElem_inj_iff, Fin.ext_iff]
    have hin' : ∀ k : Fin s'.ports.length, w' (.inn, s'.ports[k]) = if k = j then 1 else 0 := by
      intro k
      rw [hwj _ (fin_mem k)]
      simp only [Fin.getElem_fin, hpnd.getElem_inj_iff, Fin.ext_iff]
    have hk := key w w' hw hw'
    rw [sum_map_fin, sum_map_fin] at hk
    simp only [hin, hin', mul_ite, mul_one, mul_zero, ite_mul, one_mul, zero_mul, Finset.sum_ite_eq', Finset.mem_univ,
      if_true] at hk
    rw [hsc.out w hw j, hsc.out w' hw' i] at hk
    simp only [hin, hin', mul_ite, mul_one, mul_zero, Finset.sum_ite_eq', Finset.mem_univ, if_true] at hk
    exact hk.symm
  ext i j
  have := hkey (Fin.cast hn j) (Fin.cast hn i)
  simp only [SMat.at, Fin.val_cast, i.2, j.2, and_self, dif_pos, Fin.eta] at this
  exact this

end

/-! ## power -/

section
variable {O F Fl : Type*} [DecidableEq F] [DecidableEq Fl]
variable {ops : ObjOps ℂ O F Fl} {beh : O → F → ℂ → Fl → Except Err (SMat ℂ)} {nan zb : ℂ} {names : List Node}
variable {net : Net ℂ} {bh : Behave ℂ F Fl} {s s' : St ℂ O F Fl} {ph : Phase}

/-- power flowing into the block side at a node (times a constant) -/
noncomputable def powerInto (w : Wave → ℂ) (p : Node) : ℝ := ‖w (.inn, p)‖ ^ 2 - ‖w (.out, p)‖ ^ 2

theorem powerInto_eq (w : Wave → ℂ) (p : Node) :
    powerInto w p = (volt w p * curr (fun x => star (w x)) p).re := by
  simp only [powerInto, volt, curr, Complex.sq_norm, Complex.normSq_apply, Complex.star_def, Complex.mul_re, Complex.add_re,
    Complex.sub_re, Complex.add_im, Complex.sub_im, Complex.conj_re, Complex.conj_im]
  ring

theorem Junction.Law.star {j : Junction} {w : Wave → ℂ} (h : j.Law w) : j.Law fun x => star (w x) := by
  have hv : ∀ p, volt (fun x => Star.star (w x)) p = Star.star (volt w p) := fun p => by simp [volt]
  have hc : ∀ p, curr (fun x => Star.star (w x)) p = Star.star (curr w p) := fun p => by simp [curr]
  refine ⟨fun p hp q hq => by rw [hv, hv, h.1 p hp q hq], ?_⟩
  have h2 := congrArg Star.star h.2
  have : (j.members.map (curr fun x => Star.star (w x))).sum = Star.star (j.members.map (curr w)).sum := by
    induction j.members with
    | nil => simp
    | cons p l ih => simp only [List.map_cons, List.sum_cons, star_add, ih, hc]
  rw [this, h2]
  cases j.new with
  | none => simp
  | some n => exact (hc n).symm

/-- **C23 (power balance).** What enters the external ports is what the blocks absorb plus what the loads absorb. -/
theorem C23_power_balance (hlaw : Lawful ops beh) (h : Built ops beh nan zb names net bh s ph)
    (hp : net.Plain) {w : Wave → ℂ} (hw : ∀ j ∈ net.juncs, j.Law w) :
    (net.free.map (powerInto w)).sum =
      (net.blkNodes.map (powerInto w)).sum + ((net.loads.map Prod.fst).map fun p => - powerInto w p).sum := by
  have t := C23_tellegen hlaw h hp hw fun j hj => (hw j hj).star
  have t := congrArg Complex.re t
  have e : ∀ l : List Node, (l.map fun p => volt w p * curr (fun x => star (w x)) p).sum.re = (l.map (powerInto w)).sum := by
    intro l
    induction l with
    | nil => simp
    | cons p l ih => simp only [List.map_cons, List.sum_cons, Complex.add_re, ih, powerInto_eq]
  have e' : ∀ l : List Node, (l.map fun p => - powerInto w p).sum = - (l.map (powerInto w)).sum := by
    intro l
    induction l with
    | nil => simp
    | cons p l ih => simp only [List.map_cons, List.sum_cons, ih]; ring
  rw [Complex.add_re, e, e, e] at t
  rw [e']; linarith

/-- a load that absorbs power: nonnegative resistance, conductance, or `|r| ≤ 1` -/
def Load.Passive : Load ℂ → Prop
  | .Z z => 0 ≤ z.re
  | .Y y => 0 ≤ y.re
  | .RC r => ‖r‖ ≤ 1

/-- a load that absorbs no power -/
def Load.Lossless : Load ℂ → Prop
  | .Z z => z.re = 0
  | .Y y => y.re = 0
  | .RC r => ‖r‖ = 1

theorem absorb_eq (i o : ℂ) : ‖o‖ ^ 2 - ‖i‖ ^ 2 = ((i + o) * star (o - i)).re := by
  simp only [Complex.sq_norm, Complex.normSq_apply, Complex.star_def, Complex.mul_re, Complex.add_re,
    Complex.sub_re, Complex.add_im, Complex.sub_im, Complex.conj_re, Complex.conj_im]
  ring

theorem absorb_Z {r : ℝ} {z i o : ℂ} (h : (r : ℂ) * (i + o) = z * (o - i)) :
    r * (‖o‖ ^ 2 - ‖i‖ ^ 2) = z.re * ‖o - i‖ ^ 2 := by
  have h1 : r * (‖o‖ ^ 2 - ‖i‖ ^ 2) = ((r : ℂ) * (i + o) * star (o - i)).re := by
    rw [absorb_eq, mul_assoc, Complex.re_ofReal_mul]
  rw [h1, h, mul_assoc, Complex.star_def, Complex.mul_conj, Complex.sq_norm, Complex.re_mul_ofReal]

theorem absorb_Y {r : ℝ} {y i o : ℂ} (h : o - i = y * ((r : ℂ) * (i + o))) :
    ‖o‖ ^ 2 - ‖i‖ ^ 2 = r * (y.re * ‖i + o‖ ^ 2) := by
  rw [absorb_eq, h]
  have : (i + o) * star (y * ((r : ℂ) * (i + o))) = ((r * Complex.normSq (i + o) : ℝ) : ℂ) * star y := by
    simp only [Complex.star_def, map_mul, Complex.conj_ofReal]
    rw [Complex.ofReal_mul, ← Complex.mul_conj]
    ring
  rw [this, Complex.re_ofReal_mul, Complex.sq_norm, Complex.star_def, Complex.conj_re]
  ring

theorem Load.Passive.absorbs {r : ℝ} (hr : 0 < r) {l : Load ℂ} (hl : l.Passive) {i o : ℂ} (h : l.Law (r : ℂ) i o) :
    ‖i‖ ^ 2 ≤ ‖o‖ ^ 2 := by
  cases l with
  | Z z =>
    have := absorb_Z h
    have h2 : 0 ≤ z.re * ‖o - i‖ ^ 2 := mul_nonneg hl (sq_nonneg _)
    rw [← this] at h2
    have := (mul_nonneg_iff_of_pos_left hr).1 h2
    linarith
  | Y y =>
    have := absorb_Y h
    have h2 : 0 ≤ r * (y.re * ‖i + o‖ ^ 2) := mul_nonneg hr.le (mul_nonneg hl (sq_nonneg _))
    linarith
  | RC ρ =>
    simp only [Load.Law] at h
    rw [h, norm_mul, mul_pow]
    have : ‖ρ‖ ^ 2 ≤ 1 := pow_le_one₀ (norm_nonneg _) hl
    nlinarith [sq_nonneg ‖o‖]

theorem Load.Lossless.absorbs {r : ℝ} (hr : 0 < r) {l : Load ℂ} (hl : l.Lossless) {i o : ℂ} (h : l.Law (r : ℂ) i o) :
    ‖i‖ ^ 2 = ‖o‖ ^ 2 := by
  cases l with
  | Z z =>
    have := absorb_Z h
    rw [show z.re = 0 from hl, zero_mul] at this
    have := (mul_eq_zero.1 this).resolve_left hr.ne'
    linarith
  | Y y =>
    have := absorb_Y h
    rw [show y.re = 0 from hl, zero_mul, mul_zero] at this
    linarith
  | RC ρ =>
    simp only [Load.Law] at h
    rw [h, norm_mul, mul_pow, show ‖ρ‖ = 1 from hl]; ring

/-- the power entering ports at which `b = S a` -/
theorem port_power {S : SMat ℂ} {ports : List Node} (hn : S.n = ports.length) {w : Wave → ℂ}
    (h : ∀ i : Fin ports.length, w (.out, ports[i]) = ∑ j : Fin ports.length, S.at i j * w (.inn, ports[j])) :
    (ports.map (powerInto w)).sum = power (fun j : Fin S.n => w (.inn, ports[Fin.cast hn j])) -
      power (S.m.mulVec fun j => w (.inn, ports[Fin.cast hn j])) := by
  rw [sum_map_fin]
  simp only [powerInto, Finset.sum_sub_distrib, power]
  congr 1
  · exact (Fintype.sum_equiv (finCongr hn) _ _ fun j => rfl).symm
  · refine (Fintype.sum_equiv (finCongr hn) _ _ fun j => ?_).symm
    have := h (Fin.cast hn j)
    rw [at_mulVec S hn (fun j => w (.inn, ports[j]))] at this
    rw [show (finCongr hn) j = Fin.cast hn j from rfl, this]
    rfl

/-- **C23 (passivity).** On a real positive reference: passive blocks and passive loads make a passive circuit. -/
theorem C23_passive {r : ℝ} (hr : 0 < r) (hlaw : Lawful ops beh) (h : Built ops beh nan (r : ℂ) names net bh s ph)
    (hph : ph ≠ .reloaded) (hp : net.Plain) {f : F} {fl : Fl} {S : SMat ℂ}
    (hs : getS ops s f none fl = (s', .ok S)) {Sof : String → SMat ℂ} (hS : Given net bh f (r : ℂ) fl Sof)
    (hb : ∀ x ∈ net.blks, Passive (Sof x.1).m) (hl : ∀ x ∈ net.loads, x.2.Passive) : Passive S.m := by
  have hsc := (C20_getS_sound hlaw h hph hs).2 Sof hS
  have hinv := (Built.eval h hs).inv hlaw
  have hpnd : s'.ports.Nodup := hinv.rep.rep.pnd
  intro a
  obtain ⟨w, hw, hwi⟩ := hsc.exists_sol fun p => if hh : idx s'.ports p < S.n then a ⟨_, hh⟩ else 0
  have hain : (fun j : Fin S.n => w (.inn, s'.ports[Fin.cast hsc.size j])) = a := by
    funext j
    rw [hwi _ (fin_mem _)]
    have : idx s'.ports s'.ports[Fin.cast hsc.size j] = j := by
      simp only [idx, Fin.getElem_fin]; exact hpnd.idxOf_getElem _ _
    simp only [this, j.2, dif_pos]
  have hpow := port_power hsc.size (hsc.out w hw)
  rw [hain] at hpow
  have hbal := C23_power_balance hlaw h hp hw.2.1.1
  rw [← sum_map_perm hinv.rep.ports_perm, hpow] at hbal
  have h1 : 0 ≤ (net.blkNodes.map (powerInto w)).sum := by
    simp only [Net.blkNodes, sum_flatMap]
    apply List.sum_nonneg
    intro y hy
    simp only [List.mem_map] at hy
    obtain ⟨x, hx, rfl⟩ := hy
    have hsz : (Sof x.1).n = (x.2.map (Node.blk x.1)).length := by rw [(h.inv hlaw).size hlaw hS hx, List.length_map]
    rw [port_power hsz (hw.1 x hx).ports]
    have := hb x hx fun j => w (.inn, (x.2.map (Node.blk x.1))[Fin.cast hsz j])
    linarith
  have h2 : 0 ≤ ((net.loads.map Prod.fst).map fun p => - powerInto w p).sum := by
    apply List.sum_nonneg
    intro y hy
    simp only [List.mem_map] at hy
    obtain ⟨p, ⟨x, hx, rfl⟩, rfl⟩ := hy
    have := (hl x hx).absorbs hr (hw.2.2 x hx)
    simp only [powerInto]; linarith
  linarith

/-- **C23 (losslessness).** On a real positive reference: lossless blocks and lossless loads make a lossless circuit. -/
theorem C23_lossless {r : ℝ} (hr : 0 < r) (hlaw : Lawful ops beh) (h : Built ops beh nan (r : ℂ) names net bh s ph)
    (hph : ph ≠ .reloaded) (hp : net.Plain) {f : F} {fl : Fl} {S : SMat ℂ}
    (hs : getS ops s f none fl = (s', .ok S)) {Sof : String → SMat ℂ} (hS : Given net bh f (r : ℂ) fl Sof)
    (hb : ∀ x ∈ net.blks, Lossless (Sof x.1).m) (hl : ∀ x ∈ net.loads, x.2.Lossless) : Lossless S.m := by
  have hsc := (C20_getS_sound hlaw h hph hs).2 Sof hS
  have hinv := (Built.eval h hs).inv hlaw
  have hpnd : s'.ports.Nodup := hinv.rep.rep.pnd
  intro a
  obtain ⟨w, hw, hwi⟩ := hsc.exists_sol fun p => if hh : idx s'.ports p < S.n then a ⟨_, hh⟩ else 0
  have hain : (fun j : Fin S.n => w (.inn, s'.ports[Fin.cast hsc.size j])) = a := by
    funext j
    rw [hwi _ (fin_mem _)]
    have : idx s'.ports s'.ports[Fin.cast hsc.size j] = j := by
      simp only [idx, Fin.getElem_fin]; exact hpnd.idxOf_getElem _ _
    simp only [this, j.2, dif_pos]
  have hpow := port_power hsc.size (hsc.out w hw)
  rw [hain] at hpow
  have hbal := C23_power_balance hlaw h hp hw.2.1.1
  rw [← sum_map_perm hinv.rep.ports_perm, hpow] at hbal
  have h1 : (net.blkNodes.map (powerInto w)).sum = 0 := by
    simp only [Net.blkNodes, sum_flatMap]
    apply List.sum_eq_zero
    intro y hy
    simp only [List.mem_map] at hy
    obtain ⟨x, hx, rfl⟩ := hy
    have hsz : (Sof x.1).n = (x.2.map (Node.blk x.1)).length := by rw [(h.inv hlaw).size hlaw hS hx, List.length_map]
    rw [port_power hsz (hw.1 x hx).ports]
    have := hb x hx fun j => w (.inn, (x.2.map (Node.blk x.1))[Fin.cast hsz j])
    linarith
  have h2 : ((net.loads.map Prod.fst).map fun p => - powerInto w p).sum = 0 := by
    apply List.sum_eq_zero
    intro y hy
    simp only [List.mem_map] at hy
    obtain ⟨p, ⟨x, hx, rfl⟩, rfl⟩ := hy
    have := (hl x hx).absorbs hr (hw.2.2 x hx)
    simp only [powerInto]; linarith
  linarith

end

/-! ## a concrete case -/

namespace Ex

/-- C23_reciprocal applies to the circuit of `CircuitExamples.lean` -/
example {s' : E} {S : SMat ℚ} (hs : getS o s4 () none () = (s', .ok S)) : Reciprocal S.m := by
  refine C23_reciprocal (imm_lawful _ _ _) built (by decide) ⟨rfl, rfl⟩ (by norm_num) hs given ?_
  intro x hx
  simp only [net, List.mem_cons, List.not_mem_nil, or_false] at hx
  rcases hx with rfl | rfl
  · show mA.transpose = mA
    ext i j; fin_cases i <;> fin_cases j <;> simp [mA]
  · show mB.transpose = mB
    ext i j; fin_cases i <;> fin_cases j <;> simp [mB]

def thru : Imm ℂ Unit Unit where
  len := 2
  ports := some ["1", "2"]
  xpos := some [0, 1]
  beh _ _ _ := .ok ⟨2, !![0, 1; 1, 0]⟩
  sized _ _ _ S h := by injection h with h; rw [← h]
  placed xs h := by injection h with h; rw [← h]; decide

abbrev oc := immOps ℂ Unit Unit
abbrev Ec := St ℂ (Imm ℂ Unit Unit) Unit Unit
noncomputable def c0 : Ec := St.init ((50 : ℝ) : ℂ) []
noncomputable def c1 : Ec := (addblock oc 0 c0 "A" thru .none 0).1
noncomputable def c2 : Ec := (terminate c1 (.blk "A" "2") (.RC (1/2))).1

theorem stepc1 : addblock oc 0 c0 "A" thru .none 0 = (c1, .ok ()) := Prod.ext rfl rfl
theorem stepc2 : terminate c1 (.blk "A" "2") (.RC (1/2)) = (c2, .ok ()) := Prod.ext rfl rfl

noncomputable def netc : Net ℂ where
  blks := [("A", ["1", "2"])]
  nodes := [.blk "A" "1", .blk "A" "2"]
  juncs := []
  loads := [(.blk "A" "2", .RC (1/2))]
  crosses := []
  sames := []

def bhc : Behave ℂ Unit Unit := Function.update (fun _ _ _ _ => .error .valueError) "A" thru.beh

theorem builtc : Built oc Imm.beh 0 ((50 : ℝ) : ℂ) [] netc bhc c2 .building := by
  have h0 : Built oc Imm.beh 0 ((50 : ℝ) : ℂ) [] Net.empty (fun _ _ _ _ => .error .valueError) c0 .building := Built.init _
  have h1 := Built.addblock h0 (by decide) (ports := ["1", "2"]) rfl (by decide) stepc1
  exact Built.terminate h1 (l := .RC (1/2)) rfl stepc2

theorem givenc : Given netc bhc () ((50 : ℝ) : ℂ) () fun _ => ⟨2, !![0, 1; 1, 0]⟩ := by
  intro x hx
  simp only [netc, List.mem_cons, List.not_mem_nil, or_false] at hx
  subst hx; rfl

/-- the equations of the loaded through line have one solution for any wave that enters -/
theorem solvable_c : Solvable (netc.Laws ((50 : ℝ) : ℂ) fun _ => ⟨2, !![0, 1; 1, 0]⟩) netc.nodes netc.free := by
  have hl : ∀ w, netc.Laws ((50 : ℝ) : ℂ) (fun _ => ⟨2, !![0, 1; 1, 0]⟩) w ↔
      (w (.out, .blk "A" "1") = w (.inn, .blk "A" "2") ∧ w (.out, .blk "A" "2") = w (.inn, .blk "A" "1")) ∧
      w (.inn, .blk "A" "2") = 1/2 * w (.out, .blk "A" "2") := by
    intro w
    have hA : BlockLaw (⟨2, !![0, 1; 1, 0]⟩ : SMat ℂ) "A" ["1", "2"] w ↔
        w (.out, .blk "A" "1") = w (.inn, .blk "A" "2") ∧ w (.out, .blk "A" "2") = w (.inn, .blk "A" "1") := by
      simp only [BlockLaw, List.length_cons, List.length_nil]
      rw [Fin.forall_fin_two]
      simp [SMat.at, Fin.sum_univ_two]
    simp only [Net.Laws, Net.CoreLaws, netc, List.forall_mem_cons, List.not_mem_nil, false_implies, implies_true,
      and_true, hA, Load.Law, true_and]
  have hf : netc.free = [.blk "A" "1"] := rfl
  rw [hf]
  constructor
  · intro a
    refine ⟨fun x => if x = (.inn, .blk "A" "1") ∨ x = (.out, .blk "A" "2") then a (.blk "A" "1")
      else 1/2 * a (.blk "A" "1"), ?_, ?_⟩
    · rw [hl]; simp
    · simp
  · intro w w' h h' hi n hn d
    rw [hl] at h h'
    have hi := hi (.blk "A" "1") (by simp)
    obtain ⟨⟨a, b⟩, e⟩ := h
    obtain ⟨⟨a', b'⟩, e'⟩ := h'
    simp only [netc, List.mem_cons, List.not_mem_nil, or_false] at hn
    rcases hn with rfl | rfl <;> cases d <;> simp only [a, b, e, a', b', e', hi]

/-- the loaded through line can be evaluated -/
theorem getS_c2 : ∃ s' S, getS oc c2 () none () = (s', .ok S) := by
  have hg := givenc
  refine (C20_getS_complete (imm_lawful _ _ _) builtc (by decide) hg (by decide) (Or.inl ?_)).2 ?_
  · obtain ⟨hi, hb, -⟩ := builtc.all (imm_lawful _ _ _)
    obtain ⟨-, ha, -⟩ := hb rfl
    simp [St.names, ha, hi.nm]
  · exact solvable_c

/-- C23_passive applies: a through line with a passive load is passive, and `getS` does return its matrix -/
example : (∃ s' S, getS oc c2 () none () = (s', .ok S)) ∧
    ∀ s' S, getS oc c2 () none () = (s', .ok S) → Passive S.m := by
  have hg := givenc
  constructor
  · exact getS_c2
  · intro s' S hs
    refine C23_passive (by norm_num) (imm_lawful _ _ _) builtc (by decide) ⟨rfl, rfl⟩ hs hg ?_ ?_
    · intro x hx a
      show power (Matrix.mulVec !![(0:ℂ), 1; 1, 0] a) ≤ power a
      simp [power, Fin.sum_univ_two, Matrix.mulVec, dotProduct, add_comm]
    · intro x hx
      simp only [netc, List.mem_cons, List.not_mem_nil, or_false] at hx
      subst hx
      show ‖(1/2 : ℂ)‖ ≤ 1
      norm_num

end Ex
end PyRFtk.Circuit
