import Verif.Cascade
import Mathlib.Analysis.Calculus.Deriv.Comp
import Mathlib.Topology.Algebra.Module.FiniteDimension
import Mathlib.Analysis.Complex.Basic

/-!
# C89: scaling impedances and frequencies, and conjugation

The model is `CircuitModel` with the block objects of `Parts` (rfTRL.py, rfRLC.py, rfBase.py:270-287, rfCircuit.py:addblock, connect 767-923, terminate 870-985,
getS 1249-1345).
-/

namespace PyRFtk.Circuit

/-! ## specification -/

/-- a value times a number (an infinite value stays infinite) -/
def _root_.PyRFtk.RLC.Ext.times (c : ℝ) : RLC.Ext → RLC.Ext
  | .fin x => .fin (c * x)
  | .inf => .inf

/-- `q` at the frequency `m f` is `p` at the frequency `f` with all impedances multiplied by `k`: resistances times `k`, inductances times `k / m`, capacitances
divided by `k m`; series impedance per length times `k`, shunt admittance divided by `k`; tables of matrices are the same on a reference multiplied by `k` -/
inductive Part.Scaled (k m f : ℝ) : Part → Part → Prop
  | line (l l' : TRL.Line) (hL : l'.L = l.L) (hz : ∀ x, l'.z (2 * Real.pi * (m * f)) x = k * l.z (2 * Real.pi * f) x)
      (hy : ∀ x, l'.y (2 * Real.pi * (m * f)) x = l.y (2 * Real.pi * f) x / k) : Part.Scaled k m f (.line l) (.line l')
  | rlc (s s' : RLC.St) (hR : ∀ q ∈ [RLC.Elem.Rs, .Rp], s'.elem q = (s.elem q).times k) (hL : ∀ q ∈ [RLC.Elem.Ls, .Lp], s'.elem q = (s.elem q).times (k / m))
      (hC : ∀ q ∈ [RLC.Elem.Cs, .Cp], s'.elem q = (s.elem q).times (1 / (k * m))) : Part.Scaled k m f (.rlc s) (.rlc s')
  | base (n : ℕ) (g g' : ℝ → Except Err (Matrix (Fin n) (Fin n) ℂ)) (Z : ℝ) (h : g' (m * f) = g f) : Part.Scaled k m f (.base n g Z) (.base n g' (k * Z))

/-- the object at the negative frequency is its own complex conjugate; lumped elements always are -/
inductive Part.RealValued (f : ℝ) : Part → Prop
  | line (l : TRL.Line) (hz : ∀ x, l.z (2 * Real.pi * -f) x = starRingEnd ℂ (l.z (2 * Real.pi * f) x))
      (hy : ∀ x, l.y (2 * Real.pi * -f) x = starRingEnd ℂ (l.y (2 * Real.pi * f) x)) : Part.RealValued f (.line l)
  | rlc (s : RLC.St) : Part.RealValued f (.rlc s)
  | base (n : ℕ) (g : ℝ → Except Err (Matrix (Fin n) (Fin n) ℂ)) (Z : ℝ) (T : Matrix (Fin n) (Fin n) ℂ) (h : g f = .ok T) (h' : g (-f) = .ok (T.map (starRingEnd ℂ))) :
      Part.RealValued f (.base n g Z)

/-- a load with its impedance changed -/
noncomputable def Load.change (σ : ℂ → ℂ) (k : ℝ) : Load ℂ → Load ℂ
  | .Z z => .Z (k * σ z)
  | .Y y => .Y (σ y / k)
  | .RC r => .RC (σ r)

/-- the same connections, in any order, the loads changed -/
structure Net.Alike (σ : ℂ → ℂ) (k : ℝ) (net net' : Net ℂ) : Prop where
  nodes : net'.nodes.Perm net.nodes
  juncs : net'.juncs.Perm net.juncs
  loads : net'.loads.Perm (net.loads.map fun x => (x.1, x.2.change σ k))
  crosses : net'.crosses.Perm net.crosses
  sames : net'.sames.Perm net.sames

/-- the same blocks, in any order, the objects related by `R` -/
def BlocksAlike {O O' : Type*} (R : O → O' → Prop) (bs : List (Blk O)) (bs' : List (Blk O')) : Prop :=
  (∀ b ∈ bs, ∃ b' ∈ bs', b'.name = b.name ∧ b'.ports = b.ports ∧ R b.obj b'.obj) ∧ ∀ b' ∈ bs', ∃ b ∈ bs, b'.name = b.name ∧ b'.ports = b.ports ∧ R b.obj b'.obj

/-! ## states at the ports -/

section
variable {O Fl : Type} [DecidableEq Fl] {ops : ObjOps ℂ O ℝ Fl} {beh : O → ℝ → ℂ → Fl → Except Err (SMat ℂ)} {law : O → (v i : ℕ → ℂ) → Prop}
  {nan : ℂ} {r z f : ℝ} {names : List Node} {net : Net ℂ} {bh : Behave ℂ ℝ Fl} {s s' : St ℂ O ℝ Fl} {ph : Phase} {fl : Fl} {S : SMat ℂ}

theorem sum_between {po : List Node} (hnd : po.Nodup) (a : Node) (g : Node → ℂ) :
    (po.map fun q => S.between po a q * g q).sum = ∑ j : Fin po.length, S.at (idx po a) j * g po[j] := by
  rw [← Fin.sum_univ_fun_getElem]
  refine Finset.sum_congr rfl fun j _ => ?_
  have : idx po po[j] = j := by
    unfold idx
    exact hnd.idxOf_getElem j.1 j.2
  unfold SMat.between
  rw [show po[j.1] = po[j] from rfl, this]

theorem reads (hlaw : Lawful ops beh) (hr : r ≠ 0) (hz : z ≠ 0) (h : Built ops beh nan (r : ℂ) names net bh s ph) (hph : ph ≠ .reloaded)
    (hp : ∀ b ∈ s.blocks, Obeys ops beh law f r fl b.obj) (hs : getS ops s f (some (z : ℂ)) fl = (s', .ok S)) (hnd : s'.ports.Nodup) {V I : Node → ℂ}
    (hV : PhysicsL law net r s.blocks V I) {a : Node} (ha : a ∈ s'.ports) :
    V a - z * I a = (s'.ports.map fun q => S.between s'.ports a q * (V q + z * I q)).sum := by
  have key := (physics_of_laws hlaw hr hz h hph hp hs (fun k => V s'.ports[k]) (fun k => I s'.ports[k])).2 ⟨V, I, hV, fun _ => ⟨rfl, rfl⟩⟩
  have := congrFun key ⟨idx s'.ports a, idx_lt ha⟩
  have e1 : s'.ports[(⟨idx s'.ports a, idx_lt ha⟩ : Fin s'.ports.length)] = a := by simp [idx]
  simp only [e1, Matrix.mulVec, dotProduct, Matrix.of_apply] at this
  rw [sum_between hnd, show V a - z * I a = 2 * ((V a - z * I a) / 2) by ring, this, Finset.mul_sum]
  refine Finset.sum_congr rfl fun j _ => ?_
  ring

theorem drives (hlaw : Lawful ops beh) (hr : r ≠ 0) (hz : z ≠ 0) (h : Built ops beh nan (r : ℂ) names net bh s ph) (hph : ph ≠ .reloaded)
    (hp : ∀ b ∈ s.blocks, Obeys ops beh law f r fl b.obj) (hs : getS ops s f (some (z : ℂ)) fl = (s', .ok S)) (e : Node → ℂ) :
    ∃ V I : Node → ℂ, PhysicsL law net r s.blocks V I ∧ ∀ p ∈ s'.ports, V p + z * I p = e p := by
  have hzc : (z : ℂ) ≠ 0 := by exact_mod_cast hz
  let T : Matrix (Fin s'.ports.length) (Fin s'.ports.length) ℂ := Matrix.of fun a b => S.at a b
  let x : Fin s'.ports.length → ℂ := fun k => e s'.ports[k] / 2
  obtain ⟨V, I, hV, hvi⟩ := (physics_of_laws hlaw hr hz h hph hp hs (fun k => x k + T.mulVec x k) (fun k => (x k - T.mulVec x k) / z)).1 (by
    unfold ScatterV
    have e : (fun k => ((x k + T.mulVec x k) + (z : ℂ) * ((x k - T.mulVec x k) / z)) / 2) = x := by
      funext k; field_simp; ring
    rw [e]
    funext k; field_simp; ring)
  refine ⟨V, I, hV, fun p hpm => ?_⟩
  obtain ⟨h1, h2⟩ := hvi ⟨idx s'.ports p, idx_lt hpm⟩
  have e1 : s'.ports[(⟨idx s'.ports p, idx_lt hpm⟩ : Fin s'.ports.length)] = p := by simp [idx]
  rw [e1] at h1 h2
  rw [h1, h2]
  have : x ⟨idx s'.ports p, idx_lt hpm⟩ = e p / 2 := by simp only [x, e1]
  field_simp
  rw [this]
  ring

end

/-! ## carrying states from one circuit to another -/

theorem alg_real (σ : ℂ ≃ₐ[ℝ] ℂ) (x : ℝ) : σ (x : ℂ) = x := σ.commutes x

theorem ohm_map (σ : ℂ ≃ₐ[ℝ] ℂ) {k r : ℝ} (hk : k ≠ 0) {l : Load ℂ} {V I : ℂ} (h : l.Ohm r V I) : (l.change σ k).Ohm ((k * r : ℝ) : ℂ) (k * σ V) (σ I) := by
  have hkc : (k : ℂ) ≠ 0 := by exact_mod_cast hk
  cases l with
  | Z z =>
    have h : V = z * (-I) := h
    show (k : ℂ) * σ V = k * σ z * (- σ I)
    rw [h]; simp only [map_mul, map_neg]; ring
  | Y y =>
    have h : -I = y * V := h
    show -σ I = σ y / k * (k * σ V)
    rw [← map_neg, h, map_mul]; field_simp
  | RC ρ =>
    have h : V + r * I = ρ * (V - r * I) := h
    show (k : ℂ) * σ V + ((k * r : ℝ) : ℂ) * σ I = σ ρ * (k * σ V - ((k * r : ℝ) : ℂ) * σ I)
    have h2 := congrArg σ h
    simp only [map_mul, map_add, map_sub, alg_real] at h2
    push_cast
    linear_combination (k : ℂ) * h2

theorem ohm_unmap (σ : ℂ ≃ₐ[ℝ] ℂ) {k r : ℝ} (hk : k ≠ 0) {l : Load ℂ} {V I : ℂ} (h : (l.change σ k).Ohm ((k * r : ℝ) : ℂ) (k * σ V) (σ I)) : l.Ohm r V I := by
  have hkc : (k : ℂ) ≠ 0 := by exact_mod_cast hk
  cases l with
  | Z z =>
    have h : (k : ℂ) * σ V = k * σ z * (- σ I) := h
    show V = z * (-I)
    apply σ.injective
    apply mul_left_cancel₀ hkc
    rw [h]; simp only [map_mul, map_neg]; ring
  | Y y =>
    have h : -σ I = σ y / k * (k * σ V) := h
    show -I = y * V
    apply σ.injective
    rw [map_neg, h, map_mul]; field_simp
  | RC ρ =>
    have h : (k : ℂ) * σ V + ((k * r : ℝ) : ℂ) * σ I = σ ρ * (k * σ V - ((k * r : ℝ) : ℂ) * σ I) := h
    show V + r * I = ρ * (V - r * I)
    apply σ.injective
    apply mul_left_cancel₀ hkc
    simp only [map_mul, map_add, map_sub, alg_real]
    push_cast at h
    linear_combination h

theorem kirchhoff_map (σ : ℂ ≃ₐ[ℝ] ℂ) {k : ℝ} (hk : k ≠ 0) {j : Junction} {V I : Node → ℂ} : j.Kirchhoff (fun n => k * σ (V n)) (fun n => σ (I n)) ↔ j.Kirchhoff V I := by
  have hkc : (k : ℂ) ≠ 0 := by exact_mod_cast hk
  have hinj : ∀ x y : ℂ, (k : ℂ) * σ x = k * σ y ↔ x = y := fun x y => by
    rw [mul_right_inj' hkc, σ.injective.eq_iff]
  have hsum : (j.members.map fun n => σ (I n)).sum = σ (j.members.map I).sum := by
    rw [map_list_sum, List.map_map]; rfl
  unfold Junction.Kirchhoff
  simp only [hinj, hsum]
  cases j.new with
  | none => simp
  | some n => simp

section
variable {O O' : Type*} {law : O → (v i : ℕ → ℂ) → Prop} {law' : O' → (v i : ℕ → ℂ) → Prop} {R : O → O' → Prop} {net net' : Net ℂ} {r k : ℝ}
  {bs : List (Blk O)} {bs' : List (Blk O')} {σ : ℂ ≃ₐ[ℝ] ℂ}

theorem physics_map (hk : k ≠ 0) (hR : ∀ o o', R o o' → ∀ v i, law o v i ↔ law' o' (fun n => k * σ (v n)) (fun n => σ (i n))) (hn : net.Alike σ k net')
    (hb : BlocksAlike R bs bs') {V I : Node → ℂ} :
    PhysicsL law net r bs V I ↔ PhysicsL law' net' ((k * r : ℝ) : ℂ) bs' (fun n => k * σ (V n)) (fun n => σ (I n)) := by
  have hkc : (k : ℂ) ≠ 0 := by exact_mod_cast hk
  have hinj : ∀ x y : ℂ, (k : ℂ) * σ x = k * σ y ↔ x = y := fun x y => by
    rw [mul_right_inj' hkc, σ.injective.eq_iff]
  constructor
  · intro h
    refine ⟨fun b' hb' => ?_, fun j hj => ?_, fun x hx => ?_, fun x hx => ?_, fun x hx => ?_⟩
    · obtain ⟨b, hbm, e1, e2, hr⟩ := hb.2 b' hb'
      rw [e1, e2]
      exact (hR _ _ hr _ _).1 (h.parts b hbm)
    · exact (kirchhoff_map σ hk).2 (h.juncs j (hn.juncs.mem_iff.1 hj))
    · rw [hn.loads.mem_iff, List.mem_map] at hx
      obtain ⟨y, hy, rfl⟩ := hx
      exact ohm_map σ hk (h.loads y hy)
    · obtain ⟨h1, h2⟩ := h.crosses x (hn.crosses.mem_iff.1 hx)
      exact ⟨by simp only [h1], by simp only [h2, map_neg]⟩
    · obtain ⟨h1, h2⟩ := h.sames x (hn.sames.mem_iff.1 hx)
      exact ⟨by simp only [h1], by simp only [h2]⟩
  · intro h
    refine ⟨fun b hbm => ?_, fun j hj => ?_, fun x hx => ?_, fun x hx => ?_, fun x hx => ?_⟩
    · obtain ⟨b', hb', e1, e2, hr⟩ := hb.1 b hbm
      have := h.parts b' hb'
      rw [e1, e2] at this
      exact (hR _ _ hr _ _).2 this
    · exact (kirchhoff_map σ hk).1 (h.juncs j (hn.juncs.mem_iff.2 hj))
    · exact ohm_unmap σ hk (h.loads (x.1, x.2.change σ k) (hn.loads.mem_iff.2 (List.mem_map_of_mem hx)))
    · obtain ⟨h1, h2⟩ := h.crosses x (hn.crosses.mem_iff.2 hx)
      refine ⟨(hinj _ _).1 h1, σ.injective ?_⟩
      rw [map_neg]; exact h2
    · obtain ⟨h1, h2⟩ := h.sames x (hn.sames.mem_iff.2 hx)
      exact ⟨(hinj _ _).1 h1, σ.injective h2⟩

theorem alike_used {σ : ℂ → ℂ} (hn : net.Alike σ k net') (n : Node) : n ∈ net'.used ↔ n ∈ net.used := by
  unfold Net.used
  simp only [List.mem_append, List.mem_flatMap, List.mem_map]
  have e1 : (∃ a ∈ net'.juncs, n ∈ a.members) ↔ ∃ a ∈ net.juncs, n ∈ a.members := by simp only [hn.juncs.mem_iff]
  have e2 : (∃ a ∈ net'.crosses, a.1 = n) ↔ ∃ a ∈ net.crosses, a.1 = n := by simp only [hn.crosses.mem_iff]
  have e3 : (∃ a ∈ net'.sames, n ∈ [a.1, a.2]) ↔ ∃ a ∈ net.sames, n ∈ [a.1, a.2] := by simp only [hn.sames.mem_iff]
  have e4 : (∃ a ∈ net'.loads, a.1 = n) ↔ ∃ a ∈ net.loads, a.1 = n := by
    constructor
    · rintro ⟨a, ha, rfl⟩
      rw [hn.loads.mem_iff, List.mem_map] at ha
      obtain ⟨y, hy, rfl⟩ := ha
      exact ⟨y, hy, rfl⟩
    · rintro ⟨a, ha, rfl⟩
      exact ⟨_, hn.loads.mem_iff.2 (List.mem_map_of_mem ha), rfl⟩
  rw [e1, e2, e3, e4]

theorem alike_free {σ : ℂ → ℂ} (hn : net.Alike σ k net') : net'.free.Perm net.free := by
  unfold Net.free
  simp only [alike_used hn]
  exact hn.nodes.filter _

end

section
variable {O O' Fl : Type} [DecidableEq Fl] {ops : ObjOps ℂ O ℝ Fl} {beh : O → ℝ → ℂ → Fl → Except Err (SMat ℂ)} {law : O → (v i : ℕ → ℂ) → Prop}
  {nan nan' : ℂ} {r z f f' k : ℝ} {names names' : List Node} {net net' : Net ℂ} {bh bh' : Behave ℂ ℝ Fl} {s s1 : St ℂ O ℝ Fl} {ph ph' : Phase} {fl fl' : Fl}
  {ops' : ObjOps ℂ O' ℝ Fl} {beh' : O' → ℝ → ℂ → Fl → Except Err (SMat ℂ)} {law' : O' → (v i : ℕ → ℂ) → Prop} {t t1 : St ℂ O' ℝ Fl} {S T : SMat ℂ}
  {R : O → O' → Prop} {σ : ℂ ≃ₐ[ℝ] ℂ}

/-- the values of two circuits whose objects correspond -/
theorem carry (hlaw : Lawful ops beh) (hlaw' : Lawful ops' beh') (hr : r ≠ 0) (hz : z ≠ 0) (hk : k ≠ 0)
    (h : Built ops beh nan (r : ℂ) names net bh s ph) (hph : ph ≠ .reloaded)
    (h' : Built ops' beh' nan' ((k * r : ℝ) : ℂ) names' net' bh' t ph') (hph' : ph' ≠ .reloaded)
    (hp : ∀ b ∈ s.blocks, Obeys ops beh law f r fl b.obj) (hp' : ∀ b ∈ t.blocks, Obeys ops' beh' law' f' (k * r) fl' b.obj)
    (hR : ∀ o o', R o o' → ∀ v i, law o v i ↔ law' o' (fun n => k * σ (v n)) (fun n => σ (i n)))
    (hn : net.Alike σ k net') (hb : BlocksAlike R s.blocks t.blocks)
    (hs : getS ops s f (some (z : ℂ)) fl = (s1, .ok S)) (ht : getS ops' t f' (some ((k * z : ℝ) : ℂ)) fl' = (t1, .ok T)) :
    t1.ports.Perm s1.ports ∧ ∀ a ∈ s1.ports, ∀ b ∈ s1.ports, T.between t1.ports a b = σ (S.between s1.ports a b) := by
  have hkc : (k : ℂ) ≠ 0 := by exact_mod_cast hk
  have hi := (Built.eval h hs).inv hlaw
  have hi' := (Built.eval h' ht).inv hlaw'
  have hperm : t1.ports.Perm s1.ports := hi'.rep.ports_perm.trans ((alike_free hn).trans hi.rep.ports_perm.symm)
  have hnd : s1.ports.Nodup := hi.rep.ports_perm.nodup_iff.2 (hi.rep.rep.nnd.filter _)
  have hnd' : t1.ports.Nodup := hperm.nodup_iff.2 hnd
  refine ⟨hperm, fun a ha b hbm => ?_⟩
  obtain ⟨V, I, hV, he⟩ := drives hlaw hr hz h hph hp hs fun p => if p = b then 1 else 0
  have e1 := reads hlaw hr hz h hph hp hs hnd hV ha
  have e2 := reads hlaw' (mul_ne_zero hk hr) (mul_ne_zero hk hz) h' hph' hp' ht hnd' ((physics_map hk hR hn hb).1 hV) (hperm.mem_iff.2 ha)
  have pick : ∀ (po : List Node) (M : SMat ℂ) (g : Node → ℂ) (c : ℂ), po.Nodup → b ∈ po → (∀ q ∈ po, g q = if q = b then c else 0) →
      (po.map fun q => M.between po a q * g q).sum = M.between po a b * c := by
    intro po M g c hnd hb hg
    have : (po.map fun q => M.between po a q * g q) = po.map fun q => if q = b then M.between po a b * c else 0 := by
      refine List.map_congr_left fun p hp => ?_
      rw [hg p hp]
      by_cases e : p = b
      · simp [e]
      · simp [e]
    rw [this, List.sum_map_ite_eq]
    simp [List.count_eq_one_of_mem hnd hb]
  rw [pick _ _ _ 1 hnd hbm he, mul_one] at e1
  rw [pick _ _ _ (k : ℂ) hnd' (hperm.mem_iff.2 hbm) fun q hq => by
    have := congrArg σ (he q (hperm.mem_iff.1 hq))
    simp only [map_add, map_mul, alg_real] at this
    rw [show (k : ℂ) * σ (V q) + ((k * z : ℝ) : ℂ) * σ (I q) = k * (σ (V q) + z * σ (I q)) by push_cast; ring, this]
    split
    · simp
    · simp] at e2
  have e3 := congrArg σ e1
  simp only [map_sub, map_mul, alg_real] at e3
  apply mul_right_cancel₀ hkc
  rw [← e2, ← e3]
  push_cast
  ring

theorem physics_back (hk : k ≠ 0) (hR : ∀ o o', R o o' → ∀ v i, law o v i ↔ law' o' (fun n => k * σ (v n)) (fun n => σ (i n))) (hn : net.Alike σ k net')
    {bs : List (Blk O)} {bs' : List (Blk O')} (hb : BlocksAlike R bs bs') {V I : Node → ℂ} :
    PhysicsL law' net' ((k * r : ℝ) : ℂ) bs' V I ↔ PhysicsL law net r bs (fun n => σ.symm (V n / k)) (fun n => σ.symm (I n)) := by
  have hkc : (k : ℂ) ≠ 0 := by exact_mod_cast hk
  rw [physics_map hk hR hn hb]
  have e1 : (fun n => (k : ℂ) * σ (σ.symm (V n / k))) = V := by
    funext n; rw [AlgEquiv.apply_symm_apply]; field_simp
  have e2 : (fun n => σ (σ.symm (I n))) = I := by
    funext n; rw [AlgEquiv.apply_symm_apply]
  rw [e1, e2]

/-- … and when they answer -/
theorem carry_answers (hlaw : Lawful ops beh) (hlaw' : Lawful ops' beh') (hr : r ≠ 0) (hk : k ≠ 0)
    (h : Built ops beh nan (r : ℂ) names net bh s ph) (hph : ph ≠ .reloaded)
    (h' : Built ops' beh' nan' ((k * r : ℝ) : ℂ) names' net' bh' t ph') (hph' : ph' ≠ .reloaded)
    (hp : ∀ b ∈ s.blocks, Obeys ops beh law f r fl b.obj) (hp' : ∀ b ∈ t.blocks, Obeys ops' beh' law' f' (k * r) fl' b.obj)
    (ha : ∀ b ∈ s.blocks, ∃ X, beh b.obj f (r : ℂ) fl = .ok X) (ha' : ∀ b ∈ t.blocks, ∃ X, beh' b.obj f' ((k * r : ℝ) : ℂ) fl' = .ok X)
    (hfree : net.free ≠ []) (hnames : s.names = [] ∨ s.names.Perm net.free) (hnames' : t.names = [] ∨ t.names.Perm net'.free)
    (hR : ∀ o o', R o o' → ∀ v i, law o v i ↔ law' o' (fun n => k * σ (v n)) (fun n => σ (i n)))
    (hn : net.Alike σ k net') (hb : BlocksAlike R s.blocks t.blocks) :
    (∃ s1 S, getS ops s f none fl = (s1, .ok S)) ↔ ∃ t1 T, getS ops' t f' none fl' = (t1, .ok T) := by
  have hkc : (k : ℂ) ≠ 0 := by exact_mod_cast hk
  have hfp := alike_free hn
  have hfree' : net'.free ≠ [] := by
    intro e; rw [e] at hfp; exact hfree hfp.symm.eq_nil
  rw [answers_of_laws hlaw hr h hph hp ha hfree hnames, answers_of_laws hlaw' (mul_ne_zero hk hr) h' hph' hp' ha' hfree' hnames']
  have hexc : ∀ x y : ℂ, (k : ℂ) * σ x + ((k * r : ℝ) : ℂ) * σ y = k * σ (x + r * y) := by
    intro x y; simp only [map_add, map_mul, alg_real]; push_cast; ring
  have hback : ∀ x y : ℂ, σ.symm (x / k) + r * σ.symm y = σ.symm ((x + ((k * r : ℝ) : ℂ) * y) / k) := by
    intro x y
    apply σ.injective
    simp only [map_add, map_mul, alg_real, AlgEquiv.apply_symm_apply]
    push_cast; field_simp
  constructor
  · rintro ⟨h1, h2⟩
    refine ⟨fun e => ?_, fun V I V' I' hV hV' hpq n hnm => ?_⟩
    · obtain ⟨V, I, hV, he⟩ := h1 fun n => σ.symm (e n / k)
      refine ⟨_, _, (physics_map hk hR hn hb).1 hV, fun p hpf => ?_⟩
      rw [hexc, he p (hfp.mem_iff.1 hpf), AlgEquiv.apply_symm_apply]
      field_simp
    · have := h2 _ _ _ _ ((physics_back hk hR hn hb).1 hV) ((physics_back hk hR hn hb).1 hV') (fun p hpf => by
        rw [hback, hback, hpq p (hfp.mem_iff.2 hpf)]) n (hn.nodes.mem_iff.1 hnm)
      refine ⟨?_, σ.symm.injective this.2⟩
      have := σ.symm.injective this.1
      field_simp at this
      exact this
  · rintro ⟨h1, h2⟩
    refine ⟨fun e => ?_, fun V I V' I' hV hV' hpq n hnm => ?_⟩
    · obtain ⟨V, I, hV, he⟩ := h1 fun n => k * σ (e n)
      refine ⟨_, _, (physics_back hk hR hn hb).1 hV, fun p hpf => ?_⟩
      rw [hback, he p (hfp.mem_iff.2 hpf), mul_div_cancel_left₀ _ hkc, AlgEquiv.symm_apply_apply]
    · have := h2 _ _ _ _ ((physics_map hk hR hn hb).1 hV) ((physics_map hk hR hn hb).1 hV') (fun p hpf => by
        rw [hexc, hexc, hpq p (hfp.mem_iff.1 hpf)]) n (hn.nodes.mem_iff.2 hnm)
      refine ⟨σ.injective (mul_left_cancel₀ hkc this.1), σ.injective this.2⟩

end

/-! ## the laws of the objects -/

theorem telegraph_map (σ : ℂ ≃ₐ[ℝ] ℂ) {k : ℝ} (hk : k ≠ 0) {z y z' y' V I : ℝ → ℂ} (hz : ∀ x, z' x = k * σ (z x)) (hy : ∀ x, y' x = σ (y x) / k)
    (h : TRL.Telegraph z y V I) : TRL.Telegraph z' y' (fun x => k * σ (V x)) (fun x => σ (I x)) := by
  have hkc : (k : ℂ) ≠ 0 := by exact_mod_cast hk
  have hd : ∀ (g : ℝ → ℂ) g' x, HasDerivAt g g' x → HasDerivAt (fun x => σ (g x)) (σ g') x := by
    intro g g' x hg
    have := (LinearMap.toContinuousLinearMap σ.toLinearMap).hasFDerivAt.comp_hasDerivAt x hg
    exact this
  intro x
  obtain ⟨h1, h2⟩ := h x
  refine ⟨?_, ?_⟩
  · have := (hd _ _ _ h1).const_mul (k : ℂ)
    rw [map_mul, ← mul_assoc, ← hz] at this
    exact this
  · have := hd _ _ _ h2
    rw [map_mul] at this
    rw [hy, show σ (y x) / k * (k * σ (V x)) = σ (y x) * σ (V x) by field_simp]
    exact this

theorem lineLaw_map (σ : ℂ ≃ₐ[ℝ] ℂ) {k : ℝ} (hk : k ≠ 0) {z y z' y' : ℝ → ℂ} (hz : ∀ x, z' x = k * σ (z x)) (hy : ∀ x, y' x = σ (y x) / k) {L : ℝ} {v i : Fin 2 → ℂ} :
    TRL.LineLaw z y L v i ↔ TRL.LineLaw z' y' L (fun n => k * σ (v n)) (fun n => σ (i n)) := by
  have hkc : (k : ℂ) ≠ 0 := by exact_mod_cast hk
  constructor
  · rintro ⟨V, I, h, h1, h2, h3, h4⟩
    exact ⟨_, _, telegraph_map σ hk hz hy h, by simp only [h1], by simp only [h2], by simp only [h3, map_neg], by simp only [h4]⟩
  · rintro ⟨V, I, h, h1, h2, h3, h4⟩
    have hT := telegraph_map σ.symm (inv_ne_zero hk) (z' := z) (y' := y) (fun x => by
      rw [hz, map_mul, alg_real, AlgEquiv.symm_apply_apply]; push_cast; field_simp) (fun x => by
      rw [hy, map_div₀, alg_real, AlgEquiv.symm_apply_apply]; push_cast; field_simp) h
    have back : ∀ x : ℂ, ((k⁻¹ : ℝ) : ℂ) * σ.symm (k * σ x) = x := by
      intro x; rw [map_mul, alg_real, AlgEquiv.symm_apply_apply]; push_cast; field_simp
    refine ⟨_, _, hT, ?_, ?_, ?_, ?_⟩
    · simp only [h1, back]
    · simp only [h2, back]
    · simp only [h3, map_neg, AlgEquiv.symm_apply_apply]
    · simp only [h4, AlgEquiv.symm_apply_apply]

section
variable (σ : ℂ ≃ₐ[ℝ] ℂ) {k : ℝ} (hk : k ≠ 0)
include hk

theorem resistor_map {x : RLC.Ext} {v i : ℂ} : RLC.Resistor (x.times k) (k * σ v) (σ i) ↔ RLC.Resistor x v i := by
  have hkc : (k : ℂ) ≠ 0 := by exact_mod_cast hk
  cases x with
  | inf => exact (map_eq_zero_iff σ σ.injective)
  | fin R =>
    show (k : ℂ) * σ v = ((k * R : ℝ) : ℂ) * σ i ↔ v = R * i
    rw [← σ.injective.eq_iff (a := v), map_mul, alg_real, ← mul_right_inj' hkc (b := σ v)]
    push_cast
    rw [mul_assoc]

theorem inductor_map {ε w w' c : ℝ} (hσ : σ Complex.I = ε * Complex.I) (hc : w' * c = ε * k * w) {x : RLC.Ext} {v i : ℂ} :
    RLC.Inductor w' (x.times c) (k * σ v) (σ i) ↔ RLC.Inductor w x v i := by
  have hkc : (k : ℂ) ≠ 0 := by exact_mod_cast hk
  cases x with
  | inf => exact (map_eq_zero_iff σ σ.injective)
  | fin L =>
    show (k : ℂ) * σ v = Complex.I * w' * ((c * L : ℝ) : ℂ) * σ i ↔ v = Complex.I * w * L * i
    rw [← σ.injective.eq_iff (a := v), map_mul, map_mul, map_mul, alg_real, alg_real, hσ, ← mul_right_inj' hkc (b := σ v)]
    have hc' : (w' : ℂ) * c = ε * k * w := by exact_mod_cast hc
    have : Complex.I * w' * ((c * L : ℝ) : ℂ) * σ i = k * (ε * Complex.I * w * L * σ i) := by
      push_cast; linear_combination Complex.I * L * σ i * hc'
    rw [this]

theorem capacitor_map {ε w w' c : ℝ} (hσ : σ Complex.I = ε * Complex.I) (hc : w' * c * k = ε * w) {x : RLC.Ext} {v i : ℂ} :
    RLC.Capacitor w' (x.times c) (k * σ v) (σ i) ↔ RLC.Capacitor w x v i := by
  have hkc : (k : ℂ) ≠ 0 := by exact_mod_cast hk
  cases x with
  | inf =>
    show (k : ℂ) * σ v = 0 ↔ v = 0
    rw [mul_eq_zero, or_iff_right hkc]
    exact (map_eq_zero_iff σ σ.injective)
  | fin C =>
    show σ i = Complex.I * w' * ((c * C : ℝ) : ℂ) * (k * σ v) ↔ i = Complex.I * w * C * v
    rw [← σ.injective.eq_iff (a := i), map_mul, map_mul, map_mul, alg_real, alg_real, hσ]
    have hc' : (w' : ℂ) * c * k = ε * w := by exact_mod_cast hc
    have : Complex.I * w' * ((c * C : ℝ) : ℂ) * (k * σ v) = ε * Complex.I * w * C * σ v := by
      push_cast; linear_combination Complex.I * C * σ v * hc'
    rw [this]

theorem rlcLaw_map {ε w w' cL cC : ℝ} (hσ : σ Complex.I = ε * Complex.I) (hL : w' * cL = ε * k * w) (hC : w' * cC * k = ε * w) {e e' : RLC.Elem → RLC.Ext}
    (eR : ∀ q ∈ [RLC.Elem.Rs, .Rp], e' q = (e q).times k) (eL : ∀ q ∈ [RLC.Elem.Ls, .Lp], e' q = (e q).times cL)
    (eC : ∀ q ∈ [RLC.Elem.Cs, .Cp], e' q = (e q).times cC) {v i : Fin 2 → ℂ} :
    RLC.Law e w v i ↔ RLC.Law e' w' (fun n => k * σ (v n)) (fun n => σ (i n)) := by
  have hkc : (k : ℂ) ≠ 0 := by exact_mod_cast hk
  have sv : ∀ x : ℂ, ∃ y, x = k * σ y := fun x => ⟨σ.symm (x / k), by rw [AlgEquiv.apply_symm_apply]; field_simp⟩
  have si : ∀ x : ℂ, ∃ y, x = σ y := fun x => ⟨σ.symm x, by rw [AlgEquiv.apply_symm_apply]⟩
  have k1 : ∀ vC vL vR : ℂ, (k : ℂ) * σ (v 0) - k * σ (v 1) = k * σ vC + k * σ vL + k * σ vR ↔ v 0 - v 1 = vC + vL + vR := by
    intro vC vL vR
    rw [← σ.injective.eq_iff (a := v 0 - v 1), map_sub, map_add, map_add, ← mul_right_inj' hkc (b := σ (v 0) - σ (v 1))]
    constructor <;> intro h <;> linear_combination h
  have k2 : ∀ vC vL vR : ℂ, σ (i 0) + σ (i 1) = σ vC + σ vL + σ vR ↔ i 0 + i 1 = vC + vL + vR := by
    intro vC vL vR
    rw [← σ.injective.eq_iff (a := i 0 + i 1), map_add, map_add, map_add]
  unfold RLC.Law
  rw [eR .Rs (by simp), eR .Rp (by simp), eL .Ls (by simp), eL .Lp (by simp), eC .Cs (by simp), eC .Cp (by simp)]
  constructor
  · rintro ⟨vC, vL, vR, iC, iL, iR, h1, h2, h3, h4, h5, h6, h7, h8⟩
    exact ⟨k * σ vC, k * σ vL, k * σ vR, σ iC, σ iL, σ iR, (capacitor_map σ hk hσ hC).2 h1, (inductor_map σ hk hσ hL).2 h2, (resistor_map σ hk).2 h3, (k1 _ _ _).2 h4,
      (capacitor_map σ hk hσ hC).2 h5, (inductor_map σ hk hσ hL).2 h6, (resistor_map σ hk).2 h7, (k2 _ _ _).2 h8⟩
  · rintro ⟨vC, vL, vR, iC, iL, iR, h1, h2, h3, h4, h5, h6, h7, h8⟩
    obtain ⟨vC, rfl⟩ := sv vC
    obtain ⟨vL, rfl⟩ := sv vL
    obtain ⟨vR, rfl⟩ := sv vR
    obtain ⟨iC, rfl⟩ := si iC
    obtain ⟨iL, rfl⟩ := si iL
    obtain ⟨iR, rfl⟩ := si iR
    exact ⟨vC, vL, vR, iC, iL, iR, (capacitor_map σ hk hσ hC).1 h1, (inductor_map σ hk hσ hL).1 h2, (resistor_map σ hk).1 h3, (k1 _ _ _).1 h4,
      (capacitor_map σ hk hσ hC).1 h5, (inductor_map σ hk hσ hL).1 h6, (resistor_map σ hk).1 h7, (k2 _ _ _).1 h8⟩

theorem scatter_map {n : ℕ} {Z : ℝ} {T T' : Matrix (Fin n) (Fin n) ℂ} (hT : T' = T.map σ) {v i : Fin n → ℂ} :
    ScatterV (Z : ℂ) T v i ↔ ScatterV ((k * Z : ℝ) : ℂ) T' (fun n => k * σ (v n)) (fun n => σ (i n)) := by
  have hkc : (k : ℂ) ≠ 0 := by exact_mod_cast hk
  subst hT
  unfold ScatterV
  have e1 : (fun j => ((k : ℂ) * σ (v j) - ((k * Z : ℝ) : ℂ) * σ (i j)) / 2) = fun j => k * σ ((v j - Z * i j) / 2) := by
    funext j; rw [map_div₀, map_sub, map_mul, alg_real, map_ofNat]; push_cast; ring
  have e2 : (T.map σ).mulVec (fun j => ((k : ℂ) * σ (v j) + ((k * Z : ℝ) : ℂ) * σ (i j)) / 2) = fun j => k * σ (T.mulVec (fun j => (v j + Z * i j) / 2) j) := by
    funext j
    simp only [Matrix.mulVec, dotProduct, Matrix.map_apply]
    rw [map_sum, Finset.mul_sum]
    refine Finset.sum_congr rfl fun q _ => ?_
    rw [map_mul, map_div₀, map_add, map_mul, alg_real, map_ofNat]; push_cast; ring
  rw [e1, e2, funext_iff, funext_iff]
  refine forall_congr' fun j => ?_
  rw [mul_right_inj' hkc, σ.injective.eq_iff]

end

theorem scaled_law {k m f : ℝ} (hk : k ≠ 0) (hm : m ≠ 0) {p q : Part} (h : Part.Scaled k m f p q) (v i : ℕ → ℂ) :
    p.Law f v i ↔ q.Law (m * f) (fun n => k * (AlgEquiv.refl : ℂ ≃ₐ[ℝ] ℂ) (v n)) (fun n => (AlgEquiv.refl : ℂ ≃ₐ[ℝ] ℂ) (i n)) := by
  cases h with
  | line l l' hL hz hy =>
    have e := lineLaw_map AlgEquiv.refl hk hz hy (L := l.L) (v := fun k : Fin 2 => v k) (i := fun k : Fin 2 => i k)
    rw [← hL] at e
    have e0 : (Part.line l).Law f v i ↔ TRL.LineLaw (l.z (2 * Real.pi * f)) (l.y (2 * Real.pi * f)) l'.L (fun k : Fin 2 => v k) (fun k : Fin 2 => i k) := by rw [hL]; rfl
    exact e0.trans e
  | rlc s s' hR hL hC =>
    exact rlcLaw_map AlgEquiv.refl hk (ε := 1) (w := RLC.omega f) (w' := RLC.omega (m * f)) (by simp) (by unfold RLC.omega; field_simp) (by unfold RLC.omega; field_simp)
      hR hL hC (v := fun k : Fin 2 => v k) (i := fun k : Fin 2 => i k)
  | base n g g' Z h =>
    show (∃ T, g f = .ok T ∧ _) ↔ ∃ T, g' (m * f) = .ok T ∧ _
    rw [h]
    refine exists_congr fun T => and_congr_right fun _ => ?_
    exact scatter_map AlgEquiv.refl hk (by ext; rfl)

theorem conj_law {f : ℝ} {p : Part} (h : p.RealValued f) (v i : ℕ → ℂ) :
    p.Law f v i ↔ p.Law (-f) (fun n => ((1 : ℝ) : ℂ) * Complex.conjAe (v n)) (fun n => Complex.conjAe (i n)) := by
  cases h with
  | line l hz hy =>
    exact lineLaw_map Complex.conjAe one_ne_zero (fun x => by rw [hz]; simp) (fun x => by rw [hy]; simp) (v := fun k : Fin 2 => v k) (i := fun k : Fin 2 => i k)
  | rlc s =>
    have e1 : ∀ x : RLC.Ext, x = x.times 1 := by intro x; cases x <;> simp [RLC.Ext.times]
    exact rlcLaw_map Complex.conjAe one_ne_zero (ε := -1) (w := RLC.omega f) (w' := RLC.omega (-f)) (cL := 1) (cC := 1) (e := s.elem) (e' := s.elem) (by simp)
      (by unfold RLC.omega; ring) (by unfold RLC.omega; ring) (fun q _ => e1 _) (fun q _ => e1 _) (fun q _ => e1 _) (v := fun k : Fin 2 => v k) (i := fun k : Fin 2 => i k)
  | base n g Z T h h' =>
    show (∃ T, g f = .ok T ∧ _) ↔ ∃ T, g (-f) = .ok T ∧ _
    rw [h, h']
    have e := scatter_map Complex.conjAe (one_ne_zero (α := ℝ)) (Z := Z) (T := T) rfl (v := fun k : Fin n => v k) (i := fun k : Fin n => i k)
    rw [one_mul] at e
    simp only [Except.ok.injEq]
    constructor
    · rintro ⟨_, rfl, hh⟩; exact ⟨_, rfl, e.1 hh⟩
    · rintro ⟨_, rfl, hh⟩; exact ⟨_, rfl, e.2 hh⟩

/-! ## the theorems -/

section
variable {Fl : Type} [DecidableEq Fl] {ode ode' : TRL.Ode} {npc npc' : Bool} {face face' : Face} {nan nan' : ℂ} {r z f k m : ℝ} {names names' : List Node} {net net' : Net ℂ}
  {bh bh' : Behave ℂ ℝ Fl} {s s1 t t1 : St ℂ Part ℝ Fl} {ph ph' : Phase} {fl fl' : Fl} {S T : SMat ℂ}

/-- **C89 (scaling).** Two circuits with the same connections, built in any order; in the second all impedances (also those of the loads and the reference) are `k` times those
of the first, at a frequency `m` times as high: the matrix of the second on the reference `k z` is the matrix of the first on `z`. -/
theorem C89_scale (hr : r ≠ 0) (hz : z ≠ 0) (hk : k ≠ 0) (hm : m ≠ 0)
    (h : Built (partOps ode npc face Fl) (partBeh ode npc Fl) nan (r : ℂ) names net bh s ph) (hph : ph ≠ .reloaded)
    (h' : Built (partOps ode' npc' face' Fl) (partBeh ode' npc' Fl) nan' ((k * r : ℝ) : ℂ) names' net' bh' t ph') (hph' : ph' ≠ .reloaded)
    (hp : ∀ b ∈ s.blocks, b.obj.Proper ode f) (hp' : ∀ b ∈ t.blocks, b.obj.Proper ode' (m * f))
    (hn : net.Alike id k net') (hb : BlocksAlike (Part.Scaled k m f) s.blocks t.blocks)
    (hs : getS (partOps ode npc face Fl) s f (some (z : ℂ)) fl = (s1, .ok S))
    (ht : getS (partOps ode' npc' face' Fl) t (m * f) (some ((k * z : ℝ) : ℂ)) fl' = (t1, .ok T)) :
    t1.ports.Perm s1.ports ∧ ∀ a ∈ s1.ports, ∀ b ∈ s1.ports, T.between t1.ports a b = S.between s1.ports a b :=
  carry (σ := AlgEquiv.refl) C80_parts_lawful C80_parts_lawful hr hz hk h hph h' hph' (fun b hb => parts_obey (hp b hb) hr fl)
    (fun b hb => parts_obey (hp' b hb) (mul_ne_zero hk hr) fl') (fun _ _ hR => scaled_law hk hm hR) hn hb hs ht

/-- **C89 (scaling, answers).** … and the second answers exactly if the first does, provided their objects answer. -/
theorem C89_scale_answers (hr : r ≠ 0) (hk : k ≠ 0) (hm : m ≠ 0)
    (h : Built (partOps ode npc face Fl) (partBeh ode npc Fl) nan (r : ℂ) names net bh s ph) (hph : ph ≠ .reloaded)
    (h' : Built (partOps ode' npc' face' Fl) (partBeh ode' npc' Fl) nan' ((k * r : ℝ) : ℂ) names' net' bh' t ph') (hph' : ph' ≠ .reloaded)
    (hp : ∀ b ∈ s.blocks, b.obj.Proper ode f) (hp' : ∀ b ∈ t.blocks, b.obj.Proper ode' (m * f))
    (ha : ∀ b ∈ s.blocks, ∃ X, (b.obj.getS ode npc f (r : ℂ)).2 = .ok X) (ha' : ∀ b ∈ t.blocks, ∃ X, (b.obj.getS ode' npc' (m * f) ((k * r : ℝ) : ℂ)).2 = .ok X)
    (hfree : net.free ≠ []) (hnames : s.names = [] ∨ s.names.Perm net.free) (hnames' : t.names = [] ∨ t.names.Perm net'.free)
    (hn : net.Alike id k net') (hb : BlocksAlike (Part.Scaled k m f) s.blocks t.blocks) :
    (∃ s1 S, getS (partOps ode npc face Fl) s f none fl = (s1, .ok S)) ↔ ∃ t1 T, getS (partOps ode' npc' face' Fl) t (m * f) none fl' = (t1, .ok T) :=
  carry_answers (σ := AlgEquiv.refl) C80_parts_lawful C80_parts_lawful hr hk h hph h' hph' (fun b hb => parts_obey (hp b hb) hr fl)
    (fun b hb => parts_obey (hp' b hb) (mul_ne_zero hk hr) fl') ha ha' hfree hnames hnames' (fun _ _ hR => scaled_law hk hm hR) hn hb

theorem alike_self (hl : ∀ x ∈ net.loads, x.2.change (starRingEnd ℂ) 1 = x.2) : net.Alike Complex.conjAe 1 net := by
  refine ⟨.refl _, .refl _, ?_, .refl _, .refl _⟩
  have : (net.loads.map fun x => (x.1, x.2.change Complex.conjAe 1)) = net.loads := by
    conv_rhs => rw [← List.map_id net.loads]
    refine List.map_congr_left fun x hx => ?_
    exact Prod.ext rfl (hl x hx)
  rw [this]

/-- **C89 (negative frequencies).** A circuit of real-valued objects with real loads: its matrix at `-f` is the complex conjugate of its matrix at `f`, on every reference. -/
theorem C89_conj (hr : r ≠ 0) (hz : z ≠ 0)
    (h : Built (partOps ode npc face Fl) (partBeh ode npc Fl) nan (r : ℂ) names net bh s ph) (hph : ph ≠ .reloaded)
    (hp : ∀ b ∈ s.blocks, b.obj.Proper ode f ∧ b.obj.Proper ode (-f) ∧ b.obj.RealValued f) (hl : ∀ x ∈ net.loads, x.2.change (starRingEnd ℂ) 1 = x.2)
    (hs : getS (partOps ode npc face Fl) s f (some (z : ℂ)) fl = (s1, .ok S))
    (ht : getS (partOps ode npc face Fl) s (-f) (some (z : ℂ)) fl' = (t1, .ok T)) :
    t1.ports.Perm s1.ports ∧ ∀ a ∈ s1.ports, ∀ b ∈ s1.ports, T.between t1.ports a b = starRingEnd ℂ (S.between s1.ports a b) :=
  carry (σ := Complex.conjAe) (k := 1) (R := fun p q => p = q ∧ p.RealValued f) C80_parts_lawful C80_parts_lawful hr hz one_ne_zero h hph (by rw [one_mul]; exact h) hph
    (fun b hb => parts_obey (hp b hb).1 hr fl) (fun b hb => by rw [one_mul]; exact parts_obey (hp b hb).2.1 hr fl') (fun p q hR => by
      obtain ⟨rfl, hR⟩ := hR
      exact conj_law hR) (alike_self hl)
    ⟨fun b hb => ⟨b, hb, rfl, rfl, rfl, (hp b hb).2.2⟩, fun b hb => ⟨b, hb, rfl, rfl, rfl, (hp b hb).2.2⟩⟩ hs (by rw [one_mul]; exact ht)

/-- **C89 (negative frequencies, answers).** -/
theorem C89_conj_answers (hr : r ≠ 0)
    (h : Built (partOps ode npc face Fl) (partBeh ode npc Fl) nan (r : ℂ) names net bh s ph) (hph : ph ≠ .reloaded)
    (hp : ∀ b ∈ s.blocks, b.obj.Proper ode f ∧ b.obj.Proper ode (-f) ∧ b.obj.RealValued f) (hl : ∀ x ∈ net.loads, x.2.change (starRingEnd ℂ) 1 = x.2)
    (ha : ∀ b ∈ s.blocks, (∃ X, (b.obj.getS ode npc f (r : ℂ)).2 = .ok X) ∧ ∃ X, (b.obj.getS ode npc (-f) (r : ℂ)).2 = .ok X)
    (hfree : net.free ≠ []) (hnames : s.names = [] ∨ s.names.Perm net.free) :
    (∃ s1 S, getS (partOps ode npc face Fl) s f none fl = (s1, .ok S)) ↔ ∃ t1 T, getS (partOps ode npc face Fl) s (-f) none fl' = (t1, .ok T) :=
  carry_answers (σ := Complex.conjAe) (k := 1) (R := fun p q => p = q ∧ p.RealValued f) C80_parts_lawful C80_parts_lawful hr one_ne_zero h hph
    (by rw [one_mul]; exact h) hph (fun b hb => parts_obey (hp b hb).1 hr fl) (fun b hb => by rw [one_mul]; exact parts_obey (hp b hb).2.1 hr fl')
    (fun b hb => (ha b hb).1) (fun b hb => by rw [one_mul]; exact (ha b hb).2) hfree hnames hnames (fun p q hR => by
      obtain ⟨rfl, hR⟩ := hR
      exact conj_law hR) (alike_self hl)
    ⟨fun b hb => ⟨b, hb, rfl, rfl, rfl, (hp b hb).2.2⟩, fun b hb => ⟨b, hb, rfl, rfl, rfl, (hp b hb).2.2⟩⟩

end

section
variable {O O' Fl : Type} [DecidableEq Fl] {ops : ObjOps ℂ O ℝ Fl} {beh : O → ℝ → ℂ → Fl → Except Err (SMat ℂ)} {law : O → (v i : ℕ → ℂ) → Prop}
  {nan nan' : ℂ} {r z f f' : ℝ} {names names' : List Node} {net net' : Net ℂ} {bh bh' : Behave ℂ ℝ Fl} {s s1 : St ℂ O ℝ Fl} {ph ph' : Phase} {fl fl' : Fl}
  {ops' : ObjOps ℂ O' ℝ Fl} {beh' : O' → ℝ → ℂ → Fl → Except Err (SMat ℂ)} {law' : O' → (v i : ℕ → ℂ) → Prop} {t t1 : St ℂ O' ℝ Fl} {S T : SMat ℂ}

/-- **C89 (equivalent objects).** In a circuit every object may be exchanged for another one with the same voltages and currents at its ports, of whatever kind, and the calls may
be made in another order: the answers are the same. -/
theorem C89_exchange (hlaw : Lawful ops beh) (hlaw' : Lawful ops' beh') (hr : r ≠ 0) (hz : z ≠ 0)
    (h : Built ops beh nan (r : ℂ) names net bh s ph) (hph : ph ≠ .reloaded)
    (h' : Built ops' beh' nan' (r : ℂ) names' net' bh' t ph') (hph' : ph' ≠ .reloaded)
    (hp : ∀ b ∈ s.blocks, Obeys ops beh law f r fl b.obj) (hp' : ∀ b ∈ t.blocks, Obeys ops' beh' law' f' r fl' b.obj)
    (hn : net'.nodes.Perm net.nodes ∧ net'.juncs.Perm net.juncs ∧ net'.loads.Perm net.loads ∧ net'.crosses.Perm net.crosses ∧ net'.sames.Perm net.sames)
    (hb : BlocksAlike (fun o o' => ∀ v i, law o v i ↔ law' o' v i) s.blocks t.blocks)
    (hs : getS ops s f (some (z : ℂ)) fl = (s1, .ok S)) (ht : getS ops' t f' (some (z : ℂ)) fl' = (t1, .ok T)) :
    t1.ports.Perm s1.ports ∧ ∀ a ∈ s1.ports, ∀ b ∈ s1.ports, T.between t1.ports a b = S.between s1.ports a b :=
  carry (σ := AlgEquiv.refl) (k := 1) hlaw hlaw' hr hz one_ne_zero h hph (by rw [one_mul]; exact h') hph' hp (fun b hb => by rw [one_mul]; exact hp' b hb)
    (fun o o' hR v i => by rw [hR]; simp) ⟨hn.1, hn.2.1, by
      have : ∀ l : List (Node × Load ℂ), (l.map fun x => (x.1, x.2.change (AlgEquiv.refl : ℂ ≃ₐ[ℝ] ℂ) 1)) = l := by
        intro l
        conv_rhs => rw [← List.map_id l]
        refine List.map_congr_left fun x _ => Prod.ext rfl ?_
        cases hx : x.2 <;> simp [Load.change, hx]
      rw [this]
      exact hn.2.2.1, hn.2.2.2.1, hn.2.2.2.2⟩ hb hs (by rw [one_mul]; exact ht)

end
/-! ## a concrete circuit -/

namespace ExScale
open ExParts (face op)
variable (ode : TRL.Ode)

/-- a matched delay on the reference `z` -/
noncomputable def delay (c x : ℝ) : Matrix (Fin 2) (Fin 2) ℂ := Matrix.of fun a b => if a = b then 0 else Complex.exp (-(Complex.I * (c * x)))
noncomputable def ob (c z : ℝ) : Part := .base 2 (fun x => .ok (delay c x)) z

noncomputable def s (c z : ℝ) : ExParts.St' := (addblock (op ode) 0 (St.init (z : ℂ) []) "X" (ob c z) .none 0).1
/-- its second port ended by the reference -/
noncomputable def t (c z : ℝ) : ExParts.St' := (terminate (s ode c z) (.blk "X" "2") (.Z z)).1

noncomputable def net : Net ℂ := oneNet ℂ ["1", "2"]

theorem res (c z : ℝ) : resolvePorts (op ode) (ob c z) .none = .ok ["1", "2"] := rfl

theorem built (c z : ℝ) : Built (op ode) (partBeh ode false Unit) 0 (z : ℂ) [] net (Function.update (fun _ _ _ _ => .error .valueError) "X" (partBeh ode false Unit (ob c z)))
    (s ode c z) .building := oneNet_built (res ode c z) (by decide)

theorem part {c z x : ℝ} : ((ob c z).getS ode false x (z : ℂ)).2 = .ok ⟨2, delay c x⟩ := by
  unfold Part.getS ob
  rw [if_neg (by simp)]
  have : RfBase.getS (fun x => .ok (delay c x)) z (some z) x = .ok (delay c x) := by
    simp [RfBase.getS, RfBase.getSs, mapE, RfBase.arr, RfBase.first]
  simp [this, Except.map]

theorem rho {c z : ℝ} (hz : z ≠ 0) : termRho (s ode c z).zbase (.Z (z : ℂ)) = .ok ((z - (s ode c z).zbase) / (z + (s ode c z).zbase)) := by
  have e : (s ode c z).zbase = (z : ℂ) := rfl
  have h2 : (z : ℂ) + z ≠ 0 := by
    rw [← two_mul]; exact mul_ne_zero two_ne_zero (by exact_mod_cast hz)
  simp only [termRho, e]
  simp [h2]

theorem loaded {c z : ℝ} (hz : z ≠ 0) : terminate (s ode c z) (.blk "X" "2") (.Z (z : ℂ)) = (t ode c z, .ok ()) := by
  refine Prod.ext rfl ?_
  unfold terminate
  rw [rho ode hz]
  rfl

theorem blocks {c z : ℝ} (hz : z ≠ 0) : (t ode c z).blocks = [⟨"X", ["1", "2"], (0, 0), ob c z, 0⟩] := by
  unfold t terminate
  rw [rho ode hz]
  rfl

theorem builtT {c z : ℝ} (hz : z ≠ 0) : Built (op ode) (partBeh ode false Unit) 0 (z : ℂ) [] (net.load (.blk "X" "2") (.Z (z : ℂ)))
    (Function.update (fun _ _ _ _ => .error .valueError) "X" (partBeh ode false Unit (ob c z))) (t ode c z) .building :=
  Built.terminate (built ode c z) (l := .Z (z : ℂ)) rfl (loaded ode hz)

theorem noNames {c z : ℝ} (hz : z ≠ 0) : (t ode c z).names = [] := by
  obtain ⟨hi, hbb, -⟩ := (builtT ode hz (c := c)).all C80_parts_lawful
  obtain ⟨-, ha, -⟩ := hbb rfl
  simp [St.names, ha, hi.nm]

theorem freeT (z : ℝ) : (net.load (.blk "X" "2") (.Z (z : ℂ))).free = [.blk "X" "1"] := by
  rfl

/-- the loaded circuit answers -/
theorem answers {c z x : ℝ} (hz : z ≠ 0) : ∃ t1 T, getS (op ode) (t ode c z) x none () = (t1, .ok T) := by
  have hb := built ode c z
  obtain ⟨s1, S, hs⟩ := (C20_getS_complete C80_parts_lawful hb (by simp) (f := x) (fl := ()) (Sof := fun _ => ⟨2, delay c x⟩) (by
    intro y hy
    simp only [net, oneNet, Net.addBlk, Net.empty, List.nil_append, List.mem_singleton] at hy
    subst hy
    exact part ode) (by rw [net, oneNet_free]; simp) (Or.inl (by
      obtain ⟨hi, hbb, -⟩ := hb.all C80_parts_lawful
      obtain ⟨-, ha, -⟩ := hbb rfl
      simp [St.names, ha, hi.nm]))).2 (oneNet_solvable (by decide) _ _)
  have key := C87_load C80_parts_lawful hb (by simp) hs (p := .blk "X" "2") (by rw [net, oneNet_free]; simp) (l := .Z (z : ℂ)) rfl (loaded ode hz)
  have hr : (Load.Z (z : ℂ)).reflection (z : ℂ) = 0 := by simp [Load.reflection]
  rw [hr] at key
  exact (key.1 (by rw [freeT]; simp) (Or.inl (noNames ode hz))).2 (by simp)

/-- the hypotheses of C89_scale are met: a loaded delay of phase `f` on 50 Ω, and one of phase `f / 3` on 100 Ω at the threefold frequency -/
theorem C89_scale_witness (f : ℝ) : ∃ s1 S t1 T, getS (op ode) (t ode 1 50) f (some ((50 : ℝ) : ℂ)) () = (s1, .ok S) ∧
    getS (op ode) (t ode (1/3) (2 * 50)) (3 * f) (some ((2 * 50 : ℝ) : ℂ)) () = (t1, .ok T) ∧
    T.between t1.ports (.blk "X" "1") (.blk "X" "1") = S.between s1.ports (.blk "X" "1") (.blk "X" "1") := by
  have h1 := builtT ode (c := 1) (z := 50) (by norm_num)
  have h2 := builtT ode (c := 1/3) (z := 2 * 50) (by norm_num)
  obtain ⟨s1, S, hs⟩ := answers ode (c := 1) (z := 50) (x := f) (by norm_num)
  obtain ⟨t1, T, ht⟩ := answers ode (c := 1/3) (z := 2 * 50) (x := 3 * f) (by norm_num)
  have hs' := getS_own_any C80_parts_lawful h1 hs
  have ht' := getS_own_any C80_parts_lawful h2 ht
  refine ⟨s1, S, t1, T, hs', ht', ?_⟩
  have hpo : .blk "X" "1" ∈ s1.ports := by
    have := ((Built.eval h1 hs).inv C80_parts_lawful).rep.ports_perm
    rw [freeT] at this
    rw [this.mem_iff]; simp
  refine (C89_scale (k := 2) (m := 3) (by norm_num) (by norm_num) (by norm_num) (by norm_num) h1 (by decide) h2 (by decide) ?_ ?_ ?_ ?_ hs' ht').2 _ hpo _ hpo
  · rw [blocks ode (by norm_num)]; intro b hb; rw [List.mem_singleton] at hb; subst hb; trivial
  · rw [blocks ode (by norm_num)]; intro b hb; rw [List.mem_singleton] at hb; subst hb; trivial
  · exact ⟨.refl _, .refl _, by simp [Net.load, net, oneNet, Net.addBlk, Net.empty, Load.change, dictSet], .refl _, .refl _⟩
  · have hob : Part.Scaled 2 3 f (ob 1 50) (ob (1/3) (2 * 50)) := .base 2 _ _ 50 (by
      simp only [delay]
      have : (((1/3 : ℝ) : ℂ) * ((3 * f : ℝ) : ℂ)) = ((1 : ℝ) : ℂ) * (f : ℂ) := by push_cast; ring
      rw [this])
    rw [blocks ode (by norm_num), blocks ode (by norm_num)]
    exact ⟨fun b hb => ⟨_, List.mem_singleton_self _, by rw [List.mem_singleton] at hb; subst hb; exact ⟨rfl, rfl, hob⟩⟩,
      fun b hb => ⟨_, List.mem_singleton_self _, by rw [List.mem_singleton] at hb; subst hb; exact ⟨rfl, rfl, hob⟩⟩⟩

/-- … and those of C89_conj -/
theorem C89_conj_witness (f : ℝ) : ∃ s1 S t1 T, getS (op ode) (t ode 1 50) f (some ((50 : ℝ) : ℂ)) () = (s1, .ok S) ∧
    getS (op ode) (t ode 1 50) (-f) (some ((50 : ℝ) : ℂ)) () = (t1, .ok T) ∧
    T.between t1.ports (.blk "X" "1") (.blk "X" "1") = starRingEnd ℂ (S.between s1.ports (.blk "X" "1") (.blk "X" "1")) := by
  have h1 := builtT ode (c := 1) (z := 50) (by norm_num)
  obtain ⟨s1, S, hs⟩ := answers ode (c := 1) (z := 50) (x := f) (by norm_num)
  obtain ⟨t1, T, ht⟩ := answers ode (c := 1) (z := 50) (x := -f) (by norm_num)
  have hs' := getS_own_any C80_parts_lawful h1 hs
  have ht' := getS_own_any C80_parts_lawful h1 ht
  refine ⟨s1, S, t1, T, hs', ht', ?_⟩
  have hpo : .blk "X" "1" ∈ s1.ports := by
    have := ((Built.eval h1 hs).inv C80_parts_lawful).rep.ports_perm
    rw [freeT] at this
    rw [this.mem_iff]; simp
  refine (C89_conj (by norm_num) (by norm_num) h1 (by decide) ?_ ?_ hs' ht').2 _ hpo _ hpo
  · rw [blocks ode (by norm_num)]
    intro b hb
    rw [List.mem_singleton] at hb
    subst hb
    refine ⟨trivial, trivial, .base 2 _ 50 (delay 1 f) rfl ?_⟩
    have : delay 1 (-f) = (delay 1 f).map (starRingEnd ℂ) := by
      ext a b
      simp only [delay, Matrix.of_apply, Matrix.map_apply]
      split
      · simp
      · rw [← Complex.exp_conj]; simp
    rw [this]
  · intro x hx
    have hx : x ∈ [(Node.blk "X" "2", Load.Z ((50 : ℝ) : ℂ))] := hx
    rw [List.mem_singleton] at hx
    subst hx
    simp only [Load.change, Complex.conj_ofReal, Complex.ofReal_one, one_mul]

end ExScale
end PyRFtk.Circuit
