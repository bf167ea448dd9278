import Verif.RfObjectRef
import Verif.ConvertProps

/-!
# rfObject filled from impedance and admittance matrices (C95)

Model of the methods `rfObject.S_from_Z`, `rfObject.S_from_Y` (`rfObject.py:667-684`) and of the way they are used: the matrices they
return are given to `setS`, and read back with `getS` on any reference.
-/

namespace PyRFtk.RfObject

variable {n : ℕ}

/-! ## model -/

/-- `rfObject.S_from_Z`, `rfObject.py:667-672` -/
noncomputable def objSFromZ (o : Obj n) (Z : ND ℂ) : Except Err (ND ℂ) := sFromZ (o.Zbase : ℂ) Z

/-- `rfObject.S_from_Y`, `rfObject.py:678-683` -/
noncomputable def objSFromY (o : Obj n) (Y : ND ℂ) : Except Err (ND ℂ) := sFromY (o.Zbase : ℂ) Y

/-- `o.setS(fs, o.S_from_Z(Z))` -/
noncomputable def setZ (o : Obj n) (fs : List ℝ) (Z : ND ℂ) : Obj n × Except Err Unit :=
  match objSFromZ o Z with
  | .error e => (o, .error e)
  | .ok S => setS o fs S none

/-! ## specification -/

/-- the network described by an impedance matrix, seen at its ports -/
def ofImpedance (Z : Mat n) : Seen n := fun V I => V = Z.mulVec I

/-! ## proofs -/

theorem setS_denotes {o : Obj n} {fs : List ℝ} {B : ND ℂ} {l : List (Mat n)} (h : Denotes B n l) :
    setS o fs B none = setS o fs (.d3 n n l) none := by
  unfold setS
  simp only [check3D_of_denotes h, check3D_of_denotes (.stack n l)]

theorem zip_impedance {z : ℂ} : ∀ {fs : List ℝ} {Zs Ss : List (Mat n)},
    List.Forall₂ (fun Z S => ∀ V I, V = Z.mulVec I ↔ ScatterV z S V I) Zs Ss →
    (fs.zip Ss).map (fun x => ((x.1, ScatterV z x.2) : ℝ × Seen n)) = (fs.zip Zs).map fun x => (x.1, ofImpedance x.2)
  | [], _, _, _ => by simp
  | f :: fs, _, _, .nil => by simp
  | f :: fs, _, _, .cons (a := Z) (b := S) h t => by
    have e : (ScatterV z S : Seen n) = ofImpedance Z := by
      funext V I; exact propext (h V I).symm
    simp only [List.zip_cons_cons, List.map_cons, e, zip_impedance (fs := fs) t]

/-! ## theorems -/

/-- **C95**: storing `o.S_from_Z(Z)` records exactly the networks with the given impedance matrices, whatever was done with the object before
(so also after a change of its reference). -/
theorem C95_recorded {env : Env n} (hsrt : env.Sorts) {o o' : Obj n} {log} (h : Kept env o log) {fs : List ℝ} {A : ND ℂ} {l : List (Mat n)}
    (hA : Denotes A n l) (hl : l ≠ []) (hs : setZ o fs A = (o', .ok ())) :
    Kept env o' (log ++ (fs.zip l).map fun x => (x.1, ofImpedance x.2)) := by
  unfold setZ at hs
  cases hB : objSFromZ o A with
  | error e => rw [hB] at hs; cases (Prod.mk.inj hs).2
  | ok B =>
    rw [hB] at hs
    obtain ⟨l', hd, -, hr⟩ := C03_S_from_Z_ohm _ (by exact_mod_cast (h.holds hsrt).ref) hA hl hB
    rw [← zip_impedance hr]
    refine Kept.set h ?_
    rw [← setS_denotes hd]; exact hs

/-- **C95**: what is read back, on any reference, is exactly the scattering matrix of the network with the impedance matrix that was stored
for that frequency. -/
theorem C95_answers {env : Env n} (hsrt : env.Sorts) {o o' : Obj n} {log} (h : Kept env o log) {fs : List ℝ} (hnd : fs.Nodup)
    (hnew : ∀ f ∈ fs, f ∉ log.map Prod.fst) {A : ND ℂ} {l : List (Mat n)} (hA : Denotes A n l) (hl : l ≠ [])
    (hs : setZ o fs A = (o', .ok ())) {f : ℝ} {Z : Mat n} (hf : (f, Z) ∈ fs.zip l) {R : ℝ} (hR : R ≠ 0) (T : Mat n) :
    (getS env o' f (some R)).2 = .ok T ↔ ∀ V I, V = Z.mulVec I ↔ ScatterV (R : ℂ) T V I := by
  refine C62_exact hsrt (C95_recorded hsrt h hA hl hs) (N := ofImpedance Z)
    (List.mem_append_right _ (List.mem_map.2 ⟨_, hf, rfl⟩)) ?_ hR T
  intro M hM
  have hin : f ∈ fs := (List.of_mem_zip hf).1
  rcases List.mem_append.1 hM with hM | hM
  · exact absurd (List.mem_map.2 ⟨_, hM, rfl⟩) (hnew f hin)
  · obtain ⟨⟨g, W⟩, hW, e⟩ := List.mem_map.1 hM
    obtain ⟨rfl, rfl⟩ := Prod.mk.inj e
    congr 1
    obtain ⟨i, hi, ei⟩ := List.mem_iff_getElem.1 hW
    obtain ⟨j, hj, ej⟩ := List.mem_iff_getElem.1 hf
    simp only [List.getElem_zip, Prod.mk.injEq] at ei ej
    have hi' : i < fs.length := by simp at hi; omega
    have hj' : j < fs.length := by simp at hj; omega
    have : i = j := (List.Nodup.getElem_inj_iff hnd).1 (ei.1.trans ej.1.symm)
    subst this
    exact ei.2.symm.trans ej.2

/-- **C95**: storing impedance matrices succeeds exactly when none of the sums `Z + Zbase` is singular, there is one matrix per frequency;
what fails before storing changes nothing but the interpolators. -/
theorem C95_succeeds {o : Obj n} (hz : o.Zbase ≠ 0) {fs : List ℝ} {A : ND ℂ} {l : List (Mat n)} (hA : Denotes A n l) (hl : l ≠ []) :
    (∃ o', setZ o fs A = (o', .ok ())) ↔ (∀ Z ∈ l, (Z + (o.Zbase : ℂ) • 1).det ≠ 0) ∧ fs.length = l.length := by
  have hiff := (C03_failure (o.Zbase : ℂ) hA hl).1
  unfold setZ objSFromZ
  cases hB : sFromZ (o.Zbase : ℂ) A with
  | error e =>
    simp only [Prod.mk.injEq, reduceCtorEq, and_false, exists_false, false_iff, not_and]
    intro hd
    obtain ⟨B, h⟩ := hiff.2 hd
    rw [hB] at h; cases h
  | ok B =>
    obtain ⟨l', hd, -, hr⟩ := C03_S_from_Z_ohm _ (by exact_mod_cast hz) hA hl hB
    have hlen := hr.length_eq
    simp only [setS_denotes hd]
    constructor
    · rintro ⟨o', h⟩
      rcases setS_cases h with ⟨-, e, he⟩ | ⟨st, hN, hc, hle, -⟩
      · cases he
      · rw [check3D_of_denotes (.stack n l')] at hc
        cases hc
        exact ⟨hiff.1 ⟨B, hB⟩, hle.trans hlen.symm⟩
    · rintro ⟨-, hle⟩
      have hfs : fs ≠ [] := by rintro rfl; exact hl (List.length_eq_zero_iff.1 hle.symm)
      have hb : ∃ b, sortedAfter o.sorted (o.fs ++ fs) = .ok b := by
        cases hso : sortedAfter o.sorted (o.fs ++ fs) with
        | ok b => exact ⟨b, rfl⟩
        | error e => exact absurd (List.append_eq_nil_iff.1 (sortedAfter_error hso)).2 hfs
      obtain ⟨b, hb⟩ := hb
      unfold setS
      simp [check3D_of_denotes (.stack n l'), hle, hlen, hb]

/-- **C95**: the impedance matrix is got back: `Z_from_S` of the answer, on the reference asked for, is the matrix that was stored. -/
theorem C95_back {env : Env n} (hsrt : env.Sorts) {o o' : Obj n} {log} (h : Kept env o log) {fs : List ℝ} (hnd : fs.Nodup)
    (hnew : ∀ f ∈ fs, f ∉ log.map Prod.fst) {A : ND ℂ} {l : List (Mat n)} (hA : Denotes A n l) (hl : l ≠ [])
    (hs : setZ o fs A = (o', .ok ())) {f : ℝ} {Z : Mat n} (hf : (f, Z) ∈ fs.zip l) {R : ℝ} (hR : R ≠ 0) {T : Mat n}
    (hT : (getS env o' f (some R)).2 = .ok T) : zFromS (R : ℂ) (.d2 n n T) = .ok (.d2 n n Z) := by
  have hRc : (R : ℂ) ≠ 0 := by exact_mod_cast hR
  have key := (C95_answers hsrt h hnd hnew hA hl hs hf hR T).1 hT
  refine (overStack_ok_iff _ (.matrix n T) (by simp) _).2 ⟨[Z], .cons (zFromS1_ok_iff.2 ⟨?_, ?_⟩) .nil, .matrix n Z, rfl⟩
  · intro hdet
    obtain ⟨v, hv, h0⟩ := Matrix.exists_mulVec_eq_zero_iff.2 hdet
    refine hv ?_
    have h1 : T.mulVec v = v := by
      rw [Matrix.sub_mulVec, Matrix.one_mulVec, sub_eq_zero] at h0; exact h0.symm
    have h2 := (key (fun i => 2 * v i) 0).2 (by
      unfold ScatterV
      have e : (fun i => (2 * v i + (R : ℂ) * (0 : Fin n → ℂ) i) / 2) = v := by funext i; simp
      rw [e, h1]; funext i; simp)
    rw [Matrix.mulVec_zero] at h2
    funext i
    have := congrFun h2 i
    simpa using this
  · refine Matrix.ext_of_mulVec_single fun i => ?_
    have h1 := (key (Z.mulVec (Pi.single i 1)) (Pi.single i 1)).1 rfl
    unfold ScatterV at h1
    have ea : (fun j => (Z.mulVec (Pi.single i 1) j + (R : ℂ) * (Pi.single i 1 : Fin n → ℂ) j) / 2) =
        (2 : ℂ)⁻¹ • (Z.mulVec (Pi.single i 1) + (R : ℂ) • (Pi.single i 1 : Fin n → ℂ)) := by
      funext j; simp only [Pi.smul_apply, Pi.add_apply, smul_eq_mul]; ring
    rw [ea, Matrix.mulVec_smul, Matrix.mulVec_add, Matrix.mulVec_smul] at h1
    funext j
    have h2 := congrFun h1 j
    simp only [Pi.smul_apply, Pi.add_apply, smul_eq_mul] at h2
    simp only [← Matrix.mulVec_mulVec, Matrix.sub_mulVec, Matrix.smul_mulVec, Matrix.add_mulVec, Matrix.one_mulVec, Pi.sub_apply,
      Pi.smul_apply, Pi.add_apply, smul_eq_mul]
    linear_combination (2 : ℂ) * h2

/-- **C95**: a passive impedance matrix (never taking negative power) can always be stored: with a positive reference `S_from_Z` accepts it. -/
theorem C95_passive {o : Obj n} (hz : 0 < o.Zbase) {fs : List ℝ} {A : ND ℂ} {l : List (Mat n)} (hA : Denotes A n l) (hl : l ≠ [])
    (hlen : fs.length = l.length) (hp : ∀ Z ∈ l, ∀ I : Fin n → ℂ, 0 ≤ (∑ i, (starRingEnd ℂ (I i)) * Z.mulVec I i).re) :
    ∃ o', setZ o fs A = (o', .ok ()) := by
  refine (C95_succeeds hz.ne' hA hl).2 ⟨fun Z hZ hdet => ?_, hlen⟩
  obtain ⟨v, hv, h0⟩ := Matrix.exists_mulVec_eq_zero_iff.2 hdet
  have h1 := hp Z hZ v
  have h2 : Z.mulVec v = fun i => -(o.Zbase : ℂ) * v i := by
    funext i
    have := congrFun h0 i
    simp only [Matrix.add_mulVec, Matrix.smul_mulVec, Matrix.one_mulVec, Pi.add_apply, Pi.smul_apply, smul_eq_mul, Pi.zero_apply] at this
    linear_combination this
  obtain ⟨i, hi⟩ := Function.ne_iff.1 hv
  have h3 : (∑ i, (starRingEnd ℂ (v i)) * Z.mulVec v i).re = -o.Zbase * ∑ i, Complex.normSq (v i) := by
    rw [Complex.re_sum, Finset.mul_sum]
    refine Finset.sum_congr rfl fun k _ => ?_
    rw [h2]
    simp only [Complex.mul_re, Complex.conj_re, Complex.conj_im, Complex.neg_re, Complex.neg_im, Complex.mul_im, Complex.ofReal_re,
      Complex.ofReal_im, Complex.normSq_apply]
    ring
  have h4 : 0 < ∑ i, Complex.normSq (v i) :=
    Finset.sum_pos' (fun k _ => Complex.normSq_nonneg _) ⟨i, Finset.mem_univ _, Complex.normSq_pos.2 hi⟩
  rw [h3] at h1
  nlinarith [mul_pos hz h4]

/-- **C95 is violated for admittances**: `o.S_from_Y(Y)` raises TypeError for every object and every argument. -/
theorem C95_admittance_raises (o : Obj n) (Y : ND ℂ) : objSFromY o Y = .error .typeError := C04_S_from_Y_always_raises _ Y

/-- the hypotheses of C95: a 100 Ohm shunt given to a 50 Ohm object and read back on 25 Ohm -/
theorem C95_witness (env : Env 1) (hs : env.Sorts) : ∃ o', setZ (new ["p"] 50 : Obj 1) [7] (.d0 100) = (o', .ok ()) ∧
    (getS env o' 7 (some 25)).2 = .ok !![3 / 5] := by
  have hA : Denotes (.d0 (100 : ℂ)) 1 [Matrix.of fun _ _ => 100] := .scalar 100
  obtain ⟨o', ho⟩ := (C95_succeeds (o := (new ["p"] 50 : Obj 1)) (by norm_num [new]) (fs := [7]) hA (by simp)).2
    ⟨by intro Z hZ; rw [List.mem_singleton.1 hZ]; simp [Matrix.det_unique, new]; norm_num, rfl⟩
  refine ⟨o', ho, ?_⟩
  refine (C95_answers hs (Kept.new ["p"] 50 (by norm_num)) (by simp) (by simp) hA (by simp) ho (f := 7)
    (Z := Matrix.of fun _ _ => 100) (by simp) (by norm_num) _).2 ?_
  intro V I
  unfold ScatterV
  simp only [funext_iff, Fin.forall_fin_one, Matrix.mulVec, dotProduct, Finset.univ_unique, Finset.sum_singleton, Fin.default_eq_zero]
  simp
  constructor
  · intro h; rw [h]; ring
  · intro h; linear_combination (5 : ℂ) * h

end PyRFtk.RfObject
