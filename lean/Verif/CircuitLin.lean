import Verif.CircuitSolve

/-!
# Evaluation: the solution of the linear system is the scattering matrix (proof infrastructure)
-/

set_option linter.unusedSectionVars false

namespace PyRFtk.Circuit

section
variable {K O F Fl : Type*} [Field K] [DecidableEq F] [DecidableEq Fl]
variable {ops : ObjOps K O F Fl} {net : Net K} {c : Core K O} {k : ℕ}

/-! ## linear algebra -/

theorem lin_QA {L n : ℕ} {M W : Matrix (Fin L) (Fin L) K} (hMW : M * W = 1) {iA iE : Fin n → Fin L}
    (hinj : Function.Injective iE) (hrow : ∀ i j, M (iE i) j = if j = iA i then 1 else 0) :
    ∀ QA : Matrix (Fin n) (Fin n) K, (∀ i j, QA i j = W (iA i) (iE j)) → QA = 1 := by
  intro QA hQA
  ext i j
  rw [hQA]
  have := congrFun (congrFun hMW (iE i)) (iE j)
  rw [Matrix.mul_apply] at this
  simp only [hrow, ite_mul, one_mul, zero_mul, Finset.sum_ite_eq', Finset.mem_univ, if_true] at this
  rw [this, Matrix.one_apply, Matrix.one_apply]
  simp [hinj.eq_iff]

theorem lin_out {L n : ℕ} {M W : Matrix (Fin L) (Fin L) K} (hMW : M * W = 1) {iA iE : Fin n → Fin L}
    (hinj : Function.Injective iE) (hrow : ∀ i j, M (iE i) j = if j = iA i then 1 else 0) {x : Fin L → K}
    (hx : ∀ i, (∀ j, i ≠ iE j) → M.mulVec x i = 0) (k : Fin L) : x k = ∑ j, W k (iE j) * x (iA j) := by
  have hWM : W * M = 1 := mul_eq_one_comm.1 hMW
  have h1 : x = W.mulVec (M.mulVec x) := by rw [Matrix.mulVec_mulVec, hWM, Matrix.one_mulVec]
  have h2 : ∀ j, M.mulVec x (iE j) = x (iA j) := by
    intro j
    simp [Matrix.mulVec, dotProduct, hrow]
  have h3 : x k = ∑ i, W k i * M.mulVec x i := by
    conv_lhs => rw [h1]
    rfl
  rw [h3]
  have h4 : ∑ j, W k (iE j) * x (iA j) = ∑ j, (fun i => W k i * M.mulVec x i) (iE j) := by simp [h2]
  rw [h4, ← Finset.sum_image (s := Finset.univ) (g := iE) (f := fun i => W k i * M.mulVec x i) (fun a _ b _ h => hinj h)]
  symm
  apply Finset.sum_subset (Finset.subset_univ _)
  intro i _ hi
  rw [hx i, mul_zero]
  rintro j rfl
  exact hi (Finset.mem_image_of_mem _ (Finset.mem_univ _))

/-! ## rows and laws -/

/-- all equations other than those of the external ports hold -/
def NonE (c : Core K O) (w : Wave → K) : Prop :=
  ∀ (i : ℕ) (r : ℕ → K) (e : Eqn), c.rows[i]? = some r → c.eqns[i]? = some e → (∀ p, e ≠ .E p) → rowEval c.waves r w = 0

theorem rowEval_blockRow {waves : List Wave} {w : Wave → K} {N c0 k : ℕ} {r : ℕ → K} {g : ℕ → K}
    (hlen : c0 + N + k < waves.length)
    (hr1 : ∀ j, c0 ≤ j → j < c0 + N → r j = g (j - c0))
    (hr2 : ∀ j, j < waves.length → ¬ (c0 ≤ j ∧ j < c0 + N) → r j = if j = c0 + N + k then -1 else 0) :
    rowEval waves r w = (∑ i ∈ Finset.range N, g i * wv waves w (c0 + i)) - wv waves w (c0 + N + k) := by
  have h1 : rowEval waves r w = ∑ j ∈ Finset.range waves.length,
      ((if c0 ≤ j ∧ j < c0 + N then g (j - c0) * wv waves w j else 0) +
       (if j = c0 + N + k then - wv waves w j else 0)) := by
    refine Finset.sum_congr rfl fun j hj => ?_
    have hj' : j < waves.length := by simpa using hj
    by_cases h : c0 ≤ j ∧ j < c0 + N
    · rw [if_pos h, if_neg (by omega), hr1 j h.1 h.2, add_zero]
    · rw [if_neg h, hr2 j hj' h, zero_add]
      by_cases h2 : j = c0 + N + k <;> simp [h2]
  rw [h1, Finset.sum_add_distrib, ← Finset.sum_filter]
  have h2 : (Finset.range waves.length).filter (fun j => c0 ≤ j ∧ j < c0 + N) = Finset.Ico c0 (c0 + N) := by
    ext j; simp only [Finset.mem_filter, Finset.mem_range, Finset.mem_Ico]; omega
  rw [h2, Finset.sum_Ico_eq_sum_range]
  have h3 : ∑ j ∈ Finset.range waves.length, (if j = c0 + N + k then - wv waves w j else 0) = - wv waves w (c0 + N + k) := by
    rw [Finset.sum_ite_eq' (Finset.range waves.length) (c0 + N + k) (fun j => - wv waves w j)]
    simp [hlen]
  rw [h3]
  have h4 : c0 + N - c0 = N := by omega
  rw [h4, sub_eq_add_neg]
  congr 1
  refine Finset.sum_congr rfl fun i _ => ?_
  rw [Nat.add_sub_cancel_left]

theorem idx_ne_of_wave {waves : List Wave} {a b : ℕ} {n m : Node} (h1 : waves[a]? = some (.inn, n))
    (h2 : waves[b]? = some (.out, m)) : a ≠ b := by
  rintro rfl
  rw [h1] at h2; simp at h2

theorem RepD.laws_iff (h : RepD ops net c k) {Sof : String → SMat K} (hf : Filled c.blocks c.rows Sof) (w : Wave → K) :
    NonE c w ↔ net.Laws c.zbase Sof w := by
  have hel := h.elen
  -- block rows
  have hblk : ∀ b ∈ c.blocks, ∀ (i : ℕ) (hi : i < b.ports.length), ∃ r, c.rows[b.loc.1 + i]? = some r ∧
      (rowEval c.waves r w = 0 ↔ w (.out, .blk b.name b.ports[i]) =
        ∑ j : Fin b.ports.length, (Sof b.name).at i j * w (.inn, .blk b.name b.ports[j])) := by
    intro b hb i hi
    obtain ⟨r, h1, h2⟩ := h.brow b hb i hi
    refine ⟨r, h1, ?_⟩
    have hlen : b.loc.2 + b.ports.length + i < c.waves.length :=
      (List.getElem?_eq_some_iff.1 (h.bcol b hb i hi).2).1
    rw [rowEval_blockRow (g := fun j => (Sof b.name).at i j) hlen ?_ h2, wv_of_getElem? (h.bcol b hb i hi).2,
      Finset.sum_range]
    · have : ∀ j : Fin b.ports.length, wv c.waves w (b.loc.2 + j) = w (.inn, .blk b.name b.ports[j]) := fun j =>
        wv_of_getElem? (h.bcol b hb j j.2).1 w
      simp only [this]
      rw [sub_eq_zero]
      exact eq_comm
    · intro j hj1 hj2
      have := hf b hb (b.loc.1 + i) j ⟨by omega, by omega, hj1, hj2⟩ r h1
      rw [this]
      congr 1
      omega
  constructor
  · intro H
    refine ⟨?_, ?_, ?_⟩
    · rw [h.blks]
      intro x hx i
      simp only [List.mem_map] at hx
      obtain ⟨b, hb, rfl⟩ := hx
      obtain ⟨r, h1, h2⟩ := hblk b hb i i.2
      exact h2.1 (H _ r _ h1 (h.eS b hb i i.2) (by simp))
    · rw [← h.core w]
      intro i r e hr he hc
      exact H i r e hr he (by rintro p rfl; simp [Eqn.IsCore] at hc)
    · intro l hl
      obtain ⟨t, ht, h1, h2, h3, h4, rho, r, h5, h6, h7⟩ := forall₂_mem_left h.tT hl
      rw [← loadRho_law h5]
      have := H _ r _ h6 h4 (by simp)
      rw [rowEval_congr h7, rowEval_tRow h2 h3 (idx_ne_of_wave h2 h3)] at this
      exact this
  · rintro ⟨H1, H2, H3⟩ i r e hr he hne
    cases e with
    | S n =>
      obtain ⟨b, hb, k, hk, rfl⟩ := h.eS' i n he
      obtain ⟨r', h1, h2⟩ := hblk b hb k hk
      rw [hr] at h1; injection h1 with h1; subst h1
      apply h2.2
      exact H1 (b.name, b.ports) (by rw [h.blks]; exact List.mem_map_of_mem hb) ⟨k, hk⟩
    | C n => exact (h.core w).2 H2 i r _ hr he (by simp [Eqn.IsCore])
    | Di n => exact (h.core w).2 H2 i r _ hr he (by simp [Eqn.IsCore])
    | De n => exact (h.core w).2 H2 i r _ hr he (by simp [Eqn.IsCore])
    | E n => exact absurd rfl (hne n)
    | T p =>
      obtain ⟨a, b, hT⟩ := h.tT' i p he
      obtain ⟨l, hl, h1, h2, h3, h4, rho, r', h5, h6, h7⟩ := forall₂_mem_right h.tT hT
      rw [hr] at h6; injection h6 with h6; subst h6
      have := H3 l hl
      rw [← loadRho_law h5] at this
      rw [rowEval_congr h7, rowEval_tRow h2 h3 (idx_ne_of_wave h2 h3)]
      exact this

/-- the vector of unknowns of a wave assignment -/
def xOf (s : St K O F Fl) (w : Wave → K) : Fin s.cols → K := fun j => wv s.waves w j

/-- the wave assignment of a vector of unknowns -/
def wOf (s : St K O F Fl) (x : Fin s.cols → K) : Wave → K := fun v =>
  if h : idx s.waves v < s.cols then x ⟨idx s.waves v, h⟩ else 0

theorem mulVec_xOf {s : St K O F Fl} (hlw : s.waves.length = s.cols) (w : Wave → K) (i : Fin s.cols) :
    s.mat.mulVec (xOf s w) i = rowEval s.waves (s.rows.getD i zeroRow) w := by
  unfold rowEval
  rw [hlw, Finset.sum_range]
  rfl

theorem xOf_wOf {s : St K O F Fl} (hnd : s.waves.Nodup) (hlw : s.waves.length = s.cols) (x : Fin s.cols → K) :
    xOf s (wOf s x) = x := by
  ext j
  have hj : (j : ℕ) < s.waves.length := by rw [hlw]; exact j.2
  have h1 : s.waves[(j : ℕ)]? = some s.waves[(j : ℕ)] := List.getElem?_eq_getElem hj
  have h2 : idx s.waves s.waves[(j : ℕ)] = j :=
    getElem?_inj_of_nodup hnd (getElem?_idx (List.getElem_mem hj)) h1
  rw [xOf, wv_of_getElem? h1, wOf]
  rw [dif_pos (by rw [h2]; exact j.2)]
  congr 1
  exact Fin.ext h2

/-- what the linear algebra needs to know about an evaluated state -/
structure Squared (s : St K O F Fl) (iA iB iE : Fin s.ports.length → Fin s.cols) : Prop where
  hA : ∀ j, s.waves[(iA j : ℕ)]? = some (.inn, s.ports[j])
  hB : ∀ j, s.waves[(iB j : ℕ)]? = some (.out, s.ports[j])
  hE : ∀ j, dictGet s.ports[j] s.E = some (iE j : ℕ)
  inj : Function.Injective iE
  row : ∀ i j, s.mat (iE i) j = if j = iA i then 1 else 0
  non : ∀ w, NonE s.core w ↔ ∀ i, (∀ j, i ≠ iE j) → s.mat.mulVec (xOf s w) i = 0

theorem Rep.squared {s : St K O F Fl} (h : Rep ops net s) (hsq : s.rows.length = s.cols) :
    (s.ports = [] ∧ s.E = [] ∨ s.aliased = true) ∧ ∃ iA iB iE, Squared s iA iB iE := by
  have hlw : s.waves.length = s.cols := h.wlen
  have hcount := h.rep.count
  simp only [St.core] at hcount
  have hkeys : ∀ p, p ∈ s.E.map Prod.fst ↔ p ∈ s.ports := by
    rcases h.rep.ekeys with h1 | ⟨_, h1⟩
    · have h1' : s.E = [] := h1
      have : s.ports = [] := by
        rw [← List.length_eq_zero_iff]
        rw [h1'] at hcount; simp at hcount; omega
      simp [h1', this]
    · exact h1
  refine ⟨?_, ?_⟩
  · rcases h.rep.ekeys with h1 | ⟨h2, _⟩
    · left
      have h1' : s.E = [] := h1
      refine ⟨?_, h1'⟩
      rw [← List.length_eq_zero_iff]
      rw [h1'] at hcount; simp at hcount; omega
    · exact Or.inr h2
  have hwm : ∀ (d : Dir) (j : Fin s.ports.length), (d, s.ports[j]) ∈ s.waves := by
    intro d j
    have := (h.rep.wmem d s.ports[j]).2 ((h.rep.pmem _).1 (List.getElem_mem j.2)).1
    exact this
  have hEx : ∀ j : Fin s.ports.length, ∃ e : Fin s.cols, dictGet s.ports[j] s.E = some (e : ℕ) := by
    intro j
    have h1 := (hkeys s.ports[j]).2 (List.getElem_mem j.2)
    simp only [List.mem_map] at h1
    obtain ⟨⟨p, e⟩, h2, h3⟩ := h1
    simp only at h3
    have h4 := (h.rep.eE p e h2).1
    have h5 : e < s.eqns.length := (List.getElem?_eq_some_iff.1 h4).1
    have h6 : s.eqns.length = s.rows.length := h.rep.elen
    refine ⟨⟨e, by omega⟩, ?_⟩
    rw [← h3]
    exact dictGet_of_mem h.rep.ednd h2
  choose iE hiE using hEx
  let iA : Fin s.ports.length → Fin s.cols := fun j => ⟨idx s.waves (.inn, s.ports[j]), by
    rw [← hlw]; exact idx_lt (hwm _ j)⟩
  let iB : Fin s.ports.length → Fin s.cols := fun j => ⟨idx s.waves (.out, s.ports[j]), by
    rw [← hlw]; exact idx_lt (hwm _ j)⟩
  have hmem : ∀ j, (s.ports[j], (iE j : ℕ)) ∈ s.E := fun j => dictGet_mem (hiE j)
  have hrow' : ∀ i, ∃ r, s.rows[(iE i : ℕ)]? = some r ∧ ∀ j, j < s.waves.length → r j = eRow (iA i) j := by
    intro i
    obtain ⟨_, a, r, h1, h2, h3⟩ := h.rep.eE _ _ (hmem i)
    refine ⟨r, h2, ?_⟩
    have : a = (iA i : ℕ) := getElem?_inj_of_nodup h.rep.wnd h1 (getElem?_idx (hwm .inn i))
    rw [← this]; exact h3
  refine ⟨iA, iB, iE, ⟨fun j => getElem?_idx (hwm _ j), fun j => getElem?_idx (hwm _ j), hiE, ?_, ?_, ?_⟩⟩
  · intro i j hij
    have h1 := (h.rep.eE _ _ (hmem i)).1
    have h2 := (h.rep.eE _ _ (hmem j)).1
    rw [hij, h2] at h1
    injection h1 with h1
    injection h1 with h1
    have hnd : s.ports.Nodup := h.rep.pnd
    exact Fin.ext ((hnd.getElem_inj_iff).1 h1.symm)
  · intro i j
    obtain ⟨r, h1, h2⟩ := hrow' i
    show (s.rows.getD (iE i) zeroRow) j = _
    rw [List.getD_eq_getElem?_getD, h1]
    simp only [Option.getD_some]
    rw [h2 j (by rw [hlw]; exact j.2), eRow, setCol]
    by_cases hj : j = iA i
    · rw [hj, Function.update_self, if_pos rfl]
    · rw [Function.update_of_ne (fun e => hj (Fin.ext e)), if_neg hj]; rfl
  · intro w
    have hel : s.eqns.length = s.rows.length := h.rep.elen
    constructor
    · intro H i hi
      rw [mulVec_xOf hlw]
      have hir : (i : ℕ) < s.rows.length := by rw [hsq]; exact i.2
      have hie : (i : ℕ) < s.eqns.length := by omega
      have h1 : s.rows[(i : ℕ)]? = some s.rows[(i : ℕ)] := List.getElem?_eq_getElem hir
      rw [List.getD_eq_getElem?_getD, h1]
      refine H i _ _ h1 (List.getElem?_eq_getElem hie) ?_
      intro p hp
      have h2 : s.eqns[(i : ℕ)]? = some (.E p) := by
        rw [List.getElem?_eq_getElem hie]; exact congrArg some hp
      have h3 := h.rep.eE' i p h2
      have h4 : p ∈ s.ports := (hkeys p).1 (List.mem_map_of_mem (f := Prod.fst) h3)
      obtain ⟨j, hj, rfl⟩ := List.getElem_of_mem h4
      have h5 : dictGet s.ports[j] s.E = some (i : ℕ) := dictGet_of_mem h.rep.ednd h3
      have h6 := hiE ⟨j, hj⟩
      simp only [Fin.getElem_fin] at h6
      rw [h5] at h6
      injection h6 with h6
      exact hi ⟨j, hj⟩ (Fin.ext h6)
    · intro H i r e hr he hne
      have hi : i < s.cols := by rw [← hsq]; exact (List.getElem?_eq_some_iff.1 hr).1
      have := H ⟨i, hi⟩ (by
        intro j hj
        have h1 := (h.rep.eE _ _ (hmem j)).1
        rw [← hj, he] at h1
        injection h1 with h1
        exact hne _ h1)
      rw [mulVec_xOf hlw, List.getD_eq_getElem?_getD] at this
      have hr' : s.rows[i]? = some r := hr
      simp only [hr', Option.getD_some] at this
      exact this

theorem wv_xOf {s : St K O F Fl} {w : Wave → K} {i : Fin s.cols} {v : Wave} (h : s.waves[(i : ℕ)]? = some v) :
    xOf s w i = w v := wv_of_getElem? h w

/-- the mathematical content of an evaluation -/
theorem Squared.solvable_iff {s : St K O F Fl} {iA iB iE : Fin s.ports.length → Fin s.cols} (q : Squared s iA iB iE)
    (h : Rep ops net s) {Sof : String → SMat K} (hf : Filled s.blocks s.rows Sof) :
    s.mat.det ≠ 0 ↔ Solvable (net.Laws s.zbase Sof) net.nodes s.ports := by
  have hlw : s.waves.length = s.cols := h.wlen
  have hlaws : ∀ w, NonE s.core w ↔ net.Laws s.zbase Sof w := fun w => h.rep.laws_iff hf w
  have hwnd : s.waves.Nodup := h.rep.wnd
  constructor
  · intro hdet
    have hMW : s.mat * s.mat⁻¹ = 1 := Matrix.mul_nonsing_inv _ (Ne.isUnit hdet)
    constructor
    · intro a
      set b : Fin s.cols → K := fun i => ∑ j, if i = iE j then a s.ports[j] else 0 with hb
      set x := s.mat⁻¹.mulVec b with hx
      have hMx : s.mat.mulVec x = b := by rw [hx, Matrix.mulVec_mulVec, hMW, Matrix.one_mulVec]
      refine ⟨wOf s x, ?_, ?_⟩
      · rw [← hlaws, q.non]
        intro i hi
        rw [xOf_wOf hwnd hlw, hMx, hb]
        exact Finset.sum_eq_zero fun j _ => if_neg (hi j)
      · intro p hp
        obtain ⟨j, hj, rfl⟩ := List.getElem_of_mem hp
        have h1 : xOf s (wOf s x) (iA ⟨j, hj⟩) = wOf s x (.inn, s.ports[j]) := wv_xOf (q.hA ⟨j, hj⟩)
        rw [← h1, xOf_wOf hwnd hlw]
        have h2 : s.mat.mulVec x (iE ⟨j, hj⟩) = x (iA ⟨j, hj⟩) := by
          simp [Matrix.mulVec, dotProduct, q.row]
        rw [← h2, hMx, hb]
        simp only [q.inj.eq_iff]
        rw [Finset.sum_ite_eq]
        simp
    · intro w w' h1 h2 h3 n hn d
      have hm : (d, n) ∈ s.waves := (h.rep.wmem d n).2 hn
      have hlt : idx s.waves (d, n) < s.cols := by rw [← hlw]; exact idx_lt hm
      have g1 := lin_out hMW q.inj q.row ((q.non w).1 ((hlaws w).2 h1)) ⟨_, hlt⟩
      have g2 := lin_out hMW q.inj q.row ((q.non w').1 ((hlaws w').2 h2)) ⟨_, hlt⟩
      rw [wv_xOf (getElem?_idx hm)] at g1 g2
      rw [g1, g2]
      refine Finset.sum_congr rfl fun j _ => ?_
      rw [wv_xOf (q.hA j), wv_xOf (q.hA j)]
      exact congrArg _ (h3 _ (List.getElem_mem j.2))
  · intro hsol hdet
    obtain ⟨v, hv1, hv2⟩ := Matrix.exists_mulVec_eq_zero_iff.2 hdet
    apply hv1
    have e1 : net.Laws s.zbase Sof (wOf s v) := by
      rw [← hlaws, q.non]
      intro i _
      rw [xOf_wOf hwnd hlw, hv2]; rfl
    have e2 : net.Laws s.zbase Sof (fun _ => 0) := by
      rw [← hlaws]
      intro i r e _ _ _
      simp [rowEval, wv]
    have e3 := hsol.unique _ _ e1 e2 (by
      intro p hp
      obtain ⟨j, hj, rfl⟩ := List.getElem_of_mem hp
      have h1 : xOf s (wOf s v) (iA ⟨j, hj⟩) = wOf s v (.inn, s.ports[j]) := wv_xOf (q.hA ⟨j, hj⟩)
      rw [← h1, xOf_wOf hwnd hlw]
      have h2 : s.mat.mulVec v (iE ⟨j, hj⟩) = v (iA ⟨j, hj⟩) := by
        simp [Matrix.mulVec, dotProduct, q.row]
      rw [← h2, hv2]; rfl)
    ext j
    have hj : (j : ℕ) < s.waves.length := by rw [hlw]; exact j.2
    have h1 : s.waves[(j : ℕ)]? = some s.waves[(j : ℕ)] := List.getElem?_eq_getElem hj
    have h2 : xOf s (wOf s v) j = _ := wv_xOf h1
    rw [xOf_wOf hwnd hlw] at h2
    have hm : (s.waves[(j : ℕ)].1, s.waves[(j : ℕ)].2) ∈ s.waves := List.getElem_mem hj
    rw [h2]
    exact e3 s.waves[(j : ℕ)].2 ((h.rep.wmem _ _).1 hm) s.waves[(j : ℕ)].1

theorem mapE_ok_of_forall {α β : Type*} {g : α → Except Err β} {h : α → β} {l : List α} (H : ∀ x ∈ l, g x = .ok (h x)) :
    mapE g l = .ok (l.map h) := by
  rw [mapE_eq_ok]
  induction l with
  | nil => exact .nil
  | cons x l ih => exact .cons (H x (by simp)) (ih fun y hy => H y (by simp [hy]))

theorem at'_fin {n : ℕ} (W : Matrix (Fin n) (Fin n) K) (i j : Fin n) : at' W i j = W i j := by
  unfold at'
  rw [dif_pos ⟨i.2, j.2⟩]

/-- the result of the evaluation of a squared-up state that has external ports -/
theorem solveE_spec {s : St K O F Fl} (h : Rep ops net s) (hsq : s.rows.length = s.cols) (hp : s.ports ≠ [])
    {Sof : String → SMat K} (hf : Filled s.blocks s.rows Sof) :
    (∃ W S, solveE s = ({ s with invM := some ⟨s.cols, W⟩, S := some S }, .ok S) ∧
      IsScattering (net.Laws s.zbase Sof) net.nodes s.ports S ∧ s.mat * W = 1) ∨
    (solveE s = (s, .error .linAlg) ∧ ¬ Solvable (net.Laws s.zbase Sof) net.nodes s.ports) := by
  obtain ⟨hal, iA, iB, iE, q⟩ := h.squared hsq
  have hal' : s.aliased = true := hal.resolve_left fun x => hp x.1
  have hnames : s.names = s.ports := by simp [St.names, hal']
  have hlw : s.waves.length = s.cols := h.wlen
  have hsolv := q.solvable_iff h hf
  have hwnd : s.waves.Nodup := h.rep.wnd
  have hwm : ∀ (d : Dir), ∀ p ∈ s.ports, (d, p) ∈ s.waves := by
    intro d p hp
    exact (h.rep.wmem d p).2 ((h.rep.pmem p).1 hp).1
  have m1 : mapE (dictIndex s.E) s.ports = .ok (s.ports.map fun p => (dictGet p s.E).getD 0) := by
    apply mapE_ok_of_forall
    intro p hp
    obtain ⟨j, hj, rfl⟩ := List.getElem_of_mem hp
    have := q.hE ⟨j, hj⟩
    simp only [Fin.getElem_fin] at this
    simp [dictIndex, this]
  have m2 : ∀ d, mapE (fun p => pyIndex s.waves (d, p)) s.ports = .ok (s.ports.map fun p => idx s.waves (d, p)) := by
    intro d
    exact mapE_ok_of_forall fun p hp => pyIndex_of_mem (hwm d p hp)
  have getA : ∀ i : Fin s.ports.length, (s.ports.map fun p => idx s.waves (Dir.inn, p)).getD i 0 = iA i := by
    intro i
    have : idx s.waves (Dir.inn, s.ports[i]) = iA i :=
      getElem?_inj_of_nodup hwnd (getElem?_idx (hwm _ _ (List.getElem_mem i.2))) (q.hA i)
    simp [List.getD_eq_getElem?_getD, ← this]
  have getB : ∀ i : Fin s.ports.length, (s.ports.map fun p => idx s.waves (Dir.out, p)).getD i 0 = iB i := by
    intro i
    have : idx s.waves (Dir.out, s.ports[i]) = iB i :=
      getElem?_inj_of_nodup hwnd (getElem?_idx (hwm _ _ (List.getElem_mem i.2))) (q.hB i)
    simp [List.getD_eq_getElem?_getD, ← this]
  have getE : ∀ i : Fin s.ports.length, (s.ports.map fun p => (dictGet p s.E).getD 0).getD i 0 = iE i := by
    intro i
    have := q.hE i
    simp only [Fin.getElem_fin] at this
    simp [List.getD_eq_getElem?_getD, this]
  have hrange : ¬ ∃ i ∈ (s.ports.map fun p => idx s.waves (Dir.inn, p)) ++ (s.ports.map fun p => idx s.waves (Dir.out, p))
      ++ (s.ports.map fun p => (dictGet p s.E).getD 0), ¬ i < s.cols := by
    push Not
    intro i hi
    simp only [List.mem_append, List.mem_map] at hi
    rcases hi with (⟨p, hp, rfl⟩ | ⟨p, hp, rfl⟩) | ⟨p, hp, rfl⟩
    · rw [← hlw]; exact idx_lt (hwm _ p hp)
    · rw [← hlw]; exact idx_lt (hwm _ p hp)
    · obtain ⟨j, hj, rfl⟩ := List.getElem_of_mem hp
      have := q.hE ⟨j, hj⟩
      simp only [Fin.getElem_fin] at this
      rw [this]
      exact (iE ⟨j, hj⟩).2
  have hlen : s.ports.length ≠ 0 := fun e => hp (List.length_eq_zero_iff.1 e)
  have hred : solveE s = solveWith s s.ports.length (s.ports.map fun p => idx s.waves (Dir.inn, p))
      (s.ports.map fun p => idx s.waves (Dir.out, p)) (s.ports.map fun p => (dictGet p s.E).getD 0) := by
    unfold solveE
    simp only [hnames, m1, m2]
  rw [hred]
  unfold solveWith
  rw [if_neg (by simp [hsq])]
  by_cases hdet : s.mat.det = 0
  · right
    refine ⟨?_, fun hs => hsolv.2 hs hdet⟩
    rw [npInv_eq_error.2 ⟨hdet, rfl⟩]
  · left
    have hMW : s.mat * s.mat⁻¹ = 1 := Matrix.mul_nonsing_inv _ (Ne.isUnit hdet)
    set W := s.mat⁻¹ with hW
    have hQA : cut W s.ports.length (s.ports.map fun p => idx s.waves (Dir.inn, p))
        (s.ports.map fun p => (dictGet p s.E).getD 0) = 1 := by
      refine lin_QA hMW q.inj q.row _ fun i j => ?_
      rw [cut, getA, getE, at'_fin]
    refine ⟨W, ⟨s.ports.length, cut W s.ports.length (s.ports.map fun p => idx s.waves (Dir.out, p))
        (s.ports.map fun p => (dictGet p s.E).getD 0)⟩, ?_, ?_, hMW⟩
    · rw [npInv_of_mul_eq_one hMW]
      simp only [hlen, if_false]
      rw [if_neg hrange, hQA, npInv_of_mul_eq_one (mul_one 1)]
      simp only [mul_one]
    · refine ⟨hsolv.1 hdet, rfl, ?_⟩
      intro w hw i
      have hlaws := (h.rep.laws_iff hf w).2 hw
      have := lin_out hMW q.inj q.row ((q.non w).1 hlaws) (iB i)
      rw [wv_xOf (q.hB i)] at this
      rw [this]
      refine Finset.sum_congr rfl fun j _ => ?_
      rw [wv_xOf (q.hA j)]
      congr 1
      rw [SMat.at, dif_pos ⟨i.2, j.2⟩]
      show _ = cut W _ _ _ i j
      rw [cut, getB, getE, at'_fin]

end
end PyRFtk.Circuit
