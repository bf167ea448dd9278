import Verif.CircuitDeembed

/-!
# Evaluation: filling in the block matrices and adding the external-port equations
-/

set_option linter.unusedSectionVars false

namespace PyRFtk.Circuit

section
variable {K O F Fl : Type*} [Field K] [DecidableEq F] [DecidableEq Fl]
variable {ops : ObjOps K O F Fl} {net : Net K} {c : Core K O} {k : ℕ}

/-- What a block object is assumed to satisfy: `getS` returns what the behaviour `beh` says, calling it does not change
the behaviour (caches are correct), and the matrix has as many rows as the object has ports. -/
structure Lawful (ops : ObjOps K O F Fl) (beh : O → F → K → Fl → Except Err (SMat K)) : Prop where
  res : ∀ o f z fl, (ops.getS o f z fl).2 = beh o f z fl
  stable : ∀ o f z fl, beh (ops.getS o f z fl).1 = beh o
  len : ∀ o f z fl, ops.len (ops.getS o f z fl).1 = ops.len o
  sized : ∀ o f z fl S, beh o f z fl = .ok S → S.n = ops.len o

/-- position `(i,j)` lies in the S-matrix area of a block -/
def Blk.Area (b : Blk O) (i j : ℕ) : Prop :=
  b.loc.1 ≤ i ∧ i < b.loc.1 + b.ports.length ∧ b.loc.2 ≤ j ∧ j < b.loc.2 + b.ports.length

/-- same block, possibly another object state of the same size, and another position -/
def Blk.Like (ops : ObjOps K O F Fl) (b b' : Blk O) : Prop :=
  b'.name = b.name ∧ b'.ports = b.ports ∧ b'.loc = b.loc ∧ ops.len b'.obj = ops.len b.obj

theorem Blk.Like.refl (b : Blk O) : Blk.Like ops b b := ⟨rfl, rfl, rfl, rfl⟩

/-- rows changed only inside the areas of the blocks -/
def RowsAgree (bs : List (Blk O)) (rows rows' : List (ℕ → K)) : Prop :=
  rows'.length = rows.length ∧ ∀ (i : ℕ) r, rows[i]? = some r → ∃ r', rows'[i]? = some r' ∧
    ∀ j, (∀ b ∈ bs, ¬ b.Area i j) → r' j = r j

theorem RowsAgree.refl (bs : List (Blk O)) (rows : List (ℕ → K)) : RowsAgree bs rows rows :=
  ⟨rfl, fun _ r h => ⟨r, h, fun _ _ => rfl⟩⟩

theorem RowsAgree.trans {bs bs' : List (Blk O)} {r1 r2 r3 : List (ℕ → K)} {bs'' : List (Blk O)}
    (h1 : RowsAgree bs r1 r2) (h2 : RowsAgree bs' r2 r3)
    (hb : ∀ i j, (∀ b ∈ bs'', ¬ b.Area i j) → (∀ b ∈ bs, ¬ b.Area i j) ∧ (∀ b ∈ bs', ¬ b.Area i j)) :
    RowsAgree bs'' r1 r3 := by
  refine ⟨h2.1.trans h1.1, fun i r hr => ?_⟩
  obtain ⟨r', h3, h4⟩ := h1.2 i r hr
  obtain ⟨r'', h5, h6⟩ := h2.2 i r' h3
  exact ⟨r'', h5, fun j hj => by rw [h6 j (hb i j hj).2, h4 j (hb i j hj).1]⟩

theorem RowsAgree.back {bs : List (Blk O)} {r1 r2 : List (ℕ → K)} (h : RowsAgree bs r1 r2) {i : ℕ} {r' : ℕ → K}
    (hr : r2[i]? = some r') : ∃ r, r1[i]? = some r ∧ ∀ j, (∀ b ∈ bs, ¬ b.Area i j) → r' j = r j := by
  have hi : i < r1.length := by rw [← h.1]; exact (List.getElem?_eq_some_iff.1 hr).1
  obtain ⟨r'', h1, h2⟩ := h.2 i r1[i] (List.getElem?_eq_getElem hi)
  rw [hr] at h1; injection h1 with h1; subst h1
  exact ⟨_, List.getElem?_eq_getElem hi, h2⟩

theorem forall₂_mem_right {α β : Type*} {R : α → β → Prop} {l : List α} {m : List β} (h : List.Forall₂ R l m) {y : β}
    (hy : y ∈ m) : ∃ x ∈ l, R x y := by
  induction h with
  | nil => simp at hy
  | cons h1 _ ih =>
    simp only [List.mem_cons] at hy
    rcases hy with rfl | hy
    · exact ⟨_, by simp, h1⟩
    · obtain ⟨x, hx, hR⟩ := ih hy; exact ⟨x, by simp [hx], hR⟩

theorem forall₂_mem_left {α β : Type*} {R : α → β → Prop} {l : List α} {m : List β} (h : List.Forall₂ R l m) {x : α}
    (hx : x ∈ l) : ∃ y ∈ m, R x y := by
  induction h with
  | nil => simp at hx
  | cons h1 _ ih =>
    simp only [List.mem_cons] at hx
    rcases hx with rfl | hx
    · exact ⟨_, by simp, h1⟩
    · obtain ⟨y, hy, hR⟩ := ih hx; exact ⟨y, by simp [hy], hR⟩

/-- a row whose tag is not `S` is in no block area -/
theorem RepD.not_area (h : RepD ops net c k) {i : ℕ} {e : Eqn} (he : c.eqns[i]? = some e) (hn : ∀ n, e ≠ .S n) :
    ∀ b ∈ c.blocks, ∀ j, ¬ b.Area i j := by
  rintro b hb j ⟨h1, h2, _⟩
  have := h.eS b hb (i - b.loc.1) (by omega)
  have hi : b.loc.1 + (i - b.loc.1) = i := by omega
  rw [hi, he] at this
  injection this with this
  exact hn _ this

/-- different blocks own different rows -/
theorem RepD.rows_disjoint (h : RepD ops net c k) :
    c.blocks.Pairwise fun b b' => ∀ i, ¬ ((b.loc.1 ≤ i ∧ i < b.loc.1 + b.ports.length) ∧
      (b'.loc.1 ≤ i ∧ i < b'.loc.1 + b'.ports.length)) := by
  have hp : c.blocks.Pairwise fun b b' => b.name ≠ b'.name := by
    have := h.bnd
    rw [List.Nodup, List.pairwise_map] at this
    exact this
  refine hp.imp_of_mem ?_
  rintro b b' hb hb' hne i ⟨⟨h1, h2⟩, h3, h4⟩
  have e1 := h.eS b hb (i - b.loc.1) (by omega)
  have e2 := h.eS b' hb' (i - b'.loc.1) (by omega)
  have hi : b.loc.1 + (i - b.loc.1) = i := by omega
  have hi' : b'.loc.1 + (i - b'.loc.1) = i := by omega
  rw [hi] at e1; rw [hi', e1] at e2
  simp only [Option.some.injEq, Eqn.S.injEq, Node.blk.injEq] at e2
  exact hne e2.1

theorem forall₂_like_map {l m : List (Blk O)} (h : List.Forall₂ (Blk.Like ops) l m) :
    m.map (fun b => (b.name, b.ports)) = l.map (fun b => (b.name, b.ports)) := by
  induction h with
  | nil => rfl
  | cons h1 _ ih => simp [ih, h1.1, h1.2.1]

theorem RepD.fill (h : RepD ops net c k) {rows' : List (ℕ → K)} {blocks' : List (Blk O)}
    (hr : RowsAgree c.blocks c.rows rows') (hb : List.Forall₂ (Blk.Like ops) c.blocks blocks') :
    RepD ops net { c with rows := rows', blocks := blocks' } k := by
  have hback : ∀ b' ∈ blocks', ∃ b ∈ c.blocks, Blk.Like ops b b' := fun b' hb' => forall₂_mem_right hb hb'
  have hmap : blocks'.map (fun b => (b.name, b.ports)) = c.blocks.map (fun b => (b.name, b.ports)) := by
    exact forall₂_like_map hb
  have hnm : blocks'.map Blk.name = c.blocks.map Blk.name := by
    have := congrArg (List.map Prod.fst) hmap
    simpa [List.map_map, Function.comp_def] using this
  refine { h with blks := ?_, bnd := ?_, blen := ?_, bcol := ?_, brow := ?_, elen := ?_, eS := ?_, eS' := ?_, tT := ?_,
                  eE := ?_, core := ?_, count := ?_ }
  · rw [hmap]; exact h.blks
  · rw [hnm]; exact h.bnd
  · intro b' hb'
    obtain ⟨b, hb, e1, e2, e3, e5⟩ := hback b' hb'
    rw [e2, e5]; exact h.blen b hb
  · intro b' hb' i hi
    obtain ⟨b, hb, e1, e2, e3, e5⟩ := hback b' hb'
    have := h.bcol b hb i (by rw [← e2]; exact hi)
    simp only [e1, e2, e3]; exact this
  · intro b' hb' i hi
    obtain ⟨b, hb, e1, e2, e3, e5⟩ := hback b' hb'
    have hi2 : i < b.ports.length := by rw [← e2]; exact hi
    obtain ⟨r, g1, g2⟩ := h.brow b hb i hi2
    obtain ⟨r', g3, g4⟩ := hr.2 _ r g1
    simp only [e2, e3]
    refine ⟨r', g3, fun j hj hn => ?_⟩
    rw [g4 j, g2 j hj hn]
    rintro x hx ⟨a1, a2, a3, a4⟩
    -- same row: same block
    have e1 := h.eS x hx (b.loc.1 + i - x.loc.1) (by omega)
    have e2 := h.eS b hb i hi2
    have : x.loc.1 + (b.loc.1 + i - x.loc.1) = b.loc.1 + i := by omega
    rw [this, e2] at e1
    simp only [Option.some.injEq, Eqn.S.injEq, Node.blk.injEq] at e1
    have hxb : x = b := List.inj_on_of_nodup_map h.bnd hx hb e1.1.symm
    subst hxb
    exact hn ⟨a3, a4⟩
  · show c.eqns.length = rows'.length
    rw [hr.1]; exact h.elen
  · intro b' hb' i hi
    obtain ⟨b, hb, e1, e2, e3, e5⟩ := hback b' hb'
    have := h.eS b hb i (by rw [← e2]; exact hi)
    simp only [e1, e2, e3]; exact this
  · intro i n hi
    obtain ⟨b, hbm, k, hk, e⟩ := h.eS' i n hi
    obtain ⟨b', hb', e1, e2, e3, e5⟩ := forall₂_mem_left hb hbm
    exact ⟨b', hb', k, by rw [e2]; exact hk, by rw [e3]; exact e⟩
  · refine h.tT.imp ?_
    rintro l t ⟨h1, h2, h3, h4, rho, r, h5, h6, h7⟩
    obtain ⟨r', g1, g2⟩ := hr.2 _ r h6
    exact ⟨h1, h2, h3, h4, rho, r', h5, g1, fun j hj => by
      rw [g2 j (fun b hb => h.not_area h4 (by simp) b hb j)]; exact h7 j hj⟩
  · intro p e hpe
    obtain ⟨h1, a, r, h2, h3, h4⟩ := h.eE p e hpe
    obtain ⟨r', g1, g2⟩ := hr.2 _ r h3
    exact ⟨h1, a, r', h2, g1, fun j hj => by
      rw [g2 j (fun b hb => h.not_area h1 (by simp) b hb j)]; exact h4 j hj⟩
  · intro w
    rw [← h.core w]
    constructor
    · intro H i r e h1 h2 h3
      obtain ⟨r', g1, g2⟩ := hr.2 _ r h1
      have := H i r' e g1 h2 h3
      rwa [rowEval_congr (r' := r)] at this
      intro j _
      exact g2 j (fun b hb => h.not_area h2 (by rintro n rfl; simp [Eqn.IsCore] at h3) b hb j)
    · intro H i r' e h1 h2 h3
      obtain ⟨r, g1, g2⟩ := hr.back h1
      have := H i r e g1 h2 h3
      show rowEval c.waves r' w = 0
      rwa [rowEval_congr (r' := r)]
      intro j _
      exact g2 j (fun b hb => h.not_area h2 (by rintro n rfl; simp [Eqn.IsCore] at h3) b hb j)
  · have := h.count
    show rows'.length + _ + _ = _
    rw [hr.1]; exact this

theorem setBlock_ok {rows : List (ℕ → K)} {loc : ℕ × ℕ} {N : ℕ} {S : SMat K} (hn : S.n = N) :
    ∃ rows1, setBlock rows loc N S = .ok rows1 ∧ rows1.length = rows.length ∧
      ∀ (i : ℕ) r, rows[i]? = some r → ∃ r', rows1[i]? = some r' ∧
        (∀ j, ¬ (loc.1 ≤ i ∧ i < loc.1 + N ∧ loc.2 ≤ j ∧ j < loc.2 + N) → r' j = r j) ∧
        (∀ j, (loc.1 ≤ i ∧ i < loc.1 + N ∧ loc.2 ≤ j ∧ j < loc.2 + N) → r' j = S.at (i - loc.1) (j - loc.2)) := by
  subst hn
  unfold setBlock
  rw [if_pos (Or.inl rfl)]
  refine ⟨_, rfl, by simp, fun i r hr => ?_⟩
  rw [List.getElem?_mapIdx, hr]
  refine ⟨_, rfl, ?_, ?_⟩
  · intro j hj
    have h1 : ¬ (loc.1 ≤ i ∧ i < loc.1 + S.n ∧ loc.2 ≤ j ∧ j < loc.2 + S.n ∧ S.n = S.n) := by tauto
    have h2 : ¬ (loc.1 ≤ i ∧ i < loc.1 + S.n ∧ loc.2 ≤ j ∧ j < loc.2 + S.n ∧ S.n = 1) := by tauto
    exact (dif_neg h1).trans (dif_neg h2)
  · intro j hj
    have h1 : loc.1 ≤ i ∧ i < loc.1 + S.n ∧ loc.2 ≤ j ∧ j < loc.2 + S.n ∧ S.n = S.n := by tauto
    refine (dif_pos h1).trans ?_
    rw [SMat.at, dif_pos (by constructor <;> omega)]

/-- the S-matrix areas contain `Sof` -/
def Filled (bs : List (Blk O)) (rows : List (ℕ → K)) (Sof : String → SMat K) : Prop :=
  ∀ b ∈ bs, ∀ i j, b.Area i j → ∀ r, rows[i]? = some r → r j = (Sof b.name).at (i - b.loc.1) (j - b.loc.2)

variable {beh : O → F → K → Fl → Except Err (SMat K)}

/-- all blocks deliver their matrix -/
def Delivers (beh : O → F → K → Fl → Except Err (SMat K)) (bs : List (Blk O)) (f : F) (zb : K) (fl : Fl)
    (Sof : String → SMat K) : Prop := ∀ b ∈ bs, beh b.obj f zb fl = .ok (Sof b.name)

theorem fillBlocks_spec (hlaw : Lawful ops beh) (f : F) (zb : K) (fl : Fl) :
    ∀ (bs : List (Blk O)) (rows : List (ℕ → K)), (∀ b ∈ bs, b.ports.length = ops.len b.obj) →
    (bs.Pairwise fun b b' => ∀ i, ¬ ((b.loc.1 ≤ i ∧ i < b.loc.1 + b.ports.length) ∧
      (b'.loc.1 ≤ i ∧ i < b'.loc.1 + b'.ports.length))) →
    RowsAgree bs rows (fillBlocks ops f zb fl bs rows).2.1 ∧
    List.Forall₂ (fun b b' => Blk.Like ops b b' ∧ beh b'.obj = beh b.obj) bs (fillBlocks ops f zb fl bs rows).1 ∧
    ((fillBlocks ops f zb fl bs rows).2.2 = .ok () →
      (∀ b ∈ bs, ∃ S, beh b.obj f zb fl = .ok S) ∧
      ∀ Sof, Delivers beh bs f zb fl Sof → Filled bs (fillBlocks ops f zb fl bs rows).2.1 Sof) ∧
    ((∀ b ∈ bs, ∃ S, beh b.obj f zb fl = .ok S) → (fillBlocks ops f zb fl bs rows).2.2 = .ok ())
  | [], rows, _, _ => by
    refine ⟨RowsAgree.refl _ _, .nil, fun _ => ⟨by simp, ?_⟩, fun _ => rfl⟩
    intro Sof _ b hb; simp at hb
  | b :: bs, rows, hlen, hdis => by
    rw [List.pairwise_cons] at hdis
    have hres := hlaw.res b.obj f zb fl
    have hlike : ∀ bs : List (Blk O), List.Forall₂ (fun b b' => Blk.Like ops b b' ∧ beh b'.obj = beh b.obj) bs bs := by
      intro bs
      induction bs with
      | nil => exact .nil
      | cons x l ih => exact .cons ⟨Blk.Like.refl x, rfl⟩ ih
    have hhead : Blk.Like ops b { b with obj := (ops.getS b.obj f zb fl).1 } ∧
        beh ({ b with obj := (ops.getS b.obj f zb fl).1 } : Blk O).obj = beh b.obj :=
      ⟨⟨rfl, rfl, rfl, hlaw.len _ _ _ _⟩, hlaw.stable _ _ _ _⟩
    unfold fillBlocks
    cases hg : ops.getS b.obj f zb fl with
    | mk o r =>
      rw [hg] at hres hhead
      simp only at hres hhead
      cases r with
      | error e =>
        refine ⟨RowsAgree.refl _ _, .cons hhead (hlike bs), fun h => (by cases h), fun h => ?_⟩
        obtain ⟨S, hS⟩ := h b (by simp)
        rw [← hres] at hS; cases hS
      | ok S =>
        simp only
        have hn : S.n = b.ports.length := by
          rw [hlaw.sized _ _ _ _ _ hres.symm]; exact (hlen b (by simp)).symm
        obtain ⟨rows1, e1, e2, e3⟩ := setBlock_ok (rows := rows) (loc := b.loc) hn
        rw [e1]
        simp only
        obtain ⟨i1, i2, i3, i4⟩ := fillBlocks_spec hlaw f zb fl bs rows1 (fun x hx => hlen x (by simp [hx])) hdis.2
        have hra1 : RowsAgree [b] rows rows1 := by
          refine ⟨e2, fun i r hr => ?_⟩
          obtain ⟨r', g1, g2, _⟩ := e3 i r hr
          exact ⟨r', g1, fun j hj => g2 j (by simpa [Blk.Area] using hj)⟩
        refine ⟨hra1.trans i1 (by intro i j h; exact ⟨by simpa using h b (by simp), fun x hx => h x (by simp [hx])⟩),
          .cons hhead i2, ?_, ?_⟩
        · intro hok
          obtain ⟨j1, j2⟩ := i3 hok
          refine ⟨?_, ?_⟩
          · intro x hx
            simp only [List.mem_cons] at hx
            rcases hx with rfl | hx
            · exact ⟨S, hres.symm⟩
            · exact j1 x hx
          · intro Sof hdel x hx i j harea r hr
            simp only [List.mem_cons] at hx
            rcases hx with rfl | hx
            · obtain ⟨r1, g1, g2⟩ := i1.back hr
              have hnot : ∀ y ∈ bs, ¬ y.Area i j := by
                rintro y hy ⟨a1, a2, _⟩
                exact hdis.1 y hy i ⟨⟨harea.1, harea.2.1⟩, a1, a2⟩
              rw [g2 j hnot]
              obtain ⟨r0, k1, _⟩ := hra1.back g1
              obtain ⟨r', k3, _, k5⟩ := e3 i r0 k1
              rw [g1] at k3; injection k3 with k3; subst k3
              rw [k5 j harea]
              have := hdel x (by simp)
              rw [← hres] at this; injection this with this
              rw [this]
            · exact j2 Sof (fun y hy => hdel y (by simp [hy])) x hx i j harea r hr
        · intro hall
          exact i4 fun x hx => hall x (by simp [hx])

end
end PyRFtk.Circuit
