import Verif.CircuitNest

/-!
# `solve` and `Solution` (C30)

The waves at every node for an excitation given by port name.
-/

set_option linter.unusedSectionVars false

namespace PyRFtk.Circuit

section
variable {K O F Fl : Type*} [Field K] [DecidableEq F] [DecidableEq Fl]

/-! ## the model -/

/-- a vector of numbers (`self.sol`) -/
structure SVec (K : Type*) where
  n : ℕ
  v : Fin n → K

/-- `Es[self.E[p]] = Ek` for the pairs `(p, Ek)` (rfCircuit.py:1445-1446, 1514-1515, 1729-1730); `N` is the length of
`Es`. -/
def fillEs (E : List (Node × ℕ)) (N : ℕ) : List (Node × K) → (ℕ → K) → Except Err (ℕ → K)
  | [], Es => .ok Es
  | (p, v) :: l, Es => match dictIndex E p with
    | .error e => .error e
    | .ok k => if k < N then fillEs E N l (Function.update Es k v) else .error .indexError

/-- `S @ Ea` for a list `Ea` (1436, 1495, 1718); ValueError when the sizes do not fit -/
def applyS (S : SMat K) (Ea : List K) : Except Err (List K) :=
  if S.n = Ea.length then .ok ((List.range S.n).map fun i => ∑ j : Fin S.n, S.at i j * Ea.getD j 0)
  else .error .valueError

/-- waves on the circuit's reference `zs` from waves `a`, `b` on `z` (1439, 1498, 1724) -/
def onOwn (zs z a b : K) : K := ((a + b) + zs / z * (a - b)) / 2

/-- `self.invM @ Es` (1454, 1527, 1736), `invM` being computed by `extS` when it is missing (1450-1451, 1522-1524). -/
noncomputable def applyInv (s : St K O F Fl) (N : ℕ) (Es : ℕ → K) : St K O F Fl × Except Err (SVec K) :=
  match s.invM with
  | some ⟨n, W⟩ => if N = n then (s, .ok ⟨n, W.mulVec fun i => Es i⟩) else (s, .error .valueError)
  | none => match extS s with
    | (s, .error e) => (s, .error e)
    | (s, .ok _) => match s.invM with
      | some ⟨n, W⟩ => if N = n then (s, .ok ⟨n, W.mulVec fun i => Es i⟩) else (s, .error .valueError)
      | none => (s, .error .typeError)

open Classical in
/-- `solve(f, E, Zbase, flags)` (rfCircuit.py:1412-1456); the same statements begin `Solution` (1488-1527).  The result is
`self.sol`.  `E` is a dictionary port name ↦ wave.  Simplification: `Zbase = 0` raises (numpy would return nan). -/
noncomputable def solve (ops : ObjOps K O F Fl) (s : St K O F Fl) (f : F) (E : List (Node × K)) (z : Option K) (fl : Fl) :
    St K O F Fl × Except Err (SVec K) :=
  let zb := z.getD s.zbase                                                        -- 1427
  match mapE (dictIndex E) s.ports with                                           -- 1430
  | .error e => (s, .error e)
  | .ok Ea => match getS ops s f (some zb) fl with                                -- 1436
    | (s, .error e) => (s, .error e)
    | (s, .ok S) => match applyS S Ea with
      | .error e => (s, .error e)
      | .ok Eb =>
        if zb = 0 then (s, .error .nonFinite) else                                -- 1439
        let Ei := (Ea.zip Eb).map fun x => onOwn s.zbase zb x.1 x.2
        match fillEs s.E s.rows.length (s.ports.zip Ei) (fun _ => 0) with         -- 1442-1446
        | .error e => (s, .error e)
        | .ok Es => applyInv s s.rows.length Es                                   -- 1450-1454

/-- voltage, current, forward and reflected wave of a node, as reported by `Solution` -/
structure Quad (K : Type*) where
  V : K
  I : K
  Vf : K
  Vr : K
deriving DecidableEq

/-- `self.sol[k]` -/
def SVec.get (x : SVec K) (k : ℕ) : Except Err K := if h : k < x.n then .ok (x.v ⟨k, h⟩) else .error .indexError

open Classical in
/-- one pass of the loop 1531-1540 for the wave `w` at position `kf`: nothing for a reflected wave -/
noncomputable def nodeQuad (s : St K O F Fl) (zb : K) (sol : SVec K) (wk : Wave × ℕ) :
    Except Err (List (Node × Quad K)) :=
  match wk with
  | ((.out, _), _) => .ok []
  | ((.inn, n), kf) => match pyIndex s.waves (.out, n) with                       -- 1535
    | .error e => .error e
    | .ok kr => match sol.get kf, sol.get kr with
      | .error e, _ => .error e
      | _, .error e => .error e
      | .ok a, .ok b =>
        if s.zbase = 0 then .error .nonFinite else
        let V := a + b
        let I := (a - b) / s.zbase
        .ok [(n, ⟨V, I, (V + zb * I) / 2, (V - zb * I) / 2⟩)]                     -- 1536-1540

/-- `Solution(f, E, Zbase, nodes=[], flags)` (rfCircuit.py:1462-1612) without the descent into the blocks: the table of
all nodes of this circuit. -/
noncomputable def solution (ops : ObjOps K O F Fl) (s : St K O F Fl) (f : F) (E : List (Node × K)) (z : Option K)
    (fl : Fl) : St K O F Fl × Except Err (List (Node × Quad K)) :=
  match solve ops s f E z fl with
  | (s', .error e) => (s', .error e)
  | (s', .ok sol) => match mapE (nodeQuad s' (z.getD s.zbase) sol) s'.waves.zipIdx with
    | .error e => (s', .error e)
    | .ok l => (s', .ok (l.flatten.foldl (fun d x => dictSet x.1 x.2 d) []))

end

/-! ## specification -/

section
variable {K : Type*} [Field K]

/-- The state of a network: the voltage and the current (into the block) at every node, and the waves they are made of on
a reference impedance `z`. -/
structure Field.State (K : Type*) where
  V : Node → K
  I : Node → K

/-- the state of a wave assignment on reference `zb` -/
def stateOf (zb : K) (w : Wave → K) : Field.State K := ⟨volt w, fun n => curr w n / zb⟩

/-- forward wave on `z` -/
def Field.State.fwd (x : Field.State K) (z : K) (n : Node) : K := (x.V n + z * x.I n) / 2
/-- reflected wave on `z` -/
def Field.State.rev (x : Field.State K) (z : K) (n : Node) : K := (x.V n - z * x.I n) / 2

/-- what `Solution` should report at a node -/
def Field.State.quad (x : Field.State K) (z : K) (n : Node) : Quad K := ⟨x.V n, x.I n, x.fwd z n, x.rev z n⟩

end

/-! ## the stored inverse -/

section
variable {K O F Fl : Type*} [Field K] [DecidableEq F] [DecidableEq Fl]
variable {ops : ObjOps K O F Fl} {beh : O → F → K → Fl → Except Err (SMat K)} {nan zb : K} {names : List Node}
variable {net : Net K} {bh : Behave K F Fl} {s s' : St K O F Fl} {ph : Phase}

/-- `Es` is the excitation vector of the waves `a` sent into the external ports -/
def Excites (s : St K O F Fl) (a : Node → K) (Es : Fin s.cols → K) : Prop :=
  (∀ p ∈ s.ports, ∃ e : Fin s.cols, dictGet p s.E = some (e : ℕ) ∧ Es e = a p) ∧
  ∀ e : Fin s.cols, (∀ p ∈ s.ports, dictGet p s.E ≠ some (e : ℕ)) → Es e = 0

/-- the stored inverse goes with the stored matrix -/
def InvOK (net : Net K) (bh : Behave K F Fl) (s : St K O F Fl) : Prop :=
  ∀ M, s.S = some M → s.rows.length = s.cols ∧ ∀ f fl, s.f = some f → s.flags = some fl →
    ∃ W, s.invM = some ⟨s.cols, W⟩ ∧ ∀ Sof, Given net bh f s.zbase fl Sof → ∀ a Es, Excites s a Es →
      net.Laws s.zbase Sof (wOf s (W.mulVec Es)) ∧ ∀ p ∈ s.ports, wOf s (W.mulVec Es) (.inn, p) = a p

theorem Squared.solution {iA iB iE : Fin s.ports.length → Fin s.cols} (q : Squared s iA iB iE)
    (h : Rep ops net s) {Sof : String → SMat K} (hf : Filled s.blocks s.rows Sof)
    {W : Matrix (Fin s.cols) (Fin s.cols) K} (hMW : s.mat * W = 1) {a : Node → K} {Es : Fin s.cols → K}
    (hEs : Excites s a Es) :
    net.Laws s.zbase Sof (wOf s (W.mulVec Es)) ∧ ∀ p ∈ s.ports, wOf s (W.mulVec Es) (.inn, p) = a p := by
  have hlw : s.waves.length = s.cols := h.wlen
  have hwnd : s.waves.Nodup := h.rep.wnd
  set x := W.mulVec Es with hx
  have hMx : s.mat.mulVec x = Es := by rw [hx, Matrix.mulVec_mulVec, hMW, Matrix.one_mulVec]
  constructor
  · refine (h.rep.laws_iff hf _).1 ((q.non _).2 ?_)
    intro i hi
    rw [xOf_wOf hwnd hlw, hMx]
    apply hEs.2
    intro p hp hc
    obtain ⟨j, hj, rfl⟩ := List.getElem_of_mem hp
    have := q.hE ⟨j, hj⟩
    simp only [Fin.getElem_fin] at this
    rw [this] at hc
    injection hc with hc
    exact hi ⟨j, hj⟩ (Fin.ext hc.symm)
  · intro p hp
    obtain ⟨e, he, hEa⟩ := hEs.1 p hp
    obtain ⟨j, hj, rfl⟩ := List.getElem_of_mem hp
    have h1 : xOf s (wOf s x) (iA ⟨j, hj⟩) = wOf s x (.inn, s.ports[j]) := wv_xOf (q.hA ⟨j, hj⟩)
    rw [← h1, xOf_wOf hwnd hlw]
    have h2 : s.mat.mulVec x (iE ⟨j, hj⟩) = x (iA ⟨j, hj⟩) := by
      simp [Matrix.mulVec, dotProduct, q.row]
    rw [← h2, hMx, ← hEa]
    have := q.hE ⟨j, hj⟩
    simp only [Fin.getElem_fin] at this
    rw [this] at he
    injection he with he
    rw [Fin.ext he]

/-- a failed evaluation of a circuit that is already squared up changes only the blocks and their entries in `M` -/
theorem recompute_error_square (hlaw : Lawful ops beh) (h : Inv ops beh zb names net bh s)
    (hsq : s.rows.length = s.cols) (hp : s.ports ≠ []) {f : F} {fl : Fl} {e : Err}
    (hrun : recompute ops s f fl = (s', .error e)) :
    ∃ rows blocks, rows.length = s.rows.length ∧ s' = { s with rows := rows, blocks := blocks } := by
  obtain ⟨f1, f2, f3, f4⟩ := fillBlocks_spec hlaw f s.zbase fl s.blocks s.rows h.rep.rep.blen h.rep.rep.rows_disjoint
  unfold recompute at hrun
  simp only at hrun
  generalize fillBlocks ops f s.zbase fl s.blocks s.rows = r at hrun f1 f2 f3 f4
  cases hrr : r.2.2 with
  | error e =>
    rw [hrr] at hrun
    simp only [Prod.mk.injEq] at hrun
    exact ⟨r.2.1, r.1, f1.1, hrun.1.symm⟩
  | ok u =>
    rw [hrr] at hrun
    simp only at hrun
    set s1 : St K O F Fl := { s with blocks := r.1, rows := r.2.1 } with hs1
    have hsq1 : s1.rows.length = s1.cols := f1.1.trans hsq
    have hsu : squareUp s1 = (s1, .ok ()) := by unfold squareUp; rw [if_pos hsq1]
    simp only [extS, hsu] at hrun
    have hlike : List.Forall₂ (Blk.Like ops) s.blocks r.1 := f2.imp fun _ _ x => x.1
    have hrep1 : Rep ops net s1 := by
      refine ⟨h.rep.rep.fill f1 hlike, h.rep.wlen, ?_⟩
      intro b p hb
      have h1 := congrArg (List.map Prod.fst) (forall₂_like_map hlike)
      simp only [List.map_map] at h1
      have h3 : r.1.map Blk.name = s.blocks.map Blk.name := h1
      show b ∈ r.1.map Blk.name
      rw [h3]
      exact h.rep.bnode b p hb
    have hbhv1 : ∀ b ∈ s1.blocks, beh b.obj = bh b.name := by
      intro b' hb'
      obtain ⟨b, hb, h1, h2⟩ := forall₂_mem_right f2 hb'
      rw [h2, h1.1]; exact h.bhv b hb
    obtain ⟨g1, g2⟩ := f3 hrr
    obtain ⟨Sof, hSof⟩ : ∃ Sof, Given net bh f s.zbase fl Sof := by
      apply exists_given
      intro x hx
      have hb : net.blks = s.blocks.map fun b => (b.name, b.ports) := h.rep.rep.blks
      rw [hb] at hx
      simp only [List.mem_map] at hx
      obtain ⟨b, hbm, rfl⟩ := hx
      obtain ⟨S, hS⟩ := g1 b hbm
      exact ⟨S, by rw [← h.bhv b hbm]; exact hS⟩
    rw [h.delivers] at hSof
    have hfill : Filled s1.blocks s1.rows Sof := by
      have := g2 Sof hSof
      intro b' hb' i j har rr hrr'
      obtain ⟨b, hb, h1, h2⟩ := forall₂_mem_right f2 hb'
      obtain ⟨e1, e2, e3, _⟩ := h1
      have har' : b.Area i j := by simpa [Blk.Area, e2, e3] using har
      rw [e1, e3]
      exact this b hb i j har' rr hrr'
    rcases solveE_spec hrep1 hsq1 hp hfill with ⟨W, S, he, _⟩ | ⟨he, _⟩
    · rw [he] at hrun
      simp at hrun
    · rw [he] at hrun
      simp only [Prod.mk.injEq] at hrun
      exact ⟨r.2.1, r.1, f1.1, hrun.1.symm⟩

theorem InvOK.of_none (h : s.S = none) : InvOK net bh s := fun M hM => by rw [h] at hM; cases hM

theorem Built.invOK [CharZero K] (hlaw : Lawful ops beh) (h : Built ops beh nan zb names net bh s ph)
    (hph : ph ≠ .reloaded) : InvOK net bh s := by
  induction h with
  | init bh => exact InvOK.of_none rfl
  | @addblock net bh s s' name obj spec relpos ports hb hname hres hnd hs ih =>
    exact InvOK.of_none (((Built.addblock hb hname hres hnd hs).all hlaw).2.1 rfl).2.2
  | @replace net bh s s' ph name obj spec relpos hb hname hs ih =>
    obtain ⟨-, rfl⟩ := rep_replace (hb.inv hlaw).rep hname hs
    exact InvOK.of_none rfl
  | @connect net bh s s' ps hb hs ih =>
    exact InvOK.of_none (((Built.connect hb hs).all hlaw).2.1 rfl).2.2
  | @terminate net bh s s' ph p args l hb hl hs ih =>
    obtain ⟨hi, hb', hc⟩ := hb.all hlaw
    obtain ⟨⟨f1, f2, f3, f4, f5, f6⟩, g2, g3⟩ := terminate_frame hs
    rcases g3 rfl with h1 | ⟨h1, h2, h3⟩
    · exact InvOK.of_none h1
    · have hmem : p ∈ net.loads.map Prod.fst := by
        rw [hi.rep.rep.loads_keys]
        by_contra h4
        rw [← dictGet_none] at h4
        have h5 : dictGet p s.T = none := h4
        rw [h5] at h2; cases h2
      by_cases h4 : ph = .building
      · exact InvOK.of_none (by rw [h1]; exact (hb' h4).2.2)
      · rw [if_pos ⟨h4, hmem⟩] at hph
        exact absurd rfl hph
  | @deembed net bh s s' int ext hb hfresh hnd hdot hs ih =>
    exact InvOK.of_none (((Built.deembed hb hfresh hnd hdot hs).all hlaw).2.1 rfl).2.2
  | @used net bh s ph bs hb hu ih => exact ih hph
  | @eval net bh s s' ph f z fl r hb hs ih =>
    obtain ⟨hi, hb', hc⟩ := hb.all hlaw
    have hst := getS_state hs
    rcases get1S_eq (ops := ops) s f fl with ⟨M, e1, e2, e3, e4⟩ | ⟨e1, e2⟩
    · rw [e4] at hst
      simp only at hst
      subst hst
      apply ih
      rcases afterEval_ne_reloaded hph with h | ⟨h, _⟩
      · exact h
      · rcases h with h | h | h
        · rw [e1] at h; cases h
        · exact absurd e2 h
        · exact absurd e3 h
    · rw [e2] at hst
      cases hr : recompute ops s f fl with
      | mk s1 r1 =>
        rw [hr] at hst
        simp only at hst
        subst hst
        obtain ⟨q1, q2, q3, _⟩ := recompute_spec hlaw hi f fl hr
        cases r1 with
        | ok M =>
          obtain ⟨a1, a2, a3, a4, a5, ⟨W, a6, a6'⟩, a7, a8, a9⟩ := q2 M rfl
          intro M' _
          refine ⟨a7, fun f' fl' hf' hfl' => ⟨W, a6, fun Sof hSof a Es hEs => ?_⟩⟩
          rw [a2] at hf'; rw [a3] at hfl'
          injection hf' with hf'; injection hfl' with hfl'
          subst hf' hfl'
          obtain ⟨-, iA, iB, iE, q⟩ := q1.rep.squared a7
          rw [q1.zb] at hSof
          exact q.solution q1.rep (a9 Sof hSof).1 a6' hEs
        | error e =>
          have hp' : ph ≠ .reloaded := by
            rcases afterEval_ne_reloaded hph with h | ⟨_, M, h⟩
            · exact h
            · exfalso
              unfold getS at hs
              rw [e2, hr] at hs
              simp only [Prod.mk.injEq] at hs
              rw [← hs.2] at h; cases h
          obtain ⟨b1, b2, b3⟩ := q3 e rfl
          rcases b1 with h | ⟨h, h'⟩
          · exact InvOK.of_none h
          · cases hS : s.S with
            | none => exact InvOK.of_none (by rw [h, hS])
            | some M =>
              have hsq := (ih hp' M hS).1
              obtain ⟨rows, blocks, hl, rfl⟩ := recompute_error_square hlaw hi hsq (hc hp' M hS).1 hr
              intro M' hM'
              obtain ⟨c1, c2⟩ := ih hp' M' hM'
              exact ⟨hl.trans c1, c2⟩

/-! ## one call of `solve` -/

theorem fillEs_ok {E : List (Node × ℕ)} {N : ℕ} : ∀ {l : List (Node × K)} {Es0 : ℕ → K},
    (∀ x ∈ l, ∃ k, k < N ∧ dictGet x.1 E = some k) → ∃ Es, fillEs E N l Es0 = .ok Es
  | [], Es0, _ => ⟨Es0, rfl⟩
  | (p, v) :: l, Es0, h => by
    obtain ⟨k, hk, he⟩ := h (p, v) (by simp)
    unfold fillEs
    simp only [dictIndex, he, hk, if_true]
    exact fillEs_ok fun x hx => h x (by simp [hx])

theorem fillEs_spec {E : List (Node × ℕ)} {N : ℕ}
    : ∀ {l : List (Node × K)} {Es0 Es : ℕ → K}, fillEs E N l Es0 = .ok Es →
    (∀ k, (∀ x ∈ l, dictGet x.1 E ≠ some k) → Es k = Es0 k) ∧
    ((l.map Prod.fst).Pairwise (fun p q => ∀ k, dictGet p E = some k → dictGet q E ≠ some k) →
      ∀ x ∈ l, ∃ k, k < N ∧ dictGet x.1 E = some k ∧ Es k = x.2)
  | [], Es0, Es, h => by
    simp only [fillEs, Except.ok.injEq] at h
    subst h
    exact ⟨fun _ _ => rfl, fun _ x hx => by simp at hx⟩
  | (p, v) :: l, Es0, Es, h => by
    unfold fillEs at h
    cases hd : dictIndex E p with
    | error e => rw [hd] at h; cases h
    | ok k0 =>
      rw [hd] at h
      simp only at h
      have hd' : dictGet p E = some k0 := by
        unfold dictIndex at hd
        cases hg : dictGet p E with
        | none => rw [hg] at hd; cases hd
        | some k => rw [hg] at hd; simp only [Except.ok.injEq] at hd; rw [hd]
      by_cases hk : k0 < N
      · rw [if_pos hk] at h
        obtain ⟨h1, h2⟩ := fillEs_spec h
        constructor
        · intro k hx
          rw [h1 k fun x hxl => hx x (by simp [hxl])]
          rw [Function.update_of_ne]
          rintro rfl
          exact hx (p, v) (by simp) hd'
        · intro hpw x hx
          rw [List.map_cons, List.pairwise_cons] at hpw
          rw [List.mem_cons] at hx
          rcases hx with rfl | hx
          · refine ⟨k0, hk, hd', ?_⟩
            rw [h1 k0 fun y hy => hpw.1 y.1 (List.mem_map_of_mem hy) k0 hd']
            simp
          · exact h2 hpw.2 x hx
      · rw [if_neg hk] at h; cases h

theorem zip_mem {α β : Type*} {l : List α} {m : List β} {i : ℕ} {a : α} {b : β} (ha : l[i]? = some a) (hb : m[i]? = some b) :
    (a, b) ∈ l.zip m := by
  rw [List.mem_iff_getElem?]
  exact ⟨i, by rw [List.getElem?_zip_eq_some]; exact ⟨ha, hb⟩⟩

theorem dictIndex_eq_ok {α β : Type*} [DecidableEq α] {d : List (α × β)} {k : α} {v : β} :
    dictIndex d k = .ok v ↔ dictGet k d = some v := by
  unfold dictIndex
  cases dictGet k d <;> simp

/-- after a successful evaluation the inverse is there and gives the waves -/
theorem getS_inverse [CharZero K] (hlaw : Lawful ops beh) (h : Built ops beh nan zb names net bh s ph)
    (hph : ph ≠ .reloaded) {f : F} {z : Option K} {fl : Fl} {S : SMat K} (hs : getS ops s f z fl = (s', .ok S)) :
    s'.rows.length = s'.cols ∧ ∃ W, s'.invM = some ⟨s'.cols, W⟩ ∧ ∀ Sof, Given net bh f zb fl Sof → ∀ a Es,
      Excites s' a Es → net.Laws zb Sof (wOf s' (W.mulVec Es)) ∧ ∀ p ∈ s'.ports, wOf s' (W.mulVec Es) (.inn, p) = a p := by
  have h' := Built.eval h hs
  have hph' : afterEval ph s f fl (.ok S) ≠ .reloaded := by rw [afterEval_of_ne hph]; decide
  have hok := h'.invOK hlaw hph'
  have hst := getS_state hs
  have hM : ∃ M, s'.S = some M ∧ s'.f = some f ∧ s'.flags = some fl := by
    rcases get1S_eq (ops := ops) s f fl with ⟨M, e1, e2, e3, e4⟩ | ⟨e1, e2⟩
    · rw [e4] at hst
      simp only at hst
      subst hst
      exact ⟨M, e1, e2, e3⟩
    · cases hr : recompute ops s f fl with
      | mk s1 r1 =>
        rw [e2, hr] at hst
        simp only at hst
        subst hst
        cases r1 with
        | error e =>
          unfold getS at hs
          rw [e2, hr] at hs
          simp at hs
        | ok M =>
          obtain ⟨a1, a2, a3, _⟩ := (recompute_spec hlaw (h.inv hlaw) f fl hr).2.1 M rfl
          exact ⟨M, a1, a2, a3⟩
  obtain ⟨M, m1, m2, m3⟩ := hM
  obtain ⟨c1, c2⟩ := hok M m1
  obtain ⟨W, c3, c4⟩ := c2 f fl m2 m3
  rw [(h'.inv hlaw).zb] at c4
  exact ⟨c1, W, c3, c4⟩

theorem getS_ports_length [CharZero K] (hlaw : Lawful ops beh) (h : Built ops beh nan zb names net bh s ph)
    {f : F} {z : Option K} {fl : Fl} {r : Except Err (SMat K)} (hs : getS ops s f z fl = (s', r)) :
    s'.ports.length = s.ports.length :=
  (((Built.eval h hs).inv hlaw).rep.ports_perm.trans (h.inv hlaw).rep.ports_perm.symm).length_eq

/-- the size of a returned matrix -/
theorem getS_size [CharZero K] (hlaw : Lawful ops beh) (h : Built ops beh nan zb names net bh s ph)
    (hph : ph ≠ .reloaded) {f : F} {z : Option K} {fl : Fl} {S : SMat K} (hs : getS ops s f z fl = (s', .ok S)) :
    (∃ Sof, Given net bh f zb fl Sof) ∧ S.n = s'.ports.length := by
  unfold getS at hs
  cases hg : get1S ops s f fl with
  | mk s1 r1 =>
    rw [hg] at hs
    cases r1 with
    | error e => simp at hs
    | ok M =>
      have hg' : getS ops s f none fl = (s1, .ok M) := by unfold getS; rw [hg]
      obtain ⟨⟨Sof, hSof⟩, h2⟩ := C20_getS_sound hlaw h hph hg'
      refine ⟨⟨Sof, hSof⟩, ?_⟩
      have hM := (h2 Sof hSof).size
      simp only at hs
      cases z with
      | none =>
        simp only [Prod.mk.injEq, Except.ok.injEq] at hs
        rw [← hs.1, ← hs.2]; exact hM
      | some z =>
        simp only at hs
        split at hs
        · simp only [Prod.mk.injEq] at hs
          rw [← hs.1, convVV_n hs.2]; exact hM
        · simp only [Prod.mk.injEq, Except.ok.injEq] at hs
          rw [← hs.1, ← hs.2]; exact hM

/-- the waves computed by `solve` -/
theorem solve_spec [CharZero K] (hlaw : Lawful ops beh) (h : Built ops beh nan zb names net bh s ph)
    (hph : ph ≠ .reloaded) (hzb : zb ≠ 0) {f : F} {fl : Fl} {E : List (Node × K)} {z : Option K} {sol : SVec K}
    (hs : solve ops s f E z fl = (s', .ok sol)) :
    (∃ S, getS ops s f (some (z.getD zb)) fl = (s', .ok S)) ∧ z.getD zb ≠ 0 ∧
    ∃ Sof, Given net bh f zb fl Sof ∧ ∃ w, net.Laws zb Sof w ∧
      (∀ i (hi : i < s.ports.length) (hi' : i < s'.ports.length),
        dictGet s.ports[i] E = some ((stateOf zb w).fwd (z.getD zb) s'.ports[i])) ∧
      ∃ hn : sol.n = s'.cols, ∀ n ∈ net.nodes, ∀ d, wOf s' (fun i => sol.v (Fin.cast hn.symm i)) (d, n) = w (d, n) := by
  have hz0 : s.zbase = zb := (h.inv hlaw).zb
  unfold solve at hs
  simp only [hz0] at hs
  set zz := z.getD zb with hzz
  cases hEa : mapE (dictIndex E) s.ports with
  | error e => rw [hEa] at hs; simp at hs
  | ok Ea =>
    rw [hEa] at hs
    simp only at hs
    cases hg : getS ops s f (some zz) fl with
    | mk s1 r1 =>
      rw [hg] at hs
      cases r1 with
      | error e => simp at hs
      | ok S =>
        simp only at hs
        cases hEb : applyS S Ea with
        | error e => rw [hEb] at hs; simp at hs
        | ok Eb =>
          rw [hEb] at hs
          simp only at hs
          by_cases hz : zz = 0
          · rw [if_pos (show z.getD s.zbase = 0 by rw [hz0]; exact hz)] at hs; simp at hs
          rw [if_neg (show ¬ z.getD s.zbase = 0 by rw [hz0]; exact hz)] at hs
          have h1 := Built.eval h hg
          have hi1 := h1.inv hlaw
          have hz1 : s1.zbase = zb := hi1.zb
          rw [hz1] at hs
          set Ei := (Ea.zip Eb).map fun x => onOwn zb zz x.1 x.2 with hEi
          cases hEs : fillEs s1.E s1.rows.length (s1.ports.zip Ei) (fun _ => 0) with
          | error e => rw [hEs] at hs; simp at hs
          | ok Es =>
            rw [hEs] at hs
            simp only at hs
            obtain ⟨c1, W, c2, c3⟩ := getS_inverse hlaw h hph hg
            obtain ⟨⟨Sof, hSof⟩, hSn⟩ := getS_size hlaw h hph hg
            unfold applyInv at hs
            rw [c2] at hs
            simp only at hs
            rw [if_pos c1] at hs
            simp only [Prod.mk.injEq, Except.ok.injEq] at hs
            obtain ⟨rfl, rfl⟩ := hs
            have hlen := getS_ports_length hlaw h hg
            rw [mapE_eq_ok] at hEa
            have hEal : Ea.length = s.ports.length := hEa.length_eq.symm
            unfold applyS at hEb
            rw [if_pos (by rw [hSn, hEal, hlen])] at hEb
            injection hEb with hEb
            -- the waves at the ports on `zz`
            set a : Fin s1.ports.length → K := fun i => Ea.getD i 0 with ha
            set b : Fin s1.ports.length → K := fun i => ∑ j : Fin s1.ports.length, S.at i j * a j with hb
            obtain ⟨v, hv1, hv2⟩ := (C22_flatten_waves hlaw h hph hzb hz hg hSof a b).1 (fun _ => rfl)
            have hEbl : Eb.length = s1.ports.length := by rw [← hEb]; simp [hSn]
            have hEbi : ∀ i (hi : i < s1.ports.length), Eb[i]? = some (b ⟨i, hi⟩) := by
              intro i hi
              rw [← hEb, List.getElem?_map, List.getElem?_range (by rw [hSn]; exact hi)]
              simp only [Option.map_some, Option.some.injEq]
              rw [hb]
              clear hEb hEs hv2 hg c3
              obtain ⟨n, m⟩ := S
              simp only at hSn
              subst hSn
              rfl
            have hEai : ∀ i (hi : i < s1.ports.length), Ea[i]? = some (a ⟨i, hi⟩) := by
              intro i hi
              have : i < Ea.length := by rw [hEal, ← hlen]; exact hi
              rw [List.getElem?_eq_getElem this, ha]
              simp [List.getD_eq_getElem?_getD, this]
            have hEii : ∀ i (hi : i < s1.ports.length), Ei[i]? = some (v (.inn, s1.ports[i])) := by
              intro i hi
              rw [hEi, List.getElem?_map]
              have : (Ea.zip Eb)[i]? = some (a ⟨i, hi⟩, b ⟨i, hi⟩) := by
                rw [List.getElem?_zip_eq_some]
                exact ⟨hEai i hi, hEbi i hi⟩
              rw [this]
              simp only [Option.map_some, Option.some.injEq]
              obtain ⟨k1, k2⟩ := hv2 ⟨i, hi⟩
              simp only [Fin.getElem_fin, volt, curr] at k1 k2
              unfold onOwn
              rw [div_eq_div_iff hzb hz] at k2
              have two : (2 : K) ≠ 0 := two_ne_zero
              field_simp
              linear_combination (-zz) * k1 - k2
            have hEil : Ei.length = s1.ports.length := by
              rw [hEi]; simp [hEal, hEbl, hlen]
            obtain ⟨-, iA, iB, iE, q⟩ := hi1.rep.squared c1
            have hpnd : s1.ports.Nodup := hi1.rep.rep.pnd
            obtain ⟨g1, g2⟩ := fillEs_spec hEs
            have hkeys : (s1.ports.zip Ei).map Prod.fst = s1.ports := by
              rw [List.map_fst_zip]; omega
            have hpw : ((s1.ports.zip Ei).map Prod.fst).Pairwise
                (fun p q => ∀ k, dictGet p s1.E = some k → dictGet q s1.E ≠ some k) := by
              rw [hkeys, List.pairwise_iff_getElem]
              intro i j hi hj hij k hk hc
              have e1 := q.hE ⟨i, hi⟩
              have e2 := q.hE ⟨j, hj⟩
              simp only [Fin.getElem_fin] at e1 e2
              rw [e1] at hk; rw [e2] at hc
              injection hk with hk; injection hc with hc
              have := q.inj (Fin.ext (hk.trans hc.symm))
              simp only [Fin.mk.injEq] at this
              omega
            have hex : Excites s1 (fun p => v (.inn, p)) (fun i => Es i) := by
              constructor
              · intro p hp
                obtain ⟨j, hj, rfl⟩ := List.getElem_of_mem hp
                obtain ⟨k, k1, k2, k3⟩ := g2 hpw (s1.ports[j], v (.inn, s1.ports[j]))
                  (zip_mem (List.getElem?_eq_getElem hj) (hEii j hj))
                exact ⟨⟨k, by rw [← c1]; exact k1⟩, k2, k3⟩
              · intro e he
                apply g1
                intro x hx hc
                have : x.1 ∈ s1.ports := by
                  have := List.mem_map_of_mem (f := Prod.fst) hx
                  rw [hkeys] at this; exact this
                exact he x.1 this hc
            obtain ⟨w1, w2⟩ := c3 Sof hSof _ _ hex
            refine ⟨⟨S, rfl⟩, hz, Sof, hSof, v, hv1, ?_, rfl, ?_⟩
            · intro i hi hi'
              have hd : dictGet s.ports[i] E = some (a ⟨i, hi'⟩) := by
                have := (List.forall₂_iff_get.1 hEa).2 i hi (by rw [hEal]; exact hi)
                rw [dictIndex_eq_ok] at this
                simp only [List.get_eq_getElem] at this
                rw [this, ha]
                simp [List.getD_eq_getElem?_getD, hEal, hi]
              rw [hd]
              obtain ⟨k1, k2⟩ := hv2 ⟨i, hi'⟩
              simp only [Fin.getElem_fin] at k1 k2
              simp only [Field.State.fwd, stateOf, Option.some.injEq]
              rw [k1, k2]
              have two : (2 : K) ≠ 0 := two_ne_zero
              field_simp
              ring
            · intro n hn d
              have hsolv : Solvable (net.Laws zb Sof) net.nodes s1.ports := by
                have hM : ∃ M, getS ops s f none fl = (s1, .ok M) := by
                  unfold getS at hg ⊢
                  cases hg1 : get1S ops s f fl with
                  | mk s2 r2 =>
                    rw [hg1] at hg
                    cases r2 with
                    | error e => simp at hg
                    | ok M =>
                      refine ⟨M, ?_⟩
                      have : s2 = s1 := by
                        simp only at hg
                        split at hg <;> simp only [Prod.mk.injEq] at hg <;> exact hg.1
                      simp only [this]
                obtain ⟨M, hM⟩ := hM
                exact ((C20_getS_sound hlaw h hph hM).2 Sof hSof).toSolvable
              exact hsolv.unique _ _ w1 hv1 w2 n hn d

end
end PyRFtk.Circuit
