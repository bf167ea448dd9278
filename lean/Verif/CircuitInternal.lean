import Verif.CircuitSolCirc
import Verif.CircuitEmbed

/-!
# `Get_internalSmatrix` (C58)

rfCircuit.py:1351-1408: the matrix between the waves at chosen nodes, inside blocks too.
-/

set_option linter.unusedSectionVars false

namespace PyRFtk.Circuit

section
variable {K O F Fl : Type*} [Field K] [CharZero K] [DecidableEq F] [DecidableEq Fl]
variable {ops : ObjOps K O F Fl} {beh : O → F → K → Fl → Except Err (SMat K)} {sub : SubSol K O F Fl} {ins : Insides K O F Fl}
variable {nan zb : K} {names : List Node} {net : Net K} {bh : Behave K F Fl} {s s' : St K O F Fl} {ph : Phase}

/-! ## model -/

/-- `node[0] == '<'` and the name without the sign (rfCircuit.py:1372, 1384-1386): the empty name is an IndexError -/
def readDir (n : String) : Except Err (Bool × String) :=
  match n.toList with
  | [] => .error .indexError
  | c :: r => .ok (if c = '<' then (true, String.ofList r) else (false, n))

/-- `E` with 1 at one port (1371) -/
def unitE (ports : List Node) (p : Node) : List (Node × K) := ports.map fun q => (q, if q = p then 1 else 0)

/-- the loop 1370-1373: one `Solution` for each port -/
noncomputable def unitSols (ops : ObjOps K O F Fl) (sub : SubSol K O F Fl) (f : F) (z : K) (nodes : List String) (fl : Fl) :
    List Node → St K O F Fl → St K O F Fl × Except Err (List (List (Node × Quad K)))
  | [], s => (s, .ok [])
  | p :: ps, s => match mapE readDir nodes with
    | .error e => (s, .error e)
    | .ok ts => match solutionAll ops sub s f (unitE s.ports p) (some z) (some (ts.map Prod.snd)) fl with
      | (s, .error e) => (s, .error e)
      | (s, .ok t) => match unitSols ops sub f z nodes fl ps s with
        | (s, .error e) => (s, .error e)
        | (s, .ok l) => (s, .ok (t :: l))

/-- `tSolk[node]`, the keys being strings -/
def lookStr (t : List (Node × Quad K)) (n : String) : Except Err (Quad K) :=
  match t.find? fun x => x.1.str = n with
  | none => .error .keyError
  | some x => .ok x.2

/-- one row of `MA_Es` and of `MB_Es` (1382-1393) -/
def waveRow (sols : List (List (Node × Quad K))) (n : String) : Except Err (List (K × K)) :=
  match readDir n with
  | .error e => .error e
  | .ok (r, n) => mapE (fun t => (lookStr t n).map fun q => if r then (q.Vr, q.Vf) else (q.Vf, q.Vr)) sols

/-- the entries of a list of rows -/
def entry (rows : List (List (K × K))) (g : K × K → K) (i j : ℕ) : K := g ((rows.getD i []).getD j (0, 0))

/-- `Get_internalSmatrix(f, nodes, Zbase)` (rfCircuit.py:1351-1408).  `fl` is the empty flags dict, `pinv` is `np.linalg.pinv`
(assumed not to raise). -/
noncomputable def internalS (ops : ObjOps K O F Fl) (sub : SubSol K O F Fl) (pinv : ∀ {n m : ℕ}, Matrix (Fin n) (Fin m) K → Matrix (Fin m) (Fin n) K)
    (s : St K O F Fl) (f : F) (nodes : List String) (z : Option K) (fl : Fl) : St K O F Fl × Except Err (SMat K) :=
  let zb := z.getD s.zbase                                                                                -- 1358
  match getS ops s f none fl with                                                                         -- 1363
  | (s, .error e) => (s, .error e)
  | (s, .ok _) => match unitSols ops sub f zb nodes fl s.ports s with                                     -- 1368-1373
    | (s, .error e) => (s, .error e)
    | (s, .ok sols) => match mapE (waveRow sols) nodes with                                               -- 1380-1395
      | .error e => (s, .error e)
      | .ok rows =>
        if nodes = [] then (s, .error .indexError) else                                                   -- 1397-1398: shape (0,)
        let A : Matrix (Fin nodes.length) (Fin sols.length) K := fun i j => entry rows Prod.fst i j
        let B : Matrix (Fin nodes.length) (Fin sols.length) K := fun i j => entry rows Prod.snd i j
        if h : nodes.length = sols.length then                                                            -- 1398-1399
          match npInv (A.submatrix id (Fin.cast h)) with
          | .error e => (s, .error e)
          | .ok W => (s, .ok ⟨nodes.length, B.submatrix id (Fin.cast h) * W⟩)
        else if nodes.length < sols.length then (s, .ok ⟨nodes.length, B * pinv A⟩)                       -- 1400-1401
        else (s, .error .valueError)                                                                      -- 1402-1405

/-! ## the inner states are linear -/

/-- superposition -/
def Inner.comb (a : K) (x : Inner K) (b : K) (y : Inner K) : Inner K := ⟨fun n => a * x.V n + b * y.V n, fun n => a * x.I n + b * y.I n⟩

/-- objects whose inner states superpose and are determined by their ports -/
structure Linear (ops : ObjOps K O F Fl) (beh : O → F → K → Fl → Except Err (SMat K)) (sub : SubSol K O F Fl) (ins : Insides K O F Fl) : Prop where
  comb : ∀ o, (sub o).isSome → ∀ f fl x y, ins.phys o f fl x → ins.phys o f fl y → ∀ a b : K, ins.phys o f fl (Inner.comb a x b y)
  still : ∀ o, (sub o).isSome → ∀ f fl x ps, (∃ z S, z ≠ 0 ∧ beh o f z fl = .ok S) → ops.ports o = some ps → ins.phys o f fl x →
    (∀ p ∈ ps, x.V p = 0 ∧ x.I p = 0) → ∀ n ∈ ins.nodes o, x.V n = 0 ∧ x.I n = 0

theorem getS_solvable (hlaw : Lawful ops beh) (h : Built ops beh nan zb names net bh s ph) (hph : ph ≠ .reloaded) {f : F} {z : Option K} {fl : Fl}
    {S : SMat K} (hg : getS ops s f z fl = (s', .ok S)) {Sof : String → SMat K} (hSof : Given net bh f zb fl Sof) :
    Solvable (net.Laws zb Sof) net.nodes s'.ports := by
  have hM : ∃ M, getS ops s f none fl = (s', .ok M) := by
    unfold getS at hg ⊢
    cases hg1 : get1S ops s f fl with
    | mk s2 r2 =>
      rw [hg1] at hg
      cases r2 with
      | error e => simp at hg
      | ok M =>
        refine ⟨M, ?_⟩
        have : s2 = s' := by
          simp only at hg
          repeat' split at hg
          all_goals (simp only [Prod.mk.injEq] at hg; exact hg.1)
        simp only [this]
  obtain ⟨M, hM⟩ := hM
  exact ((C20_getS_sound hlaw h hph hM).2 Sof hSof).toSolvable

theorem sol_linear (hlaw : Lawful ops beh) (hv : Solves ops beh sub ins) (hl : Linear ops beh sub ins) :
    Linear (solOps hlaw hv) (solBeh ops beh sub) (solSub hlaw hv) (solIns sub ins) where
  comb c _ f fl x y hx hy a b := by
    obtain ⟨Sof, w, g1, g2, g3, g4⟩ := hx
    obtain ⟨Sof', w', k1, k2, k3, k4⟩ := hy
    refine ⟨Sof, a • w + b • w', g1, (g2.smul a).add (((k1.laws_congr g1 w').1 k2).smul b), fun n hn => ?_, fun o ho hs => ?_⟩
    · obtain ⟨e1, e2⟩ := g3 n hn
      obtain ⟨e3, e4⟩ := k3 n hn
      simp only [Inner.comb, volt, curr, Pi.add_apply, Pi.smul_apply, smul_eq_mul] at *
      rw [e1, e2, e3, e4]
      constructor <;> ring
    · exact hl.comb o.obj hs f fl _ _ (g4 o ho hs) (k4 o ho hs) a b
  still c _ f fl x ps hb hps hx hz := by
    obtain ⟨nan, names, ph, h, hph, ho⟩ := c.built
    obtain ⟨Sof, w, g1, g2, g3, g4⟩ := hx
    obtain ⟨z, S, -, hS⟩ := hb
    have hS : (getS ops c.st f (some z) fl).2 = .ok S := hS
    have hs : getS ops c.st f (some z) fl = ((getS ops c.st f (some z) fl).1, .ok S) := Prod.ext rfl hS
    have hsolv := getS_solvable hlaw h hph hs g1
    rw [c.labels hlaw hs] at hsolv
    have hpm := (h.inv hlaw).rep.ports_perm
    have hps : some (c.st.ports.map Node.str) = some ps := hps
    injection hps with hps
    subst hps
    have two : (2 : K) ≠ 0 := two_ne_zero
    have hw0 : ∀ n ∈ c.net.nodes, ∀ d, w (d, n) = 0 := by
      intro n hn d
      have hz0 : c.net.Laws c.zb Sof (0 : Wave → K) := by simpa using g2.smul 0
      rw [hsolv.unique w 0 g2 hz0 ?_ n hn d]
      · rfl
      · intro p hp
        have hpn : p ∈ c.net.nodes := (mem_free.1 (hpm.mem_iff.1 hp)).1
        obtain ⟨z1, z2⟩ := hz p.str (List.mem_map_of_mem hp)
        obtain ⟨e1, e2⟩ := g3 p hpn
        rw [z1] at e1
        rw [z2, eq_comm, div_eq_zero_iff, or_iff_left c.hzb] at e2
        simp only [volt, curr] at e1 e2
        have : 2 * w (.inn, p) = 0 := by linear_combination e2 - e1
        simpa [two] using this
    have hV : ∀ n ∈ c.net.nodes, x.V n.str = 0 ∧ x.I n.str = 0 := by
      intro n hn
      obtain ⟨e1, e2⟩ := g3 n hn
      rw [e1, e2]
      simp only [volt, curr, hw0 n hn]
      simp
    intro n hn
    rcases List.mem_append.1 hn with hn | hn
    · obtain ⟨m, hm, rfl⟩ := List.mem_map.1 hn
      exact hV m hm
    · rw [List.mem_flatMap] at hn
      obtain ⟨b, hb, hn⟩ := hn
      split at hn
      · rename_i hbs
        obtain ⟨r, hr, rfl⟩ := List.mem_map.1 hn
        have hr' := (h.inv hlaw).rep.rep
        have hok : ∃ z S, z ≠ 0 ∧ beh b.obj f z fl = .ok S := by
          refine ⟨c.zb, Sof b.name, c.hzb, ?_⟩
          rw [(h.inv hlaw).bhv b hb]
          exact g1 (b.name, b.ports) (by rw [hr'.blks]; exact List.mem_map_of_mem hb)
        have := hl.still b.obj hbs f fl (x.part b.name) b.ports hok (c.lab b hb hbs) (g4 b hb hbs) ?_ r hr
        · exact this
        · intro p hp
          have : Node.blk b.name p ∈ c.net.nodes := by
            obtain ⟨k, hk, rfl⟩ := List.getElem_of_mem hp
            have := (hr'.bcol b hb k hk).1
            exact (hr'.wmem .inn _).1 (List.mem_of_getElem? this)
          exact hV _ this
      · simp at hn

theorem leaf_linear : Linear ops beh (fun _ => none) (leafIns K O F Fl) where
  comb o ho := by simp at ho
  still o ho := by simp at ho

theorem sum_linear {O₁ O₂ : Type*} {o₁ : ObjOps K O₁ F Fl} {o₂ : ObjOps K O₂ F Fl}
    {b₁ : O₁ → F → K → Fl → Except Err (SMat K)} {b₂ : O₂ → F → K → Fl → Except Err (SMat K)} {m₁ : SubSol K O₁ F Fl} {m₂ : SubSol K O₂ F Fl}
    {i₁ : Insides K O₁ F Fl} {i₂ : Insides K O₂ F Fl} (h₁ : Linear o₁ b₁ m₁ i₁) (h₂ : Linear o₂ b₂ m₂ i₂) :
    Linear (sumOps o₁ o₂) (Sum.elim b₁ b₂) (sumSub m₁ m₂) (sumIns i₁ i₂) where
  comb o ho := by
    cases o with
    | inl a => exact h₁.comb a (by simpa [sumSub] using ho)
    | inr a => exact h₂.comb a (by simpa [sumSub] using ho)
  still o ho := by
    cases o with
    | inl a => exact h₁.still a (by simpa [sumSub] using ho)
    | inr a => exact h₂.still a (by simpa [sumSub] using ho)

end

theorem tower_linear (K F Fl : Type) [Field K] [CharZero K] [DecidableEq F] [DecidableEq Fl] : ∀ n,
    Linear (solTower K F Fl n).ops (solTower K F Fl n).beh (solTower K F Fl n).sub (solTower K F Fl n).ins
  | 0 => leaf_linear
  | n + 1 => sum_linear (tower_linear K F Fl n) (sol_linear _ _ (tower_linear K F Fl n))

end PyRFtk.Circuit
