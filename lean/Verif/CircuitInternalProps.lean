import Verif.CircuitInternal

/-!
# C58: the matrix between the waves at chosen nodes
-/

set_option linter.unusedSectionVars false

namespace PyRFtk.Circuit

section
variable {K O F Fl : Type*} [Field K] [CharZero K] [DecidableEq F] [DecidableEq Fl]
variable {ops : ObjOps K O F Fl} {beh : O → F → K → Fl → Except Err (SMat K)} {sub : SubSol K O F Fl} {ins : Insides K O F Fl}
variable {nan zb : K} {names : List Node} {net : Net K} {bh : Behave K F Fl} {s s' : St K O F Fl} {ph : Phase}

/-! ## specification -/

/-- a node as the caller writes it: `<n` is node `n` seen from the other side -/
def dirOf (n : String) : Bool × String :=
  match n.toList with
  | '<' :: r => (true, String.ofList r)
  | _ => (false, n)

/-- the wave running into a node, as the caller writes it -/
def Inner.inc (x : Inner K) (z : K) (n : String) : K := if (dirOf n).1 then x.rev z (dirOf n).2 else x.fwd z (dirOf n).2
/-- the wave coming back from it -/
def Inner.ref (x : Inner K) (z : K) (n : String) : K := if (dirOf n).1 then x.fwd z (dirOf n).2 else x.rev z (dirOf n).2

/-! ## superposition -/

theorem superpose (hv : Solves ops beh sub ins) (hl : Linear ops beh sub ins) {o : O} (ho : (sub o).isSome) {ps : List String}
    (hps : ops.ports o = some ps) {f : F} {fl : Fl} {z : K} (hz : z ≠ 0) {S : SMat K} (hS : beh o f z fl = .ok S) {m : ℕ} {xs : Fin m → Inner K}
    (hxs : ∀ j, ins.phys o f fl (xs j)) {x : Inner K} (hx : ins.phys o f fl x) (a : Fin m → K)
    (hp : ∀ p ∈ ps, x.fwd z p = ∑ j, a j * (xs j).fwd z p) :
    ∀ n ∈ ins.nodes o, x.V n = ∑ j, a j * (xs j).V n ∧ x.I n = ∑ j, a j * (xs j).I n := by
  have two : (2 : K) ≠ 0 := two_ne_zero
  have hd : ∀ s : Finset (Fin m), ins.phys o f fl ⟨fun n => x.V n - ∑ j ∈ s, a j * (xs j).V n, fun n => x.I n - ∑ j ∈ s, a j * (xs j).I n⟩ := by
    intro s
    induction s using Finset.induction_on with
    | empty => simpa using hx
    | insert j s hj ih =>
      have := hl.comb o ho f fl _ _ ih (hxs j) 1 (-a j)
      convert this using 1
      unfold Inner.comb
      congr 1 <;> (funext n; rw [Finset.sum_insert hj]; ring)
  set y : Inner K := ⟨fun n => x.V n - ∑ j, a j * (xs j).V n, fun n => x.I n - ∑ j, a j * (xs j).I n⟩ with hy
  have hyp : ins.phys o f fl y := hd Finset.univ
  have hyf : ∀ p ∈ ps, y.fwd z p = 0 := by
    intro p hpm
    have e := hp p hpm
    unfold Inner.fwd at e ⊢
    simp only [hy]
    have e2 : ∑ j, a j * (((xs j).V p + z * (xs j).I p) / 2) = (∑ j, a j * (xs j).V p + z * ∑ j, a j * (xs j).I p) / 2 := by
      rw [Finset.mul_sum, ← Finset.sum_add_distrib, div_eq_mul_inv, Finset.sum_mul]
      refine Finset.sum_congr rfl fun j _ => ?_
      ring
    rw [e2] at e
    linear_combination e
  obtain ⟨ps', hps', hlen, -, -⟩ := hv.ports o ho
  rw [hps] at hps'
  injection hps' with hps'
  subst hps'
  have hall := (hv.allowed o ho f z fl S hz hS _ _).1 (hv.outer o ho f fl y ps hyp hps)
  have hz0 : ∀ p ∈ ps, y.V p = 0 ∧ y.I p = 0 := by
    intro p hpm
    obtain ⟨i, hi, rfl⟩ := List.getElem_of_mem hpm
    have h1 := hall i (by rw [← hlen]; exact hi)
    have h2 : ∑ j ∈ Finset.range (ops.len o), S.at i j * ((y.V (ps.getD j "") + z * y.I (ps.getD j "")) / 2) = 0 := by
      refine Finset.sum_eq_zero fun j hj => ?_
      have hj' : j < ps.length := by rw [hlen]; simpa using hj
      have : (y.V (ps.getD j "") + z * y.I (ps.getD j "")) / 2 = 0 := by
        have e : ps.getD j "" = ps[j] := by simp [List.getD_eq_getElem?_getD, hj']
        rw [e]
        exact hyf _ (List.getElem_mem hj')
      rw [this, mul_zero]
    rw [h2] at h1
    have e : ps.getD i "" = ps[i] := by simp [List.getD_eq_getElem?_getD, hi]
    rw [e] at h1
    have h3 := hyf _ (List.getElem_mem hi)
    unfold Inner.fwd at h3
    have hV : y.V ps[i] = 0 := by linear_combination h1 + h3
    refine ⟨hV, ?_⟩
    have : z * y.I ps[i] = 0 := by linear_combination h3 - h1
    simpa [hz] using this
  intro n hn
  obtain ⟨e1, e2⟩ := hl.still o ho f fl y ps ⟨z, S, hz, hS⟩ hps hyp hz0 n hn
  exact ⟨sub_eq_zero.1 e1, sub_eq_zero.1 e2⟩

/-! ## the solutions -/

theorem Next.trans {c : SolCirc ops beh sub} {s1 s2 : St K O F Fl} (h : Next ins c s1) (h' : Next ins (c.next s1 h) s2) : Next ins c s2 :=
  ⟨h'.built, h'.ports.trans h.ports, SameBlks.trans h.same h'.same, fun f z fl => (h'.ans f z fl).trans (h.ans f z fl)⟩

theorem readDir_ok {n : String} {r : Bool × String} (h : readDir n = .ok r) : r = dirOf n := by
  unfold readDir at h
  unfold dirOf
  split at h
  · cases h
  · rename_i c r' e
    injection h with h
    rw [e]
    by_cases hc : c = '<'
    · subst hc
      simpa using h.symm
    · rw [if_neg hc] at h
      rw [← h]
      split
      · rename_i r2 e2
        injection e2 with e2
        exact absurd e2 hc
      · rfl

theorem unitE_get {ports : List Node} {p q : Node} (hq : q ∈ ports) : dictGet q (unitE (K := K) ports p) = some (if q = p then 1 else 0) := by
  induction ports with
  | nil => cases hq
  | cons a l ih =>
    unfold unitE
    rw [List.map_cons]
    unfold dictGet
    rw [List.lookup_cons]
    by_cases h : q = a
    · subst h; simp
    · rcases List.mem_cons.1 hq with hq | hq
      · exact absurd hq h
      · have := ih hq
        unfold unitE dictGet at this
        have h' : (q == a) = false := by simpa using h
        rw [h']
        exact this

/-- what one entry of the list of solutions is: the table of a state of the circuit with the wave 1 at port `p` and none at the others -/
structure UnitSol (sub : SubSol K O F Fl) (ins : Insides K O F Fl) (c : SolCirc ops beh sub) (f : F) (fl : Fl) (z : K) (nodes : List String)
    (p : Node) (t : List (Node × Quad K)) (x : Inner K) : Prop where
  phys : solPhys sub ins c f fl x
  ports : ∀ q ∈ c.st.ports, x.fwd z q.str = if q = p then 1 else 0
  table : ∀ n q, (n, q) ∈ t → n.str ∈ solNodes sub ins c ∧ q = x.quad z n.str
  all : ∀ n ∈ solNodes sub ins c, n ∈ nodes.map (fun m => (dirOf m).2) → ∃ m ∈ t.map Prod.fst, m.str = n

theorem unitSols_spec (hlaw : Lawful ops beh) (hv : Solves ops beh sub ins) (c : SolCirc ops beh sub) {f : F} {fl : Fl} {z : K} (hz : z ≠ 0)
    {nodes : List String} : ∀ {ps : List Node} {s1 s2 : St K O F Fl} {sols : List (List (Node × Quad K))}, Next ins c s1 →
    unitSols ops sub f z nodes fl ps s1 = (s2, .ok sols) →
    List.Forall₂ (fun p t => (∃ S, solBeh ops beh sub c f z fl = .ok S) ∧ ∃ x, UnitSol sub ins c f fl z nodes p t x) ps sols
  | [], s1, s2, sols, _, h => by
    simp only [unitSols, Prod.mk.injEq, Except.ok.injEq] at h
    rw [← h.2]
    exact .nil
  | p :: ps, s1, s2, sols, hn, h => by
    simp only [unitSols] at h
    cases ht : mapE readDir nodes with
    | error e => simp [ht] at h
    | ok ts =>
      simp only [ht] at h
      cases h1 : solutionAll ops sub s1 f (unitE s1.ports p) (some z) (some (ts.map Prod.snd)) fl with
      | mk s3 r3 =>
        simp only [h1] at h
        cases r3 with
        | error e => simp at h
        | ok t =>
          simp only at h
          have hnx : Next ins (c.next s1 hn) s3 := by
            have := next_solutionAll hlaw hv (c.next s1 hn) f (unitE s1.ports p) (some z) (some (ts.map Prod.snd)) fl
            have e : (solutionAll ops sub (c.next s1 hn).st f (unitE s1.ports p) (some z) (some (ts.map Prod.snd)) fl).1 = s3 := by
              show (solutionAll ops sub s1 f (unitE s1.ports p) (some z) (some (ts.map Prod.snd)) fl).1 = s3
              rw [h1]
            rw [e] at this
            exact this
          cases h2 : unitSols ops sub f z nodes fl ps s3 with
          | mk s4 r4 =>
            simp only [h2] at h
            cases r4 with
            | error e => simp at h
            | ok l =>
              simp only [Prod.mk.injEq, Except.ok.injEq] at h
              obtain ⟨-, rfl⟩ := h
              refine .cons ?_ (unitSols_spec hlaw hv c hz (hn.trans hnx) h2)
              have hsame := solSame hlaw hv hn
              obtain ⟨⟨S, hS⟩, x, x1, x2, x3, x4⟩ := solutionAll_spec hlaw hv (c.next s1 hn) (z := some z) (E := unitE s1.ports p)
                (nodes := some (ts.map Prod.snd)) (fl := fl) (f := f) (t := t) hz h1
              have hnodes : solNodes sub ins (c.next s1 hn) = solNodes sub ins c := hsame.nodes
              have hts : ts.map Prod.snd = nodes.map fun m => (dirOf m).2 := by
                have := mapE_eq_ok.1 ht
                clear ht h1 x4 h2 hnx
                induction this with
                | nil => rfl
                | cons a _ ih => rw [List.map_cons, List.map_cons, ih, readDir_ok a]
              refine ⟨⟨S, (hn.ans f (some z) fl).symm.trans hS⟩, x, ?_, ?_, ?_, ?_⟩
              · exact (congrFun (congrFun (congrFun hsame.phys f) fl) x).mp x1
              · intro q hq
                obtain ⟨nan, names, ph, hb, -, -⟩ := c.built
                have hpm := (hb.inv hlaw).rep.ports_perm
                have := x2 q (hpm.mem_iff.1 hq)
                rw [unitE_get (by rw [hn.ports]; exact hq)] at this
                injection this with this
                exact this.symm
              · intro n q hm
                have := x3 n q hm
                rw [hnodes] at this
                exact this
              · intro n hn' hm
                refine x4 n (by rw [hnodes]; exact hn') ?_
                intro l' hl'
                injection hl' with hl'
                rw [← hl', hts]
                exact hm

theorem waveRow_spec {sols : List (List (Node × Quad K))} {n : String} {row : List (K × K)} (h : waveRow sols n = .ok row)
    {c : SolCirc ops beh sub} {f : F} {fl : Fl} {z : K} {nodes : List String} {ps : List Node} {xs : List (Inner K)}
    (hl : List.Forall₂ (fun (pt : Node × List (Node × Quad K)) x => UnitSol sub ins c f fl z nodes pt.1 pt.2 x) (ps.zip sols) xs)
    (hlen : ps.length = sols.length) :
    row = xs.map (fun x => (x.inc z n, x.ref z n)) ∧ (sols ≠ [] → (dirOf n).2 ∈ solNodes sub ins c) := by
  unfold waveRow at h
  cases hd : readDir n with
  | error e => simp [hd] at h
  | ok r =>
    obtain ⟨r, n'⟩ := r
    have hdir := readDir_ok hd
    simp only [hd] at h
    have hf := mapE_eq_ok.1 h
    clear h
    induction ps generalizing sols row xs with
    | nil =>
      cases sols with
      | nil => cases hf; cases hl; exact ⟨rfl, fun h => absurd rfl h⟩
      | cons a l => simp at hlen
    | cons p ps ih =>
      cases sols with
      | nil => simp at hlen
      | cons t sols =>
        rw [List.zip_cons_cons] at hl
        obtain ⟨x, xs', hu, hl', rfl⟩ := List.forall₂_cons_left_iff.1 hl
        obtain ⟨v, row', hv, hf', rfl⟩ := List.forall₂_cons_left_iff.1 hf
        obtain ⟨e1, -⟩ := ih hl' (by simpa using hlen) hf'
        unfold lookStr at hv
        cases hfind : t.find? fun x => x.1.str = n' with
        | none => simp [hfind, Except.map] at hv
        | some y =>
          simp only [hfind, Except.map, Except.ok.injEq] at hv
          have hm := List.mem_of_find?_eq_some hfind
          have hstr : y.1.str = n' := by simpa using List.find?_some hfind
          obtain ⟨k1, k2⟩ := hu.table y.1 y.2 hm
          have hd2 : (dirOf n).2 = n' := by rw [← hdir]
          have hd1 : (dirOf n).1 = r := by rw [← hdir]
          refine ⟨?_, fun _ => by rw [hd2, ← hstr]; exact k1⟩
          rw [List.map_cons, e1]
          congr 1
          rw [← hv, k2, hstr]
          unfold Inner.inc Inner.ref
          rw [hd1, hd2]
          cases r <;> rfl

/-- the wave running into the `i`-th node in the `j`-th state -/
def incMat (z : K) (nodes : List String) {m : ℕ} (xs : Fin m → Inner K) : Matrix (Fin nodes.length) (Fin m) K := fun i j => (xs j).inc z nodes[i]
/-- the wave coming back -/
def refMat (z : K) (nodes : List String) {m : ℕ} (xs : Fin m → Inner K) : Matrix (Fin nodes.length) (Fin m) K := fun i j => (xs j).ref z nodes[i]

/-- `xs` are states of the circuit, one for each port, of which every state is a superposition -/
structure Basis (sub : SubSol K O F Fl) (ins : Insides K O F Fl) (c : SolCirc ops beh sub) (f : F) (fl : Fl) (z : K) (nodes : List String) {m : ℕ}
    (xs : Fin m → Inner K) : Prop where
  size : m = c.net.free.length
  phys : ∀ j, solPhys sub ins c f fl (xs j)
  all : ∀ x, solPhys sub ins c f fl x → ∃ a : Fin m → K, ∀ n ∈ nodes,
    x.inc z n = ∑ j, (xs j).inc z n * a j ∧ x.ref z n = ∑ j, (xs j).ref z n * a j

theorem basis_of (hlaw : Lawful ops beh) (hv : Solves ops beh sub ins) (hl : Linear ops beh sub ins) (c : SolCirc ops beh sub) {f : F} {fl : Fl}
    {z : K} (hz : z ≠ 0) {nodes : List String} {sols : List (List (Node × Quad K))} {xs : List (Inner K)} (hlen : c.st.ports.length = sols.length)
    (hx : List.Forall₂ (fun (pt : Node × List (Node × Quad K)) x => UnitSol sub ins c f fl z nodes pt.1 pt.2 x) (c.st.ports.zip sols) xs)
    (hS : ∃ S, solBeh ops beh sub c f z fl = .ok S) (hin : ∀ n ∈ nodes, (dirOf n).2 ∈ solNodes sub ins c) :
    Basis sub ins c f fl z nodes (fun j : Fin xs.length => xs[j]) := by
  obtain ⟨S, hS⟩ := hS
  obtain ⟨nan, names, ph, hb, -, -⟩ := c.built
  have hpm := (hb.inv hlaw).rep.ports_perm
  have hpnd := (hb.inv hlaw).rep.rep.pnd
  have hxl : xs.length = c.st.ports.length := by rw [← hx.length_eq, List.length_zip, ← hlen, Nat.min_self]
  have hun : ∀ j (hj : j < xs.length), ∃ t, UnitSol sub ins c f fl z nodes (c.st.ports[j]'(hxl ▸ hj)) t xs[j] := by
    intro j hj
    have := (List.forall₂_iff_get.1 hx).2 j (by rw [hx.length_eq]; exact hj) hj
    simp only [List.get_eq_getElem, List.getElem_zip] at this
    exact ⟨_, this⟩
  refine ⟨by rw [hxl]; exact hpm.length_eq, fun j => (hun j j.2).choose_spec.phys, fun x hxp => ?_⟩
  refine ⟨fun j => x.fwd z (c.st.ports[(j : ℕ)]'(hxl ▸ j.2)).str, ?_⟩
  have hsup := superpose (C30_nested hlaw hv) (sol_linear hlaw hv hl) (o := c) rfl (ps := c.st.ports.map Node.str) rfl (f := f) (fl := fl)
    hz hS (xs := fun j : Fin xs.length => xs[j]) (fun j => (hun j j.2).choose_spec.phys) (x := x) hxp
    (fun j => x.fwd z (c.st.ports[(j : ℕ)]'(hxl ▸ j.2)).str) (by
      intro p hp
      obtain ⟨q, hq, rfl⟩ := List.mem_map.1 hp
      obtain ⟨i, hi, rfl⟩ := List.getElem_of_mem hq
      rw [Finset.sum_eq_single (⟨i, by rw [hxl]; exact hi⟩ : Fin xs.length)]
      · have := (hun i (by rw [hxl]; exact hi)).choose_spec.ports _ (List.getElem_mem hi)
        simp only [Fin.getElem_fin]
        rw [this, if_pos rfl, mul_one]
      · intro j _ hj
        have := (hun j j.2).choose_spec.ports _ (List.getElem_mem hi)
        simp only [Fin.getElem_fin]
        rw [this, if_neg, mul_zero]
        intro hc
        exact hj (Fin.ext ((hpnd.getElem_inj_iff).1 hc).symm)
      · intro h; exact absurd (Finset.mem_univ _) h)
  intro n hn
  obtain ⟨e1, e2⟩ := hsup _ (hin n hn)
  have two : (2 : K) ≠ 0 := two_ne_zero
  have hf : x.fwd z (dirOf n).2 = ∑ j : Fin xs.length, xs[j].fwd z (dirOf n).2 * x.fwd z (c.st.ports[(j : ℕ)]'(hxl ▸ j.2)).str := by
    unfold Inner.fwd at e1 e2 ⊢
    rw [e1, e2, Finset.mul_sum, ← Finset.sum_add_distrib, div_eq_mul_inv, Finset.sum_mul]
    refine Finset.sum_congr rfl fun j _ => ?_
    field_simp
  have hr : x.rev z (dirOf n).2 = ∑ j : Fin xs.length, xs[j].rev z (dirOf n).2 * x.fwd z (c.st.ports[(j : ℕ)]'(hxl ▸ j.2)).str := by
    unfold Inner.rev
    rw [e1, e2, Finset.mul_sum, ← Finset.sum_sub_distrib, div_eq_mul_inv, Finset.sum_mul]
    refine Finset.sum_congr rfl fun j _ => ?_
    unfold Inner.fwd
    field_simp
  unfold Inner.inc Inner.ref
  split
  · exact ⟨hr, hf⟩
  · exact ⟨hf, hr⟩

theorem entry_spec {z : K} {nodes : List String} {xs : List (Inner K)} {rows : List (List (K × K))} {g : K × K → K}
    (h : List.Forall₂ (fun n row => row = xs.map fun x : Inner K => (x.inc z n, x.ref z n)) nodes rows) (i : Fin nodes.length) (j : Fin xs.length) :
    entry rows g i j = g (xs[j].inc z nodes[i], xs[j].ref z nodes[i]) := by
  have hi : (i : ℕ) < rows.length := by rw [← h.length_eq]; exact i.2
  have := (List.forall₂_iff_get.1 h).2 i i.2 hi
  simp only [List.get_eq_getElem] at this
  unfold entry
  have e : rows.getD i [] = rows[(i : ℕ)] := by rw [List.getD_eq_getElem?_getD, List.getElem?_eq_getElem hi, Option.getD_some]
  rw [e, this, List.getD_eq_getElem?_getD, List.getElem?_map, List.getElem?_eq_getElem j.2]
  rfl

theorem Basis.cast {c : SolCirc ops beh sub} {f : F} {fl : Fl} {z : K} {nodes : List String} {m m' : ℕ} {xs : Fin m → Inner K}
    (h : Basis sub ins c f fl z nodes xs) (e : m' = m) : Basis sub ins c f fl z nodes fun j => xs (Fin.cast e j) := by
  subst e
  exact h

/-- what `internalS` returns, in terms of a basis of states -/
noncomputable def internalOf (pinv : ∀ {n m : ℕ}, Matrix (Fin n) (Fin m) K → Matrix (Fin m) (Fin n) K) (z : K) (nodes : List String) {m : ℕ}
    (xs : Fin m → Inner K) : Except Err (SMat K) :=
  if nodes = [] then .error .indexError else
  if h : nodes.length = m then (npInv ((incMat z nodes xs).submatrix id (Fin.cast h))).map fun W =>
    ⟨nodes.length, (refMat z nodes xs).submatrix id (Fin.cast h) * W⟩
  else if nodes.length < m then .ok ⟨nodes.length, refMat z nodes xs * pinv (incMat z nodes xs)⟩
  else .error .valueError

theorem internalS_form (hlaw : Lawful ops beh) (hv : Solves ops beh sub ins) (hl : Linear ops beh sub ins) (c : SolCirc ops beh sub) {f : F} {fl : Fl}
    {S0 : SMat K} (h0 : getS ops s f none fl = (c.st, .ok S0)) {z : Option K} (hz : z.getD s.zbase ≠ 0) {nodes : List String}
    (pinv : ∀ {n m : ℕ}, Matrix (Fin n) (Fin m) K → Matrix (Fin m) (Fin n) K) {s1 : St K O F Fl} {sols : List (List (Node × Quad K))}
    (h1 : unitSols ops sub f (z.getD s.zbase) nodes fl c.st.ports c.st = (s1, .ok sols)) {rows : List (List (K × K))}
    (h2 : mapE (waveRow sols) nodes = .ok rows) :
    ∃ (m : ℕ) (xs : Fin m → Inner K), Basis sub ins c f fl (z.getD s.zbase) nodes xs ∧
      (internalS ops sub pinv s f nodes z fl).2 = internalOf pinv (z.getD s.zbase) nodes xs := by
  unfold internalS
  simp only [h0]
  generalize z.getD s.zbase = z at hz h1 ⊢
  simp only [h1, h2]
  have hu := unitSols_spec hlaw hv c hz (Next.refl c) h1
  have hlen := hu.length_eq
  have hx : ∃ xs, List.Forall₂ (fun (pt : Node × List (Node × Quad K)) x => UnitSol sub ins c f fl z nodes pt.1 pt.2 x)
      (c.st.ports.zip sols) xs := by
    clear h1 h2 hlen
    generalize c.st.ports = ps at hu
    induction hu with
    | nil => exact ⟨[], .nil⟩
    | cons a _ ih =>
      obtain ⟨xs, hxs⟩ := ih
      exact ⟨a.2.choose :: xs, .cons a.2.choose_spec hxs⟩
  obtain ⟨xs, hx⟩ := hx
  have hne : sols ≠ [] := by
    rintro rfl
    obtain ⟨nan, names, ph, hb, -, -⟩ := c.built
    have := (hb.inv hlaw).rep.ports_perm.length_eq
    rw [hlen] at this
    exact c.hfree (List.length_eq_zero_iff.1 this.symm)
  have hxl : sols.length = xs.length := by rw [← hx.length_eq, List.length_zip, hlen, Nat.min_self]
  have hrows := mapE_eq_ok.1 h2
  have hrows' : List.Forall₂ (fun n row => row = xs.map fun x : Inner K => (x.inc z n, x.ref z n)) nodes rows :=
    hrows.imp fun n row h => (waveRow_spec h hx hlen).1
  have hin : ∀ n ∈ nodes, (dirOf n).2 ∈ solNodes sub ins c := by
    intro n hn
    obtain ⟨row, -, hr⟩ := forall₂_mem_left hrows hn
    exact (waveRow_spec hr hx hlen).2 hne
  have hS : ∃ S, solBeh ops beh sub c f z fl = .ok S := by
    obtain ⟨t, ht⟩ := List.exists_mem_of_ne_nil sols hne
    obtain ⟨p, -, hp⟩ := forall₂_mem_right hu ht
    exact hp.1
  have hb := basis_of hlaw hv hl c hz hlen hx hS hin
  have e1 : (fun (i : Fin nodes.length) (j : Fin sols.length) => entry rows Prod.fst i j) = incMat z nodes fun j : Fin sols.length => xs[(j : ℕ)] := by
    ext i j; exact entry_spec (g := Prod.fst) hrows' i (Fin.cast hxl j)
  have e2 : (fun (i : Fin nodes.length) (j : Fin sols.length) => entry rows Prod.snd i j) = refMat z nodes fun j : Fin sols.length => xs[(j : ℕ)] := by
    ext i j; exact entry_spec (g := Prod.snd) hrows' i (Fin.cast hxl j)
  refine ⟨sols.length, fun j => xs[(j : ℕ)], hb.cast hxl, ?_⟩
  rw [e1, e2]
  unfold internalOf
  split
  · rfl
  · split
    · rename_i h
      cases npInv ((incMat z nodes fun j : Fin sols.length => xs[(j : ℕ)]).submatrix id (Fin.cast h)) <;> rfl
    · split <;> rfl

theorem internalS_ok (hlaw : Lawful ops beh) (hv : Solves ops beh sub ins) (hl : Linear ops beh sub ins) (c : SolCirc ops beh sub) {f : F} {fl : Fl}
    {r0 : Except Err (SMat K)} (h0 : getS ops s f none fl = (c.st, r0)) {z : Option K} (hz : z.getD s.zbase ≠ 0) {nodes : List String}
    {pinv : ∀ {n m : ℕ}, Matrix (Fin n) (Fin m) K → Matrix (Fin m) (Fin n) K} {S : SMat K}
    (hs : internalS ops sub pinv s f nodes z fl = (s', .ok S)) :
    ∃ (m : ℕ) (xs : Fin m → Inner K), Basis sub ins c f fl (z.getD s.zbase) nodes xs ∧
      ((∃ (h : nodes.length = m) (W : Matrix (Fin nodes.length) (Fin nodes.length) K),
        (incMat (z.getD s.zbase) nodes xs).submatrix id (Fin.cast h) * W = 1 ∧
        S = ⟨nodes.length, (refMat (z.getD s.zbase) nodes xs).submatrix id (Fin.cast h) * W⟩) ∨
      nodes.length < m ∧ S = ⟨nodes.length, refMat (z.getD s.zbase) nodes xs * pinv (incMat (z.getD s.zbase) nodes xs)⟩) := by
  have hs' := hs
  unfold internalS at hs
  simp only [h0] at hs
  cases r0 with
  | error e => simp at hs
  | ok S0 =>
    simp only at hs
    cases h1 : unitSols ops sub f (z.getD s.zbase) nodes fl c.st.ports c.st with
    | mk s1 r1 =>
      simp only [h1] at hs
      cases r1 with
      | error e => simp at hs
      | ok sols =>
        simp only at hs
        cases h2 : mapE (waveRow sols) nodes with
        | error e => simp [h2] at hs
        | ok rows =>
          clear hs
          obtain ⟨m, xs, hb, he⟩ := internalS_form hlaw hv hl c h0 hz pinv h1 h2
          rw [hs'] at he
          refine ⟨m, xs, hb, ?_⟩
          have he : Except.ok S = internalOf pinv (z.getD s.zbase) nodes xs := he
          unfold internalOf at he
          split at he
          · cases he
          split at he
          · rename_i h
            left
            refine ⟨h, ?_⟩
            cases hW : npInv ((incMat (z.getD s.zbase) nodes xs).submatrix id (Fin.cast h)) with
            | error e => rw [hW] at he; cases he
            | ok W =>
              rw [hW] at he
              injection he with he
              exact ⟨W, npInv_eq_ok.1 hW, he⟩
          · split at he
            · right
              injection he with he
              exact ⟨by assumption, he⟩
            · cases he

theorem sum_at {n : ℕ} (M : Matrix (Fin n) (Fin n) K) (v : Fin n → K) (i : Fin n) :
    ∑ j : Fin n, (SMat.mk n M).at i j * v j = M.mulVec v i := by
  refine Finset.sum_congr rfl fun j _ => ?_
  have : (SMat.mk n M).at i j = M i j := by
    unfold SMat.at
    rw [dif_pos ⟨i.2, j.2⟩]
  rw [this]

/-- **C58**: as many nodes as external ports: the matrix returned gives the waves coming back from the nodes in terms of the waves running into
them (for `<n`: seen from the other side), in **every** state the circuit can be in, whatever the waves sent into its external ports.  The
circuit is `c` once the first call of `getS` has been made. -/
theorem C58_matrix (hlaw : Lawful ops beh) (hv : Solves ops beh sub ins) (hl : Linear ops beh sub ins) (c : SolCirc ops beh sub) {f : F} {fl : Fl}
    {r0 : Except Err (SMat K)} (h0 : getS ops s f none fl = (c.st, r0)) {z : Option K} (hz : z.getD s.zbase ≠ 0) {nodes : List String}
    {pinv : ∀ {n m : ℕ}, Matrix (Fin n) (Fin m) K → Matrix (Fin m) (Fin n) K} {S : SMat K}
    (hs : internalS ops sub pinv s f nodes z fl = (s', .ok S)) (hn : nodes.length = c.net.free.length) :
    S.n = nodes.length ∧ ∀ x, solPhys sub ins c f fl x → ∀ i : Fin nodes.length,
      x.ref (z.getD s.zbase) nodes[i] = ∑ j : Fin nodes.length, S.at i j * x.inc (z.getD s.zbase) nodes[j] := by
  obtain ⟨m, xs, hb, h⟩ := internalS_ok hlaw hv hl c h0 hz hs
  generalize z.getD s.zbase = z at *
  rcases h with ⟨h, W, hW, rfl⟩ | ⟨h, -⟩
  · refine ⟨rfl, fun x hx i => ?_⟩
    obtain ⟨a, ha⟩ := hb.all x hx
    rw [sum_at]
    set A := (incMat z nodes xs).submatrix id (Fin.cast h) with hA
    set B := (refMat z nodes xs).submatrix id (Fin.cast h) with hB
    have e1 : (fun j : Fin nodes.length => x.inc z nodes[j]) = A.mulVec fun j => a (Fin.cast h j) := by
      funext k
      refine (ha _ (List.getElem_mem k.2)).1.trans ?_
      exact (Equiv.sum_comp (finCongr h) fun j => (xs j).inc z nodes[k] * a j).symm
    have e2 : x.ref z nodes[i] = B.mulVec (fun j => a (Fin.cast h j)) i := by
      refine (ha _ (List.getElem_mem i.2)).2.trans ?_
      exact (Equiv.sum_comp (finCongr h) fun j => (xs j).ref z nodes[i] * a j).symm
    rw [e1, e2, Matrix.mulVec_mulVec, Matrix.mul_assoc, mul_eq_one_comm.1 hW, Matrix.mul_one]
  · rw [hb.size] at h; omega

/-- **C58**: fewer nodes than external ports: if there is a matrix `T` between the waves at the nodes at all, and the waves running into them
can be anything, the matrix returned is `T`.  (`pinv` is any generalised inverse.) -/
theorem C58_fewer (hlaw : Lawful ops beh) (hv : Solves ops beh sub ins) (hl : Linear ops beh sub ins) (c : SolCirc ops beh sub) {f : F} {fl : Fl}
    {r0 : Except Err (SMat K)} (h0 : getS ops s f none fl = (c.st, r0)) {z : Option K} (hz : z.getD s.zbase ≠ 0) {nodes : List String}
    {pinv : ∀ {n m : ℕ}, Matrix (Fin n) (Fin m) K → Matrix (Fin m) (Fin n) K} (hpinv : ∀ {n m : ℕ} (A : Matrix (Fin n) (Fin m) K), A * pinv A * A = A)
    {S : SMat K} (hs : internalS ops sub pinv s f nodes z fl = (s', .ok S)) {T : Matrix (Fin nodes.length) (Fin nodes.length) K}
    (hT : ∀ x, solPhys sub ins c f fl x → ∀ i : Fin nodes.length, x.ref (z.getD s.zbase) nodes[i] = ∑ j, T i j * x.inc (z.getD s.zbase) nodes[j])
    (hfree : ∀ v : Fin nodes.length → K, ∃ x, solPhys sub ins c f fl x ∧ ∀ i, x.inc (z.getD s.zbase) nodes[i] = v i) :
    S = ⟨nodes.length, T⟩ := by
  obtain ⟨m, xs, hb, h⟩ := internalS_ok hlaw hv hl c h0 hz hs
  generalize z.getD s.zbase = z at *
  set A := incMat z nodes xs with hA
  set B := refMat z nodes xs with hB
  have hTA : T * A = B := by
    ext i j
    exact (hT _ (hb.phys j) i).symm
  have hR : ∃ R : Matrix (Fin m) (Fin nodes.length) K, A * R = 1 := by
    choose y hy hy' using fun k : Fin nodes.length => hfree (Pi.single k 1)
    choose a ha using fun k => hb.all (y k) (hy k)
    refine ⟨Matrix.of fun j k => a k j, ?_⟩
    ext i k
    have := (ha k _ (List.getElem_mem i.2)).1
    have e := hy' k i
    rw [Matrix.mul_apply, Matrix.one_apply]
    simp only [Fin.getElem_fin] at e
    rw [this] at e
    refine e.trans ?_
    rw [Pi.single_apply]
  obtain ⟨R, hR⟩ := hR
  rcases h with ⟨h, W, hW, rfl⟩ | ⟨h, rfl⟩
  · congr 1
    have : B.submatrix id (Fin.cast h) = T * A.submatrix id (Fin.cast h) := by
      rw [← hTA]; rfl
    rw [this, Matrix.mul_assoc, hW, Matrix.mul_one]
  · congr 1
    have hP : A * pinv A = 1 := by
      have := congrArg (· * R) (hpinv A)
      simp only [Matrix.mul_assoc, hR, Matrix.mul_one] at this
      exact this
    rw [← hTA, Matrix.mul_assoc, hP, Matrix.mul_one]

theorem mapE_answers {α β : Type*} {g : α → Except Err β} : ∀ {l : List α}, (∀ a ∈ l, ∃ b, g a = .ok b) → ∃ r, mapE g l = .ok r
  | [], _ => ⟨[], rfl⟩
  | a :: l, h => by
    obtain ⟨b, hb⟩ := h a List.mem_cons_self
    obtain ⟨r, hr⟩ := mapE_answers (l := l) fun x hx => h x (List.mem_cons_of_mem _ hx)
    exact ⟨b :: r, mapE_eq_ok.2 (.cons hb (mapE_eq_ok.1 hr))⟩

theorem unitSols_answers (hlaw : Lawful ops beh) (hv : Solves ops beh sub ins) (c : SolCirc ops beh sub) {f : F} {fl : Fl} {z : K} (hz : z ≠ 0)
    (hr : solReady sub ins c f z fl) {nodes : List String} (hne : ∀ n ∈ nodes, n ≠ "") : ∀ (ps : List Node) {s1 : St K O F Fl}, Next ins c s1 →
    ∃ s2 sols, unitSols ops sub f z nodes fl ps s1 = (s2, .ok sols)
  | [], s1, _ => ⟨s1, [], rfl⟩
  | p :: ps, s1, hn => by
    have hd : ∃ ts, mapE readDir nodes = .ok ts := by
      refine mapE_answers fun n hm => ?_
      unfold readDir
      cases h : n.toList with
      | nil => exact absurd (String.toList_eq_nil_iff.1 h) (hne n hm)
      | cons a l => exact ⟨_, rfl⟩
    obtain ⟨ts, hts⟩ := hd
    have hrd : solReady sub ins (c.next s1 hn) f z fl := (congrFun (congrFun (congrFun (solSame hlaw hv hn).ready f) z) fl).mpr hr
    obtain ⟨t, ht⟩ := solutionAll_answers hlaw hv (c.next s1 hn) (z := some z) (E := unitE s1.ports p) (nodes := some (ts.map Prod.snd)) (fl := fl)
      (f := f) hz hrd (by
        intro q hq
        obtain ⟨nan, names, ph, hb, -, -⟩ := c.built
        have hpm := (hb.inv hlaw).rep.ports_perm
        rw [unitE_get (by rw [hn.ports]; exact hpm.mem_iff.2 hq)]
        simp)
    have ht : (solutionAll ops sub s1 f (unitE s1.ports p) (some z) (some (ts.map Prod.snd)) fl).2 = .ok t := ht
    have hnx := next_solutionAll hlaw hv (c.next s1 hn) f (unitE s1.ports p) (some z) (some (ts.map Prod.snd)) fl
    obtain ⟨s2, sols, h2⟩ := unitSols_answers hlaw hv c hz hr hne ps (hn.trans hnx)
    refine ⟨s2, t :: sols, ?_⟩
    have h2 : unitSols ops sub f z nodes fl ps (solutionAll ops sub s1 f (unitE s1.ports p) (some z) (some (ts.map Prod.snd)) fl).1 = (s2, .ok sols) := h2
    simp only [unitSols, hts]
    revert ht h2
    cases solutionAll ops sub s1 f (unitE s1.ports p) (some z) (some (ts.map Prod.snd)) fl with
    | mk s3 r3 =>
      intro ht h2
      have ht : r3 = .ok t := ht
      subst ht
      simp only [h2]

/-- **C58**: when an answer comes.  The circuit answers (at all levels) on the reference asked for and the nodes are nodes of the circuit, or
of a block at any depth.  With as many nodes as external ports the answer comes exactly when the waves running into the nodes can be anything
(otherwise LinAlgError); with fewer it always comes; with more, ValueError. -/
theorem C58_answers (hlaw : Lawful ops beh) (hv : Solves ops beh sub ins) (hl : Linear ops beh sub ins) (c : SolCirc ops beh sub) {f : F} {fl : Fl}
    {S0 : SMat K} (h0 : getS ops s f none fl = (c.st, .ok S0)) {z : Option K} (hz : z.getD s.zbase ≠ 0)
    (hr : solReady sub ins c f (z.getD s.zbase) fl) {nodes : List String} (h1 : nodes ≠ [])
    (hin : ∀ n ∈ nodes, n ≠ "" ∧ (dirOf n).2 ∈ solNodes sub ins c)
    (pinv : ∀ {n m : ℕ}, Matrix (Fin n) (Fin m) K → Matrix (Fin m) (Fin n) K) :
    (nodes.length = c.net.free.length →
      ((∀ v : Fin nodes.length → K, ∃ x, solPhys sub ins c f fl x ∧ ∀ i, x.inc (z.getD s.zbase) nodes[i] = v i) →
        ∃ S, (internalS ops sub pinv s f nodes z fl).2 = .ok S) ∧
      ((¬ ∀ v : Fin nodes.length → K, ∃ x, solPhys sub ins c f fl x ∧ ∀ i, x.inc (z.getD s.zbase) nodes[i] = v i) →
        (internalS ops sub pinv s f nodes z fl).2 = .error .linAlg)) ∧
    (nodes.length < c.net.free.length → ∃ S, (internalS ops sub pinv s f nodes z fl).2 = .ok S) ∧
    (c.net.free.length < nodes.length → (internalS ops sub pinv s f nodes z fl).2 = .error .valueError) := by
  obtain ⟨s2, sols, hu⟩ := unitSols_answers hlaw hv c hz hr (fun n hn => (hin n hn).1) c.st.ports (Next.refl c)
  have hsp := unitSols_spec hlaw hv c hz (Next.refl c) hu
  have hw : ∃ rows, mapE (waveRow sols) nodes = .ok rows := by
    refine mapE_answers fun n hn => ?_
    unfold waveRow
    have hd : ∃ r, readDir n = .ok r := by
      unfold readDir
      cases h : n.toList with
      | nil => exact absurd (String.toList_eq_nil_iff.1 h) (hin n hn).1
      | cons a l => exact ⟨_, rfl⟩
    obtain ⟨r, hd⟩ := hd
    obtain ⟨r, n'⟩ := r
    have hdir := readDir_ok hd
    simp only [hd]
    refine mapE_answers fun t ht => ?_
    obtain ⟨p, -, -, x, hx⟩ := forall₂_mem_right hsp ht
    obtain ⟨m, hm, hms⟩ := hx.all _ (hin n hn).2 (List.mem_map.2 ⟨n, hn, rfl⟩)
    unfold lookStr
    cases hfd : t.find? fun x => x.1.str = n' with
    | none =>
      exfalso
      rw [List.find?_eq_none] at hfd
      obtain ⟨y, hy, rfl⟩ := List.mem_map.1 hm
      have : (dirOf n).2 = n' := by rw [← hdir]
      exact hfd y hy (by simpa using hms.trans this)
    | some y => exact ⟨_, rfl⟩
  obtain ⟨rows, hrows⟩ := hw
  obtain ⟨m, xs, hb, he⟩ := internalS_form hlaw hv hl c h0 hz pinv hu hrows
  rw [he]
  generalize z.getD s.zbase = z at *
  unfold internalOf
  rw [if_neg h1]
  rw [← hb.size]
  refine ⟨fun h => ?_, fun h => ?_, fun h => ?_⟩
  · rw [dif_pos h]
    set A := (incMat z nodes xs).submatrix id (Fin.cast h) with hA
    constructor
    · intro hfree
      have hR : ∃ R, A * R = 1 := by
        choose y hy hy' using fun k : Fin nodes.length => hfree (Pi.single k 1)
        choose a ha using fun k => hb.all (y k) (hy k)
        refine ⟨Matrix.of fun j k => a k (Fin.cast h j), ?_⟩
        ext i k
        have := (ha k _ (List.getElem_mem i.2)).1
        have e := hy' k i
        rw [Matrix.mul_apply, Matrix.one_apply]
        simp only [Fin.getElem_fin] at e
        rw [this] at e
        rw [Pi.single_apply] at e
        rw [← e]
        exact Equiv.sum_comp (finCongr h) fun j => (xs j).inc z nodes[i] * a k j
      obtain ⟨R, hR⟩ := hR
      rw [npInv_eq_ok.2 hR]
      exact ⟨_, rfl⟩
    · intro hno
      cases hW : npInv A with
      | error e =>
        have : e = .linAlg := by
          unfold npInv at hW
          split at hW
          · injection hW with hW; exact hW.symm
          · cases hW
        rw [this]; rfl
      | ok W =>
        exfalso
        apply hno
        intro v
        have hW := npInv_eq_ok.1 hW
        -- the superposition with coefficients W v
        have hcomb : ∀ (t : Finset (Fin m)) (a : Fin m → K), t.Nonempty → ∃ x, solPhys sub ins c f fl x ∧
            ∀ n, x.V n = ∑ j ∈ t, a j * (xs j).V n ∧ x.I n = ∑ j ∈ t, a j * (xs j).I n := by
          intro t a ht
          induction ht using Finset.Nonempty.cons_induction with
          | singleton j =>
            refine ⟨Inner.comb (a j) (xs j) 0 (xs j), (sol_linear hlaw hv hl).comb c rfl f fl _ _ (hb.phys j) (hb.phys j) _ _, fun n => ?_⟩
            simp [Inner.comb]
          | cons j t hj _ ih =>
            obtain ⟨x, hx, hx'⟩ := ih
            refine ⟨Inner.comb (a j) (xs j) 1 x, (sol_linear hlaw hv hl).comb c rfl f fl _ _ (hb.phys j) hx _ _, fun n => ?_⟩
            simp [Inner.comb, Finset.sum_insert hj, (hx' n).1, (hx' n).2]
        have hm0 : 0 < m := by rw [← h]; exact List.length_pos_of_ne_nil h1
        obtain ⟨x, hx, hx'⟩ := hcomb Finset.univ (fun j => W.mulVec v (Fin.cast h.symm j)) ⟨⟨0, hm0⟩, Finset.mem_univ _⟩
        refine ⟨x, hx, fun i => ?_⟩
        have e : ∀ n, x.inc z n = ∑ j, (xs j).inc z n * W.mulVec v (Fin.cast h.symm j) := by
          intro n
          unfold Inner.inc Inner.fwd Inner.rev
          rw [(hx' _).1, (hx' _).2, Finset.mul_sum]
          split
          · rw [← Finset.sum_sub_distrib, div_eq_mul_inv, Finset.sum_mul]
            exact Finset.sum_congr rfl fun j _ => by ring
          · rw [← Finset.sum_add_distrib, div_eq_mul_inv, Finset.sum_mul]
            exact Finset.sum_congr rfl fun j _ => by ring
        rw [e]
        have e2 : ∑ j, (xs j).inc z nodes[i] * W.mulVec v (Fin.cast h.symm j) = A.mulVec (W.mulVec v) i :=
          (Equiv.sum_comp (finCongr h) fun j => (xs j).inc z nodes[i] * W.mulVec v (Fin.cast h.symm j)).symm
        rw [e2, Matrix.mulVec_mulVec, hW, Matrix.one_mulVec]
  · rw [dif_neg (by omega), if_pos h]
    exact ⟨_, rfl⟩
  · rw [dif_neg (by omega), if_neg (by omega)]

end
end PyRFtk.Circuit
