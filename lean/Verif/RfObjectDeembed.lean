import Verif.RfObjectProps2

/-!
# `rfObject.deembed` (C37)
-/

namespace PyRFtk.RfObject

open Matrix
open TRL (LineLaw lineLaw_iff lineLaw_cascade lineLaw_zero)

variable {n : ℕ}

/-! ## Specification -/

/-- a two-port `T` is attached to a port: its port 1 takes the wave `b` leaving the object and returns the wave `a` entering it;
its port 2 is the new port, with incoming wave `a'` and outgoing wave `b'` -/
def Attach (T : TRL.Mat2) (a b a' b' : ℂ) : Prop := ![a, b'] = T.mulVec ![b, a']

/-- the two-ports `T`, `T'` in cascade are a direct connection -/
def Through (T T' : TRL.Mat2) : Prop := ∀ a b a' b' : ℂ, (∃ x y, Attach T a b x y ∧ Attach T' x y a' b') ↔ a' = a ∧ b' = b

/-- what may be attached to each port -/
def AttachAll (T : Fin n → Option TRL.Mat2) (a b a' b' : Fin n → ℂ) : Prop :=
  ∀ j, match T j with
    | none => a j = a' j ∧ b j = b' j
    | some M => Attach M (a j) (b j) (a' j) (b' j)

/-- `S'` is the scattering matrix of the object `S` with the two-ports `T` attached to its ports -/
def Network (S : Mat n) (T : Fin n → Option TRL.Mat2) (S' : Mat n) : Prop :=
  ∀ a' b', b' = S'.mulVec a' ↔ ∃ a b, b = S.mulVec a ∧ AttachAll T a b a' b'

theorem attach_iff {T : TRL.Mat2} {a b a' b' : ℂ} :
    Attach T a b a' b' ↔ a = T 0 0 * b + T 0 1 * a' ∧ b' = T 1 0 * b + T 1 1 * a' := by
  unfold Attach
  constructor
  · intro h
    have h0 := congrFun h 0
    have h1 := congrFun h 1
    simpa [Matrix.mulVec, dotProduct, Fin.sum_univ_two] using And.intro h0 h1
  · rintro ⟨h0, h1⟩
    funext i
    fin_cases i
    · simpa [Matrix.mulVec, dotProduct, Fin.sum_univ_two] using h0
    · simpa [Matrix.mulVec, dotProduct, Fin.sum_univ_two] using h1

/-! ## One port, one frequency -/

theorem mulVec_split (S : Mat n) (a : Fin n → ℂ) (k i : Fin n) :
    S.mulVec a i = S i k * a k + ∑ j ∈ Finset.univ.erase k, S i j * a j := by
  rw [Finset.add_sum_erase _ (fun j => S i j * a j) (Finset.mem_univ k)]
  rfl

/-- **C37 (one port, one frequency).** When it succeeds, the update computes the scattering matrix of the object with the two-port
`T` attached to port `k`. -/
theorem C37_waves {S S' : Mat n} {k : Fin n} {T : TRL.Mat2} (h : deembed1 S k T = .ok S') :
    Network S (fun j => if j = k then some T else none) S' := by
  unfold deembed1 at h
  simp only at h
  split at h
  swap
  · cases h
  rename_i hq
  injection h with h
  intro a' b'
  set qn := 1 - T 0 0 * S k k with hqn
  -- the rows of the new matrix
  have rowi : ∀ i, i ≠ k → S'.mulVec a' i = (∑ j ∈ Finset.univ.erase k, S i j * a' j) +
      S i k * ((T 0 0 * (∑ j ∈ Finset.univ.erase k, S k j * a' j) + T 0 1 * a' k) / qn) := by
    intro i hi
    rw [mulVec_split S' a' k i, ← h]
    simp only [hi, if_false, if_true]
    have : ∀ j ∈ Finset.univ.erase k, (if j = k then T 0 1 / qn * S i k else S i j + S i k * (T 0 0 / qn * S k j)) * a' j =
        S i j * a' j + S i k * T 0 0 / qn * (S k j * a' j) := by
      intro j hj
      rw [if_neg (Finset.ne_of_mem_erase hj)]
      ring
    rw [Finset.sum_congr rfl this, Finset.sum_add_distrib, ← Finset.mul_sum]
    field_simp
    ring
  have rowk : S'.mulVec a' k = T 1 0 / qn * (∑ j ∈ Finset.univ.erase k, S k j * a' j) +
      (T 1 0 / qn * S k k * T 0 1 + T 1 1) * a' k := by
    rw [mulVec_split S' a' k k, ← h]
    simp only [if_true, Function.update_self]
    have : ∀ j ∈ Finset.univ.erase k, Function.update (fun j => T 1 0 / qn * S k j) k (T 1 0 / qn * S k k * T 0 1 + T 1 1) j * a' j =
        T 1 0 / qn * (S k j * a' j) := by
      intro j hj
      rw [Function.update_of_ne (Finset.ne_of_mem_erase hj)]
      ring
    rw [Finset.sum_congr rfl this, ← Finset.mul_sum]
    ring
  constructor
  · intro hb
    set P := ∑ j ∈ Finset.univ.erase k, S k j * a' j with hP
    set α := (T 0 0 * P + T 0 1 * a' k) / qn with hα
    refine ⟨Function.update a' k α, S.mulVec (Function.update a' k α), rfl, ?_⟩
    have hsum : ∀ i, ∑ j ∈ Finset.univ.erase k, S i j * Function.update a' k α j = ∑ j ∈ Finset.univ.erase k, S i j * a' j := by
      intro i
      refine Finset.sum_congr rfl fun j hj => ?_
      rw [Function.update_of_ne (Finset.ne_of_mem_erase hj)]
    intro j
    by_cases hj : j = k
    · subst hj
      simp only [if_true]
      rw [attach_iff, mulVec_split S _ j j, hsum, ← hP, Function.update_self, hb, rowk]
      constructor
      · rw [hα]
        field_simp
        rw [hqn]
        ring
      · rw [hα]
        field_simp
        rw [hqn]
        ring
    · simp only [hj, if_false]
      refine ⟨Function.update_of_ne hj _ _, ?_⟩
      rw [hb, rowi j hj, mulVec_split S _ k j, hsum, Function.update_self]
      ring
  · rintro ⟨a, b, hb, hT⟩
    have hsum : ∀ i, ∑ j ∈ Finset.univ.erase k, S i j * a j = ∑ j ∈ Finset.univ.erase k, S i j * a' j := by
      intro i
      refine Finset.sum_congr rfl fun j hj => ?_
      have := hT j
      simp only [Finset.ne_of_mem_erase hj, if_false] at this
      rw [this.1]
    have hk := hT k
    simp only [if_true] at hk
    rw [attach_iff] at hk
    have hbk : b k = S k k * a k + ∑ j ∈ Finset.univ.erase k, S k j * a' j := by
      rw [hb, mulVec_split S a k k, hsum]
    set P := ∑ j ∈ Finset.univ.erase k, S k j * a' j with hP
    have hα : a k = (T 0 0 * P + T 0 1 * a' k) / qn := by
      rw [eq_div_iff hq, hqn]
      have := hk.1
      rw [hbk] at this
      linear_combination this
    funext i
    by_cases hi : i = k
    · subst hi
      rw [rowk, hk.2, hbk, hα]
      field_simp
      rw [hqn]
      ring
    · have := hT i
      simp only [hi, if_false] at this
      rw [← this.2, rowi i hi, hb, mulVec_split S a k i, hsum, ← hα]
      ring

/-- the matrix of a network is unique -/
theorem Network.unique {S S' S'' : Mat n} {T} (h : Network S T S') (h2 : Network S T S'') : S' = S'' := by
  apply Matrix.ext_of_mulVec_single
  intro i
  have := (h (Pi.single i 1) (S'.mulVec (Pi.single i 1))).1 rfl
  exact ((h2 _ _).2 this)

/-- **C37 (failure).** It fails exactly when the attached two-port and the object's reflection at that port resonate. -/
theorem C37_failure (S : Mat n) (k : Fin n) (T : TRL.Mat2) :
    (deembed1 S k T = .error .runtimeError ↔ T 0 0 * S k k = 1) ∧ (T 0 0 * S k k ≠ 1 → ∃ S', deembed1 S k T = .ok S') := by
  unfold deembed1
  simp only
  by_cases h : 1 - T 0 0 * S k k = 0
  · rw [if_neg (not_not.2 h)]
    refine ⟨⟨fun _ => by linear_combination -h, fun _ => rfl⟩, fun h' => absurd (by linear_combination -h) h'⟩
  · rw [if_pos h]
    refine ⟨⟨fun h' => (by cases h'), fun h' => absurd (by linear_combination -h') h⟩, fun _ => ⟨_, rfl⟩⟩

/-- **C37 (re-adding the section).** If `T'` undoes `T`, attaching `T'` after `T` succeeds and restores the original matrix. -/
theorem C37_restore {S S' : Mat n} {k : Fin n} {T T' : TRL.Mat2} (ht : Through T T') (h : deembed1 S k T = .ok S') :
    deembed1 S' k T' = .ok S := by
  have h1 := C37_waves h
  have hT01 : T 0 1 ≠ 0 := by
    intro h0
    obtain ⟨x, y, hx, -⟩ := (ht 1 0 1 0).2 ⟨rfl, rfl⟩
    rw [attach_iff] at hx
    simp [h0] at hx
  have hne : T' 0 0 * S' k k ≠ 1 := by
    intro h0
    -- a free oscillation of the cascade: only the wave at port k is nonzero
    obtain ⟨a, b, hb, hA⟩ := (h1 (Pi.single k (T' 0 0)) (S'.mulVec (Pi.single k (T' 0 0)))).1 rfl
    have hk := hA k
    simp only [if_true] at hk
    have hbk : S'.mulVec (Pi.single k (T' 0 0)) k = 1 := by
      rw [mulVec_split S' _ k k, Finset.sum_eq_zero fun j hj => by rw [Pi.single_eq_of_ne (Finset.ne_of_mem_erase hj), mul_zero],
        Pi.single_eq_same, add_zero, mul_comm]
      exact h0
    rw [hbk, Pi.single_eq_same] at hk
    have hcas : Attach T' (T' 0 0) 1 0 (T' 1 0) := by rw [attach_iff]; simp
    obtain ⟨ha0, hb0⟩ := (ht _ _ _ _).1 ⟨_, _, hk, hcas⟩
    have ha : a = 0 := by
      funext j
      by_cases hj : j = k
      · rw [hj]; exact ha0.symm
      · have := hA j
        simp only [hj, if_false] at this
        rw [this.1]; simp [hj]
    have hbz : b k = 0 := by rw [hb, ha]; simp
    rw [attach_iff] at hk
    have hk1 := hk.1
    rw [← ha0, hbz] at hk1
    have : T' 0 0 = 0 := by
      rcases mul_eq_zero.1 (show T 0 1 * T' 0 0 = 0 by linear_combination -hk1) with h | h
      · exact absurd h hT01
      · exact h
    rw [this] at h0
    simp at h0
  obtain ⟨S'', h2⟩ := (C37_failure S' k T').2 hne
  have h3 := C37_waves h2
  rw [h2]
  congr 1
  apply Matrix.ext_of_mulVec_single
  intro i
  obtain ⟨a, b, hb, hA⟩ := (h3 (Pi.single i 1) (S''.mulVec (Pi.single i 1))).1 rfl
  obtain ⟨c, d, hd, hC⟩ := (h1 a b).1 hb
  have : c = Pi.single i 1 ∧ d = S''.mulVec (Pi.single i 1) := by
    rw [funext_iff, funext_iff, ← forall_and]
    intro j
    have e1 := hA j
    have e2 := hC j
    by_cases hj : j = k
    · simp only [hj, if_true] at e1 e2
      obtain ⟨g1, g2⟩ := (ht _ _ _ _).1 ⟨_, _, e2, e1⟩
      rw [hj]; exact ⟨g1.symm, g2.symm⟩
    · simp only [hj, if_false] at e1 e2
      exact ⟨e2.1.trans e1.1, e2.2.trans e1.2⟩
  rw [← this.2, hd, this.1]

/-! ## All ports, all frequencies -/

/-- a successful pass over the frequencies for one port -/
theorem deembedFs_ok {k : Fin n} {line : ℝ → Except Err TRL.Mat2} : ∀ {fs : List ℝ} {Ss l : List (Mat n)}, fs.length = Ss.length →
    deembedFs k line fs Ss = (l, .ok ()) → fs.length = l.length ∧ ∀ (i : ℕ) (f : ℝ) (S S' : Mat n), fs[i]? = some f → Ss[i]? = some S →
      l[i]? = some S' → ∃ T, line f = .ok T ∧ deembed1 S k T = .ok S'
  | [], [], l, _, h => by
    obtain ⟨rfl, -⟩ := Prod.mk.inj h
    exact ⟨rfl, fun i f S S' h => by simp at h⟩
  | f :: fs, S :: Ss, l, hl, h => by
    unfold deembedFs at h
    cases h1 : line f with
    | error e => simp [h1] at h
    | ok T =>
      cases h2 : deembed1 S k T with
      | error e => simp [h1, h2] at h
      | ok S' =>
        simp only [h1, h2] at h
        cases h3 : deembedFs k line fs Ss with
        | mk l' r =>
          simp only [h3] at h
          obtain ⟨rfl, rfl⟩ := Prod.mk.inj h
          obtain ⟨a, b⟩ := deembedFs_ok (by simpa using hl) h3
          refine ⟨by simpa using a, ?_⟩
          intro i g A B hg hA hB
          cases i with
          | zero =>
            simp only [List.getElem?_cons_zero, Option.some.injEq] at hg hA hB
            subst hg hA hB
            exact ⟨T, h1, h2⟩
          | succ i =>
            simp only [List.getElem?_cons_succ] at hg hA hB
            exact b i g A B hg hA hB

/-- attaching in two steps, at different ports -/
theorem Network.trans {S S1 S2 : Mat n} {k : Fin n} {M : TRL.Mat2} {T : Fin n → Option TRL.Mat2} (hk : T k = none)
    (h1 : Network S (fun j => if j = k then some M else none) S1) (h2 : Network S1 T S2) :
    Network S (fun j => if j = k then some M else T j) S2 := by
  intro a'' b''
  rw [h2]
  constructor
  · rintro ⟨a', b', hb, hA⟩
    obtain ⟨a, b, hb', hA'⟩ := (h1 a' b').1 hb
    refine ⟨a, b, hb', fun j => ?_⟩
    have e1 := hA j
    have e2 := hA' j
    by_cases hj : j = k
    · subst hj
      simp only [if_true, hk] at e1 e2 ⊢
      rw [← e1.1, ← e1.2]; exact e2
    · simp only [hj, if_false] at e1 e2 ⊢
      rw [e2.1, e2.2]; exact e1
  · rintro ⟨a, b, hb, hA⟩
    refine ⟨fun j => if j = k then a'' j else a j, fun j => if j = k then b'' j else b j, (h1 _ _).2 ⟨a, b, hb, fun j => ?_⟩, fun j => ?_⟩
    · have e := hA j
      by_cases hj : j = k
      · simp only [hj, if_true] at e ⊢; exact e
      · simp [hj]
    · have e := hA j
      by_cases hj : j = k
      · subst hj
        simp [hk]
      · simp only [hj, if_false] at e ⊢; exact e

theorem network_none (S : Mat n) : Network S (fun _ => none) S := by
  intro a' b'
  constructor
  · intro h; exact ⟨a', b', h, fun j => ⟨rfl, rfl⟩⟩
  · rintro ⟨a, b, hb, hA⟩
    have e1 : a = a' := funext fun j => (hA j).1
    have e2 : b = b' := funext fun j => (hA j).2
    rw [← e1, ← e2]; exact hb

/-- `T` is what the dictionary `d` asks for at frequency `f`: for every port named in it, the line of the given impedance and the
opposite of the given length -/
def Asked (line : ℝ → ℝ → ℝ → ℝ → Except Err TRL.Mat2) (Zb f : ℝ) (names : Fin n → String) (d : List (String × Arg))
    (T : Fin n → Option TRL.Mat2) : Prop :=
  ∀ j, match argOf d (names j) with
    | none => T j = none
    | some (.tuple L Z) => ∃ M, T j = some M ∧ line Zb (-L) Z f = .ok M
    | some _ => False

theorem argOf_filter {d : List (String × Arg)} {p q : String} (h : q ≠ p) : argOf (d.filter fun x => x.1 ≠ p) q = argOf d q := by
  induction d with
  | nil => rfl
  | cons x d ih =>
    unfold argOf at ih ⊢
    by_cases hx : x.1 = p
    · have : (decide (x.1 ≠ p)) = false := by simpa using hx
      rw [List.filter_cons_of_neg (by simpa using hx), ih]
      have : ¬ x.1 = q := fun h' => h (h'.symm.trans hx)
      rw [List.find?_cons_of_neg (by simpa using this)]
    · rw [List.filter_cons_of_pos (by simpa using hx)]
      by_cases hq : x.1 = q
      · rw [List.find?_cons_of_pos (by simpa using hq), List.find?_cons_of_pos (by simpa using hq)]
      · rw [List.find?_cons_of_neg (by simpa using hq), List.find?_cons_of_neg (by simpa using hq), ih]

theorem deembedPorts_ok {line : ℝ → ℝ → ℝ → ℝ → Except Err TRL.Mat2} : ∀ {ps : List (Fin n × String)} {o o' : Obj n} {d d'},
    (ps.map Prod.fst).Nodup → (ps.map Prod.snd).Nodup → o.fs.length = o.Ss.length → deembedPorts line o ps d = (o', d', .ok ()) →
    o' = { o with Ss := o'.Ss } ∧ o.fs.length = o'.Ss.length ∧ d' = d.filter (fun x => decide (x.1 ∉ ps.map Prod.snd)) ∧
    ∀ (i : ℕ) (f : ℝ) (S S' : Mat n), o.fs[i]? = some f → o.Ss[i]? = some S → o'.Ss[i]? = some S' →
      ∃ T : Fin n → Option TRL.Mat2, (∀ j, j ∉ ps.map Prod.fst → T j = none) ∧ Network S T S' ∧
        ∀ q ∈ ps, match argOf d q.2 with
          | none => T q.1 = none
          | some (.tuple L Z) => ∃ M, T q.1 = some M ∧ line o.Zbase (-L) Z f = .ok M
          | some _ => False
  | [], o, o', d, d', _, _, hl, h => by
    simp only [deembedPorts, Prod.mk.injEq, and_true] at h
    obtain ⟨rfl, rfl⟩ := h
    refine ⟨rfl, hl, by simp, ?_⟩
    intro i f S S' _ h1 h2
    rw [h1] at h2
    cases h2
    exact ⟨fun _ => none, fun _ _ => rfl, network_none S, by simp⟩
  | (k, p) :: ps, o, o', d, d', hn1, hn2, hl, h => by
    simp only [List.map_cons, List.nodup_cons] at hn1 hn2
    unfold deembedPorts at h
    cases ha : argOf d p with
    | none =>
      simp only [ha] at h
      obtain ⟨e1, e2, e3, e4⟩ := deembedPorts_ok hn1.2 hn2.2 hl h
      refine ⟨e1, e2, ?_, ?_⟩
      · rw [e3]
        apply List.filter_congr
        intro x hx
        have hxp : x.1 ≠ p := by
          intro hxp
          unfold argOf at ha
          rw [Option.map_eq_none_iff, List.find?_eq_none] at ha
          exact ha x hx (by simpa using hxp)
        simp [hxp]
      · intro i f S S' h1 h2 h3
        obtain ⟨T, t1, t2, t3⟩ := e4 i f S S' h1 h2 h3
        have hTk : T k = none := t1 k hn1.1
        refine ⟨T, fun j hj => t1 j fun hj' => hj (by simp [hj']), t2, ?_⟩
        intro q hq
        rcases List.mem_cons.1 hq with rfl | hq
        · simp only [ha]; exact hTk
        · exact t3 q hq
    | some v =>
      simp only [ha] at h
      cases v with
      | number L => simp at h
      | dict => simp at h
      | tuple L Z =>
        simp only at h
        cases hd : deembedFs k (line o.Zbase (-L) Z) o.fs o.Ss with
        | mk l r =>
          cases r with
          | error e => simp [hd] at h
          | ok u =>
            simp only [hd] at h
            obtain ⟨c1, c2⟩ := deembedFs_ok hl hd
            obtain ⟨e1, e2, e3, e4⟩ := deembedPorts_ok hn1.2 hn2.2 (show o.fs.length = l.length from c1) h
            refine ⟨by rw [e1], e2, ?_, ?_⟩
            · rw [e3, List.filter_filter]
              apply List.filter_congr
              intro x _
              by_cases hx : x.1 = p <;> simp [hx]
            · intro i f S S' h1 h2 h3
              have hi : i < l.length := by rw [← c1]; exact (List.getElem?_eq_some_iff.1 h1).1
              obtain ⟨M, hM, hdM⟩ := c2 i f S l[i] h1 h2 (List.getElem?_eq_getElem hi)
              obtain ⟨T, t1, t2, t3⟩ := e4 i f l[i] S' h1 (List.getElem?_eq_getElem hi) h3
              refine ⟨fun j => if j = k then some M else T j, ?_, (C37_waves hdM).trans (t1 k hn1.1) t2, ?_⟩
              · intro j hj
                simp only [List.map_cons, List.mem_cons, not_or] at hj
                simp only [hj.1, if_false]
                exact t1 j hj.2
              · intro q hq
                rcases List.mem_cons.1 hq with rfl | hq
                · simp only [ha, if_true]
                  exact ⟨M, rfl, hM⟩
                · have hqk : q.1 ≠ k := fun h' => hn1.1 (List.mem_map.2 ⟨q, hq, h'⟩)
                  have hqp : q.2 ≠ p := fun h' => hn2.1 (List.mem_map.2 ⟨q, hq, h'⟩)
                  have := t3 q hq
                  rw [argOf_filter hqp] at this
                  simp only [hqk, if_false]
                  exact this

/-- the name of port `j` -/
def nameOf (o : Obj n) (hn : o.ports.length = n) (j : Fin n) : String := o.ports.get (j.cast hn.symm)

theorem names_nodup {o : Obj n} {hn : o.ports.length = n} (hnd : o.ports.Nodup) :
    (((List.finRange n).map fun i => (i, o.ports.get (i.cast hn.symm))).map Prod.fst).Nodup ∧
    (((List.finRange n).map fun i => (i, o.ports.get (i.cast hn.symm))).map Prod.snd).Nodup := by
  constructor
  · rw [List.map_map]
    have : (Prod.fst ∘ fun i : Fin n => (i, o.ports.get (i.cast hn.symm))) = id := rfl
    rw [this, List.map_id]; exact List.nodup_finRange n
  · rw [List.map_map]
    apply List.Nodup.map _ (List.nodup_finRange n)
    intro i j hij
    have := hnd.injective_get hij
    simpa [Fin.ext_iff] using this

/-- **C37 (rfObject.deembed).** When `deembed` succeeds, the frequencies are unchanged, every stored matrix has become the
scattering matrix of the object with the asked line sections attached (opposite length), every key named a port and the
caller's dictionary has been emptied. -/
theorem C37_network {line : ℝ → ℝ → ℝ → ℝ → Except Err TRL.Mat2} {o o' : Obj n} {hn : o.ports.length = n} (hnd : o.ports.Nodup)
    (hl : o.fs.length = o.Ss.length) {d d'} (h : deembed line o hn d = (o', d', .ok ())) :
    o'.fs = o.fs ∧ o'.ports = o.ports ∧ o'.Zbase = o.Zbase ∧ o'.interp = none ∧ o'.Ss.length = o.Ss.length ∧ d' = [] ∧
    (∀ x ∈ d, x.1 ∈ o.ports) ∧
    ∀ (i : ℕ) (f : ℝ) (S S' : Mat n), o.fs[i]? = some f → o.Ss[i]? = some S → o'.Ss[i]? = some S' →
      ∃ T, Asked line o.Zbase f (nameOf o hn) d T ∧ Network S T S' := by
  unfold deembed at h
  cases hp : deembedPorts line { o with interp := none } ((List.finRange n).map fun i => (i, o.ports.get (i.cast hn.symm))) d with
  | mk o1 q =>
    obtain ⟨d1, r⟩ := q
    cases r with
    | error e => simp only [hp, Prod.mk.injEq] at h; cases h.2.2
    | ok u =>
      simp only [hp, Prod.mk.injEq] at h
      obtain ⟨rfl, rfl, h⟩ := h
      split at h
      swap
      · cases h
      rename_i hd1
      obtain ⟨n1, n2⟩ := names_nodup (o := o) (hn := hn) hnd
      obtain ⟨e1, e2, e3, e4⟩ := deembedPorts_ok (o := { o with interp := none }) n1 n2 hl hp
      refine ⟨by rw [e1], by rw [e1], by rw [e1], by rw [e1], by rw [← hl]; exact e2.symm, hd1, ?_, ?_⟩
      · intro x hx
        rw [hd1] at e3
        have := List.filter_eq_nil_iff.1 e3.symm x hx
        simp only [decide_eq_true_eq, not_not, List.map_map, List.mem_map, List.mem_finRange, true_and] at this
        obtain ⟨j, hj⟩ := this
        rw [← hj]
        exact List.get_mem _ _
      · intro i f S S' h1 h2 h3
        obtain ⟨T, -, t2, t3⟩ := e4 i f S S' h1 h2 h3
        refine ⟨T, fun j => ?_, t2⟩
        exact t3 (j, _) (List.mem_map.2 ⟨j, List.mem_finRange j, rfl⟩)

/-- the opposite lengths -/
def opposite (d : List (String × Arg)) : List (String × Arg) :=
  d.map fun x => (x.1, match x.2 with | .tuple L Z => .tuple (-L) Z | v => v)

theorem argOf_opposite (d : List (String × Arg)) (p : String) :
    argOf (opposite d) p = (argOf d p).map fun v => match v with | .tuple L Z => .tuple (-L) Z | v => v := by
  induction d with
  | nil => rfl
  | cons x d ih =>
    unfold argOf opposite at ih ⊢
    by_cases hx : x.1 = p
    · simp [hx]
    · simp only [List.map_cons]
      rw [List.find?_cons_of_neg (by simpa using hx), List.find?_cons_of_neg (by simpa using hx)]
      exact ih

/-- **C37 (opposite lengths).** If the line sections of opposite lengths undo each other, two successful calls with opposite lengths
leave every stored matrix as it was, for any number of ports and frequencies. -/
theorem C37_opposite {line : ℝ → ℝ → ℝ → ℝ → Except Err TRL.Mat2} {o o1 o2 : Obj n} {hn : o.ports.length = n}
    {hn1 : o1.ports.length = n} (hnd : o.ports.Nodup) (hl : o.fs.length = o.Ss.length)
    (hu : ∀ f ∈ o.fs, ∀ L Z M M', line o.Zbase (-L) Z f = .ok M → line o.Zbase L Z f = .ok M' → Through M M')
    {d d1 d2} (h1 : deembed line o hn d = (o1, d1, .ok ())) (h2 : deembed line o1 hn1 (opposite d) = (o2, d2, .ok ())) :
    o2.Ss = o.Ss := by
  obtain ⟨a1, a2, a3, -, a5, -, -, a8⟩ := C37_network hnd hl h1
  obtain ⟨b1, b2, b3, -, b5, -, -, b8⟩ := C37_network (by rw [a2]; exact hnd) (by rw [a1, a5]; exact hl) h2
  apply List.ext_getElem?
  intro i
  by_cases hi : i < o.Ss.length
  swap
  · rw [List.getElem?_eq_none (by omega), List.getElem?_eq_none (by omega)]
  have i0 : i < o.fs.length := by omega
  have i1 : i < o1.Ss.length := by omega
  have i2 : i < o2.Ss.length := by omega
  obtain ⟨T, t1, t2⟩ := a8 i _ _ _ (List.getElem?_eq_getElem i0) (List.getElem?_eq_getElem hi) (List.getElem?_eq_getElem i1)
  obtain ⟨T', t3, t4⟩ := b8 i _ _ _ (by rw [a1]; exact List.getElem?_eq_getElem i0) (List.getElem?_eq_getElem i1) (List.getElem?_eq_getElem i2)
  rw [List.getElem?_eq_getElem i2, List.getElem?_eq_getElem hi]
  congr 1
  apply Matrix.ext_of_mulVec_single
  intro m
  obtain ⟨a, b, hb, hA⟩ := (t4 (Pi.single m 1) (o2.Ss[i].mulVec (Pi.single m 1))).1 rfl
  obtain ⟨c, e, he, hC⟩ := (t2 a b).1 hb
  have : c = Pi.single m 1 ∧ e = o2.Ss[i].mulVec (Pi.single m 1) := by
    rw [funext_iff, funext_iff, ← forall_and]
    intro j
    have e1 := hA j
    have e2 := hC j
    have e3 := t1 j
    have e4 := t3 j
    have hname : nameOf o1 hn1 j = nameOf o hn j := by
      unfold nameOf
      simp [a2]
    rw [hname, argOf_opposite] at e4
    cases hd : argOf d (nameOf o hn j) with
    | none =>
      simp only [hd, Option.map_none] at e3 e4
      rw [e4] at e1
      rw [e3] at e2
      exact ⟨e2.1.trans e1.1, e2.2.trans e1.2⟩
    | some v =>
      cases v with
      | number L => simp [hd] at e3
      | dict => simp [hd] at e3
      | tuple L Z =>
        simp only [hd, Option.map_some, neg_neg] at e3 e4
        obtain ⟨M, m1, m2⟩ := e3
        obtain ⟨M', m3, m4⟩ := e4
        rw [a3] at m4
        rw [m1] at e2
        rw [m3] at e1
        obtain ⟨g1, g2⟩ := (hu _ (List.getElem_mem i0) L Z M M' m2 m4 _ _ _ _).1 ⟨_, _, e2, e1⟩
        exact ⟨g1.symm, g2.symm⟩
  rw [← this.2, he, this.1]

/-! ## The line sections actually used -/

theorem scatterV_waves {z : ℂ} (hz : z ≠ 0) (T : TRL.Mat2) (a b : Fin 2 → ℂ) :
    ScatterV z T (a + b) (fun i => (a i - b i) / z) ↔ b = T.mulVec a := by
  unfold ScatterV
  have e1 : (fun i => ((a + b) i - z * ((a i - b i) / z)) / 2) = b := by
    funext i; simp only [Pi.add_apply]; field_simp; ring
  have e2 : (fun i => ((a + b) i + z * ((a i - b i) / z)) / 2) = a := by
    funext i; simp only [Pi.add_apply]; field_simp; ring
  rw [e1, e2]

theorem section_solves (ode : TRL.Ode) (vT Zb L Z : ℝ) : TRL.Solves ode (section_ vT Zb L Z) := by
  unfold TRL.Solves
  rw [if_pos (by rfl)]
  intro w x
  exact ⟨rfl, rfl⟩

theorem losslessLine_law {ode : TRL.Ode} {vT Zb L Z f : ℝ} {M : TRL.Mat2} (hz : Zb ≠ 0) (h : losslessLine ode vT Zb L Z f = .ok M)
    (a b : Fin 2 → ℂ) : b = M.mulVec a ↔ LineLaw (fun _ => Complex.I * (2 * Real.pi * f : ℝ) * Z / vT)
      (fun _ => Complex.I * (2 * Real.pi * f : ℝ) / (Z * vT)) L (a + b) (fun i => (a i - b i) / (Zb : ℂ)) := by
  unfold losslessLine at h
  cases hg : TRL.getS ode (section_ vT Zb L Z) f none [] with
  | mk o' r =>
    rw [hg] at h
    simp only at h
    subst h
    have hsame := (TRL.getS_good hg).1
    have hL : o'.L = L := by rw [hsame]; rfl
    have hZ : o'.Zbase = Zb := by rw [hsame]; rfl
    have := TRL.getS_law (section_solves ode vT Zb L Z) (by rw [hZ]; exact hz) hg (a + b) (fun i => (a i - b i) / (Zb : ℂ))
    rw [hL, hZ] at this
    have hzc : (Zb : ℂ) ≠ 0 := by exact_mod_cast hz
    rw [← scatterV_waves hzc M a b]
    exact this

/-- **C37 (the sections undo each other).** The lossless sections `rfTRL(L=±L, Z0TL=Z)` are a direct connection in cascade. -/
theorem C37_sections {ode : TRL.Ode} {vT Zb L Z f : ℝ} (hz : Zb ≠ 0) {M M' : TRL.Mat2}
    (h : losslessLine ode vT Zb (-L) Z f = .ok M) (h' : losslessLine ode vT Zb L Z f = .ok M') : Through M M' := by
  have hzc : (Zb : ℂ) ≠ 0 := by exact_mod_cast hz
  obtain ⟨V1, I1, V2, I2, hF⟩ := TRL.solves_fund (section_solves ode vT Zb L Z) (2 * Real.pi * f)
  have hF : TRL.Fund (fun _ => Complex.I * (2 * Real.pi * f : ℝ) * Z / vT) (fun _ => Complex.I * (2 * Real.pi * f : ℝ) / (Z * vT))
    V1 I1 V2 I2 := hF
  intro a b a' b'
  have hcas := lineLaw_cascade hF.t1 hF.t2 hF.a hF.b hF.c hF.d (-L) L ![a + b, a' + b'] ![(b - a) / Zb, (a' - b') / Zb]
  rw [neg_add_cancel, lineLaw_zero hF.t1 hF.t2 hF.a hF.b hF.c hF.d] at hcas
  simp only [Matrix.cons_val_zero, Matrix.cons_val_one] at hcas
  have hT : ∀ x y, Attach M a b x y ↔ LineLaw (fun _ => Complex.I * (2 * Real.pi * f : ℝ) * Z / vT)
      (fun _ => Complex.I * (2 * Real.pi * f : ℝ) / (Z * vT)) (-L) ![a + b, x + y] ![(b - a) / Zb, (x - y) / Zb] := by
    intro x y
    unfold Attach
    rw [losslessLine_law hz h]
    have e1 : ![b, x] + ![a, y] = ![a + b, x + y] := by funext i; fin_cases i <;> simp [add_comm]
    have e2 : (fun i => (![b, x] i - ![a, y] i) / (Zb : ℂ)) = ![(b - a) / Zb, (x - y) / Zb] := by
      funext i; fin_cases i <;> simp
    rw [e1, e2]
  have hT' : ∀ x y, Attach M' x y a' b' ↔ LineLaw (fun _ => Complex.I * (2 * Real.pi * f : ℝ) * Z / vT)
      (fun _ => Complex.I * (2 * Real.pi * f : ℝ) / (Z * vT)) L ![x + y, a' + b'] ![-((x - y) / Zb), (a' - b') / Zb] := by
    intro x y
    unfold Attach
    rw [losslessLine_law hz h']
    have e1 : ![y, a'] + ![x, b'] = ![x + y, a' + b'] := by funext i; fin_cases i <;> simp [add_comm]
    have e2 : (fun i => (![y, a'] i - ![x, b'] i) / (Zb : ℂ)) = ![-((x - y) / Zb), (a' - b') / Zb] := by
      funext i
      fin_cases i
      · simp only [Fin.zero_eta, Matrix.cons_val_zero]; ring
      · simp
    rw [e1, e2]
  have h12 : (∃ x y, Attach M a b x y ∧ Attach M' x y a' b') ↔ a' + b' = a + b ∧ (a' - b') / (Zb : ℂ) = -((b - a) / Zb) := by
    rw [hcas]
    constructor
    · rintro ⟨x, y, h1, h2⟩
      exact ⟨x + y, (x - y) / Zb, (hT x y).1 h1, (hT' x y).1 h2⟩
    · rintro ⟨vm, im, h1, h2⟩
      have e1 : (vm + Zb * im) / 2 + (vm - Zb * im) / 2 = vm := by ring
      have e2 : ((vm + Zb * im) / 2 - (vm - Zb * im) / 2) / Zb = im := by field_simp; ring
      refine ⟨(vm + Zb * im) / 2, (vm - Zb * im) / 2, (hT _ _).2 ?_, (hT' _ _).2 ?_⟩
      · rw [e1, e2]; exact h1
      · rw [e1, e2]; exact h2
  rw [h12]
  constructor
  · rintro ⟨h1, h2⟩
    have h2 : a' - b' = a - b := by
      have := congrArg (· * (Zb : ℂ)) h2
      simp only [div_mul_cancel₀ _ hzc, neg_mul] at this
      rw [this]; ring
    exact ⟨by linear_combination h1 / 2 + h2 / 2, by linear_combination h1 / 2 - h2 / 2⟩
  · rintro ⟨rfl, rfl⟩
    exact ⟨rfl, by ring⟩

theorem sFromVI_lossless {z y V1 I1 V2 I2 : ℝ → ℂ} (hF : TRL.Fund z y V1 I1 V2 I2) {L r : ℝ} (hr : 0 < r)
    (h1 : ∀ x, (z x).re = 0) (h2 : ∀ x, (y x).re = 0) :
    ∃ S, sFromVI (r : ℂ) !![V1 L, V2 L; I1 L, I2 L] = .ok S := by
  rcases (C09_failure (r : ℂ) !![V1 L, V2 L; I1 L, I2 L]).2 with h | h
  · exact h
  · exfalso
    have hd := (C09_failure (r : ℂ) !![V1 L, V2 L; I1 L, I2 L]).1.1 h
    simp at hd
    have law : LineLaw z y L ![r, -r * (I1 L * r + I2 L)] ![-1, I1 L * r + I2 L] := by
      rw [lineLaw_iff hF.t1 hF.t2 hF.a hF.b hF.c hF.d]
      simp
      linear_combination -hd
    have hp := law.lossless h1 h2
    unfold portPower at hp
    simp only [Fin.sum_univ_two, Matrix.cons_val_zero, Matrix.cons_val_one] at hp
    generalize I1 L * r + I2 L = c at hp
    simp at hp
    nlinarith [mul_nonneg hr.le (sq_nonneg c.re), mul_nonneg hr.le (sq_nonneg c.im)]

/-- **C37 (a section exists).** For a positive reference, a nonzero impedance and velocity the line section has a matrix for every
length of either sign and every nonzero frequency. -/
theorem C37_section_total (ode : TRL.Ode) {vT Zb L Z f : ℝ} (hz : 0 < Zb) (hv : vT ≠ 0) (hZ : Z ≠ 0) (hf : f ≠ 0) :
    ∃ M, losslessLine ode vT Zb L Z f = .ok M := by
  have hG : TRL.GridOK (section_ vT Zb L Z) := by
    show (360 : ℤ) ≠ 0
    norm_num
  have hne : (section_ vT Zb L Z).z (2 * Real.pi * f) 0 * (section_ vT Zb L Z).y (2 * Real.pi * f) 0 ≠ 0 := by
    have h1 : ((2 * Real.pi * f : ℝ) : ℂ) ≠ 0 := by
      have : (2 * Real.pi * f : ℝ) ≠ 0 := mul_ne_zero (mul_ne_zero two_ne_zero Real.pi_ne_zero) hf
      exact_mod_cast this
    have h2 : (vT : ℂ) ≠ 0 := by exact_mod_cast hv
    have h3 : (Z : ℂ) ≠ 0 := by exact_mod_cast hZ
    show Complex.I * ((2 * Real.pi * f : ℝ) : ℂ) * Z / vT * (Complex.I * ((2 * Real.pi * f : ℝ) : ℂ) / (Z * vT)) ≠ 0
    exact mul_ne_zero (div_ne_zero (mul_ne_zero (mul_ne_zero Complex.I_ne_zero h1) h3) h2)
      (div_ne_zero (mul_ne_zero Complex.I_ne_zero h1) (mul_ne_zero h3 h2))
  obtain ⟨V1, I1, V2, I2, hF, h⟩ := TRL.fresh_uniform (section_solves ode vT Zb L Z) rfl hG f (.inr hne)
  have hre : ∀ x y : ℝ, (Complex.I * (x : ℂ) * (y : ℂ)).re = 0 := by intro x y; simp
  have hS := sFromVI_lossless (L := L) hF hz
    (fun x => by
      show (Complex.I * ((2 * Real.pi * f : ℝ) : ℂ) * Z / vT).re = 0
      rw [show (Complex.I * ((2 * Real.pi * f : ℝ) : ℂ) * Z / vT) = Complex.I * ((2 * Real.pi * f : ℝ) : ℂ) * ((Z / vT : ℝ) : ℂ) by
        push_cast; ring]
      exact hre _ _)
    (fun x => by
      show (Complex.I * ((2 * Real.pi * f : ℝ) : ℂ) / (Z * vT)).re = 0
      rw [show (Complex.I * ((2 * Real.pi * f : ℝ) : ℂ) / (Z * vT)) = Complex.I * ((2 * Real.pi * f : ℝ) : ℂ) * ((1 / (Z * vT) : ℝ) : ℂ) by
        push_cast; ring]
      exact hre _ _)
  obtain ⟨o', S, hS'⟩ := TRL.getS_of_fresh (h hS)
  exact ⟨S, by rw [losslessLine, hS']⟩

/-- a section does not amplify -/
theorem section_reflection {ode : TRL.Ode} {vT Zb L Z f : ℝ} {M : TRL.Mat2} (hz : 0 < Zb) (h : losslessLine ode vT Zb L Z f = .ok M) :
    ‖M 0 0‖ ≤ 1 := by
  have hre : ∀ x y : ℝ, (Complex.I * (x : ℂ) * (y : ℂ)).re = 0 := by intro x y; simp
  unfold losslessLine at h
  cases hg : TRL.getS ode (section_ vT Zb L Z) f none [] with
  | mk o' r =>
    rw [hg] at h
    simp only at h
    subst h
    have hZ : o'.Zbase = Zb := by rw [(TRL.getS_good hg).1]; rfl
    have hll := TRL.C11_lossless (section_solves ode vT Zb L Z) (by rw [hZ]; exact hz.ne') (by show 0 < o'.Zbase; rw [hZ]; exact hz) hg
      (fun x => by
        show (Complex.I * ((2 * Real.pi * f : ℝ) : ℂ) * Z / vT).re = 0
        rw [show (Complex.I * ((2 * Real.pi * f : ℝ) : ℂ) * Z / vT) = Complex.I * ((2 * Real.pi * f : ℝ) : ℂ) * ((Z / vT : ℝ) : ℂ) by
          push_cast; ring]
        exact hre _ _)
      (fun x => by
        show (Complex.I * ((2 * Real.pi * f : ℝ) : ℂ) / (Z * vT)).re = 0
        rw [show (Complex.I * ((2 * Real.pi * f : ℝ) : ℂ) / (Z * vT)) = Complex.I * ((2 * Real.pi * f : ℝ) : ℂ) * ((1 / (Z * vT) : ℝ) : ℂ) by
          push_cast; ring]
        exact hre _ _)
    have := hll ![1, 0]
    simp only [power, Fin.sum_univ_two, Matrix.mulVec, dotProduct, Matrix.cons_val_zero, Matrix.cons_val_one, mul_one, mul_zero,
      add_zero, norm_one, norm_zero] at this
    nlinarith [sq_nonneg ‖M 1 0‖, norm_nonneg (M 0 0)]

/-- **C37 (opposite lengths, with the line sections of the code).** Two successful calls of `deembed` with opposite lengths leave
every stored matrix as it was. -/
theorem C37_identity {ode : TRL.Ode} {vT : ℝ} {o o1 o2 : Obj n} {hn : o.ports.length = n} {hn1 : o1.ports.length = n}
    (hnd : o.ports.Nodup) (hl : o.fs.length = o.Ss.length) (hz : o.Zbase ≠ 0) {d d1 d2}
    (h1 : deembed (losslessLine ode vT) o hn d = (o1, d1, .ok ()))
    (h2 : deembed (losslessLine ode vT) o1 hn1 (opposite d) = (o2, d2, .ok ())) : o2.Ss = o.Ss :=
  C37_opposite hnd hl (fun _ _ _ _ _ _ h h' => C37_sections hz h h') h1 h2

/-! ## What goes wrong -/

theorem deembedFs_restore {k : Fin n} {line line' : ℝ → Except Err TRL.Mat2} : ∀ {fs : List ℝ} {Ss l : List (Mat n)},
    (∀ f ∈ fs, ∀ M, line f = .ok M → ∃ M', line' f = .ok M' ∧ Through M M') → deembedFs k line fs Ss = (l, .ok ()) →
    deembedFs k line' fs l = (Ss, .ok ())
  | [], Ss, l, _, h => by
    have : deembedFs k line [] Ss = (Ss, .ok ()) := by cases Ss <;> rfl
    rw [this] at h
    obtain ⟨rfl, -⟩ := Prod.mk.inj h
    cases Ss <;> rfl
  | f :: fs, [], l, _, h => by
    obtain ⟨rfl, -⟩ := Prod.mk.inj h
    rfl
  | f :: fs, S :: Ss, l, hu, h => by
    unfold deembedFs at h
    cases h1 : line f with
    | error e => simp [h1] at h
    | ok T =>
      cases h2 : deembed1 S k T with
      | error e => simp [h1, h2] at h
      | ok S' =>
        simp only [h1, h2] at h
        cases h3 : deembedFs k line fs Ss with
        | mk l' r =>
          simp only [h3] at h
          obtain ⟨rfl, rfl⟩ := Prod.mk.inj h
          obtain ⟨M', g1, g2⟩ := hu f (by simp) T h1
          have ih := deembedFs_restore (fun f hf => hu f (by simp [hf])) h3
          simp only [deembedFs, g1, C37_restore g2 h2, ih]

theorem argOf_single (p : String) (v : Arg) (q : String) : argOf [(p, v)] q = if p = q then some v else none := by
  unfold argOf
  by_cases h : p = q <;> simp [h]

theorem filter_single (p : String) (v : Arg) : ([(p, v)] : List (String × Arg)).filter (fun x => decide (x.1 ≠ p)) = [] := by simp

theorem deembedPorts_nil {line} {o : Obj n} (ps : List (Fin n × String)) : deembedPorts line o ps [] = (o, [], .ok ()) := by
  induction ps with
  | nil => rfl
  | cons q ps ih => simp [deembedPorts, argOf, ih]

/-- the effect of a one-entry dictionary -/
theorem deembed_single {line} {o : Obj n} {hn : o.ports.length = n} (hnd : o.ports.Nodup) (k : Fin n) (L Z : ℝ) :
    deembed line o hn [(nameOf o hn k, .tuple L Z)] =
      match deembedFs k (line o.Zbase (-L) Z) o.fs o.Ss with
      | (l, .error e) => ({ o with Ss := l, interp := none }, [], .error e)
      | (l, .ok ()) => ({ o with Ss := l, interp := none }, [], .ok ()) := by
  have key : ∀ ps : List (Fin n), k ∈ ps → ps.Nodup →
      deembedPorts line { o with interp := none } (ps.map fun i => (i, o.ports.get (i.cast hn.symm))) [(nameOf o hn k, .tuple L Z)] =
      match deembedFs k (line o.Zbase (-L) Z) o.fs o.Ss with
      | (l, .error e) => ({ o with Ss := l, interp := none }, [], .error e)
      | (l, .ok ()) => ({ o with Ss := l, interp := none }, [], .ok ()) := by
    intro ps
    induction ps with
    | nil => intro h; cases h
    | cons i ps ih =>
      intro hk hndp
      rw [List.map_cons]
      by_cases hik : i = k
      · subst hik
        have e : argOf [(nameOf o hn i, .tuple L Z)] (o.ports.get (i.cast hn.symm)) = some (.tuple L Z) := by
          rw [argOf_single, if_pos (show nameOf o hn i = o.ports.get (i.cast hn.symm) from rfl)]
        unfold deembedPorts
        simp only [e]
        have e2 : ([(nameOf o hn i, Arg.tuple L Z)] : List (String × Arg)).filter (fun x => decide (x.1 ≠ o.ports.get (i.cast hn.symm))) = [] :=
          filter_single _ _
        rw [e2]
        cases hd : deembedFs i (line o.Zbase (-L) Z) o.fs o.Ss with
        | mk l r => cases r <;> simp [deembedPorts_nil]
      · have hne : nameOf o hn k ≠ o.ports.get (i.cast hn.symm) := by
          intro h
          have := hnd.injective_get h
          exact hik (by simpa [Fin.ext_iff] using this.symm)
        have e : argOf [(nameOf o hn k, .tuple L Z)] (o.ports.get (i.cast hn.symm)) = none := by
          rw [argOf_single, if_neg hne]
        unfold deembedPorts
        simp only [e]
        exact ih ((List.mem_cons.1 hk).resolve_left (Ne.symm hik)) (List.nodup_cons.1 hndp).2
  unfold deembed
  rw [key _ (List.mem_finRange k) (List.nodup_finRange n)]
  cases deembedFs k (line o.Zbase (-L) Z) o.fs o.Ss with
  | mk l r => cases r <;> simp

/-- **C37 (one port: undoing always works).** After a successful `deembed` of one port, the call with the opposite length succeeds and
restores every stored matrix, for a positive reference, a nonzero impedance and nonzero frequencies. -/
theorem C37_undo {ode : TRL.Ode} {vT : ℝ} {o o1 : Obj n} {hn : o.ports.length = n} {hn1 : o1.ports.length = n} (hnd : o.ports.Nodup)
    (hz : 0 < o.Zbase) (hv : vT ≠ 0) (hf : ∀ f ∈ o.fs, f ≠ 0) {k : Fin n} {L Z : ℝ} (hZ : Z ≠ 0) {d1}
    (h1 : deembed (losslessLine ode vT) o hn [(nameOf o hn k, .tuple L Z)] = (o1, d1, .ok ())) :
    deembed (losslessLine ode vT) o1 hn1 [(nameOf o1 hn1 k, .tuple (-L) Z)] = ({ o with interp := none }, [], .ok ()) := by
  rw [deembed_single hnd] at h1
  cases hd : deembedFs k (losslessLine ode vT o.Zbase (-L) Z) o.fs o.Ss with
  | mk l r =>
    cases r with
    | error e => simp [hd] at h1
    | ok u =>
      simp only [hd, Prod.mk.injEq, and_true] at h1
      obtain ⟨rfl, -⟩ := h1
      have := deembedFs_restore (line' := losslessLine ode vT o.Zbase L Z) (fun f hff M hM => by
        obtain ⟨M', hM'⟩ := C37_section_total ode (L := L) hz hv hZ (hf f hff)
        exact ⟨M', hM', C37_sections hz.ne' hM hM'⟩) hd
      rw [deembed_single (o := { o with Ss := l, interp := none }) hnd]
      simp only [neg_neg, this]

/-- **C37 (succeeds).** If the object reflects less than all at the port (magnitude of the stored reflection coefficient below 1),
de-embedding that port succeeds. -/
theorem C37_total (ode : TRL.Ode) {vT : ℝ} {o : Obj n} {hn : o.ports.length = n} (hnd : o.ports.Nodup)
    (hz : 0 < o.Zbase) (hv : vT ≠ 0) (hf : ∀ f ∈ o.fs, f ≠ 0) {k : Fin n} {L Z : ℝ} (hZ : Z ≠ 0) (hS : ∀ S ∈ o.Ss, ‖S k k‖ < 1) :
    ∃ o' d', deembed (losslessLine ode vT) o hn [(nameOf o hn k, .tuple L Z)] = (o', d', .ok ()) := by
  have key : ∀ (fs : List ℝ) (Ss : List (Mat n)), (∀ f ∈ fs, f ≠ 0) → (∀ S ∈ Ss, ‖S k k‖ < 1) →
      ∃ l, deembedFs k (losslessLine ode vT o.Zbase (-L) Z) fs Ss = (l, .ok ()) := by
    intro fs
    induction fs with
    | nil => intro Ss _ _; exact ⟨Ss, by cases Ss <;> rfl⟩
    | cons f fs ih =>
      intro Ss h1 h2
      cases Ss with
      | nil => exact ⟨[], rfl⟩
      | cons S Ss =>
        obtain ⟨M, hM⟩ := C37_section_total ode (L := -L) hz hv hZ (h1 f (by simp))
        obtain ⟨S', hS'⟩ := (C37_failure S k M).2 (by
          intro h0
          have hn := congrArg norm h0
          rw [norm_mul, norm_one] at hn
          have := section_reflection hz hM
          have h3 := h2 S (by simp)
          nlinarith [norm_nonneg (M 0 0), norm_nonneg (S k k)])
        obtain ⟨l, hl⟩ := ih Ss (fun f hf => h1 f (by simp [hf])) (fun S hS => h2 S (by simp [hS]))
        exact ⟨S' :: l, by simp only [deembedFs, hM, hS', hl]⟩
  obtain ⟨l, hl⟩ := key o.fs o.Ss hf hS
  rw [deembed_single hnd, hl]
  exact ⟨_, _, rfl⟩

/-- **C37 (documented forms refused: violation).** A plain length and a dictionary of line parameters, both documented, raise
TypeError. -/
theorem C37_scalar_refused (line) (o : Obj n) (hn : o.ports.length = n) (k : Fin n) (v : Arg)
    (hv : ∀ L Z, v ≠ .tuple L Z) (hnd : o.ports.Nodup) : (deembed line o hn [(nameOf o hn k, v)]).2.2 = .error .typeError := by
  have key : ∀ ps : List (Fin n), k ∈ ps → ps.Nodup →
      (deembedPorts line { o with interp := none } (ps.map fun i => (i, o.ports.get (i.cast hn.symm))) [(nameOf o hn k, v)]).2.2 =
      .error .typeError := by
    intro ps
    induction ps with
    | nil => intro h; cases h
    | cons i ps ih =>
      intro hk hndp
      rw [List.map_cons]
      by_cases hik : i = k
      · subst hik
        have e : argOf [(nameOf o hn i, v)] (o.ports.get (i.cast hn.symm)) = some v := by
          rw [argOf_single, if_pos (show nameOf o hn i = o.ports.get (i.cast hn.symm) from rfl)]
        unfold deembedPorts
        simp only [e]
        cases v with
        | tuple L Z => exact absurd rfl (hv L Z)
        | number L => rfl
        | dict => rfl
      · have hne : nameOf o hn k ≠ o.ports.get (i.cast hn.symm) := by
          intro h
          have := hnd.injective_get h
          exact hik (by simpa [Fin.ext_iff] using this.symm)
        have e : argOf [(nameOf o hn k, v)] (o.ports.get (i.cast hn.symm)) = none := by
          rw [argOf_single, if_neg hne]
        unfold deembedPorts
        simp only [e]
        exact ih ((List.mem_cons.1 hk).resolve_left (Ne.symm hik)) (List.nodup_cons.1 hndp).2
  have := key _ (List.mem_finRange k) (List.nodup_finRange n)
  unfold deembed
  cases hp : deembedPorts line { o with interp := none } ((List.finRange n).map fun i => (i, o.ports.get (i.cast hn.symm))) [(nameOf o hn k, v)] with
  | mk o1 q =>
    obtain ⟨d1, r⟩ := q
    rw [hp] at this
    simp only at this
    subst this
    rfl

/-- an unknown key does not influence the pass over the ports -/
theorem deembedPorts_unknown {line} (ps : List (Fin n × String)) {q : String} (hq : q ∉ ps.map Prod.snd) (v : Arg) :
    ∀ (o : Obj n) d, deembedPorts line o ps (d ++ [(q, v)]) =
      ((deembedPorts line o ps d).1, (deembedPorts line o ps d).2.1 ++ [(q, v)], (deembedPorts line o ps d).2.2) := by
  induction ps with
  | nil => intro o d; rfl
  | cons x ps ih =>
    obtain ⟨k, p⟩ := x
    simp only [List.map_cons, List.mem_cons, not_or] at hq
    intro o d
    have e : argOf (d ++ [(q, v)]) p = argOf d p := by
      unfold argOf
      rw [List.find?_append, List.find?_cons_of_neg (by simpa using hq.1)]
      simp
    have e2 : (d ++ [(q, v)]).filter (fun x => decide (x.1 ≠ p)) = d.filter (fun x => decide (x.1 ≠ p)) ++ [(q, v)] := by
      rw [List.filter_append]
      congr 1
      simp [hq.1]
    unfold deembedPorts
    rw [e]
    cases ha : argOf d p with
    | none => simp only; exact ih hq.2 o d
    | some w =>
      simp only [e2]
      cases w with
      | number L => rfl
      | dict => rfl
      | tuple L Z =>
        simp only
        cases hd : deembedFs k (line o.Zbase (-L) Z) o.fs o.Ss with
        | mk l r =>
          cases r with
          | error e => rfl
          | ok u => simp only; exact ih hq.2 _ _

/-- **C37 (not atomic: violation).** A dictionary with a key that is no port is refused with ValueError, but only after the other
ports have been de-embedded: the object is left changed. -/
theorem C37_not_atomic {line} {o o1 : Obj n} {hn : o.ports.length = n} {d} (h : deembed line o hn d = (o1, [], .ok ()))
    {q : String} (hq : q ∉ o.ports) (v : Arg) : deembed line o hn (d ++ [(q, v)]) = (o1, [(q, v)], .error .valueError) := by
  have hq' : q ∉ ((List.finRange n).map fun i => (i, o.ports.get (i.cast hn.symm))).map Prod.snd := by
    simp only [List.map_map, List.mem_map, List.mem_finRange, true_and, not_exists]
    intro j hj
    exact hq (by rw [← hj]; exact List.get_mem _ _)
  unfold deembed at h ⊢
  rw [deembedPorts_unknown _ hq']
  cases hp : deembedPorts line { o with interp := none } ((List.finRange n).map fun i => (i, o.ports.get (i.cast hn.symm))) d with
  | mk o2 x =>
    obtain ⟨d1, r⟩ := x
    cases r with
    | error e => simp only [hp, Prod.mk.injEq] at h; cases h.2.2
    | ok u =>
      simp only [hp, Prod.mk.injEq] at h
      obtain ⟨rfl, rfl, -⟩ := h
      simp

/-! ## Concrete cases -/

namespace Ex

/-- a one-port with reflection 1/2 at 10 MHz -/
noncomputable def o1 : Obj 1 := { (new ["a"] 50 : Obj 1) with fs := [10 ^ 7], Ss := [!![1 / 2]] }

theorem o1_logged (env : Env 1) : Logged env o1 [(10 ^ 7, !![1 / 2])] := by
  have h := Logged.set1 (o' := o1) (f := 10 ^ 7) (S := !![1 / 2]) (Logged.new (env := env) ["a"] 50 rfl)
    (by simp [setS, check3D, sortedAfter, new, castStack, o1])
  simpa using h

/-- one metre of 50 Ohm line taken off at 10 MHz -/
theorem C37_witness (ode : TRL.Ode) : ∃ o' d', deembed (losslessLine ode 299792458) o1 rfl [("a", .tuple 1 50)] = (o', d', .ok ()) := by
  refine C37_total ode (o := o1) (hn := rfl) (by simp [o1, new]) (by show (0 : ℝ) < 50; norm_num) (by norm_num) ?_ (k := 0) (L := 1) (Z := 50)
    (by norm_num) ?_
  · intro f hf
    have : f = 10 ^ 7 := by simpa [o1] using hf
    rw [this]; norm_num
  · intro S hS
    have : S = !![1 / 2] := by simpa [o1] using hS
    rw [this]; norm_num

end Ex

end PyRFtk.RfObject
