import Verif.RfObjectEx

/-!
# rfObject as a sequence of samples (C84)

Model of `__len__`, `__iter__`, `__getitem__`, `__setitem__` (`rfObject.py:324-348`): `for f, S in obj`, `list(obj)`, `obj[k]`,
`obj[k] = f, S`, `len(obj)`, `reversed(obj)`, and of the matrices handed out, which are views of the stored array.

Simplifications: integer indices (no slices); exact numbers; assigned matrices of more than three dimensions are refused (numpy accepts
them when all but the last two dimensions are 1).
-/

namespace PyRFtk.RfObject

variable {n : ℕ}

/-! ## model -/

/-- Python's integer index into an axis of the given length: negative indices count from the end -/
def axis (len : ℕ) (k : ℤ) : Option ℕ :=
  if 0 ≤ k ∧ k < len then some k.toNat else if k < 0 ∧ -(len : ℤ) ≤ k then some (k + len).toNat else none

/-- `a[k]` of an array along its first axis, IndexError out of range -/
def pick {α : Type} (l : List α) (k : ℤ) : Except Err α :=
  match axis l.length k with
  | none => .error .indexError
  | some j => match l[j]? with | some x => .ok x | none => .error .indexError

/-- `obj[k]`, `rfObject.py:339-340` -/
def getItem (o : Obj n) (k : ℤ) : Except Err (ℝ × Mat n) :=
  match pick o.fs k with
  | .error e => .error e
  | .ok f => match pick o.Ss k with
    | .error e => .error e
    | .ok S => .ok (f, S)

/-- the generator of `__iter__`, `rfObject.py:331-333`, driven by a for loop whose body changes the object: the number of rounds is fixed at
the first one, each round reads the arrays the object has at that moment -/
def iterLoop (body : ℝ × Mat n → Obj n → Obj n) : List ℕ → Obj n → Obj n × Except Err (List (ℝ × Mat n))
  | [], o => (o, .ok [])
  | j :: js, o => match getItem o j with
    | .error e => (o, .error e)
    | .ok x => match iterLoop body js (body x o) with
      | (o', .error e) => (o', .error e)
      | (o', .ok l) => (o', .ok (x :: l))

/-- `for x in obj: body`, with the list of the values of `x` -/
def forLoop (body : ℝ × Mat n → Obj n → Obj n) (o : Obj n) : Obj n × Except Err (List (ℝ × Mat n)) :=
  iterLoop body (List.range o.fs.length) o

/-- `list(obj)` -/
def asList (o : Obj n) : Except Err (List (ℝ × Mat n)) := (forLoop (fun _ o => o) o).2

/-- `len(obj)`, `rfObject.py:324-325` -/
def len (o : Obj n) : ℕ := o.ports.length

/-- the iteration of `reversed(obj)`: items `k-1, ..., 0`; an IndexError ends it silently -/
def downLoop (o : Obj n) : ℕ → List (ℝ × Mat n)
  | 0 => []
  | k + 1 => match getItem o k with
    | .error _ => []
    | .ok x => x :: downLoop o k

/-- `list(reversed(obj))`: Python begins at item `len(obj) - 1` -/
def asReversed (o : Obj n) : List (ℝ × Mat n) := downLoop o (len o)

/-- a p x q array assigned to an n x n part of an array, numpy broadcasting: an axis of length 1 is repeated -/
noncomputable def spread2 (n p q : ℕ) (A : Matrix (Fin p) (Fin q) ℂ) : Except Err (Mat n) :=
  if h : p = n ∧ q = n then .ok (A.submatrix (Fin.cast h.1.symm) (Fin.cast h.2.symm))
  else if h : p = 1 ∧ q = n then .ok (Matrix.of fun _ j => A ⟨0, by omega⟩ (j.cast h.2.symm))
  else if h : p = n ∧ q = 1 then .ok (Matrix.of fun i _ => A (i.cast h.1.symm) ⟨0, by omega⟩)
  else if h : p = 1 ∧ q = 1 then .ok (Matrix.of fun _ _ => A ⟨0, by omega⟩ ⟨0, by omega⟩)
  else .error .valueError

/-- the value assigned to an n x n part of an array, numpy broadcasting; leading axes of length 1 are dropped (simplified: arrays with four axes and more, whose entries
the type `ND` does not hold, are refused) -/
noncomputable def spread (n : ℕ) : ND ℂ → Except Err (Mat n)
  | .d0 x => .ok (Matrix.of fun _ _ => x)
  | .d1 xs => if h : xs.length = n then .ok (Matrix.of fun _ j => xs.get (j.cast h.symm))
      else if h : xs.length = 1 then .ok (Matrix.of fun _ _ => xs.get ⟨0, by omega⟩) else .error .valueError
  | .d2 p q A => spread2 n p q A
  | .d3 p q [A] => spread2 n p q A
  | _ => .error .valueError

/-- `obj[k] = f, v`, `rfObject.py:346-348`: the frequency is written before the matrix is looked at -/
noncomputable def putItem (o : Obj n) (k : ℤ) (f : ℝ) (v : ND ℂ) : Obj n × Except Err Unit :=
  match axis o.fs.length k with
  | none => (o, .error .indexError)
  | some j =>
    let o1 := { o with fs := o.fs.set j f }
    match axis o.Ss.length k with
    | none => (o1, .error .indexError)
    | some i => match spread n v with
      | .error e => (o1, .error e)
      | .ok S => ({ o1 with Ss := o.Ss.set i S }, .ok ())

/-- an object with the number of times its array of matrices was replaced by a new one -/
structure Live (n : ℕ) where
  o : Obj n
  gen : ℕ

/-- a matrix handed out by `obj[k]` or by the loop: row `k` of the array that was current (`self.Ss[k,:,:]` is a view, 333, 340) -/
structure View where
  gen : ℕ
  k : ℕ

/-- `obj[k][1]` or the matrix of the k-th round -/
def Live.view (l : Live n) (k : ℤ) : Except Err View :=
  match axis l.o.Ss.length k with
  | none => .error .indexError
  | some j => .ok ⟨l.gen, j⟩

/-- `view[i, j] = x` by the caller -/
def Live.write (l : Live n) (v : View) (i j : Fin n) (x : ℂ) : Live n :=
  if v.gen = l.gen then { l with o := { l.o with Ss := l.o.Ss.modify v.k fun S => S.updateRow i (Function.update (S i) j x) } } else l

/-- `setS`: an accepted call makes a new array (610, `np.append`) -/
noncomputable def Live.setS (l : Live n) (f : List ℝ) (S : ND ℂ) (names : Option (List String)) : Live n :=
  match RfObject.setS l.o f S names with
  | (o', .ok ()) => ⟨o', l.gen + 1⟩
  | (o', .error _) => ⟨o', l.gen⟩

open Classical in
/-- `getS`: the sorting step makes a new array (438) -/
noncomputable def Live.getS (env : Env n) (l : Live n) (f : ℝ) (Zb : Option ℝ) : Live n :=
  ⟨(RfObject.getS env l.o f Zb).1, if f ∈ l.o.fs ∨ l.o.interp.isSome ∨ l.o.sorted then l.gen else l.gen + 1⟩

/-! ## specification -/

/-- `x` is element `k` of a Python list: counted from the front, or from the back for negative `k` -/
def PyAt {α : Type} (l : List α) (k : ℤ) (x : α) : Prop :=
  (∃ i : ℕ, k = i ∧ l[i]? = some x) ∨ (∃ i : ℕ, k = -((i : ℤ) + 1) ∧ l.reverse[i]? = some x)

/-- `S` is the n x n matrix filled with the p x q array `A`, an axis of length 1 being repeated -/
def Fills {n p q : ℕ} (A : Matrix (Fin p) (Fin q) ℂ) (S : Mat n) : Prop :=
  (p = n ∨ p = 1) ∧ (q = n ∨ q = 1) ∧
    ∀ (i j : Fin n) (a : Fin p) (b : Fin q), (a : ℕ) = i ∨ p = 1 → (b : ℕ) = j ∨ q = 1 → S i j = A a b

/-- `S` is the n x n matrix filled with the array `v` -/
def Broadcasts {n : ℕ} (S : Mat n) : ND ℂ → Prop
  | .d0 x => ∀ i j, S i j = x
  | .d1 xs => (xs.length = n ∧ ∀ i j : Fin n, xs[(j : ℕ)]? = some (S i j)) ∨ ∃ x, xs = [x] ∧ ∀ i j, S i j = x
  | .d2 _ _ A => Fills A S
  | .d3 _ _ [A] => Fills A S
  | _ => False

/-! ## proofs -/

theorem axis_lt {len : ℕ} {k : ℤ} {j : ℕ} (h : axis len k = some j) : j < len := by
  unfold axis at h
  split at h
  · simp only [Option.some.injEq] at h; omega
  · split at h
    · simp only [Option.some.injEq] at h; omega
    · cases h

theorem axis_nat {len j : ℕ} (h : j < len) : axis len (j : ℤ) = some j := by
  unfold axis; rw [if_pos ⟨by omega, by omega⟩]; simp

theorem axis_none {len : ℕ} {k : ℤ} : axis len k = none ↔ ¬ (-(len : ℤ) ≤ k ∧ k < len) := by
  unfold axis
  split
  · simp; omega
  · split
    · simp; omega
    · simp; omega

theorem axis_pyAt {α : Type} {l : List α} {k : ℤ} {x : α} : PyAt l k x ↔ ∃ j, axis l.length k = some j ∧ l[j]? = some x := by
  constructor
  · rintro (⟨i, rfl, hi⟩ | ⟨i, rfl, hi⟩)
    · obtain ⟨hl, -⟩ := List.getElem?_eq_some_iff.1 hi
      exact ⟨i, axis_nat hl, hi⟩
    · have hl : i < l.length := by
        obtain ⟨hl, -⟩ := List.getElem?_eq_some_iff.1 hi
        simpa using hl
      rw [List.getElem?_reverse hl] at hi
      refine ⟨l.length - 1 - i, ?_, hi⟩
      unfold axis
      rw [if_neg (by omega), if_pos ⟨by omega, by omega⟩]
      congr 1; omega
  · rintro ⟨j, hj, hx⟩
    unfold axis at hj
    split at hj
    · simp only [Option.some.injEq] at hj
      exact .inl ⟨j, by omega, hx⟩
    · split at hj
      · rename_i h1 h2
        simp only [Option.some.injEq] at hj
        refine .inr ⟨l.length - 1 - j, by omega, ?_⟩
        rw [List.getElem?_reverse (by omega)]
        rw [← hx]; congr 1; omega
      · cases hj

theorem pick_ok {α : Type} {l : List α} {k : ℤ} {x : α} : pick l k = .ok x ↔ PyAt l k x := by
  rw [axis_pyAt]
  unfold pick
  cases h : axis l.length k with
  | none => simp
  | some j =>
    have hj := axis_lt h
    simp [List.getElem?_eq_getElem hj]

theorem pick_error {α : Type} {l : List α} {k : ℤ} {e : Err} : pick l k = .error e ↔ e = .indexError ∧ ¬ (-(l.length : ℤ) ≤ k ∧ k < l.length) := by
  unfold pick
  cases h : axis l.length k with
  | none => simpa [eq_comm] using fun _ => by simpa using axis_none.1 h
  | some j =>
    have hj := axis_lt h
    have : ¬ axis l.length k = none := by simp [h]
    rw [axis_none, not_not] at this
    simp [List.getElem?_eq_getElem hj]
    intro _; omega

theorem zip_at {α β : Type} {a : List α} {b : List β} {j : ℕ} {x : α} {y : β} (h1 : a[j]? = some x) (h2 : b[j]? = some y) :
    (a.zip b)[j]? = some (x, y) := by
  rw [List.getElem?_zip_eq_some]; exact ⟨h1, h2⟩

theorem getItem_zip {o : Obj n} (hl : o.fs.length = o.Ss.length) (k : ℤ) : getItem o k = pick (o.fs.zip o.Ss) k := by
  have hz : (o.fs.zip o.Ss).length = o.fs.length := by rw [List.length_zip, ← hl, min_self]
  unfold getItem pick
  rw [hz, ← hl]
  cases h : axis o.fs.length k with
  | none => rfl
  | some j =>
    have hj := axis_lt h
    have h1 : o.fs[j]? = some o.fs[j] := List.getElem?_eq_getElem hj
    have h2 : o.Ss[j]? = some (o.Ss[j]'(hl ▸ hj)) := List.getElem?_eq_getElem (hl ▸ hj)
    simp only [h1, h2, zip_at h1 h2]

theorem iterLoop_prefix {body : ℝ × Mat n → Obj n → Obj n} {l0 : List (ℝ × Mat n)} {P : Obj n → Prop}
    (hP : ∀ o, P o → o.fs.length = o.Ss.length ∧ l0 <+: o.fs.zip o.Ss) (hb : ∀ x o, P o → P (body x o)) :
    ∀ (js : List ℕ) (o : Obj n), (∀ j ∈ js, j < l0.length) → P o →
      ∃ o', P o' ∧ iterLoop body js o = (o', .ok (take l0 js))
  | [], o, _, h => ⟨o, h, rfl⟩
  | j :: js, o, hj, h => by
    have hj0 : j < l0.length := hj j (by simp)
    obtain ⟨hl, hpre⟩ := hP o h
    have hx : l0[j]? = some l0[j] := List.getElem?_eq_getElem hj0
    have hx' : (o.fs.zip o.Ss)[j]? = some l0[j] := by
      obtain ⟨t, ht⟩ := hpre
      rw [← ht, List.getElem?_append_left hj0, hx]
    have hg : getItem o j = .ok l0[j] := by
      rw [getItem_zip hl]
      exact pick_ok.2 (.inl ⟨j, rfl, hx'⟩)
    obtain ⟨o', hp', hr⟩ := iterLoop_prefix hP hb js (body l0[j] o) (fun i hi => hj i (by simp [hi])) (hb _ _ h)
    refine ⟨o', hp', ?_⟩
    simp only [iterLoop, hg, hr, take, List.filterMap_cons, hx]

/-- **C84 (a loop over an object whose samples are kept).** Whatever the body of the loop does to the object, if it keeps the samples the
object had when the loop began (it may add others behind them), the loop sees exactly these, in order. -/
theorem C84_loop {o : Obj n} {body : ℝ × Mat n → Obj n → Obj n} (hl : o.fs.length = o.Ss.length)
    (hb : ∀ x p, p.fs.length = p.Ss.length → o.fs.zip o.Ss <+: p.fs.zip p.Ss →
      (body x p).fs.length = (body x p).Ss.length ∧ o.fs.zip o.Ss <+: (body x p).fs.zip (body x p).Ss) :
    (forLoop body o).2 = .ok (o.fs.zip o.Ss) := by
  have hz : (o.fs.zip o.Ss).length = o.fs.length := by rw [List.length_zip, ← hl, min_self]
  obtain ⟨o', -, h⟩ := iterLoop_prefix (body := body) (l0 := o.fs.zip o.Ss)
    (P := fun p => p.fs.length = p.Ss.length ∧ o.fs.zip o.Ss <+: p.fs.zip p.Ss) (fun _ h => h) (fun x p h => hb x p h.1 h.2)
    (List.range o.fs.length) o (by simp [hz]) ⟨hl, List.prefix_refl _⟩
  unfold forLoop
  rw [h, ← hz, take_range]

theorem asList_eq {o : Obj n} (hl : o.fs.length = o.Ss.length) : asList o = .ok (o.fs.zip o.Ss) :=
  C84_loop hl fun _ _ h1 h2 => ⟨h1, h2⟩

/-- **C84 (list of the samples).** After any history of `setS` (accepted or refused), `getS` and pickling, `list(obj)` gives the samples
stored, each once, and in the order they were given as long as none was noticed to be out of order. -/
theorem C84_list {env : Env n} (hs : env.Sorts) {o : Obj n} {data} (h : Logged env o data) :
    ∃ l, asList o = .ok l ∧ l.Perm data ∧ (o.sorted = true → l = data) :=
  ⟨_, asList_eq (h.inv hs).len, (h.inv hs).perm, (h.inv hs).exact⟩

/-- **C84 (items).** `obj[k]` is element `k` of `list(obj)`, negative `k` counting from the end; anything else raises IndexError. -/
theorem C84_item {env : Env n} (hs : env.Sorts) {o : Obj n} {data} (h : Logged env o data) (k : ℤ) :
    ∃ l, asList o = .ok l ∧ (∀ x, getItem o k = .ok x ↔ PyAt l k x) ∧
      (∀ e, getItem o k = .error e ↔ e = .indexError ∧ ¬ (-(data.length : ℤ) ≤ k ∧ k < data.length)) := by
  have hi := h.inv hs
  refine ⟨_, asList_eq hi.len, fun x => ?_, fun e => ?_⟩
  · rw [getItem_zip hi.len, pick_ok]
  · rw [getItem_zip hi.len, pick_error, hi.perm.length_eq]

theorem get1S_leaves {env : Env n} {o o' : Obj n} {f : ℝ} {r} (hs : o.sorted = true) (h : get1S env o f = (o', r)) :
    o'.fs = o.fs ∧ o'.Ss = o.Ss ∧ o'.sorted = true := by
  unfold get1S at h
  split at h
  · obtain ⟨rfl, -⟩ := Prod.mk.inj h; exact ⟨rfl, rfl, hs⟩
  · have : ∀ o1 r1, interpolators env o = (o1, r1) → o1.fs = o.fs ∧ o1.Ss = o.Ss ∧ o1.sorted = true := by
      intro o1 r1 h1
      unfold interpolators at h1
      split at h1
      · obtain ⟨rfl, -⟩ := Prod.mk.inj h1; exact ⟨rfl, rfl, hs⟩
      · have e : sortFs env o = (o, .ok ()) := by unfold sortFs; rw [if_pos hs]
        rw [e] at h1
        dsimp only at h1
        split at h1 <;> obtain ⟨rfl, -⟩ := Prod.mk.inj h1 <;> exact ⟨rfl, rfl, hs⟩
    cases hi : interpolators env o with
    | mk o1 r1 =>
      rw [hi] at h
      cases r1 <;> (obtain ⟨rfl, -⟩ := Prod.mk.inj h; exact this _ _ hi)

theorem getS_leaves {env : Env n} {o o' : Obj n} {f : ℝ} {Zb r} (hs : o.sorted = true) (h : getS env o f Zb = (o', r)) :
    o'.fs = o.fs ∧ o'.Ss = o.Ss ∧ o'.sorted = true := by
  unfold getS at h
  cases hg : get1S env o f with
  | mk o1 r1 =>
    rw [hg] at h
    cases r1 <;> (obtain ⟨rfl, -⟩ := Prod.mk.inj h; exact get1S_leaves hs hg)

/-- **C84 (evaluations inside the loop).** A loop over an object whose samples were stored in order may evaluate the object, at any
frequencies (chosen from what it has seen) and as often as it likes: it sees each stored sample once, in the order given. -/
theorem C84_loop_evaluating {env : Env n} (hs : env.Sorts) {o : Obj n} {data} (h : Logged env o data) (ho : o.sorted = true)
    (at_ : ℝ × Mat n → List (ℝ × Option ℝ)) :
    (forLoop (fun x p => (at_ x).foldl (fun p q => (getS env p q.1 q.2).1) p) o).2 = .ok data := by
  have hi := h.inv hs
  have key : ∀ (qs : List (ℝ × Option ℝ)) (p : Obj n), p.sorted = true →
      (qs.foldl (fun p q => (getS env p q.1 q.2).1) p).fs = p.fs ∧ (qs.foldl (fun p q => (getS env p q.1 q.2).1) p).Ss = p.Ss ∧
      (qs.foldl (fun p q => (getS env p q.1 q.2).1) p).sorted = true := by
    intro qs
    induction qs with
    | nil => intro p hp; exact ⟨rfl, rfl, hp⟩
    | cons q qs ih =>
      intro p hp
      obtain ⟨h1, h2, h3⟩ := getS_leaves (Zb := q.2) (r := (getS env p q.1 q.2).2) hp rfl
      obtain ⟨g1, g2, g3⟩ := ih _ h3
      exact ⟨g1.trans h1, g2.trans h2, g3⟩
  have hz : (o.fs.zip o.Ss).length = o.fs.length := by rw [List.length_zip, ← hi.len, min_self]
  obtain ⟨o', -, h⟩ := iterLoop_prefix (body := fun x p => (at_ x).foldl (fun p q => (getS env p q.1 q.2).1) p) (l0 := o.fs.zip o.Ss)
    (P := fun p => p.fs = o.fs ∧ p.Ss = o.Ss ∧ p.sorted = true)
    (fun p hp => by rw [hp.1, hp.2.1]; exact ⟨hi.len, List.prefix_refl _⟩)
    (fun x p hp => by
      obtain ⟨h1, h2, h3⟩ := key (at_ x) p hp.2.2
      exact ⟨h1.trans hp.1, h2.trans hp.2.1, h3⟩)
    (List.range o.fs.length) o (by simp [hz]) ⟨rfl, rfl, ho⟩
  unfold forLoop
  rw [h, ← hz, take_range, hi.exact ho]

/-- **C84 (number of samples: violation).** `len(obj)` is the number of ports, whatever is stored: it is not the number of samples that the
loop visits, unless the two happen to agree. -/
theorem C84_len_violation {env : Env n} (hs : env.Sorts) {o : Obj n} {data} (h : Logged env o data) :
    len o = n ∧ ∃ l, asList o = .ok l ∧ l.length = data.length ∧ (len o = l.length ↔ data.length = n) := by
  obtain ⟨l, h1, h2, -⟩ := C84_list hs h
  have hp : len o = n := (h.inv hs).ports
  exact ⟨hp, l, h1, h2.length_eq, by rw [hp, h2.length_eq, eq_comm]⟩

theorem downLoop_eq {o : Obj n} (hl : o.fs.length = o.Ss.length) : ∀ k, k ≤ o.fs.length →
    downLoop o k = ((o.fs.zip o.Ss).take k).reverse
  | 0, _ => by simp [downLoop]
  | k + 1, hk => by
    have hz : k < (o.fs.zip o.Ss).length := by rw [List.length_zip, ← hl, min_self]; omega
    have hg : getItem o (k : ℤ) = .ok (o.fs.zip o.Ss)[k] := by
      rw [getItem_zip hl]; exact pick_ok.2 (.inl ⟨k, rfl, List.getElem?_eq_getElem hz⟩)
    simp only [downLoop, hg, downLoop_eq hl k (by omega)]
    rw [List.take_add_one, List.getElem?_eq_getElem hz]
    simp

/-- **C84 (reversed: violation).** `reversed(obj)` starts at the sample whose number is the number of ports: with more samples than ports it
leaves out the last ones, with fewer it gives nothing at all. -/
theorem C84_reversed_violation {env : Env n} (hs : env.Sorts) {o : Obj n} {data} (h : Logged env o data) :
    (n ≤ data.length → ∃ l, asList o = .ok l ∧ asReversed o = (l.take n).reverse) ∧ (data.length < n → asReversed o = []) := by
  have hi := h.inv hs
  have hz : (o.fs.zip o.Ss).length = o.fs.length := by rw [List.length_zip, ← hi.len, min_self]
  have hd : data.length = o.fs.length := by rw [← hi.perm.length_eq, hz]
  have hp : len o = n := hi.ports
  constructor
  · intro hn
    exact ⟨_, asList_eq hi.len, by unfold asReversed; rw [hp, downLoop_eq hi.len n (by omega)]⟩
  · intro hn
    unfold asReversed
    rw [hp]
    obtain ⟨m, rfl⟩ : ∃ m, n = m + 1 := ⟨n - 1, by omega⟩
    have hg : getItem o (m : ℤ) = .error .indexError := by
      rw [getItem_zip hi.len]; exact pick_error.2 ⟨rfl, by omega⟩
    simp only [downLoop, hg]

/-- **C84 (assigning an item).** `obj[k] = f, S` with a matrix of the right size replaces element `k` of `list(obj)` and no other, and
`obj[k]` is then `(f, S)`; the names, the reference and the flags stay. -/
theorem C84_assign {o o' : Obj n} {k : ℤ} {f : ℝ} {S : Mat n} (hl : o.fs.length = o.Ss.length)
    (h : putItem o k f (.d2 n n S) = (o', .ok ())) :
    getItem o' k = .ok (f, S) ∧ (∃ l l', asList o = .ok l ∧ asList o' = .ok l' ∧ l'.length = l.length ∧
      ∀ j : ℕ, j < l.length → (k = j ∨ k = (j : ℤ) - l.length) ∧ l'[j]? = some (f, S) ∨
        (k ≠ j ∧ k ≠ (j : ℤ) - l.length) ∧ l'[j]? = l[j]?) ∧ o'.ports = o.ports ∧ o'.Zbase = o.Zbase := by
  unfold putItem at h
  rw [← hl] at h
  cases ha : axis o.fs.length k with
  | none => rw [ha] at h; cases (Prod.mk.inj h).2
  | some j =>
    have hj := axis_lt ha
    have he : spread n (.d2 n n S) = .ok S := by
      simp only [spread, spread2, and_self, dif_pos]; rfl
    simp only [ha, he] at h
    obtain ⟨rfl, -⟩ := Prod.mk.inj h
    have hl' : (o.fs.set j f).length = (o.Ss.set j S).length := by simpa using hl
    have hzz : (o.fs.set j f).zip (o.Ss.set j S) = (o.fs.zip o.Ss).set j (f, S) := by
      apply List.ext_getElem?
      intro i
      by_cases hi : i < o.fs.length
      · have hi2 : i < o.Ss.length := hl ▸ hi
        have h1 : (o.fs.zip o.Ss)[i]? = some (o.fs[i], o.Ss[i]) :=
          zip_at (List.getElem?_eq_getElem hi) (List.getElem?_eq_getElem hi2)
        by_cases hij : j = i
        · subst hij
          rw [zip_at (x := f) (y := S) (by simp [hi]) (by simp [hi2]), List.getElem?_set_self (by simp; omega)]
        · rw [zip_at (x := o.fs[i]) (y := o.Ss[i]) (by simp [hi, hij]) (by simp [hi2, hij]), List.getElem?_set_ne hij, h1]
      · rw [List.getElem?_eq_none (by simp; omega), List.getElem?_eq_none (by simp; omega)]
    refine ⟨?_, ⟨o.fs.zip o.Ss, (o.fs.zip o.Ss).set j (f, S), asList_eq hl, ?_, by simp, ?_⟩, rfl, rfl⟩
    · rw [getItem_zip (o := { o with fs := o.fs.set j f, Ss := o.Ss.set j S }) hl']
      dsimp only
      rw [hzz, pick_ok, axis_pyAt]
      have hz : (o.fs.zip o.Ss).length = o.fs.length := by rw [List.length_zip, ← hl, min_self]
      exact ⟨j, by simpa [hz, ← hl] using ha, List.getElem?_set_self (by simp; omega)⟩
    · rw [asList_eq (o := { o with fs := o.fs.set j f, Ss := o.Ss.set j S }) hl']
      dsimp only
      rw [hzz]
    · intro i hi
      have hz : (o.fs.zip o.Ss).length = o.fs.length := by rw [List.length_zip, ← hl, min_self]
      have hkj : k = j ∨ k = (j : ℤ) - o.fs.length := by
        unfold axis at ha
        split at ha
        · simp only [Option.some.injEq] at ha; omega
        · split at ha
          · simp only [Option.some.injEq] at ha; omega
          · cases ha
      rw [hz] at hi ⊢
      by_cases hij : j = i
      · subst hij
        exact .inl ⟨hkj, List.getElem?_set_self (by rw [hz]; exact hi)⟩
      · exact .inr ⟨⟨by omega, by omega⟩, List.getElem?_set_ne hij⟩

/-- **C84 (which assignments are accepted).** For a matrix of the right size: exactly the indices of `list(obj)`; otherwise IndexError and the
object is as it was. -/
theorem C84_assign_accepted {o : Obj n} {k : ℤ} {f : ℝ} {S : Mat n} (hl : o.fs.length = o.Ss.length) :
    ((-(o.fs.length : ℤ) ≤ k ∧ k < o.fs.length) → ∃ o', putItem o k f (.d2 n n S) = (o', .ok ())) ∧
    (¬ (-(o.fs.length : ℤ) ≤ k ∧ k < o.fs.length) → putItem o k f (.d2 n n S) = (o, .error .indexError)) := by
  have he : spread n (.d2 n n S) = .ok S := by
    simp only [spread, spread2, and_self, dif_pos]; rfl
  constructor
  · intro hk
    have : ¬ axis o.fs.length k = none := by rw [axis_none, not_not]; exact hk
    obtain ⟨j, hj⟩ := Option.ne_none_iff_exists'.1 this
    unfold putItem
    rw [← hl, hj]
    simp only [he]
    exact ⟨_, rfl⟩
  · intro hk
    unfold putItem
    rw [axis_none.2 hk]

/-- **C84 (refused assignment: violation).** `obj[k] = f, v` with a `v` that does not fit raises ValueError and leaves the new frequency with
the old matrix in the list. -/
theorem C84_assign_not_atomic {o : Obj n} {k : ℤ} {f : ℝ} {v : ND ℂ} (hl : o.fs.length = o.Ss.length) {f0 : ℝ} {S0 : Mat n}
    (hk : getItem o k = .ok (f0, S0)) {e : Err} (hv : spread n v = .error e) :
    ∃ o', putItem o k f v = (o', .error e) ∧ getItem o' k = .ok (f, S0) := by
  rw [getItem_zip hl, pick_ok, axis_pyAt] at hk
  obtain ⟨j, hj, hx⟩ := hk
  have hz : (o.fs.zip o.Ss).length = o.fs.length := by rw [List.length_zip, ← hl, min_self]
  rw [hz] at hj
  obtain ⟨h1, h2⟩ := List.getElem?_zip_eq_some.1 hx
  have hjl := axis_lt hj
  refine ⟨{ o with fs := o.fs.set j f }, ?_, ?_⟩
  · unfold putItem
    rw [← hl, hj]
    simp only [hv]
  · rw [getItem_zip (o := { o with fs := o.fs.set j f }) (by simpa using hl), pick_ok, axis_pyAt]
    refine ⟨j, ?_, zip_at (List.getElem?_set_self hjl) h2⟩
    simpa [← hl] using hj

theorem spread_fails {n : ℕ} {v : ND ℂ} : (∃ e, spread n v = .error e) ↔ ¬ ∃ S, spread n v = .ok S := by
  cases h : spread n v <;> simp

theorem spread2_iff {n p q : ℕ} {A : Matrix (Fin p) (Fin q) ℂ} {S : Mat n} : spread2 n p q A = .ok S ↔ Fills A S := by
  unfold spread2 Fills
  have z1 : ∀ (h : p = 1) (a : Fin p), a = ⟨0, by omega⟩ := fun h a => Fin.ext (show (a : ℕ) = 0 by omega)
  have z2 : ∀ (h : q = 1) (a : Fin q), a = ⟨0, by omega⟩ := fun h a => Fin.ext (show (a : ℕ) = 0 by omega)
  have c1 : ∀ (h : p = n) (a : Fin p) (i : Fin n), (a : ℕ) = i ∨ p = 1 → a = i.cast h.symm := fun h a i ha => Fin.ext (show (a : ℕ) = i by omega)
  have c2 : ∀ (h : q = n) (b : Fin q) (j : Fin n), (b : ℕ) = j ∨ q = 1 → b = j.cast h.symm := fun h b j hb => Fin.ext (show (b : ℕ) = j by omega)
  split
  · rename_i h
    rw [Except.ok.injEq]
    constructor
    · rintro rfl
      exact ⟨.inl h.1, .inl h.2, fun i j a b ha hb => by rw [c1 h.1 a i ha, c2 h.2 b j hb]; rfl⟩
    · rintro ⟨-, -, hf⟩
      ext i j
      exact (hf i j (i.cast h.1.symm) (j.cast h.2.symm) (.inl rfl) (.inl rfl)).symm
  · split
    · rename_i h
      rw [Except.ok.injEq]
      constructor
      · rintro rfl
        exact ⟨.inr h.1, .inl h.2, fun i j a b ha hb => by rw [z1 h.1 a, c2 h.2 b j hb]; rfl⟩
      · rintro ⟨-, -, hf⟩
        ext i j
        exact (hf i j ⟨0, by omega⟩ (j.cast h.2.symm) (.inr h.1) (.inl rfl)).symm
    · split
      · rename_i h
        rw [Except.ok.injEq]
        constructor
        · rintro rfl
          exact ⟨.inl h.1, .inr h.2, fun i j a b ha hb => by rw [c1 h.1 a i ha, z2 h.2 b]; rfl⟩
        · rintro ⟨-, -, hf⟩
          ext i j
          exact (hf i j (i.cast h.1.symm) ⟨0, by omega⟩ (.inl rfl) (.inr h.2)).symm
      · split
        · rename_i h
          rw [Except.ok.injEq]
          constructor
          · rintro rfl
            exact ⟨.inr h.1, .inr h.2, fun i j a b ha hb => by rw [z1 h.1 a, z2 h.2 b]; rfl⟩
          · rintro ⟨-, -, hf⟩
            ext i j
            exact (hf i j ⟨0, by omega⟩ ⟨0, by omega⟩ (.inr h.1) (.inr h.2)).symm
        · constructor
          · intro h; cases h
          · rintro ⟨h1, h2, -⟩
            omega

theorem spread_iff {n : ℕ} {v : ND ℂ} {S : Mat n} : spread n v = .ok S ↔ Broadcasts S v := by
  cases v with
  | d0 x =>
    simp only [spread, Except.ok.injEq, Broadcasts]
    exact ⟨fun h i j => by rw [← h]; rfl, fun h => by ext i j; exact (h i j).symm⟩
  | d1 xs =>
    simp only [spread, Broadcasts]
    split
    · rename_i h
      rw [Except.ok.injEq]
      constructor
      · rintro rfl
        refine .inl ⟨h, fun i j => ?_⟩
        simp [h]
      · rintro (⟨-, hf⟩ | ⟨x, rfl, hf⟩)
        · ext i j
          have := hf i j
          rw [List.getElem?_eq_some_iff] at this
          obtain ⟨_, this⟩ := this
          rw [← this]; rfl
        · ext i j
          rw [hf i j]
          simp
    · rename_i hne
      split
      · rename_i h
        rw [Except.ok.injEq]
        obtain ⟨x, rfl⟩ := List.length_eq_one_iff.1 h
        constructor
        · rintro rfl
          exact .inr ⟨x, rfl, fun i j => rfl⟩
        · rintro (⟨h2, -⟩ | ⟨y, hy, hf⟩)
          · exact absurd h2 hne
          · ext i j
            rw [hf i j]
            simpa using hy
      · rename_i h1
        constructor
        · intro h; cases h
        · rintro (⟨h2, -⟩ | ⟨y, rfl, hf⟩)
          · exact absurd h2 hne
          · exact absurd rfl h1
  | d2 p q A => exact spread2_iff
  | d3 p q As =>
    cases As with
    | nil => simp [spread, Broadcasts]
    | cons A As =>
      cases As with
      | nil => exact spread2_iff
      | cons B As => simp [spread, Broadcasts]
  | dn sh => simp [spread, Broadcasts]

/-- **C84 (what may be assigned).** `obj[k] = f, v` is accepted exactly if `k` is in range and some matrix is filled by `v` as numpy fills arrays; then the sample is
`(f, S)` with that matrix. -/
theorem C84_assign_any {o : Obj n} {k : ℤ} {f : ℝ} {v : ND ℂ} (hl : o.fs.length = o.Ss.length) (hk : -(o.fs.length : ℤ) ≤ k ∧ k < o.fs.length) (S : Mat n) :
    (Broadcasts S v ↔ ∃ o', putItem o k f v = (o', .ok ()) ∧ getItem o' k = .ok (f, S)) ∧
      ((∀ S : Mat n, ¬ Broadcasts S v) ↔ (putItem o k f v).2 = .error .valueError) := by
  have hax : axis o.fs.length k ≠ none := fun h => (axis_none.1 h) hk
  obtain ⟨o1, h1⟩ := (C84_assign_accepted (f := f) (S := S) hl).1 hk
  have hput : ∀ T, spread n v = .ok T → putItem o k f v = putItem o k f (.d2 n n T) := by
    intro T hT
    have e2 : spread n (.d2 n n T) = .ok T := by simp only [spread, spread2, and_self, dif_pos]; rfl
    unfold putItem
    rw [hT, e2]
  have herr : ∀ e, spread n v = .error e → (putItem o k f v).2 = .error e := by
    intro e he
    unfold putItem
    rw [← hl]
    cases hj : axis o.fs.length k with
    | none => exact absurd hj hax
    | some j => simp only [he]
  have hval : ∀ e, spread n v = .error e → e = .valueError := by
    intro e he
    cases v with
    | d0 x => cases he
    | d1 xs => simp only [spread] at he; split at he <;> [cases he; (split at he <;> [cases he; (injection he with he; exact he.symm)])]
    | d2 p q A => 
      simp only [spread, spread2] at he
      split at he
      · cases he
      · split at he
        · cases he
        · split at he
          · cases he
          · split at he
            · cases he
            · injection he with he; exact he.symm
    | d3 p q As =>
      cases As with
      | nil => simp only [spread] at he; injection he with he; exact he.symm
      | cons A As =>
        cases As with
        | nil =>
          simp only [spread, spread2] at he
          split at he
          · cases he
          · split at he
            · cases he
            · split at he
              · cases he
              · split at he
                · cases he
                · injection he with he; exact he.symm
        | cons B As => simp only [spread] at he; injection he with he; exact he.symm
    | dn sh => simp only [spread] at he; injection he with he; exact he.symm
  refine ⟨⟨fun h => ?_, ?_⟩, ⟨fun h => ?_, fun h T hT => ?_⟩⟩
  · rw [← spread_iff] at h
    rw [hput S h]
    exact ⟨o1, h1, (C84_assign hl h1).1⟩
  · rintro ⟨o', h2, h3⟩
    rw [← spread_iff]
    cases hv : spread n v with
    | error e =>
      have := herr e hv
      rw [h2] at this
      cases this
    | ok T =>
      rw [hput T hv] at h2
      have := (C84_assign hl h2).1
      rw [h3] at this
      injection this with this
      injection this with _ this
      rw [this]
  · cases hv : spread n v with
    | error e => rw [herr e hv, hval e hv]
    | ok T => exact absurd (spread_iff.1 hv) (h T)
  · rw [← spread_iff] at hT
    obtain ⟨o2, h2⟩ := (C84_assign_accepted (f := f) (S := T) hl).1 hk
    rw [hput T hT, h2] at h
    cases h

/-- **C84 (any number).** A number given instead of a matrix is accepted and fills the whole matrix. -/
theorem C84_assign_scalar {o : Obj n} {k : ℤ} {f : ℝ} {x : ℂ} (hl : o.fs.length = o.Ss.length)
    (hk : -(o.fs.length : ℤ) ≤ k ∧ k < o.fs.length) :
    putItem o k f (.d0 x) = putItem o k f (.d2 n n (Matrix.of fun _ _ => x)) ∧ (putItem o k f (.d0 x)).2 = .ok () := by
  obtain ⟨o', ho'⟩ := (C84_assign_accepted (f := f) (S := Matrix.of fun _ _ => x) hl).1 hk
  have : putItem o k f (.d0 x) = putItem o k f (.d2 n n (Matrix.of fun _ _ => x)) := by
    unfold putItem
    have e1 : spread n (.d0 x) = .ok (Matrix.of fun _ _ => x) := rfl
    have e2 : spread n (.d2 n n (Matrix.of fun _ _ => x)) = .ok (Matrix.of fun _ _ => x) := by
      simp only [spread, spread2, and_self, dif_pos]; rfl
    rw [e1, e2]
  exact ⟨this, by rw [this, ho']⟩

/-! ### the matrices handed out -/

/-- **C84 (matrices handed out are the stored ones: violation).** A matrix got by `obj[k]` or in the loop is a view: however many evaluations
of the object (whose samples are in order) come in between, writing an entry of it changes the sample of the object. -/
theorem C84_view_violation {env : Env n} {l : Live n} (ho : l.o.sorted = true) (hl : l.o.fs.length = l.o.Ss.length) {k : ℤ} {v : View}
    (hv : l.view k = .ok v) {f0 : ℝ} {S0 : Mat n} (hk : getItem l.o k = .ok (f0, S0)) (qs : List (ℝ × Option ℝ)) (i j : Fin n) (x : ℂ) :
    getItem ((qs.foldl (fun p q => p.getS env q.1 q.2) l).write v i j x).o k =
      .ok (f0, Matrix.of fun a b => if a = i ∧ b = j then x else S0 a b) := by
  have key : ∀ (qs : List (ℝ × Option ℝ)) (p : Live n), p.o.sorted = true →
      (qs.foldl (fun p q => p.getS env q.1 q.2) p).o.fs = p.o.fs ∧ (qs.foldl (fun p q => p.getS env q.1 q.2) p).o.Ss = p.o.Ss ∧
      (qs.foldl (fun p q => p.getS env q.1 q.2) p).gen = p.gen := by
    intro qs
    induction qs with
    | nil => intro p hp; exact ⟨rfl, rfl, rfl⟩
    | cons q qs ih =>
      intro p hp
      obtain ⟨h1, h2, h3⟩ := getS_leaves (env := env) (f := q.1) (Zb := q.2) (r := (getS env p.o q.1 q.2).2) hp rfl
      obtain ⟨g1, g2, g3⟩ := ih (p.getS env q.1 q.2) h3
      refine ⟨g1.trans h1, g2.trans h2, g3.trans ?_⟩
      simp [Live.getS, hp]
  obtain ⟨h1, h2, h3⟩ := key qs l ho
  generalize qs.foldl (fun p q => p.getS env q.1 q.2) l = p at h1 h2 h3 ⊢
  unfold Live.view at hv
  cases ha : axis l.o.Ss.length k with
  | none => simp [ha] at hv
  | some m =>
    simp only [ha, Except.ok.injEq] at hv
    subst hv
    have hm := axis_lt ha
    rw [getItem_zip hl, pick_ok, axis_pyAt] at hk
    obtain ⟨m', hm', hx⟩ := hk
    have hz : (l.o.fs.zip l.o.Ss).length = l.o.Ss.length := by rw [List.length_zip, hl, min_self]
    rw [hz, ha] at hm'
    obtain rfl := Option.some.inj hm'
    obtain ⟨x1, x2⟩ := List.getElem?_zip_eq_some.1 hx
    dsimp only at x1 x2
    unfold Live.write
    rw [if_pos h3.symm]
    have hlen : p.o.fs.length = (p.o.Ss.modify m fun S => S.updateRow i (Function.update (S i) j x)).length := by
      rw [h1, h2, List.length_modify, hl]
    rw [getItem_zip (o := { p.o with Ss := p.o.Ss.modify m fun S => S.updateRow i (Function.update (S i) j x) }) hlen, pick_ok, axis_pyAt]
    refine ⟨m, ?_, zip_at (by rw [h1]; exact x1) ?_⟩
    · dsimp only
      rw [List.length_zip, List.length_modify, h1, h2, hl, min_self]; exact ha
    · dsimp only
      rw [h2, List.getElem?_modify_eq, x2]
      refine congrArg some ?_
      ext a b
      by_cases ha : a = i
      · subst ha
        by_cases hb : b = j
        · subst hb; simp
        · simp [hb]
      · simp [ha]

/-- **C84 (matrices handed out, later).** After further data was stored, a matrix got before is the caller's own. -/
theorem C84_view_released {l : Live n} {k : ℤ} {v : View} (hv : l.view k = .ok v) {f : List ℝ} {S : ND ℂ} {names o'}
    (h : setS l.o f S names = (o', .ok ())) (i j : Fin n) (x : ℂ) : ((l.setS f S names).write v i j x).o = o' := by
  have hg : v.gen = l.gen := by
    unfold Live.view at hv
    split at hv
    · cases hv
    · simp only [Except.ok.injEq] at hv; rw [← hv]
  have e : l.setS f S names = ⟨o', l.gen + 1⟩ := by unfold Live.setS; rw [h]
  rw [e]
  unfold Live.write
  rw [if_neg (by rw [hg]; simp)]

end PyRFtk.RfObject

namespace PyRFtk.RfObject.Ex

/-- a 2-port with two samples: the loop, items from both ends, an assignment -/
theorem C84_witness : asList o2 = .ok [(1, !![1, 0; 0, 0]), (3, !![0, 1; 1, 0])] ∧ getItem o2 (-1) = .ok (3, !![0, 1; 1, 0]) ∧
    getItem o2 2 = .error .indexError ∧
    (forLoop (fun x p => (getS (env 2) p (x.1 + 1) none).1) o2).2 = .ok [(1, !![1, 0; 0, 0]), (3, !![0, 1; 1, 0])] := by
  refine ⟨asList_eq rfl, ?_, ?_, ?_⟩
  · rw [getItem_zip rfl]
    exact pick_ok.2 (.inr ⟨0, rfl, rfl⟩)
  · rw [getItem_zip rfl]
    exact pick_error.2 ⟨rfl, by simp [o2]⟩
  · exact C84_loop_evaluating (env_sorts 2) o2_logged rfl fun x => [(x.1 + 1, none)]

/-- the same 2-port with a third sample stored by `setS`: `len` is 2, and `reversed` begins with the second sample -/
theorem C84_len_witness : ∃ o, Logged (env 2) o [(1, !![1, 0; 0, 0]), (3, !![0, 1; 1, 0]), (4, !![0, 0; 0, 0])] ∧ len o = 2 ∧
    asReversed o = [(3, !![0, 1; 1, 0]), (1, !![1, 0; 0, 0])] := by
  have h := Logged.set1 (f := 4) (S := !![0, 0; 0, 0])
    (o' := { o2 with fs := [1, 3, 4], Ss := [!![1, 0; 0, 0], !![0, 1; 1, 0], !![0, 0; 0, 0]] }) o2_logged
    (by simp [setS, check3D, sortedAfter, new, castStack, o2]; norm_num)
  refine ⟨_, h, rfl, ?_⟩
  obtain ⟨l, h1, h2⟩ := (C84_reversed_violation (env_sorts 2) h).1 (by simp)
  have e := (asList_eq (o := { o2 with fs := [1, 3, 4], Ss := [!![1, 0; 0, 0], !![0, 1; 1, 0], !![0, 0; 0, 0]] }) rfl).symm.trans h1
  simp only [Except.ok.injEq] at e
  rw [h2, ← e]
  rfl

/-- an assignment that is accepted, and one that is refused but leaves its frequency -/
theorem C84_assign_witness : (∃ o', putItem o2 (-1) 7 (.d2 2 2 !![0, 0; 0, 0]) = (o', .ok ()) ∧ getItem o' 1 = .ok (7, !![0, 0; 0, 0])) ∧
    (∃ o', putItem o2 1 7 (.d2 3 3 (1 : Matrix (Fin 3) (Fin 3) ℂ)) = (o', .error .valueError) ∧ getItem o' 1 = .ok (7, !![0, 1; 1, 0])) := by
  constructor
  · have h : putItem o2 (-1) 7 (.d2 2 2 !![0, 0; 0, 0]) = ({ o2 with fs := [1, 7], Ss := [!![1, 0; 0, 0], !![0, 0; 0, 0]] }, .ok ()) := by
      have he : spread 2 (.d2 2 2 (!![0, 0; 0, 0] : Mat 2)) = .ok !![0, 0; 0, 0] := by
        simp only [spread, spread2, and_self, dif_pos]; rfl
      unfold putItem
      rw [he]
      rfl
    refine ⟨_, h, ?_⟩
    rw [getItem_zip rfl]
    exact pick_ok.2 (.inl ⟨1, rfl, rfl⟩)
  · refine C84_assign_not_atomic (f0 := 3) rfl ?_ (by simp [spread, spread2])
    rw [getItem_zip rfl]
    exact pick_ok.2 (.inl ⟨1, rfl, rfl⟩)

/-- a loop over data stored out of order that evaluates the object (and handles the IndexError): the sample at 1 is never seen, the one at 2
is seen twice -/
theorem C84_loop_violation : ∃ o, Logged (env 1) o [(2, !![0]), (1, !![1])] ∧
    (forLoop (fun _ p => (getS (env 1) p 3 none).1) o).2 = .ok [(2, !![0]), (2, !![0])] := by
  have h1 := Logged.set1 (f := 2) (S := !![0]) (o' := { (new ["a"] 50 : Obj 1) with fs := [2], Ss := [!![0]] })
    (Logged.new (env := env 1) ["a"] 50 rfl) (by simp [setS, check3D, sortedAfter, new, castStack])
  have h2 := Logged.set1 (f := 1) (S := !![1]) (o' := { (new ["a"] 50 : Obj 1) with fs := [2, 1], Ss := [!![0], !![1]], sorted := false })
    h1 (by simp [setS, check3D, sortedAfter, new, castStack])
  refine ⟨_, h2, ?_⟩
  have hsort : (env 1).argsort [2, 1] = [1, 0] := by
    simp [env, List.mergeSort, List.range, List.range.loop, List.MergeSort.Internal.splitInTwo]
  have hg : (getS (env 1) { (new ["a"] 50 : Obj 1) with fs := [2, 1], Ss := [!![0], !![1]], sorted := false } 3 none).1 =
      { (new ["a"] 50 : Obj 1) with fs := [1, 2], Ss := [!![1], !![0]], sorted := false } := by
    simp [getS, get1S, new, List.range, List.range.loop, interpolators, sortFs, hsort, take]
  unfold forLoop
  have e0 : getItem { (new ["a"] 50 : Obj 1) with fs := [2, 1], Ss := [!![0], !![1]], sorted := false } ((0 : ℕ) : ℤ) = .ok (2, !![0]) := by
    rw [getItem_zip rfl]; exact pick_ok.2 (.inl ⟨0, rfl, rfl⟩)
  have e1 : getItem { (new ["a"] 50 : Obj 1) with fs := [1, 2], Ss := [!![1], !![0]], sorted := false } ((1 : ℕ) : ℤ) = .ok (2, !![0]) := by
    rw [getItem_zip rfl]; exact pick_ok.2 (.inl ⟨1, rfl, rfl⟩)
  have er : List.range ([2, 1] : List ℝ).length = [0, 1] := rfl
  dsimp only
  rw [er]
  simp only [iterLoop, e0, hg, e1]

/-- a matrix handed out by the 2-port, changed after an evaluation -/
theorem C84_view_witness : ∃ v, (⟨o2, 0⟩ : Live 2).view 0 = .ok v ∧
    getItem ((((⟨o2, 0⟩ : Live 2).getS (env 2) 2 none)).write v 0 1 5).o 0 = .ok (1, !![1, 5; 0, 0]) := by
  refine ⟨⟨0, 0⟩, rfl, ?_⟩
  have := C84_view_violation (env := env 2) (l := ⟨o2, 0⟩) rfl rfl (k := 0) (v := ⟨0, 0⟩) rfl (f0 := 1) (S0 := !![1, 0; 0, 0])
    (by rw [getItem_zip rfl]; exact pick_ok.2 (.inl ⟨0, rfl, rfl⟩)) [(2, none)] 0 1 5
  refine this.trans ?_
  congr 2
  ext a b
  fin_cases a <;> fin_cases b <;> simp

end PyRFtk.RfObject.Ex
