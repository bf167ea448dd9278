import Verif.TouchstoneText

/-!
# Reading what the writers write: the data part and the header
-/

namespace PyRFtk.TSF

/-- the spacing uses blanks, and rows end without or with a newline -/
structure GoodLayout (L : Layout) : Prop where
  pre : ∀ c ∈ L.pre, c = ' '
  post : ∃ w, L.post = ' ' :: w ∧ ∀ c ∈ w, c = ' '
  lead : ∀ c ∈ L.lead, c = ' '
  rowEnd : ∀ kr, L.rowEnd kr = [] ∨ ∃ w, L.rowEnd kr = '\n' :: w ∧ ∀ c ∈ w, c = ' '

/-- the value of the printed token of a frequency (`f`), of the first (`a`) and of the second (`b`) number of a pair; minus infinity
is printed and read as such -/
structure Rounding where
  f : ℝ → ℝ
  a : ℝ → ℝ
  b : ℝ → ℝ

def Rounding.rf (r : Rounding) : Num → Num := Option.map r.f
def Rounding.r1 (r : Rounding) : Num → Num := Option.map r.a
def Rounding.r2 (r : Rounding) : Num → Num := Option.map r.b

/-- every number is printed as a token that `float` reads back as the rounded number -/
structure GoodPrintf (io : NumIO) (P : Printf) (r : Rounding) : Prop where
  freq : ∀ x, Prints io (P.freq x) (r.rf x)
  first : ∀ x, Prints io (P.first x) (r.r1 x)
  second : ∀ x, Prints io (P.second x) (r.r2 x)

/-- the numbers read back for a list of matrix elements -/
noncomputable def itemsOf (r : Rounding) (fmt : Fmt) (zs : List ℂ) : List Num :=
  zs.flatMap fun z => [r.r1 (encode fmt z).1, r.r2 (encode fmt z).2]

theorem digits_no_nl (n : ℕ) : '\n' ∉ (toString n).toList := by
  intro h
  have := Nat.isDigit_of_mem_toDigits (by norm_num) (by norm_num) (by simpa [Nat.toString_eq_ofList_toDigits] using h : '\n' ∈ Nat.toDigits 10 n)
  exact absurd this (by decide)

variable {io : NumIO} {P : Printf} {r : Rounding} {L : Layout} {isnt : ℕ → ℕ → Bool} {fmt : Fmt}

theorem Blk.elem (hP : GoodPrintf io P r) (hL : GoodLayout L) {T : Text} {st0 : RS} {all : List Num} {cur : Prop}
    (h : Blk io T st0 all cur) (z : ℂ) :
    Blk io (T ++ pairText P L fmt z) st0 (all ++ itemsOf r fmt [z]) True := by
  obtain ⟨w, hw, hb⟩ := hL.post
  have := ((h.blanks hL.pre).pair (hP.first (encode fmt z).1) (hP.second (encode fmt z).2)).blanks hb
  unfold pairText
  rw [hw]
  simpa [itemsOf] using this

theorem Blk.brk (hL : GoodLayout L) {T : Text} {st0 : RS} {all : List Num} (h : Blk io T st0 all True) (N kr kc : ℕ) :
    Blk io (T ++ TSF.brk isnt L N kr kc) st0 all False := by
  unfold TSF.brk
  split
  · split
    · have h1 := h.blanks (w := [' ']) (by simp)
      have h2 := h1.newline_comment (cm := "!    row ".toList ++ (toString (kr + 1)).toList) (by rfl) (by
        intro hm
        rcases List.mem_append.1 hm with hm | hm
        · exact absurd hm (by decide)
        · exact digits_no_nl _ hm)
      have h3 := (Blk.next h.1 h2).blanks hL.lead
      simpa using h3
    · have h2 := (Blk.next h.1 h.newline).blanks hL.lead
      simpa using h2
  · simpa using h.weaken

theorem itemsOf_cons (z : ℂ) (zs : List ℂ) : itemsOf r fmt (z :: zs) = itemsOf r fmt [z] ++ itemsOf r fmt zs := by
  simp [itemsOf]

theorem itemsOf_append (a b : List ℂ) : itemsOf r fmt (a ++ b) = itemsOf r fmt a ++ itemsOf r fmt b := by
  simp [itemsOf]

theorem Blk.row (hP : GoodPrintf io P r) (hL : GoodLayout L) {N kr : ℕ} {st0 : RS} (zs : List ℂ) :
    ∀ {T : Text} {all : List Num} {kc : ℕ}, Blk io T st0 all False →
    Blk io (T ++ rowText P isnt L fmt N kr kc zs) st0 (all ++ itemsOf r fmt zs) False := by
  induction zs with
  | nil => intro T all kc h; simpa [rowText, itemsOf] using h
  | cons z zs ih =>
    intro T all kc h
    have h1 := ih (kc := kc + 1) ((h.elem (fmt := fmt) hP hL z).brk (isnt := isnt) hL N kr kc)
    rw [rowText, itemsOf_cons]
    simpa using h1

theorem Blk.rows (hP : GoodPrintf io P r) (hL : GoodLayout L) {N : ℕ} {st0 : RS} (rs : List (List ℂ)) :
    ∀ {T : Text} {all : List Num} {kr : ℕ}, Blk io T st0 all False →
    Blk io (T ++ rowsText P isnt L fmt N kr rs) st0 (all ++ itemsOf r fmt rs.flatten) False := by
  induction rs with
  | nil => intro T all kr h; simpa [rowsText, itemsOf] using h
  | cons zs rs ih =>
    intro T all kr h
    have h1 := h.row (isnt := isnt) (fmt := fmt) (N := N) (kr := kr) (kc := 0) hP hL zs
    have h2 : Blk io (T ++ rowText P isnt L fmt N kr 0 zs ++ L.rowEnd kr) st0 (all ++ itemsOf r fmt zs) False := by
      rcases hL.rowEnd kr with h0 | ⟨w, h0, hb⟩
      · rw [h0]; simpa using h1
      · rw [h0]
        have := (Blk.next h1.1 h1.newline).blanks hb
        simpa using this
    have h3 := ih (kr := kr + 1) h2
    rw [rowsText, List.flatten_cons, itemsOf_append]
    simpa using h3

/-- the numbers of one block -/
noncomputable def blockItems (r : Rounding) (fmt : Fmt) {N : ℕ} (f : ℝ) (S : Matrix (Fin N) (Fin N) ℂ) : List Num :=
  r.rf (some f) :: itemsOf r fmt (rowsOf S).flatten

theorem Upto0.block (hP : GoodPrintf io P r) (hL : GoodLayout L) {T : Text} {st : RS} (h : Upto0 io T st) {N : ℕ} (f : ℝ)
    (S : Matrix (Fin N) (Fin N) ℂ) :
    Upto0 io (T ++ blockText P isnt L fmt (some f) S) (feed st (blockItems r fmt f S)) := by
  have h1 := h.upto.token (hP.freq (some f)) (c := ' ') rfl
  have h2 : Blk io (T ++ (P.freq (some f) ++ [' '])) st [r.rf (some f)] False :=
    ⟨rfl, st, _, h1, False.elim, Or.inl ⟨rfl, rfl⟩⟩
  have h3 := (h2.rows (isnt := isnt) (fmt := fmt) (N := N) (kr := 0) hP hL (rowsOf S)).newline
  unfold blockText blockItems
  simpa using h3

theorem Upto0.data (hP : GoodPrintf io P r) (hL : GoodLayout L) {N : ℕ} (l : List (ℝ × Matrix (Fin N) (Fin N) ℂ)) :
    ∀ {T : Text} {st : RS}, Upto0 io T st →
    Upto0 io (T ++ dataText P isnt L fmt l) (l.foldl (fun st x => feed st (blockItems r fmt x.1 x.2)) st) := by
  induction l with
  | nil => intro T st h; simpa [dataText] using h
  | cons x l ih =>
    intro T st h
    have h1 := ih (h.block (isnt := isnt) (fmt := fmt) hP hL x.1 x.2)
    simpa [dataText] using h1

/-! ## the state after the data -/

theorem itemsOf_length (zs : List ℂ) : (itemsOf r fmt zs).length = 2 * zs.length := by
  induction zs with
  | nil => rfl
  | cons z zs ih => rw [itemsOf_cons, List.length_append, ih]; simp [itemsOf]; ring

theorem pairs_itemsOf (zs : List ℂ) : pairs (itemsOf r fmt zs) = zs.map fun z => (r.r1 (encode fmt z).1, r.r2 (encode fmt z).2) := by
  induction zs with
  | nil => rfl
  | cons z zs ih =>
    rw [itemsOf_cons]
    show pairs (r.r1 (encode fmt z).1 :: r.r2 (encode fmt z).2 :: itemsOf r fmt zs) = _
    rw [pairs, ih, List.map_cons]

theorem feed_block (st : RS) {N : ℕ} (f : ℝ) (S : Matrix (Fin N) (Fin N) ℂ) :
    feed st (blockItems r fmt f S) = { st with
      Ss := if st.coefs ≠ [] then st.Ss ++ [st.coefs] else st.Ss
      fs := st.fs ++ [r.rf (some f)]
      coefs := (rowsOf S).flatten.map fun z => (r.r1 (encode fmt z).1, r.r2 (encode fmt z).2)
      comments := if st.marker = 0 then st.comments ++ [markerText] else st.comments
      marker := if st.marker = 0 then st.comments.length + 1 else st.marker } := by
  have hl : (blockItems r fmt f S).length % 2 = 1 := by
    unfold blockItems
    rw [List.length_cons, itemsOf_length]; omega
  unfold feed
  unfold blockItems at *
  simp only [if_pos hl, pairs_itemsOf]
  split <;> rfl

/-- the coefficients of a block -/
noncomputable def coefsOf (r : Rounding) (fmt : Fmt) {N : ℕ} (S : Matrix (Fin N) (Fin N) ℂ) : List (Num × Num) :=
  (rowsOf S).flatten.map fun z => (r.r1 (encode fmt z).1, r.r2 (encode fmt z).2)

theorem rowsOf_length {N : ℕ} (S : Matrix (Fin N) (Fin N) ℂ) : (rowsOf S).flatten.length = N * N := by
  simp [rowsOf, List.length_flatten, Function.comp_def]

theorem coefsOf_length {N : ℕ} (S : Matrix (Fin N) (Fin N) ℂ) : (coefsOf r fmt S).length = N * N := by
  rw [coefsOf, List.length_map, rowsOf_length]

theorem coefsOf_ne {N : ℕ} (hN : 0 < N) (S : Matrix (Fin N) (Fin N) ℂ) : coefsOf r fmt S ≠ [] := by
  intro h
  have := coefsOf_length (r := r) (fmt := fmt) S
  rw [h] at this
  have := Nat.mul_pos hN hN
  simp_all

/-- all blocks, from a state without data -/
theorem foldl_feed {N : ℕ} (hN : 0 < N) (x : ℝ × Matrix (Fin N) (Fin N) ℂ) (l : List (ℝ × Matrix (Fin N) (Fin N) ℂ)) (st : RS)
    (hm : st.marker = 0) (hc : st.coefs = []) (hS : st.Ss = []) (hf : st.fs = []) :
    ∃ st', (x :: l).foldl (fun st x => feed st (blockItems r fmt x.1 x.2)) st = st' ∧
      st'.comments = st.comments ++ [markerText] ∧ st'.marker = st.comments.length + 1 ∧ st'.tformat = st.tformat ∧
      st'.fs = (x :: l).map (fun x => r.rf (some x.1)) ∧
      st'.Ss ++ [st'.coefs] = (x :: l).map (fun x => coefsOf r fmt x.2) := by
  have gen : ∀ (l : List (ℝ × Matrix (Fin N) (Fin N) ℂ)) (st : RS), st.marker ≠ 0 → st.coefs ≠ [] →
      ∃ st', l.foldl (fun st x => feed st (blockItems r fmt x.1 x.2)) st = st' ∧
      st'.comments = st.comments ∧ st'.marker = st.marker ∧ st'.tformat = st.tformat ∧
      st'.fs = st.fs ++ l.map (fun x => r.rf (some x.1)) ∧
      st'.Ss ++ [st'.coefs] = (st.Ss ++ [st.coefs]) ++ l.map (fun x => coefsOf r fmt x.2) := by
    intro l
    induction l with
    | nil => intro st _ _; exact ⟨st, rfl, rfl, rfl, rfl, by simp, by simp⟩
    | cons y l ih =>
      intro st h1 h2
      obtain ⟨st', e1, e2, e3, e4, e5, e6⟩ := ih (feed st (blockItems r fmt y.1 y.2)) (feed_marker _ _) (by
        rw [feed_block]; exact coefsOf_ne hN _)
      refine ⟨st', e1, ?_, ?_, ?_, ?_, ?_⟩
      · rw [e2, feed_block]; simp [h1]
      · rw [e3, feed_block]; simp [h1]
      · rw [e4, feed_block]
      · rw [e5, feed_block]; simp
      · rw [e6, feed_block]; simp [h2, coefsOf]
  obtain ⟨st', e1, e2, e3, e4, e5, e6⟩ := gen l (feed st (blockItems r fmt x.1 x.2)) (feed_marker _ _) (by
    rw [feed_block]; exact coefsOf_ne hN _)
  refine ⟨st', by rw [List.foldl_cons, e1], ?_, ?_, ?_, ?_, ?_⟩
  · rw [e2, feed_block]; simp [hm]
  · rw [e3, feed_block]; simp [hm]
  · rw [e4, feed_block]
  · rw [e5, feed_block]; simp [hf]
  · rw [e6, feed_block]; simp [hc, hS, coefsOf]

/-! ## reshaping -/

theorem nearSqrt_sq (N : ℕ) : nearSqrt (N * N) = N := by
  unfold nearSqrt
  rw [Nat.sqrt_eq]
  simp

theorem reshape_ok {N : ℕ} {l : List (ℝ × Matrix (Fin N) (Fin N) ℂ)} (hl : l ≠ []) {st : RS}
    (hf : st.fs = l.map (fun x => r.rf (some x.1))) (hS : st.Ss ++ [st.coefs] = l.map (fun x => coefsOf r fmt x.2)) :
    reshape st = .ok (N, (l.map (fun x => coefsOf r fmt x.2)).flatten) := by
  have hlen : ((st.Ss ++ [st.coefs]).head?.getD []).length = N * N := by
    rw [hS]
    cases l with
    | nil => exact absurd rfl hl
    | cons x l => simp [coefsOf_length]
  unfold reshape
  simp only [hlen, nearSqrt_sq]
  rw [hS, if_neg, if_neg]
  · simp [hf]
  · simp [coefsOf_length]

theorem getD_flatten_rows {α : Type} {N : ℕ} (d : α) : ∀ (rows : List (List α)), (∀ row ∈ rows, row.length = N) →
    ∀ (i j : ℕ), j < N → rows.flatten.getD (i * N + j) d = (rows.getD i []).getD j d := by
  intro rows
  induction rows with
  | nil => intro _ i j _; simp
  | cons row rows ih =>
    intro h i j hj
    have hr := h row (by simp)
    cases i with
    | zero =>
      simp only [Nat.zero_mul, Nat.zero_add, List.flatten_cons, List.getD_eq_getElem?_getD]
      rw [List.getElem?_append_left (by omega)]
      simp
    | succ i =>
      have hh : (i + 1) * N + j = row.length + (i * N + j) := by rw [hr]; ring
      rw [List.flatten_cons, List.getD_eq_getElem?_getD, hh, List.getElem?_append_right (by omega), Nat.add_sub_cancel_left,
        ← List.getD_eq_getElem?_getD, ih (fun x hx => h x (by simp [hx])) i j hj]
      simp

theorem matOf_rows {N : ℕ} (S : Matrix (Fin N) (Fin N) ℂ) : matOf N (rowsOf S).flatten = S := by
  ext i j
  unfold matOf
  rw [getD_flatten_rows 0 (rowsOf S) (by simp [rowsOf]) i.1 j.1 j.2]
  simp [rowsOf, List.getD_eq_getElem?_getD]

theorem drop_flatten_getD {α : Type} {M : ℕ} (d : α) (ls : List (List α)) (h : ∀ l ∈ ls, l.length = M) (k : ℕ) (n : ℕ) (hn : n < M) :
    (ls.flatten.drop (k * M)).getD n d = (ls.getD k []).getD n d := by
  rw [← getD_flatten_rows d ls h k n hn, List.getD_eq_getElem?_getD, List.getElem?_drop, ← List.getD_eq_getElem?_getD]

theorem stackOf_flatten {N : ℕ} (ls : List (List ℂ)) (h : ∀ l ∈ ls, l.length = N * N) :
    stackOf ls.length N ls.flatten = ls.map (matOf N) := by
  unfold stackOf
  apply List.ext_getElem
  · simp
  · intro k h1 h2
    simp only [List.getElem_map, List.getElem_range]
    ext i j
    unfold matOf
    have hk : k < ls.length := by simpa using h1
    have hn : i.1 * N + j.1 < N * N := by
      have hi := i.2
      have hj := j.2
      calc i.1 * N + j.1 < i.1 * N + N := by omega
        _ = (i.1 + 1) * N := by ring
        _ ≤ N * N := Nat.mul_le_mul_right _ hi
    rw [drop_flatten_getD 0 ls h k _ hn]
    rw [List.getD_eq_getElem?_getD (l := ls), List.getElem?_eq_getElem hk]
    rfl

end PyRFtk.TSF
