import Verif.Touchstone

/-!
# Reading Touchstone text line by line: lemmas
-/

namespace PyRFtk.TSF

theorem pieces_ne (p : Char → Bool) (l : Text) : pieces p l ≠ [] := by
  induction l with
  | nil => simp [pieces]
  | cons c l ih =>
    rw [pieces]
    split
    · simp
    · split <;> simp

theorem strLines_eq (l : Text) : Misc.strLines l = pieces (fun c => c = '\n') l := by
  induction l with
  | nil => rfl
  | cons c l ih =>
    rw [Misc.strLines, pieces, ih]
    by_cases hc : c = '\n'
    · simp [hc]
    · simp only [hc, if_false, decide_false, Bool.false_eq_true]
      cases pieces (fun c => decide (c = '\n')) l <;> rfl

theorem pieces_append_sep {p : Char → Bool} {s : Char} (hs : p s = true) (a b : Text) :
    pieces p (a ++ s :: b) = pieces p a ++ pieces p b := by
  induction a with
  | nil => simp [pieces, hs]
  | cons c a ih =>
    rw [List.cons_append, pieces, pieces, ih]
    by_cases hc : p c = true
    · simp [hc]
    · simp only [hc]
      cases h : pieces p a with
      | nil => exact absurd h (pieces_ne p a)
      | cons x xs => simp

theorem pieces_of_none {p : Char → Bool} {a : Text} (h : ∀ c ∈ a, p c = false) : pieces p a = [a] := by
  induction a with
  | nil => rfl
  | cons c a ih =>
    rw [pieces, ih (fun d hd => h d (by simp [hd])), h c (by simp)]
    simp

theorem pieces_snoc {p : Char → Bool} {x : Text} (hx : ∀ c ∈ x, p c = false) :
    ∀ {a : Text} {ls : List Text} {q : Text}, pieces p a = ls ++ [q] → pieces p (a ++ x) = ls ++ [q ++ x] := by
  intro a
  induction a with
  | nil =>
    intro ls q h
    have h2 : ls = [] ∧ q = [] := by
      cases ls with
      | nil => simpa [pieces, eq_comm] using h
      | cons l ls => simp [pieces] at h
    obtain ⟨rfl, rfl⟩ := h2
    simpa using pieces_of_none hx
  | cons c a ih =>
    intro ls q h
    rw [pieces] at h
    rw [List.cons_append, pieces]
    by_cases hc : p c = true
    · rw [if_pos hc] at h ⊢
      cases ls with
      | nil =>
        simp only [List.nil_append, List.cons.injEq] at h
        exact absurd h.2 (pieces_ne p a)
      | cons l ls =>
        simp only [List.cons_append, List.cons.injEq] at h
        rw [ih h.2, h.1]
        rfl
    · rw [if_neg hc] at h ⊢
      cases hp : pieces p a with
      | nil => exact absurd hp (pieces_ne p a)
      | cons y ys =>
        rw [hp] at h
        simp only at h
        rcases List.eq_nil_or_concat ys with rfl | ⟨zs, z, rfl⟩
        · have h2 : ls = [] ∧ q = c :: y := by
            cases ls with
            | nil => simpa [eq_comm] using h
            | cons l ls => simp at h
          obtain ⟨rfl, rfl⟩ := h2
          have := ih (ls := []) (q := y) (by simpa using hp)
          rw [this]
          rfl
        · have h2 : ls = (c :: y) :: zs ∧ q = z := by
            have : ((c :: y) :: zs) ++ [z] = ls ++ [q] := by simpa using h
            have := List.append_inj' this rfl
            exact ⟨this.1.symm, by simpa using this.2.symm⟩
          obtain ⟨rfl, rfl⟩ := h2
          have := ih (ls := y :: zs) (q := q) (by simpa using hp)
          rw [this]
          rfl

/-! ## words -/

theorem words_append_ws {c : Char} (hc : isWs c = true) (a b : Text) : words (a ++ c :: b) = words a ++ words b := by
  simp [words, pieces_append_sep hc]

theorem words_nil : words [] = [] := by simp [words, pieces]

theorem words_cons_ws {c : Char} (hc : isWs c = true) (b : Text) : words (c :: b) = words b := by
  have := words_append_ws hc [] b
  simpa [words_nil] using this

theorem words_ws {w : Text} (h : ∀ c ∈ w, isWs c = true) : words w = [] := by
  induction w with
  | nil => exact words_nil
  | cons c w ih => rw [words_cons_ws (h c (by simp)), ih fun d hd => h d (by simp [hd])]

theorem words_ws_append {w : Text} (h : ∀ c ∈ w, isWs c = true) (b : Text) : words (w ++ b) = words b := by
  induction w with
  | nil => rfl
  | cons c w ih => rw [List.cons_append, words_cons_ws (h c (by simp)), ih fun d hd => h d (by simp [hd])]

theorem words_append_wss {w : Text} (h : ∀ c ∈ w, isWs c = true) (a : Text) : words (a ++ w) = words a := by
  cases w with
  | nil => simp
  | cons c w =>
    have : words w = [] := words_ws fun d hd => h d (by simp [hd])
    rw [words_append_ws (h c (by simp)), this, List.append_nil]

theorem words_token {t : Text} (hne : t ≠ []) (h : ∀ c ∈ t, isWs c = false) : words t = [t] := by
  simp [words, pieces_of_none h, hne]

/-- a text that is empty or ends with a blank -/
def EndsWs (p : Text) : Prop := p = [] ∨ ∃ q c, p = q ++ [c] ∧ isWs c = true

theorem words_append_of_endsWs {p : Text} (hp : EndsWs p) (x : Text) : words (p ++ x) = words p ++ words x := by
  rcases hp with rfl | ⟨q, c, rfl, hc⟩
  · simp [words_nil]
  · rw [List.append_assoc, List.singleton_append, words_append_ws hc, words_append_ws hc, words_nil, List.append_nil]

/-! ## strip and the comment part of a line -/

theorem words_dropWhile (l : Text) : words (l.dropWhile isWs) = words l := by
  induction l with
  | nil => rfl
  | cons c l ih =>
    by_cases hc : isWs c = true
    · rw [List.dropWhile_cons_of_pos hc, ih, words_cons_ws hc]
    · rw [List.dropWhile_cons_of_neg hc]

theorem rdropWhile_split (l : Text) : ∃ w, (∀ c ∈ w, isWs c = true) ∧ l = l.rdropWhile isWs ++ w := by
  induction l using List.reverseRecOn with
  | nil => exact ⟨[], by simp, by simp⟩
  | append_singleton l c ih =>
    by_cases hc : isWs c = true
    · obtain ⟨w, hw, h⟩ := ih
      refine ⟨w ++ [c], ?_, ?_⟩
      · intro d hd
        rcases List.mem_append.1 hd with hd | hd
        · exact hw d hd
        · simp at hd; subst hd; exact hc
      · rw [List.rdropWhile_concat_pos _ _ _ hc, ← List.append_assoc, ← h]
    · exact ⟨[], by simp, by rw [List.rdropWhile_concat_neg _ _ _ hc, List.append_nil]⟩

theorem not_bang_of_ws {c : Char} (h : isWs c = true) : c ≠ '!' := by
  rintro rfl
  exact absurd h (by decide)

theorem takeWhile_append_of_not_mem {p c : Text} (hp : '!' ∉ p) (hc : c = [] ∨ c.head? = some '!') : beforeBang (p ++ c) = p := by
  unfold beforeBang
  rw [List.takeWhile_append_of_pos (by
    intro a ha
    have : a ≠ '!' := by rintro rfl; exact hp ha
    simpa using this)]
  rcases hc with rfl | hc
  · simp
  · cases c with
    | nil => simp
    | cons d c => simp at hc; subst hc; simp

/-- what `strip` leaves of a line made of numbers and possibly a comment -/
theorem strip_data {p c : Text} (hp : '!' ∉ p) (hc : c = [] ∨ c.head? = some '!') {t : Text} {ts : List Text}
    (hw : words p = t :: ts) :
    ∃ p' c', strip (p ++ c) = p' ++ c' ∧ '!' ∉ p' ∧ (c' = [] ∨ c'.head? = some '!') ∧ words p' = words p ∧
      p'.head? = (p.dropWhile isWs).head? ∧ p' ≠ [] := by
  have hne : p.dropWhile isWs ≠ [] := by
    intro h
    have := words_dropWhile p
    rw [h, words_nil, hw] at this
    cases this
  have hd : (p ++ c).dropWhile isWs = p.dropWhile isWs ++ c := by
    clear hw hp hc
    induction p with
    | nil => exact absurd rfl hne
    | cons a p ih =>
      by_cases ha : isWs a = true
      · rw [List.cons_append, List.dropWhile_cons_of_pos ha, List.dropWhile_cons_of_pos ha]
        rw [List.dropWhile_cons_of_pos ha] at hne
        exact ih hne
      · rw [List.cons_append, List.dropWhile_cons_of_neg ha, List.dropWhile_cons_of_neg ha, List.cons_append]
  have hsub : '!' ∉ p.dropWhile isWs := fun h => hp ((List.dropWhile_sublist _).subset h)
  have hs : strip (p ++ c) = (p.dropWhile isWs ++ c).rdropWhile isWs := by rw [strip, hd]
  rcases hc with rfl | hc
  · rw [List.append_nil] at hs
    obtain ⟨w, hw', hsplit⟩ := rdropWhile_split (p.dropWhile isWs)
    refine ⟨(p.dropWhile isWs).rdropWhile isWs, [], by simpa using hs, ?_, Or.inl rfl, ?_, ?_, ?_⟩
    · intro h
      exact hsub (by rw [hsplit]; simp [h])
    · conv_rhs => rw [← words_dropWhile p, hsplit, words_append_wss hw']
    · rcases hq : (p.dropWhile isWs).rdropWhile isWs with _ | ⟨x, xs⟩
      · rw [hq] at hsplit
        exfalso
        have := words_dropWhile p
        rw [hsplit, List.nil_append, words_ws hw', hw] at this
        cases this
      · conv_rhs => rw [hsplit, hq]
        rfl
    · intro h0
      rw [h0] at hsplit
      have := words_dropWhile p
      rw [hsplit, List.nil_append, words_ws hw', hw] at this
      cases this
  · cases c with
    | nil => simp at hc
    | cons d c =>
      simp at hc
      subst hc
      obtain ⟨w, hw', hsplit⟩ := rdropWhile_split ('!' :: c)
      have hne2 : ('!' :: c).rdropWhile isWs ≠ [] := by
        intro h
        rw [h] at hsplit
        have : isWs '!' = true := hw' _ (by rw [← List.nil_append w, ← hsplit]; simp)
        exact absurd this (by decide)
      refine ⟨p.dropWhile isWs, ('!' :: c).rdropWhile isWs, ?_, hsub, Or.inr ?_, words_dropWhile p, rfl, hne⟩
      · rw [hs]
        have key : ∀ w : Text, (∀ x ∈ w, isWs x = true) → ∀ q : Text, q.rdropWhile isWs = q → (q ++ w).rdropWhile isWs = q := by
          intro w
          induction w using List.reverseRecOn with
          | nil => intro _ q hq; simpa using hq
          | append_singleton w x ih =>
            intro hw q hq
            rw [← List.append_assoc, List.rdropWhile_concat_pos _ _ _ (hw x (by simp))]
            exact ih (fun y hy => hw y (by simp [hy])) q hq
        have hidem : (p.dropWhile isWs ++ ('!' :: c).rdropWhile isWs).rdropWhile isWs =
            p.dropWhile isWs ++ ('!' :: c).rdropWhile isWs := by
          rcases List.eq_nil_or_concat (('!' :: c).rdropWhile isWs) with h | ⟨ys, y, h⟩
          · exact absurd h hne2
          · have hy : ¬ isWs y = true := by
              have := List.rdropWhile_last_not isWs ('!' :: c) hne2
              simpa [h] using this
            rw [h, List.concat_eq_append, ← List.append_assoc, List.rdropWhile_concat_neg _ _ _ hy]
        conv_lhs => rw [hsplit, ← List.append_assoc]
        exact key w hw' _ hidem
      · cases h : ('!' :: c).rdropWhile isWs with
        | nil => exact absurd h hne2
        | cons x xs =>
          rw [h] at hsplit
          rw [List.cons_append] at hsplit
          injection hsplit with h1 h2
          simp [← h1]

theorem strip_blank {p : Text} (h : words p = []) : strip p = [] := by
  have : p.dropWhile isWs = [] := by
    cases hd : p.dropWhile isWs with
    | nil => rfl
    | cons c q =>
      exfalso
      have h1 := words_dropWhile p
      rw [hd, h] at h1
      have hc : isWs c = false := by
        have := List.head_dropWhile_not isWs (l := p) (by rw [hd]; simp)
        simpa [hd] using this
      unfold words at h1
      rw [pieces, hc] at h1
      simp only [Bool.false_eq_true, if_false] at h1
      cases hp : pieces isWs q with
      | nil => exact absurd hp (pieces_ne _ _)
      | cons y ys => rw [hp] at h1; simp at h1
  rw [strip, this]
  rfl

/-! ## one line -/

/-- the first word starts at the first non-blank -/
theorem head_of_words {p t : Text} {ts : List Text} (hw : words p = t :: ts) : (p.dropWhile isWs).head? = t.head? := by
  have h1 := words_dropWhile p
  rw [hw] at h1
  cases hd : p.dropWhile isWs with
  | nil => rw [hd, words_nil] at h1; cases h1
  | cons c q =>
    rw [hd] at h1
    have hc : isWs c = false := by
      have := List.head_dropWhile_not isWs (l := p) (by rw [hd]; simp)
      simpa [hd] using this
    unfold words at h1
    rw [pieces, hc] at h1
    simp only [Bool.false_eq_true, if_false] at h1
    cases hp : pieces isWs q with
    | nil => exact absurd hp (pieces_ne _ _)
    | cons y ys =>
      rw [hp] at h1
      simp only [ne_eq, decide_not, List.filter_cons, reduceCtorEq, decide_false, Bool.not_false, if_true, List.cons.injEq] at h1
      rw [← h1.1]
      rfl

theorem words_no_ws {p t : Text} (h : t ∈ words p) : t ≠ [] := by
  unfold words at h
  simpa using (List.mem_filter.1 h).2

theorem mem_pieces {p : Char → Bool} {l t : Text} {c : Char} (ht : t ∈ pieces p l) (hc : c ∈ t) : c ∈ l := by
  induction l generalizing t with
  | nil => simp [pieces] at ht; subst ht; exact hc
  | cons d l ih =>
    rw [pieces] at ht
    split at ht
    · rcases List.mem_cons.1 ht with rfl | ht
      · cases hc
      · exact List.mem_cons_of_mem _ (ih ht hc)
    · split at ht
      · simp at ht; subst ht; simp at hc; simp [hc]
      · rename_i x xs hx
        rcases List.mem_cons.1 ht with rfl | ht
        · rcases List.mem_cons.1 hc with rfl | hc
          · simp
          · exact List.mem_cons_of_mem _ (ih (by rw [hx]; simp) hc)
        · exact List.mem_cons_of_mem _ (ih (by rw [hx]; simp [ht]) hc)

theorem mem_words {l t : Text} {c : Char} (ht : t ∈ words l) (hc : c ∈ t) : c ∈ l :=
  mem_pieces (List.mem_filter.1 ht).1 hc

theorem readLine_data {io : NumIO} {st : RS} {p c : Text} (hp : '!' ∉ p) (hc : c = [] ∨ c.head? = some '!')
    {items : List Num} (hi : mapE io.get (words p) = .ok items) (hne : words p ≠ [])
    (hh : ∀ t ∈ words p, t.head? ≠ some '#') : readLine io st (p ++ c) = .ok (feed st items) := by
  cases hw : words p with
  | nil => exact absurd hw hne
  | cons t ts =>
    obtain ⟨p', c', hs, hp', hc', hw', hhd, hne'⟩ := strip_data hp hc hw
    have hb := takeWhile_append_of_not_mem hp' hc'
    have hhd' : p'.head? = t.head? := hhd.trans (head_of_words hw)
    unfold readLine
    rw [hs]
    cases p' with
    | nil => exact absurd rfl hne'
    | cons x xs =>
      have hx1 : x ≠ '!' := by rintro rfl; exact hp' (by simp)
      have hx2 : x ≠ '#' := by
        rintro rfl
        refine hh t (by simp [hw]) ?_
        rw [← hhd']
        rfl
      rw [List.cons_append]
      split
      · rename_i h; cases h
      · rename_i l h; injection h with h1 h2; exact absurd h1 hx1
      · rename_i l h; injection h with h1 h2; exact absurd h1 hx2
      · rw [← List.cons_append, hb, hw', hi]

theorem readLine_blank {io : NumIO} {st : RS} {p : Text} (h : words p = []) : readLine io st p = .ok st := by
  unfold readLine
  rw [strip_blank h]

/-! ## feeding items -/

theorem pairs_append : ∀ (a b : List Num), a.length % 2 = 0 → pairs (a ++ b) = pairs a ++ pairs b
  | [], b, _ => rfl
  | [x], b, h => by simp at h
  | x :: y :: r, b, h => by
    have h' : r.length % 2 = 0 := by simp only [List.length_cons] at h; omega
    rw [List.cons_append, List.cons_append, pairs, pairs, pairs_append r b h', List.cons_append]

theorem feed_marker (st : RS) (a : List Num) : (feed st a).marker ≠ 0 := by
  unfold feed
  by_cases h : st.marker = 0
  · simp [h]
  · rw [if_neg h]
    cases a with
    | nil => exact h
    | cons f r => dsimp only; split <;> exact h

/-- continuation lines: an even number of items on a later line counts as if it stood on the first -/
theorem feed_feed (st : RS) (a b : List Num) (ha : a ≠ []) (hb : b.length % 2 = 0) (hb0 : b ≠ []) :
    feed (feed st a) b = feed st (a ++ b) := by
  cases a with
  | nil => exact absurd rfl ha
  | cons f r =>
    cases b with
    | nil => exact absurd rfl hb0
    | cons x y =>
      have hm := feed_marker st (f :: r)
      have hbl : ¬ (x :: y).length % 2 = 1 := by omega
      have step : feed (feed st (f :: r)) (x :: y) = { feed st (f :: r) with coefs := (feed st (f :: r)).coefs ++ pairs (x :: y) } := by
        rw [feed.eq_def (feed st (f :: r))]
        simp only [if_neg hm, if_neg hbl]
      rw [step]
      have hl : (f :: r ++ x :: y).length = (f :: r).length + (x :: y).length := by rw [List.length_append]
      by_cases hodd : (f :: r).length % 2 = 1
      · have hodd2 : (f :: r ++ x :: y).length % 2 = 1 := by omega
        have hr : r.length % 2 = 0 := by simp only [List.length_cons] at hodd; omega
        unfold feed
        rw [List.cons_append] at *
        simp only [if_pos hodd, if_pos hodd2, pairs_append r _ hr]
        split <;> rfl
      · have hodd2 : ¬ (f :: r ++ x :: y).length % 2 = 1 := by omega
        have hr : (f :: r).length % 2 = 0 := by omega
        unfold feed
        have hp : pairs (f :: (r ++ x :: y)) = pairs (f :: r) ++ pairs (x :: y) := by
          rw [← List.cons_append, pairs_append (f :: r) _ hr]
        rw [List.cons_append] at *
        simp only [if_neg hodd, if_neg hodd2, hp]
        split <;> simp

/-! ## reading a text up to a point -/

theorem readLines_append {io : NumIO} {st : RS} {a b : List Text} : readLines io st (a ++ b) =
    match readLines io st a with
    | .error e => .error e
    | .ok st1 => readLines io st1 b := by
  induction a generalizing st with
  | nil => rfl
  | cons l a ih =>
    rw [List.cons_append, readLines, readLines]
    cases h : readLine io st l with
    | error e => rfl
    | ok st1 => exact ih

/-- the text ends at the beginning of a line; reading it gives `st` -/
def Upto0 (io : NumIO) (T : Text) (st : RS) : Prop :=
  ∃ ls, pieces (fun c => c = '\n') T = ls ++ [[]] ∧ readLines io RS.start ls = .ok st

/-- the text ends in a line of numbers; the complete lines give `st`, the last line so far has the numbers `its` -/
def Upto (io : NumIO) (T : Text) (st : RS) (its : List Num) : Prop :=
  ∃ ls p, pieces (fun c => c = '\n') T = ls ++ [p] ∧ readLines io RS.start ls = .ok st ∧ '!' ∉ p ∧ EndsWs p ∧
    mapE io.get (words p) = .ok its ∧ ∀ t ∈ words p, t.head? ≠ some '#'

theorem Upto0.start (io : NumIO) : Upto0 io [] RS.start := ⟨[], rfl, rfl⟩

theorem Upto0.upto {io : NumIO} {T : Text} {st : RS} (h : Upto0 io T st) : Upto io T st [] := by
  obtain ⟨ls, h1, h2⟩ := h
  exact ⟨ls, [], h1, h2, by simp, Or.inl rfl, by rw [words_nil]; rfl, by simp [words_nil]⟩

theorem Upto0.line {io : NumIO} {T : Text} {st st' : RS} (h : Upto0 io T st) {l : Text} (hl : '\n' ∉ l)
    (hr : readLine io st l = .ok st') : Upto0 io (T ++ l ++ ['\n']) st' := by
  obtain ⟨ls, h1, h2⟩ := h
  have h3 := pieces_snoc (p := fun c => c = '\n') (x := l) (by
    intro c hc
    have : c ≠ '\n' := by rintro rfl; exact hl hc
    simpa using this) h1
  refine ⟨ls ++ [l], ?_, ?_⟩
  · rw [pieces_append_sep (by simp), h3]
    simp [pieces]
  · rw [readLines_append, h2]
    simp [readLines, hr]

/-- the characters of a formatted number: blanks and a token that `float` reads as `v` -/
def Prints (io : NumIO) (x : Text) (v : Num) : Prop :=
  ∃ (k : ℕ) (tok : Text), x = List.replicate k ' ' ++ tok ∧ tok ≠ [] ∧ (∀ c ∈ tok, isWs c = false ∧ c ≠ '!') ∧
    tok.head? ≠ some '#' ∧ io.float tok = some v

theorem not_nl_of_tok {c : Char} (h : isWs c = false) : c ≠ '\n' := by
  rintro rfl
  exact absurd h (by decide)

theorem Upto.blanks {io : NumIO} {T : Text} {st : RS} {its : List Num} (h : Upto io T st its) {w : Text}
    (hw : ∀ c ∈ w, c = ' ') : Upto io (T ++ w) st its := by
  obtain ⟨ls, p, h1, h2, h3, h4, h5, h6⟩ := h
  have hws : ∀ c ∈ w, isWs c = true := by intro c hc; rw [hw c hc]; rfl
  refine ⟨ls, p ++ w, pieces_snoc (by intro c hc; rw [hw c hc]; rfl) h1, h2, ?_, ?_, ?_, ?_⟩
  · intro h
    rcases List.mem_append.1 h with h | h
    · exact h3 h
    · exact absurd (hw _ h) (by decide)
  · rcases List.eq_nil_or_concat w with rfl | ⟨q, c, rfl⟩
    · simpa using h4
    · exact Or.inr ⟨p ++ q, c, by simp, hws c (by simp)⟩
  · rw [words_append_wss hws, h5]
  · rw [words_append_wss hws]; exact h6

theorem Upto.token {io : NumIO} {T : Text} {st : RS} {its : List Num} (h : Upto io T st its) {x : Text} {v : Num}
    (hx : Prints io x v) {c : Char} (hc : c = ' ') : Upto io (T ++ (x ++ [c])) st (its ++ [v]) := by
  subst hc
  obtain ⟨ls, p, h1, h2, h3, h4, h5, h6⟩ := h
  obtain ⟨k, tok, rfl, hne, ht, hh, hf⟩ := hx
  have hrep : ∀ c ∈ List.replicate k ' ', isWs c = true := by
    intro c hc; rw [(List.mem_replicate.1 hc).2]; rfl
  have hw : words (List.replicate k ' ' ++ tok ++ [' ']) = [tok] := by
    rw [words_append_ws rfl, words_nil, List.append_nil, words_ws_append hrep, words_token hne fun c hc => (ht c hc).1]
  have hmem : ∀ c ∈ List.replicate k ' ' ++ tok ++ [' '], c ≠ '\n' ∧ c ≠ '!' := by
    intro c hc
    rcases List.mem_append.1 hc with hc | hc
    · rcases List.mem_append.1 hc with hc | hc
      · rw [(List.mem_replicate.1 hc).2]; decide
      · exact ⟨not_nl_of_tok (ht c hc).1, (ht c hc).2⟩
    · simp at hc; subst hc; decide
  refine ⟨ls, p ++ (List.replicate k ' ' ++ tok ++ [' ']), pieces_snoc (by intro c hc; simpa using (hmem c hc).1) h1, h2, ?_,
    Or.inr ⟨p ++ (List.replicate k ' ' ++ tok), ' ', by simp, rfl⟩, ?_, ?_⟩
  · intro h
    rcases List.mem_append.1 h with h | h
    · exact h3 h
    · exact (hmem _ h).2 rfl
  · rw [words_append_of_endsWs h4, hw]
    refine mapE_eq_ok.2 (List.rel_append (mapE_eq_ok.1 h5) ?_)
    refine .cons ?_ .nil
    simp [NumIO.get, hf]
  · rw [words_append_of_endsWs h4, hw]
    intro t ht'
    rcases List.mem_append.1 ht' with ht' | ht'
    · exact h6 t ht'
    · simp at ht'; subst ht'; exact hh

/-- a newline after some numbers, with or without a comment -/
theorem Upto.newline {io : NumIO} {T : Text} {st : RS} {its : List Num} (h : Upto io T st its) (hits : its ≠ []) {cm : Text}
    (hcm : cm = [] ∨ cm.head? = some '!') (hnl : '\n' ∉ cm) : Upto0 io (T ++ (cm ++ ['\n'])) (feed st its) := by
  obtain ⟨ls, p, h1, h2, h3, h4, h5, h6⟩ := h
  have h7 := pieces_snoc (p := fun c => c = '\n') (x := cm) (by
    intro c hc
    have : c ≠ '\n' := by rintro rfl; exact hnl hc
    simpa using this) h1
  refine ⟨ls ++ [p ++ cm], ?_, ?_⟩
  · rw [← List.append_assoc, pieces_append_sep (by simp), h7]
    simp [pieces]
  · have hne : words p ≠ [] := by
      intro h0
      rw [h0] at h5
      injection h5 with h5
      exact hits h5.symm
    rw [readLines_append, h2]
    simp [readLines, readLine_data h3 hcm h5 hne h6]

theorem Upto.newline_blank {io : NumIO} {T : Text} {st : RS} (h : Upto io T st []) : Upto0 io (T ++ ['\n']) st := by
  obtain ⟨ls, p, h1, h2, h3, h4, h5, h6⟩ := h
  refine ⟨ls ++ [p], ?_, ?_⟩
  · rw [pieces_append_sep (by simp), h1]
    simp [pieces]
  · have h0 : words p = [] := by
      cases hw : words p with
      | nil => rfl
      | cons t ts =>
        rw [hw] at h5
        have := mapE_eq_ok.1 h5
        cases this
    rw [readLines_append, h2]
    simp [readLines, readLine_blank h0]

/-! ## one frequency -/

/-- within the block of one frequency: everything read so far amounts to the line `all`; `cur`: the present line has numbers -/
def Blk (io : NumIO) (T : Text) (st0 : RS) (all : List Num) (cur : Prop) : Prop :=
  all.length % 2 = 1 ∧ ∃ st its, Upto io T st its ∧ (cur → its ≠ []) ∧
    (st = st0 ∧ its = all ∨ ∃ pre, pre ≠ [] ∧ st = feed st0 pre ∧ all = pre ++ its ∧ its.length % 2 = 0)

theorem Blk.blanks {io : NumIO} {T : Text} {st0 : RS} {all : List Num} {cur : Prop} (h : Blk io T st0 all cur) {w : Text}
    (hw : ∀ c ∈ w, c = ' ') : Blk io (T ++ w) st0 all cur := by
  obtain ⟨h0, st, its, h1, h2⟩ := h
  exact ⟨h0, st, its, h1.blanks hw, h2⟩

theorem Blk.weaken {io : NumIO} {T : Text} {st0 : RS} {all : List Num} {cur : Prop} (h : Blk io T st0 all cur) :
    Blk io T st0 all False := by
  obtain ⟨h0, st, its, h1, h2, h3⟩ := h
  exact ⟨h0, st, its, h1, False.elim, h3⟩

theorem Blk.pair {io : NumIO} {T : Text} {st0 : RS} {all : List Num} {cur : Prop} (h : Blk io T st0 all cur) {x y : Text} {a b : Num}
    (hx : Prints io x a) (hy : Prints io y b) : Blk io (T ++ (x ++ ' ' :: y ++ [' '])) st0 (all ++ [a, b]) True := by
  obtain ⟨h0, st, its, h1, -, h2⟩ := h
  have h3 := (h1.token hx rfl).token hy (c := ' ') rfl
  refine ⟨by simp only [List.length_append, List.length_cons, List.length_nil]; omega, st, its ++ [a, b], ?_, by simp, ?_⟩
  · have e : T ++ (x ++ [' ']) ++ (y ++ [' ']) = T ++ (x ++ ' ' :: y ++ [' ']) := by simp
    rw [← e]
    simpa using h3
  · rcases h2 with ⟨rfl, rfl⟩ | ⟨pre, hp, rfl, rfl, he⟩
    · exact Or.inl ⟨rfl, rfl⟩
    · refine Or.inr ⟨pre, hp, rfl, by simp, ?_⟩
      simp only [List.length_append, List.length_cons, List.length_nil]; omega

theorem Blk.newline {io : NumIO} {T : Text} {st0 : RS} {all : List Num} {cur : Prop} (h : Blk io T st0 all cur) :
    Upto0 io (T ++ ['\n']) (feed st0 all) := by
  obtain ⟨h0, st, its, h1, -, h2⟩ := h
  have hall : all ≠ [] := by rintro rfl; simp at h0
  rcases h2 with ⟨rfl, rfl⟩ | ⟨pre, hp, rfl, rfl, he⟩
  · simpa using h1.newline hall (Or.inl rfl) (by simp)
  · by_cases hi : its = []
    · subst hi
      simpa using h1.newline_blank
    · have := h1.newline hi (Or.inl rfl) (by simp)
      rw [feed_feed st0 pre its hp he hi] at this
      simpa using this

/-- a newline after a comment, when the present line has numbers -/
theorem Blk.newline_comment {io : NumIO} {T : Text} {st0 : RS} {all : List Num} (h : Blk io T st0 all True)
    {cm : Text} (hcm : cm.head? = some '!') (hnl : '\n' ∉ cm) : Upto0 io (T ++ (cm ++ ['\n'])) (feed st0 all) := by
  obtain ⟨h0, st, its, h1, hi, h2⟩ := h
  have hi := hi trivial
  rcases h2 with ⟨rfl, rfl⟩ | ⟨pre, hp, rfl, rfl, he⟩
  · exact h1.newline hi (Or.inr hcm) hnl
  · have := h1.newline hi (Or.inr hcm) hnl
    rwa [feed_feed st0 pre its hp he hi] at this

/-- a new line within the block -/
theorem Blk.next {io : NumIO} {T : Text} {st0 : RS} {all : List Num} (h0 : all.length % 2 = 1) (h : Upto0 io T (feed st0 all)) :
    Blk io T st0 all False := by
  refine ⟨h0, feed st0 all, [], h.upto, False.elim, Or.inr ⟨all, ?_, rfl, by simp, rfl⟩⟩
  rintro rfl
  simp at h0

end PyRFtk.TSF
