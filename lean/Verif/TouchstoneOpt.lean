import Verif.TouchstoneHead

/-!
# The option line: any order of the groups means the same to the writer and to the reader
-/

namespace PyRFtk.TSF

/-- a group of an option line: a frequency unit, `S`, a number format, or `R`, blanks and a number -/
inductive Piece
  | unit (u : FUnit)
  | kind
  | fmt (f : Fmt)
  | ref (ws tok : Text)

def Piece.text : Piece → Text
  | .unit u => u.text
  | .kind => ['S']
  | .fmt f => f.text
  | .ref ws tok => 'R' :: ws ++ tok

def Piece.words : Piece → List Text
  | .unit u => [u.text]
  | .kind => [['S']]
  | .fmt f => [f.text]
  | .ref _ tok => [['R'], tok]

/-- blanks (not a newline) -/
def Blanks (w : Text) : Prop := ∀ c ∈ w, c = ' ' ∨ c = '\t'

/-- a plain decimal number: digits, or digits, a point and digits -/
def Decimal (tok : Text) : Prop :=
  (tok ≠ [] ∧ ∀ c ∈ tok, isDigit c = true) ∨
  ∃ a b : Text, tok = a ++ '.' :: b ∧ a ≠ [] ∧ b ≠ [] ∧ (∀ c ∈ a, isDigit c = true) ∧ ∀ c ∈ b, isDigit c = true

/-- the group after `R` has blanks and a decimal number -/
def Piece.Good : Piece → Prop
  | .ref ws tok => ws ≠ [] ∧ Blanks ws ∧ Decimal tok
  | _ => True

/-- the text of an option line: every group preceded by blanks, of which there may be none only before the first -/
inductive OptText : List Piece → Text → Prop
  | nil : OptText [] []
  | cons {p : Piece} {ps : List Piece} {w t : Text} : p.Good → Blanks w → OptText ps t →
      (t = [] ∨ ∃ c t', t = c :: t' ∧ (c = ' ' ∨ c = '\t')) → OptText (p :: ps) (w ++ p.text ++ t)

def Piece.unit? : Piece → Option FUnit | .unit u => some u | _ => none
def Piece.fmt? : Piece → Option Fmt | .fmt f => some f | _ => none
def Piece.ref? : Piece → Option Text | .ref _ tok => some tok | _ => none

theorem Blanks.ws {w : Text} (h : Blanks w) : ∀ c ∈ w, isWs c = true := by
  intro c hc
  rcases h c hc with rfl | rfl <;> rfl

/-- blank at the start, or nothing -/
def AtGap (t : Text) : Prop := t = [] ∨ ∃ c t', t = c :: t' ∧ (c = ' ' ∨ c = '\t')

theorem digit_nat {c : Char} (h : isDigit c = true) : ∃ n : Fin 10, c = Char.ofNat (48 + n) := by
  have h1 : 48 ≤ c.toNat ∧ c.toNat ≤ 57 := by
    simp only [isDigit, Char.le_def, Bool.decide_and, Bool.and_eq_true, decide_eq_true_eq, UInt32.le_iff_toNat_le] at h
    exact h
  refine ⟨⟨c.toNat - 48, by omega⟩, ?_⟩
  have : 48 + (c.toNat - 48) = c.toNat := by omega
  simp only [this, Char.ofNat_toNat]

theorem decimal_chars {tok : Text} (h : Decimal tok) : ∀ c ∈ tok, c = '.' ∨ isDigit c = true := by
  rcases h with ⟨-, h⟩ | ⟨a, b, rfl, -, -, ha, hb⟩
  · exact fun c hc => Or.inr (h c hc)
  · intro c hc
    simp only [List.mem_append, List.mem_cons] at hc
    rcases hc with hc | rfl | hc
    · exact Or.inr (ha c hc)
    · exact Or.inl rfl
    · exact Or.inr (hb c hc)

theorem decimal_ne {tok : Text} (h : Decimal tok) : tok ≠ [] := by
  rcases h with ⟨h, -⟩ | ⟨a, b, rfl, -⟩
  · exact h
  · simp

/-- facts about the characters of a decimal number -/
theorem dec_char {c : Char} (h : c = '.' ∨ isDigit c = true) :
    c.toUpper = c ∧ isWs c = false ∧ c ≠ 'R' ∧ c ≠ 'M' ∧ c ≠ 'D' ∧ c ≠ 'K' ∧ c ≠ 'G' ∧ c ≠ 'H' ∧ c ≠ '\n' := by
  rcases h with rfl | h
  · decide
  · obtain ⟨n, rfl⟩ := digit_nat h
    clear h
    revert n; decide

theorem upper_decimal {tok : Text} (h : Decimal tok) : upper tok = tok := by
  unfold upper
  conv_rhs => rw [← List.map_id tok]
  exact List.map_congr_left fun c hc => (dec_char (decimal_chars h c hc)).1

/-! ### the writer: frequency unit -/

theorem findUnit_skip {c : Char} (t : Text) (h : c ≠ 'K' ∧ c ≠ 'M' ∧ c ≠ 'G' ∧ c ≠ 'H') : findUnit (c :: t) = findUnit t := by
  rw [findUnit]
  simp [FUnit.text, h.1.symm, h.2.1.symm, h.2.2.1.symm, h.2.2.2.symm]

theorem findUnit_skips {w : Text} (h : ∀ c ∈ w, c ≠ 'K' ∧ c ≠ 'M' ∧ c ≠ 'G' ∧ c ≠ 'H') (t : Text) : findUnit (w ++ t) = findUnit t := by
  induction w with
  | nil => rfl
  | cons c w ih => rw [List.cons_append, findUnit_skip _ (h c (by simp)), ih fun d hd => h d (by simp [hd])]

theorem blank_char {c : Char} (h : c = ' ' ∨ c = '\t') :
    (c ≠ 'K' ∧ c ≠ 'M' ∧ c ≠ 'G' ∧ c ≠ 'H') ∧ c ≠ 'R' ∧ c ≠ 'D' ∧ c ≠ '\n' ∧ c.toUpper = c := by
  rcases h with rfl | rfl <;> decide

theorem findUnit_unit (u : FUnit) (t : Text) : findUnit (u.text ++ t) = some u := by
  cases u <;> simp [FUnit.text, findUnit]

theorem findUnit_piece {p : Piece} (hp : p.Good) (t : Text) : findUnit (upper p.text ++ t) = (p.unit?).or (findUnit t) := by
  cases p with
  | unit u =>
    have : upper u.text = u.text := by cases u <;> decide
    simp only [Piece.text, Piece.unit?, this, findUnit_unit]
    rfl
  | kind => exact findUnit_skips (w := ['S']) (by decide) t
  | fmt f =>
    cases f
    · show findUnit ('M' :: 'A' :: t) = _
      rw [findUnit]
      simp [FUnit.text, Piece.unit?]
      exact findUnit_skip t (by decide)
    · exact findUnit_skips (w := ['R', 'I']) (by decide) t
    · exact findUnit_skips (w := ['D', 'B']) (by decide) t
  | ref ws tok =>
    obtain ⟨-, hw, hd⟩ := hp
    refine findUnit_skips ?_ t
    intro c hc
    unfold upper at hc
    obtain ⟨d, hd', rfl⟩ := List.mem_map.1 hc
    simp only [Piece.text, List.mem_cons, List.mem_append, List.cons_append] at hd'
    rcases hd' with rfl | hd' | hd'
    · decide
    · have := blank_char (hw d hd')
      rw [this.2.2.2.2]; exact this.1
    · have := dec_char (decimal_chars hd d hd')
      rw [this.1]
      exact ⟨this.2.2.2.2.2.1, this.2.2.2.1, this.2.2.2.2.2.2.1, this.2.2.2.2.2.2.2.1⟩

theorem upper_append (a b : Text) : upper (a ++ b) = upper a ++ upper b := List.map_append

theorem findUnit_opt {ps : List Piece} {t : Text} (h : OptText ps t) : findUnit (upper t) = (ps.filterMap Piece.unit?).head? := by
  induction h with
  | nil => rfl
  | @cons p ps w t hp hw ht hg ih =>
    rw [upper_append, upper_append, List.append_assoc, findUnit_skips, findUnit_piece hp, ih]
    · cases hu : p.unit? <;> simp [hu]
    · intro c hc
      unfold upper at hc
      obtain ⟨d, hd, rfl⟩ := List.mem_map.1 hc
      rw [(blank_char (hw d hd)).2.2.2.2]
      exact (blank_char (hw d hd)).1

/-! ### the writer: number format -/

theorem findFmts_skip {c : Char} (t : Text) (h : c ≠ 'R' ∧ c ≠ 'M' ∧ c ≠ 'D') : findFmts (c :: t) = findFmts t := by
  rw [findFmts]
  · rintro r h1 - ; exact h.1 h1
  · rintro r h1 - ; exact h.2.1 h1
  · rintro r h1 - ; exact h.2.2 h1

theorem findFmts_skips {w : Text} (h : ∀ c ∈ w, c ≠ 'R' ∧ c ≠ 'M' ∧ c ≠ 'D') (t : Text) : findFmts (w ++ t) = findFmts t := by
  induction w with
  | nil => rfl
  | cons c w ih => rw [List.cons_append, findFmts_skip _ (h c (by simp)), ih fun d hd => h d (by simp [hd])]

theorem findFmts_R {d : Char} (t : Text) (h : d ≠ 'I') : findFmts ('R' :: d :: t) = findFmts (d :: t) := by
  rw [findFmts]
  · intro r _ h1; injection h1 with h1 h2; exact h h1
  · intro r h1; exact absurd h1 (by decide)
  · intro r h1; exact absurd h1 (by decide)

theorem findFmts_M {d : Char} (t : Text) (h : d ≠ 'A') : findFmts ('M' :: d :: t) = findFmts (d :: t) := by
  rw [findFmts]
  · intro r h1; exact absurd h1 (by decide)
  · intro r _ h1; injection h1 with h1 h2; exact h h1
  · intro r h1; exact absurd h1 (by decide)

theorem findFmts_piece {p : Piece} (hp : p.Good) (t : Text) : findFmts (upper p.text ++ t) = (p.fmt?).toList ++ findFmts t := by
  cases p with
  | unit u =>
    cases u
    · exact findFmts_skips (w := ['H', 'Z']) (by decide) t
    · exact findFmts_skips (w := ['K', 'H', 'Z']) (by decide) t
    · show findFmts ('M' :: 'H' :: 'Z' :: t) = _
      rw [findFmts_M _ (by decide)]
      exact findFmts_skips (w := ['H', 'Z']) (by decide) t
    · exact findFmts_skips (w := ['G', 'H', 'Z']) (by decide) t
  | kind => exact findFmts_skips (w := ['S']) (by decide) t
  | fmt f => cases f <;> rfl
  | ref ws tok =>
    obtain ⟨h0, hw, hd⟩ := hp
    cases ws with
    | nil => exact absurd rfl h0
    | cons c ws =>
      have hc := blank_char (hw c (by simp))
      have e : upper (Piece.ref (c :: ws) tok).text ++ t = 'R' :: c :: (upper (ws ++ tok) ++ t) := by
        simp only [Piece.text, upper, List.cons_append, List.map_cons, hc.2.2.2.2]
        rfl
      rw [e, findFmts_R _ (by rintro rfl; rcases hw 'I' (by simp) with h | h <;> exact absurd h (by decide)),
        findFmts_skip _ ⟨hc.2.1, hc.1.2.1, hc.2.2.1⟩, findFmts_skips]
      · rfl
      · intro x hx
        unfold upper at hx
        obtain ⟨y, hy, rfl⟩ := List.mem_map.1 hx
        rcases List.mem_append.1 hy with hy | hy
        · have := blank_char (hw y (by simp [hy]))
          rw [this.2.2.2.2]; exact ⟨this.2.1, this.1.2.1, this.2.2.1⟩
        · have := dec_char (decimal_chars hd y hy)
          rw [this.1]
          exact ⟨this.2.2.1, this.2.2.2.1, this.2.2.2.2.1⟩

theorem findFmts_opt {ps : List Piece} {t : Text} (h : OptText ps t) : findFmts (upper t) = ps.filterMap Piece.fmt? := by
  induction h with
  | nil => rfl
  | @cons p ps w t hp hw ht hg ih =>
    rw [upper_append, upper_append, List.append_assoc, findFmts_skips, findFmts_piece hp, ih]
    · cases hu : p.fmt? <;> simp [hu]
    · intro c hc
      unfold upper at hc
      obtain ⟨d, hd, rfl⟩ := List.mem_map.1 hc
      have := blank_char (hw d hd)
      rw [this.2.2.2.2]
      exact ⟨this.2.1, this.1.2.1, this.2.2.1⟩

/-! ### the writer: reference impedance -/

theorem gap_digit {t : Text} (h : AtGap t) : t.takeWhile isDigit = [] ∧ t.dropWhile isDigit = t := by
  rcases h with rfl | ⟨c, t, rfl, rfl | rfl⟩ <;> simp [isDigit]

theorem takeWhile_digits {a t : Text} (ha : ∀ c ∈ a, isDigit c = true) : (a ++ t).takeWhile isDigit = a ++ t.takeWhile isDigit ∧
    (a ++ t).dropWhile isDigit = t.dropWhile isDigit :=
  ⟨List.takeWhile_append_of_pos ha, List.dropWhile_append_of_pos ha⟩

theorem scanExp_gap {t : Text} (h : AtGap t) : scanExp t = [] := by
  rcases h with rfl | ⟨c, t, rfl, rfl | rfl⟩ <;> simp [scanExp]

theorem scanAbs_decimal {tok t : Text} (h : Decimal tok) (ht : AtGap t) : scanAbs (tok ++ t) = some tok := by
  obtain ⟨g1, g2⟩ := gap_digit ht
  rcases h with ⟨h0, h⟩ | ⟨a, b, rfl, ha0, hb0, ha, hb⟩
  · unfold scanAbs
    obtain ⟨e1, e2⟩ := takeWhile_digits (t := t) h
    rw [g1, List.append_nil] at e1
    rw [g2] at e2
    simp only [e1, e2]
    have hne : ∀ r, t ≠ '.' :: r := by
      rintro r rfl
      rcases ht with h | ⟨c, t', h, h1 | h1⟩
      · cases h
      · injection h with h2 h3; rw [h1] at h2; exact absurd h2 (by decide)
      · injection h with h2 h3; rw [h1] at h2; exact absurd h2 (by decide)
    split
    · rename_i r; exact absurd rfl (hne r)
    · rw [if_pos h0, scanExp_gap ht, List.append_nil]
  · unfold scanAbs
    obtain ⟨e1, e2⟩ := takeWhile_digits (t := '.' :: b ++ t) ha
    obtain ⟨e3, e4⟩ := takeWhile_digits (t := t) hb
    have e5 : ('.' :: b ++ t).takeWhile isDigit = [] := by simp [isDigit]
    have e6 : ('.' :: b ++ t).dropWhile isDigit = '.' :: (b ++ t) := by simp [isDigit]
    rw [g1, List.append_nil] at e3
    rw [g2] at e4
    rw [e5, List.append_nil] at e1
    rw [e6] at e2
    rw [List.append_assoc, e1, e2]
    simp only [e3, e4, if_pos hb0, scanExp_gap ht, List.append_nil]

theorem scanNum_decimal {tok t : Text} (h : Decimal tok) (ht : AtGap t) : scanNum (tok ++ t) = some tok := by
  have := scanAbs_decimal h ht
  cases tok with
  | nil => exact absurd rfl (decimal_ne h)
  | cons c tok =>
    have hc := decimal_chars h c (by simp)
    have h1 : c ≠ '+' := by rintro rfl; revert hc; decide
    have h2 : c ≠ '-' := by rintro rfl; revert hc; decide
    unfold scanNum
    split
    · rename_i r h; injection h with h; exact absurd h h1
    · rename_i r h; injection h with h; exact absurd h h2
    · exact this

theorem findR_skip {c : Char} (t : Text) (h : c ≠ 'R') : findR (c :: t) = findR t := by
  rw [findR, if_neg h]

theorem findR_skips {w : Text} (h : ∀ c ∈ w, c ≠ 'R') (t : Text) : findR (w ++ t) = findR t := by
  induction w with
  | nil => rfl
  | cons c w ih => rw [List.cons_append, findR_skip _ (h c (by simp)), ih fun d hd => h d (by simp [hd])]

theorem scanNum_I (t : Text) : scanNum ('I' :: t) = none := by
  simp [scanNum, scanAbs, isDigit]

theorem findR_piece {p : Piece} (hp : p.Good) {t : Text} (ht : AtGap t) : findR (p.text ++ t) = (p.ref?).or (findR t) := by
  cases p with
  | unit u => exact findR_skips (by cases u <;> decide) t
  | kind => exact findR_skips (w := ['S']) (by decide) t
  | fmt f =>
    cases f
    · exact findR_skips (w := ['M', 'A']) (by decide) t
    · show findR ('R' :: 'I' :: t) = _
      rw [findR, if_pos rfl, List.dropWhile_cons_of_neg (by decide), scanNum_I]
      exact findR_skip t (by decide)
    · exact findR_skips (w := ['D', 'B']) (by decide) t
  | ref ws tok =>
    obtain ⟨h0, hw, hd⟩ := hp
    have e : (Piece.ref ws tok).text ++ t = 'R' :: (ws ++ (tok ++ t)) := by simp [Piece.text]
    have e2 : (ws ++ (tok ++ t)).dropWhile isWs = tok ++ t := by
      rw [List.dropWhile_append_of_pos hw.ws]
      cases htok : tok with
      | nil => exact absurd htok (decimal_ne hd)
      | cons c tok' =>
        have := (dec_char (decimal_chars hd c (by rw [htok]; simp))).2.1
        rw [List.cons_append, List.dropWhile_cons_of_neg (by simp [this])]
    rw [e, findR, if_pos rfl, e2, scanNum_decimal hd ht]
    rfl

theorem findR_opt {ps : List Piece} {t : Text} (h : OptText ps t) : findR t = (ps.filterMap Piece.ref?).head? := by
  induction h with
  | nil => rfl
  | @cons p ps w t hp hw ht hg ih =>
    rw [List.append_assoc, findR_skips (fun c hc => (blank_char (hw c hc)).2.1), findR_piece hp hg, ih]
    cases hu : p.ref? <;> simp [hu]

/-- **C38 (signed reference).** The writer takes the sign of the reference impedance along: after `R`, blanks and a sign, a decimal
number is read with its sign. -/
theorem C38_signed_reference {io : NumIO} {w ws tok t : Text} {sg : Char} (hsg : sg = '+' ∨ sg = '-') (hw : ∀ c ∈ w, c ≠ 'R')
    (hws : ∀ c ∈ ws, isWs c = true) (h : Decimal tok) (ht : AtGap t) {z : ℝ} (hz : io.float (sg :: tok) = some (some z)) :
    zrefOf io (w ++ 'R' :: (ws ++ sg :: (tok ++ t))) = z := by
  have e : scanNum (sg :: (tok ++ t)) = some (sg :: tok) := by
    rcases hsg with rfl | rfl <;> simp [scanNum, scanAbs_decimal h ht]
  have e2 : (ws ++ sg :: (tok ++ t)).dropWhile isWs = sg :: (tok ++ t) := by
    rw [List.dropWhile_append_of_pos hws, List.dropWhile_cons_of_neg (by rcases hsg with rfl | rfl <;> decide)]
  unfold zrefOf
  rw [findR_skips hw, findR, if_pos rfl, e2, e]
  simp [hz]

/-! ### the reader -/

/-- no keyword of an option line is a number -/
def KeywordsNotNumbers (io : NumIO) : Prop :=
  ∀ w : Text, (kindOf w).isSome ∨ (fmtOf w).isSome ∨ (unitOf w).isSome ∨ w = ['R'] → io.float w = none

theorem words_piece {p : Piece} (hp : p.Good) : words (upper p.text) = p.words := by
  cases p with
  | unit u => cases u <;> decide
  | kind => decide
  | fmt f => cases f <;> decide
  | ref ws tok =>
    obtain ⟨h0, hw, hd⟩ := hp
    have e : upper (Piece.ref ws tok).text = ['R'] ++ (upper ws ++ upper tok) := by
      simp [Piece.text, upper]
    have hus : ∀ c ∈ upper ws, isWs c = true := by
      intro c hc
      unfold upper at hc
      obtain ⟨d, hd, rfl⟩ := List.mem_map.1 hc
      rw [toUpper_ws]; exact hw.ws d hd
    have ht : words (upper tok) = [tok] := by
      rw [upper_decimal hd]
      exact words_token (decimal_ne hd) fun c hc => (dec_char (decimal_chars hd c hc)).2.1
    rw [e]
    cases hu : upper ws with
    | nil =>
      exfalso
      unfold upper at hu
      exact h0 (List.map_eq_nil_iff.1 hu)
    | cons c us =>
      rw [hu] at hus
      rw [show (c :: us) ++ upper tok = c :: (us ++ upper tok) from rfl, words_append_ws (hus c (by simp)), words_ws_append (fun d hd => hus d (by simp [hd])), ht]
      rfl

theorem words_opt {ps : List Piece} {t : Text} (h : OptText ps t) : words (upper t) = ps.flatMap Piece.words := by
  induction h with
  | nil => decide
  | @cons p ps w t hp hw ht hg ih =>
    have hus : ∀ c ∈ upper w, isWs c = true := by
      intro c hc
      unfold upper at hc
      obtain ⟨d, hd, rfl⟩ := List.mem_map.1 hc
      rw [toUpper_ws]; exact hw.ws d hd
    rw [upper_append, upper_append, List.append_assoc, words_ws_append hus, List.flatMap_cons, ← ih, ← words_piece hp]
    rcases hg with rfl | ⟨c, t', rfl, hc⟩
    · have : upper [] = [] := rfl
      rw [this, List.append_nil, words_nil, List.append_nil]
    · have e : upper (c :: t') = c :: upper t' := by
        simp only [upper, List.map_cons, (blank_char hc).2.2.2.2]
      have hcw : isWs c = true := by rcases hc with rfl | rfl <;> rfl
      rw [e, words_append_ws hcw, words_cons_ws hcw]

/-- what a group does to the options -/
noncomputable def Piece.apply (io : NumIO) (o : Opts) : Piece → Opts
  | .unit u => { o with unit := u }
  | .kind => { o with kind := .S }
  | .fmt f => { o with fmt := f }
  | .ref _ tok => match io.float tok with
    | some (some z) => { o with Zlist := some [z], Zbase := some (.one z) }
    | _ => o

theorem kindOf_unit (u : FUnit) : kindOf u.text = none := by cases u <;> decide
theorem fmtOf_unit (u : FUnit) : fmtOf u.text = none := by cases u <;> decide
theorem unitOf_unit (u : FUnit) : unitOf u.text = some u := by cases u <;> decide
theorem kindOf_fmt (f : Fmt) : kindOf f.text = none := by cases f <;> decide
theorem fmtOf_fmt (f : Fmt) : fmtOf f.text = some f := by cases f <;> decide

theorem parse_pieces {io : NumIO} (hio : KeywordsNotNumbers io) (TZ : Option ℝ) (ps : List Piece)
    (hz : ∀ p ∈ ps, ∀ tok, p.ref? = some tok → ∃ z : ℝ, io.float tok = some (some z)) : ∀ (op : Bool) (o : Opts),
    parseOpts io TZ op o (ps.flatMap Piece.words) = .ok (ps.foldl (Piece.apply io) o) := by
  induction ps with
  | nil => intro op o; rw [List.flatMap_nil, parseOpts]; rfl
  | cons p ps ih =>
    intro op o
    have ih := ih fun q hq => hz q (by simp [hq])
    have closed : ∀ w : Text, (kindOf w).isSome ∨ (fmtOf w).isSome ∨ (unitOf w).isSome ∨ w = ['R'] →
        (if op then numR io w else none) = none := by
      intro w hw
      cases op
      · rfl
      · simp [numR, hio w hw]
    rw [List.flatMap_cons, List.foldl_cons]
    cases p with
    | unit u =>
      show parseOpts io TZ op o (u.text :: _) = _
      rw [parseOpts, closed u.text (Or.inr (Or.inr (Or.inl (by simp [unitOf_unit])))), kindOf_unit, fmtOf_unit, unitOf_unit]
      exact ih _ _
    | kind =>
      show parseOpts io TZ op o (['S'] :: _) = _
      have e : kindOf ['S'] = some .S := by decide
      rw [parseOpts, closed ['S'] (Or.inl (by decide)), e]
      exact ih _ _
    | fmt f =>
      show parseOpts io TZ op o (f.text :: _) = _
      rw [parseOpts, closed f.text (Or.inr (Or.inl (by simp [fmtOf_fmt]))), kindOf_fmt, fmtOf_fmt]
      exact ih _ _
    | ref ws tok =>
      obtain ⟨z, hz⟩ := hz (.ref ws tok) (by simp) tok rfl
      show parseOpts io TZ op o (['R'] :: tok :: _) = _
      have e1 : kindOf ['R'] = none := by decide
      have e2 : fmtOf ['R'] = none := by decide
      have e3 : unitOf ['R'] = none := by decide
      have e4 : numR io tok = some (.ok z) := by unfold numR; rw [hz]
      rw [parseOpts, closed ['R'] (Or.inr (Or.inr (Or.inr rfl))), e1, e2, e3]
      simp only [if_true]
      rw [parseOpts]
      simp only [if_true, e4]
      refine (ih _ _).trans ?_
      congr 2
      simp only [Piece.apply, hz, Option.getD_some, List.nil_append, refOf]

theorem foldl_unit (io : NumIO) (ps : List Piece) : ∀ o : Opts,
    (ps.foldl (Piece.apply io) o).unit = ((ps.filterMap Piece.unit?).getLast?).getD o.unit := by
  induction ps with
  | nil => intro o; rfl
  | cons p ps ih =>
    intro o
    rw [List.foldl_cons, ih]
    cases p with
    | unit u =>
      simp only [Piece.unit?, List.filterMap_cons, Piece.apply]
      cases h : ps.filterMap Piece.unit? with
      | nil => rfl
      | cons x xs => rw [List.getLast?_cons_cons, List.getLast?_eq_some_getLast (by simp)]; rfl
    | kind => rfl
    | fmt f => rfl
    | ref ws tok =>
      have : (Piece.apply io o (.ref ws tok)).unit = o.unit := by
        simp only [Piece.apply]; split <;> rfl
      simp only [Piece.unit?, List.filterMap_cons, this]

theorem foldl_fmt (io : NumIO) (ps : List Piece) : ∀ o : Opts,
    (ps.foldl (Piece.apply io) o).fmt = ((ps.filterMap Piece.fmt?).getLast?).getD o.fmt := by
  induction ps with
  | nil => intro o; rfl
  | cons p ps ih =>
    intro o
    rw [List.foldl_cons, ih]
    cases p with
    | fmt u =>
      simp only [Piece.fmt?, List.filterMap_cons, Piece.apply]
      cases h : ps.filterMap Piece.fmt? with
      | nil => rfl
      | cons x xs => rw [List.getLast?_cons_cons, List.getLast?_eq_some_getLast (by simp)]; rfl
    | kind => rfl
    | unit f => rfl
    | ref ws tok =>
      have : (Piece.apply io o (.ref ws tok)).fmt = o.fmt := by
        simp only [Piece.apply]; split <;> rfl
      simp only [Piece.fmt?, List.filterMap_cons, this]

theorem foldl_kind (io : NumIO) (ps : List Piece) : ∀ o : Opts, o.kind = .S → (ps.foldl (Piece.apply io) o).kind = .S := by
  induction ps with
  | nil => intro o h; exact h
  | cons p ps ih =>
    intro o h
    rw [List.foldl_cons]
    apply ih
    cases p with
    | unit u => exact h
    | kind => rfl
    | fmt f => exact h
    | ref ws tok => simp only [Piece.apply]; split <;> exact h

theorem foldl_ref (io : NumIO) (ps : List Piece) {z : ℝ}
    (hz : ∀ p ∈ ps, ∀ tok, p.ref? = some tok → io.float tok = some (some z)) : ∀ o : Opts,
    (ps.filterMap Piece.ref? ≠ [] ∨ o.Zlist = some [z] ∧ o.Zbase = some (.one z)) →
    (ps.foldl (Piece.apply io) o).Zlist = some [z] ∧ (ps.foldl (Piece.apply io) o).Zbase = some (.one z) := by
  induction ps with
  | nil => intro o h; simpa using h
  | cons p ps ih =>
    intro o h
    rw [List.foldl_cons]
    have ih := ih fun q hq => hz q (by simp [hq])
    cases p with
    | unit u => exact ih _ (by simpa [Piece.ref?, Piece.apply] using h)
    | kind => exact ih _ (by simpa [Piece.ref?, Piece.apply] using h)
    | fmt f => exact ih _ (by simpa [Piece.ref?, Piece.apply] using h)
    | ref ws tok =>
      have hz := hz (.ref ws tok) (by simp) tok rfl
      exact ih _ (Or.inr (by simp [Piece.apply, hz]))

/-- an option text with unit `u`, number format `f` and reference `z`, in any order (the letter `S` may be left out) -/
def Means (io : NumIO) (t : Text) (u : FUnit) (f : Fmt) (z : ℝ) : Prop :=
  ∃ ps ws tok, OptText ps t ∧ io.float tok = some (some z) ∧
    (ps.Perm [.unit u, .kind, .fmt f, .ref ws tok] ∨ ps.Perm [.unit u, .fmt f, .ref ws tok])

theorem Means.lists {io : NumIO} {t : Text} {u : FUnit} {f : Fmt} {z : ℝ} (h : Means io t u f z) :
    ∃ ps tok, OptText ps t ∧ io.float tok = some (some z) ∧ ps.filterMap Piece.unit? = [u] ∧ ps.filterMap Piece.fmt? = [f] ∧
      ps.filterMap Piece.ref? = [tok] := by
  obtain ⟨ps, ws, tok, h1, h2, h3 | h3⟩ := h
  · refine ⟨ps, tok, h1, h2, ?_, ?_, ?_⟩
    · exact List.perm_singleton.1 (h3.filterMap Piece.unit?)
    · exact List.perm_singleton.1 (h3.filterMap Piece.fmt?)
    · exact List.perm_singleton.1 (h3.filterMap Piece.ref?)
  · refine ⟨ps, tok, h1, h2, ?_, ?_, ?_⟩
    · exact List.perm_singleton.1 (h3.filterMap Piece.unit?)
    · exact List.perm_singleton.1 (h3.filterMap Piece.fmt?)
    · exact List.perm_singleton.1 (h3.filterMap Piece.ref?)

/-- what the writer takes from it -/
theorem Means.writer {io : NumIO} {t : Text} {u : FUnit} {f : Fmt} {z : ℝ} (h : Means io t u f z) :
    findUnit (upper t) = some u ∧ fmtOfFormat t = .ok f ∧ zrefOf io t = z := by
  obtain ⟨ps, tok, h1, h2, h3, h4, h5⟩ := h.lists
  refine ⟨?_, ?_, ?_⟩
  · rw [findUnit_opt h1, h3]; rfl
  · unfold fmtOfFormat; rw [findFmts_opt h1, h4]
  · unfold zrefOf; rw [findR_opt h1, h5]; simp [h2]

/-- what the reader takes from it -/
theorem Means.reader {io : NumIO} (hio : KeywordsNotNumbers io) {t : Text} {u : FUnit} {f : Fmt} {z : ℝ} (h : Means io t u f z)
    (TZ : Option ℝ) {y : Text} (hy : words (upper y) = words (upper t)) :
    options io TZ (some ('#' :: y)) = .ok ⟨.S, f, u, some (.one z), some [z]⟩ := by
  obtain ⟨ps, tok, h1, h2, h3, h4, h5⟩ := h.lists
  have hz : ∀ p ∈ ps, ∀ tok, p.ref? = some tok → io.float tok = some (some z) := by
    intro p hp tok' ht
    have : tok' ∈ ps.filterMap Piece.ref? := List.mem_filterMap.2 ⟨p, hp, ht⟩
    rw [h5] at this
    simp at this
    rw [this, h2]
  show parseOpts io TZ false Opts.start (words (upper y)) = _
  rw [hy, words_opt h1, parse_pieces hio TZ ps fun p hp tok' ht => ⟨z, hz p hp tok' ht⟩]
  congr 1
  have e1 := foldl_unit io ps Opts.start
  have e2 := foldl_fmt io ps Opts.start
  have e3 := foldl_kind io ps Opts.start rfl
  obtain ⟨e4, e5⟩ := foldl_ref io ps hz Opts.start (Or.inl (by rw [h5]; simp))
  rw [h3] at e1
  rw [h4] at e2
  revert e1 e2 e3 e4 e5
  generalize ps.foldl (Piece.apply io) Opts.start = o
  obtain ⟨k, f', u', zb, zl⟩ := o
  simp only [List.getLast?_singleton, Option.getD_some]
  rintro rfl rfl rfl rfl rfl
  rfl

/-- it contains no newline -/
theorem Means.no_newline {io : NumIO} {t : Text} {u : FUnit} {f : Fmt} {z : ℝ} (h : Means io t u f z) : '\n' ∉ t := by
  obtain ⟨ps, tok, h1, -⟩ := h.lists
  clear h
  induction h1 with
  | nil => simp
  | @cons p ps w t hp hw ht hg ih =>
    intro hm
    rcases List.mem_append.1 hm with hm | hm
    · rcases List.mem_append.1 hm with hm | hm
      · exact (blank_char (hw _ hm)).2.2.2.1 rfl
      · cases p with
        | unit u => cases u <;> revert hm <;> decide
        | kind => revert hm; decide
        | fmt f => cases f <;> revert hm <;> decide
        | ref ws tok =>
          obtain ⟨-, hw, hd⟩ := hp
          simp only [Piece.text, List.mem_cons, List.mem_append, List.cons_append] at hm
          rcases hm with hm | hm | hm
          · exact absurd hm (by decide)
          · exact (blank_char (hw _ hm)).2.2.2.1 rfl
          · exact (dec_char (decimal_chars hd _ hm)).2.2.2.2.2.2.2.2 rfl
    · exact ih hm

end PyRFtk.TSF
