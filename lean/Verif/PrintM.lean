import Verif.Base
import Mathlib.Data.Nat.Digits.Lemmas
import Mathlib.Analysis.SpecialFunctions.Complex.Arg
import Mathlib.Analysis.SpecialFunctions.Log.Base

/-!
# C76: printing a complex matrix (`printMatrices`)

`strM` (printMatrices.py:8-30) writes a header, a blank line, one line for each row and a blank line; entries smaller than 1e-7 are
replaced by a symbol centred in the place of the entry.
-/

namespace PyRFtk.PrintM

/-- a text -/
abbrev Text := List Char

/-! ## Model -/

/-- an array: a matrix, given by its rows with `c` entries each, or an array of another number of dimensions -/
inductive Arr
  | mat (c : ℕ) (rows : List (List ℂ))
  | other

/-- decimal digits of a number, '%d' -/
def dec (n : ℕ) : Text := if n = 0 then ['0'] else ((Nat.digits 10 n).map Nat.digitChar).reverse

/-- the last `d` digits of a number -/
def fracN : ℕ → ℕ → Text
  | 0, _ => []
  | d + 1, n => fracN d (n / 10) ++ [Nat.digitChar (n % 10)]

/-- rounding of a number that is not negative to the nearest integer, halves to the even one -/
noncomputable def roundEven (x : ℝ) : ℕ :=
  open Classical in
  if x - ⌊x⌋₊ < 1 / 2 then ⌊x⌋₊ else if 1 / 2 < x - ⌊x⌋₊ then ⌊x⌋₊ + 1 else if ⌊x⌋₊ % 2 = 0 then ⌊x⌋₊ else ⌊x⌋₊ + 1

/-- padding with blanks on the left up to a width -/
def padLeft (w : ℕ) (t : Text) : Text := List.replicate (w - t.length) ' ' ++ t

open Classical in
/-- '%w.df' % x (`plus` for '%+w.df'), with at least one place after the point -/
noncomputable def fix (w d : ℕ) (plus : Bool) (x : ℝ) : Text :=
  let n := roundEven (|x| * 10 ^ d)
  let sign : Text := if x < 0 then ['-'] else if plus then ['+'] else []
  padLeft w (sign ++ dec (n / 10 ^ d) ++ ['.'] ++ fracN d (n % 10 ^ d))

/-- the default format of an entry and that of `printRI`, printMatrices.py:9-10, 51-54: '%7.3f%+7.3fj, ' with real and imaginary part -/
noncomputable def fmtRI (z : ℂ) : Text := fix 7 3 false z.re ++ fix 7 3 true z.im ++ ['j', ',', ' ']

/-- the angle in degrees -/
noncomputable def deg (z : ℂ) : ℝ := z.arg * 180 / Real.pi

/-- the format of `printMA`, printMatrices.py:64-70: '%8.5f %+7.2f°, ' with modulus and angle -/
noncomputable def fmtMA (z : ℂ) : Text := fix 8 5 false ‖z‖ ++ [' '] ++ fix 7 2 true (deg z) ++ ['°', ',', ' ']

/-- the modulus in dB -/
noncomputable def dB (z : ℂ) : ℝ := 20 * Real.logb 10 ‖z‖

open Classical in
/-- the format of `printDB`, printMatrices.py:79-85: '%7.3f%+7.1f°, ' with modulus in dB and angle; the logarithm of 0 is -inf -/
noncomputable def fmtDB (z : ℂ) : Text :=
  (if z = 0 then "   -inf".toList else fix 7 3 false (dB z)) ++ fix 7 1 true (deg z) ++ ['°', ',', ' ']

/-- the format of `printR`, printMatrices.py:93-97: '%7.3f, ' with the real part -/
noncomputable def fmtR (z : ℂ) : Text := fix 7 3 false z.re ++ [',', ' ']

/-- `t.center(w)` as CPython computes it: the odd blank goes to the left if the width is odd -/
def center (w : ℕ) (t : Text) : Text :=
  if w ≤ t.length then t else
    let m := w - t.length
    let left := m / 2 + (if m % 2 = 1 ∧ w % 2 = 1 then 1 else 0)
    List.replicate left ' ' ++ t ++ List.replicate (m - left) ' '

open Classical in
/-- the text of an entry, printMatrices.py:22-26 -/
noncomputable def cell (fmt : ℂ → Text) (zeros : Text) (z : ℂ) : Text :=
  if zeros ≠ [] ∧ ‖z‖ < 1 / 10 ^ 7 then center (fmt z).length zeros else fmt z

/-- the text of a row, 21-27 -/
noncomputable def rowText (fmt : ℂ → Text) (zeros : Text) (r : List ℂ) : Text := r.flatMap (cell fmt zeros) ++ ['\n']

/-- `strM(M, pfmt, pfun, printzeros)`, printMatrices.py:8-30; `fmt z` is `pfmt % pfun(z)` -/
noncomputable def strM (M : Arr) (fmt : ℂ → Text) (zeros : Text) : Except Err Text :=
  match M with
  | .other => .error .typeError                                                            -- 19: '%d,%d' % M.shape
  | .mat c rows => .ok (['['] ++ dec rows.length ++ [','] ++ dec c ++ [']', '\n', '\n'] ++
      rows.flatMap (rowText fmt zeros) ++ ['\n'])

/-! ## Specification -/

/-- the value of a digit -/
def digitVal (c : Char) : ℕ := c.toNat - '0'.toNat

/-- the value of a sequence of digits -/
def value (t : Text) : ℕ := t.foldl (fun a c => 10 * a + digitVal c) 0

/-- `t` is a decimal number with `d` places after the point, blanks before it, whose value is `x` -/
def Decimal (d : ℕ) (t : Text) (x : ℝ) : Prop :=
  ∃ k sign ds fs, t = List.replicate k ' ' ++ sign ++ ds ++ ['.'] ++ fs ∧ ds ≠ [] ∧ fs.length = d ∧ (∀ c ∈ ds ++ fs, c.isDigit = true) ∧
    ((sign = ['-'] ∧ x = -((value (ds ++ fs) : ℝ) / 10 ^ d)) ∨ ((sign = [] ∨ sign = ['+']) ∧ x = (value (ds ++ fs) : ℝ) / 10 ^ d))

/-- `t` is `x` rounded to `d` places: a decimal within half a unit of the last place -/
def Rounded (d : ℕ) (t : Text) (x : ℝ) : Prop := ∃ y, Decimal d t y ∧ |y - x| ≤ 1 / (2 * 10 ^ d)

/-- the lines of a text: what stands between the newline characters -/
def lines : Text → List Text
  | [] => [[]]
  | c :: r => if c = '\n' then [] :: lines r else
    match lines r with
    | [] => [[c]]
    | l :: ls => (c :: l) :: ls

/-! ## Lemmas -/

theorem lines_ne : ∀ t, lines t ≠ []
  | [] => by simp [lines]
  | c :: r => by
    unfold lines
    split
    · simp
    · split <;> simp

theorem lines_cons (a : Text) (h : '\n' ∉ a) (b : Text) : lines (a ++ '\n' :: b) = a :: lines b := by
  induction a with
  | nil => simp [lines]
  | cons c a ih =>
    have hc : c ≠ '\n' := fun e => h (by simp [e])
    rw [List.cons_append, lines, if_neg hc, ih fun e => h (by simp [e])]

theorem digitVal_digitChar {d : ℕ} (h : d < 10) : digitVal (Nat.digitChar d) = d := by
  interval_cases d <;> rfl

theorem isDigit_digitChar {d : ℕ} (h : d < 10) : (Nat.digitChar d).isDigit = true := by
  interval_cases d <;> rfl

theorem value_append (a b : Text) : value (a ++ b) = value a * 10 ^ b.length + value b := by
  have h : ∀ (b : Text) (n : ℕ), b.foldl (fun a c => 10 * a + digitVal c) n = n * 10 ^ b.length + value b := by
    intro b
    induction b with
    | nil => intro n; simp [value]
    | cons c b ih =>
      intro n
      unfold value
      rw [List.foldl_cons, List.foldl_cons, ih, ih (10 * 0 + digitVal c), List.length_cons]
      ring
  unfold value
  rw [List.foldl_append, h]
  rfl

theorem value_digits (l : List ℕ) (h : ∀ d ∈ l, d < 10) : value ((l.map Nat.digitChar).reverse) = Nat.ofDigits 10 l := by
  induction l with
  | nil => rfl
  | cons d l ih =>
    rw [List.map_cons, List.reverse_cons, value_append, ih fun x hx => h x (by simp [hx]), Nat.ofDigits_cons]
    have : value [Nat.digitChar d] = d := by
      unfold value
      simp [digitVal_digitChar (h d (by simp))]
    rw [this]
    simp
    ring

theorem value_dec (n : ℕ) : value (dec n) = n := by
  unfold dec
  split
  · rename_i h; subst h; rfl
  · rw [value_digits _ fun d hd => Nat.digits_lt_base (by norm_num) hd, Nat.ofDigits_digits]

theorem dec_ne (n : ℕ) : dec n ≠ [] := by
  unfold dec
  split
  · simp
  · rename_i h
    simp [Nat.digits_ne_nil_iff_ne_zero.2 h]

theorem dec_digit {n : ℕ} {c : Char} (h : c ∈ dec n) : c.isDigit = true := by
  unfold dec at h
  split at h
  · simp at h; subst h; rfl
  · simp only [List.mem_reverse, List.mem_map] at h
    obtain ⟨d, hd, rfl⟩ := h
    exact isDigit_digitChar (Nat.digits_lt_base (by norm_num) hd)

theorem dec_length {n k : ℕ} (hk : 0 < k) : (dec n).length ≤ k ↔ n < 10 ^ k := by
  unfold dec
  split
  · rename_i h; subst h; simp; omega
  · simp only [List.length_reverse, List.length_map]
    exact Nat.digits_length_le_iff (by norm_num) n

theorem fracN_digit : ∀ {d n : ℕ} {c : Char}, c ∈ fracN d n → c.isDigit = true
  | 0, n, c, h => by simp [fracN] at h
  | d + 1, n, c, h => by
    rw [fracN, List.mem_append, List.mem_singleton] at h
    rcases h with h | rfl
    · exact fracN_digit h
    · exact isDigit_digitChar (Nat.mod_lt _ (by norm_num))

theorem fracN_length : ∀ (d n : ℕ), (fracN d n).length = d
  | 0, n => rfl
  | d + 1, n => by rw [fracN, List.length_append, fracN_length d]; rfl

theorem value_fracN : ∀ {d n : ℕ}, n < 10 ^ d → value (fracN d n) = n
  | 0, n, h => by
    have : n = 0 := by simpa using h
    subst this; rfl
  | d + 1, n, h => by
    rw [fracN, value_append, value_fracN (by rw [pow_succ] at h; omega)]
    have : value [Nat.digitChar (n % 10)] = n % 10 := by
      unfold value
      simp [digitVal_digitChar (Nat.mod_lt n (by norm_num : 10 > 0))]
    rw [this]
    simp only [List.length_singleton, pow_one]
    omega

theorem roundEven_near {x : ℝ} (hx : 0 ≤ x) : |(roundEven x : ℝ) - x| ≤ 1 / 2 := by
  have h1 := Nat.floor_le hx
  have h2 := Nat.lt_floor_add_one x
  unfold roundEven
  rw [abs_le]
  split
  · constructor <;> linarith
  · split
    · push_cast; constructor <;> linarith
    · split
      · constructor <;> linarith
      · push_cast; constructor <;> linarith

/-- the text of a number is the number rounded -/
theorem fix_rounded (w d : ℕ) (plus : Bool) (x : ℝ) : Rounded d (fix w d plus x) x := by
  have hp : (0 : ℝ) < 10 ^ d := by positivity
  have hnn : 0 ≤ |x| * 10 ^ d := by positivity
  have hr := roundEven_near hnn
  unfold fix Rounded
  simp only
  generalize roundEven (|x| * 10 ^ d) = n at hr
  have hv : value (dec (n / 10 ^ d) ++ fracN d (n % 10 ^ d)) = n := by
    rw [value_append, value_dec, value_fracN (Nat.mod_lt _ (by positivity)), fracN_length]
    exact Nat.div_add_mod' n (10 ^ d)
  have hd : ∀ c ∈ dec (n / 10 ^ d) ++ fracN d (n % 10 ^ d), c.isDigit = true := by
    intro c hc
    rcases List.mem_append.1 hc with h | h
    · exact dec_digit h
    · exact fracN_digit h
  have hclose : ∀ a : ℝ, |(n : ℝ) - a * 10 ^ d| ≤ 1 / 2 → |(n : ℝ) / 10 ^ d - a| ≤ 1 / (2 * 10 ^ d) := by
    intro a ha
    have e : (n : ℝ) / 10 ^ d - a = ((n : ℝ) - a * 10 ^ d) / 10 ^ d := by field_simp
    rw [e, abs_div, abs_of_pos hp, div_le_div_iff₀ hp (by positivity)]
    nlinarith
  have hpad : ∀ t, ∃ k, padLeft w t = List.replicate k ' ' ++ t := fun t => ⟨_, rfl⟩
  by_cases hx : x < 0
  · rw [if_pos hx]
    rw [abs_of_neg hx] at hr
    obtain ⟨k, hk⟩ := hpad (['-'] ++ dec (n / 10 ^ d) ++ ['.'] ++ fracN d (n % 10 ^ d))
    rw [hk]
    refine ⟨-((n : ℝ) / 10 ^ d), ⟨k, ['-'], dec (n / 10 ^ d), fracN d (n % 10 ^ d), ?_, dec_ne _, fracN_length _ _, hd, Or.inl ⟨rfl, by rw [hv]⟩⟩, ?_⟩
    · simp only [List.append_assoc]
    · have := hclose (-x) hr
      rw [← abs_neg]
      convert this using 2
      ring
  · rw [if_neg hx]
    rw [abs_of_nonneg (not_lt.1 hx)] at hr
    obtain ⟨k, hk⟩ := hpad ((if plus then ['+'] else []) ++ dec (n / 10 ^ d) ++ ['.'] ++ fracN d (n % 10 ^ d))
    rw [hk]
    refine ⟨(n : ℝ) / 10 ^ d, ⟨k, if plus then ['+'] else [], dec (n / 10 ^ d), fracN d (n % 10 ^ d), ?_, dec_ne _, fracN_length _ _, hd,
      Or.inr ⟨by cases plus <;> simp, by rw [hv]⟩⟩, hclose x hr⟩
    simp only [List.append_assoc]

theorem roundEven_le {x : ℝ} {m : ℕ} (h : x ≤ m) (hx : 0 ≤ x) : roundEven x ≤ m := by
  have h1 := roundEven_near hx
  rw [abs_le] at h1
  by_contra hc
  push Not at hc
  rcases lt_or_eq_of_le h with h' | h'
  · have h2 : (m : ℝ) + 1 ≤ roundEven x := by exact_mod_cast hc
    linarith
  · subst h'
    unfold roundEven at hc
    simp at hc

theorem padLeft_length (w : ℕ) (t : Text) (h : t.length ≤ w) : (padLeft w t).length = w := by
  unfold padLeft; simp; omega

theorem fix_length {w d k : ℕ} {plus : Bool} {x : ℝ} (hk : 0 < k) (hw : k + 1 + d + 1 ≤ w ∨ (plus = false ∧ 0 ≤ x ∧ k + 1 + d ≤ w))
    (h : |x| * 10 ^ d ≤ ((10 ^ (k + d) - 1 : ℕ) : ℝ)) : (fix w d plus x).length = w := by
  have hnn : 0 ≤ |x| * 10 ^ d := by positivity
  unfold fix
  simp only
  apply padLeft_length
  simp only [List.length_append, fracN_length, List.length_singleton]
  have hle : roundEven (|x| * 10 ^ d) ≤ 10 ^ (k + d) - 1 := roundEven_le h hnn
  have hpos : 0 < 10 ^ (k + d) := by positivity
  have := (dec_length (n := roundEven (|x| * 10 ^ d) / 10 ^ d) hk).2 (by
    rw [Nat.div_lt_iff_lt_mul (by positivity), ← pow_add]; omega)
  rcases hw with hw | ⟨hp, h0, hw⟩
  · have hs : (if x < 0 then ['-'] else if plus = true then ['+'] else []).length ≤ 1 := by split <;> [simp; split <;> simp]
    omega
  · rw [if_neg (not_lt.2 h0), hp]
    simp only [Bool.false_eq_true, if_false, List.length_nil]
    omega

theorem center_length (w : ℕ) (t : Text) (h : t.length ≤ w) : (center w t).length = w := by
  unfold center
  split
  · omega
  · simp only [List.length_append, List.length_replicate]
    split <;> omega

/-! ## C76 -/

/-- **C76, layout.** A matrix is written as a line with its size, an empty line, one line for each row, in order, made of the texts of
its entries in order, and an empty line. -/
theorem C76_layout (c : ℕ) (rows : List (List ℂ)) (fmt : ℂ → Text) (zeros : Text) (hf : ∀ r ∈ rows, ∀ z ∈ r, '\n' ∉ fmt z)
    (hz : '\n' ∉ zeros) : ∃ t, strM (.mat c rows) fmt zeros = .ok t ∧
    lines t = (['['] ++ dec rows.length ++ [','] ++ dec c ++ [']']) :: [] :: rows.map (fun r => r.flatMap (cell fmt zeros)) ++ [[], []] := by
  refine ⟨_, rfl, ?_⟩
  have hdec : ∀ n, '\n' ∉ dec n := fun n h => by have := dec_digit h; revert this; decide
  have hcell : ∀ r ∈ rows, ∀ z ∈ r, '\n' ∉ cell fmt zeros z := by
    intro r hr z hzr
    unfold cell
    split
    · unfold center
      split
      · exact hz
      · simp only [List.mem_append, List.mem_replicate, not_or]
        exact ⟨⟨fun h => by have := h.2; revert this; decide, hz⟩, fun h => by have := h.2; revert this; decide⟩
    · exact hf r hr z hzr
  have hrows : lines (rows.flatMap (rowText fmt zeros) ++ ['\n']) = rows.map (fun r => r.flatMap (cell fmt zeros)) ++ [[], []] := by
    clear hf
    induction rows with
    | nil => simp [lines]
    | cons r rows ih =>
      rw [List.flatMap_cons, rowText, List.append_assoc, List.append_assoc, List.singleton_append, lines_cons, ih]
      · rfl
      · exact fun r' hr' => hcell r' (by simp [hr'])
      · intro h
        obtain ⟨z, hzr, h⟩ := List.mem_flatMap.1 h
        exact hcell r (by simp) z hzr h
  have e : ['['] ++ dec rows.length ++ [','] ++ dec c ++ [']', '\n', '\n'] ++ rows.flatMap (rowText fmt zeros) ++ ['\n'] =
      (['['] ++ dec rows.length ++ [','] ++ dec c ++ [']']) ++ '\n' :: ([] ++ '\n' :: (rows.flatMap (rowText fmt zeros) ++ ['\n'])) := by
    simp
  rw [e, lines_cons, lines_cons, hrows]
  · simp
  · simp
  · simp only [List.mem_append, not_or, List.mem_singleton]
    exact ⟨⟨⟨⟨by decide, hdec _⟩, by decide⟩, hdec _⟩, by decide⟩

/-- **C76, columns.** If the texts of all entries of a row have the same width and the symbol is not wider, the text of each entry, written
or replaced by the symbol, stands in its column. -/
theorem C76_columns {r : List ℂ} {fmt : ℂ → Text} {zeros : Text} {w : ℕ} (hw : ∀ z ∈ r, (fmt z).length = w) (hz : zeros.length ≤ w) :
    (r.flatMap (cell fmt zeros)).length = w * r.length ∧
    ∀ (j : ℕ) (z : ℂ), r[j]? = some z → ((r.flatMap (cell fmt zeros)).drop (w * j)).take w = cell fmt zeros z := by
  have hc : ∀ z ∈ r, (cell fmt zeros z).length = w := by
    intro z hzr
    unfold cell
    split
    · rw [center_length _ _ (by rw [hw z hzr]; exact hz), hw z hzr]
    · exact hw z hzr
  clear hw
  induction r with
  | nil => simp
  | cons a r ih =>
    obtain ⟨i1, i2⟩ := ih fun z h => hc z (by simp [h])
    have ha := hc a (by simp)
    refine ⟨by rw [List.flatMap_cons, List.length_append, i1, ha, List.length_cons]; ring, ?_⟩
    intro j z hj
    rw [List.flatMap_cons]
    cases j with
    | zero =>
      simp only [List.getElem?_cons_zero, Option.some.injEq] at hj
      subst hj
      rw [Nat.mul_zero, List.drop_zero, ← ha, List.take_left]
    | succ j =>
      rw [List.getElem?_cons_succ] at hj
      rw [Nat.mul_succ, Nat.add_comm, ← List.drop_drop]
      have : (cell fmt zeros a ++ r.flatMap (cell fmt zeros)).drop w = r.flatMap (cell fmt zeros) := by rw [← ha, List.drop_left]
      rw [this]
      exact i2 j z hj

/-- **C76, widths.** The texts of the entries of a scattering matrix (or of any matrix with parts, moduli and levels in dB below 100 and,
for `printMA`, below 10) have the same width for each of the four formats: 17, 19, 17 and 9 characters. -/
theorem C76_widths {z : ℂ} : (|z.re| ≤ 99.999 → |z.im| ≤ 99.999 → (fmtRI z).length = 17) ∧
    (‖z‖ ≤ 9.99999 → (fmtMA z).length = 19) ∧ (z ≠ 0 → |dB z| ≤ 99.999 → (fmtDB z).length = 17) ∧
    (|z.re| ≤ 99.999 → (fmtR z).length = 9) := by
  have hdeg : |deg z| ≤ 180 := by
    unfold deg
    rw [abs_div, abs_mul, abs_of_pos Real.pi_pos, div_le_iff₀ Real.pi_pos]
    have := Complex.abs_arg_le_pi z
    rw [abs_of_pos (by norm_num : (0 : ℝ) < 180)]
    linarith
  refine ⟨fun h h' => ?_, fun h => ?_, fun h0 h => ?_, fun h => ?_⟩
  · unfold fmtRI
    rw [List.length_append, List.length_append, fix_length (k := 2) (by norm_num) (Or.inl (by norm_num)) (by push_cast; norm_num; linarith),
      fix_length (k := 2) (by norm_num) (Or.inl (by norm_num)) (by push_cast; norm_num; linarith)]
    rfl
  · unfold fmtMA
    rw [List.length_append, List.length_append, List.length_append,
      fix_length (k := 1) (by norm_num) (Or.inl (by norm_num)) (by rw [abs_of_nonneg (norm_nonneg z)]; norm_num; linarith),
      fix_length (k := 3) (by norm_num) (Or.inl (by norm_num)) (by norm_num; linarith)]
    rfl
  · unfold fmtDB
    rw [if_neg h0, List.length_append, List.length_append,
      fix_length (k := 2) (by norm_num) (Or.inl (by norm_num)) (by norm_num; linarith),
      fix_length (k := 3) (by norm_num) (Or.inl (by norm_num)) (by norm_num; linarith)]
    rfl
  · unfold fmtR
    rw [List.length_append, fix_length (k := 2) (by norm_num) (Or.inl (by norm_num)) (by norm_num; linarith)]
    rfl

/-- **C76, widths (zero in dB).** The text of a zero entry of `printDB` is `-inf`, in the width of the others. -/
theorem C76_zero_dB : (fmtDB 0).length = 17 ∧ ∃ t, fmtDB 0 = "   -inf".toList ++ t := by
  have hd : deg 0 = 0 := by simp [deg]
  refine ⟨?_, ?_⟩
  · unfold fmtDB
    rw [if_pos rfl, List.length_append, List.length_append,
      fix_length (k := 3) (by norm_num) (Or.inl (by norm_num)) (by rw [hd]; norm_num)]
    rfl
  · unfold fmtDB
    rw [if_pos rfl, List.append_assoc]
    exact ⟨_, rfl⟩

/-- **C76, accuracy.** The text of an entry is either the symbol between blanks, and then the entry is smaller than 1e-7, or the text of
the format: its numbers are real and imaginary part, modulus and angle, level and angle, or real part, rounded. -/
theorem C76_accurate (fmt : ℂ → Text) (zeros : Text) (z : ℂ) :
    ((‖z‖ < 1 / 10 ^ 7 ∧ zeros ≠ [] ∧ ∃ m n, cell fmt zeros z = List.replicate m ' ' ++ zeros ++ List.replicate n ' ') ∨ cell fmt zeros z = fmt z) ∧
    (∃ a b, fmtRI z = a ++ b ++ "j, ".toList ∧ Rounded 3 a z.re ∧ Rounded 3 b z.im) ∧
    (∃ a b, fmtMA z = a ++ " ".toList ++ b ++ "°, ".toList ∧ Rounded 5 a ‖z‖ ∧ Rounded 2 b (deg z)) ∧
    (z ≠ 0 → ∃ a b, fmtDB z = a ++ b ++ "°, ".toList ∧ Rounded 3 a (20 * Real.logb 10 ‖z‖) ∧ Rounded 1 b (deg z)) ∧
    (∃ a, fmtR z = a ++ ", ".toList ∧ Rounded 3 a z.re) := by
  refine ⟨?_, ⟨_, _, rfl, fix_rounded _ _ _ _, fix_rounded _ _ _ _⟩, ⟨_, _, rfl, fix_rounded _ _ _ _, fix_rounded _ _ _ _⟩, fun h => ?_,
    ⟨_, rfl, fix_rounded _ _ _ _⟩⟩
  · unfold cell
    split
    · rename_i h
      refine Or.inl ⟨h.2, h.1, ?_⟩
      unfold center
      split
      · exact ⟨0, 0, by simp⟩
      · exact ⟨_, _, rfl⟩
    · exact Or.inr rfl
  · unfold fmtDB
    rw [if_neg h]
    exact ⟨_, _, rfl, fix_rounded _ _ _ _, fix_rounded _ _ _ _⟩

/-- **C76, no symbol.** With an empty symbol every entry is written. -/
theorem C76_all_written (fmt : ℂ → Text) (z : ℂ) : cell fmt [] z = fmt z := by
  unfold cell
  rw [if_neg (by simp)]

/-- **C76, violated: small numbers.** Whatever the format, an entry smaller than 1e-7 is written as zero is, even if the format would show
its digits (capacitances, inductances and their products are of this size). -/
theorem C76_small_lost {fmt : ℂ → Text} {zeros : Text} (hz : zeros ≠ []) {z : ℂ} (h : ‖z‖ < 1 / 10 ^ 7) (hw : (fmt z).length = (fmt 0).length) :
    cell fmt zeros z = cell fmt zeros 0 := by
  unfold cell
  rw [if_pos ⟨hz, h⟩, if_pos ⟨hz, by simp⟩, hw]

/-- **C76, not a matrix.** Anything but a matrix raises TypeError. -/
theorem C76_not_matrix (fmt : ℂ → Text) (zeros : Text) : strM .other fmt zeros = .error .typeError := rfl

/-! ## Examples -/

/-- a row with a small entry: the columns are kept (17 characters each), the small entry is the symbol in the middle of its column -/
theorem C76_columns_witness : let r : List ℂ := [1, 1 / 10 ^ 9, -1]
    (r.flatMap (cell fmtRI ['0'])).length = 51 ∧
    ((r.flatMap (cell fmtRI ['0'])).drop 17).take 17 = List.replicate 8 ' ' ++ ['0'] ++ List.replicate 8 ' ' := by
  intro r
  have hw : ∀ z ∈ r, (fmtRI z).length = 17 := by
    intro z hz
    simp only [r, List.mem_cons, List.not_mem_nil, or_false] at hz
    have e : ((1 : ℂ) / 10 ^ 9) = ((1 / 10 ^ 9 : ℝ) : ℂ) := by push_cast; rfl
    rcases hz with rfl | rfl | rfl
    · exact C76_widths.1 (by norm_num) (by norm_num)
    · rw [e]
      exact C76_widths.1 (by rw [Complex.ofReal_re, abs_of_pos (by positivity)]; norm_num) (by rw [Complex.ofReal_im]; norm_num)
    · exact C76_widths.1 (by norm_num) (by norm_num)
  obtain ⟨h1, h2⟩ := C76_columns (zeros := ['0']) hw (by simp)
  refine ⟨h1, ?_⟩
  have := h2 1 (1 / 10 ^ 9) rfl
  rw [Nat.mul_one] at this
  rw [this]
  unfold cell
  have hn : ‖((1 : ℂ) / 10 ^ 9)‖ < 1 / 10 ^ 7 := by
    rw [Complex.norm_div, Complex.norm_pow]; norm_num
  rw [if_pos ⟨by simp, hn⟩, hw _ (by simp [r])]
  rfl

/-- the hypotheses of `C76_layout` are met -/
theorem C76_layout_witness : ∃ t, strM (.mat 2 [[1, 0], [0, 1]]) (fun _ => ['x', ',']) ['0'] = .ok t ∧ (lines t).length = 6 := by
  obtain ⟨t, h1, h2⟩ := C76_layout 2 [[1, 0], [0, 1]] (fun _ => ['x', ',']) ['0'] (by simp) (by simp)
  exact ⟨t, h1, by rw [h2]; simp⟩

/-- the hypotheses of `C76_small_lost` are met by a format that would show the digits -/
theorem C76_small_witness : cell (fun z => if z = 0 then ['a'] else ['b']) ['0'] (1 / 10 ^ 9) =
    cell (fun z => if z = 0 then ['a'] else ['b']) ['0'] 0 := by
  apply C76_small_lost (by simp)
  · rw [Complex.norm_div, Complex.norm_pow]; norm_num
  · simp

end PyRFtk.PrintM
