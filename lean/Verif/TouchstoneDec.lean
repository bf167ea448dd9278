import Verif.TouchstoneTrip

/-!
# Fixed-point decimal text: a concrete instance of number printing and reading

`%w.df` of Python prints the number rounded to `d` decimals, right-aligned in `w` characters.  Differences with Python kept out of
the model: ties (Python rounds the exact binary value), and the sign of a negative number that rounds to zero (both read as 0).
-/

namespace PyRFtk.TSF

/-- the digits of `m` with leading zeros up to `d` -/
def padDigits (d m : ℕ) : Text := List.replicate (d - (Nat.toDigits 10 m).length) '0' ++ Nat.toDigits 10 m

/-- `n / 10^d` written with `d` decimals; `plus` is the text put before a non-negative number -/
def decText (plus : Text) (d : ℕ) (n : ℤ) : Text :=
  (if n < 0 then ['-'] else plus) ++ (Nat.toDigits 10 (n.natAbs / 10 ^ d) ++ '.' :: padDigits d (n.natAbs % 10 ^ d))

/-- `'%w.df' % x` (`plus = []`) and `'%+w.df' % x` (`plus = ['+']`) -/
noncomputable def fixedText (plus : Text) (w d : ℕ) (x : Num) : Text :=
  let t := match x with
    | none => "-inf".toList
    | some x => decText plus d (round (x * 10 ^ d))
  List.replicate (w - t.length) ' ' ++ t

/-- the value of a string of digits, with or without decimals -/
def parseAbs (l : Text) : Option ℚ :=
  let a := l.takeWhile isDigit
  match l.dropWhile isDigit with
  | [] => if a ≠ [] then some (Nat.ofDigitChars 10 a 0) else none
  | '.' :: b =>
    if b.all isDigit = true ∧ (a ≠ [] ∨ b ≠ []) then some (Nat.ofDigitChars 10 a 0 + (Nat.ofDigitChars 10 b 0 : ℚ) / 10 ^ b.length)
    else none
  | _ => none

/-- `float(s)` on plain decimal numbers and `-inf` -/
noncomputable def parseDec (l : Text) : Option Num :=
  if l = "-inf".toList then some none
  else match l with
    | '-' :: r => (parseAbs r).map fun q : ℚ => some (-(q : ℝ))
    | '+' :: r => (parseAbs r).map fun q : ℚ => some (q : ℝ)
    | r => (parseAbs r).map fun q : ℚ => some (q : ℝ)

noncomputable def decIO : NumIO := ⟨parseDec, fun _ => none⟩

theorem isDigit_digits {n : ℕ} {c : Char} (h : c ∈ Nat.toDigits 10 n) : isDigit c = true := by
  have := Nat.isDigit_of_mem_toDigits (by norm_num) (by norm_num) h
  unfold Char.isDigit at this
  simpa [isDigit, Char.le_def] using this

theorem padDigits_digit {d m : ℕ} {c : Char} (h : c ∈ padDigits d m) : isDigit c = true := by
  rcases List.mem_append.1 h with h | h
  · rw [(List.mem_replicate.1 h).2]; rfl
  · exact isDigit_digits h

theorem padDigits_length {d m : ℕ} (hd : 0 < d) (hm : m < 10 ^ d) : (padDigits d m).length = d := by
  have h1 := (Nat.length_toDigits_le_iff (b := 10) (n := m) (by norm_num) hd).2 hm
  unfold padDigits
  rw [List.length_append, List.length_replicate]
  omega

theorem padDigits_value (d m : ℕ) : Nat.ofDigitChars 10 (padDigits d m) 0 = m := by
  unfold padDigits
  rw [Nat.ofDigitChars_append, Nat.ofDigitChars_replicate_zero, Nat.mul_zero, Nat.ofDigitChars_toDigits (by norm_num) (by norm_num)]

theorem parseAbs_text {d : ℕ} (hd : 0 < d) (m : ℕ) :
    parseAbs (Nat.toDigits 10 (m / 10 ^ d) ++ '.' :: padDigits d (m % 10 ^ d)) = some ((m : ℚ) / 10 ^ d) := by
  have hlt : m % 10 ^ d < 10 ^ d := Nat.mod_lt _ (by positivity)
  obtain ⟨e1, e2⟩ := takeWhile_digits (a := Nat.toDigits 10 (m / 10 ^ d)) (t := '.' :: padDigits d (m % 10 ^ d)) fun c hc => isDigit_digits hc
  have e3 : ('.' :: padDigits d (m % 10 ^ d)).takeWhile isDigit = [] := by simp [isDigit]
  have e4 : ('.' :: padDigits d (m % 10 ^ d)).dropWhile isDigit = '.' :: padDigits d (m % 10 ^ d) := by simp [isDigit]
  rw [e3, List.append_nil] at e1
  rw [e4] at e2
  unfold parseAbs
  rw [e1, e2]
  simp only
  rw [if_pos ⟨List.all_eq_true.2 fun c hc => padDigits_digit hc, Or.inl Nat.toDigits_ne_nil⟩]
  rw [padDigits_value, padDigits_length hd hlt, Nat.ofDigitChars_toDigits (by norm_num) (by norm_num)]
  congr 1
  have h10 : (10 : ℚ) ^ d ≠ 0 := by positivity
  rw [eq_div_iff h10, add_mul, div_mul_cancel₀ _ h10]
  have := Nat.div_add_mod m (10 ^ d)
  have : ((10 ^ d * (m / 10 ^ d) + m % 10 ^ d : ℕ) : ℚ) = m := by exact_mod_cast this
  push_cast at this
  linear_combination this

theorem digits_head {m : ℕ} {t : Text} {c : Char} {r : Text} (h : Nat.toDigits 10 m ++ t = c :: r) : isDigit c = true := by
  cases hd : Nat.toDigits 10 m with
  | nil => exact absurd hd Nat.toDigits_ne_nil
  | cons x xs =>
    rw [hd, List.cons_append] at h
    injection h with h1 h2
    rw [← h1]
    exact isDigit_digits (n := m) (by rw [hd]; simp)

theorem parseDec_text {plus : Text} (hplus : plus = [] ∨ plus = ['+']) {d : ℕ} (hd : 0 < d) (n : ℤ) :
    parseDec (decText plus d n) = some (some ((n : ℝ) / 10 ^ d)) := by
  have hcast : ((((n.natAbs : ℚ) / 10 ^ d : ℚ)) : ℝ) = (n.natAbs : ℝ) / 10 ^ d := by push_cast; rfl
  generalize hD : Nat.toDigits 10 (n.natAbs / 10 ^ d) ++ '.' :: padDigits d (n.natAbs % 10 ^ d) = D
  have hDv : parseAbs D = some ((n.natAbs : ℚ) / 10 ^ d) := by rw [← hD]; exact parseAbs_text hd n.natAbs
  have hDne : D ≠ [] := by rw [← hD]; simp
  have hDh : ∀ c r, D = c :: r → isDigit c = true := by
    intro c r h
    rw [← hD] at h
    exact digits_head h
  have hinf : "-inf".toList = ['-', 'i', 'n', 'f'] := by decide
  unfold decText
  rw [hD]
  unfold parseDec
  rw [hinf]
  by_cases hn : n < 0
  · rw [if_pos hn, if_neg]
    · simp only [List.singleton_append]
      rw [hDv]
      simp only [Option.map_some, hcast]
      congr 2
      have : (n : ℝ) = -(n.natAbs : ℝ) := by
        rw [Nat.cast_natAbs, abs_of_neg hn]; push_cast; ring
      rw [this]; ring
    · intro h
      simp only [List.singleton_append, List.cons.injEq, true_and] at h
      have := hDh _ _ h
      exact absurd this (by decide)
  · have hcast2 : (n.natAbs : ℝ) = (n : ℝ) := by
      rw [Nat.cast_natAbs, abs_of_nonneg (not_lt.1 hn)]
    rw [if_neg hn]
    rcases hplus with rfl | rfl
    · rw [List.nil_append, if_neg]
      · cases hc : D with
        | nil => exact absurd hc hDne
        | cons c r =>
          have hcd := hDh c r hc
          have h1 : c ≠ '-' := by rintro rfl; exact absurd hcd (by decide)
          have h2 : c ≠ '+' := by rintro rfl; exact absurd hcd (by decide)
          split
          · rename_i h; injection h with h; exact absurd h h1
          · rename_i h; injection h with h; exact absurd h h2
          · rw [← hc, hDv]
            simp only [Option.map_some, hcast, hcast2]
      · intro h
        have := hDh _ _ h
        exact absurd this (by decide)
    · rw [if_neg]
      · simp only [List.singleton_append]
        rw [hDv]
        simp only [Option.map_some, hcast, hcast2]
      · intro h
        simp at h

/-- the number printed with `d` decimals -/
noncomputable def toDecimals (d : ℕ) (x : ℝ) : ℝ := (round (x * 10 ^ d) : ℝ) / 10 ^ d

theorem toDecimals_error (d : ℕ) (x : ℝ) : |toDecimals d x - x| ≤ 1 / (2 * 10 ^ d) := by
  have h := abs_sub_round (x * 10 ^ d)
  have h10 : (0 : ℝ) < 10 ^ d := by positivity
  have e : toDecimals d x - x = -(x * 10 ^ d - round (x * 10 ^ d)) / 10 ^ d := by
    unfold toDecimals; field_simp; ring
  rw [e, abs_div, abs_neg, abs_of_pos h10, div_le_div_iff₀ h10 (by positivity)]
  nlinarith

theorem prints_fixed {plus : Text} (hplus : plus = [] ∨ plus = ['+']) (w : ℕ) {d : ℕ} (hd : 0 < d) (x : Num) :
    Prints decIO (fixedText plus w d x) (x.map (toDecimals d)) := by
  cases x with
  | none =>
    refine ⟨_, "-inf".toList, rfl, by decide, by decide, by decide, ?_⟩
    simp only [decIO, parseDec, if_true]
    rfl
  | some x =>
    refine ⟨_, decText plus d (round (x * 10 ^ d)), rfl, ?_, ?_, ?_, parseDec_text hplus hd _⟩
    · unfold decText; simp
    · intro c hc
      have : c = '-' ∨ c = '+' ∨ c = '.' ∨ isDigit c = true := by
        unfold decText at hc
        simp only [List.mem_append, List.mem_cons] at hc
        rcases hc with hc | hc | hc | hc
        · split at hc
          · simp at hc; exact Or.inl hc
          · rcases hplus with rfl | rfl
            · cases hc
            · simp at hc; exact Or.inr (Or.inl hc)
        · exact Or.inr (Or.inr (Or.inr (isDigit_digits hc)))
        · exact Or.inr (Or.inr (Or.inl hc))
        · exact Or.inr (Or.inr (Or.inr (padDigits_digit hc)))
      rcases this with rfl | rfl | rfl | h
      · decide
      · decide
      · decide
      · obtain ⟨n, rfl⟩ := digit_nat h
        clear h hc
        revert n; decide
    · cases hc : decText plus d (round (x * 10 ^ d)) with
      | nil => simp
      | cons c r =>
        simp only [List.head?_cons, ne_eq, Option.some.injEq]
        rintro rfl
        unfold decText at hc
        by_cases hn : round (x * 10 ^ d) < 0
        · rw [if_pos hn] at hc; simp at hc
        · rw [if_neg hn] at hc
          rcases hplus with rfl | rfl
          · exact absurd (digits_head hc) (by decide)
          · simp at hc

/-- no keyword is a decimal number -/
theorem dec_keywords : KeywordsNotNumbers decIO := by
  intro w hw
  have : w = ['S'] ∨ w = ['Y'] ∨ w = ['Z'] ∨ w = ['M', 'A'] ∨ w = ['R', 'I'] ∨ w = ['D', 'B'] ∨ w = ['H', 'Z'] ∨ w = ['K', 'H', 'Z'] ∨
      w = ['M', 'H', 'Z'] ∨ w = ['G', 'H', 'Z'] ∨ w = ['R'] := by
    rcases hw with h | h | h | h
    · obtain ⟨k, hk⟩ := Option.isSome_iff_exists.1 h
      have := List.find?_some hk
      simp only [decide_eq_true_eq] at this
      cases k <;> simp [Kind.text] at this <;> simp [← this]
    · obtain ⟨k, hk⟩ := Option.isSome_iff_exists.1 h
      have := List.find?_some hk
      simp only [decide_eq_true_eq] at this
      cases k <;> simp [Fmt.text] at this <;> simp [← this]
    · obtain ⟨k, hk⟩ := Option.isSome_iff_exists.1 h
      have := List.find?_some hk
      simp only [decide_eq_true_eq] at this
      cases k <;> simp [FUnit.text] at this <;> simp [← this]
    · simp [h]
  have hinf : "-inf".toList = ['-', 'i', 'n', 'f'] := by decide
  rcases this with rfl | rfl | rfl | rfl | rfl | rfl | rfl | rfl | rfl | rfl | rfl <;>
    simp [decIO, parseDec, hinf, parseAbs, isDigit]

/-- the default number formats of WriteTSF, WriteTSF.py:91-98: `('9.5f', '15.12f', '+8.4f')` for DB and MA, `('8.4f', '10.7f',
'10.7f')` for RI, with the indent of continuation lines -/
noncomputable def defaultP : Fmt → Printf × ℕ
  | .RI => (⟨fixedText [] 8 4, fixedText [] 10 7, fixedText [] 10 7⟩, 9)
  | _ => (⟨fixedText [] 9 5, fixedText [] 15 12, fixedText ['+'] 8 4⟩, 10)

/-- what the default formats keep of a number -/
noncomputable def defaultR : Fmt → Rounding
  | .RI => ⟨toDecimals 4, toDecimals 7, toDecimals 7⟩
  | _ => ⟨toDecimals 5, toDecimals 12, toDecimals 4⟩

theorem default_good (f : Fmt) : GoodPrintf decIO (defaultP f).1 (defaultR f) := by
  cases f with
  | RI => exact ⟨prints_fixed (Or.inl rfl) 8 (by norm_num), prints_fixed (Or.inl rfl) 10 (by norm_num), prints_fixed (Or.inl rfl) 10 (by norm_num)⟩
  | MA => exact ⟨prints_fixed (Or.inl rfl) 9 (by norm_num), prints_fixed (Or.inl rfl) 15 (by norm_num), prints_fixed (Or.inr rfl) 8 (by norm_num)⟩
  | DB => exact ⟨prints_fixed (Or.inl rfl) 9 (by norm_num), prints_fixed (Or.inl rfl) 15 (by norm_num), prints_fixed (Or.inr rfl) 8 (by norm_num)⟩

/-- how far a matrix element of size `m` read back from a file in the default number formats can be off -/
noncomputable def defaultError : Fmt → ℝ → ℝ
  | .RI, _ => 1 / (2 * 10 ^ 7) + 1 / (2 * 10 ^ 7)
  | .MA, m => 1 / (2 * 10 ^ 12) + m * (1 / (2 * 10 ^ 4) * Real.pi / 180)
  | .DB, m => m * ((10 : ℝ) ^ ((1 : ℝ) / (2 * 10 ^ 12) / 20) - 1 + 1 / (2 * 10 ^ 4) * Real.pi / 180)

/-- C38: with WriteTSF's default number formats, and numbers written and parsed as fixed-point decimals, writing and reading back
(on the reference of the file) always succeeds, gives the port names, every frequency to half a unit in its last decimal and every
matrix element to the precision stated by `defaultError`, whatever the number of ports and frequencies. -/
theorem C38_default_formats {isnt : ℕ → ℕ → Bool} {N : ℕ} {o : WObj N} {fs : List ℝ} {format comments ver date : Text} {u u' : FUnit}
    {f : Fmt} {z : ℝ} (hver : Plain ver) (hdate : Plain date) (hc : '!' ∉ comments) (hm : Means decIO format u f z) (hz : z ≠ 0)
    (hN : 0 < N) (hports : o.ports.length = N) (hnames : ∀ n ∈ o.ports, GoodName n)
    (hfs : usedFs o fs ≠ []) {Sd : ℝ → Matrix (Fin N) (Fin N) ℂ} (hget : ∀ x ∈ usedFs o fs, o.getS x z = .ok (Sd x))
    {kw : Kw} (hu : unitOf (upper kw.funit) = some u') (hkp : kw.ports = .absent) (hkz : kw.Zbase = some z ∨ kw.Zbase = none ∧ z = 50) :
    ∃ T R l', writeTSF decIO defaultP isnt ver date o fs format comments = .ok T ∧ readTSF decIO kw (Misc.strLines T) = .ok R ∧
      R.ports = some o.ports ∧
      List.Forall₂ (fun x y => |y - x / u'.hz| ≤ (if f = .RI then 1 / (2 * 10 ^ 4) else 1 / (2 * 10 ^ 5)) * (u.hz / u'.hz))
        (usedFs o fs) R.fs ∧
      R.Ss = .d3 N N l' ∧
      List.Forall₂ (fun x S' => ∀ i j, ‖S' i j - Sd x i j‖ ≤ defaultError f ‖Sd x i j‖) (usedFs o fs) l' := by
  obtain ⟨T, R, h1, h2, h3, h4, h5⟩ := C38_same_reference (isnt := isnt) (P := defaultP) (r := defaultR f)
    ⟨dec_keywords, default_good f, hver, hdate, hc⟩ hm hz hN hports hnames hfs hget hu hkp hkz
  refine ⟨T, R, _, h1, h2, h3, ?_, h5, ?_⟩
  · rw [h4, List.forall₂_map_right_iff, List.forall₂_same]
    intro x _
    have hpos : ∀ v : FUnit, 0 < v.hz := by intro v; cases v <;> simp [FUnit.hz]
    have e : (defaultR f).f (x / u.hz) * (u.hz / u'.hz) - x / u'.hz = ((defaultR f).f (x / u.hz) - x / u.hz) * (u.hz / u'.hz) := by
      have := (hpos u).ne'
      have := (hpos u').ne'
      field_simp
    rw [e, abs_mul, abs_of_pos (div_pos (hpos u) (hpos u'))]
    refine mul_le_mul_of_nonneg_right ?_ (div_pos (hpos u) (hpos u')).le
    cases f
    · simpa [defaultR] using toDecimals_error 5 (x / u.hz)
    · simpa [defaultR] using toDecimals_error 4 (x / u.hz)
    · simpa [defaultR] using toDecimals_error 5 (x / u.hz)
  · rw [List.forall₂_map_right_iff, List.forall₂_same]
    intro x _ i j
    simp only [Matrix.map_apply]
    cases f with
    | RI => exact (C38_rounding_error (defaultR .RI) (fun x => toDecimals_error 7 x) (fun x => toDecimals_error 7 x) (Sd x i j)).1
    | MA => exact (C38_rounding_error (defaultR .MA) (fun x => toDecimals_error 12 x) (fun x => toDecimals_error 4 x) (Sd x i j)).2.1
    | DB => exact (C38_rounding_error (defaultR .DB) (fun x => toDecimals_error 12 x) (fun x => toDecimals_error 4 x) (Sd x i j)).2.2

/-! ## a concrete file -/

theorem decIO_50 : decIO.float ['5', '0'] = some (some 50) := by
  have hinf : "-inf".toList = ['-', 'i', 'n', 'f'] := by decide
  simp [decIO, parseDec, hinf, parseAbs, isDigit, Nat.ofDigitChars]

/-- the option text `MHZ S DB R 50` -/
theorem means_default : Means decIO "MHZ S DB R 50".toList .MHZ .DB 50 := by
  have e : "MHZ S DB R 50".toList = [] ++ Piece.text (.unit .MHZ) ++ ([' '] ++ Piece.text .kind ++ ([' '] ++ Piece.text (.fmt .DB) ++
    ([' '] ++ Piece.text (.ref [' '] ['5', '0']) ++ []))) := by decide
  refine ⟨[.unit .MHZ, .kind, .fmt .DB, .ref [' '] ['5', '0']], [' '], ['5', '0'], ?_, decIO_50, Or.inl (List.Perm.refl _)⟩
  rw [e]
  refine .cons trivial (by simp [Blanks]) (.cons trivial (by simp [Blanks]) (.cons trivial (by simp [Blanks]) (.cons ?_ (by simp [Blanks])
    .nil (Or.inl rfl)) ?_) ?_) ?_
  · exact ⟨by simp, by simp [Blanks], Or.inl ⟨by simp, by simp [isDigit]⟩⟩
  all_goals right; exact ⟨' ', _, rfl, Or.inl rfl⟩

/-- two frequencies of a three-port -/
noncomputable def exObj : WObj 3 where
  ports := [['a'], ['b'], ['c', '1']]
  fs := [1000000, 2000000]
  getS := fun _ _ => .ok (fun i j => if i = j then 0 else 1 / 2)

/-- all hypotheses of the round trip hold for it -/
theorem C38_witness : ∃ T R l', writeTSF decIO defaultP (fun a b => decide (a ≠ b)) ['1'] ['d'] exObj [] "MHZ S DB R 50".toList "x".toList = .ok T ∧
    readTSF decIO ⟨none, ['M', 'H', 'z'], .absent⟩ (Misc.strLines T) = .ok R ∧ R.ports = some exObj.ports ∧ R.Ss = .d3 3 3 l' ∧ l'.length = 2 := by
  obtain ⟨T, R, l', h1, h2, h3, h4, h5, h6⟩ := C38_default_formats (isnt := fun a b => decide (a ≠ b)) (N := 3) (o := exObj) (fs := [])
    (comments := "x".toList) (ver := ['1']) (date := ['d']) (format := "MHZ S DB R 50".toList) (u' := .MHZ)
    (by simp [Plain]) (by simp [Plain]) (by decide) means_default (by norm_num) (by norm_num) rfl
    (by
      intro n hn
      simp [exObj] at hn
      rcases hn with rfl | rfl | rfl <;> exact ⟨by decide, by decide, by decide⟩)
    (by simp [usedFs, exObj]) (Sd := fun _ i j => if i = j then 0 else 1 / 2) (fun x _ => rfl)
    (kw := ⟨none, ['M', 'H', 'z'], .absent⟩) (by decide) rfl (Or.inr ⟨rfl, rfl⟩)
  refine ⟨T, R, l', h1, h2, h3, h5, ?_⟩
  have := h6.length_eq
  simpa [usedFs, exObj] using this.symm

end PyRFtk.TSF
