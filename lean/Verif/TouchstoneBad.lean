import Verif.TouchstoneStr
import Verif.ConvGenProps

/-!
# C38: files that do not come back as written (as found)
-/

namespace PyRFtk.TSF

theorem parseDec_tok (a : List Char) (ha : a ≠ []) (hd : ∀ c ∈ a, isDigit c = true) :
    parseDec a = some (some ((Nat.ofDigitChars 10 a 0 : ℕ) : ℝ)) := by
  have hinf : "-inf".toList = ['-', 'i', 'n', 'f'] := by decide
  obtain ⟨e1, e2⟩ := takeWhile_digits (a := a) (t := []) hd
  simp only [List.append_nil, List.takeWhile_nil, List.dropWhile_nil] at e1 e2
  have hp : parseAbs a = some ((Nat.ofDigitChars 10 a 0 : ℕ) : ℚ) := by
    unfold parseAbs
    rw [e1, e2]
    simp only
    rw [if_pos ha]
  unfold parseDec
  rw [hinf, if_neg]
  · cases a with
    | nil => exact absurd rfl ha
    | cons c r =>
      have hcd := hd c (by simp)
      have h1 : c ≠ '-' := by rintro rfl; exact absurd hcd (by decide)
      have h2 : c ≠ '+' := by rintro rfl; exact absurd hcd (by decide)
      split
      · rename_i h; injection h with h; exact absurd h h1
      · rename_i h; injection h with h; exact absurd h h2
      · rw [hp]; simp
  · rintro rfl
    exact absurd (hd '-' (by simp)) (by decide)

theorem means_ri : Means decIO "MHZ S RI R 50".toList .MHZ .RI 50 := by
  have e : "MHZ S RI R 50".toList = [] ++ Piece.text (.unit .MHZ) ++ ([' '] ++ Piece.text .kind ++ ([' '] ++ Piece.text (.fmt .RI) ++
    ([' '] ++ Piece.text (.ref [' '] ['5', '0']) ++ []))) := by decide
  refine ⟨[.unit .MHZ, .kind, .fmt .RI, .ref [' '] ['5', '0']], [' '], ['5', '0'], ?_, decIO_50, Or.inl (List.Perm.refl _)⟩
  rw [e]
  refine .cons trivial (by simp [Blanks]) (.cons trivial (by simp [Blanks]) (.cons trivial (by simp [Blanks]) (.cons ?_ (by simp [Blanks])
    .nil (Or.inl rfl)) ?_) ?_) ?_
  · exact ⟨by simp, by simp [Blanks], Or.inl ⟨by simp, by simp [isDigit]⟩⟩
  all_goals right; exact ⟨' ', _, rfl, Or.inl rfl⟩

theorem toDecimals_int (d : ℕ) (n : ℤ) : toDecimals d (n : ℝ) = n := by
  have h10 : (10 : ℝ) ^ d ≠ 0 := by positivity
  have : ((n : ℝ) * 10 ^ d) = ((n * 10 ^ d : ℤ) : ℝ) := by push_cast; ring
  unfold toDecimals
  rw [this, round_intCast]
  push_cast
  field_simp

/-- an ideal isolator, from port 1 to port 2 -/
noncomputable def isolator : Matrix (Fin 2) (Fin 2) ℂ := fun i j => if i = 1 ∧ j = 0 then 1 else 0

theorem tsf2str_ok {isnt : ℕ → ℕ → Bool} {pick : List ℝ → ℝ} {cls ver date comments t : Text} {N : ℕ} {ports : List Text}
    {z : ℝ} {data : List (ℝ × Matrix (Fin N) (Fin N) ℂ)} {u : FUnit} {f : Fmt} (hm : Means decIO t u f z) (hz : z ≠ 0) (hd : data ≠ []) :
    ∃ T, tsf2str decIO isnt pick cls ver date ports z data ('#' :: ' ' :: t) comments = .ok T := by
  have hw : words (upper ('#' :: ' ' :: t)) = ['#'] :: words (upper t) := by
    have : upper ('#' :: ' ' :: t) = ['#'] ++ ' ' :: upper t := by
      simp [upper]
    rw [this, words_append_ws rfl]
    rfl
  have hconv : convertGeneral (.d0 (z : ℂ)) (.d3 N N (data.map Prod.snd)) (.d0 (z : ℂ)) "V" "V" = .ok (.d3 N N (data.map Prod.snd)) :=
    C06_identity .V (.stack N _) (by simpa using hd) (.inl (by simp [ND.ndim])) (.scalar (z : ℂ) _ N) (by
      intro row hrow i
      rw [(List.mem_replicate.1 hrow).2]
      show (z : ℂ) ≠ 0
      exact_mod_cast hz)
  unfold tsf2str
  rw [hw]
  simp only [if_true, Means.str dec_keywords hm, hconv, if_neg hd]
  exact ⟨_, rfl⟩

/-- C38 (as found): the text of tsf2str for a two-port, read back by ReadTSF, is another network: an isolator comes back turned
around. -/
theorem C38_two_port_reversed (isnt : ℕ → ℕ → Bool) (pick : List ℝ → ℝ) : ∃ T R,
    tsf2str decIO isnt pick ['c'] ['v'] ['d'] [['a'], ['b']] 50 [((1000000 : ℝ), isolator)] "# MHZ S RI R 50".toList ['x'] = .ok T ∧
    readTSF decIO ⟨some 50, ['M', 'H', 'z'], .absent⟩ (Misc.strLines T) = .ok R ∧ R.ports = some [['a'], ['b']] ∧
    R.Ss = .d3 2 2 [isolator.transpose] ∧ isolator.transpose ≠ isolator := by
  have ht : "# MHZ S RI R 50".toList = '#' :: ' ' :: "MHZ S RI R 50".toList := by decide
  obtain ⟨T, hT⟩ := tsf2str_ok (isnt := isnt) (pick := pick) (cls := ['c']) (ver := ['v']) (date := ['d']) (comments := ['x'])
    (ports := [['a'], ['b']]) (data := [((1000000 : ℝ), isolator)]) means_ri (by norm_num) (by simp)
  obtain ⟨l, R, h1, h2, h3, h4, h5⟩ := C38_tsf2str (N := 2) (u' := .MHZ) (kw := ⟨some 50, ['M', 'H', 'z'], .absent⟩) (by simp [Plain]) (by simp [Plain])
    (by simp [Plain]) (by decide) means_ri (by norm_num) (by norm_num) rfl (by
      intro n hn
      simp at hn
      rcases hn with rfl | rfl <;> exact ⟨by decide, by decide, by decide⟩) hT (by decide) rfl rfl
  refine ⟨T, R, by rw [ht]; exact hT, h2, h3, ?_, ?_⟩
  · rw [h5]
    have hl : l = [isolator] := by
      cases h1 with
      | cons a b =>
        cases b
        have := scatterV_unique (z0 := ((50 : ℝ) : ℂ)) (by norm_num) fun V I => (a V I).1
        rw [← this]
    rw [hl]
    simp only [List.map_cons, List.map_nil, if_true]
    congr 2
    ext i j
    simp only [Matrix.map_apply, Matrix.transpose_apply, isolator, strR, Rounding.back]
    have h0 := toDecimals_int 8 0
    have h1 := toDecimals_int 8 1
    push_cast at h0 h1
    split
    · rw [Complex.one_re, Complex.one_im, h0, h1]; rfl
    · rw [Complex.zero_re, Complex.zero_im, h0]; rfl
  · intro h
    have := congrFun (congrFun h 0) 1
    simp [isolator, Matrix.transpose_apply] at this

/-- C38: for other port counts the matrices come back as they are, whatever the object; and so they do for reciprocal two-ports. -/
theorem C38_tsf2str_faithful_partial {isnt : ℕ → ℕ → Bool} {pick : List ℝ → ℝ} {cls ver date comments t : Text} {N : ℕ} {ports : List Text}
    {z : ℝ} {data : List (ℝ × Matrix (Fin N) (Fin N) ℂ)} {u u' : FUnit} {f : Fmt}
    (hcls : Plain cls) (hver : Plain ver) (hdate : Plain date) (hc : '!' ∉ comments) (hm : Means decIO t u f z) (hz : z ≠ 0)
    (hN : 0 < N) (hports : ports.length = N) (hnames : ∀ n ∈ ports, GoodName n) (hdata : data ≠ [])
    (h2 : N = 2 → ∀ x ∈ data, x.2.transpose = x.2)
    {kw : Kw} (hu : unitOf (upper kw.funit) = some u') (hkp : kw.ports = .absent) (hkz : kw.Zbase = some z) :
    ∃ T R, tsf2str decIO isnt pick cls ver date ports z data ('#' :: ' ' :: t) comments = .ok T ∧
      readTSF decIO kw (Misc.strLines T) = .ok R ∧ R.ports = some ports ∧
      R.Ss = .d3 N N (data.map fun x => x.2.map ((strR pick (data.map fun x => x.1 / u.hz) f).back f)) := by
  obtain ⟨T, hT⟩ := tsf2str_ok (isnt := isnt) (pick := pick) (cls := cls) (ver := ver) (date := date) (comments := comments)
    (ports := ports) (data := data) hm hz hdata
  obtain ⟨l, R, h1, h3, h4, h5, h6⟩ := C38_tsf2str hcls hver hdate hc hm hz hN hports hnames hT hu hkp hkz
  refine ⟨T, R, hT, h3, h4, ?_⟩
  have hl : l = data.map Prod.snd := by
    clear h6 h5 hT h2 hdata
    induction h1 with
    | nil => rfl
    | cons a b ih => rw [List.map_cons, ih, scatterV_unique (by exact_mod_cast hz) fun V I => (a V I).1]
  rw [h6, hl, List.map_map]
  congr 1
  apply List.map_congr_left
  intro x hx
  by_cases hN2 : N = 2
  · simp only [Function.comp_apply, if_pos hN2, h2 hN2 x hx]
  · simp only [Function.comp_apply, if_neg hN2]

/-- C38 (as found): tsf2str chooses the number of decimals from the frequency step alone: with a step of a whole number of units, the
frequencies lose their fractional part. -/
theorem C38_frequency_lost {pick : List ℝ → ℝ} {F : List ℝ} {n : ℤ} (hstep : freqStep pick F = n) (f : Fmt) (x : ℝ) :
    (strR pick F f).f x = (round x : ℝ) := by
  have h0 : freqDecimals (freqStep pick F) = 0 := by
    rw [hstep]
    unfold freqDecimals
    simp [toDecimals_int]
  cases f <;> simp [strR, h0, toDecimals]

/-- for instance 1.5 MHz and 2.5 MHz -/
theorem C38_frequency_lost_witness {pick : List ℝ → ℝ} (hpick : ∀ d, pick [d] = d) (f : Fmt) :
    (strR pick [3 / 2, 5 / 2] f).f (3 / 2) ≠ 3 / 2 := by
  have h := C38_frequency_lost (pick := pick) (F := [3 / 2, 5 / 2]) (n := 1) (by
    simp only [freqStep, List.length_cons, List.length_nil, List.tail_cons, List.zipWith_cons_cons, List.zipWith_nil_right]
    rw [if_pos (by norm_num), hpick]
    norm_num) f (3 / 2)
  rw [h]
  intro hc
  have h2 : ((2 * round (3 / 2 : ℝ) : ℤ) : ℝ) = ((3 : ℤ) : ℝ) := by push_cast; linarith
  have h3 : 2 * round (3 / 2 : ℝ) = 3 := by exact_mod_cast h2
  omega

/-- C38 (as found): WriteTSF looks for a capital R, ReadTSF for either: without a capital R the data are written on 50 ohm. -/
theorem C38_lower_case_reference {io : NumIO} {t : Text} (h : 'R' ∉ t) : zrefOf io t = 50 := by
  have : findR t = none := by
    induction t with
    | nil => rfl
    | cons c t ih =>
      have hc : c ≠ 'R' := by rintro rfl; exact h (by simp)
      rw [findR, if_neg hc]
      exact ih fun hm => h (by simp [hm])
  unfold zrefOf
  rw [this]
  rfl

/-- while ReadTSF takes the number after the small r for the reference -/
theorem C38_lower_case_reference_witness (TZ : Option ℝ) :
    options decIO TZ (some "# mhz s db r 30".toList) = .ok ⟨.S, .DB, .MHZ, some (.one 30), some [30]⟩ ∧
    zrefOf decIO "mhz s db r 30".toList = 50 := by
  refine ⟨?_, C38_lower_case_reference (by decide)⟩
  have hw : words (upper ("# mhz s db r 30".toList).tail) = [['M', 'H', 'Z'], ['S'], ['D', 'B'], ['R'], ['3', '0']] := by decide
  have k := dec_keywords
  have h30 : parseDec ['3', '0'] = some (some 30) := by
    rw [parseDec_tok _ (by simp) (by simp [isDigit])]
    have : Nat.ofDigitChars 10 ['3', '0'] 0 = 30 := by decide
    rw [this]; norm_num
  show parseOpts decIO TZ false Opts.start _ = _
  rw [hw]
  have e1 : kindOf ['M', 'H', 'Z'] = none := by decide
  have e2 : fmtOf ['M', 'H', 'Z'] = none := by decide
  have e3 : unitOf ['M', 'H', 'Z'] = some .MHZ := by decide
  have e4 : kindOf ['S'] = some .S := by decide
  have e5 : kindOf ['D', 'B'] = none := by decide
  have e6 : fmtOf ['D', 'B'] = some .DB := by decide
  have e7 : kindOf ['R'] = none := by decide
  have e8 : fmtOf ['R'] = none := by decide
  have e9 : unitOf ['R'] = none := by decide
  rw [parseOpts]
  simp only [Bool.false_eq_true, if_false, e1, e2, e3]
  rw [parseOpts]
  simp only [Bool.false_eq_true, if_false, e4]
  rw [parseOpts]
  simp only [Bool.false_eq_true, if_false, e5, e6]
  rw [parseOpts]
  simp only [Bool.false_eq_true, if_false, e7, e8, e9, if_true]
  rw [parseOpts]
  simp only [if_true, numR, decIO, h30]
  rw [parseOpts]
  simp [refOf]

theorem foldl_fmt_none (io : NumIO) (ps : List Piece) (h : ps.filterMap Piece.fmt? = []) (o : Opts) :
    (ps.foldl (Piece.apply io) o).fmt = o.fmt := by
  induction ps generalizing o with
  | nil => rfl
  | cons p ps ih =>
    cases p with
    | fmt f => simp [Piece.fmt?] at h
    | unit u => rw [List.foldl_cons, ih (by simpa [Piece.fmt?] using h)]; rfl
    | kind => rw [List.foldl_cons, ih (by simpa [Piece.fmt?] using h)]; rfl
    | ref ws tok =>
      rw [List.foldl_cons, ih (by simpa [Piece.fmt?] using h)]
      simp only [Piece.apply]
      split <;> rfl

/-- C38 (as found): without a number format, WriteTSF writes decibels and ReadTSF reads magnitudes. -/
theorem C38_missing_number_format {io : NumIO} (hio : KeywordsNotNumbers io) {ps : List Piece} {t : Text} (h : OptText ps t)
    (hf : ps.filterMap Piece.fmt? = []) (hz : ∀ p ∈ ps, ∀ tok, p.ref? = some tok → ∃ z : ℝ, io.float tok = some (some z)) (TZ : Option ℝ) :
    fmtOfFormat t = .ok .DB ∧ ∃ o, options io TZ (some ('#' :: t)) = .ok o ∧ o.fmt = .MA := by
  constructor
  · unfold fmtOfFormat
    rw [findFmts_opt h, hf]
  · refine ⟨_, ?_, foldl_fmt_none io ps hf Opts.start⟩
    show parseOpts io TZ false Opts.start (words (upper t)) = _
    rw [words_opt h, parse_pieces hio TZ ps hz]

/-- **C64 (default names).** Without names in the file or the call, port `k` is called `port-` followed by its number with leading zeros up to
three digits. -/
theorem C64_default_names (N : ℕ) (file : Option (List Text)) (hf : ∀ ps, file = some ps → ps.length ≠ N) :
    portNames N .absent file = some ((List.range N).map fun k => defaultPort (k + 1)) ∧
    ∀ k, ∃ j, defaultPort k = "port-".toList ++ (List.replicate j '0' ++ (toString k).toList) ∧
      3 ≤ (List.replicate j '0' ++ (toString k).toList).length ∧
      (j = 0 ∨ (List.replicate j '0' ++ (toString k).toList).length = 3) := by
  refine ⟨?_, fun k => ⟨3 - (toString k).toList.length, ?_, ?_, ?_⟩⟩
  · cases file with
    | none => rfl
    | some ps => simp [portNames, hf ps rfl]
  · simp [defaultPort]
  · rw [List.length_append, List.length_replicate]; omega
  · rw [List.length_append, List.length_replicate]; omega

end PyRFtk.TSF
