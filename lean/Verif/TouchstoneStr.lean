import Verif.TouchstoneErr
import Verif.Bridge

/-!
# rfBase.tsf2str: a second Touchstone writer, and what ReadTSF makes of its output (C38)
-/

namespace PyRFtk.TSF

/-! ## model -/

/-- the local variables set by the loop over the words, rfBase.py:323-362; `elstr` is unbound until a number format is seen; `fscale`
is 1 (and not that of MHZ) until a unit is seen -/
structure TOpts where
  elstr : Option Fmt
  mtype : Kind
  Zref : ℝ
  unit : Option FUnit

/-- rfBase.py:323 -/
noncomputable def TOpts.start : TOpts := ⟨none, .S, 50, none⟩

/-- the loop, rfBase.py:337-362; the flag says `last == 'R'` -/
noncomputable def parseT (io : NumIO) : Bool → TOpts → List Text → Except Err TOpts
  | _, o, [] => .ok o
  | true, o, w :: ws => parseT io (decide (w = ['R'])) o ws
  | false, o, w :: ws =>
    if w = ['R'] then match ws with
      | [] => .error .indexError
      | v :: _ => match io.float v with
        | none => .error .valueError
        | some none => .error .nonFinite
        | some (some z) => parseT io true { o with Zref := z } ws
    else match unitOf w with
      | some u => parseT io false { o with unit := some u } ws
      | none => match fmtOf w with
        | some f => parseT io false { o with elstr := some f } ws
        | none => match kindOf w with
          | some k => parseT io false { o with mtype := k } ws
          | none => .error .valueError

/-- `'%w.df' % x`; without decimals there is no point -/
noncomputable def freqText (w d : ℕ) (x : Num) : Text :=
  if d = 0 then
    let t := match x with
      | none => "-inf".toList
      | some x => (if round x < 0 then ['-'] else []) ++ Nat.toDigits 10 (round x).natAbs
    List.replicate (w - t.length) ' ' ++ t
  else fixedText [] w d x

open Classical in
/-- the number of decimals, rfBase.py:407-412: the smallest of 15, 12, ..., 0 that still represents the frequency step -/
noncomputable def freqDecimals (df : ℝ) : ℕ :=
  if toDecimals 12 df ≠ toDecimals 15 df then 15 else if toDecimals 9 df ≠ toDecimals 15 df then 12
  else if toDecimals 6 df ≠ toDecimals 15 df then 9 else if toDecimals 3 df ≠ toDecimals 15 df then 6
  else if toDecimals 0 df ≠ toDecimals 15 df then 3 else 0

/-- the frequency step, rfBase.py:399-405.  `list(set(sorted(...)))` is in no particular order: `pick` stands for the first positive
step found (the last one if there is none) -/
noncomputable def freqStep (pick : List ℝ → ℝ) (F : List ℝ) : ℝ :=
  if 1 < F.length then pick (List.zipWith (fun a b => b - a) F F.tail) else F.headD 0

/-- the number formats, rfBase.py:326-332 and 413-416; and the width of the frequency column -/
noncomputable def strP (pick : List ℝ → ℝ) (F : List ℝ) (f : Fmt) : Printf × ℕ :=
  let d := freqDecimals (freqStep pick F)
  let n := (freqText 0 d (some (F.foldl max (F.headD 0)))).length
  (match f with
    | .RI => ⟨freqText n d, fixedText [] 11 8, fixedText [] 11 8⟩
    | .MA => ⟨freqText n d, fixedText [] 15 12, fixedText [] 9 4⟩
    | .DB => ⟨freqText n d, fixedText [] 15 10, fixedText [] 9 4⟩, n + 1)

/-- spacing, rfBase.py:327-331, 425-435 -/
def layoutT (N n : ℕ) : Layout where
  pre := [' ', ' ']
  post := [' ', ' ']
  lead := List.replicate n ' '
  rowEnd kr := '\n' :: (if kr ≠ N - 1 then List.replicate n ' ' else [])

/-- the header, rfBase.py:364-378 -/
def headerT (cls ver date comments tfmt : Text) (ports : List Text) : Text :=
  ((Misc.strLines comments).map fun l => "! ".toList ++ l ++ ['\n']).flatten ++ '\n' ::
  "! TouchStone file (".toList ++ cls ++ " version ".toList ++ ver ++ ")\n! Date : ".toList ++ date ++ "\n\n".toList ++
  tfmt ++ "\n!PORTS ".toList ++ joinPorts ports ++ "\n\n".toList

/-- the list of N x N matrices in an array -/
noncomputable def matsOf (N : ℕ) : ND ℂ → List (Matrix (Fin N) (Fin N) ℂ)
  | .d3 a b l => if h : a = N ∧ b = N then l.map fun S => fun i j => S (i.cast h.1.symm) (j.cast h.2.symm) else []
  | _ => []

/-- `obj.tsf2str(fs=..., tfmt=..., comments=...)`, rfBase.py:293-436: `data` are the frequencies with the S-matrices of the object on
its own reference `Zself` (`self.fs`, `self.Ss`, or `fs` and `self.getS(fs)`, 380-384) -/
noncomputable def tsf2str (io : NumIO) (isnt : ℕ → ℕ → Bool) (pick : List ℝ → ℝ) (cls ver date : Text) {N : ℕ} (ports : List Text)
    (Zself : ℝ) (data : List (ℝ × Matrix (Fin N) (Fin N) ℂ)) (tfmt comments : Text) : Except Err Text :=
  match words (upper tfmt) with
  | [] => .error .indexError                                                                  -- 335
  | w :: ws => match parseT io false TOpts.start (if w = ['#'] then ws else w :: ws) with
    | .error e => .error e
    | .ok o =>
      match (match o.mtype with                                                               -- 386-389
          | .S => convertGeneral (.d0 (o.Zref : ℂ)) (.d3 N N (data.map Prod.snd)) (.d0 (Zself : ℂ)) "V" "V"
          | .Z => zFromS (Zself : ℂ) (.d3 N N (data.map Prod.snd))
          | .Y => yFromS (Zself : ℂ) (.d3 N N (data.map Prod.snd)) : Except Err (ND ℂ)) with
      | .error e => .error e
      | .ok Ms =>
        if data = [] then .error .indexError                                                  -- 405
        else
          let F := data.map fun x => x.1 / (match o.unit with | some u => u.hz | none => 1)   -- 391
          match o.elstr with
          | none => .error .unboundLocal                                                      -- 425
          | some f => .ok (headerT cls ver date comments tfmt ports ++
              dataText (strP pick F f).1 isnt (layoutT N (strP pick F f).2) f
                (F.zip ((matsOf N Ms).map fun S => if N = 2 then S.transpose else S)))         -- 420-421

/-! ## number formats -/

theorem digitsVal (n : ℕ) : Nat.ofDigitChars 10 (Nat.toDigits 10 n) 0 = n := Nat.ofDigitChars_toDigits (by norm_num) (by norm_num)

theorem parseAbs_nat (n : ℕ) : parseAbs (Nat.toDigits 10 n) = some (n : ℚ) := by
  obtain ⟨e1, e2⟩ := takeWhile_digits (a := Nat.toDigits 10 n) (t := []) fun c hc => isDigit_digits hc
  simp only [List.append_nil, List.takeWhile_nil, List.dropWhile_nil] at e1 e2
  unfold parseAbs
  rw [e1, e2]
  simp only
  rw [if_pos Nat.toDigits_ne_nil, digitsVal]

theorem parseDec_int (n : ℤ) : parseDec ((if n < 0 then ['-'] else []) ++ Nat.toDigits 10 n.natAbs) = some (some (n : ℝ)) := by
  have hinf : "-inf".toList = ['-', 'i', 'n', 'f'] := by decide
  have hh : ∀ c r, Nat.toDigits 10 n.natAbs = c :: r → isDigit c = true := fun c r h => digits_head (t := []) (by rw [List.append_nil, h])
  unfold parseDec
  rw [hinf]
  by_cases hn : n < 0
  · rw [if_pos hn, if_neg]
    · simp only [List.singleton_append, parseAbs_nat, Option.map_some]
      congr 2
      push_cast
      rw [Nat.cast_natAbs, abs_of_neg hn]
      push_cast
      ring
    · intro h
      simp only [List.singleton_append, List.cons.injEq, true_and] at h
      exact absurd (hh _ _ h) (by decide)
  · rw [if_neg hn, List.nil_append, if_neg]
    · cases hc : Nat.toDigits 10 n.natAbs with
      | nil => exact absurd hc Nat.toDigits_ne_nil
      | cons c r =>
        have hcd := hh c r hc
        have h1 : c ≠ '-' := by rintro rfl; exact absurd hcd (by decide)
        have h2 : c ≠ '+' := by rintro rfl; exact absurd hcd (by decide)
        split
        · rename_i h; injection h with h; exact absurd h h1
        · rename_i h; injection h with h; exact absurd h h2
        · rw [← hc, parseAbs_nat]
          simp only [Option.map_some]
          congr 2
          push_cast
          rw [Nat.cast_natAbs, abs_of_nonneg (not_lt.1 hn)]
    · intro h
      exact absurd (hh _ _ h) (by decide)

theorem prints_freq (w d : ℕ) (x : Num) : Prints decIO (freqText w d x) (x.map (toDecimals d)) := by
  unfold freqText
  by_cases hd : d = 0
  · subst hd
    rw [if_pos rfl]
    cases x with
    | none =>
      refine ⟨_, "-inf".toList, rfl, by decide, by decide, by decide, ?_⟩
      simp only [decIO, parseDec, if_true]
      rfl
    | some x =>
      have hv : toDecimals 0 x = ((round x : ℤ) : ℝ) := by simp [toDecimals]
      refine ⟨_, (if round x < 0 then ['-'] else []) ++ Nat.toDigits 10 (round x).natAbs, rfl, ?_, ?_, ?_, ?_⟩
      · intro h
        have := (List.append_eq_nil_iff.1 h).2
        exact Nat.toDigits_ne_nil this
      · intro c hc
        rcases List.mem_append.1 hc with hc | hc
        · split at hc
          · simp at hc; subst hc; decide
          · cases hc
        · obtain ⟨n, rfl⟩ := digit_nat (isDigit_digits hc)
          clear * -
          revert n; decide
      · cases hc : (if round x < 0 then ['-'] else []) ++ Nat.toDigits 10 (round x).natAbs with
        | nil => simp
        | cons c r =>
          simp only [List.head?_cons, ne_eq, Option.some.injEq]
          rintro rfl
          by_cases hn : round x < 0
          · rw [if_pos hn] at hc; simp at hc
          · rw [if_neg hn, List.nil_append] at hc
            exact absurd (digits_head (t := []) (by rw [List.append_nil, hc])) (by decide)
      · show parseDec _ = _
        rw [parseDec_int, Option.map_some, hv]
  · rw [if_neg hd]
    exact prints_fixed (Or.inl rfl) w (Nat.pos_of_ne_zero hd) x

/-- what tsf2str keeps of the numbers -/
noncomputable def strR (pick : List ℝ → ℝ) (F : List ℝ) : Fmt → Rounding
  | .RI => ⟨toDecimals (freqDecimals (freqStep pick F)), toDecimals 8, toDecimals 8⟩
  | .MA => ⟨toDecimals (freqDecimals (freqStep pick F)), toDecimals 12, toDecimals 4⟩
  | .DB => ⟨toDecimals (freqDecimals (freqStep pick F)), toDecimals 10, toDecimals 4⟩

theorem strP_good (pick : List ℝ → ℝ) (F : List ℝ) (f : Fmt) : GoodPrintf decIO (strP pick F f).1 (strR pick F f) := by
  cases f with
  | RI => exact ⟨prints_freq _ _, prints_fixed (Or.inl rfl) _ (by norm_num), prints_fixed (Or.inl rfl) _ (by norm_num)⟩
  | MA => exact ⟨prints_freq _ _, prints_fixed (Or.inl rfl) _ (by norm_num), prints_fixed (Or.inl rfl) _ (by norm_num)⟩
  | DB => exact ⟨prints_freq _ _, prints_fixed (Or.inl rfl) _ (by norm_num), prints_fixed (Or.inl rfl) _ (by norm_num)⟩

theorem good_layoutT (N n : ℕ) : GoodLayout (layoutT N n) where
  pre := by simp [layoutT]
  post := ⟨[' '], rfl, by simp⟩
  lead := fun c hc => (List.mem_replicate.1 hc).2
  rowEnd := by
    intro kr
    right
    refine ⟨_, rfl, ?_⟩
    split
    · exact fun c hc => (List.mem_replicate.1 hc).2
    · simp

/-! ## header and option words -/

theorem header_str {io : NumIO} {cls ver date comments t : Text} {ports : List Text} (hcls : Plain cls) (hver : Plain ver)
    (hdate : Plain date) (hc : '!' ∉ comments) (hf : '\n' ∉ t) (h0 : ports ≠ []) (hp : ∀ n ∈ ports, GoodName n) :
    Header io (headerT cls ver date comments ('#' :: t) ports) t ports := by
  obtain ⟨cs, hcs, h1⟩ := Upto0.comments (Misc.strLines comments) (plain_strLines hc) (Upto0.start io)
  obtain ⟨c1, hc1, h2⟩ := h1.blank.comment (x := "TouchStone file (".toList ++ cls ++ " version ".toList ++ ver ++ ")".toList)
    ((((Plain.append ⟨by decide, by decide⟩ hcls).append ⟨by decide, by decide⟩).append hver).append ⟨by decide, by decide⟩)
  obtain ⟨c2, hc2, h3⟩ := h2.comment (x := "Date : ".toList ++ date) (Plain.append ⟨by decide, by decide⟩ hdate)
  obtain ⟨y, hy, h4⟩ := readLine_option io { RS.start with comments := cs ++ [c1] ++ [c2] } rfl t
  have h5 := h3.blank.line (l := '#' :: t) (by
    simp only [List.mem_cons, not_or]
    exact ⟨by decide, hf⟩) (by simpa [RS.start] using h4)
  have h6 := (h5.ports h0 hp).blank
  refine ⟨cs ++ [c1] ++ [c2] ++ ['!' :: ("PORTS ".toList ++ joinPorts ports)], y, hy, by simp, ?_, ?_⟩
  · have e1 : "! TouchStone file (".toList = '!' :: ' ' :: "TouchStone file (".toList := by decide
    have e2 : ")\n! Date : ".toList = ")".toList ++ '\n' :: '!' :: ' ' :: "Date : ".toList := by decide
    have e3 : "\n\n".toList = ['\n', '\n'] := by decide
    have e4 : "\n!PORTS ".toList = '\n' :: '!' :: "PORTS ".toList := by decide
    unfold headerT
    rw [e1, e2, e3, e4]
    simp [RS.start] at h6 ⊢
    exact h6
  · intro s
    have hq : ∀ c ∈ cs ++ [c1] ++ [c2], Quiet c := by
      intro c hc
      simp only [List.mem_append, List.mem_singleton] at hc
      rcases hc with (hc | rfl) | rfl
      · exact hcs c hc
      · exact hc1
      · exact hc2
    rw [specials_append, specials_quiet io s hq]
    simp only [specials, special_ports io s h0 hp, if_neg h0]

/-- what a group does to the options of tsf2str -/
noncomputable def Piece.applyT (io : NumIO) (o : TOpts) : Piece → TOpts
  | .unit u => { o with unit := some u }
  | .kind => { o with mtype := .S }
  | .fmt f => { o with elstr := some f }
  | .ref _ tok => match io.float tok with
    | some (some z) => { o with Zref := z }
    | _ => o

theorem parseT_pieces {io : NumIO} (hio : KeywordsNotNumbers io) (ps : List Piece)
    (hz : ∀ p ∈ ps, ∀ tok, p.ref? = some tok → ∃ z : ℝ, io.float tok = some (some z)) : ∀ (o : TOpts),
    parseT io false o (ps.flatMap Piece.words) = .ok (ps.foldl (Piece.applyT io) o) := by
  induction ps with
  | nil => intro o; rw [List.flatMap_nil, parseT]; rfl
  | cons p ps ih =>
    intro o
    have ih := ih fun q hq => hz q (by simp [hq])
    rw [List.flatMap_cons, List.foldl_cons]
    cases p with
    | unit u =>
      show parseT io false o (u.text :: _) = _
      have e : u.text ≠ ['R'] := by cases u <;> decide
      rw [parseT.eq_def]
      simp only [if_neg e, unitOf_unit]
      exact ih _
    | kind =>
      show parseT io false o (['S'] :: _) = _
      have e1 : unitOf ['S'] = none := by decide
      have e2 : fmtOf ['S'] = none := by decide
      have e3 : kindOf ['S'] = some .S := by decide
      rw [parseT.eq_def]
      simp only [e1, e2, e3]
      rw [if_neg (by decide)]
      exact ih _
    | fmt f =>
      show parseT io false o (f.text :: _) = _
      have e : f.text ≠ ['R'] := by cases f <;> decide
      have e1 : unitOf f.text = none := by cases f <;> decide
      rw [parseT.eq_def]
      simp only [if_neg e, e1, fmtOf_fmt]
      exact ih _
    | ref ws tok =>
      obtain ⟨z, hz⟩ := hz (.ref ws tok) (by simp) tok rfl
      show parseT io false o (['R'] :: tok :: _) = _
      have hne : tok ≠ ['R'] := by
        rintro rfl
        rw [hio ['R'] (Or.inr (Or.inr (Or.inr rfl)))] at hz
        cases hz
      rw [parseT.eq_def]
      simp only [if_true, hz]
      rw [parseT.eq_def]
      simp only [decide_eq_false hne]
      have := ih { o with Zref := z }
      simpa [Piece.applyT, hz] using this

theorem Means.str {io : NumIO} (hio : KeywordsNotNumbers io) {t : Text} {u : FUnit} {f : Fmt} {z : ℝ} (h : Means io t u f z) :
    parseT io false TOpts.start (words (upper t)) = .ok ⟨some f, .S, z, some u⟩ := by
  obtain ⟨ps, ws, tok, h1, h2, h3⟩ := h
  have hz : ∀ p ∈ ps, ∀ tok', p.ref? = some tok' → io.float tok' = some (some z) := by
    intro p hp tok' ht
    have : p ∈ [Piece.unit u, .kind, .fmt f, .ref ws tok] := by
      rcases h3 with h3 | h3
      · exact h3.mem_iff.1 hp
      · have := h3.mem_iff.1 hp
        simp only [List.mem_cons, List.not_mem_nil, or_false] at this ⊢
        tauto
    simp only [List.mem_cons, List.not_mem_nil, or_false] at this
    rcases this with rfl | rfl | rfl | rfl
    · cases ht
    · cases ht
    · cases ht
    · injection ht with ht; rw [← ht, h2]
  rw [words_opt h1, parseT_pieces hio ps fun p hp tok' ht => ⟨z, hz p hp tok' ht⟩]
  congr 1
  have comm : ∀ p ∈ ps, ∀ q ∈ ps, ∀ o, Piece.applyT io (Piece.applyT io o p) q = Piece.applyT io (Piece.applyT io o q) p := by
    have hm : ∀ p ∈ ps, p = .unit u ∨ p = .kind ∨ p = .fmt f ∨ p = .ref ws tok := by
      intro p hp
      rcases h3 with h3 | h3
      · simpa using h3.mem_iff.1 hp
      · have := h3.mem_iff.1 hp
        simp only [List.mem_cons, List.not_mem_nil, or_false] at this
        tauto
    intro p hp q hq o
    rcases hm p hp with rfl | rfl | rfl | rfl <;> rcases hm q hq with rfl | rfl | rfl | rfl <;> simp [Piece.applyT, h2]
  rcases h3 with h3 | h3
  · rw [h3.foldl_eq' comm]
    simp [Piece.applyT, h2, TOpts.start]
  · rw [h3.foldl_eq' comm]
    simp [Piece.applyT, h2, TOpts.start]

theorem matsOf_d3 {N : ℕ} (l : List (Matrix (Fin N) (Fin N) ℂ)) : matsOf N (.d3 N N l) = l := by
  simp [matsOf]

/-! ## reading back -/

/-- C38: what ReadTSF makes of the text of tsf2str, for every number of ports and frequencies: port names, frequencies rounded to the
chosen number of decimals, and the matrices on the reference of the option line - except that for two-ports the matrices come back
transposed. -/
theorem C38_tsf2str {isnt : ℕ → ℕ → Bool} {pick : List ℝ → ℝ} {cls ver date comments t : Text} {N : ℕ} {ports : List Text}
    {Zself z : ℝ} {data : List (ℝ × Matrix (Fin N) (Fin N) ℂ)} {u u' : FUnit} {f : Fmt} {T : Text}
    (hcls : Plain cls) (hver : Plain ver) (hdate : Plain date) (hc : '!' ∉ comments) (hm : Means decIO t u f z) (hz : z ≠ 0)
    (hN : 0 < N) (hports : ports.length = N) (hnames : ∀ n ∈ ports, GoodName n)
    (hT : tsf2str decIO isnt pick cls ver date ports Zself data ('#' :: ' ' :: t) comments = .ok T)
    {kw : Kw} (hu : unitOf (upper kw.funit) = some u') (hkp : kw.ports = .absent) (hkz : kw.Zbase = some z) :
    ∃ (l : List (Matrix (Fin N) (Fin N) ℂ)) (R : Res),
      List.Forall₂ (fun x S => ∀ V I, ScatterV (Zself : ℂ) x.2 V I ↔ ScatterV (z : ℂ) S V I) data l ∧
      readTSF decIO kw (Misc.strLines T) = .ok R ∧ R.ports = some ports ∧
      R.fs = data.map (fun x => (strR pick (data.map fun x => x.1 / u.hz) f).f (x.1 / u.hz) * (u.hz / u'.hz)) ∧
      R.Ss = .d3 N N (l.map fun S => (if N = 2 then S.transpose else S).map ((strR pick (data.map fun x => x.1 / u.hz) f).back f)) := by
  have hw : words (upper ('#' :: ' ' :: t)) = ['#'] :: words (upper t) := by
    have : upper ('#' :: ' ' :: t) = ['#'] ++ ' ' :: upper t := by
      simp [upper]
    rw [this, words_append_ws rfl]
    rfl
  unfold tsf2str at hT
  rw [hw] at hT
  simp only [if_true] at hT
  rw [Means.str dec_keywords hm] at hT
  simp only at hT
  cases hconv : convertGeneral (.d0 (z : ℂ)) (.d3 N N (data.map Prod.snd)) (.d0 (Zself : ℂ)) "V" "V" with
  | error e => rw [hconv] at hT; cases hT
  | ok Ms =>
    rw [hconv] at hT
    simp only at hT
    by_cases hd : data = []
    · rw [if_pos hd] at hT; cases hT
    · rw [if_neg hd] at hT
      injection hT with hT
      obtain ⟨l, rfl, hl⟩ := convertVV_list (by simpa using hd) (by exact_mod_cast hz) hconv
      rw [List.forall₂_map_left_iff] at hl
      rw [matsOf_d3] at hT
      have hne : ports ≠ [] := by
        intro h
        rw [h] at hports
        simp at hports
        omega
      have hlen := hl.length_eq
      subst hT
      generalize hF : data.map (fun x => x.1 / u.hz) = F
      have hFl : F.length = data.length := by rw [← hF, List.length_map]
      have hzip : F.zip (l.map fun S => if N = 2 then S.transpose else S) ≠ [] := by
        intro h
        have := congrArg List.length h
        rw [List.length_zip, hFl, List.length_map, ← hlen] at this
        simp at this
        exact hd this
      have ht : orElse kw.Zbase 50 = z := by rw [hkz]; simp [orElse, hz]
      have hfin := fun R => finish_ok (R := R) (isnt := isnt) (r := strR pick F f) dec_keywords hN hzip (good_layoutT N (strP pick F f).2)
        (strP_good pick F f) (header_str hcls hver hdate hc (t := ' ' :: t) (by
          simp only [List.mem_cons, not_or]
          exact ⟨by decide, hm.no_newline⟩) hne hnames) (f := f) (u := u) (u' := u') (z := z) (by
          obtain ⟨ps, ws, tok, h1, h2, h3⟩ := hm
          refine ⟨ps, ws, tok, ?_, h2, h3⟩
          cases h1 with
          | nil => rcases h3 with h3 | h3 <;> exact absurd h3.length_eq (by simp)
          | @cons p ps w t hp hw' ht' hg =>
            have := OptText.cons (w := ' ' :: w) hp (by
              intro c hc
              rcases List.mem_cons.1 hc with rfl | hc
              · exact Or.inl rfl
              · exact hw' c hc) ht' hg
            simpa using this) hu (kw := kw)
      have e1 : (F.zip (l.map fun S => if N = 2 then S.transpose else S)).map (fun x => x.2.map ((strR pick F f).back f)) =
          l.map fun S => (if N = 2 then S.transpose else S).map ((strR pick F f).back f) := by
        have : (F.zip (l.map fun S => if N = 2 then S.transpose else S)).map (fun x => x.2.map ((strR pick F f).back f)) =
            ((F.zip (l.map fun S => if N = 2 then S.transpose else S)).map Prod.snd).map fun S => S.map ((strR pick F f).back f) := by
          rw [List.map_map]; rfl
        rw [this, List.map_snd_zip (by rw [hFl, List.length_map, hlen]), List.map_map]
        rfl
      have e2 : (F.zip (l.map fun S => if N = 2 then S.transpose else S)).map (fun x => (strR pick F f).f x.1 * (u.hz / u'.hz)) =
          data.map fun x => (strR pick F f).f (x.1 / u.hz) * (u.hz / u'.hz) := by
        have : (F.zip (l.map fun S => if N = 2 then S.transpose else S)).map (fun x => (strR pick F f).f x.1 * (u.hz / u'.hz)) =
            ((F.zip (l.map fun S => if N = 2 then S.transpose else S)).map Prod.fst).map fun x => (strR pick F f).f x * (u.hz / u'.hz) := by
          rw [List.map_map]; rfl
        rw [this, List.map_fst_zip (by rw [hFl, List.length_map, hlen]), ← hF, List.map_map]
        rfl
      have hS := (convertPV_list (R := .d3 N N (l.map fun S => (if N = 2 then S.transpose else S).map ((strR pick F f).back f)))
        (l := l.map fun S => (if N = 2 then S.transpose else S).map ((strR pick F f).back f))
        (by
          intro h
          have := List.map_eq_nil_iff.1 h
          rw [this] at hlen
          exact hd (List.length_eq_zero_iff.1 hlen)) (z1 := (z : ℂ)) (z2 := (z : ℂ)) (by exact_mod_cast hz) (by exact_mod_cast hz)).2
        ⟨_, rfl, List.forall₂_same.2 fun S _ V I => Iff.rfl⟩
      refine ⟨l, _, hl, (hfin _).2 ⟨_, ?_, rfl⟩, ?_, ?_, rfl⟩
      · rw [e1, ht]; exact hS
      · simp only [hkp, portNames, if_neg hne]
        rw [if_pos ⟨hne, hports⟩]
      · exact e2

end PyRFtk.TSF
