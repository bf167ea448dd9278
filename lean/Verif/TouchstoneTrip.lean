import Verif.TouchstoneOpt
import Verif.ConvComplete
import Mathlib.Analysis.SpecialFunctions.Trigonometric.Bounds

/-!
# C38, C39: what WriteTSF writes, ReadTSF reads back
-/

namespace PyRFtk.TSF

theorem good_layoutW (N n : ℕ) : GoodLayout (layoutW N n) where
  pre := by simp [layoutW]
  post := ⟨[], rfl, by simp⟩
  lead := fun c hc => (List.mem_replicate.1 hc).2
  rowEnd := by
    intro kr
    simp only [layoutW]
    split
    · right
      refine ⟨_, rfl, ?_⟩
      split
      · exact fun c hc => (List.mem_replicate.1 hc).2
      · simp
    · exact Or.inl rfl

/-! ## the number formats -/

theorem cis_arg (z : ℂ) : (‖z‖ : ℂ) * cis (z.arg * 180 / Real.pi) = z := by
  have e : Complex.I * ((z.arg * 180 / Real.pi : ℝ) : ℂ) * Real.pi / 180 = z.arg * Complex.I := by
    have : (Real.pi : ℂ) ≠ 0 := by exact_mod_cast Real.pi_ne_zero
    push_cast
    field_simp
  unfold cis
  rw [e]
  exact Complex.norm_mul_exp_arg_mul_I z

theorem cis_norm (d : ℝ) : ‖cis d‖ = 1 := by
  unfold cis
  have e : Complex.I * d * Real.pi / 180 = ((d * Real.pi / 180 : ℝ) : ℂ) * Complex.I := by push_cast; ring
  rw [e, Complex.norm_exp_ofReal_mul_I]

/-- the magnitude in decibel -/
theorem tenPow_log {z : ℂ} (hz : z ≠ 0) : (10 : ℝ) ^ (20 * Real.logb 10 ‖z‖ / 20) = ‖z‖ := by
  rw [mul_div_assoc, mul_comm, div_mul_cancel₀ _ (by norm_num : (20 : ℝ) ≠ 0)]
  exact Real.rpow_logb (by norm_num) (by norm_num) (norm_pos_iff.2 hz)

/-- C39: in each of the three number formats (real and imaginary part; magnitude and angle; decibel and angle) every complex number,
zero included, is decoded to the number that was encoded. -/
theorem C39_decode_encode (fmt : Fmt) (z : ℂ) : decode fmt (encode fmt z) = .ok z := by
  cases fmt with
  | RI => rfl
  | MA =>
    show Except.ok ((‖z‖ : ℂ) * cis (z.arg * 180 / Real.pi)) = _
    rw [cis_arg]
  | DB =>
    by_cases hz : z = 0
    · subst hz
      simp [encode, decode, tenPow]
    · have : decode .DB (encode .DB z) = .ok ((((10 : ℝ) ^ (20 * Real.logb 10 ‖z‖ / 20) : ℝ) : ℂ) * cis (z.arg * 180 / Real.pi)) := by
        simp only [encode]
        rw [if_neg hz]
        rfl
      rw [this, tenPow_log hz, cis_arg]

open Classical in
/-- what is read back of one matrix element when the two numbers are rounded -/
noncomputable def Rounding.back (r : Rounding) : Fmt → ℂ → ℂ
  | .RI, z => ⟨r.a z.re, r.b z.im⟩
  | .MA, z => (r.a ‖z‖ : ℂ) * cis (r.b (z.arg * 180 / Real.pi))
  | .DB, z => if z = 0 then 0 else (((10 : ℝ) ^ (r.a (20 * Real.logb 10 ‖z‖) / 20) : ℝ) : ℂ) * cis (r.b (z.arg * 180 / Real.pi))

theorem decode_back (r : Rounding) (fmt : Fmt) (z : ℂ) : decode fmt (r.r1 (encode fmt z).1, r.r2 (encode fmt z).2) = .ok (r.back fmt z) := by
  cases fmt with
  | RI => rfl
  | MA => rfl
  | DB =>
    simp only [encode, Rounding.back]
    by_cases hz : z = 0
    · rw [if_pos hz, if_pos hz]
      simp [Rounding.r1, Rounding.r2, decode, tenPow]
    · rw [if_neg hz, if_neg hz]
      rfl

/-! ## reading back -/

theorem convert_same {N : ℕ} {l l' : List (Matrix (Fin N) (Fin N) ℂ)} {z : ℂ} (hz : z ≠ 0)
    (h : List.Forall₂ (fun S S' => ∀ V I, ScatterV z S V I ↔ ScatterV z S' V I) l l') : l' = l := by
  induction h with
  | nil => rfl
  | cons h1 h2 ih => rw [ih, scatterV_unique hz fun V I => (h1 V I).1]

theorem orElse_ne (TZ : Option ℝ) : orElse TZ 50 ≠ 0 := by
  unfold orElse
  cases TZ with
  | none => norm_num
  | some z =>
    simp only
    split
    · norm_num
    · assumption

variable {io : NumIO} {P : Fmt → Printf × ℕ} {r : Rounding} {isnt : ℕ → ℕ → Bool} {N : ℕ}

/-- the part of reading after the lines -/
theorem finish_ok {u u' : FUnit} {f : Fmt} {z : ℝ} {fmtText H : Text} {ports : List Text}
    (hio : KeywordsNotNumbers io) (hN : 0 < N) {l : List (ℝ × Matrix (Fin N) (Fin N) ℂ)} (hl : l ≠ [])
    {L : Layout} (hL : GoodLayout L) {Pf : Printf} (hP : GoodPrintf io Pf r)
    (hH : Header io H fmtText ports) (hm : Means io fmtText u f z) {kw : Kw} (hu : unitOf (upper kw.funit) = some u')
    (R : Res) :
    readTSF io kw (Misc.strLines (H ++ dataText Pf isnt L f l)) = .ok R ↔
    ∃ S, convertGeneral (.d0 (orElse kw.Zbase 50 : ℂ)) (.d3 N N (l.map fun x => x.2.map (r.back f))) (.d0 (z : ℂ)) "P" "V" = .ok S ∧
      R = ⟨portNames N kw.ports (if ports = [] then none else some ports), l.map (fun x => r.f x.1 * (u.hz / u'.hz)), u, S, kw.Zbase,
        ⟨if ports = [] then none else some ports, none, none, none, none⟩, [], [], f⟩ := by
  obtain ⟨cs, y, hy, hcs, h1, h2⟩ := hH
  have h3 := Upto0.data (isnt := isnt) (fmt := f) hP hL l h1
  obtain ⟨x, l', rfl⟩ := List.exists_cons_of_ne_nil hl
  obtain ⟨st', e1, e2, e3, e4, e5, e6⟩ := foldl_feed (r := r) (fmt := f) hN x l'
    { RS.start with comments := cs, tformat := some ('#' :: y) } rfl rfl rfl rfl
  rw [e1] at h3
  obtain ⟨ls, h4, h5⟩ := h3
  have hread : readLines io RS.start (Misc.strLines (H ++ dataText Pf isnt L f (x :: l'))) = .ok st' := by
    rw [strLines_eq, h4, readLines_append, h5]
    simp only [readLines]
    rw [readLine_blank (by rw [words_nil])]
  generalize hll : x :: l' = l at *
  unfold readTSF
  rw [hread]
  simp only
  have hres := reshape_ok hl e5 e6
  have hopt : options io kw.Zbase st'.tformat = .ok ⟨.S, f, u, some (.one z), some [z]⟩ := by
    rw [e4]
    exact hm.reader hio kw.Zbase hy
  have htake : st'.comments.take st'.marker = cs ++ [markerText] := by
    rw [e2, e3]
    apply List.take_of_length_le
    simp
  have hdrop : st'.comments.drop st'.marker = [] := by
    rw [e2, e3]
    apply List.drop_eq_nil_of_le
    simp
  have hsp : specials io ⟨none, none, none, none, none⟩ (st'.comments.take st'.marker) =
      .ok ⟨if ports = [] then none else some ports, none, none, none, none⟩ := by
    rw [htake, specials_append, h2]
    simp only
    rw [specials_quiet]
    intro c hc
    simp at hc
    subst hc
    exact quiet_marker
  have hne : st'.comments ≠ [] := by rw [e2]; simp
  have hg : glines io GS.start (st'.comments.drop st'.marker) = .ok GS.start := by rw [hdrop]; rfl
  have htab : tables st'.fs.length N GS.start = .ok ([], [], false) := by
    unfold tables
    simp [GS.start]
  have hfs : mapE finite st'.fs = .ok (l.map fun x => r.f x.1) := by
    rw [e5, mapE_eq_ok]
    rw [List.forall₂_map_left_iff, List.forall₂_map_right_iff, List.forall₂_same]
    exact fun x _ => rfl
  have hvals : mapE (decode f) (l.map fun x => coefsOf r f x.2).flatten =
      .ok (l.map fun x => (rowsOf (x.2.map (r.back f))).flatten).flatten := by
    rw [mapE_eq_ok]
    clear e5 e6 e1 h4 h5 hread hres hfs hl hll
    induction l with
    | nil => exact .nil
    | cons a l ih =>
      simp only [List.map_cons, List.flatten_cons]
      refine List.rel_append ?_ ih
      have e : (rowsOf (a.2.map (r.back f))).flatten = (rowsOf a.2).flatten.map (r.back f) := by
        unfold rowsOf
        rw [List.map_flatten, List.map_map]
        simp [Function.comp_def]
      rw [e, coefsOf]
      rw [List.forall₂_map_left_iff, List.forall₂_map_right_iff]
      rw [List.forall₂_same]
      intro w hw
      exact decode_back r f _
  have hstack : stackOf st'.fs.length N (l.map fun x => (rowsOf (x.2.map (r.back f))).flatten).flatten = l.map fun x => x.2.map (r.back f) := by
    have hlen : st'.fs.length = (l.map fun x => (rowsOf (x.2.map (r.back f))).flatten).length := by rw [e5]; simp
    rw [hlen, stackOf_flatten _ (by
      intro a ha
      obtain ⟨x, -, rfl⟩ := List.mem_map.1 ha
      exact rowsOf_length _), List.map_map]
    apply List.map_congr_left
    intro x _
    exact matOf_rows _
  have htoS : toS st'.fs.length N (l.map fun x => x.2.map (r.back f)) ⟨.S, f, u, some (.one z), some [z]⟩ [] false kw.Zbase =
      convertGeneral (.d0 (orElse kw.Zbase 50 : ℂ)) (.d3 N N (l.map fun x => x.2.map (r.back f))) (.d0 (z : ℂ)) "P" "V" := by
    simp [toS]
  unfold finish
  simp only [hres, hopt, hsp, if_neg hne, hg, htab, hu, hfs, hvals, hstack, htoS, bind, Except.bind]
  cases hS : convertGeneral (.d0 (orElse kw.Zbase 50 : ℂ)) (.d3 N N (l.map fun x => x.2.map (r.back f))) (.d0 (z : ℂ)) "P" "V" with
  | error e => simp
  | ok S =>
    simp only [List.map_map, Function.comp_def, Except.ok.injEq, exists_eq_left']
    exact eq_comm

/-! ## the round trip -/

/-- the frequencies WriteTSF uses -/
def usedFs (o : WObj N) (fs : List ℝ) : List ℝ := if fs = [] then o.fs else fs

/-- what a round trip needs: keywords are not numbers, numbers are printed as readable tokens, and the version, the date and the
comments contain no exclamation mark (nor, for the first two, a newline) -/
structure Sensible (io : NumIO) (Pf : Printf) (r : Rounding) (ver date comments : Text) : Prop where
  keywords : KeywordsNotNumbers io
  print : GoodPrintf io Pf r
  ver : Plain ver
  date : Plain date
  comments : '!' ∉ comments

theorem write_ok {o : WObj N} {fs : List ℝ} {format comments ver date : Text} {u : FUnit} {f : Fmt} {z : ℝ} (hm : Means io format u f z)
    (hfs : usedFs o fs ≠ []) {Sd : ℝ → Matrix (Fin N) (Fin N) ℂ} (hget : ∀ x ∈ usedFs o fs, o.getS x z = .ok (Sd x)) :
    writeTSF io P isnt ver date o fs format comments = .ok (headerW ver date comments format o.ports ++
      dataText (P f).1 isnt (layoutW N (P f).2) f ((usedFs o fs).map fun x => (x / u.hz, Sd x))) := by
  obtain ⟨h1, h2, h3⟩ := hm.writer
  unfold usedFs at *
  have hmap : mapE (fun x => (o.getS x (zrefOf io format)).map fun S => (x / u.hz, S)) (if fs = [] then o.fs else fs) =
      .ok ((if fs = [] then o.fs else fs).map fun x => (x / u.hz, Sd x)) := by
    rw [mapE_eq_ok, List.forall₂_map_right_iff, List.forall₂_same]
    intro x hx
    rw [h3, hget x hx]
    rfl
  unfold writeTSF
  simp only [h1, h2]
  rw [if_neg hfs, hmap]

/-- C38: writing never fails for an object that answers, and reading the text back succeeds exactly when the S-matrices (after
rounding to the printed digits) exist on the requested reference; then the port names are the object's, the frequencies are the
printed ones in the requested unit, and every matrix allows the same port voltages and currents as the one written.  This holds for
every number of ports and frequencies and however the line breaks fall. -/
theorem C38_roundtrip {o : WObj N} {fs : List ℝ} {format comments ver date : Text} {u u' : FUnit} {f : Fmt} {z : ℝ}
    (hs : Sensible io (P f).1 r ver date comments) (hm : Means io format u f z) (hz : z ≠ 0)
    (hN : 0 < N) (hports : o.ports.length = N) (hnames : ∀ n ∈ o.ports, GoodName n)
    (hfs : usedFs o fs ≠ []) {Sd : ℝ → Matrix (Fin N) (Fin N) ℂ} (hget : ∀ x ∈ usedFs o fs, o.getS x z = .ok (Sd x))
    {kw : Kw} (hu : unitOf (upper kw.funit) = some u') (hkp : kw.ports = .absent) :
    ∃ T, writeTSF io P isnt ver date o fs format comments = .ok T ∧
      ∀ R, readTSF io kw (Misc.strLines T) = .ok R ↔
        R.ports = some o.ports ∧ R.fs = (usedFs o fs).map (fun x => r.f (x / u.hz) * (u.hz / u'.hz)) ∧ R.funit = u ∧
        R.Zbase = kw.Zbase ∧ R.datafmt = f ∧ R.Zc = [] ∧ R.Gm = [] ∧ R.special = ⟨some o.ports, none, none, none, none⟩ ∧
        ∃ l', R.Ss = .d3 N N l' ∧ List.Forall₂ (fun x S' => ∀ V I,
          ScatterV (z : ℂ) ((Sd x).map (r.back f)) V I ↔ ScatterV (orElse kw.Zbase 50 : ℂ) S' V I) (usedFs o fs) l' := by
  refine ⟨_, write_ok hm hfs hget, fun R => ?_⟩
  have hne : o.ports ≠ [] := by
    intro h
    rw [h] at hports
    simp at hports
    omega
  rw [finish_ok hs.keywords hN (by simpa using hfs) (good_layoutW N _) hs.print
    (Upto0.header hs.ver hs.date hs.comments hm.no_newline hnames) hm hu]
  simp only [if_neg hne, hkp, portNames, List.map_map, Function.comp_def]
  have hconv := fun S => convertPV_list (R := S) (l := (usedFs o fs).map fun x => (Sd x).map (r.back f)) (by simpa using hfs)
    (z1 := (z : ℂ)) (z2 := (orElse kw.Zbase 50 : ℂ)) (by exact_mod_cast hz) (by exact_mod_cast orElse_ne _)
  simp only [hconv, List.forall₂_map_left_iff]
  rw [if_pos ⟨hne, hports⟩]
  constructor
  · rintro ⟨S, ⟨l', rfl, h⟩, rfl⟩
    exact ⟨rfl, rfl, rfl, rfl, rfl, rfl, rfl, rfl, l', rfl, h⟩
  · obtain ⟨R1, R2, R3, R4, R5, R6, R7, R8, R9⟩ := R
    simp only
    rintro ⟨rfl, rfl, h3, rfl, h5, rfl, rfl, rfl, l', rfl, h⟩
    rw [h3, h5]
    exact ⟨_, ⟨l', rfl, h⟩, rfl⟩

/-- C38: reading back on the reference impedance of the file always succeeds and gives the written matrices, rounded to the printed
digits, in order. -/
theorem C38_same_reference {o : WObj N} {fs : List ℝ} {format comments ver date : Text} {u u' : FUnit} {f : Fmt} {z : ℝ}
    (hs : Sensible io (P f).1 r ver date comments) (hm : Means io format u f z) (hz : z ≠ 0)
    (hN : 0 < N) (hports : o.ports.length = N) (hnames : ∀ n ∈ o.ports, GoodName n)
    (hfs : usedFs o fs ≠ []) {Sd : ℝ → Matrix (Fin N) (Fin N) ℂ} (hget : ∀ x ∈ usedFs o fs, o.getS x z = .ok (Sd x))
    {kw : Kw} (hu : unitOf (upper kw.funit) = some u') (hkp : kw.ports = .absent) (hkz : kw.Zbase = some z ∨ kw.Zbase = none ∧ z = 50) :
    ∃ T R, writeTSF io P isnt ver date o fs format comments = .ok T ∧ readTSF io kw (Misc.strLines T) = .ok R ∧
      R.ports = some o.ports ∧ R.fs = (usedFs o fs).map (fun x => r.f (x / u.hz) * (u.hz / u'.hz)) ∧
      R.Ss = .d3 N N ((usedFs o fs).map fun x => (Sd x).map (r.back f)) := by
  obtain ⟨T, h1, h2⟩ := C38_roundtrip (isnt := isnt) hs hm hz hN hports hnames hfs hget hu hkp
  have ht : orElse kw.Zbase 50 = z := by
    rcases hkz with h | ⟨h, rfl⟩
    · rw [h]; simp [orElse, hz]
    · rw [h]; rfl
  refine ⟨T, ⟨some o.ports, (usedFs o fs).map (fun x => r.f (x / u.hz) * (u.hz / u'.hz)), u,
    .d3 N N ((usedFs o fs).map fun x => (Sd x).map (r.back f)), kw.Zbase, ⟨some o.ports, none, none, none, none⟩, [], [], f⟩,
    h1, (h2 _).2 ⟨rfl, rfl, rfl, rfl, rfl, rfl, rfl, rfl, _, rfl, ?_⟩, rfl, rfl, rfl⟩
  rw [ht, List.forall₂_map_right_iff, List.forall₂_same]
  exact fun x _ V I => Iff.rfl

/-- C38: whether the text goes through a file or is passed as a string makes no difference to what is read. -/
theorem C38_file_or_string (io : NumIO) (kw : Kw) (T : Text) : readTSF io kw (Misc.fileLines T) = readTSF io kw (Misc.strLines T) := by
  have h := Misc.C44_file_eq_string T
  unfold readTSF
  rw [h]
  by_cases hT : T = [] ∨ T.getLast? = some '\n'
  · rw [if_pos hT, readLines_append]
    cases readLines io RS.start (Misc.fileLines T) with
    | error e => rfl
    | ok st => simp [readLines, readLine_blank words_nil]
  · rw [if_neg hT, List.append_nil]

/-! ## how far rounding can move a matrix element -/

theorem cis_sub_le (a b : ℝ) : ‖cis a - cis b‖ ≤ |a - b| * Real.pi / 180 := by
  have e : cis a - cis b = cis b * (Complex.exp (Complex.I * ((a - b) * Real.pi / 180 : ℝ)) - 1) := by
    unfold cis
    rw [mul_sub, mul_one, ← Complex.exp_add]
    congr 2
    push_cast
    ring
  rw [e, norm_mul, cis_norm, one_mul]
  refine (Real.norm_exp_I_mul_ofReal_sub_one_le).trans ?_
  rw [Real.norm_eq_abs, abs_div, abs_mul, abs_of_pos Real.pi_pos, abs_of_pos (by norm_num : (0 : ℝ) < 180)]

theorem ten_pow_sub_le {a e : ℝ} (h : |a| ≤ e) : |(10 : ℝ) ^ a - 1| ≤ (10 : ℝ) ^ e - 1 := by
  have h1 : (10 : ℝ) ^ a ≤ (10 : ℝ) ^ e := Real.rpow_le_rpow_of_exponent_le (by norm_num) ((le_abs_self a).trans h)
  have h2 : (10 : ℝ) ^ (-e) ≤ (10 : ℝ) ^ a := Real.rpow_le_rpow_of_exponent_le (by norm_num) (by linarith [neg_abs_le a])
  have h3 : (10 : ℝ) ^ e * (10 : ℝ) ^ (-e) = 1 := by
    rw [← Real.rpow_add (by norm_num), add_neg_cancel, Real.rpow_zero]
  have h4 : 0 < (10 : ℝ) ^ e := by positivity
  have h5 : 0 < (10 : ℝ) ^ (-e) := by positivity
  rw [abs_le]
  constructor
  · nlinarith [sq_nonneg ((10 : ℝ) ^ e - 1)]
  · linarith

/-- C38: the error on one matrix element when the first number of a pair is printed within `ea` and the second within `eb`: at most
`ea + eb` for RI, `ea + |z| eb pi/180` for MA, and `|z| (10^(ea/20) - 1 + eb pi/180)` for DB. -/
theorem C38_rounding_error (r : Rounding) {ea eb : ℝ} (ha : ∀ x, |r.a x - x| ≤ ea) (hb : ∀ x, |r.b x - x| ≤ eb) (z : ℂ) :
    ‖r.back .RI z - z‖ ≤ ea + eb ∧ ‖r.back .MA z - z‖ ≤ ea + ‖z‖ * (eb * Real.pi / 180) ∧
    ‖r.back .DB z - z‖ ≤ ‖z‖ * ((10 : ℝ) ^ (ea / 20) - 1 + eb * Real.pi / 180) := by
  have hang : ‖cis (r.b (z.arg * 180 / Real.pi)) - cis (z.arg * 180 / Real.pi)‖ ≤ eb * Real.pi / 180 := by
    refine (cis_sub_le _ _).trans ?_
    have := hb (z.arg * 180 / Real.pi)
    gcongr
  have polar : ∀ m : ℝ, ‖(m : ℂ) * cis (r.b (z.arg * 180 / Real.pi)) - z‖ ≤ |m - ‖z‖| + ‖z‖ * (eb * Real.pi / 180) := by
    intro m
    have e : (m : ℂ) * cis (r.b (z.arg * 180 / Real.pi)) - z = ((m - ‖z‖ : ℝ) : ℂ) * cis (r.b (z.arg * 180 / Real.pi)) +
        (‖z‖ : ℂ) * (cis (r.b (z.arg * 180 / Real.pi)) - cis (z.arg * 180 / Real.pi)) := by
      have := cis_arg z
      push_cast
      linear_combination this
    rw [e]
    refine (norm_add_le _ _).trans ?_
    rw [norm_mul, norm_mul, cis_norm, mul_one, Complex.norm_real, Real.norm_eq_abs, Complex.norm_real, norm_norm]
    gcongr
  refine ⟨?_, ?_, ?_⟩
  · have e : r.back .RI z - z = ((r.a z.re - z.re : ℝ) : ℂ) + ((r.b z.im - z.im : ℝ) : ℂ) * Complex.I := by
      apply Complex.ext <;> simp [Rounding.back]
    rw [e]
    refine (norm_add_le _ _).trans ?_
    rw [norm_mul, Complex.norm_I, mul_one, Complex.norm_real, Complex.norm_real, Real.norm_eq_abs, Real.norm_eq_abs]
    exact add_le_add (ha _) (hb _)
  · refine (polar (r.a ‖z‖)).trans ?_
    have := ha ‖z‖
    gcongr
  · simp only [Rounding.back]
    by_cases hz : z = 0
    · simp [hz]
    · rw [if_neg hz]
      refine (polar _).trans ?_
      have h1 : (10 : ℝ) ^ (r.a (20 * Real.logb 10 ‖z‖) / 20) - ‖z‖ =
          ‖z‖ * ((10 : ℝ) ^ ((r.a (20 * Real.logb 10 ‖z‖) - 20 * Real.logb 10 ‖z‖) / 20) - 1) := by
        rw [sub_div, Real.rpow_sub (by norm_num), tenPow_log hz]
        have : ‖z‖ ≠ 0 := norm_ne_zero_iff.2 hz
        field_simp
      have h2 : |(r.a (20 * Real.logb 10 ‖z‖) - 20 * Real.logb 10 ‖z‖) / 20| ≤ ea / 20 := by
        rw [abs_div, abs_of_pos (by norm_num : (0 : ℝ) < 20)]
        have := ha (20 * Real.logb 10 ‖z‖)
        gcongr
      rw [h1, abs_mul, abs_of_nonneg (norm_nonneg z)]
      have h3 := ten_pow_sub_le h2
      have h4 : ‖z‖ * |(10 : ℝ) ^ ((r.a (20 * Real.logb 10 ‖z‖) - 20 * Real.logb 10 ‖z‖) / 20) - 1| ≤ ‖z‖ * ((10 : ℝ) ^ (ea / 20) - 1) := by
        gcongr
      calc _ ≤ ‖z‖ * ((10 : ℝ) ^ (ea / 20) - 1) + ‖z‖ * (eb * Real.pi / 180) := by gcongr
        _ = _ := by ring

/-- C38: when the printed digits represent the numbers exactly, the matrices read back are the matrices written. -/
theorem C38_exact (r : Rounding) (ha : ∀ x, r.a x = x) (hb : ∀ x, r.b x = x) (f : Fmt) (S : Matrix (Fin N) (Fin N) ℂ) :
    S.map (r.back f) = S := by
  obtain ⟨h1, h2, h3⟩ : (∀ z, r.back .RI z = z) ∧ (∀ z, r.back .MA z = z) ∧ ∀ z, r.back .DB z = z := by
    refine ⟨fun z => ?_, fun z => ?_, fun z => ?_⟩
    · have := (C38_rounding_error r (ea := 0) (eb := 0) (by simp [ha]) (by simp [hb]) z).1
      simpa [sub_eq_zero] using this
    · have := (C38_rounding_error r (ea := 0) (eb := 0) (by simp [ha]) (by simp [hb]) z).2.1
      simpa [sub_eq_zero] using this
    · have := (C38_rounding_error r (ea := 0) (eb := 0) (by simp [ha]) (by simp [hb]) z).2.2
      simpa [sub_eq_zero] using this
  ext i j
  cases f
  · exact h2 _
  · exact h1 _
  · exact h3 _

end PyRFtk.TSF
