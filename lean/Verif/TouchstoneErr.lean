import Verif.TouchstoneDec
import Verif.ConvertProps

/-!
# C39: option lines, line breaks, and what ReadTSF refuses
-/

namespace PyRFtk.TSF

variable {io : NumIO} {kw : Kw}

/-- a line that ReadTSF takes for an option line -/
def isOption (l : Text) : Bool := (strip l).head? = some '#'

theorem readLine_tformat {st st' : RS} {l : Text} (h : readLine io st l = .ok st') :
    st'.tformat.toList = st.tformat.toList ++ (if isOption l then [strip l] else []) := by
  unfold readLine at h
  unfold isOption
  split at h
  · rename_i hs; injection h with h; subst h; simp [hs]
  · rename_i hs; injection h with h; subst h; simp [hs]
  · rename_i hs
    split at h
    · cases h
    · rename_i hn
      injection h with h
      subst h
      have : st.tformat = none := by simpa using hn
      simp [hs, this]
  · rename_i l' h1 h2 h3
    have hn : (strip l).head? ≠ some '#' := by
      intro hc
      cases hs : strip l with
      | nil => rw [hs] at hc; cases hc
      | cons c r =>
        rw [hs] at hc
        simp only [List.head?_cons, Option.some.injEq] at hc
        exact h3 r (by rw [hs, hc])
    split at h
    · cases h
    · injection h with h
      subst h
      rw [if_neg (by simpa using hn), List.append_nil]
      unfold feed
      split <;> (repeat' split) <;> rfl

theorem readLines_tformat {ls : List Text} : ∀ {st st' : RS}, readLines io st ls = .ok st' →
    st'.tformat.toList = st.tformat.toList ++ (ls.filter isOption).map strip := by
  induction ls with
  | nil => intro st st' h; injection h with h; subst h; simp
  | cons l ls ih =>
    intro st st' h
    rw [readLines] at h
    cases h1 : readLine io st l with
    | error e => rw [h1] at h; cases h
    | ok st1 =>
      rw [h1] at h
      rw [ih h, readLine_tformat h1]
      by_cases ho : isOption l = true
      · simp [ho]
      · simp [ho]

/-- a word of an option line that means something: a keyword, or a number -/
def Meaningful (io : NumIO) (w : Text) : Prop :=
  w ∈ [['S'], ['Y'], ['Z'], ['M', 'A'], ['R', 'I'], ['D', 'B'], ['H', 'Z'], ['K', 'H', 'Z'], ['M', 'H', 'Z'], ['G', 'H', 'Z'], ['R']] ∨
  (io.float w).isSome

theorem kind_text {w : Text} {k : Kind} (h : kindOf w = some k) : k.text = w := by
  simpa using List.find?_some h
theorem fmt_text {w : Text} {k : Fmt} (h : fmtOf w = some k) : k.text = w := by
  simpa using List.find?_some h
theorem unit_text {w : Text} {k : FUnit} (h : unitOf w = some k) : k.text = w := by
  simpa using List.find?_some h

theorem parse_meaningful {TZ : Option ℝ} {ws : List Text} : ∀ {op : Bool} {o o' : Opts}, parseOpts io TZ op o ws = .ok o' →
    ∀ w ∈ ws, Meaningful io w := by
  induction ws with
  | nil => intro op o o' h w hw; cases hw
  | cons w ws ih =>
    intro op o o' h
    have key : ∀ {op : Bool} {o : Opts}, Meaningful io w → parseOpts io TZ op o ws = .ok o' → ∀ v ∈ w :: ws, Meaningful io v := by
      intro op o hw h v hv
      rcases List.mem_cons.1 hv with rfl | hv
      · exact hw
      · exact ih h v hv
    rw [parseOpts] at h
    split at h
    · cases h
    · rename_i z hz
      refine key (Or.inr ?_) h
      cases op with
      | false => simp at hz
      | true =>
        simp only [if_true, numR] at hz
        split at hz
        · cases hz
        · cases hz
        · rename_i x hx; rw [hx]; rfl
    · split at h
      · rename_i k hk
        refine key (Or.inl ?_) h
        have := kind_text hk
        cases k <;> simp [Kind.text] at this <;> simp [← this]
      · split at h
        · rename_i k hk
          refine key (Or.inl ?_) h
          have := fmt_text hk
          cases k <;> simp [Fmt.text] at this <;> simp [← this]
        · split at h
          · rename_i k hk
            refine key (Or.inl ?_) h
            have := unit_text hk
            cases k <;> simp [FUnit.text] at this <;> simp [← this]
          · split at h
            · rename_i hR
              exact key (Or.inl (by simp [hR])) h
            · cases h

/-- reading succeeds only when each part of `finish` does -/
theorem finish_parts {st : RS} {R : Res} (h : finish io kw st = .ok R) :
    ∃ N flat o sp g Z G isList vals, reshape st = .ok (N, flat) ∧ options io kw.Zbase st.tformat = .ok o ∧
      specials io ⟨none, none, none, none, none⟩ (st.comments.take st.marker) = .ok sp ∧ st.comments ≠ [] ∧
      glines io GS.start (st.comments.drop st.marker) = .ok g ∧ tables st.fs.length N g = .ok (Z, G, isList) ∧
      mapE (decode o.fmt) flat = .ok vals ∧
      toS st.fs.length N (stackOf st.fs.length N vals) o Z isList kw.Zbase = .ok R.Ss ∧ R.Zbase = kw.Zbase := by
  unfold finish at h
  simp only [bind, Except.bind] at h
  split at h
  · cases h
  rename_i v1 h1
  obtain ⟨N, flat⟩ := v1
  simp only at h
  split at h
  · cases h
  rename_i o h2
  split at h
  · cases h
  rename_i sp h3
  split at h
  · cases h
  rename_i hc
  split at h
  · cases h
  rename_i g h4
  split at h
  · cases h
  rename_i v5 h5
  obtain ⟨Z, G, isList⟩ := v5
  split at h
  · split at h
    · cases h
    split at h
    · cases h
    rename_i vals h8
    split at h
    · cases h
    rename_i S h9
    injection h with h
    subst h
    exact ⟨N, flat, o, sp, g, Z, G, isList, vals, h1, h2, h3, hc, h4, h5, h8, h9, rfl⟩
  · cases h

/-- C39: a source is read only if it has exactly one option line, and only if every word of that line is a keyword or a number. -/
theorem C39_one_option_line {lines : List Text} {R : Res} (h : readTSF io kw lines = .ok R) :
    ∃ t, (lines.filter isOption).map strip = ['#' :: t] ∧ ∀ w ∈ words (upper t), Meaningful io w := by
  unfold readTSF at h
  cases hr : readLines io RS.start lines with
  | error e => rw [hr] at h; cases h
  | ok st =>
    rw [hr] at h
    obtain ⟨N, flat, o, sp, g, Z, G, isList, vals, -, ho, -⟩ := finish_parts h
    have ht := readLines_tformat hr
    cases hf : st.tformat with
    | none => rw [hf] at ho; cases ho
    | some t =>
      rw [hf] at ho ht
      simp only [RS.start, Option.toList_none, List.nil_append, Option.toList_some] at ht
      have hm : t ∈ (lines.filter isOption).map strip := by rw [← ht]; simp
      obtain ⟨l, hl, rfl⟩ := List.mem_map.1 hm
      have hi := (List.mem_filter.1 hl).2
      cases hs : strip l with
      | nil => simp [isOption, hs] at hi
      | cons c r =>
        have : c = '#' := by simpa [isOption, hs] using hi
        subst this
        refine ⟨r, by rw [← ht, hs], ?_⟩
        rw [hs] at ho
        exact parse_meaningful ho

/-- C39: the result depends on the option line only through its unit, number format and reference; the order, the spacing and the
presence of the letter S play no role. -/
theorem C39_option_order (hio : KeywordsNotNumbers io) {t t' : Text} {u : FUnit} {f : Fmt} {z : ℝ} (h : Means io t u f z)
    (h' : Means io t' u f z) (a b : List Text) :
    readTSF io kw (a ++ ('#' :: t) :: b) = readTSF io kw (a ++ ('#' :: t') :: b) := by
  have swap1 : ∀ (st : RS) (x x' l : Text), (readLine io { st with tformat := some x } l).map (fun s => { s with tformat := some x' }) =
      readLine io { st with tformat := some x' } l := by
    intro st x x' l
    unfold readLine
    split
    · rfl
    · rfl
    · rfl
    · split
      · rfl
      · simp only [Except.map]
        congr 1
        unfold feed
        split <;> (repeat' split) <;> rfl
  have swap : ∀ (ls : List Text) (st : RS) (x x' : Text),
      (readLines io { st with tformat := some x } ls).map (fun s => { s with tformat := some x' }) =
      readLines io { st with tformat := some x' } ls ∧
      ∀ s, readLines io { st with tformat := some x } ls = .ok s → s.tformat = some x := by
    intro ls
    induction ls with
    | nil => intro st x x'; exact ⟨rfl, by intro s hs; injection hs with hs; subst hs; rfl⟩
    | cons l ls ih =>
      intro st x x'
      have h1 := swap1 st x x' l
      have h0 := swap1 st x x l
      rw [readLines, readLines]
      cases hl : readLine io { st with tformat := some x } l with
      | error e =>
        rw [hl] at h1
        rw [← h1]
        exact ⟨rfl, by intro s hs; cases hs⟩
      | ok s1 =>
        rw [hl] at h1 h0
        rw [← h1]
        simp only [Except.map]
        have e : s1 = { s1 with tformat := some x } := by
          simp only [Except.map] at h0
          injection h0 with h0
          exact h0.symm
        have := ih s1 x x'
        rw [← e] at this
        exact this
  unfold readTSF
  rw [readLines_append, readLines_append]
  cases ha : readLines io RS.start a with
  | error e => rfl
  | ok st =>
    simp only [readLines]
    by_cases hst : st.tformat = none
    · obtain ⟨y, hy, e1⟩ := readLine_option io st hst t
      obtain ⟨y', hy', e2⟩ := readLine_option io st hst t'
      rw [e1, e2]
      simp only
      have hs := swap b st ('#' :: y) ('#' :: y')
      rw [← hs.1]
      cases hb : readLines io { st with tformat := some ('#' :: y) } b with
      | error e => rfl
      | ok s =>
        simp only [Except.map]
        have et := hs.2 s hb
        have o1 := h.reader hio kw.Zbase hy
        have o2 := h'.reader hio kw.Zbase hy'
        unfold finish
        have r1 : reshape { s with tformat := some ('#' :: y') } = reshape s := rfl
        rw [r1, et, o1, o2]
    · obtain ⟨x, hx⟩ := Option.ne_none_iff_exists'.1 hst
      have err : ∀ t : Text, readLine io st ('#' :: t) = .error .valueError := by
        intro t
        obtain ⟨y, w, e1, -⟩ := strip_head (c := '#') rfl t
        unfold readLine
        rw [e1]
        simp [hx]
      rw [err, err]

/-- C39: a line with an even number of numbers continues the line before it: breaking a line of data there changes nothing. -/
theorem C39_line_breaks {p q c : Text} (hp : '!' ∉ p) (hq : '!' ∉ q) (hc : c = [] ∨ c.head? = some '!')
    (hp0 : words p ≠ []) (hq0 : words q ≠ []) (heven : (words q).length % 2 = 0)
    (hpn : ∀ t ∈ words p, (io.float t).isSome ∧ t.head? ≠ some '#') (hqn : ∀ t ∈ words q, (io.float t).isSome ∧ t.head? ≠ some '#')
    (a b : List Text) :
    readTSF io kw (a ++ (p ++ c) :: q :: b) = readTSF io kw (a ++ (p ++ ' ' :: q) :: b) := by
  have items : ∀ ws : List Text, (∀ t ∈ ws, (io.float t).isSome) → ∃ l : List Num, mapE io.get ws = .ok l ∧ l.length = ws.length := by
    intro ws h
    induction ws with
    | nil => exact ⟨[], rfl, rfl⟩
    | cons t ws ih =>
      obtain ⟨l, hl, hlen⟩ := ih fun t ht => h t (by simp [ht])
      obtain ⟨x, hx⟩ := Option.isSome_iff_exists.1 (h t (by simp))
      rw [mapE_eq_ok] at hl
      refine ⟨x :: l, ?_, by simp [hlen]⟩
      rw [mapE_eq_ok]
      exact .cons (by simp [NumIO.get, hx]) hl
  obtain ⟨lp, h1, h1l⟩ := items (words p) fun t ht => (hpn t ht).1
  obtain ⟨lq, h2, h2l⟩ := items (words q) fun t ht => (hqn t ht).1
  have hw : words (p ++ ' ' :: q) = words p ++ words q := words_append_ws rfl p q
  have h12 : mapE io.get (words (p ++ ' ' :: q)) = .ok (lp ++ lq) := by
    rw [hw, mapE_eq_ok]
    rw [mapE_eq_ok] at h1 h2
    exact List.rel_append h1 h2
  have hpq : '!' ∉ p ++ ' ' :: q := by
    simp only [List.mem_append, List.mem_cons, not_or]
    exact ⟨hp, by decide, hq⟩
  have key : ∀ st : RS, readLines io st ((p ++ c) :: q :: b) = readLines io st ((p ++ ' ' :: q) :: b) := by
    intro st
    have e1 := readLine_data (io := io) (st := st) hp hc h1 hp0 fun t ht => (hpn t ht).2
    have e2 : readLine io (feed st lp) q = .ok (feed (feed st lp) lq) := by
      have := readLine_data (io := io) (st := feed st lp) (c := []) hq (Or.inl rfl) h2 hq0 fun t ht => (hqn t ht).2
      simpa using this
    have e3 : readLine io st (p ++ ' ' :: q) = .ok (feed st (lp ++ lq)) := by
      have := readLine_data (io := io) (st := st) (c := []) hpq (Or.inl rfl) h12 (by rw [hw]; simp [hp0]) (by
        intro t ht
        rw [hw] at ht
        rcases List.mem_append.1 ht with ht | ht
        · exact (hpn t ht).2
        · exact (hqn t ht).2)
      simpa using this
    have hlp : lp ≠ [] := by intro h; rw [h] at h1l; exact hp0 (List.length_eq_zero_iff.1 h1l.symm)
    have hlq : lq ≠ [] := by intro h; rw [h] at h2l; exact hq0 (List.length_eq_zero_iff.1 h2l.symm)
    rw [readLines, e1]
    simp only
    rw [readLines, e2]
    simp only
    rw [readLines, e3]
    simp only
    rw [feed_feed st lp lq hlp (by rw [h2l]; exact heven) hlq]
  unfold readTSF
  rw [readLines_append, readLines_append]
  cases readLines io RS.start a with
  | error e => rfl
  | ok st => simp only [key st]

/-! ## R and Y -/

theorem parse_noR {TZ : Option ℝ} {ws : List Text} : ∀ {o o' : Opts}, ['R'] ∉ ws → parseOpts io TZ false o ws = .ok o' → o'.Zlist = o.Zlist := by
  induction ws with
  | nil => intro o o' _ h; rw [parseOpts] at h; injection h with h; rw [h]
  | cons w ws ih =>
    intro o o' hR h
    have hw : w ≠ ['R'] := by rintro rfl; exact hR (by simp)
    have hR' : ['R'] ∉ ws := fun hm => hR (by simp [hm])
    rw [parseOpts] at h
    simp only [Bool.false_eq_true, if_false] at h
    split at h
    · exact (ih hR' h).trans rfl
    · split at h
      · exact (ih hR' h).trans rfl
      · split at h
        · exact (ih hR' h).trans rfl
        · rw [if_neg hw] at h; cases h

theorem parse_kind {TZ : Option ℝ} (hio : KeywordsNotNumbers io) {ws : List Text} (hS : ['S'] ∉ ws) (hZ : ['Z'] ∉ ws) :
    ∀ {op : Bool} {o o' : Opts}, (['Y'] ∈ ws ∨ o.kind = .Y) → parseOpts io TZ op o ws = .ok o' → o'.kind = .Y := by
  induction ws with
  | nil =>
    intro op o o' hY h
    rw [parseOpts] at h
    injection h with h
    subst h
    exact hY.resolve_left (by simp)
  | cons w ws ih =>
    intro op o o' hY h
    have hS' : ['S'] ∉ ws := fun hm => hS (by simp [hm])
    have hZ' : ['Z'] ∉ ws := fun hm => hZ (by simp [hm])
    have hnY : ∀ {o1 : Opts} {op1 : Bool}, w ≠ ['Y'] → parseOpts io TZ op1 o1 ws = .ok o' → o1.kind = o.kind → o'.kind = .Y := by
      intro o1 op1 hw h e
      refine ih hS' hZ' ?_ h
      rcases hY with hY | hY
      · rcases List.mem_cons.1 hY with h1 | h1
        · exact absurd h1.symm hw
        · exact Or.inl h1
      · exact Or.inr (e.trans hY)
    rw [parseOpts] at h
    split at h
    · cases h
    · rename_i z hz
      refine hnY ?_ h rfl
      rintro rfl
      have := hio ['Y'] (Or.inl (by decide))
      cases op <;> simp [numR, this] at hz
    · split at h
      · rename_i k hk
        have := kind_text hk
        cases k with
        | S => exact absurd this (by rintro rfl; exact hS (by simp [Kind.text]))
        | Z => exact absurd this (by rintro rfl; exact hZ (by simp [Kind.text]))
        | Y => exact ih hS' hZ' (Or.inr rfl) h
      · rename_i hk
        have hw : w ≠ ['Y'] := by rintro rfl; exact absurd hk (by decide)
        split at h
        · exact hnY hw h rfl
        · split at h
          · exact hnY hw h rfl
          · split at h
            · exact hnY hw h rfl
            · cases h

/-- C39 (as found, contrary to the Touchstone standard): admittance data can never be read. -/
theorem C39_Y_refused (hio : KeywordsNotNumbers io) {lines : List Text} {t : Text} (ht : (lines.filter isOption).map strip = ['#' :: t])
    (hY : ['Y'] ∈ words (upper t)) (hS : ['S'] ∉ words (upper t)) (hZ : ['Z'] ∉ words (upper t)) :
    ∃ e, readTSF io kw lines = .error e := by
  cases h : readTSF io kw lines with
  | error e => exact ⟨e, rfl⟩
  | ok R =>
    exfalso
    unfold readTSF at h
    cases hr : readLines io RS.start lines with
    | error e => rw [hr] at h; cases h
    | ok st =>
      rw [hr] at h
      obtain ⟨N, flat, o, sp, g, Z, G, isList, vals, -, ho, -, -, -, -, -, hS', -⟩ := finish_parts h
      have h2 := readLines_tformat hr
      rw [ht] at h2
      have h3 : st.tformat = some ('#' :: t) := by
        cases hf : st.tformat with
        | none => rw [hf] at h2; simp [RS.start] at h2
        | some x => rw [hf] at h2; simp [RS.start] at h2; rw [h2]
      rw [h3] at ho
      have hk := parse_kind hio hS hZ (Or.inl hY) ho
      unfold toS at hS'
      simp only [hk] at hS'
      split at hS'
      · cases hS'
      · rw [C04_S_from_Y_always_raises] at hS'
        cases hS'

theorem glines_noImp : ∀ {cs : List Text} {g g' : GS}, (∀ c ∈ cs, impTag c.tail = none) → g.last ≠ .imp → g.Zcs = [] → g.Zcsk = [] →
    glines io g cs = .ok g' → g'.Zcs = [] ∧ g'.Zcsk = [] := by
  intro cs
  induction cs with
  | nil => intro g g' _ _ h1 h2 h; injection h with h; subst h; exact ⟨h1, h2⟩
  | cons c cs ih =>
    intro g g' hc h0 h1 h2 h
    rw [glines] at h
    have hc1 := hc c (by simp)
    cases hg : gline io g c.tail with
    | error e => rw [hg] at h; cases h
    | ok g1 =>
      rw [hg] at h
      simp only at h
      have : g1.last ≠ .imp ∧ g1.Zcs = [] ∧ g1.Zcsk = [] := by
        unfold gline at hg
        rw [hc1] at hg
        simp only at hg
        split at hg
        · split at hg
          · cases hn : numPairs io ((gammaTag c.tail).getD []) with
            | error e => rw [hn] at hg; cases hg
            | ok l => rw [hn] at hg; injection hg with hg; subst hg; exact ⟨by simp, h1, h2⟩
          · cases hn : numPairs io c.tail with
            | error e => rw [hn] at hg; cases hg
            | ok l => rw [hn] at hg; injection hg with hg; subst hg; exact ⟨h0, h1, h2⟩
        · injection hg with hg
          subst hg
          exact ⟨h0, h1, h2⟩
      exact ih (fun c hc' => hc c (by simp [hc'])) this.1 this.2.1 this.2.2 h

theorem feed_comments (st : RS) (its : List Num) :
    (feed st its).comments = if st.marker = 0 then st.comments ++ [markerText] else st.comments := by
  unfold feed
  cases its with
  | nil => simp only; split <;> rfl
  | cons f r => simp only; (repeat' split) <;> rfl

theorem comments_from {ls : List Text} : ∀ {st st' : RS}, readLines io st ls = .ok st' →
    ∀ c ∈ st'.comments, c ∈ st.comments ∨ c = markerText ∨ ∃ l ∈ ls, c = strip l := by
  induction ls with
  | nil => intro st st' h c hc; injection h with h; subst h; exact Or.inl hc
  | cons l ls ih =>
    intro st st' h c hc
    rw [readLines] at h
    cases h1 : readLine io st l with
    | error e => rw [h1] at h; cases h
    | ok st1 =>
      rw [h1] at h
      have step : ∀ c ∈ st1.comments, c ∈ st.comments ∨ c = markerText ∨ c = strip l := by
        intro c hc
        unfold readLine at h1
        split at h1
        · injection h1 with h1; subst h1; exact Or.inl hc
        · rename_i hs
          injection h1 with h1; subst h1
          rcases List.mem_append.1 hc with hc | hc
          · exact Or.inl hc
          · rw [hs]; exact Or.inr (Or.inr (by simpa using hc))
        · split at h1
          · cases h1
          · injection h1 with h1; subst h1; exact Or.inl hc
        · split at h1
          · cases h1
          · injection h1 with h1; subst h1
            rw [feed_comments] at hc
            split at hc
            · rcases List.mem_append.1 hc with hc | hc
              · exact Or.inl hc
              · exact Or.inr (Or.inl (by simpa using hc))
            · exact Or.inl hc
      rcases ih h c hc with h2 | h2 | ⟨l', hl', h2⟩
      · rcases step c h2 with h3 | h3 | h3
        · exact Or.inl h3
        · exact Or.inr (Or.inl h3)
        · exact Or.inr (Or.inr ⟨l, by simp, h3⟩)
      · exact Or.inr (Or.inl h2)
      · exact Or.inr (Or.inr ⟨l', by simp [hl'], h2⟩)

theorem impTag_marker : impTag markerText.tail = none := by decide

/-- C39 (as found, contrary to the Touchstone standard, where the reference is 50 ohm by default): without the keyword R, and without
`Port Impedance` comments, a file is refused. -/
theorem C39_reference_required {lines : List Text} {R : Res} (h : readTSF io kw lines = .ok R)
    (hno : ∀ l ∈ lines, impTag (strip l).tail = none) {t : Text} (ht : (lines.filter isOption).map strip = ['#' :: t]) :
    ['R'] ∈ words (upper t) := by
  by_contra hR
  unfold readTSF at h
  cases hr : readLines io RS.start lines with
  | error e => rw [hr] at h; cases h
  | ok st =>
    rw [hr] at h
    obtain ⟨N, flat, o, sp, g, Z, G, isList, vals, -, ho, -, -, hg, htab, -, hS, -⟩ := finish_parts h
    have h2 := readLines_tformat hr
    rw [ht] at h2
    have h3 : st.tformat = some ('#' :: t) := by
      cases hf : st.tformat with
      | none => rw [hf] at h2; simp [RS.start] at h2
      | some x => rw [hf] at h2; simp [RS.start] at h2; rw [h2]
    rw [h3] at ho
    have hz := parse_noR hR ho
    have hcs : ∀ c ∈ st.comments.drop st.marker, impTag c.tail = none := by
      intro c hc
      rcases comments_from hr c (List.mem_of_mem_drop hc) with h4 | rfl | ⟨l, hl, rfl⟩
      · simp [RS.start] at h4
      · exact impTag_marker
      · exact hno l hl
    obtain ⟨hZ1, hZ2⟩ := glines_noImp hcs (by simp [GS.start]) rfl rfl hg
    have hZ : Z = [] := by
      unfold tables at htab
      rw [hZ1, hZ2] at htab
      simp only [ne_eq, not_true_eq_false, if_false] at htab
      generalize (if ¬g.Gmsk = [] then g.Gms ++ [g.Gmsk] else g.Gms) = GG at htab
      split at htab
      · cases htab
      · split at htab
        · cases htab
        · split at htab
          · injection htab with htab; exact (congrArg Prod.fst htab).symm
          · rename_i hne
            split at htab
            · cases htab
            · rename_i hlen
              exfalso
              apply hne
              refine ⟨?_, trivial⟩
              by_contra hG
              apply hlen
              left
              intro hl
              exact hG (List.length_eq_zero_iff.1 hl)
    unfold toS at hS
    rw [hZ] at hS
    simp only [List.head?_nil, Option.getD_none, List.length_nil, ne_eq, not_true_eq_false, if_false] at hS
    rw [hz] at hS
    simp [Opts.start] at hS

end PyRFtk.TSF
