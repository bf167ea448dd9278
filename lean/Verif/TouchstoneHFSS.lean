import Verif.TouchstoneTrip
import Verif.TouchstoneMore

/-!
# C64: port impedances exported by HFSS

HFSS writes after the data of each frequency comments of the form

    ! Gamma ! 0.0 1.2  0.0 1.3
    ! Port Impedance 50.1 0.2  49.7 -0.1

with one complex number per port (older versions) or a full matrix (newer versions), possibly continued on further comment
lines (ReadTSF.py:237-337, 350-411).
-/

namespace PyRFtk.TSF

/-! ## The files (specification) -/

/-- the words of a text are these numbers -/
def Numbers (io : NumIO) (t : Text) (xs : List Num) : Prop := List.Forall₂ (fun w x => io.float w = some x) (words t) xs

/-- a number has no letter g or p (as `Gamma`, `Port` have), exclamation mark or hash in it -/
def PlainNumbers (io : NumIO) : Prop :=
  ∀ w x, io.float w = some x → ∀ c ∈ w, c.toUpper ≠ 'G' ∧ c.toUpper ≠ 'P' ∧ c ≠ '!' ∧ c ≠ '#'

/-- real and imaginary parts in turn -/
def reIm (zs : List ℂ) : List Num := zs.flatMap fun z => [some z.re, some z.im]

/-- a line with (at least one of) the numbers, and possibly a comment -/
def NumLine (io : NumIO) (l : Text) (its : List Num) : Prop :=
  its ≠ [] ∧ ∃ p c, l = p ++ c ∧ '!' ∉ p ∧ (c = [] ∨ c.head? = some '!') ∧ Numbers io p its

/-- two numbers show a complex value in the number format -/
def Shown : Fmt → ℝ × ℝ → ℂ → Prop
  | .RI, (x, y), z => z = ⟨x, y⟩
  | .MA, (x, y), z => z = x * Complex.exp (Complex.I * y * Real.pi / 180)
  | .DB, (x, y), z => z = ((10 : ℝ) ^ (x / 20) : ℝ) * Complex.exp (Complex.I * y * Real.pi / 180)

/-- the data of one frequency: an odd number of numbers on the first line (the frequency), an even number on each further
line; after the frequency the elements of the matrix row by row -/
def DataLines (io : NumIO) (fmt : Fmt) {N : ℕ} (f : ℝ) (S : Matrix (Fin N) (Fin N) ℂ) (ls : List Text) : Prop :=
  ∃ (it : List Num) (its : List (List Num)) (vals : List (ℝ × ℝ)), List.Forall₂ (NumLine io) ls (it :: its) ∧
    it.length % 2 = 1 ∧ (∀ x ∈ its, x.length % 2 = 0) ∧
    (it :: its).flatten = some f :: (vals.flatMap fun p => [some p.1, some p.2]) ∧
    List.Forall₂ (Shown fmt) vals (rowsOf S).flatten

/-- a comment starting with `tag` and complex numbers, continued on any number of comment lines -/
def TagLines (io : NumIO) (tag : Text) (zs : List ℂ) (ls : List Text) : Prop :=
  ∃ (t : Text) (ts : List Text) (z : List ℂ) (zr : List (List ℂ)), ls = (tag ++ t) :: ts.map ("! ".toList ++ ·) ∧ z ≠ [] ∧
    Numbers io t (reIm z) ∧ List.Forall₂ (fun t z => Numbers io t (reIm z)) ts zr ∧ zs = z ++ zr.flatten

/-- what the file has for one frequency -/
structure Rec (N : ℕ) where
  f : ℝ
  S : Matrix (Fin N) (Fin N) ℂ
  gam : List ℂ
  imp : List ℂ

/-- the lines of one frequency -/
def RecLines (io : NumIO) (fmt : Fmt) {N : ℕ} (r : Rec N) (ls : List Text) : Prop :=
  ∃ a b c, ls = a ++ b ++ c ∧ DataLines io fmt r.f r.S a ∧ TagLines io "! Gamma ! ".toList r.gam b ∧
    TagLines io "! Port Impedance ".toList r.imp c

/-- a line of the header other than the option line: blank, or a comment that is none of `!PORTS`, `!MARKERS`, `!SHAPE`,
`!PART`, `!NUMBERING` and has no second exclamation mark -/
def HeadLine (l : Text) : Prop :=
  words l = [] ∨ ∃ x, l = '!' :: x ∧ '!' ∉ x ∧ ∀ c, x.head? = some c → c ∉ ['P', 'M', 'S', 's', 'N']

/-- the option line names the unit `u`, the number format `f`, S-data (or no kind of data) and possibly references -/
def OptMeans (io : NumIO) (t : Text) (u : FUnit) (f : Fmt) (hasR : Prop) : Prop :=
  ∃ ps, OptText ps t ∧ ps.filterMap Piece.unit? = [u] ∧ ps.filterMap Piece.fmt? = [f] ∧
    (∀ p ∈ ps, ∀ tok, p.ref? = some tok → ∃ z : ℝ, io.float tok = some (some z)) ∧ (hasR ↔ ps.filterMap Piece.ref? ≠ [])

/-- the file: header with one option line, then the frequencies -/
structure HFSS (io : NumIO) (u : FUnit) (f : Fmt) (hasR : Prop) {N : ℕ} (recs : List (Rec N)) (lines : List Text) : Prop where
  split : ∃ pre t post body, lines = pre ++ ('#' :: t) :: post ++ body.flatten ∧ (∀ l ∈ pre, HeadLine l) ∧
    (∀ l ∈ post, HeadLine l) ∧ OptMeans io t u f hasR ∧ List.Forall₂ (RecLines io f) recs body

/-- a list of complex numbers gives one value per port: one number per port, or a matrix with the values on its diagonal -/
inductive PerPort {N : ℕ} : Bool → List ℂ → (Fin N → ℂ) → Prop
  | vector (z : Fin N → ℂ) : PerPort false (List.ofFn z) z
  | matrix (A : Matrix (Fin N) (Fin N) ℂ) : PerPort true (rowsOf A).flatten (fun i => A i i)

/-! ## Text -/

variable {io : NumIO}

theorem mem_words_or_ws {t : Text} {c : Char} (h : c ∈ t) : isWs c = true ∨ ∃ w ∈ words t, c ∈ w := by
  by_cases hc : isWs c = true
  · exact Or.inl hc
  · right
    have : ∃ w ∈ pieces isWs t, c ∈ w := by
      induction t with
      | nil => simp at h
      | cons d t ih =>
        rw [pieces]
        by_cases hd : isWs d = true
        · rw [if_pos hd]
          rcases List.mem_cons.1 h with rfl | h
          · exact absurd hd hc
          · obtain ⟨w, hw, hcw⟩ := ih h
            exact ⟨w, by simp [hw], hcw⟩
        · rw [if_neg hd]
          cases hp : pieces isWs t with
          | nil => exact absurd hp (pieces_ne _ _)
          | cons l ls =>
            simp only
            rcases List.mem_cons.1 h with rfl | h
            · exact ⟨c :: l, by simp, by simp⟩
            · obtain ⟨w, hw, hcw⟩ := ih h
              rw [hp] at hw
              rcases List.mem_cons.1 hw with rfl | hw
              · exact ⟨d :: w, by simp, by simp [hcw]⟩
              · exact ⟨w, by simp [hw], hcw⟩
    obtain ⟨w, hw, hcw⟩ := this
    refine ⟨w, List.mem_filter.2 ⟨hw, ?_⟩, hcw⟩
    simp only [decide_eq_true_eq]
    rintro rfl
    simp at hcw

theorem numbers_mapE {t : Text} {xs : List Num} (h : Numbers io t xs) : mapE io.get (words t) = .ok xs := by
  rw [mapE_eq_ok]
  refine h.imp fun w x hx => ?_
  unfold NumIO.get
  rw [hx]

theorem forall2_mem {α β : Type*} {R : α → β → Prop} {l : List α} {l' : List β} (h : List.Forall₂ R l l') {a : α} (ha : a ∈ l) :
    ∃ b ∈ l', R a b := by
  induction h with
  | nil => simp at ha
  | cons h1 _ ih =>
    rcases List.mem_cons.1 ha with rfl | ha
    · exact ⟨_, by simp, h1⟩
    · obtain ⟨x, hx, e⟩ := ih ha
      exact ⟨x, by simp [hx], e⟩

theorem numbers_chars (hp : PlainNumbers io) {t : Text} {xs : List Num} (h : Numbers io t xs) {c : Char} (hc : c ∈ t) :
    c.toUpper ≠ 'G' ∧ c.toUpper ≠ 'P' ∧ c ≠ '!' := by
  rcases mem_words_or_ws hc with hw | ⟨w, hw, hcw⟩
  · have : c = ' ' ∨ c = '\t' ∨ c = '\n' ∨ c = '\r' ∨ c = '\x0b' ∨ c = '\x0c' := by
      simpa [isWs, or_assoc] using hw
    rcases this with rfl | rfl | rfl | rfl | rfl | rfl <;> decide
  · obtain ⟨x, -, hx⟩ : ∃ x ∈ xs, io.float w = some x := by
      exact forall2_mem h hw
    obtain ⟨h1, h2, h3, -⟩ := hp w x hx c hcw
    exact ⟨h1, h2, h3⟩

theorem reIm_length (zs : List ℂ) : (reIm zs).length = 2 * zs.length := by
  induction zs with
  | nil => rfl
  | cons z zs ih => simp only [reIm, List.flatMap_cons, List.length_append, List.length_cons, List.length_nil] at ih ⊢; omega

/-- the pairs of numbers of complex values -/
def prs (zs : List ℂ) : List (Num × Num) := zs.map fun z => (some z.re, some z.im)

theorem pairs_reIm (zs : List ℂ) : pairs (reIm zs) = prs zs := by
  induction zs with
  | nil => rfl
  | cons z zs ih =>
    show (some z.re, some z.im) :: pairs (reIm zs) = _
    rw [ih]; rfl

theorem numPairs_reIm {t : Text} {zs : List ℂ} (h : Numbers io t (reIm zs)) : numPairs io t = .ok (prs zs) := by
  unfold numPairs
  rw [numbers_mapE h]
  simp only [reIm_length, Nat.mul_mod_right, zero_ne_one, if_false, pairs_reIm]

theorem startsCI_head {w l : Text} {a c : Char} (h : startsCI (a :: w) (c :: l) = true) : c.toUpper = a.toUpper := by
  unfold startsCI upper at h
  simp only [List.length_cons, List.take_succ_cons, List.map_cons, decide_eq_true_eq, List.cons.injEq] at h
  exact h.1.symm

theorem gammaTag_none {l : Text} (h : ∀ c ∈ l, c.toUpper ≠ 'G') : gammaTag l = none := by
  induction l with
  | nil => rfl
  | cons c l ih =>
    unfold gammaTag
    simp only
    rw [if_neg]
    · exact ih fun d hd => h d (by simp [hd])
    · rintro ⟨h1, -⟩
      exact h c (by simp) (startsCI_head (w := "amma".toList) (a := 'G') h1)

theorem impTag_none {l : Text} (h : ∀ c ∈ l, c.toUpper ≠ 'P') : impTag l = none := by
  induction l with
  | nil => rfl
  | cons c l ih =>
    unfold impTag
    rw [if_neg]
    · exact ih fun d hd => h d (by simp [hd])
    · rintro ⟨h1, -⟩
      exact h c (by simp) (startsCI_head (w := "ort Impedance".toList) (a := 'P') h1)

theorem gammaTag_line (t : Text) : gammaTag (" Gamma ! ".toList ++ t) = some (' ' :: t) := by
  have e : " Gamma ! ".toList ++ t = ' ' :: 'G' :: 'a' :: 'm' :: 'm' :: 'a' :: ' ' :: '!' :: ' ' :: t := rfl
  rw [e]
  have h1 : startsCI "Gamma".toList (' ' :: 'G' :: 'a' :: 'm' :: 'm' :: 'a' :: ' ' :: '!' :: ' ' :: t) = false := rfl
  have h2 : startsCI "Gamma".toList ('G' :: 'a' :: 'm' :: 'm' :: 'a' :: ' ' :: '!' :: ' ' :: t) = true := rfl
  have h3 : (' ' :: '!' :: ' ' :: t).dropWhile isWs = '!' :: ' ' :: t := rfl
  rw [gammaTag]
  simp only [h1, Bool.false_eq_true, false_and, if_false]
  rw [gammaTag]
  simp only [h2, List.drop_succ_cons, List.drop_zero, h3]
  simp

theorem impTag_line (t : Text) : impTag (" Port Impedance ".toList ++ t) = some (' ' :: t) := by
  have e : " Port Impedance ".toList ++ t = ' ' :: ("Port Impedance ".toList ++ t) := rfl
  have e2 : "Port Impedance ".toList ++ t = 'P' :: ("ort Impedance ".toList ++ t) := rfl
  have h1 : startsCI "Port Impedance".toList (' ' :: ("Port Impedance ".toList ++ t)) = false := rfl
  have h2 : startsCI "Port Impedance".toList ('P' :: ("ort Impedance ".toList ++ t)) = true := rfl
  have h3 : ('P' :: ("ort Impedance ".toList ++ t)).drop 14 = ' ' :: t := rfl
  rw [e, impTag]
  simp only [h1, Bool.false_eq_true, false_and, if_false]
  rw [e2, impTag]
  simp only [h2, h3]
  simp

/-- a comment line `a ++ t` is kept without the blanks at its end -/
theorem keep_prefix {a t y w : Text} (h : a ++ t = y ++ w) (hw : ∀ c ∈ w, isWs c = true) (ht : words t ≠ []) :
    ∃ t', y = a ++ t' ∧ t = t' ++ w := by
  rcases List.append_eq_append_iff.1 h with ⟨t', h1, h2⟩ | ⟨c', h1, h2⟩
  · exact ⟨t', h1, h2⟩
  · exfalso
    apply ht
    apply words_ws
    intro c hc
    exact hw c (by rw [h2]; simp [hc])

theorem words_ne_of_numbers {t : Text} {xs : List Num} (h : Numbers io t xs) (hx : xs ≠ []) : words t ≠ [] := by
  intro e
  unfold Numbers at h
  rw [e] at h
  cases h
  exact hx rfl

/-! ## Reading the lines -/

theorem readLine_num (hp : PlainNumbers io) {l : Text} {its : List Num} (h : NumLine io l its) (st : RS) :
    readLine io st l = .ok (feed st its) := by
  obtain ⟨hne, p, c, rfl, h1, h2, h3⟩ := h
  refine readLine_data h1 h2 (numbers_mapE h3) (words_ne_of_numbers h3 hne) ?_
  intro t ht
  obtain ⟨x, -, hx⟩ := forall2_mem h3 ht
  intro he
  cases t with
  | nil => simp at he
  | cons d t =>
    simp at he
    subst he
    exact (hp _ x hx '#' (by simp)).2.2.2 rfl

theorem readLines_more (hp : PlainNumbers io) {ls : List Text} {its : List (List Num)} (h : List.Forall₂ (NumLine io) ls its) :
    ∀ (st : RS) (it : List Num), it ≠ [] → (∀ x ∈ its, x.length % 2 = 0) →
    readLines io (feed st it) ls = .ok (feed st (it ++ its.flatten)) := by
  induction h with
  | nil => intro st it _ _; simp [readLines]
  | @cons l x ls its h1 _ ih =>
    intro st it hit hev
    rw [readLines, readLine_num hp h1]
    simp only
    rw [feed_feed st it x hit (hev x (by simp)) h1.1, ih st (it ++ x) (by simp [hit]) fun y hy => hev y (by simp [hy])]
    simp

theorem read_data (hp : PlainNumbers io) {fmt : Fmt} {N : ℕ} {f : ℝ} {S : Matrix (Fin N) (Fin N) ℂ} {ls : List Text}
    (h : DataLines io fmt f S ls) : ∃ vals : List (ℝ × ℝ), List.Forall₂ (Shown fmt) vals (rowsOf S).flatten ∧
    ∀ st, readLines io st ls = .ok (feed st (some f :: vals.flatMap fun p => [some p.1, some p.2])) := by
  obtain ⟨it, its, vals, h1, h2, h3, h4, h5⟩ := h
  refine ⟨vals, h5, fun st => ?_⟩
  cases h1 with
  | cons h0 h1 =>
    rw [readLines, readLine_num hp h0]
    simp only
    rw [readLines_more hp h1 st it h0.1 h3, ← List.flatten_cons, h4]

/-- comment lines are collected -/
theorem read_comments (xs : List Text) : ∀ st : RS, ∃ ys : List Text,
    List.Forall₂ (fun x y => ∃ w, x = y ++ w ∧ ∀ d ∈ w, isWs d = true) xs ys ∧
    readLines io st (xs.map ('!' :: ·)) = .ok { st with comments := st.comments ++ ys.map ('!' :: ·) } := by
  induction xs with
  | nil => intro st; exact ⟨[], .nil, by simp [readLines]⟩
  | cons x xs ih =>
    intro st
    obtain ⟨y, w, h1, h2, h3⟩ := readLine_comment io st x
    obtain ⟨ys, h4, h5⟩ := ih { st with comments := st.comments ++ ['!' :: y] }
    refine ⟨y :: ys, .cons ⟨w, h1, h2⟩ h4, ?_⟩
    rw [List.map_cons, readLines, h3]
    simp only
    rw [h5]
    simp

theorem glines_append {a b : List Text} : ∀ g : GS, glines io g (a ++ b) =
    match glines io g a with
    | .error e => .error e
    | .ok g1 => glines io g1 b := by
  induction a with
  | nil => intro g; rfl
  | cons l a ih =>
    intro g
    rw [List.cons_append, glines, glines]
    cases gline io g l.tail with
    | error e => rfl
    | ok g1 => exact ih g1

theorem numbers_keep {t t' w : Text} {xs : List Num} (h : Numbers io t xs) (e : t = t' ++ w) (hw : ∀ c ∈ w, isWs c = true) :
    Numbers io t' xs := by
  unfold Numbers at h ⊢
  rwa [e, words_append_wss hw] at h

theorem numbers_blank {t : Text} {xs : List Num} (h : Numbers io t xs) : Numbers io (' ' :: t) xs := by
  unfold Numbers at h ⊢
  rwa [words_cons_ws (by rfl)]

/-- further lines of numbers go to the table that is open -/
theorem gline_more (hp : PlainNumbers io) {t : Text} {zs : List ℂ} (h : Numbers io t (reIm zs)) (g : GS) :
    (g.last = .gamma → gline io g t = .ok { g with Gmsk := g.Gmsk ++ prs zs }) ∧
    (g.last = .imp → gline io g t = .ok { g with Zcsk := g.Zcsk ++ prs zs }) := by
  have h1 : impTag t = none := impTag_none fun c hc => (numbers_chars hp h hc).2.1
  have h2 : gammaTag t = none := gammaTag_none fun c hc => (numbers_chars hp h hc).1
  constructor
  · intro hl
    unfold gline
    simp [h1, h2, hl, numPairs_reIm h, Except.map]
  · intro hl
    unfold gline
    simp [h1, h2, hl, numPairs_reIm h, Except.map]

theorem glines_more (hp : PlainNumbers io) {ys : List Text} {zr : List (List ℂ)}
    (h : List.Forall₂ (fun y z => Numbers io y (reIm z)) ys zr) : ∀ g : GS,
    (g.last = .gamma → glines io g (ys.map ('!' :: ·)) = .ok { g with Gmsk := g.Gmsk ++ prs zr.flatten }) ∧
    (g.last = .imp → glines io g (ys.map ('!' :: ·)) = .ok { g with Zcsk := g.Zcsk ++ prs zr.flatten }) := by
  induction h with
  | nil => intro g; simp [glines, prs]
  | @cons y z ys zr h1 _ ih =>
    intro g
    constructor
    · intro hl
      rw [List.map_cons, glines, List.tail_cons, (gline_more hp h1 g).1 hl]
      simp only
      rw [(ih { g with Gmsk := g.Gmsk ++ prs z }).1 hl]
      simp [prs]
    · intro hl
      rw [List.map_cons, glines, List.tail_cons, (gline_more hp h1 g).2 hl]
      simp only
      rw [(ih { g with Zcsk := g.Zcsk ++ prs z }).2 hl]
      simp [prs]

/-- the table of impedances (propagation constants) so far with the row that is open -/
def closed (l : List (List (Num × Num))) (k : List (Num × Num)) : List (List (Num × Num)) := if k ≠ [] then l ++ [k] else l

theorem gline_gamma (hp : PlainNumbers io) {t : Text} {zs : List ℂ} (h : Numbers io t (reIm zs)) (g : GS)
    (hl : g.last ≠ .gamma) : gline io g (" Gamma ! ".toList ++ t) =
      .ok { g with Gms := closed g.Gms g.Gmsk, Gmsk := prs zs, last := .gamma } := by
  have h1 : impTag (" Gamma ! ".toList ++ t) = none := by
    refine impTag_none fun c hc => ?_
    rcases List.mem_append.1 hc with hc | hc
    · exact (show ∀ c ∈ " Gamma ! ".toList, c.toUpper ≠ 'P' by decide) c hc
    · exact (numbers_chars hp h hc).2.1
  unfold gline
  rw [h1, gammaTag_line]
  simp [hl, numPairs_reIm (numbers_blank h), Except.map, closed]

theorem gline_imp (hp : PlainNumbers io) {t : Text} {zs : List ℂ} (h : Numbers io t (reIm zs)) (g : GS)
    (hl : g.last ≠ .imp) : gline io g (" Port Impedance ".toList ++ t) =
      .ok { g with Zcs := closed g.Zcs g.Zcsk, Zcsk := prs zs, last := .imp } := by
  have h1 : gammaTag (" Port Impedance ".toList ++ t) = none := by
    refine gammaTag_none fun c hc => ?_
    rcases List.mem_append.1 hc with hc | hc
    · exact (show ∀ c ∈ " Port Impedance ".toList, c.toUpper ≠ 'G' by decide) c hc
    · exact (numbers_chars hp h hc).1
  unfold gline
  rw [h1, impTag_line]
  simp [hl, numPairs_reIm (numbers_blank h), Except.map, closed]

/-- tag lines: collected, and understood afterwards -/
theorem read_tag (hp : PlainNumbers io) {tag : Text} {zs : List ℂ} {ls : List Text} (h : TagLines io ('!' :: tag) zs ls)
    (st : RS) : ∃ cs, readLines io st ls = .ok { st with comments := st.comments ++ cs } ∧
      ∃ t z zr, zs = z ++ zr ∧ z ≠ [] ∧ Numbers io t (reIm z) ∧ ∀ g : GS, glines io g cs =
        match gline io g (tag ++ t) with
        | .error e => .error e
        | .ok g1 => if g1.last = .gamma then .ok { g1 with Gmsk := g1.Gmsk ++ prs zr }
            else if g1.last = .imp then .ok { g1 with Zcsk := g1.Zcsk ++ prs zr } else glines io g1 cs.tail := by
  obtain ⟨t, ts, z, zr, rfl, hz, h1, h2, rfl⟩ := h
  have e : (('!' :: tag ++ t) :: ts.map ("! ".toList ++ ·)) = ((tag ++ t) :: ts.map (' ' :: ·)).map ('!' :: ·) := by
    simp [List.map_map, Function.comp_def]
  obtain ⟨ys, h3, h4⟩ := read_comments (io := io) ((tag ++ t) :: ts.map (' ' :: ·)) st
  rw [e, h4]
  refine ⟨_, rfl, ?_⟩
  cases h3 with
  | @cons _ y _ ys h5 h6 =>
    obtain ⟨w, h7, h8⟩ := h5
    obtain ⟨t', rfl, h9⟩ := keep_prefix h7 h8 (words_ne_of_numbers h1 (by
      intro hc
      have := reIm_length z
      rw [hc] at this
      have : z.length = 0 := by simpa using this.symm
      exact hz (List.length_eq_zero_iff.1 this)))
    have hys : List.Forall₂ (fun y z => Numbers io y (reIm z)) ys zr := by
      rw [List.forall₂_map_left_iff] at h6
      clear h4
      induction h2 generalizing ys with
      | nil => cases h6; exact .nil
      | @cons a b as bs ha _ ih =>
        cases h6 with
        | cons hb h6 =>
          obtain ⟨w, hw1, hw2⟩ := hb
          refine .cons (numbers_keep (numbers_blank ha) hw1 hw2) (ih ?_ h6)
          simp [List.map_map, Function.comp_def]
    refine ⟨t', z, zr.flatten, rfl, hz, numbers_keep h1 h9 h8, fun g => ?_⟩
    rw [List.map_cons, glines, List.tail_cons]
    cases gline io g (tag ++ t') with
    | error e => rfl
    | ok g1 =>
      simp only
      by_cases hg : g1.last = .gamma
      · rw [if_pos hg]; exact (glines_more hp hys g1).1 hg
      · rw [if_neg hg]
        by_cases hi : g1.last = .imp
        · rw [if_pos hi]; exact (glines_more hp hys g1).2 hi
        · rw [if_neg hi]; rfl

/-! ## The header -/

theorem upper_head_ne {c : Char} (h : c ∉ ['P', 'M', 'S', 's', 'N']) : c.toUpper ≠ 'S' := by
  rcases toUpper_cases c with hc | ⟨n, h1, h2⟩
  · rw [hc]; rintro rfl; simp at h
  · rw [h2]
    rw [h1] at h
    clear h1 h2
    revert n; decide

theorem prefix_ne {c : Char} {t l : Text} (hl : ∀ d, l.head? = some d → d ≠ c) : (c :: t).isPrefixOf l = false := by
  cases l with
  | nil => rfl
  | cons d l =>
    rw [List.isPrefixOf_cons_cons]
    simp [(hl d rfl).symm]

/-- a comment that starts with none of the special words has no special meaning -/
theorem quiet_head {l : Text} (h : '!' ∉ l) (hl : ∀ c, l.head? = some c → c ∉ ['P', 'M', 'S', 's', 'N']) : Quiet ('!' :: l) := by
  intro io s
  unfold special1 portsOf
  have hu : ∀ c, (upper l).head? = some c → c ≠ 'S' := by
    intro c hc
    cases l with
    | nil => simp [upper] at hc
    | cons d l =>
      simp only [upper, List.map_cons, List.head?_cons, Option.some.injEq] at hc
      rw [← hc]
      exact upper_head_ne (hl d rfl)
  have no : ∀ a, a ∈ ['P', 'M', 'S', 's', 'N'] → ∀ c, l.head? = some c → c ≠ a := by
    rintro a ha c hc rfl
    exact hl c hc ha
  have h1 : findTag "!PORTS ".toList ('!' :: l) = none := by
    rw [tag_ports, findTag_bang h, if_neg]; rintro ⟨e, -⟩; rw [prefix_ne (no 'P' (by simp))] at e; cases e
  have h2 : findTag "!MARKERS ".toList ('!' :: l) = none := by
    rw [tag_markers, findTag_bang h, if_neg]; rintro ⟨e, -⟩; rw [prefix_ne (no 'M' (by simp))] at e; cases e
  have h3 : findTag "!SHAPE ".toList (upper ('!' :: l)) = none := by
    have e : upper ('!' :: l) = '!' :: upper l := rfl
    rw [e, tag_shape, findTag_bang (upper_bang h), if_neg]; rintro ⟨e, -⟩; rw [prefix_ne hu] at e; cases e
  have h4 : findTag "!PART ".toList ('!' :: l) = none := by
    rw [tag_part, findTag_bang h, if_neg]; rintro ⟨e, -⟩; rw [prefix_ne (no 'P' (by simp))] at e; cases e
  have h5 : findTag "!NUMBERING ".toList ('!' :: l) = none := by
    rw [tag_numbering, findTag_bang h, if_neg]; rintro ⟨e, -⟩; rw [prefix_ne (no 'N' (by simp))] at e; cases e
  simp only [h1, h2, h3, h4, h5, Option.map_none]
  rfl

/-- the lines of the header only add quiet comments -/
theorem read_head {ls : List Text} (h : ∀ l ∈ ls, HeadLine l) : ∀ st : RS, ∃ cs, (∀ c ∈ cs, Quiet c) ∧
    readLines io st ls = .ok { st with comments := st.comments ++ cs } := by
  induction ls with
  | nil => intro st; exact ⟨[], by simp, by simp [readLines]⟩
  | cons l ls ih =>
    intro st
    rcases h l (by simp) with hb | ⟨x, rfl, h1, h2⟩
    · obtain ⟨cs, h3, h4⟩ := ih (fun m hm => h m (by simp [hm])) st
      refine ⟨cs, h3, ?_⟩
      rw [readLines, readLine_blank hb]
      exact h4
    · obtain ⟨y, w, h3, h4, h5⟩ := readLine_comment io st x
      obtain ⟨cs, h6, h7⟩ := ih (fun m hm => h m (by simp [hm])) { st with comments := st.comments ++ ['!' :: y] }
      refine ⟨('!' :: y) :: cs, ?_, ?_⟩
      · intro c hc
        rcases List.mem_cons.1 hc with rfl | hc
        · refine quiet_head (fun hm => h1 (by rw [h3]; simp [hm])) ?_
          intro c hc
          refine h2 c ?_
          rw [h3]
          cases y with
          | nil => simp at hc
          | cons d y => simpa using hc
        · exact h6 c hc
      · rw [readLines, h5]
        simp only
        rw [h7]
        simp

/-! ## The options -/

theorem opt_reader (hio : KeywordsNotNumbers io) {t : Text} {u : FUnit} {f : Fmt} {hasR : Prop} (h : OptMeans io t u f hasR)
    (TZ : Option ℝ) {y : Text} (hy : words (upper y) = words (upper t)) :
    ∃ o, options io TZ (some ('#' :: y)) = .ok o ∧ o.kind = .S ∧ o.fmt = f ∧ o.unit = u ∧
      (hasR → ∃ z, o.Zbase = some (.one z)) ∧ (¬ hasR → o.Zbase = none ∧ o.Zlist = none) := by
  obtain ⟨ps, h1, h2, h3, h4, h5⟩ := h
  refine ⟨ps.foldl (Piece.apply io) Opts.start, ?_, foldl_kind io ps _ rfl, ?_, ?_, ?_, ?_⟩
  · show parseOpts io TZ false Opts.start (words (upper y)) = _
    rw [hy, words_opt h1, parse_pieces hio TZ ps h4]
  · rw [foldl_fmt, h3]; rfl
  · rw [foldl_unit, h2]; rfl
  · intro hR
    have hne := h5.1 hR
    clear h1 h2 h3 h5
    have gen : ∀ (ps : List Piece), (∀ p ∈ ps, ∀ tok, p.ref? = some tok → ∃ z : ℝ, io.float tok = some (some z)) → ∀ o : Opts,
        (ps.filterMap Piece.ref? ≠ [] ∨ ∃ z, o.Zbase = some (.one z)) → ∃ z, (ps.foldl (Piece.apply io) o).Zbase = some (.one z) := by
      intro ps
      induction ps with
      | nil => intro _ o h; simpa using h
      | cons p ps ih =>
        intro hz o h
        rw [List.foldl_cons]
        have ih := ih fun q hq => hz q (by simp [hq])
        cases p with
        | unit u => exact ih _ (by simpa [Piece.ref?, Piece.apply] using h)
        | kind => exact ih _ (by simpa [Piece.ref?, Piece.apply] using h)
        | fmt f => exact ih _ (by simpa [Piece.ref?, Piece.apply] using h)
        | ref ws tok =>
          obtain ⟨z, hz⟩ := hz (.ref ws tok) (by simp) tok rfl
          exact ih _ (Or.inr ⟨z, by simp [Piece.apply, hz]⟩)
    exact gen ps h4 _ (Or.inl hne)
  · intro hR
    have hnil : ps.filterMap Piece.ref? = [] := by
      by_contra hc
      exact hR (h5.2 hc)
    clear h1 h2 h3 h4 h5
    have gen : ∀ (ps : List Piece) (o : Opts), ps.filterMap Piece.ref? = [] → (ps.foldl (Piece.apply io) o).Zbase = o.Zbase ∧
        (ps.foldl (Piece.apply io) o).Zlist = o.Zlist := by
      intro ps
      induction ps with
      | nil => intro o _; exact ⟨rfl, rfl⟩
      | cons p ps ih =>
        intro o h
        rw [List.foldl_cons]
        cases p with
        | unit u => exact ih _ (by simpa [Piece.ref?] using h)
        | kind => exact ih _ (by simpa [Piece.ref?] using h)
        | fmt f => exact ih _ (by simpa [Piece.ref?] using h)
        | ref ws tok => simp [Piece.ref?] at h
    exact gen ps _ hnil

/-! ## The records -/

/-- the pairs of numbers of a block -/
def opt2 (vals : List (ℝ × ℝ)) : List (Num × Num) := vals.map fun p => (some p.1, some p.2)

theorem pairs_opt2 (vals : List (ℝ × ℝ)) : pairs (vals.flatMap fun p => [some p.1, some p.2]) = opt2 vals := by
  induction vals with
  | nil => rfl
  | cons v vals ih =>
    show (some v.1, some v.2) :: pairs (vals.flatMap fun p => [some p.1, some p.2]) = _
    rw [ih]; rfl

theorem feed_data (st : RS) (f : ℝ) (vals : List (ℝ × ℝ)) :
    feed st (some f :: vals.flatMap fun p => [some p.1, some p.2]) = { st with
      Ss := if st.coefs ≠ [] then st.Ss ++ [st.coefs] else st.Ss
      fs := st.fs ++ [some f]
      coefs := opt2 vals
      comments := if st.marker = 0 then st.comments ++ [markerText] else st.comments
      marker := if st.marker = 0 then st.comments.length + 1 else st.marker } := by
  have hl : (some f :: vals.flatMap fun p => [some p.1, some p.2]).length % 2 = 1 := by
    have : (vals.flatMap fun p => [some p.1, some p.2]).length = 2 * vals.length := by
      induction vals with
      | nil => rfl
      | cons v vals ih => rw [List.flatMap_cons, List.length_append, ih]; simp; ring
    rw [List.length_cons, this]; omega
  unfold feed
  simp only [if_pos hl, pairs_opt2]
  split <;> rfl

theorem prs_append (a b : List ℂ) : prs (a ++ b) = prs a ++ prs b := by simp [prs]

theorem read_rec (hp : PlainNumbers io) {fmt : Fmt} {N : ℕ} {r : Rec N} {ls : List Text} (h : RecLines io fmt r ls) (st : RS) :
    ∃ (vals : List (ℝ × ℝ)) (cs : List Text), List.Forall₂ (Shown fmt) vals (rowsOf r.S).flatten ∧
      (∀ g : GS, g.last ≠ .gamma → glines io g cs = .ok ⟨closed g.Gms g.Gmsk, prs r.gam, closed g.Zcs g.Zcsk, prs r.imp, .imp⟩) ∧
      readLines io st ls = .ok { st with
        Ss := if st.coefs ≠ [] then st.Ss ++ [st.coefs] else st.Ss
        fs := st.fs ++ [some r.f]
        coefs := opt2 vals
        comments := (if st.marker = 0 then st.comments ++ [markerText] else st.comments) ++ cs
        marker := if st.marker = 0 then st.comments.length + 1 else st.marker } := by
  obtain ⟨a, b, c, rfl, h1, h2, h3⟩ := h
  obtain ⟨vals, h4, h5⟩ := read_data hp h1
  have h5 := h5 st
  rw [feed_data] at h5
  obtain ⟨c1, h6, t1, z1, zr1, e1, -, n1, g1⟩ := read_tag (tag := " Gamma ! ".toList) hp h2 { st with
        Ss := if st.coefs ≠ [] then st.Ss ++ [st.coefs] else st.Ss
        fs := st.fs ++ [some r.f]
        coefs := opt2 vals
        comments := (if st.marker = 0 then st.comments ++ [markerText] else st.comments)
        marker := if st.marker = 0 then st.comments.length + 1 else st.marker }
  obtain ⟨c2, h7, t2, z2, zr2, e2, -, n2, g2⟩ := read_tag (tag := " Port Impedance ".toList) hp h3 { st with
        Ss := if st.coefs ≠ [] then st.Ss ++ [st.coefs] else st.Ss
        fs := st.fs ++ [some r.f]
        coefs := opt2 vals
        comments := (if st.marker = 0 then st.comments ++ [markerText] else st.comments) ++ c1
        marker := if st.marker = 0 then st.comments.length + 1 else st.marker }
  refine ⟨vals, c1 ++ c2, h4, ?_, ?_⟩
  · intro g hg
    rw [glines_append, g1 g, gline_gamma hp n1 g hg]
    simp only [if_true]
    rw [g2, gline_imp hp n2 _ (by simp)]
    simp [← prs_append, ← e1, ← e2]
  · rw [readLines_append, readLines_append, h5]
    simp only
    rw [h6]
    simp only
    rw [h7]
    simp

theorem opt2_ne {fmt : Fmt} {N : ℕ} (hN : 0 < N) {S : Matrix (Fin N) (Fin N) ℂ} {vals : List (ℝ × ℝ)}
    (h : List.Forall₂ (Shown fmt) vals (rowsOf S).flatten) : (opt2 vals).length = N * N ∧ opt2 vals ≠ [] := by
  have h1 := h.length_eq
  rw [rowsOf_length] at h1
  have h2 : (opt2 vals).length = N * N := by rw [opt2, List.length_map, h1]
  refine ⟨h2, fun hc => ?_⟩
  rw [hc] at h2
  have := Nat.mul_pos hN hN
  simp at h2
  omega

theorem prs_ne {zs : List ℂ} (h : zs ≠ []) : prs zs ≠ [] := by simp [prs, h]

theorem tag_ne {tag : Text} {zs : List ℂ} {ls : List Text} (h : TagLines io tag zs ls) : zs ≠ [] := by
  obtain ⟨t, ts, z, zr, -, hz, -, -, rfl⟩ := h
  simp [hz]

theorem rec_ne {fmt : Fmt} {N : ℕ} {r : Rec N} {ls : List Text} (h : RecLines io fmt r ls) : r.gam ≠ [] ∧ r.imp ≠ [] := by
  obtain ⟨a, b, c, rfl, h1, h2, h3⟩ := h
  exact ⟨tag_ne h2, tag_ne h3⟩

theorem read_recs (hp : PlainNumbers io) {fmt : Fmt} {N : ℕ} (hN : 0 < N) {recs : List (Rec N)} {body : List (List Text)}
    (h : List.Forall₂ (RecLines io fmt) recs body) : ∀ st : RS, st.marker ≠ 0 → st.coefs ≠ [] →
    ∃ (st' : RS) (vals : List (List (ℝ × ℝ))) (cs : List Text), readLines io st body.flatten = .ok st' ∧
      List.Forall₂ (fun v (r : Rec N) => List.Forall₂ (Shown fmt) v (rowsOf r.S).flatten) vals recs ∧
      st'.marker = st.marker ∧ st'.tformat = st.tformat ∧ st'.comments = st.comments ++ cs ∧
      st'.fs = st.fs ++ recs.map (fun r => some r.f) ∧ st'.Ss ++ [st'.coefs] = (st.Ss ++ [st.coefs]) ++ vals.map opt2 ∧
      ∀ g : GS, g.last = .imp → ∃ g', glines io g cs = .ok g' ∧
        closed g'.Gms g'.Gmsk = closed g.Gms g.Gmsk ++ recs.map (fun r => prs r.gam) ∧
        closed g'.Zcs g'.Zcsk = closed g.Zcs g.Zcsk ++ recs.map (fun r => prs r.imp) ∧ g'.last = .imp := by
  induction h with
  | nil =>
    intro st _ _
    exact ⟨st, [], [], by simp [readLines], .nil, rfl, rfl, by simp, by simp, by simp, fun g hg => ⟨g, rfl, by simp, by simp, hg⟩⟩
  | @cons r ls recs body h1 h2 ih =>
    intro st hm hc
    obtain ⟨vals, cs, e1, e2, e3⟩ := read_rec hp h1 st
    rw [if_pos hc, if_neg hm, if_neg hm] at e3
    obtain ⟨st', vs, cs', f1, f2, f3, f4, f5, f6, f7, f8⟩ := ih { st with Ss := st.Ss ++ [st.coefs], fs := st.fs ++ [some r.f], coefs := opt2 vals, comments := st.comments ++ cs, marker := st.marker } hm (opt2_ne hN e1).2
    refine ⟨st', vals :: vs, cs ++ cs', ?_, .cons e1 f2, f3, f4, by rw [f5]; simp, by rw [f6]; simp, by rw [f7]; simp, ?_⟩
    · rw [List.flatten_cons, readLines_append, e3]
      exact f1
    · intro g hg
      obtain ⟨g', k1, k2, k3, k4⟩ := f8 ⟨closed g.Gms g.Gmsk, prs r.gam, closed g.Zcs g.Zcsk, prs r.imp, .imp⟩ rfl
      refine ⟨g', ?_, ?_, ?_, k4⟩
      · rw [glines_append, e2 g (by rw [hg]; simp)]
        exact k1
      · rw [k2]; simp [closed, prs_ne (rec_ne h1).1]
      · rw [k3]; simp [closed, prs_ne (rec_ne h1).2]

/-! ## The tables -/

theorem diag_flat {N : ℕ} (A : Matrix (Fin N) (Fin N) ℂ) :
    (List.range N).map (fun i => (rowsOf A).flatten.getD (i * N + i) 0) = List.ofFn fun i => A i i := by
  apply List.ext_getElem
  · simp
  · intro i h1 h2
    simp only [List.length_map, List.length_range] at h1
    simp only [List.getElem_map, List.getElem_range, List.getElem_ofFn]
    have := congrFun (congrFun (matOf_rows A) ⟨i, h1⟩) ⟨i, h1⟩
    exact this

theorem complexOf_prs (zs : List ℂ) : mapE complexOf (prs zs) = .ok zs := by
  rw [mapE_eq_ok, prs, List.forall₂_map_left_iff, List.forall₂_same]
  intro z _
  rfl

theorem complexOf_all (l : List (List ℂ)) : mapE (mapE complexOf) (l.map prs) = .ok l := by
  rw [mapE_eq_ok, List.forall₂_map_left_iff, List.forall₂_same]
  intro z _
  exact complexOf_prs z

theorem perPort_length {N : ℕ} {b : Bool} {l : List ℂ} {z : Fin N → ℂ} (h : PerPort b l z) :
    l.length = if b then N * N else N := by
  cases h with
  | vector => simp
  | matrix A => rw [rowsOf_length]; rfl

theorem perPort_diag {N : ℕ} {b : Bool} {l : List ℂ} {z : Fin N → ℂ} (h : PerPort b l z) (hb : (if b then N * N else N) = N * N)
    (hN : 0 < N) : (List.range N).map (fun i => l.getD (i * N + i) 0) = List.ofFn z := by
  cases h with
  | vector =>
    simp only [Bool.false_eq_true, if_false] at hb
    have : N = 1 := by nlinarith
    subst this
    simp
  | matrix A => exact diag_flat A

theorem perPort_plain {N : ℕ} {b : Bool} {l : List ℂ} {z : Fin N → ℂ} (h : PerPort b l z) (hb : (if b then N * N else N) ≠ N * N) :
    l = List.ofFn z := by
  cases h with
  | vector => rfl
  | matrix A => simp at hb

theorem forall2_map_eq {α β γ : Type*} {R : α → β → Prop} {l : List α} {l' : List β} (h : List.Forall₂ R l l') {f : α → γ} {g : β → γ}
    (hR : ∀ a b, R a b → f a = g b) : l.map f = l'.map g := by
  induction h with
  | nil => rfl
  | cons h1 _ ih => simp [hR _ _ h1, ih]

theorem tables_ok {N : ℕ} (hN : 0 < N) {b : Bool} {gams imps : List (List ℂ)} {gs zs : List (Fin N → ℂ)}
    (hg : List.Forall₂ (PerPort b) gams gs) (hz : List.Forall₂ (PerPort b) imps zs) (hne : imps ≠ []) (hlen : gams.length = imps.length)
    {g : GS} (h1 : closed g.Gms g.Gmsk = gams.map prs) (h2 : closed g.Zcs g.Zcsk = imps.map prs) :
    tables imps.length N g = .ok (zs.map List.ofFn, gs.map List.ofFn, decide ((if b then N * N else N) = N * N)) := by
  have hw : ∀ {l : List (List ℂ)} {ws : List (Fin N → ℂ)}, List.Forall₂ (PerPort b) l ws → ∀ x ∈ l.map prs, x.length = if b then N * N else N := by
    intro l ws h x hx
    obtain ⟨y, hy, rfl⟩ := List.mem_map.1 hx
    obtain ⟨w, -, hw⟩ := forall2_mem h hy
    rw [prs, List.length_map, perPort_length hw]
  have hh : ∀ {l : List (List ℂ)} {ws : List (Fin N → ℂ)}, List.Forall₂ (PerPort b) l ws → l ≠ [] →
      ((l.map prs).head?.getD []).length = if b then N * N else N := by
    intro l ws h hl
    cases l with
    | nil => exact absurd rfl hl
    | cons x l => exact hw h (prs x) (by simp)
  have hgne : gams ≠ [] := by
    rintro rfl
    apply hne
    exact List.length_eq_zero_iff.1 hlen.symm
  have e1 := hh hg hgne
  have e2 := hh hz hne
  unfold closed at h1 h2
  unfold tables
  simp only [h1, h2, e1, e2]
  have a1 : ((gams.map prs).any fun l => decide (l.length ≠ if b then N * N else N)) = false := by
    rw [List.any_eq_false]
    intro x hx
    simp [hw hg x hx]
  have a2 : ((imps.map prs).any fun l => decide (l.length ≠ if b then N * N else N)) = false := by
    rw [List.any_eq_false]
    intro x hx
    simp [hw hz x hx]
  have a3 : ¬ (gams.map prs = [] ∧ imps.map prs = []) := by simp [hne]
  have a4 : ¬ ((gams.map prs).length ≠ (imps.map prs).length ∨ (if b then N * N else N) ≠ (if b then N * N else N) ∨
      (gams.map prs).length ≠ imps.length ∨ (if b then N * N else N) ≠ N ∧ (if b then N * N else N) ≠ N * N) := by
    cases b <;> simp [hlen]
  rw [if_neg (by rw [a1]; simp), if_neg (by rw [a2]; simp), if_neg a3, if_neg a4, complexOf_all, complexOf_all]
  simp only
  by_cases hb : (if b then N * N else N) = N * N
  · rw [if_pos hb, forall2_map_eq hz fun a c h => perPort_diag h hb hN, forall2_map_eq hg fun a c h => perPort_diag h hb hN]
    simp [hb]
  · rw [if_neg hb]
    have k1 := forall2_map_eq hz (f := fun l => l) (g := List.ofFn) fun a c h => perPort_plain h hb
    have k2 := forall2_map_eq hg (f := fun l => l) (g := List.ofFn) fun a c h => perPort_plain h hb
    simp only [List.map_id'] at k1 k2
    rw [← k1, ← k2]
    simp [hb]

theorem table_denotes {N : ℕ} (zs : List (Fin N → ℂ)) : ZDenotes (tableND zs.length N (zs.map List.ofFn)) zs.length N zs := by
  have := ZDenotes.table (F := zs.length) (N := N) (Matrix.of fun k i => ((zs.map List.ofFn).getD k.1 []).getD i.1 0)
  have e : (List.ofFn fun k : Fin zs.length => fun i => (Matrix.of fun (k : Fin zs.length) (i : Fin N) => ((zs.map List.ofFn).getD k.1 []).getD i.1 0) k i) = zs := by
    apply List.ext_getElem
    · simp
    · intro k h1 h2
      funext i
      rw [List.getElem_ofFn]
      simp [List.getD_eq_getElem?_getD]
  rw [e] at this
  exact this

/-! ## The data -/

theorem decode_shown {fmt : Fmt} {v : ℝ × ℝ} {z : ℂ} (h : Shown fmt v z) : decode fmt (some v.1, some v.2) = .ok z := by
  obtain ⟨x, y⟩ := v
  cases fmt with
  | RI => unfold Shown at h; rw [h]; rfl
  | MA => unfold Shown at h; rw [h]; rfl
  | DB => unfold Shown at h; rw [h]; rfl

theorem decode_all {fmt : Fmt} {N : ℕ} {vals : List (List (ℝ × ℝ))} {recs : List (Rec N)}
    (h : List.Forall₂ (fun v (r : Rec N) => List.Forall₂ (Shown fmt) v (rowsOf r.S).flatten) vals recs) :
    mapE (decode fmt) (vals.map opt2).flatten = .ok (recs.map fun r => (rowsOf r.S).flatten).flatten := by
  rw [mapE_eq_ok]
  induction h with
  | nil => exact .nil
  | cons h1 _ ih =>
    simp only [List.map_cons, List.flatten_cons]
    refine List.rel_append ?_ ih
    rw [opt2, List.forall₂_map_left_iff]
    exact h1.imp fun _ _ h => decode_shown h

theorem reshape_data {fmt : Fmt} {N : ℕ} (hN : 0 < N) {vals : List (List (ℝ × ℝ))} {recs : List (Rec N)} (hne : recs ≠ [])
    (h : List.Forall₂ (fun v (r : Rec N) => List.Forall₂ (Shown fmt) v (rowsOf r.S).flatten) vals recs) {st : RS}
    (hf : st.fs = recs.map fun r => some r.f) (hS : st.Ss ++ [st.coefs] = vals.map opt2) :
    reshape st = .ok (N, (vals.map opt2).flatten) := by
  have hw : ∀ x ∈ vals.map opt2, x.length = N * N := by
    intro x hx
    obtain ⟨v, hv, rfl⟩ := List.mem_map.1 hx
    obtain ⟨r, -, hr⟩ := forall2_mem h hv
    exact (opt2_ne hN hr).1
  have hlen : ((st.Ss ++ [st.coefs]).head?.getD []).length = N * N := by
    rw [hS]
    cases h with
    | nil => exact absurd rfl hne
    | cons h1 _ => exact (opt2_ne hN h1).1
  unfold reshape
  simp only [hlen, nearSqrt_sq]
  rw [hS, if_neg, if_neg]
  · simp [hf, h.length_eq]
  · rw [Bool.not_eq_true, List.any_eq_false]
    intro x hx
    simp [hw x hx]

/-! ## The file -/

theorem read_file (hio : KeywordsNotNumbers io) (hp : PlainNumbers io) {u : FUnit} {f : Fmt} {hasR : Prop} {N : ℕ} (hN : 0 < N)
    {recs : List (Rec N)} {lines : List Text} (h : HFSS io u f hasR recs lines) (hne : recs ≠ []) (TZ : Option ℝ) :
    ∃ (st : RS) (vals : List (List (ℝ × ℝ))) (hc cs : List Text) (o : Opts) (g : GS), readLines io RS.start lines = .ok st ∧
      List.Forall₂ (fun v (r : Rec N) => List.Forall₂ (Shown f) v (rowsOf r.S).flatten) vals recs ∧
      options io TZ st.tformat = .ok o ∧ o.kind = .S ∧ o.fmt = f ∧ o.unit = u ∧
      (hasR → ∃ z, o.Zbase = some (.one z)) ∧ (¬ hasR → o.Zbase = none ∧ o.Zlist = none) ∧
      st.comments = hc ++ markerText :: cs ∧ st.marker = hc.length + 1 ∧ (∀ c ∈ hc, Quiet c) ∧
      st.fs = recs.map (fun r => some r.f) ∧ st.Ss ++ [st.coefs] = vals.map opt2 ∧
      glines io GS.start cs = .ok g ∧ closed g.Gms g.Gmsk = recs.map (fun r => prs r.gam) ∧
      closed g.Zcs g.Zcsk = recs.map (fun r => prs r.imp) ∧ g.last = .imp := by
  obtain ⟨pre, t, post, body, rfl, h1, h2, h3, h4⟩ := h.split
  obtain ⟨c1, q1, e1⟩ := read_head (io := io) h1 RS.start
  obtain ⟨y, hy, e2⟩ := readLine_option io { RS.start with comments := RS.start.comments ++ c1 } rfl t
  obtain ⟨c2, q2, e3⟩ := read_head (io := io) h2 { RS.start with comments := RS.start.comments ++ c1, tformat := some ('#' :: y) }
  obtain ⟨o, o1, o2, o3, o4, o5, o6⟩ := opt_reader hio h3 TZ hy
  cases h4 with
  | nil => exact absurd rfl hne
  | @cons r ls recs body k1 k2 =>
    obtain ⟨v, cs, v1, v2, v3⟩ := read_rec hp k1 { RS.start with comments := RS.start.comments ++ c1 ++ c2, tformat := some ('#' :: y) }
    obtain ⟨st, vals, cs', f1, f2, f3, f4, f5, f6, f7, f8⟩ := read_recs hp hN k2 ⟨c1 ++ c2 ++ [markerText] ++ cs, [some r.f], opt2 v, [], (c1 ++ c2).length + 1, some ('#' :: y)⟩
      (by simp) (opt2_ne hN v1).2
    obtain ⟨g, g1, g2, g3, g4⟩ := f8 ⟨closed [] [], prs r.gam, closed [] [], prs r.imp, .imp⟩ rfl
    refine ⟨st, v :: vals, c1 ++ c2, cs ++ cs', o, g, ?_, .cons v1 f2, by rw [f4]; exact o1, o2, o3, o4, o5, o6, ?_, f3, ?_, ?_, ?_, ?_, ?_, ?_, g4⟩
    · rw [List.flatten_cons, List.append_assoc, readLines_append, e1]
      simp only
      rw [List.cons_append, readLines, e2]
      simp only
      rw [readLines_append, e3]
      simp only
      rw [readLines_append, v3]
      simp only [RS.start, List.nil_append, ne_eq, not_true_eq_false, if_false, if_true]
      rw [f1]
    · rw [f5]; simp
    · intro c hc
      rcases List.mem_append.1 hc with hc | hc
      · exact q1 c hc
      · exact q2 c hc
    · rw [f6]; simp
    · rw [f7]; simp
    · rw [glines_append, v2 GS.start (by simp [GS.start])]
      exact g1
    · rw [g2]; simp [closed, prs_ne (rec_ne k1).1]
    · rw [g3]; simp [closed, prs_ne (rec_ne k1).2]

/-- what is left to do once the tables are there -/
theorem read_tables (hio : KeywordsNotNumbers io) (hp : PlainNumbers io) {u u' : FUnit} {f : Fmt} {hasR : Prop} {N : ℕ}
    (hN : 0 < N) {recs : List (Rec N)} {lines : List Text} (h : HFSS io u f hasR recs lines) (hne : recs ≠ []) {b : Bool}
    {zs gs : List (Fin N → ℂ)} (hz : List.Forall₂ (fun r z => PerPort b r.imp z) recs zs)
    (hg : List.Forall₂ (fun r z => PerPort b r.gam z) recs gs) {kw : Kw} (hu : unitOf (upper kw.funit) = some u') :
    ∃ o : Opts, o.kind = .S ∧ (hasR → ∃ z, o.Zbase = some (.one z)) ∧ (¬ hasR → o.Zbase = none ∧ o.Zlist = none) ∧
    readTSF io kw lines = (toS recs.length N (recs.map fun r => r.S) o (zs.map List.ofFn) (decide ((if b then N * N else N) = N * N)) kw.Zbase).map
      fun S => ⟨portNames N kw.ports none, recs.map (fun r => r.f * (u.hz / u'.hz)), u, S, kw.Zbase,
        ⟨none, none, none, none, none⟩, zs.map List.ofFn, gs.map List.ofFn, f⟩ := by
  obtain ⟨st, vals, hc, cs, o, g, e1, e2, e3, e4, e5, e6, e7, e8, e9, e10, e11, e12, e13, e14, e15, e16, e17⟩ :=
    read_file hio hp hN h hne kw.Zbase
  have hlz : zs.length = recs.length := hz.length_eq.symm
  have hres := reshape_data hN hne e2 e12 e13
  have hsp : specials io ⟨none, none, none, none, none⟩ (st.comments.take st.marker) = .ok ⟨none, none, none, none, none⟩ := by
    have : st.comments.take st.marker = hc ++ [markerText] := by
      rw [e9, e10]
      have : hc ++ markerText :: cs = (hc ++ [markerText]) ++ cs := by simp
      rw [this]
      exact List.take_left' (by simp)
    rw [this]
    apply specials_quiet
    intro l hl
    rcases List.mem_append.1 hl with hl | hl
    · exact e11 l hl
    · simp at hl; subst hl; exact quiet_marker
  have hcne : st.comments ≠ [] := by rw [e9]; simp
  have hgl : glines io GS.start (st.comments.drop st.marker) = .ok g := by
    have : st.comments.drop st.marker = cs := by
      rw [e9, e10]
      have : hc ++ markerText :: cs = (hc ++ [markerText]) ++ cs := by simp
      rw [this]
      exact List.drop_left' (by simp)
    rw [this, e14]
  have hF : st.fs.length = recs.length := by rw [e12]; simp
  have htab : tables st.fs.length N g = .ok (zs.map List.ofFn, gs.map List.ofFn, decide ((if b then N * N else N) = N * N)) := by
    have := tables_ok (gams := recs.map (·.gam)) (imps := recs.map (·.imp)) hN (by rwa [List.forall₂_map_left_iff])
      (by rwa [List.forall₂_map_left_iff]) (by simp [hne]) (by simp) (g := g) (by rw [e15]; simp) (by rw [e16]; simp)
    rwa [List.length_map, ← hF] at this
  have hfs : mapE finite st.fs = .ok (recs.map fun r => r.f) := by
    rw [e12, mapE_eq_ok, List.forall₂_map_left_iff, List.forall₂_map_right_iff, List.forall₂_same]
    exact fun x _ => rfl
  have hstack : stackOf st.fs.length N (recs.map fun r => (rowsOf r.S).flatten).flatten = recs.map fun r => r.S := by
    have hlen : st.fs.length = (recs.map fun r => (rowsOf r.S).flatten).length := by rw [e12]; simp
    rw [hlen, stackOf_flatten _ (by
      intro a ha
      obtain ⟨x, -, rfl⟩ := List.mem_map.1 ha
      exact rowsOf_length _), List.map_map]
    apply List.map_congr_left
    intro x _
    exact matOf_rows _
  refine ⟨o, e4, e7, e8, ?_⟩
  unfold readTSF
  rw [e1]
  simp only
  unfold finish
  simp only [hres, e3, hsp, if_neg hcne, hgl, htab, hu, hfs, e5, e6, decode_all e2, hstack, bind, Except.bind]
  rw [hF]
  cases toS recs.length N (recs.map fun r => r.S) o (zs.map List.ofFn) (decide ((if b then N * N else N) = N * N)) kw.Zbase with
  | error e => rfl
  | ok S => simp [Except.map, Function.comp_def]

/-- C64: a file with one propagation constant and one impedance per port and frequency (as vectors or as matrices, all in the same
form, on one or several comment lines) is read exactly when each matrix, understood as power waves on the port impedances of its
own frequency, has voltage waves on the reference asked for (default 50 ohm); they are what is returned, and the impedances and
propagation constants with them.  The reference of the option line has no influence.  Excluded: a one-port with `R` in the option
line, see `C64_one_port_refused`. -/
theorem C64_port_impedances (hio : KeywordsNotNumbers io) (hp : PlainNumbers io) {u u' : FUnit} {f : Fmt} {hasR : Prop} {N : ℕ}
    (hN : 0 < N) {recs : List (Rec N)} {lines : List Text} (h : HFSS io u f hasR recs lines) (hne : recs ≠ []) {b : Bool}
    {zs gs : List (Fin N → ℂ)} (hz : List.Forall₂ (fun r z => PerPort b r.imp z) recs zs)
    (hg : List.Forall₂ (fun r z => PerPort b r.gam z) recs gs) (h0 : ∀ z ∈ zs, ∀ i, z i ≠ 0) (h1 : N = 1 → ¬ hasR)
    {kw : Kw} (hu : unitOf (upper kw.funit) = some u') (R : Res) :
    readTSF io kw lines = .ok R ↔
    ∃ l : List (Matrix (Fin N) (Fin N) ℂ), l.length = recs.length ∧
      (∀ (k : ℕ) (r : Rec N) (z : Fin N → ℂ) (S' : Matrix (Fin N) (Fin N) ℂ), recs[k]? = some r → zs[k]? = some z → l[k]? = some S' →
        ∀ V I, Allowed .P z r.S V I ↔ ScatterV (orElse kw.Zbase 50 : ℂ) S' V I) ∧
      R = ⟨portNames N kw.ports none, recs.map (fun r => r.f * (u.hz / u'.hz)), u, .d3 N N l, kw.Zbase,
        ⟨none, none, none, none, none⟩, zs.map List.ofFn, gs.map List.ofFn, f⟩ := by
  obtain ⟨o, e4, e7, e8, hread⟩ := read_tables hio hp hN h hne hz hg (kw := kw) hu
  have hlz : zs.length = recs.length := hz.length_eq.symm
  have hw : ((zs.map List.ofFn).head?.getD []).length = N := by
    cases zs with
    | nil => rw [List.length_nil] at hlz; exact absurd (List.length_eq_zero_iff.1 hlz.symm) hne
    | cons z zs => simp
  have htoS : toS recs.length N (recs.map fun r => r.S) o (zs.map List.ofFn) (decide ((if b then N * N else N) = N * N)) kw.Zbase =
      convertGeneral (.d0 (orElse kw.Zbase 50 : ℂ)) (.d3 N N (recs.map fun r => r.S)) (tableND recs.length N (zs.map List.ofFn)) "P" "V" := by
    unfold toS
    simp only [hw, e4]
    rw [if_pos (by omega)]
    by_cases hR : hasR
    · obtain ⟨z, hzb⟩ := e7 hR
      have : N ≠ 1 := fun hn => h1 hn hR
      simp [hzb, this, hN.ne']
    · simp [(e8 hR).1, hN.ne']
  have hconv : ∀ S, convertGeneral (.d0 (orElse kw.Zbase 50 : ℂ)) (.d3 N N (recs.map fun r => r.S)) (tableND recs.length N (zs.map List.ofFn)) "P" "V" = .ok S ↔
      ∃ l : List (Matrix (Fin N) (Fin N) ℂ), l.length = recs.length ∧
      (∀ (k : ℕ) (r : Rec N) (z : Fin N → ℂ) (S' : Matrix (Fin N) (Fin N) ℂ), recs[k]? = some r → zs[k]? = some z → l[k]? = some S' →
        ∀ V I, Allowed .P z r.S V I ↔ ScatterV (orElse kw.Zbase 50 : ℂ) S' V I) ∧ S = .d3 N N l := by
    intro S
    have hz2 : ((orElse kw.Zbase 50 : ℝ) : ℂ) ≠ 0 := by exact_mod_cast orElse_ne kw.Zbase
    have hlen : (recs.map fun r => r.S).length = zs.length := by rw [hlz]; simp
    have hd : (ND.d3 N N (recs.map fun r => r.S) : ND ℂ).ndim ≠ 1 ∨ (recs.map fun r => r.S).length = 1 := .inl (by simp [ND.ndim])
    have ht := table_denotes zs
    rw [show recs.length = zs.length by rw [hlz]]
    have := C05_exact (S2 := S) .P .V (.stack N (recs.map fun r => r.S)) (by simp [hne]) hd (by rw [hlen]; exact ht)
      (.scalar ((orElse kw.Zbase 50 : ℝ) : ℂ) (recs.map fun r => r.S).length N) (by intro row hrow i; exact h0 row hrow i)
      (by intro row hrow i; rw [(List.mem_replicate.1 hrow).2]; exact hz2)
    refine this.trans ?_
    constructor
    · rintro ⟨l', a, b', c, d⟩
      cases a with
      | stack =>
        refine ⟨l', by rw [c]; simp [hlz], ?_, rfl⟩
        intro k r z S' k1 k2 k3 V I
        have hk : k < recs.length := (List.getElem?_eq_some_iff.1 k1).1
        have := d k r.S S' z (fun _ => ((orElse kw.Zbase 50 : ℝ) : ℂ)) (by rw [List.getElem?_map, k1]; rfl) k3 k2 (by simp [hk]) V I
        rw [this, allowed_V]
      | _ => simp [ND.ndim] at b'
    · rintro ⟨l', c, d, rfl⟩
      refine ⟨l', .stack N l', rfl, by rw [c]; simp [hlz], ?_⟩
      intro k S S' y1 y2 k1 k2 k3 k4 V I
      rw [List.getElem?_replicate] at k4
      split at k4
      · injection k4 with k4
        subst k4
        rw [List.getElem?_map] at k1
        cases hk : recs[k]? with
        | none => rw [hk] at k1; cases k1
        | some r =>
          rw [hk] at k1
          simp only [Option.map_some, Option.some.injEq] at k1
          subst k1
          rw [allowed_V]
          exact d k r y1 S' hk k3 k2 V I
      · cases k4
  rw [hread, htoS]
  cases hS : convertGeneral (.d0 (orElse kw.Zbase 50 : ℂ)) (.d3 N N (recs.map fun r => r.S)) (tableND recs.length N (zs.map List.ofFn)) "P" "V" with
  | error e =>
    simp only [Except.map, reduceCtorEq, false_iff]
    rintro ⟨l, a1, a2, -⟩
    rw [(hconv (.d3 N N l)).2 ⟨l, a1, a2, rfl⟩] at hS
    cases hS
  | ok S =>
    obtain ⟨l, a1, a2, rfl⟩ := (hconv S).1 hS
    simp only [Except.map, Except.ok.injEq]
    constructor
    · intro hR
      exact ⟨l, a1, a2, hR.symm⟩
    · rintro ⟨l', b1, b2, rfl⟩
      have := (hconv (.d3 N N l')).2 ⟨l', b1, b2, rfl⟩
      rw [hS] at this
      injection this with this
      injection this with _ _ this
      rw [this]

/-- C64 (violated): a one-port with impedances in its comments and `R` in the option line, as HFSS writes it, is refused
(TypeError), whatever the data. -/
theorem C64_one_port_refused (hio : KeywordsNotNumbers io) (hp : PlainNumbers io) {u u' : FUnit} {f : Fmt}
    {recs : List (Rec 1)} {lines : List Text} (h : HFSS io u f True recs lines) (hne : recs ≠ []) {b : Bool}
    {zs gs : List (Fin 1 → ℂ)} (hz : List.Forall₂ (fun r z => PerPort b r.imp z) recs zs)
    (hg : List.Forall₂ (fun r z => PerPort b r.gam z) recs gs) {kw : Kw} (hu : unitOf (upper kw.funit) = some u') :
    readTSF io kw lines = .error .typeError := by
  obtain ⟨o, e4, e7, e8, hread⟩ := read_tables hio hp one_pos h hne hz hg (kw := kw) hu
  obtain ⟨z, hzb⟩ := e7 trivial
  rw [hread]
  have hw : ((zs.map List.ofFn).head?.getD []).length = 1 := by
    cases zs with
    | nil => cases hz; exact absurd rfl hne
    | cons z zs => simp
  unfold toS
  simp only [hw, hzb]
  cases b <;> simp [Except.map]

/-! ## Other comments -/

theorem startsCI_infix {w l : Text} (h : startsCI w l = true) : upper w <+: upper l := by
  unfold startsCI at h
  simp only [decide_eq_true_eq] at h
  rw [h]
  unfold upper
  rw [List.map_take]
  exact List.take_prefix _ _

theorem gammaTag_infix {l : Text} (h : ¬ "GAMMA".toList <:+: upper l) : gammaTag l = none := by
  induction l with
  | nil => rfl
  | cons c l ih =>
    unfold gammaTag
    simp only
    rw [if_neg]
    · refine ih fun hc => h (hc.trans ?_)
      exact (List.suffix_cons _ _).isInfix
    · rintro ⟨h1, -⟩
      exact h (startsCI_infix h1).isInfix

theorem impTag_infix {l : Text} (h : ¬ "PORT IMPEDANCE".toList <:+: upper l) : impTag l = none := by
  induction l with
  | nil => rfl
  | cons c l ih =>
    unfold impTag
    rw [if_neg]
    · refine ih fun hc => h (hc.trans ?_)
      exact (List.suffix_cons _ _).isInfix
    · rintro ⟨h1, -⟩
      exact h (startsCI_infix h1).isInfix

theorem readLines_grow {ls : List Text} : ∀ {st st' : RS}, readLines io st ls = .ok st' → st.marker ≠ 0 →
    st'.marker = st.marker ∧ ∃ cs, st'.comments = st.comments ++ cs := by
  induction ls with
  | nil => intro st st' h _; injection h with h; subst h; exact ⟨rfl, [], by simp⟩
  | cons l ls ih =>
    intro st st' h hm
    rw [readLines] at h
    cases h1 : readLine io st l with
    | error e => rw [h1] at h; cases h
    | ok st1 =>
      rw [h1] at h
      have step : st1.marker = st.marker ∧ ∃ cs, st1.comments = st.comments ++ cs := by
        unfold readLine at h1
        split at h1
        · injection h1 with h1; subst h1; exact ⟨rfl, [], by simp⟩
        · injection h1 with h1; subst h1; exact ⟨rfl, _, rfl⟩
        · split at h1
          · cases h1
          · injection h1 with h1; subst h1; exact ⟨rfl, [], by simp⟩
        · split at h1
          · cases h1
          · rename_i its _
            injection h1 with h1; subst h1
            refine ⟨?_, [], by rw [feed_comments, if_neg hm]; simp⟩
            unfold feed
            rw [if_neg hm]
            cases its with
            | nil => rfl
            | cons f r => simp only; split <;> rfl
      obtain ⟨k1, cs, k2⟩ := ih h (by rw [step.1]; exact hm)
      obtain ⟨k3, ds, k4⟩ := step
      exact ⟨k1.trans k3, ds ++ cs, by rw [k2, k4]; simp⟩

theorem numPairs_bad {t : Text} (h : ∃ w ∈ words t, io.float w = none) : numPairs io t = .error .valueError := by
  obtain ⟨w, hw, hn⟩ := h
  have : mapE io.get (words t) = .error .valueError := by
    generalize words t = ws at hw
    induction ws with
    | nil => simp at hw
    | cons v vs ih =>
      rw [mapE]
      cases hv : io.float v with
      | none => simp [NumIO.get, hv]
      | some x =>
        rcases List.mem_cons.1 hw with rfl | hw
        · rw [hv] at hn; cases hn
        · simp [NumIO.get, hv, ih hw]
  unfold numPairs
  rw [this]

/-- a comment whose words are not an even number of numbers -/
theorem comment_refused (hio : KeywordsNotNumbers io) (hp : PlainNumbers io) {u : FUnit} {f : Fmt} {hasR : Prop} {N : ℕ}
    (hN : 0 < N) {recs : List (Rec N)} {lines : List Text} (h : HFSS io u f hasR recs lines) (hne : recs ≠ []) {x : Text} {er : Err}
    (hx1 : ¬ "GAMMA".toList <:+: upper x) (hx2 : ¬ "PORT IMPEDANCE".toList <:+: upper x) (hx3 : numPairs io x = .error er)
    {kw : Kw} (rest : List Text) (R : Res) : readTSF io kw (lines ++ ('!' :: x) :: rest) ≠ .ok R := by
  obtain ⟨st, vals, hc, cs, o, g, e1, e2, e3, e4, e5, e6, e7, e8, e9, e10, e11, e12, e13, e14, e15, e16, e17⟩ :=
    read_file hio hp hN h hne kw.Zbase
  obtain ⟨y, w, k1, k2, k3⟩ := readLine_comment io st x
  have hy1 : gammaTag y = none := gammaTag_infix fun hh => hx1 (hh.trans (by rw [k1]; exact ((List.prefix_append y w).map Char.toUpper).isInfix))
  have hy2 : impTag y = none := impTag_infix fun hh => hx2 (hh.trans (by rw [k1]; exact ((List.prefix_append y w).map Char.toUpper).isInfix))
  have hy3 : numPairs io y = .error er := by
    unfold numPairs at hx3 ⊢
    rwa [k1, words_append_wss k2] at hx3
  intro hR
  unfold readTSF at hR
  rw [readLines_append, e1] at hR
  simp only at hR
  rw [readLines, k3] at hR
  simp only at hR
  cases hr : readLines io { st with comments := st.comments ++ ['!' :: y] } rest with
  | error e => rw [hr] at hR; cases hR
  | ok st' =>
    rw [hr] at hR
    obtain ⟨m1, ds, m2⟩ := readLines_grow hr (by show st.marker ≠ 0; rw [e10]; simp)
    obtain ⟨_, _, _, _, g', _, _, _, _, _, _, _, -, -, -, -, hg, -⟩ := finish_all hR
    have : st'.comments.drop st'.marker = cs ++ ('!' :: y) :: ds := by
      rw [m1, m2]
      show (st.comments ++ ['!' :: y] ++ ds).drop st.marker = _
      rw [e9, e10]
      have : hc ++ markerText :: cs ++ ['!' :: y] ++ ds = (hc ++ [markerText]) ++ (cs ++ ('!' :: y) :: ds) := by simp
      rw [this]
      exact List.drop_left' (by simp)
    rw [this, glines_append, e14] at hg
    simp only at hg
    rw [glines, List.tail_cons] at hg
    unfold gline at hg
    simp [hy1, hy2, e17, hy3, Except.map] at hg

/-- C64 (violated): an ordinary comment (with at least one word that is not a number) after the data of such a file: everything is
refused, wherever it stands and whatever follows. -/
theorem C64_comment_refused (hio : KeywordsNotNumbers io) (hp : PlainNumbers io) {u : FUnit} {f : Fmt} {hasR : Prop} {N : ℕ}
    (hN : 0 < N) {recs : List (Rec N)} {lines : List Text} (h : HFSS io u f hasR recs lines) (hne : recs ≠ []) {x : Text}
    (hx1 : ¬ "GAMMA".toList <:+: upper x) (hx2 : ¬ "PORT IMPEDANCE".toList <:+: upper x) (hx3 : ∃ w ∈ words x, io.float w = none)
    {kw : Kw} (rest : List Text) (R : Res) : readTSF io kw (lines ++ ('!' :: x) :: rest) ≠ .ok R := by
  exact comment_refused hio hp hN h hne hx1 hx2 (numPairs_bad hx3) rest R

theorem numPairs_odd {t : Text} (h : ∀ w ∈ words t, io.float w ≠ none) (ho : (words t).length % 2 = 1) :
    numPairs io t = .error .indexError := by
  have : ∀ ws : List Text, (∀ w ∈ ws, io.float w ≠ none) → ∃ l, mapE io.get ws = .ok l ∧ l.length = ws.length := by
    intro ws
    induction ws with
    | nil => intro _; exact ⟨[], rfl, rfl⟩
    | cons w ws ih =>
      intro h
      obtain ⟨l, h1, h2⟩ := ih fun v hv => h v (List.mem_cons_of_mem _ hv)
      cases hw : io.float w with
      | none => exact absurd hw (h w List.mem_cons_self)
      | some x => exact ⟨x :: l, by simp [mapE, NumIO.get, hw, h1], by simp [h2]⟩
  obtain ⟨l, h1, h2⟩ := this _ h
  unfold numPairs
  rw [h1]
  simp only [h2, ho, if_true]

/-- C64 (violated): the numbers after a `Gamma` or `Port Impedance` keyword are taken in pairs; a comment continuing them with an odd
number of numbers: everything is refused, wherever it stands and whatever follows. -/
theorem C64_odd_refused (hio : KeywordsNotNumbers io) (hp : PlainNumbers io) {u : FUnit} {f : Fmt} {hasR : Prop} {N : ℕ}
    (hN : 0 < N) {recs : List (Rec N)} {lines : List Text} (h : HFSS io u f hasR recs lines) (hne : recs ≠ []) {x : Text}
    (hx1 : ¬ "GAMMA".toList <:+: upper x) (hx2 : ¬ "PORT IMPEDANCE".toList <:+: upper x) (hx3 : ∀ w ∈ words x, io.float w ≠ none)
    (hx4 : (words x).length % 2 = 1)
    {kw : Kw} (rest : List Text) (R : Res) : readTSF io kw (lines ++ ('!' :: x) :: rest) ≠ .ok R := by
  exact comment_refused hio hp hN h hne hx1 hx2 (numPairs_odd hx3 hx4) rest R

/-! ## All or nothing -/

theorem tables_shape {F N : ℕ} {g : GS} {Z G : List (List ℂ)} {b : Bool} (h : tables F N g = .ok (Z, G, b)) :
    Z = [] ∧ G = [] ∨ Z.length = F ∧ G.length = F ∧ ∀ r ∈ Z ++ G, r.length = N := by
  unfold tables at h
  simp only at h
  generalize (if g.Gmsk ≠ [] then g.Gms ++ [g.Gmsk] else g.Gms) = G0 at h
  generalize (if g.Zcsk ≠ [] then g.Zcs ++ [g.Zcsk] else g.Zcs) = Z0 at h
  split at h
  · cases h
  rename_i hG
  split at h
  · cases h
  rename_i hZ
  split at h
  · injection h with h
    simp only [Prod.mk.injEq] at h
    exact Or.inl ⟨h.1.symm, h.2.1.symm⟩
  split at h
  · cases h
  rename_i hl
  push Not at hl
  obtain ⟨l1, l2, l3, l4⟩ := hl
  right
  cases hZ1 : mapE (mapE complexOf) Z0 with
  | error e => rw [hZ1] at h; simp at h
  | ok Z1 =>
    cases hG1 : mapE (mapE complexOf) G0 with
    | error e => rw [hZ1, hG1] at h; simp at h
    | ok G1 =>
      rw [hZ1, hG1] at h
      simp only at h
      rw [mapE_eq_ok] at hZ1 hG1
      simp only [ne_eq, Bool.not_eq_true, List.any_eq_false, decide_eq_true_eq, not_not] at hG hZ
      have wid : ∀ {A : List (List (Num × Num))} {B : List (List ℂ)}, List.Forall₂ (fun a b => mapE complexOf a = .ok b) A B →
          (∀ x ∈ A, x.length = (G0.head?.getD []).length) → ∀ y ∈ B, y.length = (G0.head?.getD []).length := by
        intro A B hAB hA y hy
        obtain ⟨x, hx, e⟩ := forall2_mem hAB.flip hy
        rw [mapE_eq_ok] at e
        rw [← e.length_eq, hA x hx]
      have wZ := wid hZ1 fun x hx => by rw [hZ x hx, l2]
      have wG := wid hG1 hG
      split at h
      · injection h with h
        simp only [Prod.mk.injEq] at h
        obtain ⟨rfl, rfl, -⟩ := h
        refine ⟨by rw [List.length_map, ← hZ1.length_eq, ← l1, l3], by rw [List.length_map, ← hG1.length_eq, l3], ?_⟩
        intro r hr
        rcases List.mem_append.1 hr with hr | hr <;>
        · obtain ⟨x, -, rfl⟩ := List.mem_map.1 hr
          simp
      · rename_i hw
        injection h with h
        simp only [Prod.mk.injEq] at h
        obtain ⟨rfl, rfl, -⟩ := h
        have hwN : (G0.head?.getD []).length = N := by
          by_contra hc
          exact hw (l4 hc)
        refine ⟨by rw [← hZ1.length_eq, ← l1, l3], by rw [← hG1.length_eq, l3], ?_⟩
        intro r hr
        rcases List.mem_append.1 hr with hr | hr
        · rw [wZ r hr, hwN]
        · rw [wG r hr, hwN]

/-- C64: whatever the source, impedances and propagation constants are returned for all frequencies and ports, or not at all. -/
theorem C64_all_or_none {kw : Kw} {lines : List Text} {R : Res} (h : readTSF io kw lines = .ok R) :
    R.Zc = [] ∧ R.Gm = [] ∨ ∃ N, Mats N R.Ss ∧ R.Zc.length = R.fs.length ∧ R.Gm.length = R.fs.length ∧
      ∀ r ∈ R.Zc ++ R.Gm, r.length = N := by
  unfold readTSF at h
  cases hr : readLines io RS.start lines with
  | error e => rw [hr] at h; cases h
  | ok st =>
    rw [hr] at h
    obtain ⟨N, flat, o, sp, g, Z, G, isList, u, fs, vals, S, h1, ho, h3, h4, hg, htab, h7, h8, h9, hS, rfl⟩ := finish_all h
    rcases tables_shape htab with h10 | ⟨h10, h11, h12⟩
    · exact Or.inl h10
    · right
      have : fs.length = st.fs.length := by
        rw [mapE_eq_ok] at h8
        exact h8.length_eq.symm
      exact ⟨N, toS_shape hS, by simp [h10, this], by simp [h11, this], h12⟩

theorem glines_noGamma : ∀ {cs : List Text} {g g' : GS}, (∀ c ∈ cs, gammaTag c.tail = none) → g.last ≠ .gamma → g.Gms = [] → g.Gmsk = [] →
    glines io g cs = .ok g' → g'.Gms = [] ∧ g'.Gmsk = [] := by
  intro cs
  induction cs with
  | nil => intro g g' _ _ h1 h2 h; injection h with h; subst h; exact ⟨h1, h2⟩
  | cons c cs ih =>
    intro g g' hc h0 h1 h2 h
    rw [glines] at h
    have hc1 := hc c (by simp)
    cases hg : gline io g c.tail with
    | error e => rw [hg] at h; cases h
    | ok g1 =>
      rw [hg] at h
      simp only at h
      have : g1.last ≠ .gamma ∧ g1.Gms = [] ∧ g1.Gmsk = [] := by
        unfold gline at hg
        rw [hc1] at hg
        simp only [Option.isSome_none, Bool.false_eq_true, false_or, if_neg h0, if_false] at hg
        split at hg
        · split at hg
          · cases hn : numPairs io c.tail with
            | error e => rw [hn] at hg; cases hg
            | ok l => rw [hn] at hg; injection hg with hg; subst hg; exact ⟨h0, h1, h2⟩
          · injection hg with hg; subst hg; exact ⟨h0, h1, h2⟩
        · rename_i t _
          split at hg
          · cases hn : numPairs io t with
            | error e => rw [hn] at hg; cases hg
            | ok l => rw [hn] at hg; injection hg with hg; subst hg; exact ⟨by simp, h1, h2⟩
          · cases hn : numPairs io c.tail with
            | error e => rw [hn] at hg; cases hg
            | ok l => rw [hn] at hg; injection hg with hg; subst hg; exact ⟨h0, h1, h2⟩
      exact ih (fun c hc' => hc c (by simp [hc'])) this.1 this.2.1 this.2.2 h

/-- C64 (as found): without propagation constants in the comments no impedances are ever returned. -/
theorem C64_needs_gamma {kw : Kw} {lines : List Text} {R : Res} (h : readTSF io kw lines = .ok R)
    (hno : ∀ l ∈ lines, ¬ "GAMMA".toList <:+: upper l) : R.Zc = [] ∧ R.Gm = [] := by
  unfold readTSF at h
  cases hr : readLines io RS.start lines with
  | error e => rw [hr] at h; cases h
  | ok st =>
    rw [hr] at h
    obtain ⟨N, flat, o, sp, g, Z, G, isList, u, fs, vals, S, h1, ho, h3, h4, hg, htab, h7, h8, h9, hS, rfl⟩ := finish_all h
    have hcs : ∀ c ∈ st.comments.drop st.marker, gammaTag c.tail = none := by
      intro c hc
      rcases comments_from hr c (List.mem_of_mem_drop hc) with h4 | rfl | ⟨l, hl, rfl⟩
      · simp [RS.start] at h4
      · exact gammaTag_infix (by decide)
      · refine gammaTag_infix fun hc => hno l hl (hc.trans ?_)
        unfold upper
        refine List.IsInfix.map _ ((List.tail_suffix _).isInfix.trans ?_)
        unfold strip
        exact (List.rdropWhile_prefix _ _).isInfix.trans (List.dropWhile_suffix _).isInfix
    obtain ⟨hG1, hG2⟩ := glines_noGamma hcs (by simp [GS.start]) rfl rfl hg
    unfold tables at htab
    rw [hG1, hG2] at htab
    simp only [ne_eq, not_true_eq_false, if_false] at htab
    generalize (if ¬g.Zcsk = [] then g.Zcs ++ [g.Zcsk] else g.Zcs) = ZZ at htab
    split at htab
    · cases htab
    split at htab
    · cases htab
    split at htab
    · injection htab with htab
      simp only [Prod.mk.injEq] at htab
      exact ⟨htab.1.symm, htab.2.1.symm⟩
    rename_i hne
    split at htab
    · cases htab
    rename_i hlen
    exfalso
    apply hne
    refine ⟨trivial, ?_⟩
    by_contra hZ
    apply hlen
    left
    intro hl
    exact hZ (List.length_eq_zero_iff.1 hl.symm)

/-! ## A file -/

theorem io01_plain : PlainNumbers io01 := by
  intro w x h c hc
  have : w = ['0'] ∨ w = ['1'] := by
    by_contra hn
    push Not at hn
    simp [io01, hn.1, hn.2] at h
  rcases this with rfl | rfl <;>
  · simp at hc
    subst hc
    decide

/-- a two-port, a through connection at 1 GHz on 1 ohm, the impedances on two lines -/
def exLines : List Text :=
  ["! HFSS".toList, "# GHZ S RI R 1".toList, "1 0 0 1 0".toList, "1 0 0 0 ! row 2".toList, "! Gamma ! 0 1 0 1".toList,
    "! Port Impedance 1 0".toList, "! 1 0".toList]

def exRec : Rec 2 := ⟨1, !![0, 1; 1, 0], [Complex.I, Complex.I], [1, 1]⟩

theorem numbers_ex {t : Text} {ws : List Text} {xs : List Num} (h : words t = ws) (h2 : List.Forall₂ (fun w x => io01.float w = some x) ws xs) :
    Numbers io01 t xs := by
  unfold Numbers
  rwa [h]

theorem io01_0 : io01.float ['0'] = some (some 0) := by simp [io01]
theorem io01_1 : io01.float ['1'] = some (some 1) := by simp [io01]

theorem exLines_hfss : HFSS io01 .GHZ .RI True [exRec] exLines := by
  refine ⟨["! HFSS".toList], " GHZ S RI R 1".toList, [], [["1 0 0 1 0".toList, "1 0 0 0 ! row 2".toList, "! Gamma ! 0 1 0 1".toList,
    "! Port Impedance 1 0".toList, "! 1 0".toList]], rfl, ?_, by simp, ?_, .cons ?_ .nil⟩
  · intro l hl
    simp at hl
    subst hl
    exact Or.inr ⟨" HFSS".toList, by decide, by decide, by decide⟩
  · refine ⟨[.unit .GHZ, .kind, .fmt .RI, .ref [' '] ['1']], ?_, rfl, rfl, ?_, ?_⟩
    · have g4 : Piece.Good (.ref [' '] ['1']) := ⟨by simp, by simp [Blanks], Or.inl ⟨by simp, by decide⟩⟩
      have b : Blanks [' '] := by simp [Blanks]
      have o4 := OptText.cons (w := [' ']) g4 b .nil (Or.inl rfl)
      have o3 := OptText.cons (p := .fmt .RI) (w := [' ']) trivial b o4 (Or.inr ⟨' ', _, rfl, Or.inl rfl⟩)
      have o2 := OptText.cons (p := .kind) (w := [' ']) trivial b o3 (Or.inr ⟨' ', _, rfl, Or.inl rfl⟩)
      have o1 := OptText.cons (p := .unit .GHZ) (w := [' ']) trivial b o2 (Or.inr ⟨' ', _, rfl, Or.inl rfl⟩)
      exact o1
    · intro p hp tok ht
      simp at hp
      rcases hp with rfl | rfl | rfl | rfl <;> simp [Piece.ref?] at ht
      subst ht
      exact ⟨1, io01_1⟩
    · simp [Piece.ref?]
  · refine ⟨["1 0 0 1 0".toList, "1 0 0 0 ! row 2".toList], ["! Gamma ! 0 1 0 1".toList], ["! Port Impedance 1 0".toList, "! 1 0".toList],
      rfl, ?_, ?_, ?_⟩
    · refine ⟨[some 1, some 0, some 0, some 1, some 0], [[some 1, some 0, some 0, some 0]], [(0, 0), (1, 0), (1, 0), (0, 0)],
        .cons ⟨by simp, "1 0 0 1 0".toList, [], by decide, by decide, Or.inl rfl, ?_⟩
          (.cons ⟨by simp, "1 0 0 0 ".toList, "! row 2".toList, by decide, by decide, Or.inr (by decide), ?_⟩ .nil), rfl, by simp, ?_, ?_⟩
      · exact numbers_ex (ws := [['1'], ['0'], ['0'], ['1'], ['0']]) (by decide)
          (.cons io01_1 (.cons io01_0 (.cons io01_0 (.cons io01_1 (.cons io01_0 .nil)))))
      · exact numbers_ex (ws := [['1'], ['0'], ['0'], ['0']]) (by decide) (.cons io01_1 (.cons io01_0 (.cons io01_0 (.cons io01_0 .nil))))
      · simp [exRec]
      · have : (rowsOf exRec.S).flatten = [0, 1, 1, 0] := by simp [rowsOf, exRec, List.finRange_succ]
        rw [this]
        refine .cons ?_ (.cons ?_ (.cons ?_ (.cons ?_ .nil))) <;> simp [Shown, Complex.ext_iff]
    · refine ⟨"0 1 0 1".toList, [], [Complex.I, Complex.I], [], by decide, by simp, ?_, .nil, rfl⟩
      refine numbers_ex (ws := [['0'], ['1'], ['0'], ['1']]) (by decide) ?_
      simp [reIm, io01_0, io01_1]
    · refine ⟨"1 0".toList, ["1 0".toList], [1], [[1]], by decide, by simp, ?_, .cons ?_ .nil, rfl⟩ <;>
      · refine numbers_ex (ws := [['1'], ['0']]) (by decide) ?_
        simp [reIm, io01_0, io01_1]

/-- the file is read, with its impedances and propagation constants, and gives the through connection -/
theorem C64_witness : readTSF io01 ⟨some 1, "GHz".toList, .absent⟩ exLines =
    .ok ⟨some ["port-001".toList, "port-002".toList], [1], .GHZ, .d3 2 2 [!![0, 1; 1, 0]], some 1, ⟨none, none, none, none, none⟩,
      [[1, 1]], [[Complex.I, Complex.I]], .RI⟩ := by
  refine (C64_port_impedances io01_keywords io01_plain two_pos exLines_hfss (by simp) (b := false) (zs := [fun _ => 1])
    (gs := [fun _ => Complex.I]) (.cons ?_ .nil) (.cons ?_ .nil) (by simp) (by simp) (u' := .GHZ) (by decide) _).2 ⟨[!![0, 1; 1, 0]], rfl, ?_, ?_⟩
  · have := PerPort.vector (fun _ : Fin 2 => (1 : ℂ))
    simpa [exRec] using this
  · have := PerPort.vector (fun _ : Fin 2 => Complex.I)
    simpa [exRec] using this
  · intro k r z S' h1 h2 h3 V I
    match k with
    | 0 =>
      simp at h1 h2 h3
      subst h1 h2 h3
      rw [allowed_P one_ne_zero]
      simp [exRec, orElse]
    | k + 1 => simp at h1
  · have e1 : portNames 2 .absent none = some ["port-001".toList, "port-002".toList] := by decide
    simp [e1, exRec, FUnit.hz]

end PyRFtk.TSF
