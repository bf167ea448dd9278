import Verif.TouchstoneHFSS

/-!
# C72: what the comments of a Touchstone file say — annotations and variables

A file may carry comments such as `!PORTS a, b`, `!MARKERS 1 2`, `!SHAPE 2 1`, `!PART right upper`, `!NUMBERING lr`
(ReadTSF.py:147-185), and files exported by HFSS a table of the design variables (ReadTSF.py:188-235).
-/

namespace PyRFtk.TSF

/-! ## Model of the table of variables -/

/-- `! Touchstone file exported from HFSS` -/
def hfssText : Text := "! Touchstone file exported from HFSS ".toList

/-- does `(?i)! Touchstone file exported from HFSS (\d{4}\.\d+\.\d+)` match at the beginning of the text, ReadTSF.py:192-194
(digits: ASCII only) -/
def hfssAt (l : Text) : Bool :=
  startsCI hfssText l &&
    let r := l.drop hfssText.length
    decide ((r.take 4).length = 4) && (r.take 4).all isDigit &&
      match r.drop 4 with
      | '.' :: r =>
        decide (r.takeWhile isDigit ≠ []) &&
          match r.dropWhile isDigit with
          | '.' :: c :: _ => isDigit c
          | _ => false
      | _ => false

/-- `re.findall(..., comments[0])` is not empty, ReadTSF.py:192-197 -/
def isHfss : Text → Bool
  | [] => false
  | c :: cs => hfssAt (c :: cs) || isHfss cs

/-- `[A-Za-z0-9_]` -/
def isName (c : Char) : Bool := ('A' ≤ c ∧ c ≤ 'Z') || ('a' ≤ c ∧ c ≤ 'z') || isDigit c || c = '_'

/-- `\s*([\$]?[A-Za-z0-9_]+)\s*=\s*(.+)` after the exclamation mark, ReadTSF.py:220-221 (lines have no blanks at their end, so
that `\s*` takes all blanks) -/
def entryAt (t : Text) : Option (Text × Text) :=
  let r := t.dropWhile isWs
  let d : Text := if r.head? = some '$' then ['$'] else []
  let r := if r.head? = some '$' then r.tail else r
  let n := r.takeWhile isName
  match (r.dropWhile isName).dropWhile isWs with
  | '=' :: v => if n ≠ [] ∧ v.dropWhile isWs ≠ [] then some (d ++ n, v.dropWhile isWs) else none
  | _ => none

/-- `re.findall(r'!\s*([\$]?[A-Za-z0-9_]+)\s*=\s*(.+)', aline)[0]`, ReadTSF.py:220-223 -/
def findEntry : Text → Option (Text × Text)
  | [] => none
  | c :: cs => match (if c = '!' then entryAt cs else none) with
    | some e => some e
    | none => findEntry cs

/-- `pvars[n] = v` of a dictionary (which keeps the order of first insertion) -/
def setVar : List (Text × Text) → Text → Text → List (Text × Text)
  | [], n, v => [(n, v)]
  | (m, w) :: r, n, v => if m = n then (m, v) :: r else (m, w) :: setVar r n v

/-- one line of the table, ReadTSF.py:220-225: a line that is not an assignment is printed and skipped -/
def addEntry (vs : List (Text × Text)) (l : Text) : List (Text × Text) :=
  match findEntry l with
  | some (n, v) => setVar vs n v
  | none => vs

/-- `re.findall('(?i)^! Variables:', aline)`, ReadTSF.py:216 -/
def isHeading (l : Text) : Bool := startsCI "! Variables:".toList l

/-- the two nested loops, ReadTSF.py:200-233: `pos` is `lineno`, `open` tells whether the inner loop runs; running off the list is
the IndexError that ends both.  (`GENERAL_MIXED`, 211-214, is never used.) -/
def scanVars (m : ℕ) : ℕ → Bool → List (Text × Text) → List Text → List (Text × Text)
  | _, _, vs, [] => vs
  | pos, false, vs, l :: ls =>
    if m < pos then vs
    else if l = markerText then vs
    else scanVars m (pos + 1) (isHeading l) vs ls
  | pos, true, vs, l :: ls =>
    if strip l = ['!'] then scanVars m (pos + 1) false vs ls
    else scanVars m (pos + 1) true (addEntry vs l) ls

/-- ReadTSF.py:188-235 -/
def varsOf (comments : List Text) (m : ℕ) : List (Text × Text) :=
  match comments with
  | [] => []
  | c :: cs => if isHfss c then scanVars m 1 false [] cs else []

/-- `ReadTSF(src, **kwargs)` with the entry `'variables'` of its result, ReadTSF.py:21-463 -/
noncomputable def readAll (io : NumIO) (kw : Kw) (lines : List Text) : Except Err (Res × List (Text × Text)) :=
  match readLines io RS.start lines with
  | .error e => .error e
  | .ok st => match finish io kw st with
    | .error e => .error e
    | .ok R => .ok (R, varsOf st.comments st.marker)

/-! ## Specification -/

/-- a comment line -/
def isComment (l : Text) : Bool := (strip l).head? = some '!'

/-- a line that is neither blank nor a comment nor the option line -/
def isData (l : Text) : Bool := decide (strip l ≠ []) && !isComment l && !isOption l

/-- the comments of some lines -/
def commentsOf (ls : List Text) : List Text := (ls.filter isComment).map strip

/-- the comments before the first line of data -/
def headComments (lines : List Text) : List Text := commentsOf (lines.takeWhile fun l => !isData l)

/-- the comments after it -/
def tailComments (lines : List Text) : List Text := commentsOf (lines.dropWhile fun l => !isData l)

/-- the text contains `! Touchstone file exported from HFSS yyyy.n.n`, in upper or lower case -/
def Banner (t : Text) : Prop :=
  ∃ pre lit y a b post, t = pre ++ lit ++ y ++ '.' :: a ++ '.' :: b ++ post ∧ upper lit = upper hfssText ∧ y.length = 4 ∧ a ≠ [] ∧ b ≠ [] ∧
    ∀ c ∈ y ++ a ++ b, isDigit c = true

/-- a variable: letters, digits and underscores, possibly after a dollar sign -/
def VarName (n : Text) : Prop := ∃ d m, n = d ++ m ∧ (d = [] ∨ d = ['$']) ∧ m ≠ [] ∧ ∀ c ∈ m, c.isAlphanum = true ∨ c = '_'

/-- a comment `! name = value` -/
def Assigns (n v l : Text) : Prop :=
  ∃ a b c, l = '!' :: a ++ n ++ b ++ '=' :: c ++ v ∧ VarName n ∧ (∀ x ∈ a ++ b ++ c, isWs x = true) ∧ v ≠ [] ∧
    ∀ x, v.head? = some x → isWs x = false

/-- the first assignment in the text (`! see ! x = 1` counts) -/
def FirstAssigns (n v l : Text) : Prop :=
  ∃ a b, l = a ++ b ∧ Assigns n v b ∧ ∀ a' b' n' v', l = a' ++ b' → Assigns n' v' b' → a.length ≤ a'.length

/-- the text does not contain an assignment anywhere -/
def NoAssignment (l : Text) : Prop := ∀ a b n v, l = a ++ b → ¬ Assigns n v b

/-- the lines of a table between its heading and the line `!` -/
inductive Entries : List Text → List (Text × Text) → Prop
  | nil : Entries [] []
  | entry {l ls n v es} : FirstAssigns n v l → Entries ls es → Entries (l :: ls) ((n, v) :: es)
  | other {l ls es} : NoAssignment l → strip l ≠ ['!'] → Entries ls es → Entries (l :: ls) es

/-- comments with tables of variables `! Variables:` ... `!` -/
inductive Tables : List Text → List (Text × Text) → Prop
  | nil : Tables [] []
  | other {l ls es} : isHeading l = false → Tables ls es → Tables (l :: ls) es
  | table {l ts ls es es'} : isHeading l = true → Entries ts es → Tables ls es' → Tables (l :: ts ++ ['!'] :: ls) (es ++ es')

/-- a dictionary with these assignments made in turn -/
def IsDict (es d : List (Text × Text)) : Prop :=
  (d.map Prod.fst).Nodup ∧ ∀ n, d.lookup n = es.reverse.lookup n

/-- the first occurrence of the tag in the comment (that is followed by anything) is followed by `t` -/
def Says (tag c t : Text) : Prop :=
  t ≠ [] ∧ ∃ a, c = a ++ tag ++ t ∧ ∀ a' t', c = a' ++ tag ++ t' → t' ≠ [] → a.length ≤ a'.length

/-- what the last of the comments with the tag says -/
def LastSays (tag : Text) (cs : List Text) (t : Text) : Prop :=
  ∃ a c b, cs = a ++ c :: b ∧ Says tag c t ∧ ∀ d ∈ b, ∀ y, ¬ Says tag d y

/-- no comment has the tag -/
def NoneSays (tag : Text) (cs : List Text) : Prop := ∀ c ∈ cs, ∀ t, ¬ Says tag c t

/-! ## Texts -/

variable {io : NumIO} {kw : Kw}

theorem name_iff {c : Char} : isName c = true ↔ c.isAlphanum = true ∨ c = '_' := by
  simp only [isName, isDigit, Char.isAlphanum, Char.isAlpha, Char.isUpper, Char.isLower, Char.isDigit, Bool.or_eq_true, decide_eq_true_eq,
    Bool.and_eq_true, Char.le_def]

theorem ws_cases {c : Char} (h : isWs c = true) : c = ' ' ∨ c = '\t' ∨ c = '\n' ∨ c = '\r' ∨ c = '\x0b' ∨ c = '\x0c' := by
  simpa [isWs, or_assoc] using h

theorem name_of_ws {c : Char} (h : isWs c = true) : isName c = false := by
  rcases ws_cases h with rfl | rfl | rfl | rfl | rfl | rfl <;> decide

theorem ws_of_name {c : Char} (h : isName c = true) : isWs c = false := by
  cases hw : isWs c with
  | false => rfl
  | true => rw [name_of_ws hw] at h; cases h

theorem takeWhile_mem {p : Char → Bool} {l : Text} {c : Char} (h : c ∈ l.takeWhile p) : p c = true :=
  List.mem_takeWhile_imp h

theorem dropWhile_head {p : Char → Bool} {l : Text} {c : Char} (h : (l.dropWhile p).head? = some c) : p c = false := by
  induction l with
  | nil => cases h
  | cons d l ih =>
    cases hd : p d with
    | true => rw [List.dropWhile_cons_of_pos hd] at h; exact ih h
    | false =>
      rw [List.dropWhile_cons_of_neg (by simp [hd])] at h
      injection h with h
      rw [← h, hd]

theorem dropWhile_stop {p : Char → Bool} {a b : Text} (ha : ∀ c ∈ a, p c = true) (hb : ∀ c, b.head? = some c → p c = false) :
    (a ++ b).dropWhile p = b ∧ (a ++ b).takeWhile p = a := by
  induction a with
  | nil =>
    cases b with
    | nil => simp
    | cons c b => simp [hb c rfl]
  | cons d a ih =>
    have := ih fun c hc => ha c (by simp [hc])
    simp [ha d (by simp), this]

theorem entryAt_iff {t n v : Text} : entryAt t = some (n, v) ↔ Assigns n v ('!' :: t) := by
  constructor
  · intro h
    unfold entryAt at h
    simp only at h
    have ht : t.takeWhile isWs ++ t.dropWhile isWs = t := List.takeWhile_append_dropWhile
    generalize hr : t.dropWhile isWs = r at h ht
    obtain ⟨d, q, hd, hq, e1, e2⟩ : ∃ d q : Text, r = d ++ q ∧ (d = [] ∨ d = ['$']) ∧
        (if r.head? = some '$' then ['$'] else ([] : Text)) = d ∧ (if r.head? = some '$' then r.tail else r) = q := by
      by_cases hs : r.head? = some '$'
      · cases r with
        | nil => cases hs
        | cons c r =>
          injection hs with hs
          subst hs
          exact ⟨['$'], r, rfl, Or.inr rfl, by simp, by simp⟩
      · exact ⟨[], r, rfl, Or.inl rfl, by simp [hs], by simp [hs]⟩
    rw [e1, e2] at h
    have hqs : q.takeWhile isName ++ q.dropWhile isName = q := List.takeWhile_append_dropWhile
    have hw : (q.dropWhile isName).takeWhile isWs ++ (q.dropWhile isName).dropWhile isWs = q.dropWhile isName :=
      List.takeWhile_append_dropWhile
    split at h
    · rename_i w hw2
      split at h
      · rename_i hc
        injection h with h
        injection h with h1 h2
        subst h1 h2
        refine ⟨t.takeWhile isWs, (q.dropWhile isName).takeWhile isWs, w.takeWhile isWs, ?_, ⟨d, _, rfl, hq, hc.1, ?_⟩, ?_, hc.2, ?_⟩
        · have hv : w.takeWhile isWs ++ w.dropWhile isWs = w := List.takeWhile_append_dropWhile
          rw [hw2] at hw
          have : t = t.takeWhile isWs ++ (d ++ (q.takeWhile isName ++ ((q.dropWhile isName).takeWhile isWs ++ '=' ::
              (w.takeWhile isWs ++ w.dropWhile isWs)))) := by
            rw [hv, hw, hqs, ← hd, ht]
          simp only [List.cons_append, List.append_assoc]
          exact congrArg _ this
        · exact fun c hc => name_iff.1 (takeWhile_mem hc)
        · intro x hx
          simp only [List.mem_append] at hx
          rcases hx with (hx | hx) | hx <;> exact takeWhile_mem hx
        · exact fun x hx => dropWhile_head hx
      · cases h
    · cases h
  · rintro ⟨a, b, c, h, ⟨d, m, rfl, hd, hm, hmn⟩, hws, hv, hvw⟩
    have ha : ∀ x ∈ a, isWs x = true := fun x hx => hws x (by simp [hx])
    have hb : ∀ x ∈ b, isWs x = true := fun x hx => hws x (by simp [hx])
    have hc : ∀ x ∈ c, isWs x = true := fun x hx => hws x (by simp [hx])
    have hmn : ∀ c ∈ m, isName c = true := fun c hc => name_iff.2 (hmn c hc)
    have e : t = a ++ (d ++ (m ++ (b ++ '=' :: (c ++ v)))) := by
      simp only [List.cons_append, List.append_assoc] at h
      injection h
    have h0 : t.dropWhile isWs = d ++ (m ++ (b ++ '=' :: (c ++ v))) := by
      rw [e]
      refine (dropWhile_stop ha ?_).1
      intro x hx
      rcases hd with rfl | rfl
      · cases m with
        | nil => exact absurd rfl hm
        | cons y m =>
          injection hx with hx
          subst hx
          exact ws_of_name (hmn _ (by simp))
      · injection hx with hx
        subst hx
        rfl
    have hmh : ∀ R : Text, (m ++ R).head? ≠ some '$' := by
      intro R hh
      cases m with
      | nil => exact absurd rfl hm
      | cons y m =>
        injection hh with hh
        have := hmn y (by simp)
        rw [hh] at this
        exact absurd this (by decide)
    have h1 := dropWhile_stop (p := isName) (a := m) (b := b ++ '=' :: (c ++ v)) hmn (by
      intro x hx
      cases b with
      | nil => injection hx with hx; subst hx; rfl
      | cons y b => injection hx with hx; subst hx; exact name_of_ws (hb _ (by simp)))
    have h2 := dropWhile_stop (p := isWs) (a := b) (b := '=' :: (c ++ v)) hb (by
      intro x hx; injection hx with hx; subst hx; rfl)
    have h3 := dropWhile_stop (p := isWs) (a := c) (b := v) hc hvw
    unfold entryAt
    rcases hd with rfl | rfl
    · rw [List.nil_append] at h0
      simp only [h0, if_neg (hmh _), h1.1, h1.2, h2.1, h3.1, hm, hv, ne_eq, not_false_eq_true, and_self, if_true]
    · simp only [h0, List.cons_append, List.nil_append, List.head?_cons, if_true, List.tail_cons, h1.1, h1.2, h2.1, h3.1, hm, hv, ne_eq,
        not_false_eq_true, and_self]

theorem assigns_head {n v l : Text} (h : Assigns n v l) : ∃ t, l = '!' :: t := by
  obtain ⟨a, b, c, rfl, -⟩ := h
  exact ⟨_, rfl⟩

theorem at_iff {l n v : Text} : (match l with | [] => none | c :: cs => if c = '!' then entryAt cs else none) = some (n, v) ↔ Assigns n v l := by
  cases l with
  | nil => exact ⟨fun h => (by cases h), fun h => (by obtain ⟨t, ht⟩ := assigns_head h; cases ht)⟩
  | cons c cs =>
    by_cases hc : c = '!'
    · subst hc; simpa using entryAt_iff
    · simp only [hc, if_false]
      refine ⟨fun h => (by cases h), fun h => ?_⟩
      obtain ⟨t, ht⟩ := assigns_head h
      injection ht with h1
      exact absurd h1 hc

theorem findEntry_iff (l : Text) : (∀ n v, findEntry l = some (n, v) ↔ FirstAssigns n v l) ∧ (findEntry l = none ↔ NoAssignment l) := by
  induction l with
  | nil =>
    have key : ∀ n v (a b : Text), [] = a ++ b → ¬ Assigns n v b := by
      intro n v a b h hb
      obtain ⟨t, rfl⟩ := assigns_head hb
      simp at h
    refine ⟨fun n v => ⟨fun h => (by cases h), ?_⟩, ⟨fun _ a b n v h => key n v a b h, fun _ => rfl⟩⟩
    rintro ⟨a, b, h, hb, -⟩
    exact absurd hb (key n v a b h)
  | cons c l ih =>
    rw [findEntry]
    cases he : (if c = '!' then entryAt l else none) with
    | some e =>
      obtain ⟨m, w⟩ := e
      have h0 : Assigns m w (c :: l) := (at_iff (l := c :: l)).1 he
      simp only
      refine ⟨fun n v => ?_, ?_⟩
      · constructor
        · intro h
          injection h with h
          injection h with h1 h2
          subst h1 h2
          exact ⟨[], c :: l, rfl, h0, fun _ _ _ _ _ _ => Nat.zero_le _⟩
        · rintro ⟨a, b, h, hb, hmin⟩
          have := hmin [] (c :: l) m w rfl h0
          have ha : a = [] := List.length_eq_zero_iff.1 (Nat.le_zero.1 this)
          subst ha
          rw [List.nil_append] at h
          rw [← h] at hb
          have := (at_iff (l := c :: l)).2 hb
          exact he.symm.trans this
      · exact ⟨fun h => (by cases h), fun h => absurd h0 (h [] (c :: l) m w rfl)⟩
    | none =>
      have h0 : ∀ n v, ¬ Assigns n v (c :: l) := by
        intro n v h
        have := (at_iff (l := c :: l)).2 h
        have := he.symm.trans this
        cases this
      simp only
      refine ⟨fun n v => ?_, ?_⟩
      · rw [ih.1 n v]
        constructor
        · rintro ⟨a, b, rfl, hb, hmin⟩
          refine ⟨c :: a, b, rfl, hb, ?_⟩
          intro a' b' n' v' h hb'
          cases a' with
          | nil => rw [List.nil_append] at h; rw [← h] at hb'; exact absurd hb' (h0 n' v')
          | cons x a' =>
            injection h with h1 h2
            simpa using hmin a' b' n' v' h2 hb'
        · rintro ⟨a, b, h, hb, hmin⟩
          cases a with
          | nil => rw [List.nil_append] at h; rw [← h] at hb; exact absurd hb (h0 n v)
          | cons x a =>
            injection h with h1 h2
            refine ⟨a, b, h2, hb, ?_⟩
            intro a' b' n' v' h hb'
            have := hmin (c :: a') b' n' v' (by rw [h]; rfl) hb'
            simpa using this
      · rw [ih.2]
        constructor
        · intro hn a b n v h hb
          cases a with
          | nil => rw [List.nil_append] at h; rw [← h] at hb; exact h0 n v hb
          | cons x a => injection h with h1 h2; exact hn a b n v h2 hb
        · intro hn a b n v h hb
          exact hn (c :: a) b n v (by rw [h]; rfl) hb

theorem findTag_iff (tag l : Text) : (∀ t, findTag tag l = some t ↔ Says tag l t) ∧ (findTag tag l = none ↔ ∀ t, ¬ Says tag l t) := by
  have main : ∀ t, findTag tag l = some t ↔ Says tag l t := by
    induction l with
    | nil =>
      intro t
      refine ⟨fun h => (by cases h), ?_⟩
      rintro ⟨ht, a, h, -⟩
      exact absurd (by simpa using h.symm) (by simp [ht])
    | cons c l ih =>
      intro t
      rw [findTag]
      by_cases hp : tag.isPrefixOf (c :: l) = true ∧ (c :: l).drop tag.length ≠ []
      · rw [if_pos hp]
        obtain ⟨q, hq⟩ := List.isPrefixOf_iff_prefix.1 hp.1
        have hd : (c :: l).drop tag.length = q := by rw [← hq]; simp
        rw [hd] at hp ⊢
        constructor
        · intro h
          injection h with h
          subst h
          exact ⟨hp.2, [], by rw [List.nil_append, hq], fun _ _ _ _ => Nat.zero_le _⟩
        · rintro ⟨ht, a, h, hmin⟩
          have := hmin [] q (by rw [List.nil_append, hq]) hp.2
          have ha : a = [] := List.length_eq_zero_iff.1 (Nat.le_zero.1 this)
          subst ha
          rw [List.nil_append, ← hq] at h
          rw [List.append_cancel_left h]
      · rw [if_neg hp, ih t]
        have h0 : ∀ t', c :: l = tag ++ t' → t' = [] := by
          intro t' h
          by_contra hne
          apply hp
          refine ⟨List.isPrefixOf_iff_prefix.2 ⟨t', h.symm⟩, ?_⟩
          rw [h]
          simpa using hne
        constructor
        · rintro ⟨ht, a, rfl, hmin⟩
          refine ⟨ht, c :: a, rfl, ?_⟩
          intro a' t' h ht'
          cases a' with
          | nil => exact absurd (h0 t' (by simpa using h)) ht'
          | cons x a' =>
            simp only [List.cons_append] at h
            injection h with h1 h2
            simpa using hmin a' t' h2 ht'
        · rintro ⟨ht, a, h, hmin⟩
          cases a with
          | nil => exact absurd (h0 t (by simpa using h)) ht
          | cons x a =>
            simp only [List.cons_append] at h
            injection h with h1 h2
            refine ⟨ht, a, h2, ?_⟩
            intro a' t' h ht'
            have := hmin (c :: a') t' (by rw [h]; rfl) ht'
            simpa using this
  refine ⟨main, ?_⟩
  constructor
  · intro h t ht
    rw [← main, h] at ht
    cases ht
  · intro h
    cases hf : findTag tag l with
    | none => rfl
    | some t => exact absurd ((main t).1 hf) (h t)

theorem upper_length (l : Text) : (upper l).length = l.length := by simp [upper]

theorem hfssAt_iff {l : Text} : hfssAt l = true ↔ ∃ lit y a b post, l = lit ++ y ++ '.' :: a ++ '.' :: b ++ post ∧
    upper lit = upper hfssText ∧ y.length = 4 ∧ a ≠ [] ∧ b ≠ [] ∧ ∀ c ∈ y ++ a ++ b, isDigit c = true := by
  constructor
  · intro h
    unfold hfssAt at h
    simp only [Bool.and_eq_true, decide_eq_true_eq] at h
    obtain ⟨h1, ⟨h2, h3⟩, h4⟩ := h
    have hl : l.take hfssText.length ++ l.drop hfssText.length = l := List.take_append_drop _ _
    have hu : upper (l.take hfssText.length) = upper hfssText := by
      unfold startsCI at h1
      exact (of_decide_eq_true h1).symm
    generalize l.drop hfssText.length = r at h2 h3 h4 hl
    have hr : r.take 4 ++ r.drop 4 = r := List.take_append_drop _ _
    split at h4
    · rename_i q hq
      simp only [Bool.and_eq_true, decide_eq_true_eq] at h4
      obtain ⟨h4, h5⟩ := h4
      have hqs : q.takeWhile isDigit ++ q.dropWhile isDigit = q := List.takeWhile_append_dropWhile
      split at h5
      · rename_i c post hc
        refine ⟨l.take hfssText.length, r.take 4, q.takeWhile isDigit, [c], post, ?_, hu, h2, h4, by simp, ?_⟩
        · rw [hc] at hqs
          rw [hq] at hr
          have : l = l.take hfssText.length ++ (r.take 4 ++ '.' :: (q.takeWhile isDigit ++ '.' :: c :: post)) := by
            rw [hqs, hr, hl]
          simpa using this
        · intro x hx
          simp only [List.mem_append, List.mem_singleton] at hx
          rcases hx with (hx | hx) | hx
          · exact List.all_eq_true.1 h3 x hx
          · exact takeWhile_mem hx
          · rw [hx]; exact h5
      · cases h5
    · cases h4
  · rintro ⟨lit, y, a, b, post, rfl, hu, hy, ha, hb, hd⟩
    have hn : lit.length = hfssText.length := by rw [← upper_length lit, hu, upper_length]
    have e : lit ++ y ++ '.' :: a ++ '.' :: b ++ post = lit ++ (y ++ '.' :: (a ++ '.' :: (b ++ post))) := by simp
    have e1 : (lit ++ (y ++ '.' :: (a ++ '.' :: (b ++ post)))).take hfssText.length = lit := by rw [← hn]; simp
    have e2 : (lit ++ (y ++ '.' :: (a ++ '.' :: (b ++ post)))).drop hfssText.length = y ++ '.' :: (a ++ '.' :: (b ++ post)) := by
      rw [← hn]; simp
    have e3 : (y ++ '.' :: (a ++ '.' :: (b ++ post))).take 4 = y := by rw [← hy]; simp
    have e4 : (y ++ '.' :: (a ++ '.' :: (b ++ post))).drop 4 = '.' :: (a ++ '.' :: (b ++ post)) := by rw [← hy]; simp
    have e5 := dropWhile_stop (p := isDigit) (a := a) (b := '.' :: (b ++ post)) (fun c hc => hd c (by simp [hc])) (by
      intro c hc; injection hc with hc; subst hc; rfl)
    obtain ⟨x, b', rfl⟩ : ∃ x b', b = x :: b' := by
      cases b with
      | nil => exact absurd rfl hb
      | cons x b' => exact ⟨x, b', rfl⟩
    rw [e]
    simp only [List.cons_append] at e1 e2 e3 e4 e5 ⊢
    unfold hfssAt startsCI
    simp only [e1, e2, e3, e4, e5.1, e5.2, hu, hy, ha, ne_eq, not_false_eq_true, decide_true, Bool.true_and,
      Bool.and_eq_true, List.all_eq_true]
    exact ⟨fun c hc => hd c (by simp [hc]), hd x (by simp)⟩

theorem isHfss_iff (t : Text) : isHfss t = true ↔ Banner t := by
  induction t with
  | nil =>
    refine ⟨fun h => (by cases h), ?_⟩
    rintro ⟨pre, lit, y, a, b, post, h, -⟩
    simp at h
  | cons c t ih =>
    rw [isHfss, Bool.or_eq_true, hfssAt_iff, ih]
    constructor
    · rintro (⟨lit, y, a, b, post, h, h'⟩ | ⟨pre, lit, y, a, b, post, h, h'⟩)
      · exact ⟨[], lit, y, a, b, post, by rw [h]; simp, h'⟩
      · exact ⟨c :: pre, lit, y, a, b, post, by rw [h]; simp, h'⟩
    · rintro ⟨pre, lit, y, a, b, post, h, h'⟩
      cases pre with
      | nil => exact Or.inl ⟨lit, y, a, b, post, by rw [h]; simp, h'⟩
      | cons d pre =>
        right
        simp only [List.cons_append] at h
        injection h with h1 h2
        exact ⟨pre, lit, y, a, b, post, by rw [h2], h'⟩

/-! ## The comments of the lines -/

theorem readLine_kind {st st1 : RS} {l : Text} (h : readLine io st l = .ok st1) :
    (isComment l = true → st1 = { st with comments := st.comments ++ [strip l] }) ∧
    (isComment l = false → isData l = false → st1.comments = st.comments ∧ st1.marker = st.marker) ∧
    (isData l = true → ∃ its, st1 = feed st its) := by
  unfold readLine at h
  split at h
  · rename_i hs
    injection h with h
    subst h
    simp [isComment, isData, hs]
  · rename_i x hs
    injection h with h
    subst h
    simp [isComment, isData, hs]
  · rename_i x hs
    split at h
    · cases h
    · injection h with h
      subst h
      simp [isComment, isData, isOption, hs]
  · rename_i h0 h1 h2
    have hc : isComment l = false := by
      unfold isComment
      cases hs : strip l with
      | nil => simp
      | cons c r =>
        simp only [List.head?_cons, Option.some.injEq, decide_eq_false_iff_not]
        rintro rfl
        exact h1 r hs
    have ho : isOption l = false := by
      unfold isOption
      cases hs : strip l with
      | nil => simp
      | cons c r =>
        simp only [List.head?_cons, Option.some.injEq, decide_eq_false_iff_not]
        rintro rfl
        exact h2 r hs
    have hd : isData l = true := by
      unfold isData
      simp only [hc, ho, Bool.not_false, Bool.and_true, decide_eq_true_eq]
      exact h0
    split at h
    · cases h
    · rename_i its _
      injection h with h
      subst h
      exact ⟨fun h => (by rw [hc] at h; cases h), fun _ h => (by rw [hd] at h; cases h), fun _ => ⟨its, rfl⟩⟩

theorem feed_mark (st : RS) (its : List Num) :
    (feed st its).marker = if st.marker = 0 then st.comments.length + 1 else st.marker := by
  unfold feed
  cases its with
  | nil => simp only; split <;> rfl
  | cons f r => simp only; (repeat' split) <;> rfl

theorem data_not_comment {l : Text} (h : isData l = true) : isComment l = false := by
  unfold isData at h
  simp only [Bool.and_eq_true, Bool.not_eq_true'] at h
  exact h.1.2

theorem comments_after {ls : List Text} : ∀ {st st' : RS}, readLines io st ls = .ok st' → st.marker ≠ 0 →
    st'.comments = st.comments ++ commentsOf ls ∧ st'.marker = st.marker := by
  induction ls with
  | nil => intro st st' h _; injection h with h; subst h; simp [commentsOf]
  | cons l ls ih =>
    intro st st' h hm
    rw [readLines] at h
    cases h1 : readLine io st l with
    | error e => rw [h1] at h; cases h
    | ok st1 =>
      rw [h1] at h
      simp only at h
      have k := readLine_kind h1
      by_cases hc : isComment l = true
      · have e := k.1 hc
        subst e
        obtain ⟨e1, e2⟩ := ih h hm
        refine ⟨?_, e2⟩
        rw [e1]
        simp [commentsOf, hc]
      · have hc' : isComment l = false := by simpa using hc
        have : st1.comments = st.comments ∧ st1.marker = st.marker := by
          cases hd : isData l with
          | false => exact k.2.1 hc' hd
          | true =>
            obtain ⟨its, rfl⟩ := k.2.2 hd
            rw [feed_comments, feed_mark, if_neg hm, if_neg hm]
            exact ⟨rfl, rfl⟩
        obtain ⟨e1, e2⟩ := ih h (by rw [this.2]; exact hm)
        rw [this.1] at e1
        rw [this.2] at e2
        refine ⟨?_, e2⟩
        rw [e1]
        simp [commentsOf, hc']

theorem comments_all {ls : List Text} : ∀ {st st' : RS}, readLines io st ls = .ok st' → st.marker = 0 → (∃ l ∈ ls, isData l = true) →
    st'.comments = st.comments ++ headComments ls ++ markerText :: tailComments ls ∧
    st'.marker = (st.comments ++ headComments ls).length + 1 := by
  induction ls with
  | nil => rintro st st' h _ ⟨l, hl, -⟩; cases hl
  | cons l ls ih =>
    rintro st st' h hm ⟨x, hx, hxd⟩
    rw [readLines] at h
    cases h1 : readLine io st l with
    | error e => rw [h1] at h; cases h
    | ok st1 =>
      rw [h1] at h
      simp only at h
      have k := readLine_kind h1
      cases hd : isData l with
      | true =>
        obtain ⟨its, rfl⟩ := k.2.2 hd
        obtain ⟨e1, e2⟩ := comments_after h (feed_marker st its)
        rw [feed_comments, if_pos hm] at e1
        rw [feed_mark, if_pos hm] at e2
        have hc := data_not_comment hd
        have e3 : headComments (l :: ls) = [] := by simp [headComments, commentsOf, hd]
        have e4 : tailComments (l :: ls) = commentsOf ls := by simp [tailComments, commentsOf, hd, hc]
        rw [e3, e4, e1, e2]
        simp
      | false =>
        have hx' : ∃ l ∈ ls, isData l = true := by
          rcases List.mem_cons.1 hx with rfl | hx
          · rw [hd] at hxd; cases hxd
          · exact ⟨x, hx, hxd⟩
        have e4 : tailComments (l :: ls) = tailComments ls := by simp [tailComments, hd]
        rw [e4]
        by_cases hc : isComment l = true
        · have e := k.1 hc
          subst e
          obtain ⟨e1, e2⟩ := ih h hm hx'
          have e3 : headComments (l :: ls) = strip l :: headComments ls := by simp [headComments, commentsOf, hd, hc]
          rw [e3, e1, e2]
          simp
        · have hc' : isComment l = false := by simpa using hc
          obtain ⟨f1, f2⟩ := k.2.1 hc' hd
          obtain ⟨e1, e2⟩ := ih h (by rw [f2]; exact hm) hx'
          have e3 : headComments (l :: ls) = headComments ls := by simp [headComments, commentsOf, hd, hc']
          rw [e3, e1, e2, f1]
          simp

/-! ## The variables -/

theorem lookup_pair (k w : Text) (r : List (Text × Text)) (m : Text) :
    ((k, w) :: r).lookup m = if m = k then some w else r.lookup m := by
  by_cases h : m = k
  · subst h; simp [List.lookup]
  · have : (m == k) = false := beq_eq_false_iff_ne.2 h
    simp only [List.lookup, this, h, if_false]

theorem lookup_setVar (vs : List (Text × Text)) (n v m : Text) :
    (setVar vs n v).lookup m = if m = n then some v else vs.lookup m := by
  induction vs with
  | nil => rw [setVar, lookup_pair]
  | cons e r ih =>
    obtain ⟨k, w⟩ := e
    rw [setVar]
    by_cases hk : k = n
    · subst hk
      rw [if_pos rfl, lookup_pair, lookup_pair]
      by_cases h : m = k <;> simp [h]
    · rw [if_neg hk, lookup_pair, lookup_pair, ih]
      by_cases h : m = k
      · have : m ≠ n := by rw [h]; exact hk
        rw [if_pos h, if_neg this, if_pos h]
      · simp [h]

theorem setVar_keys (vs : List (Text × Text)) (n v : Text) :
    (setVar vs n v).map Prod.fst = if n ∈ vs.map Prod.fst then vs.map Prod.fst else vs.map Prod.fst ++ [n] := by
  induction vs with
  | nil => rfl
  | cons e r ih =>
    obtain ⟨k, w⟩ := e
    rw [setVar]
    by_cases hk : k = n
    · simp [hk]
    · simp only [hk, if_false, List.map_cons, ih]
      have : n ≠ k := fun h => hk h.symm
      by_cases hm : n ∈ r.map Prod.fst
      · simp [hm]
      · simp [hm, this]

/-- assignments made in turn -/
def setAll (vs es : List (Text × Text)) : List (Text × Text) := es.foldl (fun vs e => setVar vs e.1 e.2) vs

theorem setAll_nodup {es : List (Text × Text)} : ∀ {vs}, (vs.map Prod.fst).Nodup → ((setAll vs es).map Prod.fst).Nodup := by
  induction es with
  | nil => intro vs h; exact h
  | cons e es ih =>
    intro vs h
    refine ih (vs := setVar vs e.1 e.2) ?_
    rw [setVar_keys]
    split
    · exact h
    · rename_i hn
      exact List.Nodup.append h (by simp) (by simpa using hn)

theorem setAll_lookup {es : List (Text × Text)} : ∀ {vs} (m : Text), (setAll vs es).lookup m = (es.reverse.lookup m).or (vs.lookup m) := by
  induction es with
  | nil => intro vs m; simp [setAll]
  | cons e es ih =>
    intro vs m
    rw [show setAll vs (e :: es) = setAll (setVar vs e.1 e.2) es from rfl, ih, lookup_setVar, List.reverse_cons, List.lookup_append]
    obtain ⟨k, w⟩ := e
    rw [lookup_pair]
    cases List.lookup m es.reverse with
    | some x => simp
    | none =>
      by_cases h : m = k
      · simp [h]
      · simp [h]

theorem setAll_dict (es : List (Text × Text)) : IsDict es (setAll [] es) := by
  refine ⟨setAll_nodup (by simp), fun m => ?_⟩
  rw [setAll_lookup]
  simp

theorem assigns_not_close {n v l : Text} (h : FirstAssigns n v l) : strip l ≠ ['!'] := by
  obtain ⟨a, b, rfl, ⟨p, q, r, rfl, ⟨d, m, rfl, hd, hm, hmn⟩, hws, hv, hvw⟩, -⟩ := h
  intro hs
  have h1 : '=' ∈ strip (a ++ ('!' :: p ++ (d ++ m) ++ q ++ '=' :: r ++ v)) := by
    have hne : isWs '=' = false := by decide
    have : words (a ++ ('!' :: p ++ (d ++ m) ++ q ++ '=' :: r ++ v)) ≠ [] := by
      intro hw
      rcases mem_words_or_ws (t := a ++ ('!' :: p ++ (d ++ m) ++ q ++ '=' :: r ++ v)) (c := '=') (by simp) with h | ⟨w, h, -⟩
      · rw [hne] at h; cases h
      · rw [hw] at h; cases h
    unfold strip
    generalize hl : a ++ ('!' :: p ++ (d ++ m) ++ q ++ '=' :: r ++ v) = l at *
    have hm1 : '=' ∈ l.dropWhile isWs := by
      have : '=' ∈ l.takeWhile isWs ++ l.dropWhile isWs := by
        rw [List.takeWhile_append_dropWhile, ← hl]; simp
      rcases List.mem_append.1 this with h | h
      · have := takeWhile_mem h; rw [hne] at this; cases this
      · exact h
    obtain ⟨w, hw, he⟩ := rdropWhile_split (l.dropWhile isWs)
    rw [he] at hm1
    rcases List.mem_append.1 hm1 with h | h
    · exact h
    · have := hw _ h; rw [hne] at this; cases this
  rw [hs] at h1
  exact absurd h1 (by decide)

theorem scan_entries {m : ℕ} {ts : List Text} {es : List (Text × Text)} (h : Entries ts es) : ∀ (pos : ℕ) (vs : List (Text × Text)) (ls : List Text),
    scanVars m pos true vs (ts ++ ls) = scanVars m (pos + ts.length) true (setAll vs es) ls := by
  induction h with
  | nil => intro pos vs ls; rfl
  | @entry l ts n v es h1 _ ih =>
    intro pos vs ls
    rw [List.cons_append, scanVars, if_neg (assigns_not_close h1), ih, addEntry, ((findEntry_iff l).1 n v).2 h1]
    simp only [List.length_cons]
    rw [show setAll vs ((n, v) :: es) = setAll (setVar vs n v) es from rfl]
    congr 1
    omega
  | @other l ts es h1 h2 _ ih =>
    intro pos vs ls
    rw [List.cons_append, scanVars, if_neg h2, ih, addEntry, (findEntry_iff l).2.2 h1]
    simp only [List.length_cons]
    congr 1
    omega

theorem heading_not_marker {l : Text} (h : isHeading l = true) : l ≠ markerText := by
  rintro rfl
  exact absurd h (by decide)

theorem scan_tables {m : ℕ} {cs : List Text} {es : List (Text × Text)} (h : Tables cs es) (hb : ∀ c ∈ cs, c ≠ markerText) :
    ∀ (pos : ℕ) (vs : List (Text × Text)) (ls : List Text), pos + cs.length ≤ m + 1 →
    scanVars m pos false vs (cs ++ ls) = scanVars m (pos + cs.length) false (setAll vs es) ls := by
  induction h with
  | nil => intro pos vs ls _; rfl
  | @other l cs es h1 _ ih =>
    intro pos vs ls hp
    simp only [List.length_cons] at hp ⊢
    rw [List.cons_append, scanVars, if_neg (by omega), if_neg (hb l (by simp)), h1, ih (fun c hc => hb c (by simp [hc])) _ _ _ (by omega)]
    congr 1
    omega
  | @table l ts cs es es' h1 h2 _ ih =>
    intro pos vs ls hp
    simp only [List.length_cons, List.length_append] at hp ⊢
    rw [List.append_assoc, List.cons_append, scanVars, if_neg (by omega), if_neg (heading_not_marker h1), h1, scan_entries h2,
      List.cons_append, scanVars, if_pos (by rfl), ih (fun c hc => hb c (by simp [hc])) _ _ _ (by omega)]
    rw [show setAll vs (es ++ es') = setAll (setAll vs es) es' from by simp [setAll]]
    congr 1
    omega

theorem mem_commentsOf {ls : List Text} {c : Text} (h : c ∈ commentsOf ls) : (∃ t, c = '!' :: t) ∧ ∃ l, c = strip l := by
  obtain ⟨l, hl, rfl⟩ := List.mem_map.1 h
  refine ⟨?_, l, rfl⟩
  have := (List.mem_filter.1 hl).2
  unfold isComment at this
  cases hs : strip l with
  | nil => rw [hs] at this; simp at this
  | cons c t =>
    rw [hs] at this
    simp only [List.head?_cons, Option.some.injEq, decide_eq_true_eq] at this
    exact ⟨t, by rw [this]⟩

theorem not_marker {ls : List Text} {c : Text} (h : c ∈ commentsOf ls) : c ≠ markerText := by
  obtain ⟨⟨t, rfl⟩, -⟩ := mem_commentsOf h
  intro e
  have h1 : some '!' = markerText.head? := congrArg List.head? e
  exact absurd h1 (by decide)

theorem readAll_parts {lines : List Text} {R : Res} {vs : List (Text × Text)} (h : readAll io kw lines = .ok (R, vs)) :
    ∃ st, readLines io RS.start lines = .ok st ∧ finish io kw st = .ok R ∧ vs = varsOf st.comments st.marker := by
  unfold readAll at h
  cases hr : readLines io RS.start lines with
  | error e => rw [hr] at h; cases h
  | ok st =>
    rw [hr] at h
    simp only at h
    cases hf : finish io kw st with
    | error e => rw [hf] at h; cases h
    | ok R' =>
      rw [hf] at h
      injection h with h
      injection h with h1 h2
      exact ⟨st, rfl, by rw [hf, h1], h2.symm⟩

/-- the entry `variables` leaves the other entries of the result as they are -/
theorem readAll_fst (lines : List Text) : (readAll io kw lines).map Prod.fst = readTSF io kw lines := by
  unfold readAll readTSF
  cases readLines io RS.start lines with
  | error e => rfl
  | ok st =>
    simp only
    cases finish io kw st with
    | error e => rfl
    | ok R => rfl

/-- C72: a file whose first comment is the HFSS banner, with tables of variables among the comments before the data, gives the
variables of the tables, a later assignment replacing an earlier one.  Lines of a table that are no assignments are skipped. -/
theorem C72_variables {lines : List Text} {R : Res} {vs es : List (Text × Text)} (h : readAll io kw lines = .ok (R, vs))
    (hd : ∃ l ∈ lines, isData l = true) {c : Text} {cs : List Text} (hc : headComments lines = c :: cs) (hb : Banner c)
    (ht : Tables cs es) : IsDict es vs := by
  obtain ⟨st, hr, -, rfl⟩ := readAll_parts h
  obtain ⟨e1, e2⟩ := comments_all hr rfl hd
  have hm : ∀ x ∈ cs, x ≠ markerText := by
    intro x hx
    exact not_marker (ls := lines.takeWhile fun l => !isData l) (by
      have : x ∈ headComments lines := by rw [hc]; simp [hx]
      exact this)
  rw [e1, e2, hc]
  simp only [RS.start, List.nil_append, List.cons_append, List.length_cons, varsOf, (isHfss_iff c).2 hb, if_true]
  rw [scan_tables ht hm _ _ _ (by omega), scanVars, if_neg (by omega), if_pos rfl]
  exact setAll_dict es

/-- C72: a table begins with a comment that starts with `! Variables:`, in upper or lower case -/
theorem C72_heading (l : Text) : isHeading l = true ↔ ∃ a b, l = a ++ b ∧ upper a = "! VARIABLES:".toList := by
  have e : upper "! Variables:".toList = "! VARIABLES:".toList := by decide
  unfold isHeading startsCI
  rw [e, decide_eq_true_iff]
  constructor
  · intro h; exact ⟨_, _, (List.take_append_drop 12 l).symm, h.symm⟩
  · rintro ⟨a, b, rfl, h⟩
    have hl : a.length = 12 := by
      have := congrArg List.length h
      simpa [upper] using this
    have e2 : "! Variables:".toList.length = a.length := hl.symm
    rw [e2, List.take_left]
    exact h.symm

/-- C72: without the banner in the first comment of the file no variables are reported -/
theorem C72_no_banner {lines : List Text} {R : Res} {vs : List (Text × Text)} (h : readAll io kw lines = .ok (R, vs))
    (hd : ∃ l ∈ lines, isData l = true) (hb : ∀ c, (headComments lines).head? = some c → ¬ Banner c) : vs = [] := by
  obtain ⟨st, hr, -, rfl⟩ := readAll_parts h
  obtain ⟨e1, e2⟩ := comments_all hr rfl hd
  rw [e1]
  simp only [RS.start, List.nil_append]
  have key : ∀ c, ¬ Banner c → isHfss c = false := by
    intro c hc
    rw [← isHfss_iff] at hc
    simpa using hc
  cases hh : headComments lines with
  | nil =>
    have : isHfss markerText = false := by decide
    simp [varsOf, this]
  | cons c cs =>
    have := key c (hb c (by rw [hh]; rfl))
    simp [varsOf, this]

theorem marker_no_assignment : NoAssignment markerText := (findEntry_iff markerText).2.1 (by decide)

/-- VIOLATION: a table that is not closed by a line `!` before the data goes on in the comments between and after the data: whatever
assignments they contain, up to the first line `!` (or the end of the file), are reported as variables -/
theorem C72_unclosed_table {lines : List Text} {R : Res} {vs es es1 es2 : List (Text × Text)} (h : readAll io kw lines = .ok (R, vs))
    (hd : ∃ l ∈ lines, isData l = true) {c t : Text} {cs ts us rest : List Text} (hc : headComments lines = c :: (cs ++ t :: ts)) (hb : Banner c)
    (ht : Tables cs es) (hh : isHeading t = true) (h1 : Entries ts es1) (hu : tailComments lines = us ++ rest) (h2 : Entries us es2)
    (hr : rest = [] ∨ rest.head? = some ['!']) : IsDict (es ++ es1 ++ es2) vs := by
  obtain ⟨st, hrd, -, rfl⟩ := readAll_parts h
  obtain ⟨e1, e2⟩ := comments_all hrd rfl hd
  have hm : ∀ x ∈ cs, x ≠ markerText := by
    intro x hx
    exact not_marker (ls := lines.takeWhile fun l => !isData l) (by
      have : x ∈ headComments lines := by rw [hc]; simp [hx]
      exact this)
  rw [e1, e2, hc, hu]
  simp only [RS.start, List.nil_append, List.cons_append, List.length_cons, varsOf, (isHfss_iff c).2 hb, if_true, List.append_assoc]
  rw [scan_tables ht hm _ _ _ (by simp; omega), scanVars, if_neg (by simp; omega), if_neg (heading_not_marker hh), hh, scan_entries h1]
  have h3 : Entries (markerText :: us) es2 := .other marker_no_assignment (by decide) h2
  rw [show markerText :: (us ++ rest) = (markerText :: us) ++ rest from rfl, scan_entries h3]
  have e : setAll (setAll (setAll [] es) es1) es2 = setAll [] (es ++ es1 ++ es2) := by simp [setAll]
  rw [e]
  have fin : scanVars ((cs ++ t :: ts).length + 1 + 1) (1 + cs.length + 1 + ts.length + (markerText :: us).length) true
      (setAll [] (es ++ es1 ++ es2)) rest = setAll [] (es ++ es1 ++ es2) := by
    cases rest with
    | nil => rfl
    | cons x rest =>
      have hx : x = ['!'] := by simpa using hr
      subst hx
      rw [scanVars, if_pos (by rfl)]
      cases rest with
      | nil => rfl
      | cons y rest => rw [scanVars, if_pos (by simp only [List.length_append, List.length_cons]; omega)]
  rw [fin]
  simpa [List.append_assoc] using setAll_dict (es ++ es1 ++ es2)

/-! ## The annotations -/

/-- `φ` is what the last comment with the tag gives -/
def Given {α : Type} (tag : Text) (cs : List Text) (φ : Option α) (Q : Text → α → Prop) : Prop :=
  (∀ t, LastSays tag cs t → ∃ x, φ = some x ∧ Q t x) ∧ (NoneSays tag cs → φ = none)

def setPorts (s : Special) : Option Text → Special
  | some t => { s with ports := some ((pieces (· = ',') t).map strip) }
  | none => s

def setMarkers (io : NumIO) (s : Special) : Option Text → Except Err Special
  | some t => (mapE io.get (words t)).map fun m => { s with markers := some m }
  | none => .ok s

def setShape (io : NumIO) (s : Special) : Option Text → Except Err Special
  | some t => match mapE io.getInt ((words t).take 2) with
      | .error e => .error e
      | .ok sh => if sh.length = 1 then .error .attributeError else .ok { s with shape := some sh }
  | none => .ok s

def setPart (s : Special) : Option Text → Special
  | some t => { s with part := some (((words t).take 2).map lower) }
  | none => s

def setNumbering (s : Special) : Option Text → Except Err Special
  | some t => match s.shape with
    | none => .error .typeError
    | some [] => .error .indexError
    | some _ => .ok { s with numbering := some (((words t).take 2).map lower) }
  | none => .ok s

theorem special1_eq (s : Special) (c : Text) : special1 io s c =
    (setMarkers io (setPorts s (findTag "!PORTS ".toList c)) (findTag "!MARKERS ".toList c)).bind fun s =>
      (setShape io s (findTag "!SHAPE ".toList (upper c))).bind fun s =>
        setNumbering (setPart s (findTag "!PART ".toList c)) (findTag "!NUMBERING ".toList c) := by
  unfold special1 portsOf
  simp only [bind]
  rcases findTag "!SHAPE ".toList (upper c) with _ | t
  · cases findTag "!PORTS ".toList c <;> cases findTag "!MARKERS ".toList c <;>
      cases findTag "!PART ".toList c <;> cases findTag "!NUMBERING ".toList c <;> rfl
  · simp only [setShape]
    rcases mapE io.getInt ((words t).take 2) with e | sh
    · cases findTag "!PORTS ".toList c <;> cases findTag "!MARKERS ".toList c <;>
        cases findTag "!PART ".toList c <;> cases findTag "!NUMBERING ".toList c <;> rfl
    · by_cases hl : sh.length = 1
      · simp only [hl, if_true]
        cases findTag "!PORTS ".toList c <;> cases findTag "!MARKERS ".toList c <;>
          cases findTag "!PART ".toList c <;> cases findTag "!NUMBERING ".toList c <;> rfl
      · simp only [hl, if_false]
        cases findTag "!PORTS ".toList c <;> cases findTag "!MARKERS ".toList c <;>
          cases findTag "!PART ".toList c <;> cases findTag "!NUMBERING ".toList c <;> rfl

theorem special1_ok {s s' : Special} {c : Text} (h : special1 io s c = .ok s') :
    (∀ t, findTag "!PORTS ".toList c = some t → s'.ports = some ((pieces (· = ',') t).map strip)) ∧
    (findTag "!PORTS ".toList c = none → s'.ports = s.ports) ∧
    (∀ t, findTag "!MARKERS ".toList c = some t → ∃ m, s'.markers = some m ∧ Numbers io t m) ∧
    (findTag "!MARKERS ".toList c = none → s'.markers = s.markers) ∧
    (∀ t, findTag "!SHAPE ".toList (upper c) = some t →
      ∃ sh, s'.shape = some sh ∧ List.Forall₂ (fun w i => io.int w = some i) ((words t).take 2) sh ∧ sh.length ≠ 1) ∧
    (findTag "!SHAPE ".toList (upper c) = none → s'.shape = s.shape) ∧
    (∀ t, findTag "!PART ".toList c = some t → s'.part = some (((words t).take 2).map lower)) ∧
    (findTag "!PART ".toList c = none → s'.part = s.part) ∧
    (∀ t, findTag "!NUMBERING ".toList c = some t → s'.shape ≠ none ∧ s'.numbering = some (((words t).take 2).map lower)) ∧
    (findTag "!NUMBERING ".toList c = none → s'.numbering = s.numbering) := by
  rw [special1_eq] at h
  generalize findTag "!PORTS ".toList c = p at h
  generalize findTag "!MARKERS ".toList c = m at h
  generalize findTag "!SHAPE ".toList (upper c) = sh at h
  generalize findTag "!PART ".toList c = pa at h
  generalize findTag "!NUMBERING ".toList c = nu at h
  have hp : ∃ x, setPorts s p = { s with ports := x } ∧ (∀ t, p = some t → x = some ((pieces (· = ',') t).map strip)) ∧ (p = none → x = s.ports) := by
    cases p with
    | none => exact ⟨s.ports, rfl, by simp, fun _ => rfl⟩
    | some t => exact ⟨_, rfl, by rintro t' ⟨⟩; rfl, by simp⟩
  obtain ⟨px, hp0, hp1, hp2⟩ := hp
  rw [hp0] at h
  cases h2 : setMarkers io { s with ports := px } m with
  | error e => rw [h2] at h; cases h
  | ok s2 =>
    rw [h2] at h
    simp only [Except.bind] at h
    have hm2 : ∃ x, s2 = { s with ports := px, markers := x } ∧ (∀ t, m = some t → ∃ y, x = some y ∧ Numbers io t y) ∧
        (m = none → x = s.markers) := by
      cases m with
      | none =>
        injection h2 with h2
        subst h2
        exact ⟨s.markers, rfl, by simp, fun _ => rfl⟩
      | some t =>
        unfold setMarkers at h2
        simp only at h2
        cases hw : mapE io.get (words t) with
        | error e => rw [hw] at h2; cases h2
        | ok l =>
          rw [hw] at h2
          injection h2 with h2
          refine ⟨some l, h2.symm, ?_, by simp⟩
          intro t' ht
          injection ht with ht
          subst ht
          refine ⟨l, rfl, ?_⟩
          rw [mapE_eq_ok] at hw
          refine hw.imp fun w x hx => ?_
          unfold NumIO.get at hx
          split at hx
          · injection hx with hx; subst hx; assumption
          · cases hx
    obtain ⟨mx, rfl, hm3, hm4⟩ := hm2
    cases h3 : setShape io { s with ports := px, markers := mx } sh with
    | error e => rw [h3] at h; cases h
    | ok s3 =>
      rw [h3] at h
      simp only at h
      have hs3 : ∃ x, s3 = { s with ports := px, markers := mx, shape := x } ∧ (∀ t, sh = some t → ∃ y, x = some y ∧
          List.Forall₂ (fun w i => io.int w = some i) ((words t).take 2) y ∧ y.length ≠ 1) ∧ (sh = none → x = s.shape) := by
        cases sh with
        | none =>
          injection h3 with h3
          subst h3
          exact ⟨s.shape, rfl, by simp, fun _ => rfl⟩
        | some t =>
          unfold setShape at h3
          simp only at h3
          cases hw : mapE io.getInt ((words t).take 2) with
          | error e => rw [hw] at h3; cases h3
          | ok l =>
            rw [hw] at h3
            simp only at h3
            split at h3
            · cases h3
            · rename_i hl
              injection h3 with h3
              refine ⟨some l, h3.symm, ?_, by simp⟩
              intro t' ht
              injection ht with ht
              subst ht
              refine ⟨l, rfl, ?_, hl⟩
              rw [mapE_eq_ok] at hw
              refine hw.imp fun w x hx => ?_
              unfold NumIO.getInt at hx
              split at hx
              · injection hx with hx; subst hx; assumption
              · cases hx
      obtain ⟨sx, rfl, hs4, hs5⟩ := hs3
      have hpa : ∃ x, setPart { s with ports := px, markers := mx, shape := sx } pa = { s with ports := px, markers := mx, shape := sx, part := x } ∧
          (∀ t, pa = some t → x = some (((words t).take 2).map lower)) ∧ (pa = none → x = s.part) := by
        cases pa with
        | none => exact ⟨s.part, rfl, by simp, fun _ => rfl⟩
        | some t => exact ⟨_, rfl, by rintro t' ⟨⟩; rfl, by simp⟩
      obtain ⟨ax, ha0, ha1, ha2⟩ := hpa
      rw [ha0] at h
      have fin : ∃ x, s' = ⟨px, mx, sx, ax, x⟩ ∧
          (∀ t, nu = some t → sx ≠ none ∧ x = some (((words t).take 2).map lower)) ∧ (nu = none → x = s.numbering) := by
        cases nu with
        | none =>
          injection h with h
          subst h
          exact ⟨s.numbering, rfl, by simp, fun _ => rfl⟩
        | some t =>
          unfold setNumbering at h
          cases sx with
          | none => cases h
          | some l =>
            cases l with
            | nil => cases h
            | cons i l =>
              injection h with h
              subst h
              refine ⟨some (((words t).take 2).map lower), rfl, ?_, by simp⟩
              intro t' ht
              injection ht with ht
              subst ht
              exact ⟨by simp, rfl⟩
      obtain ⟨x, rfl, hx1, hx2⟩ := fin
      exact ⟨hp1, hp2, hm3, hm4, hs4, hs5, ha1, ha2, hx1, hx2⟩

/-- a part of the result that comments with the tag set, and nothing else -/
theorem specials_field {α : Type} {tag : Text} {g : Text → Text} {φ : Special → Option α} {Q : Text → α → Prop}
    (step : ∀ {s s' : Special} {c : Text}, special1 io s c = .ok s' →
      (∀ t, findTag tag (g c) = some t → ∃ x, φ s' = some x ∧ Q t x) ∧ (findTag tag (g c) = none → φ s' = φ s)) :
    ∀ {cs : List Text} {s s' : Special}, specials io s cs = .ok s' →
      (∀ t, LastSays tag (cs.map g) t → ∃ x, φ s' = some x ∧ Q t x) ∧ (NoneSays tag (cs.map g) → φ s' = φ s) ∧
      ∀ c ∈ cs, ∀ t, Says tag (g c) t → ∃ x, Q t x := by
  intro cs
  induction cs with
  | nil =>
    intro s s' h
    injection h with h
    subst h
    refine ⟨?_, fun _ => rfl, by simp⟩
    rintro t ⟨a, c, b, h, -⟩
    simp at h
  | cons c cs ih =>
    intro s s' h
    rw [specials] at h
    cases h1 : special1 io s c with
    | error e => rw [h1] at h; cases h
    | ok s1 =>
      rw [h1] at h
      simp only at h
      obtain ⟨i1, i2, i3⟩ := ih h
      obtain ⟨k1, k2⟩ := step h1
      refine ⟨?_, ?_, ?_⟩
      · rintro t ⟨a, d, b, he, hd, hb⟩
        cases a with
        | nil =>
          rw [List.map_cons, List.nil_append] at he
          injection he with he1 he2
          subst he1 he2
          obtain ⟨x, hx, hq⟩ := k1 t (((findTag_iff tag (g c)).1 t).2 hd)
          exact ⟨x, (i2 hb).trans hx, hq⟩
        | cons a0 a =>
          rw [List.map_cons, List.cons_append] at he
          injection he with he1 he2
          exact i1 t ⟨a, d, b, he2, hd, hb⟩
      · intro hn
        rw [i2 fun d hd => hn d (by simpa using Or.inr hd), k2 ((findTag_iff tag (g c)).2.2 (hn (g c) (by simp)))]
      · intro d hd t ht
        rcases List.mem_cons.1 hd with rfl | hd
        · obtain ⟨x, -, hq⟩ := k1 t (((findTag_iff tag (g d)).1 t).2 ht)
          exact ⟨x, hq⟩
        · exact i3 d hd t ht

theorem read_specials {lines : List Text} {R : Res} (h : readTSF io kw lines = .ok R) (hd : ∃ l ∈ lines, isData l = true) :
    specials io ⟨none, none, none, none, none⟩ (headComments lines) = .ok R.special := by
  unfold readTSF at h
  cases hr : readLines io RS.start lines with
  | error e => rw [hr] at h; cases h
  | ok st =>
    rw [hr] at h
    obtain ⟨N, flat, o, sp, g, Z, G, isList, u, fs, vals, S, -, -, h3, -, -, -, -, -, -, -, rfl⟩ := finish_all h
    obtain ⟨e1, e2⟩ := comments_all hr rfl hd
    simp only [RS.start, List.nil_append] at e1 e2
    have e3 : st.comments.take st.marker = headComments lines ++ [markerText] := by
      rw [e1, e2]
      have : headComments lines ++ markerText :: tailComments lines = (headComments lines ++ [markerText]) ++ tailComments lines := by simp
      rw [this]
      exact List.take_left' (by simp)
    rw [e3, specials_append] at h3
    cases hs : specials io ⟨none, none, none, none, none⟩ (headComments lines) with
    | error e => rw [hs] at h3; cases h3
    | ok s1 =>
      rw [hs] at h3
      simp only [specials, quiet_marker io s1] at h3
      exact h3

theorem strip_last {l : Text} (h : strip l ≠ []) : isWs ((strip l).getLast h) = false := by
  exact Bool.eq_false_iff.2 (List.rdropWhile_last_not isWs (l.dropWhile isWs) h)

theorem says_words {tag c t l : Text} (hc : c = strip l ∨ c = upper (strip l)) (h : Says tag c t) : words t ≠ [] := by
  obtain ⟨ht, a, e, -⟩ := h
  have hne : c ≠ [] := by rw [e]; simp [ht]
  have hlast : isWs (c.getLast hne) = false := by
    rcases hc with rfl | rfl
    · exact strip_last hne
    · unfold upper at hne ⊢
      have : strip l ≠ [] := by intro h0; rw [h0] at hne; simp at hne
      rw [List.getLast_map (by simpa using hne), toUpper_ws]
      exact strip_last this
  have e2 : c.getLast hne = t.getLast ht := by
    subst e
    rw [List.getLast_append_of_ne_nil _ ht]
  rw [e2] at hlast
  intro hw
  rcases mem_words_or_ws (List.getLast_mem ht) with h | ⟨w, h, -⟩
  · rw [hlast] at h; cases h
  · rw [hw] at h; cases h

theorem shape_two {t l c : Text} (hc : c = upper (strip l)) (hs : Says "!SHAPE ".toList c t) {sh : List ℤ}
    (h : List.Forall₂ (fun w i => io.int w = some i) ((words t).take 2) sh) (hl : sh.length ≠ 1) :
    ∃ v w ws a b, words t = v :: w :: ws ∧ io.int v = some a ∧ io.int w = some b ∧ sh = [a, b] := by
  have hw := says_words (Or.inr hc) hs
  cases h1 : words t with
  | nil => exact absurd h1 hw
  | cons v ws =>
    rw [h1] at h
    cases ws with
    | nil =>
      have := h.length_eq
      exact absurd this.symm (by simpa using hl)
    | cons w ws =>
      simp only [List.take_succ_cons, List.take_zero] at h
      cases h with
      | @cons _ a _ _ ha h =>
        cases h with
        | @cons _ b _ _ hb h =>
          cases h
          exact ⟨v, w, ws, a, b, rfl, ha, hb, rfl⟩

/-- C72: the annotations in the comments before the data are reported: the names after `!PORTS`, the numbers after `!MARKERS`, the two
whole numbers after `!SHAPE` (in upper or lower case), the first two words after `!PART` and after `!NUMBERING` in lower case; the
last comment of each kind counts.  An annotation that is not there is reported as absent. -/
theorem C72_annotations {lines : List Text} {R : Res} (h : readTSF io kw lines = .ok R) (hd : ∃ l ∈ lines, isData l = true) :
    Given "!PORTS ".toList (headComments lines) R.special.ports (fun t ps => ps = (pieces (· = ',') t).map strip) ∧
    Given "!MARKERS ".toList (headComments lines) R.special.markers (Numbers io) ∧
    Given "!SHAPE ".toList ((headComments lines).map upper) R.special.shape
      (fun t sh => ∃ v w ws a b, words t = v :: w :: ws ∧ io.int v = some a ∧ io.int w = some b ∧ sh = [a, b]) ∧
    Given "!PART ".toList (headComments lines) R.special.part (fun t p => p = ((words t).take 2).map lower) ∧
    Given "!NUMBERING ".toList (headComments lines) R.special.numbering (fun t p => p = ((words t).take 2).map lower) := by
  have hs := read_specials h hd
  have f1 := specials_field (io := io) (tag := "!PORTS ".toList) (g := id) (φ := Special.ports) (Q := fun t ps => ps = (pieces (· = ',') t).map strip)
    (fun {s s' c} h => ⟨fun t ht => ⟨_, (special1_ok h).1 t ht, rfl⟩, (special1_ok h).2.1⟩) hs
  have f2 := specials_field (io := io) (tag := "!MARKERS ".toList) (g := id) (φ := Special.markers) (Q := Numbers io)
    (fun {s s' c} h => ⟨(special1_ok h).2.2.1, (special1_ok h).2.2.2.1⟩) hs
  have f3 := specials_field (io := io) (tag := "!SHAPE ".toList) (g := upper) (φ := Special.shape)
    (Q := fun t sh => List.Forall₂ (fun w i => io.int w = some i) ((words t).take 2) sh ∧ sh.length ≠ 1)
    (fun {s s' c} h => ⟨(special1_ok h).2.2.2.2.1, (special1_ok h).2.2.2.2.2.1⟩) hs
  have f4 := specials_field (io := io) (tag := "!PART ".toList) (g := id) (φ := Special.part) (Q := fun t p => p = ((words t).take 2).map lower)
    (fun {s s' c} h => ⟨fun t ht => ⟨_, (special1_ok h).2.2.2.2.2.2.1 t ht, rfl⟩, (special1_ok h).2.2.2.2.2.2.2.1⟩) hs
  have f5 := specials_field (io := io) (tag := "!NUMBERING ".toList) (g := id) (φ := Special.numbering) (Q := fun t p => p = ((words t).take 2).map lower)
    (fun {s s' c} h => ⟨fun t ht => ⟨_, ((special1_ok h).2.2.2.2.2.2.2.2.1 t ht).2, rfl⟩, (special1_ok h).2.2.2.2.2.2.2.2.2⟩) hs
  rw [List.map_id] at f1 f2 f4 f5
  refine ⟨⟨f1.1, f1.2.1⟩, ⟨f2.1, f2.2.1⟩, ⟨?_, f3.2.1⟩, ⟨f4.1, f4.2.1⟩, ⟨f5.1, f5.2.1⟩⟩
  intro t ht
  obtain ⟨sh, h1, h2, h3⟩ := f3.1 t ht
  refine ⟨sh, h1, ?_⟩
  obtain ⟨a, c, b, he, hc, -⟩ := ht
  have hm : c ∈ (headComments lines).map upper := by rw [he]; simp
  obtain ⟨c', hc', rfl⟩ := List.mem_map.1 hm
  obtain ⟨-, l, rfl⟩ := mem_commentsOf hc'
  exact shape_two rfl hc h2 h3

/-- VIOLATION: a comment before the data that contains `!SHAPE` (upper or lower case, anywhere in it) and then fewer than two words, or
anything but whole numbers, makes the file unreadable; so does `!MARKERS` followed by anything that is not a number -/
theorem C72_bad_annotation {lines : List Text} (hd : ∃ l ∈ lines, isData l = true) {c t : Text} (hc : c ∈ headComments lines)
    (hbad : (Says "!SHAPE ".toList (upper c) t ∧ ∀ v w ws, words t = v :: w :: ws → io.int v = none ∨ io.int w = none) ∨
      (Says "!MARKERS ".toList c t ∧ ∃ w ∈ words t, io.float w = none)) :
    ∃ e, readTSF io kw lines = .error e := by
  cases h : readTSF io kw lines with
  | error e => exact ⟨e, rfl⟩
  | ok R =>
    exfalso
    have hs := read_specials h hd
    rcases hbad with ⟨h1, h2⟩ | ⟨h1, w, hw, h2⟩
    · have f3 := specials_field (io := io) (tag := "!SHAPE ".toList) (g := upper) (φ := Special.shape)
        (Q := fun t sh => List.Forall₂ (fun w i => io.int w = some i) ((words t).take 2) sh ∧ sh.length ≠ 1)
        (fun {s s' c} h => ⟨(special1_ok h).2.2.2.2.1, (special1_ok h).2.2.2.2.2.1⟩) hs
      obtain ⟨sh, k1, k2⟩ := f3.2.2 c hc t h1
      obtain ⟨-, l, rfl⟩ := mem_commentsOf hc
      obtain ⟨v, w, ws, a, b, e, ha, hb, -⟩ := shape_two rfl h1 k1 k2
      rcases h2 v w ws e with h | h
      · rw [h] at ha; cases ha
      · rw [h] at hb; cases hb
    · have f2 := specials_field (io := io) (tag := "!MARKERS ".toList) (g := id) (φ := Special.markers) (Q := Numbers io)
        (fun {s s' c} h => ⟨(special1_ok h).2.2.1, (special1_ok h).2.2.2.1⟩) hs
      obtain ⟨m, k⟩ := f2.2.2 c hc t h1
      obtain ⟨x, -, hx⟩ := forall2_mem k hw
      rw [h2] at hx
      cases hx

theorem shape_stays {cs : List Text} : ∀ {s s' : Special}, specials io s cs = .ok s' → NoneSays "!SHAPE ".toList (cs.map upper) → s'.shape = s.shape := by
  intro s s' h
  exact (specials_field (io := io) (tag := "!SHAPE ".toList) (g := upper) (φ := Special.shape)
    (Q := fun t sh => List.Forall₂ (fun w i => io.int w = some i) ((words t).take 2) sh ∧ sh.length ≠ 1)
    (fun {s s' c} h => ⟨(special1_ok h).2.2.2.2.1, (special1_ok h).2.2.2.2.2.1⟩) h).2.1

/-- VIOLATION: `!NUMBERING` is accepted only after (or together with) a `!SHAPE` comment; without one the file is unreadable -/
theorem C72_numbering_needs_shape {lines : List Text} (hd : ∃ l ∈ lines, isData l = true) {a b : List Text} {c t : Text}
    (hc : headComments lines = a ++ c :: b) (hn : Says "!NUMBERING ".toList c t) (hs : NoneSays "!SHAPE ".toList ((a ++ [c]).map upper)) :
    ∃ e, readTSF io kw lines = .error e := by
  cases h : readTSF io kw lines with
  | error e => exact ⟨e, rfl⟩
  | ok R =>
    exfalso
    have hr := read_specials h hd
    rw [hc, specials_append] at hr
    cases ha : specials io ⟨none, none, none, none, none⟩ a with
    | error e => rw [ha] at hr; cases hr
    | ok s1 =>
      rw [ha] at hr
      simp only [specials] at hr
      have e1 := shape_stays ha fun d hd' => hs d (by rw [List.map_append]; exact List.mem_append_left _ hd')
      cases h1 : special1 io s1 c with
      | error e => rw [h1] at hr; cases hr
      | ok s2 =>
        have k := special1_ok h1
        have e2 := k.2.2.2.2.2.1 ((findTag_iff _ _).2.2 (hs (upper c) (by simp)))
        have e3 := (k.2.2.2.2.2.2.2.2.1 t (((findTag_iff _ _).1 t).2 hn)).1
        rw [e2, e1] at e3
        exact e3 rfl

/-- C72: only the comments before the data count for the annotations -/
theorem C72_only_header {io : NumIO} {kw kw' : Kw} {lines lines' : List Text} {R R' : Res} (h : readTSF io kw lines = .ok R)
    (h' : readTSF io kw' lines' = .ok R') (hd : ∃ l ∈ lines, isData l = true) (hd' : ∃ l ∈ lines', isData l = true)
    (he : headComments lines = headComments lines') : R.special = R'.special := by
  have h1 := read_specials h hd
  rw [he, read_specials h' hd'] at h1
  injection h1 with h1
  exact h1.symm

/-! ## A file -/

/-- numbers 0 and 1, also as whole numbers -/
noncomputable def io01i : NumIO := ⟨io01.float, fun w => if w = ['0'] then some 0 else if w = ['1'] then some 1 else none⟩

def varLines : List Text :=
  ["! touchstone file exported from HFSS 2021.1.0".toList, "! Variables:".toList, "! $a = 1mm".toList, "! in mm".toList, "!b=x y ".toList,
    "! $a=2mm".toList, "!".toList, " !MARKERS 1 0".toList, "!shape 1 0 7".toList, "!PART Left".toList, "!NUMBERING LR UD".toList,
    "!PORTS p".toList, "# Z RI R".toList, "1 0 0".toList, "!PORTS q".toList]

def varHead : List Text :=
  ["! touchstone file exported from HFSS 2021.1.0".toList, "! Variables:".toList, "! $a = 1mm".toList, "! in mm".toList, "!b=x y".toList,
    "! $a=2mm".toList, "!".toList, "!MARKERS 1 0".toList, "!shape 1 0 7".toList, "!PART Left".toList, "!NUMBERING LR UD".toList,
    "!PORTS p".toList]

noncomputable def varSpecial : Special :=
  ⟨some ["p".toList], some [some 1, some 0], some [1, 0], some ["left".toList], some ["lr".toList, "ud".toList]⟩

theorem varSpecials : specials io01i ⟨none, none, none, none, none⟩ (varHead ++ [markerText]) = .ok varSpecial := by
  rfl

theorem varRead : readLines io01i RS.start varLines =
      .ok ⟨varHead ++ [markerText, "!PORTS q".toList], [some 1], [(some 0, some 0)], [], 13, some "# Z RI R".toList⟩ := by
  rfl

/-- a short circuit at 1 GHz with any comments -/
theorem finish_short {cs : List Text} {m : ℕ} {sp : Special} (hne : cs ≠ [])
    (hs : specials io01i ⟨none, none, none, none, none⟩ (cs.take m) = .ok sp) (hg : glines io01i GS.start (cs.drop m) = .ok GS.start) :
    ∃ R, finish io01i ⟨none, ['G', 'H', 'Z'], .absent⟩ ⟨cs, [some 1], [(some 0, some 0)], [], m, some "# Z RI R".toList⟩ = .ok R ∧ R.special = sp := by
  have r4 : words (upper " Z RI R".toList) = [['Z'], ['R', 'I'], ['R']] := by decide
  have k1 : kindOf ['Z'] = some .Z := by decide
  have k2 : kindOf ['R', 'I'] = none := by decide
  have k3 : fmtOf ['R', 'I'] = some .RI := by decide
  have k4 : kindOf ['R'] = none := by decide
  have k5 : fmtOf ['R'] = none := by decide
  have k6 : unitOf ['R'] = none := by decide
  have u1 : unitOf (upper ['G', 'H', 'Z']) = some .GHZ := by decide
  have hopt : options io01i none (some "# Z RI R".toList) = .ok ⟨.Z, .RI, .GHZ, some (.one 50), some []⟩ := by
    have e : "# Z RI R".toList.tail = " Z RI R".toList := by decide
    unfold options
    simp only [e, r4]
    simp [parseOpts, k1, k2, k3, k4, k5, k6, refOf, Opts.start]
  have hdet : npInv ((matOf 1 [(0 : ℂ)]) + (50 : ℂ) • (1 : Matrix (Fin 1) (Fin 1) ℂ)) = .ok ((1 / 50 : ℂ) • 1) := by
    apply npInv_of_mul_eq_one
    ext i j
    fin_cases i
    fin_cases j
    simp [matOf, Matrix.mul_apply]
  have hrs : reshape ⟨cs, [some 1], [(some 0, some 0)], [], m, some "# Z RI R".toList⟩ = .ok (1, [(some 0, some 0)]) := by
    simp [reshape, nearSqrt]
  have h0 : (⟨0, 0⟩ : ℂ) = 0 := rfl
  refine ⟨⟨portNames 1 .absent sp.ports, [1], .GHZ, .d3 1 1 [(matOf 1 [0] - (50 : ℂ) • 1) * ((1 / 50 : ℂ) • 1)], none, sp, [], [], .RI⟩, ?_, rfl⟩
  simp only [finish, hrs, hopt, bind, Except.bind, hs, hne, if_false, hg, u1]
  simp [tables, GS.start, mapE, finite, decode, h0, stackOf, toS, sFromZRef, sFromZ, overStack, check3D, sFromZ1, hdet, Except.map,
    unstack, FUnit.hz]

/-- the file is read; its variables and annotations are those of the theorems -/
theorem C72_witness : (∃ R, readAll io01i ⟨none, ['G', 'H', 'Z'], .absent⟩ varLines = .ok (R, [("$a".toList, "2mm".toList), ("b".toList, "x y".toList)]) ∧
      R.special = varSpecial) ∧ (∃ l ∈ varLines, isData l = true) ∧
    ∃ c cs, headComments varLines = c :: cs ∧ Banner c ∧
      Tables cs [("$a".toList, "1mm".toList), ("b".toList, "x y".toList), ("$a".toList, "2mm".toList)] := by
  refine ⟨?_, ⟨"1 0 0".toList, by decide, by decide⟩, ?_⟩
  · obtain ⟨R, hR, hs⟩ := finish_short (cs := varHead ++ [markerText, "!PORTS q".toList]) (m := 13) (sp := varSpecial) (by simp) varSpecials rfl
    refine ⟨R, ?_, hs⟩
    have hv : varsOf (varHead ++ [markerText, "!PORTS q".toList]) 13 = [("$a".toList, "2mm".toList), ("b".toList, "x y".toList)] := by decide
    unfold readAll
    rw [varRead]
    simp only [hR, hv]
  · refine ⟨_, _, (by decide : headComments varLines = "! touchstone file exported from HFSS 2021.1.0".toList :: varHead.tail), ?_, ?_⟩
    · exact (isHfss_iff _).1 (by decide)
    · have e : varHead.tail = "! Variables:".toList :: ["! $a = 1mm".toList, "! in mm".toList, "!b=x y".toList, "! $a=2mm".toList] ++
          ['!'] :: ["!MARKERS 1 0".toList, "!shape 1 0 7".toList, "!PART Left".toList, "!NUMBERING LR UD".toList, "!PORTS p".toList] := by decide
      rw [e]
      have h1 : Entries ["! $a = 1mm".toList, "! in mm".toList, "!b=x y".toList, "! $a=2mm".toList]
          [("$a".toList, "1mm".toList), ("b".toList, "x y".toList), ("$a".toList, "2mm".toList)] := by
        refine .entry (((findEntry_iff _).1 _ _).1 (by decide)) (.other ((findEntry_iff _).2.1 (by decide)) (by decide)
          (.entry (((findEntry_iff _).1 _ _).1 (by decide)) (.entry (((findEntry_iff _).1 _ _).1 (by decide)) .nil)))
      have h2 : Tables ["!MARKERS 1 0".toList, "!shape 1 0 7".toList, "!PART Left".toList, "!NUMBERING LR UD".toList, "!PORTS p".toList] [] :=
        .other (by decide) (.other (by decide) (.other (by decide) (.other (by decide) (.other (by decide) .nil))))
      exact Tables.table (es' := []) (by decide) h1 h2

/-- the annotations of the file in the words of the theorem -/
theorem C72_annotations_witness : LastSays "!MARKERS ".toList (headComments varLines) "1 0".toList ∧
    LastSays "!SHAPE ".toList ((headComments varLines).map upper) "1 0 7".toList := by
  have e : headComments varLines = varHead := by decide
  rw [e]
  refine ⟨⟨varHead.take 7, "!MARKERS 1 0".toList, varHead.drop 8, by decide, ((findTag_iff _ _).1 _).1 (by decide), ?_⟩,
    ⟨(varHead.take 8).map upper, "!SHAPE 1 0 7".toList, (varHead.drop 9).map upper, by decide, ((findTag_iff _ _).1 _).1 (by decide), ?_⟩⟩
  · have : ∀ d ∈ varHead.drop 8, findTag "!MARKERS ".toList d = none := by decide
    exact fun d hd => (findTag_iff _ _).2.1 (this d hd)
  · have : ∀ d ∈ (varHead.drop 9).map upper, findTag "!SHAPE ".toList d = none := by decide
    exact fun d hd => (findTag_iff _ _).2.1 (this d hd)

/-- files with the faults of the violations -/
theorem C72_violation_witness :
    (∃ e, readTSF io01i ⟨none, ['G', 'H', 'Z'], .absent⟩ ["! the !shape 1".toList, "# Z RI R".toList, "1 0 0".toList] = .error e) ∧
    (∃ e, readTSF io01i ⟨none, ['G', 'H', 'Z'], .absent⟩ ["!NUMBERING lr".toList, "# Z RI R".toList, "1 0 0".toList] = .error e) := by
  constructor
  · refine C72_bad_annotation (c := "! the !shape 1".toList) (t := "1".toList) ⟨"1 0 0".toList, by decide, by decide⟩ (by decide)
      (Or.inl ⟨((findTag_iff _ _).1 _).1 (by decide), ?_⟩)
    intro v w ws h
    have : words "1".toList = [['1']] := by decide
    rw [this] at h
    simp at h
  · refine C72_numbering_needs_shape (a := []) (b := []) (c := "!NUMBERING lr".toList) (t := "lr".toList) ⟨"1 0 0".toList, by decide, by decide⟩
      (by decide) (((findTag_iff _ _).1 _).1 (by decide)) ?_
    have : ∀ d ∈ (["!NUMBERING lr".toList] : List Text).map upper, findTag "!SHAPE ".toList d = none := by decide
    exact fun d hd => (findTag_iff _ _).2.1 (this d hd)

/-- a table of variables that is not closed, and a remark after the data -/
def openLines : List Text :=
  ["! Touchstone file exported from HFSS 2021.1.0".toList, "! Variables:".toList, "! a = 1mm".toList, "# Z RI R".toList, "1 0 0".toList,
    "! a = 3 is not what was used".toList]

theorem C72_unclosed_witness : (∃ R, readAll io01i ⟨none, ['G', 'H', 'Z'], .absent⟩ openLines = .ok (R, [("a".toList, "3 is not what was used".toList)])) ∧
    tailComments openLines = ["! a = 3 is not what was used".toList] ∧ Entries ["! a = 3 is not what was used".toList] [("a".toList, "3 is not what was used".toList)] := by
  refine ⟨?_, by decide, .entry (((findEntry_iff _).1 _ _).1 (by decide)) .nil⟩
  have hr : readLines io01i RS.start openLines = .ok ⟨["! Touchstone file exported from HFSS 2021.1.0".toList, "! Variables:".toList, "! a = 1mm".toList,
      markerText, "! a = 3 is not what was used".toList], [some 1], [(some 0, some 0)], [], 4, some "# Z RI R".toList⟩ := by rfl
  obtain ⟨R, hR, -⟩ := finish_short (cs := ["! Touchstone file exported from HFSS 2021.1.0".toList, "! Variables:".toList, "! a = 1mm".toList,
      markerText, "! a = 3 is not what was used".toList]) (m := 4) (sp := ⟨none, none, none, none, none⟩) (by simp) rfl rfl
  refine ⟨R, ?_⟩
  have hv : varsOf ["! Touchstone file exported from HFSS 2021.1.0".toList, "! Variables:".toList, "! a = 1mm".toList,
      markerText, "! a = 3 is not what was used".toList] 4 = [("a".toList, "3 is not what was used".toList)] := by decide
  unfold readAll
  rw [hr]
  simp only [hR, hv]

end PyRFtk.TSF
