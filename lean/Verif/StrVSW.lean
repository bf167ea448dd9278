import Verif.PrintM

/-!
# C78: the text of a table of voltages (`strVSW`)

plotVSWs.py:223-248.  A table is a dictionary of dictionaries ... of pairs (positions, voltages), as `maxV` returns it.
-/

namespace PyRFtk.StrVSW

open PyRFtk.PrintM

/-! ## Model -/

mutual
/-- a value of the table, as `strVSW` distinguishes them (plotVSWs.py:227-247) -/
inductive Tree
  | dict (f : Forest)
  /-- a tuple of two sequences: positions (numbers or `None`) and voltages -/
  | seqs (xs : List (Option ℝ)) (ys : List ℂ)
  /-- a tuple of two values that are not sequences -/
  | nums (x : Option ℝ) (y : ℂ)
  /-- a tuple of a sequence and a value that is not one -/
  | mixed
  /-- anything else (a number, a list), with the text of its type -/
  | other (type : Text)
/-- the items of a dictionary, in order -/
inductive Forest
  | nil
  | cons (key : Text) (val : Tree) (rest : Forest)
end

/-- `" "*n` -/
def blanks (n : ℕ) : Text := List.replicate n ' '

/-- a position, `{np.abs(x):10.3f}` (234) or, for `None`, `{" < None > ":10s}` (237) -/
noncomputable def posText : Option ℝ → Text
  | some x => fix 10 3 false |x|
  | none => " < None > ".toList

/-- the line of the point number `k` (234, 237) -/
noncomputable def entryLine (d k : ℕ) (x : Option ℝ) (y : ℂ) : Text :=
  blanks (d + 2) ++ (padLeft 5 (dec k) ++ ':' :: (posText x ++ ',' :: fix 10 3 false ‖y‖))

/-- the line of a pair of numbers (243) -/
noncomputable def nodeLine (d : ℕ) (x : ℝ) (y : ℂ) : Text :=
  blanks (d + 2) ++ ("node ".toList ++ ':' :: (fix 10 3 false |x| ++ ',' :: fix 10 3 false ‖y‖))

mutual
/-- what is appended for one value, 227-247; `d` is `indent` -/
noncomputable def strT (d : ℕ) : Tree → Except Err Text
  | .dict f => strF (d + 1) f                                                                             -- 228
  | .seqs xs ys => .ok (if xs.length = ys.length                                                          -- 231
      then ((xs.zip ys).zipIdx 1).flatMap fun e => entryLine d e.2 e.1.1 e.1.2 ++ ['\n']                  -- 232-237
      else "! unequal array/list lengths x:".toList ++ dec xs.length ++ " <> y:".toList ++ dec xs.length ++ ['\n'])   -- 241: len(val[0]) twice
  | .nums (some x) y => .ok (nodeLine d x y ++ ['\n'])                                                    -- 243
  | .nums none _ => .error .typeError                                                                     -- 243: np.abs(None)
  | .mixed => .ok "! tuple error ...\n".toList                                                            -- 245
  | .other ty => .ok ("! unexpected value type ".toList ++ ty ++ " expected tuple\n".toList)              -- 247
/-- `strVSW(VSW, indent)`, plotVSWs.py:223-248; keys are texts -/
noncomputable def strF (d : ℕ) : Forest → Except Err Text
  | .nil => .ok []
  | .cons k v r => match strT d v with                                                                    -- 226
    | .error e => .error e
    | .ok t => match strF d r with
      | .error e => .error e
      | .ok t' => .ok (blanks d ++ k ++ '\n' :: (t ++ t'))
end

/-! ## Specification -/

/-- the distance from zero in thousandths, rounded to the nearest whole number -/
noncomputable def thousandths (a : ℝ) : ℕ := roundEven (a * 10 ^ 3)

mutual
/-- what can be read from the text of a value -/
inductive Shown
  | dict (f : ShownF)
  /-- the points of a pair of sequences -/
  | points (l : List (Option ℕ × ℕ))
  /-- a pair of numbers -/
  | node (x y : ℕ)
  | nothing
/-- what can be read from the text of a dictionary -/
inductive ShownF
  | nil
  | cons (key : Text) (val : Shown) (rest : ShownF)
end

/-- what can be read of a point -/
noncomputable def shownP (e : Option ℝ × ℂ) : Option ℕ × ℕ := (e.1.map fun x => thousandths |x|, thousandths ‖e.2‖)

mutual
/-- keys as they are; distances of positions from zero and moduli of voltages in thousandths -/
noncomputable def shown : Tree → Shown
  | .dict f => .dict (shownF f)
  | .seqs xs ys => .points ((xs.zip ys).map shownP)
  | .nums (some x) y => .node (thousandths |x|) (thousandths ‖y‖)
  | _ => .nothing
/-- the same for the items -/
noncomputable def shownF : Forest → ShownF
  | .nil => .nil
  | .cons k v r => .cons k (shown v) (shownF r)
end

mutual
/-- a table as `maxV` makes them: dictionaries and pairs with as many voltages as positions, at least one; keys have no newline and do not begin
with a blank -/
def Wf : Tree → Prop
  | .dict f => WfF f
  | .seqs xs ys => xs.length = ys.length ∧ xs ≠ []
  | .nums x _ => x ≠ none
  | _ => False
/-- the same for the items -/
def WfF : Forest → Prop
  | .nil => True
  | .cons k v r => ('\n' ∉ k ∧ k.head? ≠ some ' ') ∧ Wf v ∧ WfF r
end

mutual
/-- the table with every position mirrored at zero -/
def mirror : Tree → Tree
  | .dict f => .dict (mirrorF f)
  | .seqs xs ys => .seqs (xs.map fun x => x.map fun r => -r) ys
  | .nums x y => .nums (x.map fun r => -r) y
  | .mixed => .mixed
  | .other t => .other t
/-- the same for the items -/
def mirrorF : Forest → Forest
  | .nil => .nil
  | .cons k v r => .cons k (mirror v) (mirrorF r)
end

mutual
/-- somewhere in the value stands a pair of numbers whose position is `None` -/
def Lost : Tree → Prop
  | .dict f => LostF f
  | .nums x _ => x = none
  | _ => False
/-- the same for the items -/
def LostF : Forest → Prop
  | .nil => False
  | .cons _ v r => Lost v ∨ LostF r
end

/-! ## lines -/

mutual
/-- the lines of a value -/
noncomputable def lnT (d : ℕ) : Tree → List Text
  | .dict f => lnF (d + 1) f
  | .seqs xs ys => ((xs.zip ys).zipIdx 1).map fun e => entryLine d e.2 e.1.1 e.1.2
  | .nums (some x) y => [nodeLine d x y]
  | _ => []
/-- the lines of the items -/
noncomputable def lnF (d : ℕ) : Forest → List Text
  | .nil => []
  | .cons k v r => (blanks d ++ k) :: (lnT d v ++ lnF d r)
end

/-- lines joined -/
def joined (l : List Text) : Text := l.flatMap (· ++ ['\n'])

mutual
theorem strT_ok : ∀ (d : ℕ) (v : Tree), Wf v → strT d v = .ok (joined (lnT d v))
  | d, .dict f, h => by rw [strT, lnT, strF_ok (d + 1) f h]
  | d, .seqs xs ys, h => by
    rw [strT, if_pos h.1, lnT, joined, List.flatMap_map]
  | d, .nums (some x) y, _ => by rw [strT, lnT, joined]; simp
  | _, .nums none _, h => absurd rfl h
  | _, .mixed, h => h.elim
  | _, .other _, h => h.elim
theorem strF_ok : ∀ (d : ℕ) (f : Forest), WfF f → strF d f = .ok (joined (lnF d f))
  | d, .nil, _ => by rw [strF, lnF]; rfl
  | d, .cons k v r, h => by
    rw [strF, strT_ok d v h.2.1]
    simp only
    rw [strF_ok d r h.2.2, lnF]
    simp [joined]
end

theorem lines_joined : ∀ (l : List Text), (∀ t ∈ l, '\n' ∉ t) → lines (joined l) = l ++ [[]]
  | [], _ => rfl
  | t :: l, h => by
    have : joined (t :: l) = t ++ '\n' :: joined l := by simp [joined]
    rw [this, lines_cons t (h t (by simp)), lines_joined l fun s hs => h s (by simp [hs])]
    rfl

theorem joined_inj {l l' : List Text} (h : ∀ t ∈ l, '\n' ∉ t) (h' : ∀ t ∈ l', '\n' ∉ t) (e : joined l = joined l') : l = l' := by
  have := congrArg lines e
  rw [lines_joined l h, lines_joined l' h'] at this
  exact List.append_cancel_right this

theorem fix_chars {w d : ℕ} {a : ℝ} (ha : 0 ≤ a) {c : Char} (h : c ∈ fix w d false a) : c = ' ' ∨ c.isDigit = true ∨ c = '.' := by
  unfold fix padLeft at h
  rw [if_neg (not_lt.2 ha)] at h
  simp only [Bool.false_eq_true, if_false, List.nil_append, List.mem_append, List.mem_replicate, List.mem_singleton] at h
  rcases h with h | (h | h) | h
  · exact Or.inl h.2
  · exact Or.inr (Or.inl (dec_digit h))
  · exact Or.inr (Or.inr h)
  · exact Or.inr (Or.inl (fracN_digit h))

theorem not_mem_fix {w d : ℕ} {a : ℝ} (ha : 0 ≤ a) {c : Char} (h1 : c ≠ ' ') (h2 : c.isDigit = false) (h3 : c ≠ '.') : c ∉ fix w d false a := by
  intro h
  rcases fix_chars ha h with h | h | h
  · exact h1 h
  · rw [h2] at h; cases h
  · exact h3 h

/-- the number of digits written gives the rounded value back -/
theorem fix_value {w d : ℕ} {a : ℝ} (ha : 0 ≤ a) : value ((fix w d false a).filter Char.isDigit) = roundEven (a * 10 ^ d) := by
  unfold fix padLeft
  rw [if_neg (not_lt.2 ha), abs_of_nonneg ha]
  generalize roundEven (a * 10 ^ d) = n
  have hb : ∀ k, (List.replicate k ' ').filter Char.isDigit = [] := by
    intro k
    rw [List.filter_eq_nil_iff]
    intro c hc
    rw [List.mem_replicate] at hc
    rw [hc.2]; decide
  have hd : (dec (n / 10 ^ d)).filter Char.isDigit = dec (n / 10 ^ d) := List.filter_eq_self.2 fun c hc => dec_digit hc
  have hf : (fracN d (n % 10 ^ d)).filter Char.isDigit = fracN d (n % 10 ^ d) := List.filter_eq_self.2 fun c hc => fracN_digit hc
  simp only [Bool.false_eq_true, if_false, List.nil_append, List.filter_append, hb, hd, hf]
  have : List.filter Char.isDigit ['.'] = [] := by decide
  rw [this, List.append_nil, value_append, value_dec, value_fracN (Nat.mod_lt _ (by positivity)), fracN_length]
  exact Nat.div_add_mod' n (10 ^ d)

theorem fix_congr {w d : ℕ} {a b : ℝ} (ha : 0 ≤ a) (hb : 0 ≤ b) : fix w d false a = fix w d false b ↔ roundEven (a * 10 ^ d) = roundEven (b * 10 ^ d) := by
  constructor
  · intro h
    rw [← fix_value (w := w) ha, h, fix_value hb]
  · intro h
    unfold fix
    rw [if_neg (not_lt.2 ha), if_neg (not_lt.2 hb), abs_of_nonneg ha, abs_of_nonneg hb, h]

theorem split_at {c : Char} : ∀ {a a' b b' : Text}, c ∉ a → c ∉ a' → a ++ c :: b = a' ++ c :: b' → a = a' ∧ b = b'
  | [], [], _, _, _, _, h => by simpa using h
  | [], x :: a', _, _, _, h', h => by
    simp only [List.nil_append, List.cons_append, List.cons.injEq] at h
    exact absurd (h.1 ▸ List.mem_cons_self) h'
  | x :: a, [], _, _, h', _, h => by
    simp only [List.nil_append, List.cons_append, List.cons.injEq] at h
    exact absurd (h.1 ▸ List.mem_cons_self) h'
  | x :: a, y :: a', _, _, h1, h2, h => by
    simp only [List.cons_append, List.cons.injEq] at h
    obtain ⟨rfl, h⟩ := h
    obtain ⟨rfl, rfl⟩ := split_at (fun e => h1 (by simp [e])) (fun e => h2 (by simp [e])) h
    exact ⟨rfl, rfl⟩

theorem posText_chars {x : Option ℝ} {c : Char} (h1 : c ∉ " < None > ".toList) (h2 : c.isDigit = false) (h3 : c ≠ '.') : c ∉ posText x := by
  cases x with
  | none => exact h1
  | some x => exact not_mem_fix (abs_nonneg x) (fun e => h1 (by rw [e]; decide)) h2 h3

theorem posText_congr {x x' : Option ℝ} : posText x = posText x' ↔ (x.map fun r => thousandths |r|) = x'.map fun r => thousandths |r| := by
  have hlt : ∀ r : ℝ, " < None > ".toList ≠ fix 10 3 false |r| := fun r h =>
    not_mem_fix (w := 10) (d := 3) (abs_nonneg r) (c := '<') (by decide) (by decide) (by decide) (h ▸ by decide)
  have p0 : posText none = " < None > ".toList := rfl
  have p1 : ∀ r, posText (some r) = fix 10 3 false |r| := fun r => rfl
  generalize " < None > ".toList = none0 at hlt p0
  cases x with
  | none =>
    cases x' with
    | none => exact ⟨fun _ => rfl, fun _ => rfl⟩
    | some r =>
      rw [p0, p1]
      exact ⟨fun h => absurd h (hlt r), fun h => by cases h⟩
  | some r =>
    cases x' with
    | none =>
      rw [p0, p1]
      exact ⟨fun h => absurd h.symm (hlt r), fun h => by cases h⟩
    | some r' =>
      rw [p1, p1, fix_congr (abs_nonneg r) (abs_nonneg r')]
      simp only [Option.map_some, Option.some.injEq, thousandths]

theorem dec_padded {k : ℕ} {c : Char} (h : c ∈ padLeft 5 (dec k)) : c = ' ' ∨ c.isDigit = true := by
  unfold padLeft at h
  rw [List.mem_append, List.mem_replicate] at h
  exact h.imp (·.2) dec_digit

theorem colon_dec (k : ℕ) : ':' ∉ padLeft 5 (dec k) := fun h => by
  rcases dec_padded h with h | h
  · revert h; decide
  · revert h; decide

theorem entry_congr {d k : ℕ} {e e' : Option ℝ × ℂ} : entryLine d k e.1 e.2 = entryLine d k e'.1 e'.2 ↔ shownP e = shownP e' := by
  unfold entryLine shownP
  rw [Prod.mk.injEq, ← posText_congr]
  unfold thousandths
  rw [← fix_congr (w := 10) (norm_nonneg e.2) (norm_nonneg e'.2)]
  constructor
  · intro h
    have h1 := (split_at (colon_dec k) (colon_dec k) (List.append_cancel_left h)).2
    exact split_at (posText_chars (by decide) (by decide) (by decide)) (posText_chars (by decide) (by decide) (by decide)) h1
  · rintro ⟨h1, h2⟩
    rw [h1, h2]

theorem node_congr {d : ℕ} {x x' : ℝ} {y y' : ℂ} : nodeLine d x y = nodeLine d x' y' ↔
    thousandths |x| = thousandths |x'| ∧ thousandths ‖y‖ = thousandths ‖y'‖ := by
  unfold nodeLine thousandths
  rw [← fix_congr (w := 10) (abs_nonneg x) (abs_nonneg x'), ← fix_congr (w := 10) (norm_nonneg y) (norm_nonneg y')]
  constructor
  · intro h
    have h1 := (split_at (by decide) (by decide) (List.append_cancel_left h)).2
    exact split_at (not_mem_fix (abs_nonneg x) (by decide) (by decide) (by decide)) (not_mem_fix (abs_nonneg x') (by decide) (by decide) (by decide)) h1
  · rintro ⟨h1, h2⟩
    rw [h1, h2]

theorem entry_ne_node {d k : ℕ} {x : Option ℝ} {y : ℂ} {x' : ℝ} {y' : ℂ} : entryLine d k x y ≠ nodeLine d x' y' := by
  intro h
  unfold entryLine nodeLine at h
  have h1 := (split_at (colon_dec k) (by decide) (List.append_cancel_left h)).1
  have : 'n' ∈ padLeft 5 (dec k) := h1 ▸ by decide
  rcases dec_padded this with h | h
  · revert h; decide
  · revert h; decide

theorem entry_newline {d k : ℕ} {x : Option ℝ} {y : ℂ} : '\n' ∉ entryLine d k x y := by
  unfold entryLine blanks
  simp only [List.mem_append, List.mem_replicate, List.mem_cons, not_or]
  refine ⟨fun h => by revert h; intro h; have := h.2; revert this; decide, fun h => ?_, by decide, posText_chars (by decide) (by decide) (by decide), by decide,
    not_mem_fix (norm_nonneg y) (by decide) (by decide) (by decide)⟩
  rcases dec_padded h with h | h
  · revert h; decide
  · revert h; decide

theorem node_newline {d : ℕ} {x : ℝ} {y : ℂ} : '\n' ∉ nodeLine d x y := by
  unfold nodeLine blanks
  simp only [List.mem_append, List.mem_replicate, List.mem_cons, not_or]
  exact ⟨fun h => by have := h.2; revert this; decide, by decide, by decide, not_mem_fix (abs_nonneg x) (by decide) (by decide) (by decide), by decide,
    not_mem_fix (norm_nonneg y) (by decide) (by decide) (by decide)⟩

mutual
theorem lnT_newline : ∀ (d : ℕ) (v : Tree), Wf v → ∀ t ∈ lnT d v, '\n' ∉ t
  | d, .dict f, h => by rw [lnT]; exact lnF_newline (d + 1) f h
  | d, .seqs xs ys, h => by
    intro t ht
    rw [lnT, List.mem_map] at ht
    obtain ⟨e, -, rfl⟩ := ht
    exact entry_newline
  | d, .nums (some x) y, _ => by intro t ht; rw [lnT, List.mem_singleton] at ht; subst ht; exact node_newline
  | _, .nums none _, h => absurd rfl h
  | _, .mixed, h => h.elim
  | _, .other _, h => h.elim
theorem lnF_newline : ∀ (d : ℕ) (f : Forest), WfF f → ∀ t ∈ lnF d f, '\n' ∉ t
  | d, .nil, _ => by intro t ht; rw [lnF] at ht; cases ht
  | d, .cons k v r, h => by
    intro t ht
    rw [lnF, List.mem_cons, List.mem_append] at ht
    rcases ht with rfl | ht | ht
    · unfold blanks
      rw [List.mem_append, List.mem_replicate, not_or]
      exact ⟨fun h => by have := h.2; revert this; decide, h.1.1⟩
    · exact lnT_newline d v h.2.1 t ht
    · exact lnF_newline d r h.2.2 t ht
end

/-! ## reading -/

/-- number of blanks at the beginning -/
def lead (t : Text) : ℕ := (t.takeWhile (· = ' ')).length

theorem lead_blanks (n : ℕ) (t : Text) : lead (blanks n ++ t) = n + lead t := by
  induction n with
  | zero => simp [blanks]
  | succ n ih =>
    have : blanks (n + 1) ++ t = ' ' :: (blanks n ++ t) := by simp [blanks, List.replicate_succ]
    rw [this]
    unfold lead at ih ⊢
    rw [List.takeWhile_cons_of_pos (by decide), List.length_cons, ih]
    omega

theorem lead_key (n : ℕ) {k : Text} (h : k.head? ≠ some ' ') : lead (blanks n ++ k) = n := by
  rw [lead_blanks]
  cases k with
  | nil => rfl
  | cons c k =>
    have : c ≠ ' ' := fun e => h (by rw [e]; rfl)
    unfold lead
    rw [List.takeWhile_cons_of_neg (by simpa using this)]
    rfl

/-- the rest does not begin with a line that is indented by `d` or more -/
def Stop (d : ℕ) (r : List Text) : Prop := ∀ t ∈ r.head?, lead t < d

theorem stop_lnF {d : ℕ} {f : Forest} {r : List Text} (hf : WfF f) (hr : Stop d r) : Stop (d + 1) (lnF d f ++ r) := by
  intro t ht
  cases f with
  | nil =>
    rw [lnF] at ht
    exact lt_trans (hr t ht) (Nat.lt_succ_self d)
  | cons k v r =>
    rw [lnF, List.cons_append, List.head?_cons, Option.mem_some_iff] at ht
    rw [← ht, lead_key d hf.1.2]
    exact Nat.lt_succ_self d

theorem entry_lead {d k : ℕ} {x : Option ℝ} {y : ℂ} : d + 2 ≤ lead (entryLine d k x y) := by
  unfold entryLine; rw [lead_blanks]; omega

theorem node_lead {d : ℕ} {x : ℝ} {y : ℂ} : d + 2 ≤ lead (nodeLine d x y) := by
  unfold nodeLine; rw [lead_blanks]; omega

/-- points: from the lines back to what they show -/
theorem points_inj {d : ℕ} : ∀ (l l' : List (Option ℝ × ℂ)) (k : ℕ) (r r' : List Text), Stop (d + 1) r → Stop (d + 1) r' →
    ((l.zipIdx k).map fun e => entryLine d e.2 e.1.1 e.1.2) ++ r = ((l'.zipIdx k).map fun e => entryLine d e.2 e.1.1 e.1.2) ++ r' →
    l.map shownP = l'.map shownP ∧ r = r'
  | [], [], _, _, _, _, _, h => ⟨rfl, by simpa using h⟩
  | [], e :: l', k, r, r', hr, _, h => by
    simp only [List.zipIdx_nil, List.map_nil, List.nil_append, List.zipIdx_cons, List.map_cons, List.cons_append] at h
    subst h
    have := hr _ (by rw [List.head?_cons]; exact rfl)
    have := entry_lead (d := d) (k := k) (x := e.1) (y := e.2)
    omega
  | e :: l, [], k, r, r', _, hr, h => by
    simp only [List.zipIdx_nil, List.map_nil, List.nil_append, List.zipIdx_cons, List.map_cons, List.cons_append] at h
    subst h
    have := hr _ (by rw [List.head?_cons]; exact rfl)
    have := entry_lead (d := d) (k := k) (x := e.1) (y := e.2)
    omega
  | e :: l, e' :: l', k, r, r', hr, hr', h => by
    simp only [List.zipIdx_cons, List.map_cons, List.cons_append, List.cons.injEq] at h
    obtain ⟨h1, h2⟩ := points_inj l l' (k + 1) r r' hr hr' h.2
    exact ⟨by rw [List.map_cons, List.map_cons, entry_congr.1 h.1, h1], h2⟩

theorem dict_ne_deep {d : ℕ} {f : Forest} {r : List Text} {t : Text} {r' : List Text} (hf : WfF f) (hr : Stop (d + 1) r) (ht : d + 2 ≤ lead t)
    (h : lnF (d + 1) f ++ r = t :: r') : False := by
  have := stop_lnF hf hr t (by rw [h]; exact rfl)
  omega

theorem zip_cons {xs : List (Option ℝ)} {ys : List ℂ} (h : Wf (.seqs xs ys)) : ∃ e l, xs.zip ys = e :: l := by
  obtain ⟨h1, h2⟩ := h
  cases xs with
  | nil => exact absurd rfl h2
  | cons x xs =>
    cases ys with
    | nil => simp at h1
    | cons y ys => exact ⟨_, _, rfl⟩

mutual
theorem readT : ∀ (d : ℕ) (v v' : Tree) (r r' : List Text), Wf v → Wf v' → Stop (d + 1) r → Stop (d + 1) r' → lnT d v ++ r = lnT d v' ++ r' →
    shown v = shown v' ∧ r = r'
  | d, .dict f, .dict f', r, r', hv, hv', hr, hr', h => by
    simp only [lnT] at h
    obtain ⟨h1, h2⟩ := readF (d + 1) f f' r r' hv hv' hr hr' h
    exact ⟨by rw [shown, shown, h1], h2⟩
  | d, .dict f, .seqs xs ys, r, r', hv, hv', hr, _, h => by
    obtain ⟨e, l, he⟩ := zip_cons hv'
    simp only [lnT] at h
    rw [he, List.zipIdx_cons, List.map_cons, List.cons_append] at h
    exact (dict_ne_deep hv hr entry_lead h).elim
  | d, .dict f, .nums (some x) y, r, r', hv, _, hr, _, h => by
    simp only [lnT] at h
    exact (dict_ne_deep hv hr node_lead h).elim
  | d, .seqs xs ys, .dict f, r, r', hv', hv, _, hr, h => by
    obtain ⟨e, l, he⟩ := zip_cons hv'
    simp only [lnT] at h
    rw [he, List.zipIdx_cons, List.map_cons, List.cons_append] at h
    exact (dict_ne_deep hv hr entry_lead h.symm).elim
  | d, .nums (some x) y, .dict f, r, r', _, hv, _, hr, h => by
    simp only [lnT] at h
    exact (dict_ne_deep hv hr node_lead h.symm).elim
  | d, .seqs xs ys, .seqs xs' ys', r, r', _, _, hr, hr', h => by
    simp only [lnT] at h
    obtain ⟨h1, h2⟩ := points_inj _ _ 1 r r' hr hr' h
    exact ⟨by rw [shown, shown, h1], h2⟩
  | d, .seqs xs ys, .nums (some x) y, r, r', hv, _, _, _, h => by
    obtain ⟨e, l, he⟩ := zip_cons hv
    simp only [lnT] at h
    rw [he, List.zipIdx_cons, List.map_cons, List.cons_append, List.singleton_append, List.cons.injEq] at h
    exact absurd h.1 entry_ne_node
  | d, .nums (some x) y, .seqs xs ys, r, r', _, hv, _, _, h => by
    obtain ⟨e, l, he⟩ := zip_cons hv
    simp only [lnT] at h
    rw [he, List.zipIdx_cons, List.map_cons, List.cons_append, List.cons_append, List.cons.injEq] at h
    exact absurd h.1.symm entry_ne_node
  | d, .nums (some x) y, .nums (some x') y', r, r', _, _, _, _, h => by
    simp only [lnT, List.singleton_append, List.cons.injEq] at h
    obtain ⟨h1, h2⟩ := node_congr.1 h.1
    exact ⟨by rw [shown, shown, h1, h2], h.2⟩
  | _, .nums none _, _, _, _, h, _, _, _, _ => absurd rfl h
  | _, _, .nums none _, _, _, _, h, _, _, _ => absurd rfl h
  | _, .mixed, _, _, _, h, _, _, _, _ => h.elim
  | _, _, .mixed, _, _, _, h, _, _, _ => h.elim
  | _, .other _, _, _, _, h, _, _, _, _ => h.elim
  | _, _, .other _, _, _, _, h, _, _, _ => h.elim
theorem readF : ∀ (d : ℕ) (f f' : Forest) (r r' : List Text), WfF f → WfF f' → Stop d r → Stop d r' → lnF d f ++ r = lnF d f' ++ r' →
    shownF f = shownF f' ∧ r = r'
  | d, .nil, .nil, r, r', _, _, _, _, h => by simp only [lnF, List.nil_append] at h; exact ⟨rfl, h⟩
  | d, .nil, .cons k v f, r, r', _, hf, hr, _, h => by
    simp only [lnF, List.nil_append, List.cons_append] at h
    have := hr (blanks d ++ k) (by rw [h]; exact rfl)
    rw [lead_key d hf.1.2] at this
    omega
  | d, .cons k v f, .nil, r, r', hf, _, _, hr, h => by
    simp only [lnF, List.nil_append, List.cons_append] at h
    have := hr (blanks d ++ k) (by rw [← h]; exact rfl)
    rw [lead_key d hf.1.2] at this
    omega
  | d, .cons k v f, .cons k' v' f', r, r', hf, hf', hr, hr', h => by
    simp only [lnF, List.cons_append, List.append_assoc, List.cons.injEq] at h
    have hk := List.append_cancel_left h.1
    obtain ⟨h1, h2⟩ := readT d v v' _ _ hf.2.1 hf'.2.1 (stop_lnF hf.2.2 hr) (stop_lnF hf'.2.2 hr') h.2
    obtain ⟨h3, h4⟩ := readF d f f' r r' hf.2.2 hf'.2.2 hr hr' h2
    exact ⟨by rw [shownF, shownF, hk, h1, h3], h4⟩
end

/-! ## the text depends only on what is shown -/

theorem points_congr {d : ℕ} : ∀ (l l' : List (Option ℝ × ℂ)) (k : ℕ), l.map shownP = l'.map shownP →
    ((l.zipIdx k).map fun e => entryLine d e.2 e.1.1 e.1.2) = (l'.zipIdx k).map fun e => entryLine d e.2 e.1.1 e.1.2
  | [], [], _, _ => rfl
  | [], e :: l', _, h => by simp at h
  | e :: l, [], _, h => by simp at h
  | e :: l, e' :: l', k, h => by
    simp only [List.map_cons, List.cons.injEq] at h
    simp only [List.zipIdx_cons, List.map_cons]
    rw [points_congr l l' (k + 1) h.2, entry_congr.2 h.1]

mutual
theorem lnT_congr : ∀ (d : ℕ) (v v' : Tree), Wf v → Wf v' → shown v = shown v' → lnT d v = lnT d v'
  | d, .dict f, .dict f', hv, hv', h => by
    simp only [shown, Shown.dict.injEq] at h
    rw [lnT, lnT, lnF_congr (d + 1) f f' hv hv' h]
  | d, .seqs xs ys, .seqs xs' ys', _, _, h => by
    simp only [shown, Shown.points.injEq] at h
    rw [lnT, lnT, points_congr _ _ 1 h]
  | d, .nums (some x) y, .nums (some x') y', _, _, h => by
    simp only [shown, Shown.node.injEq] at h
    rw [lnT, lnT, node_congr.2 h]
  | _, .dict _, .seqs _ _, _, _, h => by simp [shown] at h
  | _, .dict _, .nums (some _) _, _, _, h => by simp [shown] at h
  | _, .seqs _ _, .dict _, _, _, h => by simp [shown] at h
  | _, .seqs _ _, .nums (some _) _, _, _, h => by simp [shown] at h
  | _, .nums (some _) _, .dict _, _, _, h => by simp [shown] at h
  | _, .nums (some _) _, .seqs _ _, _, _, h => by simp [shown] at h
  | _, .nums none _, _, h, _, _ => absurd rfl h
  | _, _, .nums none _, _, h, _ => absurd rfl h
  | _, .mixed, _, h, _, _ => h.elim
  | _, _, .mixed, _, h, _ => h.elim
  | _, .other _, _, h, _, _ => h.elim
  | _, _, .other _, _, h, _ => h.elim
theorem lnF_congr : ∀ (d : ℕ) (f f' : Forest), WfF f → WfF f' → shownF f = shownF f' → lnF d f = lnF d f'
  | d, .nil, .nil, _, _, _ => rfl
  | _, .nil, .cons _ _ _, _, _, h => by simp [shownF] at h
  | _, .cons _ _ _, .nil, _, _, h => by simp [shownF] at h
  | d, .cons k v f, .cons k' v' f', hf, hf', h => by
    simp only [shownF, ShownF.cons.injEq] at h
    rw [lnF, lnF, h.1, lnT_congr d v v' hf.2.1 hf'.2.1 h.2.1, lnF_congr d f f' hf.2.2 hf'.2.2 h.2.2]
end

mutual
theorem wf_mirror : ∀ v, Wf v → Wf (mirror v)
  | .dict f, h => wfF_mirror f h
  | .seqs xs ys, h => ⟨by simpa using h.1, by simpa using h.2⟩
  | .nums x y, h => fun e => h (by cases x <;> simp_all)
  | .mixed, h => h
  | .other _, h => h
theorem wfF_mirror : ∀ f, WfF f → WfF (mirrorF f)
  | .nil, _ => trivial
  | .cons _ v r, h => ⟨h.1, wf_mirror v h.2.1, wfF_mirror r h.2.2⟩
end

theorem posText_mirror (x : Option ℝ) : posText (x.map fun r => -r) = posText x := by
  rw [posText_congr]
  cases x with
  | none => rfl
  | some r => simp only [Option.map_some, abs_neg]

mutual
theorem strT_mirror : ∀ (d : ℕ) (v : Tree), strT d (mirror v) = strT d v
  | d, .dict f => by rw [mirror, strT, strT, strF_mirror (d + 1) f]
  | d, .seqs xs ys => by
    rw [mirror, strT, strT, List.length_map, List.zip_map_left, List.zipIdx_map, List.flatMap_map]
    have : (fun e : (Option ℝ × ℂ) × ℕ => entryLine d (Prod.map (Prod.map (fun x : Option ℝ => x.map fun r => -r) id) id e).2
        (Prod.map (Prod.map (fun x : Option ℝ => x.map fun r => -r) id) id e).1.1
        (Prod.map (Prod.map (fun x : Option ℝ => x.map fun r => -r) id) id e).1.2 ++ ['\n']) = fun e => entryLine d e.2 e.1.1 e.1.2 ++ ['\n'] := by
      funext e
      simp only [entryLine, Prod.map_fst, Prod.map_snd, posText_mirror, id]
    rw [this]
  | d, .nums (some x) y => by
    rw [mirror, Option.map_some, strT, strT, nodeLine, nodeLine, abs_neg]
  | _, .nums none _ => by rw [mirror]; rfl
  | _, .mixed => rfl
  | _, .other _ => rfl
theorem strF_mirror : ∀ (d : ℕ) (f : Forest), strF d (mirrorF f) = strF d f
  | _, .nil => rfl
  | d, .cons k v r => by rw [mirrorF, strF, strF, strT_mirror d v, strF_mirror d r]
end

mutual
theorem strT_raises : ∀ (d : ℕ) (v : Tree), (Lost v → strT d v = .error .typeError) ∧ (¬ Lost v → ∃ t, strT d v = .ok t)
  | d, .dict f => by rw [strT]; exact strF_raises (d + 1) f
  | d, .seqs xs ys => ⟨fun h => h.elim, fun _ => ⟨_, rfl⟩⟩
  | d, .nums (some x) y => ⟨fun h => (by cases h), fun _ => ⟨_, rfl⟩⟩
  | _, .nums none _ => ⟨fun _ => rfl, fun h => absurd rfl h⟩
  | _, .mixed => ⟨fun h => h.elim, fun _ => ⟨_, rfl⟩⟩
  | _, .other _ => ⟨fun h => h.elim, fun _ => ⟨_, rfl⟩⟩
theorem strF_raises : ∀ (d : ℕ) (f : Forest), (LostF f → strF d f = .error .typeError) ∧ (¬ LostF f → ∃ t, strF d f = .ok t)
  | _, .nil => ⟨fun h => h.elim, fun _ => ⟨_, rfl⟩⟩
  | d, .cons k v r => by
    obtain ⟨a, b⟩ := strT_raises d v
    obtain ⟨a', b'⟩ := strF_raises d r
    rw [strF]
    by_cases hv : Lost v
    · rw [a hv]
      exact ⟨fun _ => rfl, fun h => absurd (Or.inl hv) h⟩
    · obtain ⟨t, ht⟩ := b hv
      rw [ht]
      by_cases hr : LostF r
      · rw [a' hr]
        exact ⟨fun _ => rfl, fun h => absurd (Or.inr hr) h⟩
      · obtain ⟨t', ht'⟩ := b' hr
        rw [ht']
        exact ⟨fun h => (h.elim hv hr).elim, fun _ => ⟨_, rfl⟩⟩
end

/-! ## C78 -/

/-- **C78, what the text tells.** The texts of two tables are equal exactly when the tables have the same keys at the same places, the same number of
points under each key, positions at the same places (up to the side of zero) and voltages of the same modulus, both to the nearest thousandth. -/
theorem C78_reads {f f' : Forest} (hf : WfF f) (hf' : WfF f') (d : ℕ) : strF d f = strF d f' ↔ shownF f = shownF f' := by
  rw [strF_ok d f hf, strF_ok d f' hf', Except.ok.injEq]
  constructor
  · intro h
    have h1 := joined_inj (lnF_newline d f hf) (lnF_newline d f' hf') h
    exact (readF d f f' [] [] hf hf' (fun t ht => by cases ht) (fun t ht => by cases ht) (by rw [h1])).1
  · intro h
    rw [lnF_congr d f f' hf hf' h]

/-- **C78, accuracy.** The numbers shown are within half a thousandth of the modulus. -/
theorem C78_accurate {a : ℝ} (ha : 0 ≤ a) : |(thousandths a : ℝ) / 1000 - a| ≤ 1 / 2000 := by
  have h := roundEven_near (x := a * 10 ^ 3) (by positivity)
  unfold thousandths
  rw [abs_le] at h ⊢
  constructor <;> linarith [h.1, h.2]

/-- **C78 is violated for the side of zero**: whatever the table (also one that is refused), mirroring all its positions does not change its text. -/
theorem C78_side_lost (f : Forest) (d : ℕ) : strF d (mirrorF f) = strF d f := strF_mirror d f

/-- **C78, refused tables.** The text is made, except when there is a pair of numbers (not sequences) whose position is `None`: TypeError.  (`None` in a
sequence is shown as such.) -/
theorem C78_raises (f : Forest) (d : ℕ) : (LostF f → strF d f = .error .typeError) ∧ (¬ LostF f → ∃ t, strF d f = .ok t) := strF_raises d f

/-- **C78, wrong lengths.** For sequences of different lengths neither the points nor the number of voltages is shown: the text gives the number of
positions for both. -/
theorem C78_length_wrong {xs : List (Option ℝ)} {ys ys' : List ℂ} (h : xs.length ≠ ys.length) (h' : xs.length ≠ ys'.length) (k : Text) (r : Forest)
    (d : ℕ) : strF d (.cons k (.seqs xs ys) r) = strF d (.cons k (.seqs xs ys') r) := by
  rw [strF, strF, strT, strT, if_neg h, if_neg h']

/-- **C78, other values.** A pair given as a list, or a number (as blocks with rfBase's maxV put into the table), is not shown: only its type. -/
theorem C78_other (ty k : Text) (r : Forest) (d : ℕ) (t : Text) (h : strF d r = .ok t) :
    strF d (.cons k (.other ty) r) = .ok (blanks d ++ k ++ '\n' :: ("! unexpected value type ".toList ++ ty ++ " expected tuple\n".toList ++ t)) := by
  rw [strF, strT, h]

/-! ## examples -/

namespace Ex

/-- a circuit's table: a node and a block with two points, one without a position -/
def tab (x : ℝ) : Forest :=
  .cons "top".toList (.dict (.cons "A.1".toList (.seqs [some x] [2]) (.cons "B".toList (.seqs [some 0, none] [1, 3]) .nil))) .nil

theorem tab_wf (x : ℝ) : WfF (tab x) :=
  ⟨⟨by decide, by decide⟩, ⟨⟨by decide, by decide⟩, ⟨rfl, by simp⟩, ⟨by decide, by decide⟩, ⟨rfl, by simp⟩, trivial⟩, trivial⟩

theorem thousandths_nat (n : ℕ) : thousandths n = n * 1000 := by
  unfold thousandths roundEven
  have : (n : ℝ) * 10 ^ 3 = ((n * 1000 : ℕ) : ℝ) := by push_cast; norm_num
  rw [this, Nat.floor_natCast]
  norm_num

/-- the hypotheses are met; 1 m and 2 m are told apart, 1 m and -1 m are not -/
theorem C78_witness : WfF (tab 1) ∧ (∃ t, strF 0 (tab 1) = .ok t) ∧ strF 0 (tab 1) ≠ strF 0 (tab 2) ∧ strF 0 (tab (-1)) = strF 0 (tab 1) ∧
    LostF (.cons [] (.nums none 1) .nil) := by
  refine ⟨tab_wf 1, ⟨_, strF_ok 0 _ (tab_wf 1)⟩, ?_, ?_, Or.inl rfl⟩
  · rw [Ne, C78_reads (tab_wf 1) (tab_wf 2)]
    intro h
    simp only [tab, shownF, shown, ShownF.cons.injEq, Shown.dict.injEq, Shown.points.injEq, List.zip_cons_cons, List.map_cons, shownP, Option.map_some,
      List.cons.injEq, Prod.mk.injEq, Option.some.injEq] at h
    have h1 := h.2.1.2.1.1.1
    have e1 : |(1 : ℝ)| = ((1 : ℕ) : ℝ) := by norm_num
    have e2 : |(2 : ℝ)| = ((2 : ℕ) : ℝ) := by norm_num
    rw [e1, e2, thousandths_nat, thousandths_nat] at h1
    omega
  · have := C78_side_lost (tab 1) 0
    rw [← this]
    congr 1
    simp [tab, mirrorF, mirror]

end Ex

end PyRFtk.StrVSW
