import Verif.Base
import Mathlib.Data.String.Basic
import Mathlib.Algebra.Order.Field.Rat
import Mathlib.Tactic.FieldSimp
import Mathlib.Tactic.NormNum

/-!
# Models of `findpath.py`, `config.py` (identifiers, frequency units), `getlines.py`, `str_dict.py`:
properties C42, C43, C44, C47
-/

namespace PyRFtk.Misc

/-! ## findpath.py -/

/-- what findpath asks of the file system: does a directory exist, the directories below it in `os.walk` order (itself first),
and the `glob` matches of the pattern in one directory.  `~` is already expanded; the pattern is fixed. -/
structure FS where
  dirExists : String → Bool
  walk : String → List String
  glob : String → List String

/-- `sorted(l)[-1]` -/
def lastSorted (l : List String) : Option String := (l.mergeSort (fun a b => decide (a ≤ b))).getLast?

/-- the loop `for root … in os.walk(sdir)`, findpath.py:90-98 -/
def walkLoop (fs : FS) : List String → Option String
  | [] => none
  | root :: r => if fs.glob root ≠ [] then lastSorted (fs.glob root) else walkLoop fs r

/-- the loop over the search directories, findpath.py:80-100, and the error at the end, 102-112 -/
def searchLoop (fs : FS) (missingOK : Bool) : List String → Except Err String
  | [] => .error .ioError
  | d :: ds =>
    if fs.dirExists d = false then (if missingOK then searchLoop fs missingOK ds else .error .ioError)
    else match walkLoop fs (fs.walk d) with
      | some f => .ok f
      | none => searchLoop fs missingOK ds

/-- the directories searched, findpath.py:61-77: those of the environment variable (if it is asked for and not empty), the
user's, the application's -/
def searchDirs (env : Option String) (userdirs appdirs : List String) : List String :=
  (match env with
    | some s => if s = "" then [] else s.splitOn ":"
    | none => []) ++ (userdirs ++ appdirs)

/-- `findpath` -/
def findpath (fs : FS) (env : Option String) (userdirs appdirs : List String) (missingOK : Bool) : Except Err String :=
  searchLoop fs missingOK (searchDirs env userdirs appdirs)

/-- `existspath`, findpath.py:123-138 -/
def existspath (fs : FS) (env : Option String) (userdirs appdirs : List String) (missingOK : Bool) : String :=
  match findpath fs env userdirs appdirs missingOK with
  | .ok p => p
  | .error _ => ""

/-- `p` is the match found in directory `d`: in the first directory below `d` with a match, the last one alphabetically -/
def MatchIn (fs : FS) (d p : String) : Prop :=
  fs.dirExists d = true ∧ ∃ r1 root r2, fs.walk d = r1 ++ root :: r2 ∧ (∀ r ∈ r1, fs.glob r = []) ∧ p ∈ fs.glob root ∧
    ∀ q ∈ fs.glob root, q ≤ p

/-- directory `d` has no match (it may be missing) -/
def NoMatch (fs : FS) (d : String) : Prop := fs.dirExists d = true → ∀ r ∈ fs.walk d, fs.glob r = []

theorem lastSorted_spec {l : List String} {p : String} (h : lastSorted l = some p) : p ∈ l ∧ ∀ q ∈ l, q ≤ p := by
  unfold lastSorted at h
  have hp := List.mergeSort_perm l (fun a b => decide (a ≤ b))
  have hs := List.pairwise_mergeSort (le := fun a b : String => decide (a ≤ b))
    (fun a b c h1 h2 => by simp only [decide_eq_true_eq] at *; exact le_trans h1 h2)
    (fun a b => by simpa using le_total a b) l
  obtain ⟨ys, hys⟩ := List.getLast?_eq_some_iff.1 h
  rw [hys] at hp hs
  refine ⟨hp.mem_iff.1 (by simp), fun q hq => ?_⟩
  have := hp.mem_iff.2 hq
  rw [List.mem_append, List.mem_singleton] at this
  rcases this with h' | rfl
  · have := (List.pairwise_append.1 hs).2.2 q h' p (by simp)
    simpa using this
  · exact le_refl _

theorem lastSorted_some {l : List String} (h : l ≠ []) : ∃ p, lastSorted l = some p := by
  unfold lastSorted
  have : (l.mergeSort (fun a b => decide (a ≤ b))) ≠ [] := by
    intro h0
    have := (List.mergeSort_perm l (fun a b => decide (a ≤ b))).length_eq
    rw [h0] at this
    exact h (List.eq_nil_of_length_eq_zero this.symm)
  exact ⟨_, List.getLast?_eq_some_getLast this⟩

theorem walkLoop_some {fs : FS} {l : List String} {p : String} (h : walkLoop fs l = some p) :
    ∃ r1 root r2, l = r1 ++ root :: r2 ∧ (∀ r ∈ r1, fs.glob r = []) ∧ p ∈ fs.glob root ∧ ∀ q ∈ fs.glob root, q ≤ p := by
  induction l with
  | nil => cases h
  | cons a l ih =>
    rw [walkLoop] at h
    split at h
    · obtain ⟨h1, h2⟩ := lastSorted_spec h
      exact ⟨[], a, l, rfl, by simp, h1, h2⟩
    · rename_i hg
      obtain ⟨r1, root, r2, rfl, h1, h2⟩ := ih h
      exact ⟨a :: r1, root, r2, rfl, by simpa using ⟨not_not.1 hg, h1⟩, h2⟩

theorem walkLoop_none {fs : FS} {l : List String} (h : walkLoop fs l = none) : ∀ r ∈ l, fs.glob r = [] := by
  induction l with
  | nil => simp
  | cons a l ih =>
    rw [walkLoop] at h
    split at h
    · rename_i hg
      obtain ⟨p, hp⟩ := lastSorted_some hg
      rw [hp] at h; cases h
    · rename_i hg
      intro r hr
      rcases List.mem_cons.1 hr with rfl | hr
      · exact not_not.1 hg
      · exact ih h r hr

theorem searchLoop_spec (fs : FS) (missingOK : Bool) (l : List String) :
    (∃ pre d post p, l = pre ++ d :: post ∧ (∀ x ∈ pre, NoMatch fs x ∧ (missingOK = false → fs.dirExists x = true)) ∧
      MatchIn fs d p ∧ searchLoop fs missingOK l = .ok p) ∨
    (((∃ pre d post, l = pre ++ d :: post ∧ (∀ x ∈ pre, NoMatch fs x) ∧ missingOK = false ∧ fs.dirExists d = false) ∨
      ∀ x ∈ l, NoMatch fs x) ∧ searchLoop fs missingOK l = .error .ioError) := by
  induction l with
  | nil => exact .inr ⟨.inr (by simp), rfl⟩
  | cons a l ih =>
    have lift : ∀ r, searchLoop fs missingOK (a :: l) = searchLoop fs missingOK l → NoMatch fs a →
        (missingOK = false → fs.dirExists a = true) → r = () → (∃ pre d post p, a :: l = pre ++ d :: post ∧ (∀ x ∈ pre, NoMatch fs x ∧
        (missingOK = false → fs.dirExists x = true)) ∧ MatchIn fs d p ∧ searchLoop fs missingOK (a :: l) = .ok p) ∨
        (((∃ pre d post, a :: l = pre ++ d :: post ∧ (∀ x ∈ pre, NoMatch fs x) ∧ missingOK = false ∧ fs.dirExists d = false) ∨
        ∀ x ∈ a :: l, NoMatch fs x) ∧ searchLoop fs missingOK (a :: l) = .error .ioError) := by
      intro _ he hna hm _
      rw [he]
      rcases ih with ⟨pre, d, post, p, rfl, h1, h2, h3⟩ | ⟨⟨pre, d, post, rfl, h1, h2⟩ | h1, h3⟩
      · exact .inl ⟨a :: pre, d, post, p, rfl, by simpa using ⟨⟨hna, hm⟩, fun x hx => h1 x hx⟩, h2, h3⟩
      · exact .inr ⟨.inl ⟨a :: pre, d, post, rfl, by simpa using ⟨hna, h1⟩, h2⟩, h3⟩
      · exact .inr ⟨.inr (by simpa using ⟨hna, h1⟩), h3⟩
    by_cases hd : fs.dirExists a = false
    · by_cases hm : missingOK = true
      · exact lift () (by rw [searchLoop, if_pos hd, if_pos hm]) (fun h => by rw [hd] at h; cases h) (fun h => by rw [hm] at h; cases h) rfl
      · have hm : missingOK = false := by simpa using hm
        exact .inr ⟨.inl ⟨[], a, l, rfl, by simp, hm, hd⟩, by rw [searchLoop, if_pos hd, hm]; rfl⟩
    · cases hw : walkLoop fs (fs.walk a) with
      | some p =>
        refine .inl ⟨[], a, l, p, rfl, by simp, ⟨by simpa using hd, walkLoop_some hw⟩, ?_⟩
        rw [searchLoop, if_neg hd, hw]
      | none =>
        exact lift () (by rw [searchLoop, if_neg hd, hw]) (fun _ => walkLoop_none hw) (fun _ => by simpa using hd) rfl

/-- **C42.** `findpath` returns `p` exactly when `p` is the match of the first search directory (environment, user, application, in
this order) that has one, every directory before it existing unless missing ones are allowed. -/
theorem C42_found (fs : FS) (env : Option String) (userdirs appdirs : List String) (missingOK : Bool) (p : String)
    (h : findpath fs env userdirs appdirs missingOK = .ok p) :
    ∃ pre d post, searchDirs env userdirs appdirs = pre ++ d :: post ∧
      (∀ x ∈ pre, NoMatch fs x ∧ (missingOK = false → fs.dirExists x = true)) ∧ MatchIn fs d p := by
  rcases searchLoop_spec fs missingOK (searchDirs env userdirs appdirs) with ⟨pre, d, post, q, h1, h2, h3, h4⟩ | ⟨_, h2⟩
  · rw [findpath, h4] at h
    injection h with h
    subst h
    exact ⟨pre, d, post, h1, h2, h3⟩
  · rw [findpath, h2] at h; cases h

/-- **C42 (not found).** It raises `IOError`, and nothing else, exactly when no search directory has a match, or a missing
directory, not allowed, comes before the first match. -/
theorem C42_not_found (fs : FS) (env : Option String) (userdirs appdirs : List String) (missingOK : Bool) (e : Err) :
    findpath fs env userdirs appdirs missingOK = .error e ↔ e = .ioError ∧
      ((∀ x ∈ searchDirs env userdirs appdirs, NoMatch fs x) ∨
       ∃ pre d post, searchDirs env userdirs appdirs = pre ++ d :: post ∧ (∀ x ∈ pre, NoMatch fs x) ∧ missingOK = false ∧
         fs.dirExists d = false) := by
  have hexc : ∀ d p, MatchIn fs d p → ¬ NoMatch fs d := by
    rintro d p ⟨h1, r1, root, r2, h2, -, h3, -⟩ hn
    have := hn h1 root (by rw [h2]; simp)
    rw [this] at h3
    cases h3
  have hsplit : ∀ (pre pre' : List String) d d' post post', pre ++ d :: post = pre' ++ d' :: post' →
      pre = pre' ∧ d = d' ∨ d ∈ pre' ∨ d' ∈ pre := by
    intro pre
    induction pre with
    | nil =>
      intro pre' d d' post post' h
      cases pre' with
      | nil => injection h with h; exact .inl ⟨rfl, h⟩
      | cons a pre' => injection h with h; subst h; exact .inr (.inl (by simp))
    | cons a pre ih =>
      intro pre' d d' post post' h
      cases pre' with
      | nil => injection h with h; subst h; exact .inr (.inr (by simp))
      | cons b pre' =>
        injection h with h1 h2
        subst h1
        rcases ih _ _ _ _ _ h2 with ⟨rfl, h⟩ | h | h
        · exact .inl ⟨rfl, h⟩
        · exact .inr (.inl (by simp [h]))
        · exact .inr (.inr (by simp [h]))
  rcases searchLoop_spec fs missingOK (searchDirs env userdirs appdirs) with ⟨pre, d, post, q, h1, h2, h3, h4⟩ | ⟨h1, h2⟩
  · rw [findpath, h4]
    constructor
    · intro h; cases h
    · rintro ⟨-, h | ⟨pre', d', post', h5, h6, h7, h8⟩⟩
      · exact absurd (h d (by rw [h1]; simp)) (hexc _ _ h3)
      · rw [h1] at h5
        rcases hsplit _ _ _ _ _ _ h5 with ⟨rfl, rfl⟩ | h | h
        · rw [h3.1] at h8; cases h8
        · exact absurd (h6 _ h) (hexc _ _ h3)
        · have := (h2 _ h).2 h7
          rw [this] at h8; cases h8
  · rw [findpath, h2]
    constructor
    · intro h; injection h with h; exact ⟨h.symm, h1.symm⟩
    · rintro ⟨rfl, -⟩; rfl

/-- **C42 (existspath).** `existspath` returns what `findpath` returns, and the empty string exactly when `findpath` raises (no
match is an empty string). -/
theorem C42_existspath (fs : FS) (hne : ∀ r, "" ∉ fs.glob r) (env : Option String) (userdirs appdirs : List String) (missingOK : Bool) :
    (∀ p, findpath fs env userdirs appdirs missingOK = .ok p → existspath fs env userdirs appdirs missingOK = p) ∧
    (existspath fs env userdirs appdirs missingOK = "" ↔ findpath fs env userdirs appdirs missingOK = .error .ioError) := by
  constructor
  · intro p h; simp [existspath, h]
  · cases h : findpath fs env userdirs appdirs missingOK with
    | error e =>
      have := ((C42_not_found fs env userdirs appdirs missingOK e).1 h).1
      subst this
      simp [existspath, h]
    | ok p =>
      obtain ⟨_, d, _, _, _, _, _, root, _, _, _, h3, _⟩ := C42_found fs env userdirs appdirs missingOK p h
      simp only [existspath, h, reduceCtorEq, iff_false]
      rintro rfl
      exact hne _ h3

/-- **C42 (order of search).** The directories named in the environment variable (separated by colons) come first, then the user's, then
the application's; an empty variable is as good as none. -/
theorem C42_order (userdirs appdirs : List String) :
    searchDirs none userdirs appdirs = userdirs ++ appdirs ∧
    (∀ (fs : FS) (missingOK : Bool), findpath fs (some "") userdirs appdirs missingOK = findpath fs none userdirs appdirs missingOK) ∧
    ∀ s, s ≠ "" → searchDirs (some s) userdirs appdirs = s.splitOn ":" ++ userdirs ++ appdirs := by
  refine ⟨rfl, fun fs missingOK => rfl, fun s hs => ?_⟩
  simp [searchDirs, hs]

/-- hypotheses of `C42_found` on a small file system: the last alphabetical match of the first directory with one -/
theorem C42_witness : findpath ⟨fun d => d ≠ "gone", fun d => [d, d ++ "/sub"],
      fun r => if r = "lib/sub" then ["lib/sub/a1", "lib/sub/a2"] else if r = "last" then ["last/z"] else []⟩
    none ["gone", "empty", "lib"] ["last"] true = .ok "lib/sub/a2" := by
  have h1 : ("lib" : String) ++ "/sub" = "lib/sub" := by decide
  have h2 : ("empty" : String) ++ "/sub" = "empty/sub" := by decide
  have h3 : lastSorted ["lib/sub/a1", "lib/sub/a2"] = some "lib/sub/a2" := by
    have : ("lib/sub/a1" : String) ≤ "lib/sub/a2" := by decide
    simp [lastSorted, List.mergeSort, List.MergeSort.Internal.splitInTwo, this]
  simp [findpath, searchDirs, searchLoop, walkLoop, h1, h2, h3]

/-! ## config.py: identifiers -/

/-- `_newID`, config.py:187-192: `none` = the attribute `_newID.N` does not exist yet -/
def newID (c : Option ℕ) : Option ℕ × String :=
  match c with
  | some n => (some (n + 1), toString (n + 1))
  | none => (some 0, toString 0)

/-- an automatic identifier: a class name, `_`, and a new number (rfBase.py:80, rfObject.py:98, rfRLC.py:70, rfTRL.py:186,
rfGTL.py:42, circuit.py:72) -/
def autoId (c : Option ℕ) (cls : String) : Option ℕ × String := ((newID c).1, cls ++ "_" ++ (newID c).2)

/-- the identifiers of a session that creates objects of the given classes -/
def session : Option ℕ → List String → List String
  | _, [] => []
  | c, cls :: r => (autoId c cls).2 :: session (autoId c cls).1 r

theorem repr_inj {n m : ℕ} (h : (toString n).toList = (toString m).toList) : n = m := by
  have h' : Nat.toDigits 10 n = Nat.toDigits 10 m := by
    simpa [Nat.toString_eq_ofList_toDigits] using h
  have := congrArg (fun l => Nat.ofDigitChars 10 l 0) h'
  simpa [Nat.ofDigitChars_ten_toDigits] using this

theorem no_underscore (n : ℕ) : '_' ∉ (toString n).toList := by
  simp

/-- a name ending in `_<number>` determines the number -/
theorem suffix_inj {p q : String} {n m : ℕ} (h : p ++ "_" ++ toString n = q ++ "_" ++ toString m) : n = m := by
  have h' := congrArg String.toList h
  simp only [String.toList_append] at h'
  have key : ∀ (a b x y : List Char), '_' ∉ x → '_' ∉ y → a ++ '_' :: x = b ++ '_' :: y → x = y := by
    intro a
    induction a with
    | nil =>
      intro b x y hx hy h
      cases b with
      | nil => simpa using h
      | cons c b =>
        simp only [List.nil_append, List.cons_append, List.cons.injEq] at h
        exact absurd (h.2 ▸ (by simp : '_' ∈ b ++ '_' :: y)) hx
    | cons c a ih =>
      intro b x y hx hy h
      cases b with
      | nil =>
        simp only [List.nil_append, List.cons_append, List.cons.injEq] at h
        exact absurd (h.2 ▸ (by simp : '_' ∈ a ++ '_' :: x)) hy
      | cons d b =>
        simp only [List.cons_append, List.cons.injEq] at h
        exact ih b x y hx hy h.2
  refine repr_inj (key p.toList q.toList _ _ (no_underscore n) (no_underscore m) ?_)
  simpa using h'

/-- **C43 (identifiers).** In any session all automatically generated identifiers differ, whatever the classes. -/
theorem C43_ids_unique (classes : List String) : (session none classes).Nodup := by
  have key : ∀ (l : List String) (c : Option ℕ), (session c l).Nodup ∧
      ∀ s ∈ session c l, ∃ p n, s = p ++ "_" ++ toString n ∧ (∀ k, c = some k → k < n) := by
    intro l
    induction l with
    | nil => intro c; simp [session]
    | cons cls l ih =>
      intro c
      obtain ⟨k, hk, hc⟩ : ∃ k, newID c = (some k, toString k) ∧ ∀ j, c = some j → j < k := by
        cases c with
        | none => exact ⟨0, rfl, by simp⟩
        | some j => exact ⟨j + 1, rfl, by simp⟩
      have hs : session c (cls :: l) = (cls ++ "_" ++ toString k) :: session (some k) l := by
        simp [session, autoId, hk]
      rw [hs]
      obtain ⟨h1, h2⟩ := ih (some k)
      constructor
      · refine List.nodup_cons.2 ⟨fun hm => ?_, h1⟩
        obtain ⟨p, n, he, hn⟩ := h2 _ hm
        have := suffix_inj he
        have := hn k rfl
        omega
      · intro s hm
        rcases List.mem_cons.1 hm with rfl | hm
        · exact ⟨cls, k, rfl, hc⟩
        · obtain ⟨p, n, he, hn⟩ := h2 _ hm
          refine ⟨p, n, he, fun j hj => ?_⟩
          have := hc j hj
          have := hn k rfl
          omega
  exact (key classes none).1

/-! ## config.py: frequency units -/

/-- `FUNITS`, config.py:218 -/
def funits : List (String × ℚ) := [("HZ", 1), ("KHZ", 1000), ("MHZ", 1000000), ("GHZ", 1000000000)]

/-- `fscale`, config.py:219 (exact arithmetic; `upper` is `str.upper`) -/
def fscale (upper : String → String) (frm dst : String) : Except Err ℚ :=
  match funits.lookup (upper frm) with
  | none => .error .keyError
  | some a => match funits.lookup (upper dst) with
    | none => .error .keyError
    | some b => .ok (a / b)

theorem funits_ne {s : String} {a : ℚ} (h : funits.lookup s = some a) : a ≠ 0 := by
  have : (s, a) ∈ funits := by
    have hg : ∀ l : List (String × ℚ), l.lookup s = some a → (s, a) ∈ l := by
      intro l
      induction l with
      | nil => simp
      | cons c l ih =>
        obtain ⟨x, y⟩ := c
        intro h
        rw [List.lookup_cons] at h
        split at h
        · rename_i hb
          have : s = x := by simpa using hb
          injection h with h
          subst this h
          simp
        · exact List.mem_cons_of_mem _ (ih h)
    exact hg _ h
  simp [funits] at this
  rcases this with ⟨-, rfl⟩ | ⟨-, rfl⟩ | ⟨-, rfl⟩ | ⟨-, rfl⟩ <;> norm_num

/-- **C43 (frequency scales).** Scale factors compose and are positive; the factor of a unit to itself is one; letter case does
not matter; unknown units raise `KeyError`. -/
theorem C43_fscale (upper : String → String) {a b : String} {x : ℚ} (hab : fscale upper a b = .ok x) :
    x ≠ 0 ∧ fscale upper a a = .ok 1 ∧ fscale upper b a = .ok x⁻¹ ∧
    (∀ c y, fscale upper b c = .ok y → fscale upper a c = .ok (x * y)) ∧
    (∀ a', upper a' = upper a → fscale upper a' b = .ok x) := by
  unfold fscale at *
  cases ha : funits.lookup (upper a) with
  | none => simp [ha] at hab
  | some p =>
    cases hb : funits.lookup (upper b) with
    | none => simp [ha, hb] at hab
    | some q =>
      simp only [ha, hb] at hab ⊢
      injection hab with hab
      subst hab
      have hp := funits_ne ha
      have hq := funits_ne hb
      refine ⟨div_ne_zero hp hq, by rw [div_self hp], by rw [inv_div], ?_, ?_⟩
      · intro c y hy
        cases hc : funits.lookup (upper c) with
        | none => simp [hc] at hy
        | some r =>
          simp only [hc] at hy ⊢
          injection hy with hy
          subst hy
          have hr := funits_ne hc
          congr 1
          field_simp
      · intro a' h'
        rw [h', ha]

/-- the power of ten of a unit, in Hz -/
def exponent (u : String) : Option ℤ :=
  if u = "HZ" then some 0 else if u = "KHZ" then some 3 else if u = "MHZ" then some 6 else if u = "GHZ" then some 9 else none

/-- **C43 (values).** The factor between two units is the ratio of their powers of ten. -/
theorem C43_values (upper : String → String) {a b : String} {x : ℚ} (h : fscale upper a b = .ok x) :
    ∃ m n, exponent (upper a) = some m ∧ exponent (upper b) = some n ∧ x = 10 ^ (m - n) := by
  have key : ∀ s y, funits.lookup s = some y → ∃ m, exponent s = some m ∧ y = (10 : ℚ) ^ m := by
    intro s y hy
    simp only [funits, List.lookup] at hy
    unfold exponent
    by_cases h1 : s = "HZ"
    · subst h1; simp at hy; exact ⟨0, by simp, by rw [← hy]; norm_num⟩
    by_cases h2 : s = "KHZ"
    · subst h2; simp at hy; exact ⟨3, by simp, by rw [← hy]; norm_num⟩
    by_cases h3 : s = "MHZ"
    · subst h3; simp at hy; exact ⟨6, by simp, by rw [← hy]; norm_num⟩
    by_cases h4 : s = "GHZ"
    · subst h4; simp at hy; exact ⟨9, by simp, by rw [← hy]; norm_num⟩
    have e : ∀ t : String, s ≠ t → (s == t) = false := by intro t h; simpa using h
    simp [e _ h1, e _ h2, e _ h3, e _ h4] at hy
  unfold fscale at h
  cases ha : funits.lookup (upper a) with
  | none => simp [ha] at h
  | some p =>
    cases hb : funits.lookup (upper b) with
    | none => simp [ha, hb] at h
    | some q =>
      simp only [ha, hb] at h
      injection h with h
      obtain ⟨m, hm, rfl⟩ := key _ _ ha
      obtain ⟨n, hn, rfl⟩ := key _ _ hb
      exact ⟨m, n, hm, hn, by rw [← h, zpow_sub₀ (by norm_num)]⟩

/-- **C43 (units).** The accepted units, exactly. -/
theorem C43_units (upper : String → String) (a b : String) : (∃ x, fscale upper a b = .ok x) ↔
    upper a ∈ ["HZ", "KHZ", "MHZ", "GHZ"] ∧ upper b ∈ ["HZ", "KHZ", "MHZ", "GHZ"] := by
  have key : ∀ s : String, (∃ x, funits.lookup s = some x) ↔ s ∈ ["HZ", "KHZ", "MHZ", "GHZ"] := by
    intro s
    simp only [funits, List.lookup, List.mem_cons, List.not_mem_nil, or_false]
    by_cases h1 : s = "HZ"
    · simp [h1]
    by_cases h2 : s = "KHZ"
    · simp [h2]
    by_cases h3 : s = "MHZ"
    · simp [h3]
    by_cases h4 : s = "GHZ"
    · simp [h4]
    have e : ∀ t : String, s ≠ t → (s == t) = false := by intro t h; simpa using h
    simp [h1, h2, h3, h4, e _ h1, e _ h2, e _ h3, e _ h4]
  rw [← key, ← key]
  unfold fscale
  cases ha : funits.lookup (upper a) <;> cases hb : funits.lookup (upper b) <;> simp

/-! ## getlines.py -/

/-- `src.split('\n')`, getlines.py:27 -/
def strLines : List Char → List (List Char)
  | [] => [[]]
  | c :: cs =>
    if c = '\n' then [] :: strLines cs
    else match strLines cs with
      | [] => [[c]]
      | l :: ls => (c :: l) :: ls

/-- `f.readlines()`: the lines with their newline; the last one may have none -/
def readlines : List Char → List (List Char)
  | [] => []
  | c :: cs =>
    if c = '\n' then ['\n'] :: readlines cs
    else match readlines cs with
      | [] => [[c]]
      | l :: ls => (c :: l) :: ls

/-- `aline.replace('\n','')`, getlines.py:15, 32 -/
def chomp (l : List Char) : List Char := l.filter (· ≠ '\n')

/-- the lines of a file (text mode; `content` is what the file object yields), getlines.py:12-15, 30-32 -/
def fileLines (content : List Char) : List (List Char) := (readlines content).map chomp

/-- the source given to `getlines`: a string, or an open file with the given content -/
inductive Src | str (s : List Char) | file (content : List Char)

/-- `getlines(src)()`, getlines.py:34-40; `openFile` gives the content of a path -/
def getlines (openFile : List Char → Except Err (List Char)) : Src → Except Err (List (List Char))
  | .str s => if '\n' ∈ s then .ok (strLines s) else (openFile s).map fileLines
  | .file c => .ok (fileLines c)

theorem strLines_ne (s : List Char) : strLines s ≠ [] := by
  induction s with
  | nil => simp [strLines]
  | cons c s ih =>
    rw [strLines]
    split
    · simp
    · split <;> simp

theorem readlines_ne {s : List Char} (h : s ≠ []) : readlines s ≠ [] := by
  cases s with
  | nil => exact absurd rfl h
  | cons c s =>
    rw [readlines]
    split
    · simp
    · split <;> simp

theorem chomp_cons {c : Char} {l : List Char} (h : c ≠ '\n') : chomp (c :: l) = c :: chomp l := by simp [chomp, h]

/-- **C44 (lossless).** The lines of a multi-line string joined by newlines are the string, and no line contains a newline. -/
theorem C44_lossless (s : List Char) : (['\n'].intercalate (strLines s) = s) ∧ ∀ l ∈ strLines s, '\n' ∉ l := by
  induction s with
  | nil => simp [strLines]
  | cons c s ih =>
    rw [strLines]
    by_cases hc : c = '\n'
    · rw [if_pos hc]
      subst hc
      refine ⟨?_, by simpa using ih.2⟩
      cases hs : strLines s with
      | nil => exact absurd hs (strLines_ne s)
      | cons l ls =>
        rw [hs] at ih
        rw [List.intercalate_cons_cons, ih.1]
        rfl
    · rw [if_neg hc]
      cases hs : strLines s with
      | nil => exact absurd hs (strLines_ne s)
      | cons l ls =>
        rw [hs] at ih
        simp only
        refine ⟨?_, ?_⟩
        · cases ls with
          | nil =>
            have := ih.1
            simp at this
            simp [this]
          | cons m ls =>
            rw [List.intercalate_cons_cons, List.cons_append, List.cons_append, ← List.intercalate_cons_cons, ih.1]
        · intro x hx
          rcases List.mem_cons.1 hx with rfl | hx
          · have := ih.2 l (by simp)
            simp [Ne.symm hc, this]
          · exact ih.2 x (by simp [hx])

/-- **C44 (file and string agree).** The lines of a file are those of the string with the same content, except that the string
form has one more, empty, line when the content is empty or ends with a newline. -/
theorem C44_file_eq_string (s : List Char) :
    strLines s = fileLines s ++ (if s = [] ∨ s.getLast? = some '\n' then [[]] else []) := by
  induction s with
  | nil => simp [strLines, fileLines, readlines]
  | cons c s ih =>
    by_cases hc : c = '\n'
    · subst hc
      rw [strLines, if_pos rfl, ih]
      cases s with
      | nil => simp [fileLines, readlines, chomp]
      | cons d s =>
        simp only [fileLines]
        rw [readlines.eq_def ('\n' :: d :: s)]
        simp [chomp]
    · rw [strLines, if_neg hc, ih]
      cases s with
      | nil => simp [fileLines, readlines, chomp, hc]
      | cons d s =>
        have hne : readlines (d :: s) ≠ [] := readlines_ne (by simp)
        cases hr : readlines (d :: s) with
        | nil => exact absurd hr hne
        | cons l ls =>
          have h2 : readlines (c :: d :: s) = (c :: l) :: ls := by
            rw [readlines, if_neg hc, hr]
          simp only [fileLines, h2, hr, List.map_cons, List.cons_append, chomp_cons hc]
          simp

/-- **C44 (one-line strings).** A string without a newline is not read as text: it is taken as the path of a file. -/
theorem C44_single_line_is_a_path (openFile : List Char → Except Err (List Char)) (s : List Char) (h : '\n' ∉ s) (e : Err)
    (hf : openFile s = .error e) : getlines openFile (.str s) = .error e := by
  simp [getlines, h, hf, Except.map]

/-! ## str_dict.py -/

mutual
/-- what `str_dict` is given: a dictionary, a pair whose first component is a list of positions (`none` = Python's `None`), or
something else of the type named -/
inductive Tree
  | dict (f : Forest)
  | pair (xs : List (Option ℚ))
  | other (typ : String)
/-- the items of a dictionary -/
inductive Forest
  | nil
  | cons (key : String) (val : Tree) (rest : Forest)
end

/-- the function attributes `str_dict.N`, `str_dict.s` -/
structure Acc where
  N : ℕ
  s : String

/-- `'    '*N` -/
def indent (n : ℕ) : String := String.join (List.replicate n "    ")

/-- **C47 (indentation).** The indentation is four blanks for each level and nothing else. -/
theorem C47_indent (n : ℕ) : (indent n).toList = List.replicate (4 * n) ' ' := by
  have key : ∀ l : List String, (String.join l).toList = (l.map String.toList).flatten := by
    have h : ∀ (l : List String) (a : String), (l.foldl (fun r s => r ++ s) a).toList = a.toList ++ (l.map String.toList).flatten := by
      intro l
      induction l with
      | nil => intro a; simp
      | cons x l ih => intro a; rw [List.foldl_cons, ih]; simp
    intro l
    rw [String.join, h]; rfl
  unfold indent
  rw [key, List.map_replicate]
  induction n with
  | zero => rfl
  | succ n ih =>
    rw [List.replicate_succ, List.flatten_cons, ih, show 4 * (n + 1) = 4 + 4 * n by ring, List.replicate_add]
    rfl

/-- the text of a pair, str_dict.py:20-26; `fmt` is `%7.4f`.  `None` among several positions cannot be formatted; an empty list
has no first entry. -/
def pairText (fmt : ℚ → String) : List (Option ℚ) → Except Err String
  | [] => .error .indexError
  | [none] => .ok "node [N/A m],\n"
  | [some x] => .ok ("node [" ++ fmt x ++ " m],\n")
  | x :: y :: r => match x, (y :: r).getLast (by simp) with
    | some a, some b => .ok ("line [" ++ toString (r.length + 2) ++ " pts, " ++ fmt a ++ "m to  " ++ fmt b ++ "m],\n")
    | _, _ => .error .typeError

mutual
/-- the body of `str_dict`, str_dict.py:11-28; the state also when it raises -/
def run (fmt : ℚ → String) : Tree → Acc → Acc × Except Err Unit
  | .dict f, a =>
    match runItems fmt f ⟨a.N + 1, a.s ++ "{\n"⟩ with
    | (a', .error e) => (a', .error e)
    | (a', .ok _) => (⟨a'.N - 1, a'.s ++ indent (a'.N - 1) ++ "},\n"⟩, .ok ())
  | .pair xs, a => match pairText fmt xs with
    | .error e => (a, .error e)
    | .ok t => (⟨a.N, a.s ++ t⟩, .ok ())
  | .other typ, a => (⟨a.N, a.s ++ "?? " ++ typ ++ ",\n"⟩, .ok ())
/-- the loop over the items, str_dict.py:14-16 -/
def runItems (fmt : ℚ → String) : Forest → Acc → Acc × Except Err Unit
  | .nil, a => (a, .ok ())
  | .cons k v r, a =>
    match run fmt v ⟨a.N, a.s ++ indent a.N ++ " " ++ k ++ ": "⟩ with
    | (a', .error e) => (a', .error e)
    | (a', .ok _) => runItems fmt r a'
end

/-- `str_dict(adict)`: returns the accumulated text -/
def strDict (fmt : ℚ → String) (a : Acc) (t : Tree) : Acc × Except Err String :=
  match run fmt t a with
  | (a', .error e) => (a', .error e)
  | (a', .ok _) => (a', .ok a'.s)

mutual
/-- the text of one tree at a depth -/
def text (fmt : ℚ → String) (n : ℕ) : Tree → Except Err String
  | .dict f => (texts fmt (n + 1) f).map fun s => "{\n" ++ s ++ indent n ++ "},\n"
  | .pair xs => pairText fmt xs
  | .other typ => .ok ("?? " ++ typ ++ ",\n")
/-- the text of the items, each key once, followed by its value -/
def texts (fmt : ℚ → String) (n : ℕ) : Forest → Except Err String
  | .nil => .ok ""
  | .cons k v r => match text fmt n v with
    | .error e => .error e
    | .ok s => (texts fmt n r).map fun t => indent n ++ " " ++ k ++ ": " ++ s ++ t
end

mutual
theorem run_ok (fmt : ℚ → String) : ∀ (t : Tree) (a : Acc), (∀ s, text fmt a.N t = .ok s → run fmt t a = (⟨a.N, a.s ++ s⟩, .ok ())) ∧
    (∀ e, text fmt a.N t = .error e → (run fmt t a).2 = .error e)
  | .dict f, a => by
    have h := runItems_ok fmt f ⟨a.N + 1, a.s ++ "{\n"⟩
    constructor
    · intro s hs
      rw [text] at hs
      cases ht : texts fmt (a.N + 1) f with
      | error e => simp [ht, Except.map] at hs
      | ok u =>
        simp only [ht, Except.map] at hs
        injection hs with hs
        subst hs
        rw [run, h.1 u ht]
        simp [String.append_assoc]
    · intro e he
      rw [text] at he
      cases ht : texts fmt (a.N + 1) f with
      | error e' =>
        simp only [ht, Except.map] at he
        have h2 := h.2 e' ht
        rw [run]
        cases hr : runItems fmt f ⟨a.N + 1, a.s ++ "{\n"⟩ with
        | mk a' r =>
          rw [hr] at h2
          dsimp at h2
          subst h2
          injection he with he; subst he; rfl
      | ok u => simp [ht, Except.map] at he
  | .pair xs, a => by
    constructor
    · intro s hs
      rw [text] at hs
      simp [run, hs]
    · intro e he
      rw [text] at he
      simp [run, he]
  | .other typ, a => by
    constructor
    · intro s hs
      rw [text] at hs
      injection hs with hs
      subst hs
      simp [run, String.append_assoc]
    · intro e he
      simp [text] at he
theorem runItems_ok (fmt : ℚ → String) : ∀ (f : Forest) (a : Acc), (∀ s, texts fmt a.N f = .ok s → runItems fmt f a = (⟨a.N, a.s ++ s⟩, .ok ())) ∧
    (∀ e, texts fmt a.N f = .error e → (runItems fmt f a).2 = .error e)
  | .nil, a => by
    constructor
    · intro s hs
      rw [texts] at hs
      injection hs with hs
      subst hs
      simp [runItems]
    · intro e he
      simp [texts] at he
  | .cons k v r, a => by
    have hv := run_ok fmt v ⟨a.N, a.s ++ indent a.N ++ " " ++ k ++ ": "⟩
    constructor
    · intro s hs
      rw [texts] at hs
      cases ht : text fmt a.N v with
      | error e => simp [ht] at hs
      | ok u =>
        simp only [ht] at hs
        cases hu : texts fmt a.N r with
        | error e => simp [hu, Except.map] at hs
        | ok w =>
          simp only [hu, Except.map] at hs
          injection hs with hs
          subst hs
          rw [runItems, hv.1 u ht]
          have := (runItems_ok fmt r ⟨a.N, a.s ++ indent a.N ++ " " ++ k ++ ": " ++ u⟩).1 w hu
          simp only at this ⊢
          rw [this]
          simp [String.append_assoc]
    · intro e he
      rw [texts] at he
      cases ht : text fmt a.N v with
      | error e' =>
        simp only [ht] at he
        have h2 := hv.2 e' ht
        rw [runItems]
        cases hr : run fmt v ⟨a.N, a.s ++ indent a.N ++ " " ++ k ++ ": "⟩ with
        | mk a' x =>
          rw [hr] at h2
          dsimp at h2
          subst h2
          injection he with he; subst he; rfl
      | ok u =>
        simp only [ht] at he
        cases hu : texts fmt a.N r with
        | error e' =>
          simp only [hu, Except.map] at he
          rw [runItems, hv.1 u ht]
          have := (runItems_ok fmt r ⟨a.N, a.s ++ indent a.N ++ " " ++ k ++ ": " ++ u⟩).2 e' hu
          simp only at this ⊢
          rw [this]
          injection he with he; subst he; rfl
        | ok w => simp [hu, Except.map] at he
end

/-- a session of calls of `str_dict`: the texts returned -/
def calls (fmt : ℚ → String) : Acc → List Tree → List (Except Err String)
  | _, [] => []
  | a, t :: ts => (strDict fmt a t).2 :: calls fmt (strDict fmt a t).1 ts

/-- **C47 (several points).** The text of a pair with several positions states how many there are, the first and the last. -/
theorem C47_line (fmt : ℚ → String) {xs : List (Option ℚ)} {a b : ℚ} (hn : 2 ≤ xs.length) (ha : xs.head? = some (some a))
    (hb : xs.getLast? = some (some b)) :
    text fmt 0 (.pair xs) = .ok ("line [" ++ toString xs.length ++ " pts, " ++ fmt a ++ "m to  " ++ fmt b ++ "m],\n") := by
  match xs, hn with
  | x :: y :: r, _ =>
    simp only [List.head?_cons, Option.some.injEq] at ha
    subst ha
    have hl : (y :: r).getLast (by simp) = some b := by
      rw [List.getLast?_cons_cons, List.getLast?_eq_some_getLast (by simp)] at hb
      exact Option.some.inj hb
    rw [text]
    unfold pairText
    dsimp only
    rw [hl]
    rfl

/-- **C47 (one point).** The text of a pair with one position is that position, or `N/A`. -/
theorem C47_node (fmt : ℚ → String) (x : ℚ) : text fmt 0 (.pair [some x]) = .ok ("node [" ++ fmt x ++ " m],\n") ∧
    text fmt 0 (.pair [none]) = .ok "node [N/A m],\n" := ⟨rfl, rfl⟩

/-- **C47 (first call).** The first call returns the text of the dictionary, each key once with its value. -/
theorem C47_first_call (fmt : ℚ → String) (t : Tree) : (strDict fmt ⟨0, ""⟩ t).2 = text fmt 0 t := by
  have h := run_ok fmt t ⟨0, ""⟩
  unfold strDict
  cases ht : text fmt 0 t with
  | ok s => rw [h.1 s ht]; simp
  | error e =>
    have := h.2 e ht
    cases hr : run fmt t ⟨0, ""⟩ with
    | mk a' x =>
      rw [hr] at this
      dsimp at this
      subst this
      rfl

/-- **C47 (violated: later calls).** Call number `k` returns the texts of all the calls so far, not of its own argument only. -/
theorem C47_later_calls_accumulate (fmt : ℚ → String) (ts : List Tree) (ss : List String) (hl : ts.map (text fmt 0) = ss.map .ok) :
    ∀ k, k < ts.length → (calls fmt ⟨0, ""⟩ ts)[k]? = some (.ok (String.join (ss.take (k + 1)))) := by
  have gen : ∀ (ts : List Tree) (ss : List String) (s0 : String), ts.map (text fmt 0) = ss.map .ok → ∀ k, k < ts.length →
      (calls fmt ⟨0, s0⟩ ts)[k]? = some (.ok (s0 ++ String.join (ss.take (k + 1)))) := by
    intro ts
    induction ts with
    | nil => intro ss s0 _ k hk; simp at hk
    | cons t ts ih =>
      intro ss s0 hl k hk
      cases ss with
      | nil => simp at hl
      | cons s ss =>
        simp only [List.map_cons, List.cons.injEq] at hl
        have hr := (run_ok fmt t ⟨0, s0⟩).1 s hl.1
        have hd : strDict fmt ⟨0, s0⟩ t = (⟨0, s0 ++ s⟩, .ok (s0 ++ s)) := by simp [strDict, hr]
        rw [calls, hd]
        cases k with
        | zero => simp [String.join]
        | succ k =>
          rw [List.getElem?_cons_succ, ih ss (s0 ++ s) hl.2 k (by simpa using hk)]
          simp [List.take_succ_cons, String.join_cons, String.append_assoc]
  intro k hk
  have := gen ts ss "" hl k hk
  simpa using this

/-- the claim "independent of earlier calls" fails for every dictionary whose text is not empty -/
theorem C47_second_call_differs (fmt : ℚ → String) (t : Tree) (s : String) (h : text fmt 0 t = .ok s) (hs : s ≠ "") :
    calls fmt ⟨0, ""⟩ [t, t] = [.ok s, .ok (s ++ s)] ∧ s ++ s ≠ s := by
  have hr := (run_ok fmt t ⟨0, ""⟩).1 s h
  have hr2 := (run_ok fmt t ⟨0, s⟩).1 s h
  constructor
  · simp [calls, strDict, hr, hr2]
  · intro he
    apply hs
    have := congrArg String.length he
    rw [String.length_append] at this
    exact String.length_eq_zero_iff.1 (by omega)

end PyRFtk.Misc
