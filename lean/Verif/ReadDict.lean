import Verif.Misc

/-!
# `ReadDictData.py` and `tictoc.py`: properties C93, C94

`ast.literal_eval` is a parameter; times are exact numbers.
-/

namespace PyRFtk.Misc

/-! ## ReadDictData.py -/

/-- what opening and reading a path gives: nothing when it is a directory or cannot be read -/
abbrev Contents := String → Option String

/-- `ReadDictData`, ReadDictData.py:7-20 (`findpath` is in `Misc`; `literal` is `ast.literal_eval`; the `except: raise` changes nothing) -/
def readDictData {V : Type} (fs : FS) (content : Contents) (literal : String → Except Err V) (env : Option String)
    (userdirs appdirs : List String) (missingOK : Bool) : Except Err V :=
  match findpath fs env userdirs appdirs missingOK with
  | .error e => .error e
  | .ok p => match content p with
    | none => .error .ioError
    | some t => literal t

/-- `ReadDictString`, ReadDictData.py:25-29 -/
def readDictString {V : Type} (literal : String → Except Err V) (s : String) : Except Err V := literal s

/-- the documented match: the search directories before `d` have none (and exist, unless missing ones are allowed), `p` is that of `d` -/
def Documented (fs : FS) (dirs : List String) (missingOK : Bool) (p : String) : Prop :=
  ∃ pre d post, dirs = pre ++ d :: post ∧ (∀ x ∈ pre, NoMatch fs x ∧ (missingOK = false → fs.dirExists x = true)) ∧ MatchIn fs d p

theorem walkLoop_of {fs : FS} {p root : String} {r2 : List String} (hp : p ∈ fs.glob root) (hm : ∀ q ∈ fs.glob root, q ≤ p) :
    ∀ r1 : List String, (∀ r ∈ r1, fs.glob r = []) → walkLoop fs (r1 ++ root :: r2) = some p
  | [], _ => by
    have hne : fs.glob root ≠ [] := List.ne_nil_of_mem hp
    rw [List.nil_append, walkLoop, if_pos hne]
    obtain ⟨q, hq⟩ := lastSorted_some hne
    obtain ⟨h1, h2⟩ := lastSorted_spec hq
    rw [hq, le_antisymm (hm q h1) (h2 p hp)]
  | a :: r1, h => by
    rw [List.cons_append, walkLoop, if_neg (by rw [h a List.mem_cons_self]; simp)]
    exact walkLoop_of hp hm r1 fun r hr => h r (List.mem_cons_of_mem _ hr)

theorem walkLoop_of_none {fs : FS} : ∀ l : List String, (∀ r ∈ l, fs.glob r = []) → walkLoop fs l = none
  | [], _ => rfl
  | a :: l, h => by
    rw [walkLoop, if_neg (by rw [h a List.mem_cons_self]; simp)]
    exact walkLoop_of_none l fun r hr => h r (List.mem_cons_of_mem _ hr)

theorem searchLoop_of {fs : FS} {missingOK : Bool} {d p : String} {post : List String} (h : MatchIn fs d p) : ∀ pre : List String,
    (∀ x ∈ pre, NoMatch fs x ∧ (missingOK = false → fs.dirExists x = true)) → searchLoop fs missingOK (pre ++ d :: post) = .ok p
  | [], _ => by
    obtain ⟨h1, r1, root, r2, h2, h3, h4, h5⟩ := h
    rw [List.nil_append, searchLoop, if_neg (by rw [h1]; simp), h2, walkLoop_of h4 h5 r1 h3]
  | x :: pre, hp => by
    obtain ⟨h1, h2⟩ := hp x List.mem_cons_self
    have ih := searchLoop_of (post := post) h pre fun y hy => hp y (List.mem_cons_of_mem _ hy)
    rw [List.cons_append, searchLoop]
    cases hx : fs.dirExists x with
    | false =>
      cases hm : missingOK with
      | true => rw [hm] at ih; simpa using ih
      | false => have := h2 hm; rw [hx] at this; cases this
    | true => rw [if_neg (by simp), walkLoop_of_none _ (h1 hx)]; exact ih

/-- `findpath` returns exactly the documented match -/
theorem findpath_iff (fs : FS) (env : Option String) (userdirs appdirs : List String) (missingOK : Bool) (p : String) :
    findpath fs env userdirs appdirs missingOK = .ok p ↔ Documented fs (searchDirs env userdirs appdirs) missingOK p := by
  refine ⟨fun h => C42_found fs env userdirs appdirs missingOK p h, ?_⟩
  rintro ⟨pre, d, post, h1, h2, h3⟩
  rw [findpath, h1]
  exact searchLoop_of h3 pre h2

section
variable {V : Type} {fs : FS} {content : Contents} {literal : String → Except Err V} {env : Option String} {userdirs appdirs : List String}
  {missingOK : Bool}

/-- **C93.** `ReadDictData` returns `v` exactly when the documented match can be read and its text is a literal with this value. -/
theorem C93_value (v : V) : readDictData fs content literal env userdirs appdirs missingOK = .ok v ↔
    ∃ p t, Documented fs (searchDirs env userdirs appdirs) missingOK p ∧ content p = some t ∧ literal t = .ok v := by
  unfold readDictData
  constructor
  · intro h
    cases hf : findpath fs env userdirs appdirs missingOK with
    | error e => rw [hf] at h; cases h
    | ok p =>
      rw [hf] at h
      dsimp only at h
      cases hc : content p with
      | none => rw [hc] at h; cases h
      | some t => rw [hc] at h; exact ⟨p, t, (findpath_iff fs env userdirs appdirs missingOK p).1 hf, hc, h⟩
  · rintro ⟨p, t, h1, h2, h3⟩
    rw [(findpath_iff fs env userdirs appdirs missingOK p).2 h1]
    dsimp only
    rw [h2]
    exact h3

/-- **C93 (exceptions).** It raises exactly when there is no documented match, or it cannot be read (IOError both times), or its text is
refused. -/
theorem C93_raises (e : Err) : readDictData fs content literal env userdirs appdirs missingOK = .error e ↔
    (e = .ioError ∧ ((∀ p, ¬ Documented fs (searchDirs env userdirs appdirs) missingOK p) ∨
      ∃ p, Documented fs (searchDirs env userdirs appdirs) missingOK p ∧ content p = none)) ∨
    ∃ p t, Documented fs (searchDirs env userdirs appdirs) missingOK p ∧ content p = some t ∧ literal t = .error e := by
  have huniq : ∀ p q, Documented fs (searchDirs env userdirs appdirs) missingOK p →
      Documented fs (searchDirs env userdirs appdirs) missingOK q → p = q := by
    intro p q hp hq
    have h1 := (findpath_iff fs env userdirs appdirs missingOK p).2 hp
    rw [(findpath_iff fs env userdirs appdirs missingOK q).2 hq] at h1
    injection h1 with h1
    exact h1.symm
  unfold readDictData
  cases hf : findpath fs env userdirs appdirs missingOK with
  | error e' =>
    have he := ((C42_not_found fs env userdirs appdirs missingOK e').1 hf).1
    subst he
    have hno : ∀ p, ¬ Documented fs (searchDirs env userdirs appdirs) missingOK p := by
      intro p hp
      rw [(findpath_iff fs env userdirs appdirs missingOK p).2 hp] at hf
      cases hf
    constructor
    · intro h; injection h with h; exact .inl ⟨h.symm, .inl hno⟩
    · rintro (⟨rfl, -⟩ | ⟨p, t, hp, -⟩)
      · rfl
      · exact absurd hp (hno p)
  | ok p =>
    have hp := (findpath_iff fs env userdirs appdirs missingOK p).1 hf
    dsimp only
    cases hc : content p with
    | none =>
      constructor
      · intro h; injection h with h; exact .inl ⟨h.symm, .inr ⟨p, hp, hc⟩⟩
      · rintro (⟨rfl, -⟩ | ⟨q, t, hq, hc', -⟩)
        · rfl
        · rw [huniq q p hq hp, hc] at hc'; cases hc'
    | some t =>
      constructor
      · intro h; exact .inr ⟨p, t, hp, hc, h⟩
      · rintro (⟨rfl, h | ⟨q, hq, hc'⟩⟩ | ⟨q, t', hq, hc', h⟩)
        · exact absurd hp (h p)
        · rw [huniq q p hq hp, hc] at hc'; cases hc'
        · rw [huniq q p hq hp, hc] at hc'
          injection hc' with hc'
          subst hc'
          exact h

/-- **C93 (violated: one match hides the others).** When the documented match cannot be read, for instance because it is a directory, `ReadDictData`
raises IOError, whatever files with the name there are in the same or in later search directories. -/
theorem C93_hidden {p : String} (h : Documented fs (searchDirs env userdirs appdirs) missingOK p) (hc : content p = none) :
    readDictData fs content literal env userdirs appdirs missingOK = .error .ioError :=
  (C93_raises _).2 (.inl ⟨rfl, .inr ⟨p, h, hc⟩⟩)

/-- **C93 (strings).** A file read by `ReadDictData` gives what `ReadDictString` gives for its text. -/
theorem C93_string {p t : String} (h : Documented fs (searchDirs env userdirs appdirs) missingOK p) (hc : content p = some t) :
    readDictData fs content literal env userdirs appdirs missingOK = readDictString literal t := by
  unfold readDictData
  rw [(findpath_iff fs env userdirs appdirs missingOK p).2 h]
  dsimp only
  rw [hc]
  rfl

end

/-- a directory with the name in the first search directory hides the file in the second -/
theorem C93_witness : Documented ⟨fun _ => true, fun d => [d], fun r => if r = "a" then ["a/x"] else ["b/x"]⟩ ["a", "b"] true "a/x" ∧
    readDictData (V := String) ⟨fun _ => true, fun d => [d], fun r => if r = "a" then ["a/x"] else ["b/x"]⟩
      (fun p => if p = "b/x" then some "{}" else none) .ok none ["a"] ["b"] true = .error .ioError := by
  have h : Documented ⟨fun _ => true, fun d => [d], fun r => if r = "a" then ["a/x"] else ["b/x"]⟩ ["a", "b"] true "a/x" :=
    ⟨[], "a", ["b"], rfl, by simp, rfl, [], "a", [], rfl, by simp, by simp, by simp⟩
  exact ⟨h, C93_hidden (userdirs := ["a"]) (appdirs := ["b"]) (env := none) h rfl⟩

/-! ## tictoc.py -/

/-- one call, with the time at which it is made -/
inductive TT
  | tic (now : ℚ)
  | toc (now : ℚ) (t0 : Option ℚ)

/-- `tic` and `toc`, tictoc.py:7-13: the new value of `_ticT0_` and what is returned -/
def TT.run (s : ℚ) : TT → ℚ × ℚ
  | .tic now => (now, now)
  | .toc now t0 => (s, now - (match t0 with | some x => if x ≠ 0 then x else s | none => s))

/-- `_ticT0_` after a session, from `_ticT0_ = 0.` (tictoc.py:5) -/
def ticState (h : List TT) : ℚ := h.foldl (fun s c => (c.run s).1) 0

/-- the time of the last `tic()` of a session -/
def lastTic : List TT → Option ℚ
  | [] => none
  | .tic now :: r => some ((lastTic r).getD now)
  | .toc _ _ :: r => lastTic r

theorem ticState_from (h : List TT) : ∀ s, h.foldl (fun s c => (c.run s).1) s = (lastTic h).getD s := by
  induction h with
  | nil => intro s; rfl
  | cons c h ih =>
    intro s
    rw [List.foldl_cons, ih]
    cases c with
    | tic now => rfl
    | toc now t0 => rfl

/-- **C94.** Whatever was called before, `toc()` returns the time since the last `tic()` (since the epoch when there was none). -/
theorem C94_toc (h : List TT) (now : ℚ) : ((TT.toc now none).run (ticState h)).2 = now - (lastTic h).getD 0 := by
  unfold ticState
  rw [ticState_from]
  rfl

/-- **C94 (nested timers).** The time returned by a `tic()`, handed to `toc` at any later moment, gives the time since that call, whatever other
`tic()` were made in between. -/
theorem C94_nested (h h' : List TT) {t : ℚ} (ht : t ≠ 0) (now : ℚ) :
    let t0 := ((TT.tic t).run (ticState h)).2
    ((TT.toc now (some t0)).run (ticState (h ++ TT.tic t :: h'))).2 = now - t := by
  show now - (if t ≠ 0 then t else _) = now - t
  rw [if_pos ht]

/-- **C94 (violated at zero).** `toc(0)` is not the time since 0 but that since the last `tic()`. -/
theorem C94_zero (h : List TT) (now : ℚ) : ((TT.toc now (some 0)).run (ticState h)).2 = ((TT.toc now none).run (ticState h)).2 := rfl

/-- **C94 (asking changes nothing).** `toc` leaves the timer as it is. -/
theorem C94_pure (h : List TT) (now : ℚ) (t0 : Option ℚ) : ticState (h ++ [.toc now t0]) = ticState h := by
  simp [ticState, TT.run]

/-- two timers, one inside the other -/
theorem C94_witness : lastTic [.tic 5, .toc 6 none, .tic 7, .toc 8 (some 5)] = some 7 ∧
    ((TT.toc 9 (some 5)).run (ticState [.tic 5, .tic 7])).2 = 4 ∧ ((TT.toc 9 none).run (ticState [.tic 5, .tic 7])).2 = 2 := by
  refine ⟨rfl, ?_, ?_⟩ <;> norm_num [ticState, TT.run]

end PyRFtk.Misc
