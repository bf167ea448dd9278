import Verif.Base
import Mathlib.Data.List.Basic
import Mathlib.Tactic.Ring

/-!
# The log: `config.py` (`setLogLevel`, `logit`, `ident`, `logident`): property C92

Parameters: the level of the root logger (`root`; 50 after `logging.basicConfig` of config.py:23-29, whatever it was before if logging was
configured already).  Simplifications: `logging.disable` is not used; the file is the list of records; the lines written about the
arguments of a call are given ready-made; a function of the library reads `logit['DEBUG']` once at its start, and inner calls see the
same value (no function of the library calls `setLogLevel`).
-/

namespace PyRFtk.Log

abbrev Text := List Char

/-- `logging._nameToLevel` -/
def nameToLevel : List (String × ℤ) :=
  [("CRITICAL", 50), ("FATAL", 50), ("ERROR", 40), ("WARN", 30), ("WARNING", 30), ("INFO", 20), ("DEBUG", 10), ("NOTSET", 0)]

/-- `logging._levelToName` -/
def levelToName : List (ℤ × String) :=
  [(50, "CRITICAL"), (40, "ERROR"), (30, "WARNING"), (20, "INFO"), (10, "DEBUG"), (0, "NOTSET")]

/-- `logging.getLevelName` -/
def levelName (n : ℤ) : String := match levelToName.lookup n with
  | some s => s
  | none => "Level " ++ toString n

/-- the level of the logger, the dictionary `logit`, the attributes of `ident` and `logident` (a missing `N` is 0, a missing `stack`
empty: config.py:88-91, 109-113), and the records written -/
structure St where
  level : ℤ
  logit : List (String × Bool)
  N : ℤ
  stack : List Text
  log : List (ℤ × Text)

/-- `tLogger.getEffectiveLevel()` -/
def St.eff (root : ℤ) (s : St) : ℤ := if s.level = 0 then root else s.level

/-- `tLogger.isEnabledFor(n)`: `logging.disable` is 0 -/
def St.enabled (root : ℤ) (s : St) (n : ℤ) : Bool := decide (0 < n ∧ s.eff root ≤ n)

/-- `d[k] = v` for a dictionary -/
def put (k : String) (v : Bool) : List (String × Bool) → List (String × Bool)
  | [] => [(k, v)]
  | (k', v') :: r => if k' = k then (k, v) :: r else (k', v') :: put k v r

/-- the argument of `setLogLevel` -/
inductive Arg
  | int (n : ℤ)
  | name (s : String)

/-- a record of the logger itself, at a level -/
def St.emit (root : ℤ) (s : St) (n : ℤ) (t : Text) : St := if s.enabled root n then { s with log := s.log ++ [(n, t)] } else s

/-- the loop of config.py:47-48 -/
def setFlags (root : ℤ) (s : St) : List (ℤ × String) → St
  | [] => s
  | (n, k) :: r => setFlags root { s with logit := put k (s.enabled root n) s.logit } r

/-- `setLogLevel`, config.py:37-48 -/
def setLogLevel (root : ℤ) (s : St) (a : Arg) : St × Except Err Unit :=
  match (match a with | .int n => some n | .name k => nameToLevel.lookup k) with
  | none => (s, .error .keyError)
  | some n =>
    let s := if s.logit.lookup "DEBUG" = some true ∨ n = 10 then
        s.emit root 10 ("Change loglevel from " ++ levelName root ++ " to " ++ levelName n).toList else s
    (setFlags root { s with level := n } levelToName, .ok ())

/-- config.py:19, 57: every level on, then `setLogLevel(logging.CRITICAL)` -/
def start (root : ℤ) : St := (setLogLevel root ⟨0, nameToLevel.map fun e => (e.1, true), 0, [], []⟩ (.int 50)).1

/-- `f'{n:3d}'` -/
def pad3 (n : ℤ) : Text := List.replicate (3 - (toString n).toList.length) ' ' ++ (toString n).toList

/-- `f'[{N:3d}] ' + '| '*N + message`, config.py:94 -/
def identText (N : ℤ) (m : Text) : Text := "[".toList ++ pad3 N ++ "] ".toList ++ (List.replicate N.toNat "| ".toList).flatten ++ m

/-- `ident`, config.py:87-97 -/
def ident (s : St) (m : Text) (d : ℤ) : St × Text :=
  let N := s.N + if d < 0 then d else 0
  ({ s with N := N + if 0 < d then d else 0 }, identText N m)

/-- `flog`: the method of the effective level; `NOTSET` writes nothing (config.py:126-133) -/
def flog (root : ℤ) (s : St) (t : Text) : St := if s.eff root = 0 then s else { s with log := s.log ++ [(s.eff root, t)] }

/-- `ident` followed by `flog` -/
def note (root : ℤ) (s : St) (m : Text) (d : ℤ) : St := flog root (ident s m d).1 (ident s m d).2

/-- blanks of `str.split` -/
def blank (c : Char) : Bool := c = ' ' ∨ c = '\t' ∨ c = '\n' ∨ c = '\r'

/-- `(text.lstrip().split() + [''])[0]` -/
def firstWord (t : Text) : Text := (t.dropWhile blank).takeWhile (!blank ·)

/-- `logident(message)` called in a function of the given name, config.py:108-176; `lines` are the lines about the arguments -/
def logident (root : ℤ) (s : St) (caller : Text) (lines : List Text) (m : Text) : St × Except Err Unit :=
  match levelToName.lookup (s.eff root) with
  | none => (s, .error .keyError)                                                                          -- 133
  | some _ => match m with
    | [] => (s, .error .indexError)                                                                        -- 138
    | '>' :: r =>                                                                                          -- 138-167
      let s := note root s ("> ".toList ++ caller ++ " ".toList ++ firstWord r) 1
      let s := { s with stack := caller :: s.stack }
      (lines.foldl (fun s l => note root s l 0) s, .ok ())
    | '<' :: _ =>                                                                                          -- 169-172
      match s.stack with
      | [] => (note root s "< **stack err**".toList (-1), .ok ())
      | c :: st => (note root { s with stack := st } ("< ".toList ++ c) (-1), .ok ())
    | m => (note root s m 0, .ok ())                                                                       -- 175-176

/-- what functions of the library do to the log: messages, and calls of functions with the words and lines of their first message,
what they do inside, and whether they write the closing message (they do not when they are left by an exception) -/
inductive Trace
  | nil
  | say (m : Text) (rest : Trace)
  | call (name : Text) (m : Text) (lines : List Text) (body : Trace) (closed : Bool) (rest : Trace)

/-- `_debug_ and logident(…)` -/
def guarded (root : ℤ) (dbg : Bool) (s : St) (caller : Text) (lines : List Text) (m : Text) : St × Except Err Unit :=
  if dbg then logident root s caller lines m else (s, .ok ())

/-- the effect of a trace: every function reads `_debug_ = logit['DEBUG']` at its start -/
def run (root : ℤ) (caller : Text) (dbg : Bool) : Trace → St → St × Except Err Unit
  | .nil, s => (s, .ok ())
  | .say m r, s => match guarded root dbg s caller [] m with
    | (s, .error e) => (s, .error e)
    | (s, .ok _) => run root caller dbg r s
  | .call name m lines body closed r, s =>
    let d := s.logit.lookup "DEBUG" = some true
    match guarded root d s name lines ('>' :: m) with
    | (s, .error e) => (s, .error e)
    | (s, .ok _) => match run root name d body s with
      | (s, .error e) => (s, .error e)
      | (s, .ok _) => match (if closed then guarded root d s name [] "<".toList else (s, .ok ())) with
        | (s, .error e) => (s, .error e)
        | (s, .ok _) => run root caller dbg r s

/-- one call of the library by the user -/
def use (root : ℤ) (name m : Text) (lines : List Text) (body : Trace) (closed : Bool) (s : St) : St × Except Err Unit :=
  run root [] false (.call name m lines body closed .nil) s

/-- what a user does -/
inductive Op
  | set (a : Arg)
  | use (name m : Text) (lines : List Text) (body : Trace) (closed : Bool)

/-- one operation; an exception reaches the user -/
def step (root : ℤ) (s : St) : Op → St × Except Err Unit
  | .set a => setLogLevel root s a
  | .use n m l b c => use root n m l b c s

/-- a session: exceptions are caught by the user -/
def exec (root : ℤ) (ops : List Op) : St := ops.foldl (fun s o => (step root s o).1) (start root)

/-! ## specification -/

/-- a message which neither opens nor closes a function -/
def Plain (m : Text) : Prop := m ≠ [] ∧ m.head? ≠ some '>' ∧ m.head? ≠ some '<'

/-- all messages are plain, and every function writes its closing message -/
def Trace.Closed : Trace → Prop
  | .nil => True
  | .say m r => Plain m ∧ r.Closed
  | .call _ _ _ b c r => b.Closed ∧ c = true ∧ r.Closed

/-- all messages are plain -/
def Trace.AllPlain : Trace → Prop
  | .nil => True
  | .say m r => Plain m ∧ r.AllPlain
  | .call _ _ _ b _ r => b.AllPlain ∧ r.AllPlain

/-- the number of functions left without closing message -/
def Trace.open : Trace → ℕ
  | .nil => 0
  | .say _ r => r.open
  | .call _ _ _ b c r => b.open + (if c then 0 else 1) + r.open

/-- the lines of the log: each message behind as many bars as functions are open around it -/
def Trace.lines (d : ℤ) : Trace → List Text
  | .nil => []
  | .say m r => identText d m :: r.lines d
  | .call n m l b _ r => identText d ("> ".toList ++ n ++ " ".toList ++ firstWord m) :: l.map (identText (d + 1)) ++ b.lines (d + 1) ++
      identText d ("< ".toList ++ n) :: r.lines d

/-! ## lemmas -/

theorem lookup_put (k k' : String) (v : Bool) (l : List (String × Bool)) :
    (put k v l).lookup k' = if k' = k then some v else l.lookup k' := by
  induction l with
  | nil => simp [put, List.lookup]; split <;> simp_all
  | cons e r ih =>
    obtain ⟨a, b⟩ := e
    rw [put]
    by_cases ha : a = k
    · rw [if_pos ha]
      subst ha
      by_cases hk : k' = a
      · subst hk; simp
      · simp [List.lookup, hk, beq_eq_false_iff_ne.2 hk]
    · rw [if_neg ha]
      by_cases hk : k' = a
      · subst hk; simp [List.lookup, ha]
      · simp only [List.lookup, beq_eq_false_iff_ne.2 hk, ih]

/-- everything `setFlags` does -/
theorem setFlags_spec (root : ℤ) (s : St) : setFlags root s levelToName = { s with logit := (setFlags root s levelToName).logit } ∧
    ∀ k, (setFlags root s levelToName).logit.lookup k =
      if k = "NOTSET" then some (s.enabled root 0) else if k = "DEBUG" then some (s.enabled root 10) else
      if k = "INFO" then some (s.enabled root 20) else if k = "WARNING" then some (s.enabled root 30) else
      if k = "ERROR" then some (s.enabled root 40) else if k = "CRITICAL" then some (s.enabled root 50) else s.logit.lookup k := by
  refine ⟨rfl, fun k => ?_⟩
  simp only [levelToName, setFlags, lookup_put]
  rfl

/-- the flags say what the logger writes -/
def Flags (root : ℤ) (s : St) : Prop :=
  (∀ e ∈ levelToName, s.logit.lookup e.2 = some (decide (0 < e.1 ∧ s.eff root ≤ e.1))) ∧
  s.logit.lookup "WARN" = some true ∧ s.logit.lookup "FATAL" = some true

theorem emit_same (root : ℤ) (s : St) (n : ℤ) (t : Text) : ∃ l, s.emit root n t = { s with log := l } := by
  unfold St.emit; split
  · exact ⟨_, rfl⟩
  · exact ⟨s.log, rfl⟩

theorem setLogLevel_ok (root : ℤ) (s s' : St) (a : Arg) (h : setLogLevel root s a = (s', .ok ())) :
    ∃ n, (match a with | .int n => some n | .name k => nameToLevel.lookup k) = some n ∧ s'.level = n ∧ s'.N = s.N ∧ s'.stack = s.stack ∧
      (s.logit.lookup "WARN" = some true ∧ s.logit.lookup "FATAL" = some true → Flags root s') := by
  unfold setLogLevel at h
  cases hm : (match a with | .int n => some n | .name k => nameToLevel.lookup k) with
  | none => rw [hm] at h; cases h
  | some n =>
    rw [hm] at h
    dsimp only at h
    have hs : ∃ l, (if s.logit.lookup "DEBUG" = some true ∨ n = 10 then
        s.emit root 10 ("Change loglevel from " ++ levelName root ++ " to " ++ levelName n).toList else s) = { s with log := l } := by
      split
      · exact emit_same root s _ _
      · exact ⟨s.log, rfl⟩
    obtain ⟨l, hl⟩ := hs
    rw [hl] at h
    obtain ⟨h1, h2⟩ := setFlags_spec root { s with log := l, level := n }
    injection h with h _
    rw [← h]
    refine ⟨n, rfl, by rw [h1], by rw [h1], by rw [h1], fun hw => ⟨?_, ?_, ?_⟩⟩
    · have he : St.eff root (setFlags root { s with log := l, level := n } levelToName) = St.eff root { s with log := l, level := n } := by
        rw [h1]; rfl
      intro e hem
      rw [he, h2]
      simp only [levelToName, List.mem_cons, List.not_mem_nil, or_false] at hem
      rcases hem with rfl | rfl | rfl | rfl | rfl | rfl <;> rfl
    · rw [h2]; exact hw.1
    · rw [h2]; exact hw.2

theorem setLogLevel_raises (root : ℤ) (s s' : St) (a : Arg) {e : Err} (h : setLogLevel root s a = (s', .error e)) :
    s' = s ∧ e = .keyError ∧ ∃ k, a = .name k ∧ nameToLevel.lookup k = none := by
  unfold setLogLevel at h
  cases a with
  | int n => dsimp only at h; cases h
  | name k =>
    dsimp only at h
    cases hk : nameToLevel.lookup k with
    | none => rw [hk] at h; injection h with h1 h2; injection h2 with h2; exact ⟨h1.symm, h2.symm, k, rfl, hk⟩
    | some n => rw [hk] at h; cases h

theorem set_int (root : ℤ) (s : St) (n : ℤ) : setLogLevel root s (.int n) = ((setLogLevel root s (.int n)).1, .ok ()) := rfl

theorem start_set (root : ℤ) : setLogLevel root ⟨0, nameToLevel.map fun e => (e.1, true), 0, [], []⟩ (.int 50) = (start root, .ok ()) := by
  rw [set_int]; unfold start; rfl

/-- `s'` differs from `s` in depth, open functions and records only -/
def SameLevel (s s' : St) : Prop := s'.level = s.level ∧ s'.logit = s.logit

theorem SameLevel.rfl' (s : St) : SameLevel s s := ⟨rfl, rfl⟩
theorem SameLevel.trans {a b c : St} (h : SameLevel a b) (h' : SameLevel b c) : SameLevel a c := ⟨h'.1.trans h.1, h'.2.trans h.2⟩
theorem SameLevel.eff {s s' : St} (h : SameLevel s s') (root : ℤ) : s'.eff root = s.eff root := by unfold St.eff; rw [h.1]

theorem note_same (root : ℤ) (s : St) (m : Text) (d : ℤ) : SameLevel s (note root s m d) := by
  unfold note flog
  split <;> exact ⟨rfl, rfl⟩

theorem notes_same (root : ℤ) (ls : List Text) (s : St) : SameLevel s (ls.foldl (fun s l => note root s l 0) s) := by
  induction ls generalizing s with
  | nil => exact .rfl' s
  | cons l ls ih => exact (note_same root s l 0).trans (ih _)

theorem logident_same (root : ℤ) (s : St) (c : Text) (ls : List Text) (m : Text) : SameLevel s (logident root s c ls m).1 := by
  unfold logident
  split
  · exact .rfl' s
  · split
    · exact .rfl' s
    · exact (SameLevel.trans (note_same root s _ 1) ⟨rfl, rfl⟩).trans (notes_same root ls _)
    · split
      · exact note_same root s _ _
      · rename_i c st _
        exact SameLevel.trans (b := { s with stack := st }) ⟨rfl, rfl⟩ (note_same root _ _ _)
    · exact note_same root s _ _

theorem guarded_same (root : ℤ) (dbg : Bool) (s : St) (c : Text) (ls : List Text) (m : Text) :
    SameLevel s (guarded root dbg s c ls m).1 := by
  unfold guarded; split
  · exact logident_same root s c ls m
  · exact .rfl' s

theorem run_same (root : ℤ) : ∀ (t : Trace) (caller : Text) (dbg : Bool) (s : St), SameLevel s (run root caller dbg t s).1
  | .nil, _, _, s => .rfl' s
  | .say m r, caller, dbg, s => by
    rw [run]
    have h := guarded_same root dbg s caller [] m
    split
    · rename_i hg; rw [hg] at h; exact h
    · rename_i hg; rw [hg] at h; exact h.trans (run_same root r caller dbg _)
  | .call name m lines body closed r, caller, dbg, s => by
    rw [run]
    have h1 := guarded_same root (decide (s.logit.lookup "DEBUG" = some true)) s name lines ('>' :: m)
    split
    · rename_i hg; rw [hg] at h1; exact h1
    · rename_i s1 _ hg
      rw [hg] at h1
      have h2 := run_same root body name (decide (s.logit.lookup "DEBUG" = some true)) s1
      split
      · rename_i hb; rw [hb] at h2; exact h1.trans h2
      · rename_i s2 _ hb
        rw [hb] at h2
        have h3 : SameLevel s2 (if closed then guarded root (decide (s.logit.lookup "DEBUG" = some true)) s2 name [] "<".toList
            else (s2, .ok ())).1 := by
          split
          · exact guarded_same _ _ _ _ _ _
          · exact .rfl' _
        split
        · rename_i hc; rw [hc] at h3; exact (h1.trans h2).trans h3
        · rename_i hc; rw [hc] at h3; exact ((h1.trans h2).trans h3).trans (run_same root r caller dbg _)

theorem start_flags (root : ℤ) : Flags root (start root) := by
  have h := setLogLevel_ok root _ _ _ (start_set root)
  obtain ⟨n, -, -, -, -, hf⟩ := h
  exact hf ⟨rfl, rfl⟩

theorem Flags.same {root : ℤ} {s s' : St} (h : Flags root s) (hs : SameLevel s s') : Flags root s' := by
  unfold Flags at h ⊢
  rw [hs.eff root, hs.2]
  exact h

theorem exec_flags (root : ℤ) (ops : List Op) : Flags root (exec root ops) := by
  have key : ∀ (ops : List Op) (s : St), Flags root s → Flags root (ops.foldl (fun s o => (step root s o).1) s) := by
    intro ops
    induction ops with
    | nil => intro s h; exact h
    | cons o ops ih =>
      intro s h
      apply ih
      cases o with
      | use n m l b c => exact h.same (run_same root _ [] false s)
      | set a =>
        show Flags root (setLogLevel root s a).1
        cases hr : setLogLevel root s a with
        | mk s' r =>
          cases r with
          | error e => rw [(setLogLevel_raises root s s' a hr).1]; exact h
          | ok u =>
            obtain ⟨n, -, -, -, -, hf⟩ := setLogLevel_ok root s s' a hr
            exact hf h.2
  exact key ops _ (start_flags root)

/-- **C92 (flags).** After any session, the flag of each of the six levels says whether records of this level are written. -/
theorem C92_flags (root : ℤ) (ops : List Op) {n : ℤ} {name : String} (h : (n, name) ∈ levelToName) :
    (exec root ops).logit.lookup name = some (decide (0 < n ∧ (exec root ops).eff root ≤ n)) := (exec_flags root ops).1 _ h

/-- **C92 (violated: aliases).** The flags `WARN` and `FATAL` stay on for ever, also when warnings are not written, as after
`setLogLevel(logging.CRITICAL)`, that is at the start. -/
theorem C92_aliases (root : ℤ) (ops : List Op) : (exec root ops).logit.lookup "WARN" = some true ∧
    (exec root ops).logit.lookup "FATAL" = some true ∧
    ((exec root []).logit.lookup "WARNING" = some false ∧ (exec root []).logit.lookup "WARN" = some true) := by
  refine ⟨(exec_flags root ops).2.1, (exec_flags root ops).2.2, ?_, (exec_flags root []).2.1⟩
  rw [C92_flags root [] (n := 30) (by decide)]
  have : (exec root []).eff root = 50 := by
    obtain ⟨n, hn, h, -⟩ := setLogLevel_ok root _ _ _ (start_set root)
    injection hn with hn
    show St.eff root (start root) = 50
    unfold St.eff
    rw [h, ← hn]; rfl
  rw [this]; rfl

/-- **C92 (setting).** A known name or a number sets the level (zero gives the one of the root logger); an unknown name is refused and
changes nothing. -/
theorem C92_set (root : ℤ) (s : St) : (∀ n : ℤ, (setLogLevel root s (.int n)).2 = .ok () ∧
      (setLogLevel root s (.int n)).1.eff root = if n = 0 then root else n) ∧
    (∀ n name, (name, n) ∈ nameToLevel → (setLogLevel root s (.name name)).2 = .ok () ∧
      (setLogLevel root s (.name name)).1.eff root = if n = 0 then root else n) ∧
    ∀ name, name ∉ nameToLevel.map Prod.fst → setLogLevel root s (.name name) = (s, .error .keyError) := by
  have key : ∀ (a : Arg) (n : ℤ), (match a with | .int n => some n | .name k => nameToLevel.lookup k) = some n →
      (setLogLevel root s a).2 = .ok () ∧ (setLogLevel root s a).1.eff root = if n = 0 then root else n := by
    intro a n hn
    have h2 : (setLogLevel root s a).2 = .ok () := by unfold setLogLevel; rw [hn]
    refine ⟨h2, ?_⟩
    obtain ⟨n', hn', hl, -⟩ := setLogLevel_ok root s (setLogLevel root s a).1 a (by rw [← h2])
    rw [hn] at hn'
    injection hn' with hn'
    unfold St.eff
    rw [hl, hn']
  refine ⟨fun n => key _ n rfl, fun n name h => key _ n ?_, fun name h => ?_⟩
  · simp only [nameToLevel, List.mem_cons, Prod.mk.injEq, List.not_mem_nil, or_false] at h
    rcases h with ⟨rfl, rfl⟩ | ⟨rfl, rfl⟩ | ⟨rfl, rfl⟩ | ⟨rfl, rfl⟩ | ⟨rfl, rfl⟩ | ⟨rfl, rfl⟩ | ⟨rfl, rfl⟩ | ⟨rfl, rfl⟩ <;> rfl
  · have : nameToLevel.lookup name = none := by
      rw [List.lookup_eq_none_iff]
      intro p hp
      have : name ≠ p.1 := fun hh => h (hh ▸ List.mem_map_of_mem hp)
      simpa using this
    unfold setLogLevel
    dsimp only
    rw [this]

/-- **C92 (violated: the record of a change).** The record written about a change of level names the level of the root logger as the
one before, whatever the level was. -/
theorem C92_change_record (root : ℤ) (s : St) (h : s.enabled root 10 = true) (hf : Flags root s) (n : ℤ) :
    (setLogLevel root s (.int n)).1.log =
      s.log ++ [(10, ("Change loglevel from " ++ levelName root ++ " to " ++ levelName n).toList)] := by
  have hd : s.logit.lookup "DEBUG" = some true := by
    have := hf.1 (10, "DEBUG") (by decide)
    rw [this]
    exact congrArg some h
  unfold setLogLevel
  dsimp only
  rw [if_pos (.inl hd), (setFlags_spec root _).1]
  unfold St.emit
  rw [if_pos h]

theorem debug_iff {root : ℤ} {s : St} (hf : Flags root s) : (s.logit.lookup "DEBUG" = some true) ↔ s.eff root ≤ 10 := by
  rw [hf.1 (10, "DEBUG") (by decide)]
  simp

theorem run_silent (root : ℤ) : ∀ (t : Trace) (caller : Text) (s : St), ¬ s.logit.lookup "DEBUG" = some true →
    run root caller false t s = (s, .ok ())
  | .nil, _, s, _ => rfl
  | .say m r, caller, s, h => by
    rw [run]
    simp only [guarded, Bool.false_eq_true, if_false]
    exact run_silent root r caller s h
  | .call name m lines body closed r, caller, s, h => by
    rw [run]
    simp only [h, decide_false, guarded, Bool.false_eq_true, if_false, run_silent root body name s h]
    cases closed <;> exact run_silent root r caller s h

/-- **C92 (silent).** Above the level `DEBUG` a call of the library leaves the log and its depth alone. -/
theorem C92_silent (root : ℤ) (ops : List Op) (h : 10 < (exec root ops).eff root) (n m : Text) (l : List Text) (b : Trace) (c : Bool) :
    step root (exec root ops) (.use n m l b c) = (exec root ops, .ok ()) := by
  have hd : ¬ (exec root ops).logit.lookup "DEBUG" = some true := by
    rw [debug_iff (exec_flags root ops)]; omega
  exact run_silent root _ [] _ hd

/-- **C92 (violated: numbers below 10).** After `setLogLevel` with a number below 10 other than zero, every call of the library raises
KeyError. -/
theorem C92_low_level (root : ℤ) (s : St) {k : ℤ} (hk : k < 10) (hk0 : k ≠ 0) (hf : Flags root s) (n m : Text) (l : List Text) (b : Trace) (c : Bool) :
    (step root (setLogLevel root s (.int k)).1 (.use n m l b c)).2 = .error .keyError := by
  obtain ⟨h1, h2⟩ := (C92_set root s).1 k
  rw [if_neg hk0] at h2
  obtain ⟨n', -, -, -, -, hf'⟩ := setLogLevel_ok root s (setLogLevel root s (.int k)).1 (.int k) (by rw [← h1])
  have hF := hf' hf.2
  generalize (setLogLevel root s (.int k)).1 = s' at h2 hF
  have hd : s'.logit.lookup "DEBUG" = some true := by rw [debug_iff hF]; omega
  have hl : levelToName.lookup (s'.eff root) = none := by
    rw [h2, List.lookup_eq_none_iff]
    intro p hp
    simp only [levelToName, List.mem_cons, List.not_mem_nil, or_false] at hp
    rcases hp with rfl | rfl | rfl | rfl | rfl | rfl <;> simp <;> omega
  show (run root [] false _ s').2 = _
  rw [run]
  simp only [hd, decide_true, guarded, if_true, logident, hl]

/-- the state after the lines of a trace written at depth `d` -/
def St.after (s : St) (n : ℤ) (ls : List Text) : St := { s with log := s.log ++ ls.map fun t => (n, t) }

theorem note_debug {root : ℤ} {s : St} (h : s.eff root = 10) (m : Text) (d : ℤ) :
    note root s m d = { s with N := s.N + d, log := s.log ++ [(10, identText (s.N + if d < 0 then d else 0) m)] } := by
  unfold note flog ident
  dsimp only
  have : St.eff root { s with N := s.N + (if d < 0 then d else 0) + if 0 < d then d else 0 } = 10 := h
  rw [this, if_neg (by decide)]
  congr 1
  split <;> split <;> omega

theorem notes_debug {root : ℤ} : ∀ (ls : List Text) {s : St}, s.eff root = 10 →
    ls.foldl (fun s l => note root s l 0) s = s.after 10 (ls.map (identText s.N))
  | [], s, _ => by simp [St.after]
  | l :: ls, s, h => by
    have h1 := note_debug h l 0
    rw [List.foldl_cons, notes_debug ls ((note_same root s l 0).eff root ▸ h), h1]
    simp [St.after, Function.comp_def]

theorem opens_debug {root : ℤ} {s : St} (h : s.eff root = 10) (n m : Text) (ls : List Text) : logident root s n ls ('>' :: m) =
    ({ s with N := s.N + 1, stack := n :: s.stack, log := s.log ++
      (identText s.N ("> ".toList ++ n ++ " ".toList ++ firstWord m) :: ls.map (identText (s.N + 1))).map fun t => (10, t) }, .ok ()) := by
  unfold logident
  rw [h]
  show (ls.foldl (fun s l => note root s l 0) _, _) = _
  rw [note_debug h]
  rw [notes_debug ls (by exact h)]
  simp [St.after]

theorem closes_debug {root : ℤ} {s : St} (h : s.eff root = 10) (n c : Text) (st : List Text) (hs : s.stack = c :: st) :
    logident root s n [] "<".toList =
    ({ s with N := s.N - 1, stack := st, log := s.log ++ [(10, identText (s.N - 1) ("< ".toList ++ c))] }, .ok ()) := by
  unfold logident
  rw [h]
  show (match s.stack with | [] => _ | c :: st => _) = _
  rw [hs]
  dsimp only
  rw [note_debug (by exact h)]
  rfl

theorem plain_debug {root : ℤ} {s : St} (h : s.eff root = 10) (n : Text) {m : Text} (hm : Plain m) :
    logident root s n [] m = ({ s with log := s.log ++ [(10, identText s.N m)] }, .ok ()) := by
  have e : note root s m 0 = { s with log := s.log ++ [(10, identText s.N m)] } := by rw [note_debug h]; simp
  unfold logident
  rw [h]
  show (match m with | [] => _ | '>' :: r => _ | '<' :: _ => _ | m => _) = _
  obtain ⟨h1, h2, h3⟩ := hm
  split
  · exact absurd rfl h1
  · exact absurd rfl h2
  · exact absurd rfl h3
  · rw [e]

theorem run_closed {root : ℤ} : ∀ (t : Trace) (caller : Text) {s : St}, s.eff root = 10 → s.logit.lookup "DEBUG" = some true → t.Closed →
    run root caller true t s = (s.after 10 (t.lines s.N), .ok ())
  | .nil, _, s, _, _, _ => by simp [run, Trace.lines, St.after]
  | .say m r, caller, s, he, hd, hc => by
    rw [Trace.Closed] at hc
    rw [run]
    simp only [guarded, if_true, plain_debug he caller hc.1]
    rw [run_closed r caller (by exact he) (by exact hd) hc.2]
    simp [St.after, Trace.lines]
  | .call name m lines body closed r, caller, s, he, hd, hc => by
    rw [Trace.Closed] at hc
    obtain ⟨h1, rfl, h3⟩ := hc
    rw [run]
    simp only [hd, decide_true, guarded, if_true, opens_debug he name m lines]
    rw [run_closed body name (by exact he) (by exact hd) h1]
    dsimp only
    rw [closes_debug (s := St.after _ _ _) (by exact he) name name s.stack rfl]
    dsimp only [St.after]
    rw [run_closed r caller (by exact he) (by exact hd) h3]
    simp [St.after, Trace.lines]

/-- **C92 (depth).** At level `DEBUG`, a call of the library during which every function writes its closing message adds to the log its
messages, each behind as many bars as functions are open around it; depth and open functions are as before. -/
theorem C92_depth (root : ℤ) (ops : List Op) (h : (exec root ops).eff root = 10) (n m : Text) (l : List Text) {b : Trace} (hb : b.Closed) :
    step root (exec root ops) (.use n m l b true) =
      ({ exec root ops with log := (exec root ops).log ++
        ((Trace.call n m l b true .nil).lines (exec root ops).N).map fun t => (10, t) }, .ok ()) := by
  have hd : (exec root ops).logit.lookup "DEBUG" = some true := by rw [debug_iff (exec_flags root ops)]; omega
  generalize exec root ops = s at h hd
  have := run_closed (.call n m l b true .nil) [] h hd ⟨hb, rfl, trivial⟩
  show run root [] false _ s = _
  rw [run] at this ⊢
  simp only [run] at this ⊢
  exact this

theorem run_open {root : ℤ} : ∀ (t : Trace) (caller : Text) {s : St}, s.eff root = 10 → s.logit.lookup "DEBUG" = some true → t.AllPlain →
    (run root caller true t s).2 = .ok () ∧ (run root caller true t s).1.N = s.N + t.open ∧
    ∃ ns, (run root caller true t s).1.stack = ns ++ s.stack ∧ ns.length = t.open
  | .nil, _, s, _, _, _ => by simp [run, Trace.open]
  | .say m r, caller, s, he, hd, hp => by
    rw [Trace.AllPlain] at hp
    rw [run]
    simp only [guarded, if_true, plain_debug he caller hp.1]
    exact run_open r caller (by exact he) (by exact hd) hp.2
  | .call name m lines body closed r, caller, s, he, hd, hp => by
    rw [Trace.AllPlain] at hp
    rw [run]
    simp only [hd, decide_true, guarded, if_true, opens_debug he name m lines]
    set s1 : St := { s with N := s.N + 1, stack := name :: s.stack, log := s.log ++
      (identText s.N ("> ".toList ++ name ++ " ".toList ++ firstWord m) :: lines.map (identText (s.N + 1))).map fun t => (10, t) } with hs1
    obtain ⟨a1, a2, ns, a3, a4⟩ := run_open body name (s := s1) (by exact he) (by exact hd) hp.1
    have a5 := run_same root body name true s1
    cases hrun : run root name true body s1 with
    | mk s2 x =>
      rw [hrun] at a1 a2 a3 a5
      dsimp only at a1 a2 a3 a5
      subst a1
      dsimp only
      have he2 : s2.eff root = 10 := (a5.eff root).trans he
      have hd2 : s2.logit.lookup "DEBUG" = some true := by rw [a5.2]; exact hd
      cases closed with
      | false =>
        simp only [Bool.false_eq_true, if_false]
        obtain ⟨b1, b2, ns', b3, b4⟩ := run_open r caller (s := s2) he2 hd2 hp.2
        refine ⟨b1, ?_, ns' ++ (ns ++ [name]), ?_, ?_⟩
        · rw [b2, a2, hs1]
          simp only [Trace.open, Bool.false_eq_true, if_false]
          push_cast; ring
        · rw [b3, a3, hs1]; simp
        · simp only [Trace.open, Bool.false_eq_true, if_false, List.length_append, b4, a4, List.length_cons, List.length_nil]; omega
      | true =>
        have hst : ∃ c st, s2.stack = c :: st ∧ ∃ ns2, st = ns2 ++ s.stack ∧ ns2.length = ns.length := by
          rw [a3, hs1]
          dsimp only
          cases ns with
          | nil => exact ⟨name, s.stack, rfl, [], rfl, rfl⟩
          | cons c ns => exact ⟨c, ns ++ name :: s.stack, rfl, ns ++ [name], by simp, by simp⟩
        obtain ⟨c, st, hc1, ns2, hc2, hc3⟩ := hst
        simp only [if_true, closes_debug he2 name c st hc1]
        obtain ⟨b1, b2, ns', b3, b4⟩ := run_open r caller
          (s := { s2 with N := s2.N - 1, stack := st, log := s2.log ++ [(10, identText (s2.N - 1) ("< ".toList ++ c))] }) he2 hd2 hp.2
        refine ⟨b1, ?_, ns' ++ ns2, ?_, ?_⟩
        · rw [b2]
          dsimp only
          rw [a2, hs1]
          simp only [Trace.open, if_true]
          push_cast; ring
        · rw [b3]
          dsimp only
          rw [hc2]; simp
        · simp only [Trace.open, if_true, List.length_append, b4, hc3, a4]; omega

/-- **C92 (violated: functions left by an exception).** At level `DEBUG`, after a call of the library the depth is larger by the number of
functions left without their closing message: everything logged later is indented that much more, for the rest of the session. -/
theorem C92_drift (root : ℤ) (ops : List Op) (h : (exec root ops).eff root = 10) (n m : Text) (l : List Text) {b : Trace} (hb : b.AllPlain) (c : Bool) :
    (step root (exec root ops) (.use n m l b c)).2 = .ok () ∧
    (step root (exec root ops) (.use n m l b c)).1.N = (exec root ops).N + b.open + if c then 0 else 1 := by
  have hd : (exec root ops).logit.lookup "DEBUG" = some true := by rw [debug_iff (exec_flags root ops)]; omega
  generalize exec root ops = s at h hd
  obtain ⟨h1, h2, -⟩ := run_open (.call n m l b c .nil) [] h hd ⟨hb, trivial⟩
  have e : run root [] false (.call n m l b c .nil) s = run root [] true (.call n m l b c .nil) s := by
    rw [run, run]; simp only [run]
  show (run root [] false _ s).2 = _ ∧ (run root [] false _ s).1.N = _
  rw [e]
  refine ⟨h1, ?_⟩
  rw [h2]
  simp only [Trace.open]
  push_cast
  cases c <;> simp [add_assoc]

/-- one bar per open function -/
def bars : ℕ → Text
  | 0 => []
  | k + 1 => '|' :: ' ' :: bars k

/-- **C92 (layout of a line).** A line written at depth `n` is the depth in brackets (at least three characters), one bar per open function and
the message. -/
theorem C92_layout (n : ℕ) (m : Text) : ∃ k w, w = List.replicate k ' ' ++ (toString (n : ℤ)).toList ∧ 3 ≤ w.length ∧ (k = 0 ∨ w.length = 3) ∧
    identText n m = '[' :: w ++ ']' :: ' ' :: bars n ++ m := by
  have hb : ∀ k : ℕ, (List.replicate k "| ".toList).flatten = bars k := by
    intro k
    induction k with
    | zero => rfl
    | succ k ih => rw [List.replicate_succ, List.flatten_cons, ih]; rfl
  refine ⟨3 - (toString (n : ℤ)).toList.length, _, rfl, ?_, ?_, ?_⟩
  · rw [List.length_append, List.length_replicate]; omega
  · rw [List.length_append, List.length_replicate]; omega
  · unfold identText pad3
    rw [Int.toNat_natCast, hb]
    show '[' :: _ = '[' :: _
    simp

/-- a session: debugging on, a call with an inner call left by an exception, a second call -/
theorem C92_witness : (exec 50 [.set (.name "DEBUG")]).eff 50 = 10 ∧ (Trace.say "x".toList .nil).Closed ∧
    (exec 50 [.set (.name "DEBUG"), .use "getS".toList [] [] (.call "extS".toList [] [] .nil false .nil) false]).N = 2 ∧
    Flags 50 (start 50) := by
  refine ⟨rfl, ⟨⟨by simp, by decide, by decide⟩, trivial⟩, ?_, start_flags 50⟩
  have := (C92_drift 50 [.set (.name "DEBUG")] rfl "getS".toList [] [] (b := .call "extS".toList [] [] .nil false .nil) ⟨trivial, trivial⟩ false).2
  exact this

end PyRFtk.Log
