import Verif.Base
import Mathlib.Data.Rat.Defs
import Mathlib.Data.List.Basic
import Mathlib.Data.List.Nodup
import Mathlib.Tactic.Linarith
import Mathlib.Tactic.IntervalCases
import Mathlib.Tactic.NormNum
import Mathlib.Algebra.Order.Field.Rat

/-!
# Model of the variable table of `rfGTL.py` (lines 72-102), property C46

A variable is a number or a Python expression given as text; the constructor repeatedly replaces the texts by what
`eval(text, globals(), self.vars)` returns, until a pass over the table finds nothing.

Simplifications: Python's expression grammar enters as a parameter `parse` into a small arithmetic language; names are looked
up in the table only (no `np`, no builtins); numbers are rationals with a flag telling ints from floats (no rounding); values
other than numbers and strings are not modelled.
-/

namespace PyRFtk.GTL

/-- a value of the table -/
inductive Val
  | num (isInt : Bool) (q : ℚ)
  | str (t : String)
deriving DecidableEq

/-- the expressions -/
inductive Expr
  | lit (isInt : Bool) (q : ℚ)
  | var (x : String)
  | add (a b : Expr)
  | sub (a b : Expr)
  | mul (a b : Expr)
  | div (a b : Expr)
  | neg (a : Expr)

abbrev Table := List (String × Val)

/-- `d[x]` -/
def get (ρ : Table) (x : String) : Option Val := ρ.lookup x

/-- `t * n`: a string repeated -/
def repeatStr (t : String) (n : ℚ) : String := String.join (List.replicate n.num.toNat t)

/-- Python's `+`: strings are concatenated -/
def vAdd : Val → Val → Except Err Val
  | .num i p, .num j q => .ok (.num (i && j) (p + q))
  | .str s, .str t => .ok (.str (s ++ t))
  | _, _ => .error .typeError
/-- Python's `-` -/
def vSub : Val → Val → Except Err Val
  | .num i p, .num j q => .ok (.num (i && j) (p - q))
  | _, _ => .error .typeError
/-- Python's `*`: an int times a string repeats it -/
def vMul : Val → Val → Except Err Val
  | .num i p, .num j q => .ok (.num (i && j) (p * q))
  | .num true p, .str t => .ok (.str (repeatStr t p))
  | .str t, .num true p => .ok (.str (repeatStr t p))
  | _, _ => .error .typeError
/-- Python's `/` -/
def vDiv : Val → Val → Except Err Val
  | .num _ p, .num _ q => if q = 0 then .error .zeroDivision else .ok (.num false (p / q))
  | _, _ => .error .typeError
/-- Python's unary `-` -/
def vNeg : Val → Except Err Val
  | .num i p => .ok (.num i (-p))
  | .str _ => .error .typeError

/-- both operands, left first -/
def bin (op : Val → Val → Except Err Val) : Except Err Val → Except Err Val → Except Err Val
  | .error e, _ => .error e
  | .ok _, .error e => .error e
  | .ok u, .ok v => op u v

/-- one operand -/
def un (op : Val → Except Err Val) : Except Err Val → Except Err Val
  | .error e => .error e
  | .ok u => op u

/-- Python's evaluation of an expression -/
def evalE (ρ : Table) : Expr → Except Err Val
  | .lit i q => .ok (.num i q)
  | .var x => match get ρ x with
    | some v => .ok v
    | none => .error .nameError
  | .add a b => bin vAdd (evalE ρ a) (evalE ρ b)
  | .sub a b => bin vSub (evalE ρ a) (evalE ρ b)
  | .mul a b => bin vMul (evalE ρ a) (evalE ρ b)
  | .div a b => bin vDiv (evalE ρ a) (evalE ρ b)
  | .neg a => un vNeg (evalE ρ a)

/-- `eval(val, globals(), self.vars)` -/
def evalT (parse : String → Option Expr) (ρ : Table) (t : String) : Except Err Val :=
  match parse t with
  | none => .error .syntaxError
  | some e => evalE ρ e

/-- the exceptions swallowed, rfGTL.py:99 -/
def swallowed : Err → Bool
  | .nameError | .syntaxError | .typeError => true
  | _ => false

/-- the loop over the table, rfGTL.py:95-100: the entries found in one pass; evaluation uses the table `ρ` as it was before
the pass -/
def pass (parse : String → Option Expr) (ρ : Table) : Table → Except Err Table
  | [] => .ok []
  | (_, .num _ _) :: r => pass parse ρ r
  | (x, .str t) :: r => match evalT parse ρ t with
    | .ok v => (pass parse ρ r).map ((x, v) :: ·)
    | .error e => if swallowed e then pass parse ρ r else .error e

/-- `self.vars.update(found)` for keys already present, rfGTL.py:102 -/
def update (found ρ : Table) : Table := ρ.map fun e => (e.1, (found.lookup e.1).getD e.2)

/-- the table after `n` passes -/
def after (parse : String → Option Expr) (ρ : Table) : ℕ → Except Err Table
  | 0 => .ok ρ
  | n + 1 => match after parse ρ n with
    | .error e => .error e
    | .ok ρ' => match pass parse ρ' ρ' with
      | .error e => .error e
      | .ok found => .ok (update found ρ')

/-- the `while found` loop stops after `n` passes with nothing found -/
def Stops (parse : String → Option Expr) (ρ : Table) (n : ℕ) : Prop :=
  ∃ ρ', after parse ρ n = .ok ρ' ∧ pass parse ρ' ρ' = .ok []

open Classical in
/-- the `while found` loop, rfGTL.py:92-102: the final table, the exception, or `hang` -/
noncomputable def resolve (parse : String → Option Expr) (ρ : Table) : Except Err Table :=
  if h : ∃ n, Stops parse ρ n then after parse ρ (Nat.find h)
  else if h : ∃ n e, after parse ρ n = .error e then .error h.choose_spec.choose
  else .error .hang

/-- the table built by the constructor, rfGTL.py:72-79: the definitions of the block, overridden by those of the model, these
overridden by the argument `variables` -/
def table (loc glo vars : Table) : Table :=
  let upd (a b : Table) : Table := a.map (fun e => (e.1, (b.lookup e.1).getD e.2)) ++ b.filter (fun e => (a.lookup e.1).isNone)
  upd loc (upd glo vars)

/-! ## specification -/

/-- the variables of an expression -/
def Expr.vars : Expr → List String
  | .lit _ _ => []
  | .var x => [x]
  | .add a b | .sub a b | .mul a b | .div a b => a.vars ++ b.vars
  | .neg a => a.vars

/-- `sol` solves the definitions: each number stands for itself and each text has the value of its expression -/
def Solution (parse : String → Option Expr) (ρ : Table) (sol : Table) : Prop :=
  sol.map Prod.fst = ρ.map Prod.fst ∧
  (∀ e ∈ sol, ∃ i q, e.2 = .num i q) ∧
  (∀ x i q, (x, Val.num i q) ∈ ρ → (x, Val.num i q) ∈ sol) ∧
  (∀ x t, (x, Val.str t) ∈ ρ → ∃ e v, parse t = some e ∧ (x, v) ∈ sol ∧ evalE sol e = .ok v)

/-- no variable depends on itself: the variables can be ranked -/
def Acyclic (parse : String → Option Expr) (ρ : Table) (rank : String → ℕ) : Prop :=
  ∀ x t, (x, Val.str t) ∈ ρ → ∀ e, parse t = some e → ∀ y ∈ e.vars, rank y < rank x

/-- the text is the name of a variable, or an expression that cannot turn texts into a text (no sum or int multiple of
texts) -/
def Harmless (parse : String → Option Expr) (t : String) : Prop :=
  ∀ e, parse t = some e → (∃ y, e = .var y) ∨ ∀ σ s, evalE σ e ≠ .ok (.str s)

/-! ## lemmas -/

theorem evalE_vars {σ : Table} {e : Expr} {v : Val} (h : evalE σ e = .ok v) : ∀ y ∈ e.vars, ∃ w, get σ y = some w := by
  have hb : ∀ {op} {a b : Except Err Val}, bin op a b = .ok v → (∃ u, a = .ok u) ∧ ∃ u, b = .ok u := by
    intro op a b h
    cases a <;> cases b <;> simp [bin] at h ⊢
  induction e generalizing v with
  | lit i q => simp [Expr.vars]
  | var x =>
    intro y hy
    simp [Expr.vars] at hy
    subst hy
    simp only [evalE] at h
    cases hg : get σ y with
    | none => simp [hg] at h
    | some w => exact ⟨w, rfl⟩
  | neg a ih =>
    simp only [evalE] at h
    cases ha : evalE σ a with
    | error e => simp [un, ha] at h
    | ok u => exact ih ha (by intro op a b h; cases a <;> cases b <;> simp [bin] at h ⊢)
  | _ a b iha ihb =>
    simp only [evalE] at h
    obtain ⟨⟨u, hu⟩, ⟨w, hw⟩⟩ := hb h
    intro y hy
    simp [Expr.vars] at hy
    rcases hy with hy | hy
    · exact iha hu (by intro op a b h; cases a <;> cases b <;> simp [bin] at h ⊢) y hy
    · exact ihb hw (by intro op a b h; cases a <;> cases b <;> simp [bin] at h ⊢) y hy

theorem evalE_congr {σ τ : Table} {e : Expr} (h : ∀ y ∈ e.vars, get σ y = get τ y) : evalE σ e = evalE τ e := by
  induction e with
  | lit i q => rfl
  | var x => simp only [evalE]; rw [h x (by simp [Expr.vars])]
  | neg a ih => simp only [evalE]; rw [ih h]
  | _ a b iha ihb =>
    simp only [evalE]
    rw [iha (fun y hy => h y (by simp [Expr.vars, hy])), ihb (fun y hy => h y (by simp [Expr.vars, hy]))]

/-- in a table where some values are still texts, evaluation gives the final value, a TypeError or a text -/
def Outcome (r : Except Err Val) (v : Val) : Prop := r = .ok v ∨ r = .error .typeError ∨ ∃ s, r = .ok (.str s)

theorem evalE_partial {σ sol : Table} (hnum : ∀ y w, get sol y = some w → ∃ i q, w = .num i q)
    (hag : ∀ y w, get sol y = some w → get σ y = some w ∨ ∃ s, get σ y = some (.str s)) {e : Expr} {v : Val}
    (h : evalE sol e = .ok v) : (∃ i q, v = .num i q) ∧ Outcome (evalE σ e) v := by
  have key : ∀ (op : Val → Val → Except Err Val),
      (∀ i p j q, op (.num i p) (.num j q) = .error .zeroDivision ∨ ∃ k r, op (.num i p) (.num j q) = .ok (.num k r)) →
      (∀ s w, op (.str s) w = .error .typeError ∨ ∃ t, op (.str s) w = .ok (.str t)) →
      (∀ s w, op w (.str s) = .error .typeError ∨ ∃ t, op w (.str s) = .ok (.str t)) →
      ∀ (a b : Except Err Val) (u w x : Val), a = .ok u → b = .ok w → op u w = .ok x → (∃ i q, u = .num i q) → (∃ i q, w = .num i q) →
      ∀ a' b', Outcome a' u → Outcome b' w → (∃ i q, x = .num i q) ∧ Outcome (bin op a' b') x := by
    intro op h1 h2 h3 a b u w x ha hb hx hu hw a' b' ha' hb'
    obtain ⟨i, p, rfl⟩ := hu
    obtain ⟨j, q, rfl⟩ := hw
    constructor
    · rcases h1 i p j q with h | ⟨k, r, h⟩
      · rw [h] at hx; cases hx
      · rw [h] at hx; injection hx with hx; exact ⟨k, r, hx.symm⟩
    · rcases ha' with rfl | rfl | ⟨s, rfl⟩ <;> rcases hb' with rfl | rfl | ⟨t, rfl⟩ <;> simp only [bin]
      · exact .inl hx
      · exact .inr (.inl rfl)
      · rcases h3 t (.num i p) with h | h
        · exact .inr (.inl h)
        · exact .inr (.inr h)
      · exact .inr (.inl rfl)
      · exact .inr (.inl rfl)
      · exact .inr (.inl rfl)
      · rcases h2 s (.num j q) with h | h
        · exact .inr (.inl h)
        · exact .inr (.inr h)
      · exact .inr (.inl rfl)
      · rcases h2 s (.str t) with h | h
        · exact .inr (.inl h)
        · exact .inr (.inr h)
  induction e generalizing v with
  | lit i q => simp only [evalE] at h ⊢; injection h with h; subst h; exact ⟨⟨i, q, rfl⟩, .inl rfl⟩
  | var x =>
    simp only [evalE] at h ⊢
    cases hg : get sol x with
    | none => simp [hg] at h
    | some w =>
      simp only [hg] at h
      injection h with h
      subst h
      refine ⟨hnum _ _ hg, ?_⟩
      rcases hag _ _ hg with h | ⟨s, h⟩
      · rw [h]; exact .inl rfl
      · rw [h]; exact .inr (.inr ⟨s, rfl⟩)
  | neg a ih =>
    simp only [evalE] at h ⊢
    cases ha : evalE sol a with
    | error e => simp [un, ha] at h
    | ok u =>
      obtain ⟨⟨i, q, rfl⟩, ho⟩ := ih ha
      simp only [ha, un, vNeg] at h
      injection h with h
      subst h
      refine ⟨⟨i, -q, rfl⟩, ?_⟩
      rcases ho with ho | ho | ⟨s, ho⟩ <;> rw [ho]
      · exact .inl rfl
      · exact .inr (.inl rfl)
      · exact .inr (.inl rfl)
  | _ a b iha ihb =>
    simp only [evalE] at h ⊢
    cases ha : evalE sol a with
    | error e => simp [bin, ha] at h
    | ok u =>
      cases hb : evalE sol b with
      | error e => simp [bin, ha, hb] at h
      | ok w =>
        simp only [ha, hb, bin] at h
        refine key _ ?_ ?_ ?_ _ _ u w v ha hb h (iha ha).1 (ihb hb).1 _ _ (iha ha).2 (ihb hb).2
        · intro i p j q
          first
          | exact .inr ⟨_, _, rfl⟩
          | (simp only [vDiv]; split
             · exact .inl rfl
             · exact .inr ⟨_, _, rfl⟩)
        · intro s w
          rcases w with ⟨_ | _, _⟩ | _ <;> first | exact .inl rfl | exact .inr ⟨_, rfl⟩
        · intro s w
          rcases w with ⟨_ | _, _⟩ | _ <;> first | exact .inl rfl | exact .inr ⟨_, rfl⟩

/-- what one entry contributes to a pass -/
def foundOf (parse : String → Option Expr) (ρ : Table) (x : String × Val) : Option (String × Val) :=
  match x with
  | (_, .num _ _) => none
  | (x, .str t) => match evalT parse ρ t with
    | .ok v => some (x, v)
    | .error _ => none

theorem pass_eq {parse : String → Option Expr} {ρ l : Table}
    (h : ∀ x t e, (x, Val.str t) ∈ l → evalT parse ρ t = .error e → swallowed e = true) :
    pass parse ρ l = .ok (l.filterMap (foundOf parse ρ)) := by
  induction l with
  | nil => rfl
  | cons a l ih =>
    have ih := ih (fun x t e hx => h x t e (List.mem_cons_of_mem _ hx))
    obtain ⟨x, v⟩ := a
    cases v with
    | num i q => rw [List.filterMap_cons_none (by rfl)]; exact ih
    | str t =>
      cases he : evalT parse ρ t with
      | ok v => simp [pass, ih, foundOf, he, Except.map]
      | error e => simp [pass, ih, foundOf, he, h x t e (by simp) he]

theorem mem_get {σ : Table} (hn : (σ.map Prod.fst).Nodup) {x : String} {v : Val} : get σ x = some v ↔ (x, v) ∈ σ := by
  induction σ with
  | nil => simp [get]
  | cons a σ ih =>
    obtain ⟨y, w⟩ := a
    simp only [List.map_cons, List.nodup_cons] at hn
    have ih := ih hn.2
    by_cases hxy : x = y
    · subst hxy
      simp only [get, List.lookup_cons_self, List.mem_cons, Prod.mk.injEq, true_and, Option.some.injEq]
      constructor
      · intro h; exact .inl h.symm
      · rintro (h | h)
        · exact h.symm
        · exact absurd (List.mem_map_of_mem (f := Prod.fst) h) hn.1
    · have : (x == y) = false := by simpa using hxy
      simp only [get, List.lookup_cons, this, List.mem_cons, Prod.mk.injEq, hxy, false_and, false_or]
      exact ih

theorem foundOf_fst {parse ρ a b} (h : foundOf parse ρ a = some b) : b.1 = a.1 := by
  obtain ⟨x, v⟩ := a
  cases v with
  | num i q => simp [foundOf] at h
  | str t =>
    simp only [foundOf] at h
    split at h
    · injection h with h; rw [← h]
    · cases h

theorem found_keys {parse ρ} (l : Table) (hn : (l.map Prod.fst).Nodup) : ((l.filterMap (foundOf parse ρ)).map Prod.fst).Nodup := by
  have : ((l.filterMap (foundOf parse ρ)).map Prod.fst).Sublist (l.map Prod.fst) := by
    induction l with
    | nil => simp
    | cons a l ih =>
      simp only [List.map_cons, List.nodup_cons] at hn
      cases hf : foundOf parse ρ a with
      | none => rw [List.filterMap_cons_none hf]; exact (ih hn.2).cons _
      | some b =>
        rw [List.filterMap_cons_some hf, List.map_cons, List.map_cons, foundOf_fst hf]
        exact (ih hn.2).cons_cons _
  exact this.nodup hn

/-! ## the invariant of the loop -/

/-- an entry is final, or a harmless text whose value is the final one -/
def Entry (parse : String → Option Expr) (rank : String → ℕ) (sol : Table) (x : String) (v : Val) : Prop :=
  (x, v) ∈ sol ∨ ∃ t e w, v = .str t ∧ parse t = some e ∧ (∀ y ∈ e.vars, rank y < rank x) ∧ (x, w) ∈ sol ∧
    evalE sol e = .ok w ∧ Harmless parse t

structure Inv (parse : String → Option Expr) (rank : String → ℕ) (sol σ : Table) : Prop where
  keys : σ.map Prod.fst = sol.map Prod.fst
  entry : ∀ x v, (x, v) ∈ σ → Entry parse rank sol x v

/-- the number of texts in a table -/
def texts (σ : Table) : ℕ := σ.countP fun e => match e.2 with | .str _ => true | _ => false

section
variable {parse : String → Option Expr} {rank : String → ℕ} {sol σ : Table}

theorem Inv.agree (h : Inv parse rank sol σ) (hn : (sol.map Prod.fst).Nodup) (y : String) (w : Val) (hy : get sol y = some w) :
    get σ y = some w ∨ ∃ s, get σ y = some (.str s) := by
  have hnσ : (σ.map Prod.fst).Nodup := h.keys ▸ hn
  have hk : y ∈ σ.map Prod.fst := by
    rw [h.keys]
    exact List.mem_map_of_mem (f := Prod.fst) ((mem_get hn).1 hy)
  obtain ⟨⟨y', v⟩, hm, rfl⟩ := List.mem_map.1 hk
  have hg := (mem_get hnσ).2 hm
  rcases h.entry _ _ hm with hs | ⟨t, -, -, rfl, -⟩
  · have := (mem_get hn).2 hs
    rw [hy] at this
    left; rw [hg, ← this]
  · exact .inr ⟨t, hg⟩

/-- what evaluation of a text of the table gives: the final value, a TypeError, or again a text with the same properties -/
theorem Inv.eval (h : Inv parse rank sol σ) (hn : (sol.map Prod.fst).Nodup) (hnum : ∀ e ∈ sol, ∃ i q, e.2 = .num i q)
    {x t : String} (hm : (x, Val.str t) ∈ σ) :
    evalT parse σ t = .error .typeError ∨ ∃ v, evalT parse σ t = .ok v ∧ Entry parse rank sol x v := by
  have hnσ : (σ.map Prod.fst).Nodup := h.keys ▸ hn
  have hnum' : ∀ y w, get sol y = some w → ∃ i q, w = .num i q := fun y w hy => hnum _ ((mem_get hn).1 hy)
  rcases h.entry _ _ hm with hs | ⟨t', e, w, he, hp, hr, hw, hev, hh⟩
  · obtain ⟨i, q, hq⟩ := hnum _ hs
    cases hq
  · injection he with he
    subst he
    have ho := (evalE_partial hnum' (h.agree hn) hev).2
    simp only [evalT, hp]
    rcases ho with ho | ho | ⟨s, ho⟩
    · exact .inr ⟨w, ho, .inl hw⟩
    · exact .inl ho
    · right
      refine ⟨_, ho, ?_⟩
      rcases hh e hp with ⟨y, rfl⟩ | hne
      · -- an alias: the text of the other variable
        simp only [evalE] at ho hev
        cases hg : get σ y with
        | none => simp [hg] at ho
        | some v =>
          simp only [hg] at ho
          injection ho with ho
          subst ho
          cases hgs : get sol y with
          | none => simp [hgs] at hev
          | some v =>
            simp only [hgs] at hev
            injection hev with hev
            subst hev
            have hy := (mem_get hnσ).1 hg
            rcases h.entry _ _ hy with hs' | ⟨t'', e', w', he', hp', hr', hw', hev', hh'⟩
            · obtain ⟨i, q, hq⟩ := hnum _ hs'
              cases hq
            · injection he' with he'
              subst he'
              right
              have hwv : w' = v := by
                have := (mem_get hn).2 hw'
                rw [hgs] at this
                injection this with this
                exact this.symm
              subst hwv
              refine ⟨_, e', w', rfl, hp', fun z hz => ?_, hw, hev', hh'⟩
              have h1 : rank z < rank y := hr' z hz
              have h2 : rank y < rank x := hr y (by simp [Expr.vars])
              omega
      · exact absurd ho (hne _ _)

theorem Inv.pass (h : Inv parse rank sol σ) (hn : (sol.map Prod.fst).Nodup) (hnum : ∀ e ∈ sol, ∃ i q, e.2 = .num i q) :
    GTL.pass parse σ σ = .ok (σ.filterMap (foundOf parse σ)) := by
  apply pass_eq
  intro x t e hx he
  rcases h.eval hn hnum hx with h' | ⟨v, h', -⟩
  · rw [h'] at he
    injection he with he
    subst he
    rfl
  · rw [h'] at he; cases he

theorem mem_update {found σ : Table} (hf : (found.map Prod.fst).Nodup) {x : String} {v : Val} (h : (x, v) ∈ update found σ) :
    (x, v) ∈ found ∨ ((x, v) ∈ σ ∧ ∀ w, (x, w) ∉ found) := by
  obtain ⟨⟨y, w⟩, hm, he⟩ := List.mem_map.1 h
  injection he with h1 h2
  dsimp at h1 h2
  subst h1
  cases hl : found.lookup y with
  | none =>
    rw [hl] at h2
    simp at h2
    subst h2
    refine .inr ⟨hm, fun w' hw' => ?_⟩
    have := (mem_get hf).2 hw'
    rw [get, hl] at this
    cases this
  | some u =>
    rw [hl] at h2
    simp at h2
    subst h2
    exact .inl ((mem_get hf).1 hl)

theorem Inv.step (h : Inv parse rank sol σ) (hn : (sol.map Prod.fst).Nodup) (hnum : ∀ e ∈ sol, ∃ i q, e.2 = .num i q) :
    Inv parse rank sol (update (σ.filterMap (foundOf parse σ)) σ) := by
  have hnσ : (σ.map Prod.fst).Nodup := h.keys ▸ hn
  constructor
  · rw [← h.keys]; simp [update, Function.comp_def]
  · intro x v hm
    rcases mem_update (found_keys σ hnσ) hm with hf | ⟨hm, -⟩
    · obtain ⟨⟨y, w⟩, hy, he⟩ := List.mem_filterMap.1 hf
      have hxy := foundOf_fst he
      dsimp at hxy
      subst hxy
      cases w with
      | num i q => simp [foundOf] at he
      | str t =>
        simp only [foundOf] at he
        rcases h.eval hn hnum hy with h' | ⟨v', h', hent⟩
        · simp [h'] at he
        · simp only [h'] at he
          injection he with he
          injection he with _ he
          subst he
          exact hent
    · exact h.entry _ _ hm

theorem texts_pos {σ : Table} (h : 0 < texts σ) : ∃ x t, (x, Val.str t) ∈ σ := by
  obtain ⟨⟨x, v⟩, hm, hv⟩ := List.countP_pos_iff.1 h
  cases v with
  | num i q => simp at hv
  | str t => exact ⟨x, t, hm⟩

/-- while there are texts, some text evaluates to its final value -/
theorem Inv.progress (h : Inv parse rank sol σ) (hn : (sol.map Prod.fst).Nodup) (hnum : ∀ e ∈ sol, ∃ i q, e.2 = .num i q)
    (hp : 0 < texts σ) : ∃ x t i q, (x, Val.str t) ∈ σ ∧ evalT parse σ t = .ok (.num i q) := by
  have hnσ : (σ.map Prod.fst).Nodup := h.keys ▸ hn
  obtain ⟨x0, t0, h0⟩ := texts_pos hp
  -- the text of least rank
  obtain ⟨x, ⟨t, hx⟩, hmin⟩ : ∃ x, (∃ t, (x, Val.str t) ∈ σ) ∧ ∀ y, (∃ t, (y, Val.str t) ∈ σ) → rank x ≤ rank y := by
    classical
    have hex : ∃ n, ∃ x, (∃ t, (x, Val.str t) ∈ σ) ∧ rank x = n := ⟨_, x0, ⟨t0, h0⟩, rfl⟩
    obtain ⟨x, hx, hr⟩ := Nat.find_spec hex
    exact ⟨x, hx, fun y hy => hr ▸ Nat.find_min' hex ⟨y, hy, rfl⟩⟩
  rcases h.entry _ _ hx with hs | ⟨t', e, w, he, hpar, hr, hw, hev, -⟩
  · obtain ⟨i, q, hq⟩ := hnum _ hs
    cases hq
  · injection he with he
    subst he
    obtain ⟨i, q, hq⟩ := hnum _ hw
    dsimp at hq
    subst hq
    refine ⟨x, t, i, q, hx, ?_⟩
    simp only [evalT, hpar]
    rw [← hev]
    apply evalE_congr
    intro y hy
    obtain ⟨w, hw'⟩ := evalE_vars hev y hy
    rcases h.agree hn y w hw' with h' | ⟨s, h'⟩
    · rw [h', hw']
    · have := hmin y ⟨s, (mem_get hnσ).1 h'⟩
      have := hr y hy
      omega

theorem texts_step (h : Inv parse rank sol σ) (hn : (sol.map Prod.fst).Nodup) (hnum : ∀ e ∈ sol, ∃ i q, e.2 = .num i q)
    (hp : 0 < texts σ) : texts (update (σ.filterMap (foundOf parse σ)) σ) < texts σ := by
  have hnσ : (σ.map Prod.fst).Nodup := h.keys ▸ hn
  have hfn := found_keys (parse := parse) (ρ := σ) σ hnσ
  obtain ⟨x, t, i, q, hx, hev⟩ := h.progress hn hnum hp
  have hfx : (σ.filterMap (foundOf parse σ)).lookup x = some (.num i q) := by
    apply (mem_get hfn).2
    exact List.mem_filterMap.2 ⟨_, hx, by simp [foundOf, hev]⟩
  have hnumf : ∀ y j p, (y, Val.num j p) ∈ σ → (σ.filterMap (foundOf parse σ)).lookup y = none := by
    intro y j p hy
    cases hl : (σ.filterMap (foundOf parse σ)).lookup y with
    | none => rfl
    | some u =>
      obtain ⟨⟨y', w⟩, hy', he⟩ := List.mem_filterMap.1 ((mem_get hfn).1 hl)
      have hyy := foundOf_fst he
      dsimp at hyy
      subst hyy
      have e1 := (mem_get hnσ).2 hy
      have e2 := (mem_get hnσ).2 hy'
      rw [e1] at e2
      injection e2 with e2
      subst e2
      simp [foundOf] at he
  generalize σ.filterMap (foundOf parse σ) = found at *
  unfold texts update
  rw [List.countP_map]
  obtain ⟨l1, l2, rfl⟩ := List.append_of_mem hx
  have le : ∀ l : Table, (∀ e ∈ l, e ∈ l1 ++ (x, Val.str t) :: l2) →
      l.countP ((fun e : String × Val => match e.2 with | .str _ => true | _ => false) ∘ fun e => (e.1, (found.lookup e.1).getD e.2)) ≤
      l.countP (fun e : String × Val => match e.2 with | .str _ => true | _ => false) := by
    intro l hl
    apply List.countP_mono_left
    rintro ⟨y, v⟩ hy hv
    cases v with
    | str s => rfl
    | num j p =>
      rw [Function.comp_apply] at hv
      simp [hnumf y j p (hl _ hy)] at hv
  have h1 := le l1 (fun e he => by simp [he])
  have h2 := le l2 (fun e he => by simp [he])
  rw [List.countP_append, List.countP_append, List.countP_cons, List.countP_cons]
  simp only [Function.comp_apply, hfx, Option.getD_some] at h1 h2 ⊢
  simp
  omega

theorem Inv.final (h : Inv parse rank sol σ) (hn : (sol.map Prod.fst).Nodup) (ht : texts σ = 0) : σ = sol := by
  have hsub : ∀ e ∈ σ, e ∈ sol := by
    rintro ⟨x, v⟩ hm
    rcases h.entry _ _ hm with hs | ⟨t, -, -, rfl, -⟩
    · exact hs
    · have := List.countP_eq_zero.1 ht _ hm
      simp at this
  have hnσ : (σ.map Prod.fst).Nodup := h.keys ▸ hn
  apply List.ext_getElem
  · simpa using congrArg List.length h.keys
  · intro i h1 h2
    have hk : σ[i].1 = sol[i].1 := by
      have := congrArg (fun l : List String => l[i]?) h.keys
      simpa [h1, h2] using this
    have hm := hsub _ (List.getElem_mem h1)
    have e1 := (mem_get hn (x := σ[i].1) (v := σ[i].2)).2 hm
    have e2 := (mem_get hn (x := sol[i].1) (v := sol[i].2)).2 (List.getElem_mem h2)
    rw [hk, e2] at e1
    injection e1 with e1
    exact Prod.ext hk e1.symm

theorem loop (hn : (sol.map Prod.fst).Nodup) (hnum : ∀ e ∈ sol, ∃ i q, e.2 = .num i q) {ρ : Table} (hρ : Inv parse rank sol ρ) :
    ∀ n, ∃ σ, after parse ρ n = .ok σ ∧ Inv parse rank sol σ ∧ texts σ ≤ texts ρ - n := by
  intro n
  induction n with
  | zero => exact ⟨ρ, rfl, hρ, by simp⟩
  | succ n ih =>
    obtain ⟨σ, ha, hi, ht⟩ := ih
    refine ⟨update (σ.filterMap (foundOf parse σ)) σ, ?_, hi.step hn hnum, ?_⟩
    · simp only [after, ha, hi.pass hn hnum]
    · rcases Nat.eq_zero_or_pos (texts σ) with h0 | h0
      · have := hi.final hn h0
        have h' : texts (update (σ.filterMap (foundOf parse σ)) σ) = 0 := by
          have hnone : σ.filterMap (foundOf parse σ) = [] := by
            rw [List.filterMap_eq_nil_iff]
            rintro ⟨x, v⟩ hm
            cases v with
            | num i q => rfl
            | str t => have := List.countP_eq_zero.1 h0 _ hm; simp at this
          rw [hnone]
          have : update [] σ = σ := by simp [update]
          rw [this]; exact h0
        omega
      · have := texts_step hi hn hnum h0
        omega
end

/-! ## C46 -/

/-- **C46.** If the definitions of the table have no cycle, have a solution in numbers, and never add or repeat texts, the
constructor ends and the table holds exactly that solution, whatever the number, order and nesting of the definitions. -/
theorem C46_resolves {parse : String → Option Expr} {ρ sol : Table} {rank : String → ℕ} (hn : (ρ.map Prod.fst).Nodup)
    (hs : Solution parse ρ sol) (ha : Acyclic parse ρ rank) (hh : ∀ x t, (x, Val.str t) ∈ ρ → Harmless parse t) :
    resolve parse ρ = .ok sol := by
  obtain ⟨hk, hnum, hfix, htxt⟩ := hs
  have hns : (sol.map Prod.fst).Nodup := hk ▸ hn
  have hi : Inv parse rank sol ρ := by
    refine ⟨hk.symm, fun x v hm => ?_⟩
    cases v with
    | num i q => exact .inl (hfix _ _ _ hm)
    | str t =>
      obtain ⟨e, v, hp, hv, hev⟩ := htxt _ _ hm
      exact .inr ⟨t, e, v, rfl, hp, ha _ _ hm _ hp, hv, hev, hh _ _ hm⟩
  have hl := loop hns hnum hi
  have hstop : ∃ n, Stops parse ρ n := by
    obtain ⟨σ, h1, h2, h3⟩ := hl (texts ρ)
    refine ⟨texts ρ, σ, h1, ?_⟩
    rw [h2.pass hns hnum]
    congr 1
    rw [List.filterMap_eq_nil_iff]
    rintro ⟨x, v⟩ hm
    cases v with
    | num i q => rfl
    | str t => have := List.countP_eq_zero.1 (show texts σ = 0 by omega) _ hm; simp at this
  unfold resolve
  rw [dif_pos hstop]
  classical
  obtain ⟨σ, h1, h2⟩ := Nat.find_spec hstop
  obtain ⟨σ', h1', hi', -⟩ := hl (Nat.find hstop)
  rw [h1] at h1'
  injection h1' with h1'
  subst h1'
  rw [h1, hi'.final hns]
  by_contra h0
  obtain ⟨x, t, i, q, hx, hev⟩ := hi'.progress hns hnum (Nat.pos_of_ne_zero h0)
  rw [hi'.pass hns hnum] at h2
  injection h2 with h2
  have := List.filterMap_eq_nil_iff.1 h2 _ hx
  simp [foundOf, hev] at this

/-- **C46 (final).** When the constructor ends, no remaining text can be evaluated, and what was a number is unchanged. -/
theorem C46_final {parse : String → Option Expr} {ρ ρ' : Table} (h : resolve parse ρ = .ok ρ') :
    (∀ x t, (x, Val.str t) ∈ ρ' → ∃ e, evalT parse ρ' t = .error e) ∧ ρ'.map Prod.fst = ρ.map Prod.fst := by
  classical
  unfold resolve at h
  split at h
  · rename_i hstop
    obtain ⟨σ, h1, h2⟩ := Nat.find_spec hstop
    rw [h] at h1
    injection h1 with h1
    subst h1
    constructor
    · have key : ∀ l, GTL.pass parse ρ' l = .ok [] → ∀ x t, (x, Val.str t) ∈ l → ∃ e, evalT parse ρ' t = .error e := by
        intro l
        induction l with
        | nil => simp
        | cons a l ih =>
          intro hp x t hm
          obtain ⟨y, v⟩ := a
          cases v with
          | num i q =>
            rcases List.mem_cons.1 hm with hm | hm
            · cases hm
            · exact ih hp x t hm
          | str s =>
            simp only [GTL.pass] at hp
            cases he : evalT parse ρ' s with
            | ok v =>
              rw [he] at hp
              cases hq : GTL.pass parse ρ' l <;> simp [hq, Except.map] at hp
            | error e =>
              rw [he] at hp
              rcases List.mem_cons.1 hm with hm | hm
              · injection hm with _ hm
                injection hm with hm
                subst hm
                exact ⟨e, he⟩
              · refine ih ?_ x t hm
                dsimp only at hp
                split at hp
                · exact hp
                · cases hp
      exact key ρ' h2
    · have : ∀ n σ, after parse ρ n = .ok σ → σ.map Prod.fst = ρ.map Prod.fst := by
        intro n
        induction n with
        | zero => intro σ h; simp only [after] at h; injection h with h; rw [h]
        | succ n ih =>
          intro σ h
          simp only [after] at h
          cases ha : after parse ρ n with
          | error e => simp [ha] at h
          | ok τ =>
            simp only [ha] at h
            cases hp : GTL.pass parse τ τ with
            | error e => simp [hp] at h
            | ok f =>
              simp only [hp] at h
              injection h with h
              rw [← h, ← ih τ ha]
              simp [update, Function.comp_def]
      exact this _ _ h
  · split at h <;> cases h

/-- **C46 (violated: sums of texts).** Definitions `x = a+b, a = 1, b = 2` given as texts leave `x = 12`: in the first pass
`a` and `b` are still texts and are concatenated. -/
theorem C46_sum_of_texts_wrong {parse : String → Option Expr} (h1 : parse "a+b" = some (.add (.var "a") (.var "b")))
    (h2 : parse "1" = some (.lit true 1)) (h3 : parse "2" = some (.lit true 2)) (h4 : parse "12" = some (.lit true 12)) :
    resolve parse [("x", .str "a+b"), ("a", .str "1"), ("b", .str "2")] =
      .ok [("x", .num true 12), ("a", .num true 1), ("b", .num true 2)] := by
  have s0 : after parse [("x", .str "a+b"), ("a", .str "1"), ("b", .str "2")] 1 =
      .ok [("x", .str "12"), ("a", .num true 1), ("b", .num true 2)] := by
    simp [after, GTL.pass, evalT, h1, h2, h3, evalE, get, bin, vAdd, Except.map, update, List.lookup]
  have s1 : after parse [("x", .str "a+b"), ("a", .str "1"), ("b", .str "2")] 2 =
      .ok [("x", .num true 12), ("a", .num true 1), ("b", .num true 2)] := by
    rw [after, s0]
    simp [GTL.pass, evalT, h4, evalE, Except.map, update, List.lookup]
  have hs : Stops parse [("x", .str "a+b"), ("a", .str "1"), ("b", .str "2")] 2 := ⟨_, s1, rfl⟩
  classical
  have hex : ∃ n, Stops parse [("x", .str "a+b"), ("a", .str "1"), ("b", .str "2")] n := ⟨2, hs⟩
  unfold resolve
  rw [dif_pos hex]
  have : Nat.find hex = 2 := by
    rw [Nat.find_eq_iff]
    refine ⟨hs, fun m hm => ?_⟩
    interval_cases m
    · rintro ⟨σ, e1, e2⟩
      simp only [after] at e1
      injection e1 with e1
      subst e1
      simp [GTL.pass, evalT, h1, h2, h3, evalE, get, bin, vAdd, Except.map, List.lookup] at e2
    · rintro ⟨σ, e1, e2⟩
      rw [s0] at e1
      injection e1 with e1
      subst e1
      simp [GTL.pass, evalT, h4, evalE, Except.map] at e2
  convert s1 using 2

/-- **C46 (violated: cycles).** A variable defined as itself makes the constructor loop for ever. -/
theorem C46_cycle_hangs {parse : String → Option Expr} (h : parse "a" = some (.var "a")) :
    resolve parse [("a", .str "a")] = .error .hang := by
  have s : ∀ n, after parse [("a", .str "a")] n = .ok [("a", .str "a")] := by
    intro n
    induction n with
    | zero => rfl
    | succ n ih => simp [after, ih, GTL.pass, evalT, h, evalE, get, Except.map, update, List.lookup]
  unfold resolve
  rw [dif_neg, dif_neg]
  · rintro ⟨n, e, he⟩; rw [s] at he; cases he
  · rintro ⟨n, σ, e1, e2⟩
    rw [s] at e1
    injection e1 with e1
    subst e1
    simp [GTL.pass, evalT, h, evalE, get, Except.map, List.lookup] at e2

/-- **C46 (precedence).** The argument `variables` overrides the variables of the model, which override those of the block. -/
theorem C46_precedence (loc glo vars : Table) (x : String) :
    (table loc glo vars).lookup x = ((vars.lookup x).or (glo.lookup x)).or (loc.lookup x) := by
  have upd : ∀ a b : Table, (a.map (fun e => (e.1, (b.lookup e.1).getD e.2)) ++ b.filter (fun e => (a.lookup e.1).isNone)).lookup x =
      (b.lookup x).or (a.lookup x) := by
    intro a b
    have hm : (a.map (fun e => (e.1, (b.lookup e.1).getD e.2))).lookup x = (a.lookup x).map fun v => (b.lookup x).getD v := by
      induction a with
      | nil => rfl
      | cons c a ih =>
        obtain ⟨y, w⟩ := c
        by_cases hxy : x = y
        · subst hxy; simp
        · have : (x == y) = false := by simpa using hxy
          simp [List.lookup_cons, this, ih]
    rw [List.lookup_append, hm]
    cases ha : a.lookup x with
    | some v => cases b.lookup x <;> rfl
    | none =>
      simp only [Option.map_none, Option.none_or, Option.or_none]
      induction b with
      | nil => rfl
      | cons c b ih =>
        obtain ⟨y, w⟩ := c
        have ih := ih (by
          clear ih hm
          induction a with
          | nil => rfl
          | cons c a ih' =>
            obtain ⟨y', w'⟩ := c
            by_cases hxy : x = y'
            · subst hxy; simp at ha
            · have : (x == y') = false := by simpa using hxy
              simp only [List.lookup_cons, this] at ha
              simp [List.lookup_cons, this, ih' ha])
        by_cases hxy : x = y
        · subst hxy
          simp [ha]
        · have hb : (x == y) = false := by simpa using hxy
          rw [List.filter_cons, List.lookup_cons, hb]
          split
          · rw [List.lookup_cons, hb]; exact ih
          · exact ih
  unfold table
  simp only
  rw [upd, upd]

namespace Ex

/-- two definitions: the name `y` and `z/2` -/
def parse (t : String) : Option Expr :=
  if t = "y" then some (.var "y") else if t = "z/2" then some (.div (.var "z") (.lit true 2)) else none

/-- the definitions `x = y`, `y = z/2`, `z = 3`, in this order, resolve to `x = y = 3/2` (hypotheses of `C46_resolves`) -/
theorem C46_witness : resolve parse [("x", .str "y"), ("y", .str "z/2"), ("z", .num true 3)] =
    .ok [("x", .num false (3 / 2)), ("y", .num false (3 / 2)), ("z", .num true 3)] := by
  apply C46_resolves (rank := fun s => if s = "x" then 2 else if s = "y" then 1 else 0) (by decide)
  · refine ⟨rfl, by simp, by simp, ?_⟩
    intro x t h
    simp at h
    rcases h with ⟨rfl, rfl⟩ | ⟨rfl, rfl⟩
    · exact ⟨.var "y", .num false (3 / 2), by simp [parse], by simp, by simp [evalE, get, List.lookup]⟩
    · exact ⟨.div (.var "z") (.lit true 2), .num false (3 / 2), by simp [parse], by simp, by simp [evalE, get, List.lookup, bin, vDiv]⟩
  · intro x t h e he y hy
    simp at h
    rcases h with ⟨rfl, rfl⟩ | ⟨rfl, rfl⟩
    · simp [parse] at he; subst he; simp [Expr.vars] at hy; subst hy; decide
    · simp [parse] at he; subst he; simp [Expr.vars] at hy; subst hy; decide
  · intro x t h e he
    simp at h
    rcases h with ⟨rfl, rfl⟩ | ⟨rfl, rfl⟩
    · simp [parse] at he; exact .inl ⟨_, he.symm⟩
    · simp [parse] at he
      subst he
      right
      intro σ s
      simp only [evalE]
      cases hz : (match get σ "z" with | some v => Except.ok v | none => Except.error Err.nameError : Except Err Val) with
      | error e => simp [bin]
      | ok v =>
        cases v with
        | num i q => simp [bin, vDiv]
        | str t => simp [bin, vDiv]

end Ex

end PyRFtk.GTL
