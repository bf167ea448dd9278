import Verif.Base
import Mathlib.Analysis.Complex.Basic
import Mathlib.Analysis.Real.Pi.Bounds
import Mathlib.LinearAlgebra.Matrix.Notation

/-!
# Model of `rfRLC.py`

Element values are Python floats: a real number or `+inf` (`Ext`).  `nan`, `-inf` and complex element values are not
modelled.
-/

namespace PyRFtk.RLC

/-- an element value: a number or `+np.inf` -/
inductive Ext | fin (x : ℝ) | inf

/-- the six element parameters, `rfRLC.py:82` (`self.attrs`) -/
inductive Elem | Rs | Ls | Cs | Rp | Lp | Cp
deriving DecidableEq, Repr

/-- the attribute names -/
def Elem.name : Elem → String
  | .Rs => "Rs" | .Ls => "Ls" | .Cs => "Cs" | .Rp => "Rp" | .Lp => "Lp" | .Cp => "Cp"

/-- `kw in self.attrs`, `rfRLC.py:82`, `163` -/
def Elem.ofName (s : String) : Option Elem :=
  [Elem.Rs, .Ls, .Cs, .Rp, .Lp, .Cp].find? (fun e => e.name = s)

abbrev Mat2 := Matrix (Fin 2) (Fin 2) ℂ

/-- attributes of an rfRLC object, `rfRLC.py:65-82` (ports, Id, xpos are constant and left out) -/
structure St where
  elem : Elem → Ext
  Zbase : ℝ
  f : Option ℝ
  S : Option Mat2

/-- `__init__` with the documented defaults, `rfRLC.py:65-82` -/
noncomputable def init (given : Elem → Option Ext) (Zbase : ℝ) : St where
  elem e := (given e).getD (match e with
    | .Rs => .fin 0 | .Ls => .fin 0 | .Cs => .inf | .Rp => .inf | .Lp => .inf | .Cp => .fin 0)
  Zbase := Zbase
  f := none
  S := some !![0, 1; 1, 0]

open Classical in
/-- `x / v` for a Python number `x` and an element value `v`: ZeroDivisionError for `v = 0`, zero for `v = inf` -/
noncomputable def divE (x : ℂ) : Ext → Except Err ℂ
  | .fin v => if v = 0 then .error .zeroDivision else .ok (x / (v : ℂ))
  | .inf => .ok 0

/-- an element value used as a factor or term: `inf` makes the matrix contain `inf`/`nan` -/
noncomputable def finE : Ext → Except Err ℂ
  | .fin v => .ok (v : ℂ)
  | .inf => .error .nonFinite

/-- `np.linalg.inv([[1, 1+yp],[-(1+zs), 1]]) @ [[1, 1-yp],[1-zs, -1]]`, `rfRLC.py:197-202`, `213-218` -/
noncomputable def mkS (zs yp : ℂ) : Except Err Mat2 :=
  (npInv !![1, 1 + yp; -(1 + zs), 1]).map fun W => W * !![1, 1 - yp; 1 - zs, -1]

open Classical in
/-- `get1S`, `rfRLC.py:189-246`.  `npc` = this numpy still has the alias `np.complex` (removed in numpy 1.24), else
the expression raises AttributeError. Evaluation order of the several possible errors is simplified. -/
noncomputable def get1S (npc : Bool) (e : Elem → Ext) (Zb f : ℝ) : Except Err Mat2 :=
  if f ≠ 0 then do                                                              -- 192
    let jw : ℂ := 2 * Complex.I * Real.pi * f                                   -- 193
    let Rs ← finE (e .Rs)
    let Ls ← finE (e .Ls)
    let c ← divE (1 / jw) (e .Cs)
    let zs ← divE (Rs + jw * Ls + c) (.fin Zb)                                  -- 194
    let g ← divE 1 (e .Rp)
    let l ← divE (1 / jw) (e .Lp)
    let Cp ← finE (e .Cp)
    let yp := (g + l + jw * Cp) * Zb                                            -- 195
    mkS zs yp                                                                   -- 197-202
  else match e .Cs with
    | .inf => do                                                                -- 204
      let Rs ← finE (e .Rs)                                                     -- 205
      match e .Lp with
      | .inf => do                                                              -- 206
        let yp ← divE 1 (e .Rp)                                                 -- 212
        mkS Rs yp                                                               -- 213-218
      | .fin _ =>                                                               -- 219-226
        if npc = false then .error .attributeError else
        if Rs + Zb = 0 then .error .zeroDivision else
        .ok !![(Rs - Zb) / (Rs + Zb), 0; 0, -1]
    | .fin _ => match e .Lp with
      | .inf => match e .Rp with                                                -- 228
        | .fin Rp =>                                                            -- 234-235
          if Rp + Zb = 0 then .error .zeroDivision else
          if npc = false then .error .attributeError else
          .ok !![1, 0; 0, (((Rp - Zb) / (Rp + Zb) : ℝ) : ℂ)]
        | .inf => if npc = false then .error .attributeError else .ok !![1, 0; 0, 1]   -- 236-240
      | .fin _ => if npc = false then .error .attributeError else .ok !![1, 0; 0, -1]  -- 241-245

/-- one call of the closure `get1S`: also sets `self.f` and `self.S`, `rfRLC.py:190`, `246` -/
noncomputable def step (npc : Bool) (s : St) (Zb f : ℝ) : St × Except Err Mat2 :=
  match get1S npc s.elem Zb f with
  | .error e => ({ s with f := some f }, .error e)
  | .ok S => ({ s with f := some f, S := some S }, .ok S)

/-- the loop `for f in fs: Ss.append(get1S(f))`, `rfRLC.py:248-251` -/
noncomputable def steps (npc : Bool) (Zb : ℝ) : St → List ℝ → St × Except Err (List Mat2)
  | s, [] => (s, .ok [])
  | s, f :: fs => match step npc s Zb f with
    | (s1, .error e) => (s1, .error e)
    | (s1, .ok S) => match steps npc Zb s1 fs with
      | (s2, .error e) => (s2, .error e)
      | (s2, .ok Ss) => (s2, .ok (S :: Ss))

/-- `params.pop(p, getattr(self, p))` for the six names, `rfRLC.py:186-187` -/
def override (params : Elem → Option Ext) (s : St) : St :=
  { s with elem := fun e => (params e).getD (s.elem e) }

/-- `getS` with a single frequency, `rfRLC.py:181-255` -/
noncomputable def getS1 (npc : Bool) (s : St) (Zb : Option ℝ) (params : Elem → Option Ext) (f : ℝ) :
    St × Except Err Mat2 :=
  step npc (override params s) (Zb.getD s.Zbase) f

/-- `getS` with a sequence of frequencies, `rfRLC.py:181-255` -/
noncomputable def getSs (npc : Bool) (s : St) (Zb : Option ℝ) (params : Elem → Option Ext) (fs : List ℝ) :
    St × Except Err (List Mat2) :=
  steps npc (Zb.getD s.Zbase) (override params s) fs

open Classical in
/-- the loop of `set`, `rfRLC.py:161-168`: the first unknown name raises, earlier names are already assigned -/
noncomputable def setLoop : St → Bool → List (String × Ext) → St × Except Err Bool
  | s, m, [] => (s, .ok m)
  | s, m, (kw, v) :: r => match Elem.ofName kw with
    | none => (s, .error .valueError)
    | some e => setLoop { s with elem := Function.update s.elem e v } (m || !decide (s.elem e = v)) r

/-- `set`, `rfRLC.py:156-175` -/
noncomputable def set (s : St) (kws : List (String × Ext)) : St × Except Err Bool :=
  match setLoop s false kws with
  | (s', .error e) => (s', .error e)
  | (s', .ok m) => (if m then { s' with f := none, S := none } else s', .ok m)

/-- `__len__`, `rfRLC.py:149-150`: `len(None)` is a TypeError -/
def len (s : St) : Except Err ℕ := match s.S with | none => .error .typeError | some _ => .ok 2

end PyRFtk.RLC
