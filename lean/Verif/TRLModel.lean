import Verif.TRLSpec
import Verif.ConvertProps
import Verif.Bridge
import Mathlib.Analysis.SpecialFunctions.Pow.Complex
import Mathlib.Analysis.SpecialFunctions.Trigonometric.Basic

/-!
# Model of rfTRL.py and maxfun.py

The transmission line object: node grid, solution of the telegrapher equations, scattering matrix, standing waves and
their maximum, and the table of solved frequencies.

Simplifications.  The TL parameters enter as the two functions `rjwL(w,x)`, `gjwC(w,x)` the resolver provides
(rfTRL.py:254-255).  `scipy.integrate.odeint` is a parameter `ode` of the model (used for non-uniform lines only).  The
Touchstone branch (`sNp`) is modelled in `TRLFile`.  `set` is modelled for the attributes `L`, `Zbase`, `dx` and for names that are no
attribute; assigning other existing attributes (e.g. `solved`) through `set` is not modelled.
-/

namespace PyRFtk.TRL

abbrev Mat2 := Matrix (Fin 2) (Fin 2) ℂ

/-- the `dx` argument: an int (points per wavelength) or a float (step in metres), rfTRL.py:197, 429-455 -/
inductive Step | int (n : ℤ) | float (d : ℝ)

/-- one entry of `self.solved`, rfTRL.py:506-511; `sw` is the sub-dictionary `'VISWs'` -/
structure Sol where
  xs : List ℝ
  S : Mat2
  VI : List Mat2
  sw : List ((List ℂ × Option ℝ) × (List ℂ × List ℂ))

/-- the rfTRL object, rfTRL.py:184-261 -/
structure Line where
  ports : List String
  L : ℝ
  Zbase : ℝ
  dx : Step
  constant : Bool
  z : ℝ → ℝ → ℂ
  y : ℝ → ℝ → ℂ
  xpos : ℝ × ℝ
  solved : List (ℝ × Sol)

/-- keyword arguments of `set` -/
inductive Kw | L (x : ℝ) | Zbase (x : ℝ) | dx (d : Step) | unknown

/-- the loop over the keyword arguments in `set`, rfTRL.py:349-358 (the boolean returned is not modelled) -/
def setLoop : Line → List Kw → Line × Except Err Unit
  | o, [] => (o, .ok ())
  | o, .L x :: k => setLoop { o with L := x, xpos := (o.xpos.1, x + o.xpos.1) } k
  | o, .Zbase x :: k => setLoop { o with Zbase := x } k
  | o, .dx d :: k => setLoop { o with dx := d } k
  | o, .unknown :: _ => (o, .error .valueError)

/-- `set`, rfTRL.py:342-362: refused for non-uniform lines; clears the table of solved frequencies -/
def set (o : Line) (kws : List Kw) : Line × Except Err Unit :=
  if kws ≠ [] ∧ o.constant = false then (o, .error .valueError)
  else match setLoop o kws with
    | (o', .error e) => (o', .error e)
    | (o', .ok ()) => ({ o' with solved := [] }, .ok ())

/-- `np.linspace(0, L, n)` for `n ≥ 2` -/
noncomputable def linspace (L : ℝ) (n : ℕ) : List ℝ := (List.range n).map fun k : ℕ => (k : ℝ) * (L / ((n - 1 : ℕ) : ℝ))

/-- `max(2, num)` points, rfTRL.py:434, 454 -/
noncomputable def spaced (L num : ℝ) : List ℝ := linspace L (max 2 ⌈num⌉.toNat)

open Classical in
/-- `wavlen`, rfTRL.py:413-425; `none` stands for `+inf` -/
noncomputable def wavlen (o : Line) (w x : ℝ) : Option ℝ :=
  let g := ((o.z w x * o.y w x) ^ (1 / 2 : ℂ)).im
  if g = 0 then none else some (2 * Real.pi / g)

/-- node positions of the growing loop for non-uniform lines, rfTRL.py:438-440 (the loop calls `wavlen` with the frequency in
the place of the angular frequency); `none` once a position is infinite -/
noncomputable def nodeSeq (o : Line) (f : ℝ) (n : ℤ) : ℕ → Option ℝ
  | 0 => some 0
  | k + 1 => match nodeSeq o f n k with
    | none => none
    | some x => match wavlen o f x with
      | none => none
      | some l => some (x + l / n)

open Classical in
/-- the growing loop: ends at the first node that is not below `L` (or not finite), rfTRL.py:438-443; `hang` if there is none -/
noncomputable def growSeq (x : ℕ → Option ℝ) (L : ℝ) : Except Err (List ℝ) :=
  if h : ∃ k, ∀ r, x k = some r → L ≤ r then
    match x (Nat.find h) with
    | none => .error .nonFinite
    | some xl =>
      if xl = 0 then .error .nonFinite
      else .ok ((List.range (Nat.find h + 1)).map fun k => (x k).getD 0 * L / xl)
  else .error .hang

/-- the node positions for non-uniform lines with an int `dx`, rfTRL.py:436-443 -/
noncomputable def growGrid (o : Line) (f : ℝ) (n : ℤ) : Except Err (List ℝ) := growSeq (nodeSeq o f n) o.L

open Classical in
/-- the node positions, rfTRL.py:429-455.  In the stepping loop `while x <= L: xs.append(x); x -= dx` (`dx < 0`) the nodes are
`k * |dx|` for `k = 0 .. floor(L/|dx|)`; for `L < 0` there is none and `xs[-1]` raises. -/
noncomputable def grid (o : Line) (f : ℝ) : Except Err (List ℝ) :=
  match o.dx with
  | .int n =>
    if o.constant then
      if n = 0 then .error .zeroDivision
      else match wavlen o (2 * Real.pi * f) 0 with
        | none => .ok (spaced o.L 0)
        | some l => .ok (spaced o.L (o.L / (l / n)))
    else if n = 0 then (if 0 < o.L then .error .zeroDivision else .error .nonFinite)
    else growGrid o f n
  | .float d =>
    if d < 0 then
      if o.L < 0 then .error .indexError
      else
        let xs := (List.range (⌊o.L / -d⌋₊ + 1)).map fun k : ℕ => (k : ℝ) * -d
        .ok (if (⌊o.L / -d⌋₊ : ℝ) * -d < o.L then xs ++ [o.L] else xs)
    else if d = 0 then .error .zeroDivision
    else .ok (spaced o.L (o.L / d))

/-- `scipy.integrate.odeint`: the values at the nodes of the solution with the given start values -/
abbrev Ode := (ℝ → ℂ) → (ℝ → ℂ) → ℂ × ℂ → List ℝ → List (ℂ × ℂ)

open Classical in
/-- the node matrices `VIt`, rfTRL.py:457-502 -/
noncomputable def solveNodes (ode : Ode) (o : Line) (f : ℝ) : Except Err (List ℝ × List Mat2) :=
  let w := 2 * Real.pi * f
  match grid o f with
  | .error e => .error e
  | .ok xs =>
    if xs.head? = xs.getLast? then
      match xs with
      | [] => .error .indexError
      | x :: _ => .ok ([x, x], [1, 1])
    else if o.constant then
      let gm := (o.z w 0 * o.y w 0) ^ (1 / 2 : ℂ)
      if gm = 0 then .error .nonFinite
      else
        let Zc := o.z w 0 / gm
        .ok (xs, xs.map fun x : ℝ =>
          let egmx := Complex.exp (gm * x)
          let egmx1 := 1 / egmx
          let U10 := 1 / 2 * (egmx + egmx1)
          let I10 := 1 / 2 * (egmx - egmx1) / Zc
          let U01 := Zc ^ 2 * I10
          !![U10, U01; I10, U10])
    else
      .ok (xs, List.zipWith (fun a b => !![a.1, b.1; a.2, b.2]) (ode (o.z w) (o.y w) (1, 0) xs)
        (ode (o.z w) (o.y w) (0, 1) xs))

/-- a fresh solution, rfTRL.py:504-511 -/
noncomputable def fresh (ode : Ode) (o : Line) (f : ℝ) : Except Err Sol :=
  match solveNodes ode o f with
  | .error e => .error e
  | .ok (xs, VI) => match VI.getLast? with
    | none => .error .indexError
    | some M => match sFromVI (o.Zbase : ℂ) M with
      | .error e => .error e
      | .ok S => .ok ⟨xs, S, VI, []⟩

open Classical in
/-- entry of `self.solved` for `f` -/
noncomputable def findSol (l : List (ℝ × Sol)) (f : ℝ) : Option Sol := (l.find? fun e => e.1 = f).map Prod.snd

open Classical in
/-- the part of `solveVI` that makes sure `self.solved[f]` exists, rfTRL.py:427-511 -/
noncomputable def ensure (ode : Ode) (o : Line) (f : ℝ) : Line × Except Err Sol :=
  match findSol o.solved f with
  | some s => (o, .ok s)
  | none => match fresh ode o f with
    | .error e => (o, .error e)
    | .ok s => ({ o with solved := (f, s) :: o.solved }, .ok s)

/-- `solveVI(f, V0, I0)`, rfTRL.py:519-529: positions, voltages and currents along the line -/
noncomputable def solveVI (ode : Ode) (o : Line) (f : ℝ) (V0 I0 : ℂ) : Line × Except Err (List ℝ × List ℂ × List ℂ) :=
  match ensure ode o f with
  | (o', .error e) => (o', .error e)
  | (o', .ok s) => (o', .ok (s.xs, s.VI.map (fun M => M.mulVec ![V0, I0] 0), s.VI.map (fun M => M.mulVec ![V0, I0] 1)))

/-- an array with the 2x2 matrix expected -/
noncomputable def asMat2 : ND ℂ → Except Err Mat2
  | .d2 m n A => if h : m = 2 ∧ n = 2 then .ok (fun i j => A (h.1 ▸ i) (h.2 ▸ j)) else .error .valueError
  | _ => .error .valueError

open Classical in
/-- `get1S` inside `getS`, rfTRL.py:549-562 (without Touchstone data); a reference `0` or `None` means the object's own -/
noncomputable def get1S (ode : Ode) (o : Line) (f : ℝ) (Zb : Option ℝ) : Line × Except Err Mat2 :=
  match ensure ode o f with
  | (o', .error e) => (o', .error e)
  | (o', .ok s) => match Zb with
    | none => (o', .ok s.S)
    | some z => if z = 0 ∨ z = o'.Zbase then (o', .ok s.S)
      else (o', match convertGeneral (.d0 (z : ℂ)) (.d2 2 2 s.S) (.d0 (o'.Zbase : ℂ)) "V" "V" with
        | .error e => .error e
        | .ok R => asMat2 R)

/-- `getS` at one frequency, rfTRL.py:534-576 -/
noncomputable def getS (ode : Ode) (o : Line) (f : ℝ) (Zb : Option ℝ) (params : List Kw) : Line × Except Err Mat2 :=
  match set o params with
  | (o', .error e) => (o', .error e)
  | (o', .ok ()) => get1S ode o' f Zb

/-- `getS` at a sequence of frequencies, rfTRL.py:566-570 -/
noncomputable def getSsLoop (ode : Ode) (Zb : Option ℝ) : Line → List ℝ → Line × Except Err (List Mat2)
  | o, [] => (o, .ok [])
  | o, f :: fs => match get1S ode o f Zb with
    | (o', .error e) => (o', .error e)
    | (o', .ok S) => match getSsLoop ode Zb o' fs with
      | (o'', .error e) => (o'', .error e)
      | (o'', .ok l) => (o'', .ok (S :: l))

/-- `getS` at a sequence of frequencies, rfTRL.py:534-576 -/
noncomputable def getSs (ode : Ode) (o : Line) (fs : List ℝ) (Zb : Option ℝ) (params : List Kw) : Line × Except Err (List Mat2) :=
  match set o params with
  | (o', .error e) => (o', .error e)
  | (o', .ok ()) => getSsLoop ode Zb o' fs

/-- dictionary lookup -/
def dictGet (E : List (String × ℂ)) (p : String) : Except Err ℂ :=
  match E.lookup p with
  | some v => .ok v
  | none => .error .keyError

/-- `S @ As` -/
noncomputable def matVec (S : Mat2) : List ℂ → Except Err (Fin 2 → ℂ)
  | [a, b] => .ok (S.mulVec ![a, b])
  | _ => .error .valueError

open Classical in
/-- cached standing wave -/
noncomputable def findSw (s : Sol) (k : List ℂ × Option ℝ) : Option (List ℂ × List ℂ) :=
  (s.sw.find? fun e => e.1 = k).map Prod.snd

open Classical in
/-- `Zbase if Zbase else self.Zbase`, rfTRL.py:588 -/
noncomputable def orOwn (own : ℝ) (Zb : Option ℝ) : ℝ :=
  match Zb with
  | some z => if z = 0 then own else z
  | none => own

open Classical in
/-- `VISWs`, rfTRL.py:581-600; `E` maps port names to incident waves.  An excitation of the wrong length makes `S @ As` raise. -/
noncomputable def visws (ode : Ode) (o : Line) (f : ℝ) (E : List (String × ℂ)) (Zb : Option ℝ) :
    Line × Except Err (List ℝ × List ℂ × List ℂ) :=
  match mapE (dictGet E) o.ports with
  | .error e => (o, .error e)
  | .ok As =>
    match (findSol o.solved f).bind fun s => (findSw s (As, Zb)).map fun r => (s.xs, r.1, r.2) with
    | some r => (o, .ok r)
    | none =>
      let z := orOwn o.Zbase Zb
      match getS ode o f (some z) [] with
      | (o1, .error e) => (o1, .error e)
      | (o1, .ok S) => match As, matVec S As with
        | a0 :: _, .ok B =>
          if z = 0 then (o1, .error .nonFinite)
          else match solveVI ode o1 f (a0 + B 0) (-(a0 - B 0) / z) with
            | (o2, .error e) => (o2, .error e)
            | (o2, .ok r) =>
              ({ o2 with solved := o2.solved.map fun e =>
                  if e.1 = f then (e.1, { e.2 with sw := ((As, some z), (r.2.1, r.2.2)) :: e.2.sw }) else e }, .ok r)
        | _, .error e => (o1, .error e)
        | [], .ok _ => (o1, .error .indexError)

/-! ## maxfun.py -/

open Classical in
/-- `np.sign` -/
noncomputable def sgn (x : ℝ) : ℤ := if 0 < x then 1 else if x < 0 then -1 else 0

/-- vertex of the parabola through three points with distinct abscissae, by the coefficients `np.polyfit(.., deg=2)` returns
(exact interpolation: three points, three coefficients), maxfun.py:60-66.  `none`: division by a zero leading coefficient. -/
noncomputable def vertex (x0 y0 x1 y1 x2 y2 : ℝ) : Option (ℝ × ℝ) :=
  let p0 := (y0 * (x1 - x2) + y1 * (x2 - x0) + y2 * (x0 - x1)) / ((x0 - x1) * (x0 - x2) * (x1 - x2))
  let p1 := -(y0 * (x1 ^ 2 - x2 ^ 2) + y1 * (x2 ^ 2 - x0 ^ 2) + y2 * (x0 ^ 2 - x1 ^ 2)) / ((x0 - x1) * (x0 - x2) * (x1 - x2))
  let p2 := y0 - p0 * x0 ^ 2 - p1 * x0
  open Classical in
  if p0 = 0 then none else some (-p1 / (2 * p0), p2 - p1 ^ 2 / (4 * p0))

open Classical in
/-- body of the loop over the local maxima, maxfun.py:52-74; in the fallback the code scans the abscissae twice
(`zip(xs[..],xs[..])`, maxfun.py:73).  A `nan` vertex fails both comparisons of the window test, hence the fallback. -/
noncomputable def maxStep (x0 y0 x1 y1 x2 y2 : ℝ) (m : ℝ × ℝ) : ℝ × ℝ :=
  let fallback := [x0, x1, x2].foldl (fun (m : ℝ × ℝ) x => if m.2 < x then (x, x) else m) (0, 0)
  match vertex x0 y0 x1 y1 x2 y2 with
  | none => fallback
  | some v => if x0 ≤ v.1 ∧ v.1 ≤ x2 then (if m.2 < v.2 then v else m) else fallback

open Classical in
/-- the loop over `idx` with `np.diff(np.sign(np.diff(ys)))[idx] < 0`, maxfun.py:25-27, 51-74 -/
noncomputable def maxLoop : List (ℝ × ℝ) → ℝ × ℝ → ℝ × ℝ
  | (x0, y0) :: (x1, y1) :: (x2, y2) :: r, m =>
    maxLoop ((x1, y1) :: (x2, y2) :: r)
      (if sgn (y2 - y1) - sgn (y1 - y0) < 0 then maxStep x0 y0 x1 y1 x2 y2 m else m)
  | _, m => m

open Classical in
/-- `maxfun`, maxfun.py:12-88, on the list of points; an empty list makes `xs[-1]` raise.  Lists of different length are not
modelled. -/
noncomputable def maxfun (pts : List (ℝ × ℝ)) : Except Err (ℝ × ℝ) :=
  match pts.head?, pts.getLast? with
  | some a, some b => .ok (maxLoop pts (if a.2 < b.2 then b else a))
  | _, _ => .error .indexError

/-- `maxV`, rfTRL.py:605-610: largest voltage magnitude, its position, and the sampled magnitudes -/
noncomputable def maxV (ode : Ode) (o : Line) (f : ℝ) (E : List (String × ℂ)) (Zb : Option ℝ) :
    Line × Except Err (ℝ × ℝ × List (ℝ × ℝ)) :=
  match visws ode o f E Zb with
  | (o', .error e) => (o', .error e)
  | (o', .ok (xs, V, _)) =>
    let pts := xs.zip (V.map fun v => ‖v‖)
    match maxfun pts with
    | .error e => (o', .error e)
    | .ok m => (o', .ok (m.2, m.1, pts))

end PyRFtk.TRL
