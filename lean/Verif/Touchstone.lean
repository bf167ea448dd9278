import Verif.ConvertModel
import Verif.ConvertSpec
import Verif.Misc
import Mathlib.Analysis.SpecialFunctions.Log.Base
import Mathlib.Analysis.SpecialFunctions.Complex.Arg
import Mathlib.Data.List.DropRight

/-!
# Model of ReadTSF.py, WriteTSF.py and rfBase.tsf2str: Touchstone version 1 text, character by character

Number formatting and parsing are parameters: `float` is Python's `float()` on one token, `int` its `int()`, and `printf` is `%`
formatting.  The dictionary `variables` taken from HFSS headers (ReadTSF.py:188-235) is in TouchstoneVars.  Left out of the reader: the texts collected from `!REM` (never returned), warnings and logging.
-/

namespace PyRFtk.TSF

abbrev Text := List Char

/-- a Python float without `nan` and `+inf`; `none` is `-inf` (the logarithm of zero) -/
abbrev Num := Option ℝ

/-! ## Python's string operations -/

/-- whitespace of `str.strip()`, `str.split()` (ASCII) -/
def isWs (c : Char) : Bool := c = ' ' || c = '\t' || c = '\n' || c = '\r' || c = '\x0b' || c = '\x0c'

/-- `s.strip()` -/
def strip (l : Text) : Text := (l.dropWhile isWs).rdropWhile isWs

/-- the pieces of a text between the characters with property `p` -/
def pieces (p : Char → Bool) : Text → List Text
  | [] => [[]]
  | c :: cs =>
    if p c then [] :: pieces p cs
    else match pieces p cs with
      | [] => [[c]]
      | l :: ls => (c :: l) :: ls

/-- `s.split()` -/
def words (l : Text) : List Text := (pieces isWs l).filter (· ≠ [])

/-- `s.upper()` (ASCII) -/
def upper (l : Text) : Text := l.map Char.toUpper

/-- `s.lower()` (ASCII) -/
def lower (l : Text) : Text := l.map Char.toLower

/-- `s.split('!', 1)[0]` -/
def beforeBang (l : Text) : Text := l.takeWhile (· ≠ '!')

/-- `re.findall('<tag>(.+)', s)`: what follows the first occurrence of the tag, if not empty -/
def findTag (tag : Text) : Text → Option Text
  | [] => none
  | c :: cs => if tag.isPrefixOf (c :: cs) ∧ (c :: cs).drop tag.length ≠ [] then some ((c :: cs).drop tag.length)
    else findTag tag cs

/-- Python's number parsers on one token -/
structure NumIO where
  float : Text → Option Num
  int : Text → Option ℤ

/-- `float(s)`: ValueError when it is not a number -/
def NumIO.get (io : NumIO) (s : Text) : Except Err Num := match io.float s with | some x => .ok x | none => .error .valueError
def NumIO.getInt (io : NumIO) (s : Text) : Except Err ℤ := match io.int s with | some x => .ok x | none => .error .valueError

/-! ## ReadTSF: the lines -/

/-- the local variables of the loop over the lines, ReadTSF.py:57-61 -/
structure RS where
  comments : List Text
  fs : List Num
  coefs : List (Num × Num)
  Ss : List (List (Num × Num))
  /-- `got_marker` -/
  marker : ℕ
  tformat : Option Text

/-- ReadTSF.py:57-61 -/
def RS.start : RS := ⟨[], [], [], [], 0, none⟩

def markerText : Text := "*** DATA MARKER ***".toList

/-- `items[0::2] + 1j*items[1::2]` for an even number of items -/
def pairs : List Num → List (Num × Num)
  | a :: b :: r => (a, b) :: pairs r
  | _ => []

/-- a line of numbers, ReadTSF.py:80-99: an odd number of items starts a new frequency -/
def feed (st : RS) (items : List Num) : RS :=
  let st1 : RS := match items with
    | f :: r => if items.length % 2 = 1 then
          { st with Ss := if st.coefs ≠ [] then st.Ss ++ [st.coefs] else st.Ss, fs := st.fs ++ [f], coefs := pairs r }
        else { st with coefs := st.coefs ++ pairs items }
    | [] => st
  if st.marker = 0 then { st1 with comments := st.comments ++ [markerText], marker := st.comments.length + 1 } else st1

/-- one line, ReadTSF.py:63-99 -/
def readLine (io : NumIO) (st : RS) (line : Text) : Except Err RS :=
  match strip line with
  | [] => .ok st
  | '!' :: l => .ok { st with comments := st.comments ++ ['!' :: l] }
  | '#' :: l => if st.tformat.isSome then .error .valueError else .ok { st with tformat := some ('#' :: l) }
  | l => match mapE io.get (words (beforeBang l)) with
    | .error e => .error e
    | .ok items => .ok (feed st items)

/-- the loop, ReadTSF.py:63-99 -/
def readLines (io : NumIO) : RS → List Text → Except Err RS
  | st, [] => .ok st
  | st, l :: ls => match readLine io st l with
    | .error e => .error e
    | .ok st1 => readLines io st1 ls

/-- `int(round(np.sqrt(n)))` -/
def nearSqrt (n : ℕ) : ℕ := if n.sqrt * n.sqrt + n.sqrt < n then n.sqrt + 1 else n.sqrt

/-- `np.array(Ss).reshape((len(fs), N, N))`, ReadTSF.py:103-107, as a flat list and N: ragged data and a wrong total raise -/
def reshape (st : RS) : Except Err (ℕ × List (Num × Num)) :=
  let Ss := st.Ss ++ [st.coefs]
  let len := (Ss.head?.getD []).length
  let N := nearSqrt len
  if Ss.any (fun l => l.length ≠ len) then .error .valueError
  else if Ss.length * len ≠ st.fs.length * (N * N) then .error .valueError
  else .ok (N, Ss.flatten)

/-! ## ReadTSF: the option line -/

inductive Kind | S | Y | Z
deriving DecidableEq
inductive Fmt | MA | RI | DB
deriving DecidableEq
inductive FUnit | HZ | KHZ | MHZ | GHZ
deriving DecidableEq

def Kind.text : Kind → Text | .S => ['S'] | .Y => ['Y'] | .Z => ['Z']
def Fmt.text : Fmt → Text | .MA => ['M', 'A'] | .RI => ['R', 'I'] | .DB => ['D', 'B']
def FUnit.text : FUnit → Text | .HZ => ['H', 'Z'] | .KHZ => ['K', 'H', 'Z'] | .MHZ => ['M', 'H', 'Z'] | .GHZ => ['G', 'H', 'Z']

/-- `kw in ['S', 'Y', 'Z']`, ReadTSF.py:115 -/
def kindOf (w : Text) : Option Kind := [Kind.S, .Y, .Z].find? fun k => k.text = w
/-- ReadTSF.py:117 -/
def fmtOf (w : Text) : Option Fmt := [Fmt.MA, .RI, .DB].find? fun k => k.text = w
/-- ReadTSF.py:119 -/
def unitOf (w : Text) : Option FUnit := [FUnit.HZ, .KHZ, .MHZ, .GHZ].find? fun k => k.text = w

/-- `FUNITS`, config.py:218 -/
def FUnit.hz : FUnit → ℝ | .HZ => 1 | .KHZ => 10 ^ 3 | .MHZ => 10 ^ 6 | .GHZ => 10 ^ 9

/-- `Zbase` of the option line: one number or a list -/
inductive Ref | one (z : ℝ) | many (zs : List ℝ)

/-- ReadTSF.py:112, and `Zlist`, which is only bound once `R` is seen -/
structure Opts where
  kind : Kind
  fmt : Fmt
  unit : FUnit
  Zbase : Option Ref
  Zlist : Option (List ℝ)

def Opts.start : Opts := ⟨.S, .MA, .GHZ, none, none⟩

/-- ReadTSF.py:131-143 -/
noncomputable def refOf (TZ : Option ℝ) : List ℝ → Ref
  | [] => .one (TZ.getD 50)
  | [z] => .one z
  | zs => .many zs

/-- `float(item)` in the list after `R`: `-inf` is not followed further -/
noncomputable def numR (io : NumIO) (w : Text) : Option (Except Err ℝ) :=
  match io.float w with
  | none => none
  | some none => some (.error .nonFinite)
  | some (some x) => some (.ok x)

/-- the `while` loop over the words, ReadTSF.py:113-145; `op`: the previous words belong to an `R` list still open -/
noncomputable def parseOpts (io : NumIO) (TZ : Option ℝ) : Bool → Opts → List Text → Except Err Opts
  | _, o, [] => .ok o
  | op, o, w :: ws =>
    match (if op then numR io w else none) with
    | some (.error e) => .error e
    | some (.ok z) => parseOpts io TZ true { o with Zlist := some (o.Zlist.getD [] ++ [z])
                                                    Zbase := some (refOf TZ (o.Zlist.getD [] ++ [z])) } ws
    | none => match kindOf w with
      | some k => parseOpts io TZ false { o with kind := k } ws
      | none => match fmtOf w with
        | some f => parseOpts io TZ false { o with fmt := f } ws
        | none => match unitOf w with
          | some u => parseOpts io TZ false { o with unit := u } ws
          | none => if w = ['R'] then parseOpts io TZ true { o with Zlist := some [], Zbase := some (refOf TZ []) } ws
            else .error .valueError

/-- ReadTSF.py:111-145: `None[1:]` is a TypeError -/
noncomputable def options (io : NumIO) (TZ : Option ℝ) : Option Text → Except Err Opts
  | none => .error .typeError
  | some t => parseOpts io TZ false Opts.start (words (upper t.tail))

/-! ## ReadTSF: special comments -/

structure Special where
  ports : Option (List Text)
  markers : Option (List Num)
  shape : Option (List ℤ)
  part : Option (List Text)
  numbering : Option (List Text)

/-- `!PORTS a, b, c`, ReadTSF.py:161-163 -/
def portsOf (l : Text) : Option (List Text) :=
  (findTag "!PORTS ".toList l).map fun t => (pieces (· = ',') t).map strip

/-- one comment line, ReadTSF.py:155-185.  A `!SHAPE` with one number calls `tuple.append` (AttributeError); `!NUMBERING` takes
`len(shape)`, a TypeError as long as there was no `!SHAPE` -/
def special1 (io : NumIO) (s : Special) (l : Text) : Except Err Special := do
  let s := match portsOf l with | some ps => { s with ports := some ps } | none => s
  let s ← match findTag "!MARKERS ".toList l with
    | some t => (mapE io.get (words t)).map fun m => { s with markers := some m }
    | none => .ok s
  let s ← match findTag "!SHAPE ".toList (upper l) with
    | some t => match mapE io.getInt ((words t).take 2) with
      | .error e => .error e
      | .ok sh => if sh.length = 1 then .error .attributeError else .ok { s with shape := some sh }
    | none => .ok s
  let s := match findTag "!PART ".toList l with
    | some t => { s with part := some (((words t).take 2).map lower) }
    | none => s
  match findTag "!NUMBERING ".toList l with
  | some t => match s.shape with
    | none => .error .typeError
    | some [] => .error .indexError
    | some _ => .ok { s with numbering := some (((words t).take 2).map lower) }
  | none => .ok s

def specials (io : NumIO) : Special → List Text → Except Err Special
  | s, [] => .ok s
  | s, l :: ls => match special1 io s l with
    | .error e => .error e
    | .ok s1 => specials io s1 ls

/-! ## ReadTSF: port impedances and propagation constants in comments (HFSS) -/

/-- does the text start with the word, ignoring case -/
def startsCI (w l : Text) : Bool := upper w = upper (l.take w.length)

/-- `reGline.search(rest).group(1)`, ReadTSF.py:245, 259 (lines are stripped, so something follows the blanks) -/
def gammaTag : Text → Option Text
  | [] => none
  | c :: cs =>
    let r := (c :: cs).drop 5
    let t := r.dropWhile isWs
    if startsCI "Gamma".toList (c :: cs) ∧ r ≠ t ∧ t ≠ [] then
      some (match t with | '!' :: d :: u => d :: u | t => t)
    else gammaTag cs

/-- `reZline.search(rest).group(1)`, ReadTSF.py:246, 260 -/
def impTag : Text → Option Text
  | [] => none
  | c :: cs =>
    if startsCI "Port Impedance".toList (c :: cs) ∧ (c :: cs).drop 14 ≠ [] then some ((c :: cs).drop 14) else impTag cs

inductive Last | none | gamma | imp
deriving DecidableEq

/-- the local variables, ReadTSF.py:239-241 -/
structure GS where
  Gms : List (List (Num × Num))
  Gmsk : List (Num × Num)
  Zcs : List (List (Num × Num))
  Zcsk : List (Num × Num)
  last : Last

def GS.start : GS := ⟨[], [], [], [], .none⟩

/-- `[float(r[i])+1j*float(r[i+1]) for i in range(0,len(r),2)]`, ReadTSF.py:278, 293 -/
def numPairs (io : NumIO) (t : Text) : Except Err (List (Num × Num)) :=
  match mapE io.get (words t) with
  | .error e => .error e
  | .ok l => if l.length % 2 = 1 then .error .indexError else .ok (pairs l)

/-- one comment after the first data line (`rest`: what follows its `!`), ReadTSF.py:248-294 -/
def gline (io : NumIO) (g : GS) (rest : Text) : Except Err GS :=
  match impTag rest with
  | none =>
    if (gammaTag rest).isSome ∨ g.last = .gamma then
      if g.last ≠ .gamma then
        (numPairs io ((gammaTag rest).getD [])).map fun l =>
          { g with Gms := if g.Gmsk ≠ [] then g.Gms ++ [g.Gmsk] else g.Gms, Gmsk := l, last := .gamma }
      else (numPairs io rest).map fun l => { g with Gmsk := g.Gmsk ++ l }
    else if g.last = .imp then (numPairs io rest).map fun l => { g with Zcsk := g.Zcsk ++ l }
    else .ok g
  | some t =>
    if (gammaTag rest).isSome then
      if g.last ≠ .gamma then
        (numPairs io ((gammaTag rest).getD [])).map fun l =>
          { g with Gms := if g.Gmsk ≠ [] then g.Gms ++ [g.Gmsk] else g.Gms, Gmsk := l, last := .gamma }
      else (numPairs io rest).map fun l => { g with Gmsk := g.Gmsk ++ l }
    else if g.last ≠ .imp then
      (numPairs io t).map fun l =>
        { g with Zcs := if g.Zcsk ≠ [] then g.Zcs ++ [g.Zcsk] else g.Zcs, Zcsk := l, last := .imp }
    else (numPairs io rest).map fun l => { g with Zcsk := g.Zcsk ++ l }

def glines (io : NumIO) : GS → List Text → Except Err GS
  | g, [] => .ok g
  | g, l :: ls => match gline io g l.tail with
    | .error e => .error e
    | .ok g1 => glines io g1 ls

/-- a complex number from two items -/
noncomputable def complexOf (p : Num × Num) : Except Err ℂ :=
  match p with
  | (some x, some y) => .ok ⟨x, y⟩
  | _ => .error .nonFinite

/-- the tables `Gms`, `Zcs`, ReadTSF.py:296-337: `(rows of port impedances, is it a Python list)` and the propagation constants.
Ragged tables raise ValueError; for N = 1 both tests on the width hold and the table becomes a list of arrays. -/
noncomputable def tables (F N : ℕ) (g : GS) : Except Err (List (List ℂ) × List (List ℂ) × Bool) :=
  let G := if g.Gmsk ≠ [] then g.Gms ++ [g.Gmsk] else g.Gms
  let Z := if g.Zcsk ≠ [] then g.Zcs ++ [g.Zcsk] else g.Zcs
  let w := (G.head?.getD []).length
  if G.any (fun l => l.length ≠ w) then .error .valueError
  else if Z.any (fun l => l.length ≠ (Z.head?.getD []).length) then .error .valueError
  else if G = [] ∧ Z = [] then .ok ([], [], false)
  else if G.length ≠ Z.length ∨ w ≠ (Z.head?.getD []).length ∨ G.length ≠ F ∨ w ≠ N ∧ w ≠ N * N then .error .ioError
  else match mapE (mapE complexOf) Z, mapE (mapE complexOf) G with
    | .ok Z, .ok G =>
      if w = N * N then
        let diag (l : List ℂ) : List ℂ := (List.range N).map fun i => l.getD (i * N + i) 0
        .ok (Z.map diag, G.map diag, true)
      else .ok (Z, G, false)
    | _, _ => .error .nonFinite

/-! ## ReadTSF: values -/

open Classical in
/-- `10**x` with `10**(-inf) = 0` -/
noncomputable def tenPow : Num → ℝ
  | none => 0
  | some x => (10 : ℝ) ^ x

/-- `exp(1j * d * pi / 180)` -/
noncomputable def cis (d : ℝ) : ℂ := Complex.exp (Complex.I * d * Real.pi / 180)

/-- the number format, ReadTSF.py:342-348 -/
noncomputable def decode (fmt : Fmt) (p : Num × Num) : Except Err ℂ :=
  match fmt, p with
  | .RI, (some x, some y) => .ok ⟨x, y⟩
  | .MA, (some x, some y) => .ok (x * cis y)
  | .DB, (some x, some y) => .ok (tenPow (some (x / 20)) * cis y)
  | .DB, (none, some y) => .ok (tenPow none * cis y)
  | _, _ => .error .nonFinite

/-- a finite number -/
def finite : Num → Except Err ℝ
  | some x => .ok x
  | none => .error .nonFinite

/-- row-major N x N matrix -/
noncomputable def matOf (N : ℕ) (l : List ℂ) : Matrix (Fin N) (Fin N) ℂ := fun i j => l.getD (i.1 * N + j.1) 0

/-- the stack of matrices in a flat list -/
noncomputable def stackOf (F N : ℕ) (l : List ℂ) : List (Matrix (Fin N) (Fin N) ℂ) :=
  (List.range F).map fun k => matOf N (l.drop (k * (N * N)))

/-- an impedance table as an array -/
noncomputable def tableND (F N : ℕ) (Z : List (List ℂ)) : ND ℂ := .d2 F N fun k i => (Z.getD k.1 []).getD i.1 0

open Classical in
/-- `TZbase if TZbase else d` -/
noncomputable def orElse (TZ : Option ℝ) (d : ℝ) : ℝ := match TZ with | some z => if z = 0 then d else z | none => d

/-- `S_from_Z(Ss, Zbase)` with a list of reference impedances: `Zbase*np.eye(N)` is the diagonal matrix (ValueError for another
length) -/
noncomputable def sFromZRef {N : ℕ} (l : List (Matrix (Fin N) (Fin N) ℂ)) : Ref → Except Err (ND ℂ)
  | .one z => sFromZ (z : ℂ) (.d3 N N l)
  | .many zs =>
    if zs.length ≠ N then .error .valueError
    else
      let D : Matrix (Fin N) (Fin N) ℂ := Matrix.diagonal fun i => ((zs.getD i.1 0 : ℝ) : ℂ)
      match mapE (fun Z : Matrix (Fin N) (Fin N) ℂ => (npInv (Z + D)).map fun W => (Z - D) * W) l with
      | .error e => .error e
      | .ok r => .ok (.d3 N N r)

/-- the conversion to voltage waves on the requested reference, ReadTSF.py:350-411 -/
noncomputable def toS (F N : ℕ) (l : List (Matrix (Fin N) (Fin N) ℂ)) (o : Opts) (Z : List (List ℂ)) (isList : Bool)
    (TZ : Option ℝ) : Except Err (ND ℂ) :=
  let nZcs := (Z.head?.getD []).length
  match (if nZcs ≠ 0 then                                                                  -- 352
      match o.Zbase with
      | none => .ok 0
      | some (.one _) => if nZcs = 1 ∧ isList then .error .typeError else .ok 1             -- 356-364: `Zcs[:,0]` on a list
      | some (.many zs) => .ok zs.length
    else match o.Zlist with
      | none => .error .unboundLocal                                                        -- 381
      | some zs => .ok zs.length : Except Err ℕ) with
  | .error e => .error e
  | .ok nZbase =>
    let Zb : Option Ref := match o.kind, o.Zbase with                                       -- 387
      | .S, z => z
      | _, none => some (.one 50)
      | _, some z => some z
    match o.kind with
    | .Z => sFromZRef l (match TZ, Zb with                                                  -- 388-390
        | some t, some z => if t = 0 then z else .one t
        | some t, none => .one t
        | none, some z => z
        | none, none => .one 50)
    | .Y => sFromY (50 : ℂ) (.d3 N N l)                                                     -- 392-394
    | .S =>
      if nZcs ≠ 0 then convertGeneral (.d0 (orElse TZ 50 : ℂ)) (.d3 N N l) (tableND F N Z) "P" "V"   -- 398-399
      else match Zb with
        | some (.one z) => if nZbase = 1 ∨ nZbase = N then
              convertGeneral (.d0 (orElse TZ 50 : ℂ)) (.d3 N N l) (.d0 (z : ℂ)) "P" "V"     -- 401-402
            else .error .valueError                                                         -- 408-411
        | some (.many zs) => if nZbase = 1 ∨ nZbase = N then
              convertGeneral (.d0 (orElse TZ 50 : ℂ)) (.d3 N N l) (.d1 (zs.map fun z : ℝ => (z : ℂ))) "P" "V"
            else .error .valueError
        | none => convertGeneral (.d0 (orElse TZ 50 : ℂ)) (.d3 N N l) (.d1 []) "P" "V"      -- 405-406

/-- the keyword `ports`: absent, a format string (applied to 1, 2, ...), or a list -/
inductive PortArg | absent | format (f : ℕ → Text) | list (l : List Text)

/-- `'port-%03d' % k` -/
def defaultPort (k : ℕ) : Text :=
  let d := (toString k).toList
  "port-".toList ++ List.replicate (3 - d.length) '0' ++ d

/-- the port names, ReadTSF.py:414-445 -/
def portNames (N : ℕ) (arg : PortArg) (file : Option (List Text)) : Option (List Text) :=
  match arg with
  | .format f => some ((List.range N).map fun k => f (k + 1))
  | .list l => if l.length = N then some l else file
  | .absent => match file with
    | some ps => if ps ≠ [] ∧ ps.length = N then some ps else some ((List.range N).map fun k => defaultPort (k + 1))
    | none => some ((List.range N).map fun k => defaultPort (k + 1))

/-- the returned dictionary, ReadTSF.py:449-463 (without `variables`) -/
structure Res where
  ports : Option (List Text)
  fs : List ℝ
  funit : FUnit
  Ss : ND ℂ
  Zbase : Option ℝ
  special : Special
  Zc : List (List ℂ)
  Gm : List (List ℂ)
  datafmt : Fmt

/-- the keyword arguments of ReadTSF, ReadTSF.py:42-44: `Zbase`, `funit` (default GHz), `ports` -/
structure Kw where
  Zbase : Option ℝ
  funit : Text
  ports : PortArg

/-- the part after the loop over the lines, ReadTSF.py:102-463.  `comments[0]` (194) of an empty list raises IndexError. -/
noncomputable def finish (io : NumIO) (kw : Kw) (st : RS) : Except Err Res := do
  let (N, flat) ← reshape st
  let o ← options io kw.Zbase st.tformat
  let sp ← specials io ⟨none, none, none, none, none⟩ (st.comments.take st.marker)
  let g ← if st.comments = [] then .error .indexError else glines io GS.start (st.comments.drop st.marker)
  let (Z, G, isList) ← tables st.fs.length N g
  let u ← match unitOf (upper kw.funit) with | some u => .ok u | none => .error Err.keyError
  let fs ← mapE finite st.fs
  let vals ← mapE (decode o.fmt) flat
  let S ← toS st.fs.length N (stackOf st.fs.length N vals) o Z isList kw.Zbase
  .ok ⟨portNames N kw.ports sp.ports, fs.map fun f => f * (o.unit.hz / u.hz), o.unit, S, kw.Zbase, sp, Z, G, o.fmt⟩

/-- `ReadTSF(src, **kwargs)` given the lines of the source, ReadTSF.py:21-463 -/
noncomputable def readTSF (io : NumIO) (kw : Kw) (lines : List Text) : Except Err Res :=
  match readLines io RS.start lines with
  | .error e => .error e
  | .ok st => finish io kw st

/-! ## WriteTSF -/

/-- `re.findall('^.*?([KMG]?HZ).*$', s)[0]`, WriteTSF.py:47-48: the leftmost match -/
def findUnit : Text → Option FUnit
  | [] => none
  | c :: cs =>
    if FUnit.KHZ.text.isPrefixOf (c :: cs) then some .KHZ
    else if FUnit.MHZ.text.isPrefixOf (c :: cs) then some .MHZ
    else if FUnit.GHZ.text.isPrefixOf (c :: cs) then some .GHZ
    else if FUnit.HZ.text.isPrefixOf (c :: cs) then some .HZ
    else findUnit cs

/-- `re.findall('(RI|MA|DB)', s)`, WriteTSF.py:60 -/
def findFmts : Text → List Fmt
  | 'R' :: 'I' :: r => .RI :: findFmts r
  | 'M' :: 'A' :: r => .MA :: findFmts r
  | 'D' :: 'B' :: r => .DB :: findFmts r
  | _ :: r => findFmts r
  | [] => []

def isDigit (c : Char) : Bool := '0' ≤ c ∧ c ≤ '9'

/-- the exponent part of the pattern -/
def scanExp (l : Text) : Text :=
  match l with
  | [] => []
  | e :: r =>
    if e = 'e' ∨ e = 'E' then
      match r with
      | [] => []
      | s :: t =>
        if s = '+' ∨ s = '-' then (if t.takeWhile isDigit ≠ [] then e :: s :: t.takeWhile isDigit else [])
        else if r.takeWhile isDigit ≠ [] then e :: r.takeWhile isDigit else []
    else []

/-- the unsigned number of the pattern -/
def scanAbs (l : Text) : Option Text :=
  let ds := l.takeWhile isDigit
  let r := l.dropWhile isDigit
  match r with
  | '.' :: t =>
    if t.takeWhile isDigit ≠ [] then some (ds ++ '.' :: t.takeWhile isDigit ++ scanExp (t.dropWhile isDigit))
    else if ds ≠ [] then some ds else none
  | _ => if ds ≠ [] then some (ds ++ scanExp r) else none

/-- the number in `R\s*([-+]?(?:\d*[\.])?\d+(?:[eE][-+]?\d+)?)`, WriteTSF.py:53 -/
def scanNum (l : Text) : Option Text :=
  match l with
  | '+' :: r => (scanAbs r).map ('+' :: ·)
  | '-' :: r => (scanAbs r).map ('-' :: ·)
  | _ => scanAbs l

/-- the first `R` followed by a number, WriteTSF.py:51-56 -/
def findR : Text → Option Text
  | [] => none
  | c :: cs =>
    match (if c = 'R' then scanNum (cs.dropWhile isWs) else none) with
    | some t => some t
    | none => findR cs

/-- WriteTSF.py:50-58 -/
noncomputable def zrefOf (io : NumIO) (t : Text) : ℝ :=
  match (findR t).bind io.float with
  | some (some z) => z
  | _ => 50

/-- WriteTSF.py:60-68 -/
def fmtOfFormat (t : Text) : Except Err Fmt :=
  match findFmts (upper t) with
  | [] => .ok .DB
  | [f] => .ok f
  | _ => .error .valueError

open Classical in
/-- the two numbers written for a matrix element, WriteTSF.py:106-114, rfBase.py:327-331: `log10(0)` is `-inf` -/
noncomputable def encode (fmt : Fmt) (z : ℂ) : Num × Num :=
  match fmt with
  | .RI => (some z.re, some z.im)
  | .MA => (some ‖z‖, some (z.arg * 180 / Real.pi))
  | .DB => (if z = 0 then none else some (20 * Real.logb 10 ‖z‖), some (z.arg * 180 / Real.pi))

/-- what `%` formatting gives for the frequency and the two numbers -/
structure Printf where
  freq : Num → Text
  first : Num → Text
  second : Num → Text

/-- spacing: before, between and after the two numbers; the continuation indent; what ends row `kr` -/
structure Layout where
  pre : Text
  post : Text
  lead : Text
  rowEnd : ℕ → Text

/-- one element, WriteTSF.py:97, 106-114; rfBase.py:327-331, 425 -/
noncomputable def pairText (P : Printf) (L : Layout) (fmt : Fmt) (z : ℂ) : Text :=
  L.pre ++ P.first (encode fmt z).1 ++ ' ' :: P.second (encode fmt z).2 ++ L.post

/-- the line break after every fourth element, WriteTSF.py:116-119, rfBase.py:427-430; `isnt a b` is Python's `a is not b` -/
def brk (isnt : ℕ → ℕ → Bool) (L : Layout) (N kr kc : ℕ) : Text :=
  if kc % 4 = 3 ∧ isnt kc (N - 1) = true then
    (if kc = 3 then " !    row ".toList ++ (toString (kr + 1)).toList else []) ++ '\n' :: L.lead
  else []

/-- the loop over the columns, WriteTSF.py:104-119 -/
noncomputable def rowText (P : Printf) (isnt : ℕ → ℕ → Bool) (L : Layout) (fmt : Fmt) (N kr : ℕ) : ℕ → List ℂ → Text
  | _, [] => []
  | kc, z :: zs => pairText P L fmt z ++ brk isnt L N kr kc ++ rowText P isnt L fmt N kr (kc + 1) zs

/-- the loop over the rows, WriteTSF.py:103-124 -/
noncomputable def rowsText (P : Printf) (isnt : ℕ → ℕ → Bool) (L : Layout) (fmt : Fmt) (N : ℕ) : ℕ → List (List ℂ) → Text
  | _, [] => []
  | kr, r :: rs => rowText P isnt L fmt N kr 0 r ++ L.rowEnd kr ++ rowsText P isnt L fmt N (kr + 1) rs

/-- the rows of a matrix -/
def rowsOf {N : ℕ} (S : Matrix (Fin N) (Fin N) ℂ) : List (List ℂ) :=
  (List.finRange N).map fun i => (List.finRange N).map fun j => S i j

/-- one frequency, WriteTSF.py:101-126 -/
noncomputable def blockText (P : Printf) (isnt : ℕ → ℕ → Bool) (L : Layout) (fmt : Fmt) {N : ℕ} (f : Num)
    (S : Matrix (Fin N) (Fin N) ℂ) : Text :=
  P.freq f ++ ' ' :: rowsText P isnt L fmt N 0 (rowsOf S) ++ ['\n']

/-- the loop over the frequencies, WriteTSF.py:100-126 -/
noncomputable def dataText (P : Printf) (isnt : ℕ → ℕ → Bool) (L : Layout) (fmt : Fmt) {N : ℕ}
    (l : List (ℝ × Matrix (Fin N) (Fin N) ℂ)) : Text :=
  (l.map fun x => blockText P isnt L fmt (some x.1) x.2).flatten

/-- spacing of WriteTSF, WriteTSF.py:97-98, 121-124: `n` blanks of indent -/
def layoutW (N n : ℕ) : Layout where
  pre := []
  post := [' ']
  lead := List.replicate n ' '
  rowEnd kr := if 2 < N then '\n' :: (if kr ≠ N - 1 then List.replicate n ' ' else []) else []

/-- an object WriteTSF is given: names, stored frequencies, `getS(f, Zbase)` -/
structure WObj (N : ℕ) where
  ports : List Text
  fs : List ℝ
  getS : ℝ → ℝ → Except Err (Matrix (Fin N) (Fin N) ℂ)

/-- `', '.join(ports)` -/
def joinPorts (ps : List Text) : Text := [',', ' '].intercalate ps

/-- the header, WriteTSF.py:37-45, 70-72; `ver`, `date` are the version and the date -/
def headerW (ver date : Text) (comments fmt : Text) (ports : List Text) : Text :=
  "! TouchStone file (pyRFtk.WriteTSF version ".toList ++ ver ++ ")\n! Date : ".toList ++ date ++ " \n\n".toList ++
  ((Misc.strLines comments).map fun l => "! ".toList ++ l ++ ['\n']).flatten ++
  "\n# ".toList ++ fmt ++ " \n\n".toList ++
  (if ports ≠ [] then "!PORTS ".toList ++ joinPorts ports ++ "\n\n".toList else [])

/-- `WriteTSF(object, fs=..., tsf_format=..., num_format=..., comments=...)`, WriteTSF.py:15-134: the text.  `P` and `n` (indent)
come from `num_format`, whose default depends on the number format. -/
noncomputable def writeTSF (io : NumIO) (P : Fmt → Printf × ℕ) (isnt : ℕ → ℕ → Bool) (ver date : Text) {N : ℕ} (o : WObj N)
    (fs : List ℝ) (format comments : Text) : Except Err Text :=
  match findUnit (upper format) with
  | none => .error .indexError                                                              -- 47-48
  | some u => match fmtOfFormat format with
    | .error e => .error e                                                                  -- 60-68
    | .ok fmt =>
      let fs := if fs = [] then o.fs else fs                                                -- 76-83
      if fs = [] then .error .valueError                                                    -- 85-88
      else match mapE (fun f => (o.getS f (zrefOf io format)).map fun S => (f / u.hz, S)) fs with
        | .error e => .error e
        | .ok l => .ok (headerW ver date comments format o.ports ++
            dataText (P fmt).1 isnt (layoutW N (P fmt).2) fmt l)

end PyRFtk.TSF
