import Verif.CircuitPorts

/-!
# `rfGTL`: a circuit described by line sections with named ends (rfGTL.py:28-328)

Model of the constructor after the substitution of the variables (that part is `GTLVars`).  The element objects (rfRLC, rfTRL) are given;
names of blocks and ports are without a dot; a termination is a dict of keyword arguments of `terminate`.
-/

set_option linter.unusedSectionVars false

namespace PyRFtk.Circuit

section
variable {K O F Fl : Type*} [Field K] [DecidableEq F] [DecidableEq Fl]

/-! ## model -/

/-- an entry of a block's `ports` list: a name, `'[oc]'`, `'[sc]'`, or a dict of keyword arguments for `terminate` -/
inductive GPort (K : Type*)
  | name (n : String)
  | oc
  | sc
  | load (args : TermArgs K)

/-- the name the port gets in the block (rfGTL.py:127-138) -/
def GPort.tag : GPort K → String
  | .name n => n
  | .oc => "[oc]"
  | .sc => "[sc]"
  | .load _ => "[**]"

/-- the termination meant (rfGTL.py:127-138) -/
def GPort.term : GPort K → Option (TermArgs K)
  | .name _ => none
  | .oc => some (.Y 0)
  | .sc => some (.Z 0)
  | .load a => some a

def gtlTags : List String := ["[**]", "[oc]", "[sc]"]

/-- an entry of the `GTL` dict: its name, its ports, the element, its `relpos` if given -/
structure GBlk (K O : Type*) where
  name : String
  ports : List (GPort K)
  obj : O
  xpos : Option ℚ

/-- `terminated` after the loop over the ports: the last termination wins (rfGTL.py:123-138) -/
def lastTerm (ports : List (GPort K)) : Option (TermArgs K × String) :=
  ports.foldl (fun r p => match p.term with | some a => some (a, p.tag) | none => r) none

/-- `portlist[p].append(blk)` (140-142) -/
def notePort (b : String) (pl : List (String × List String)) : GPort K → List (String × List String)
  | .name n => dictSet n ((dictGet n pl).getD [] ++ [b]) pl
  | _ => pl

/-- `portlist` after a block -/
def noteBlk (g : GBlk K O) (pl : List (String × List String)) : List (String × List String) := g.ports.foldl (notePort g.name) pl

/-- the entries `positions[blkPortnames[0]] = xpos` (178-182); a block without ports raises -/
def notePos (g : GBlk K O) (pos : List (String × ℚ)) : Except Err (List (String × ℚ)) :=
  match g.xpos with
  | none => .ok pos
  | some x => match g.ports with
    | [] => .error .indexError
    | p :: _ => .ok (dictSet p.tag x pos)

/-- the loop over the blocks (rfGTL.py:116-206): state, `portlist`, `positions` -/
noncomputable def gtlBlocks (ops : ObjOps K O F Fl) (nan : K) : List (GBlk K O) → St K O F Fl → List (String × List String) → List (String × ℚ) →
    St K O F Fl × Except Err (List (String × List String) × List (String × ℚ))
  | [], s, pl, pos => (s, .ok (pl, pos))
  | g :: gs, s, pl, pos =>
    match notePos g pos with
    | .error e => (s, .error e)
    | .ok pos => match addblock ops nan s g.name g.obj (.list (g.ports.map GPort.tag)) (g.xpos.getD (-10)) with   -- 204
      | (s, .error e) => (s, .error e)
      | (s, .ok _) => match lastTerm g.ports with
        | none => gtlBlocks ops nan gs s (noteBlk g pl) pos
        | some (a, t) => match terminate s (.blk g.name t) a with                                                 -- 205-206
          | (s, .error e) => (s, .error e)
          | (s, .ok _) => gtlBlocks ops nan gs s (noteBlk g pl) pos

/-- ends of the same name are connected (209-212) -/
def gtlJoins (ops : ObjOps K O F Fl) : List (String × List String) → St K O F Fl → St K O F Fl × Except Err Unit
  | [], s => (s, .ok ())
  | e :: pl, s =>
    if 1 < e.2.length then match connect ops s (e.2.map fun b => .blk b e.1) with
      | (s, .error e) => (s, .error e)
      | (s, .ok _) => gtlJoins ops pl s
    else gtlJoins ops pl s

/-- position of a block from that of one of its ports, first attempt (229-237) -/
def firstPos (ops : ObjOps K O F Fl) (p : String) (v : ℚ) (b : Blk O) : Except Err ℚ :=
  match pyIndex b.ports p with
  | .error e => .error e
  | .ok 0 => .ok v
  | .ok (_ + 1) => match ops.xpos b.obj with
    | none => .error .attributeError
    | some xs => match xs[1]?, xs[0]? with
      | some x1, some x0 => .ok (v - x1 + x0)
      | _, _ => .error .indexError

/-- `self.blocks[name]['xpos'] = …` -/
def setRel (name : String) (g : Blk O → Except Err ℚ) (bs : List (Blk O)) : Except Err (List (Blk O)) :=
  mapE (fun b => if b.name = name then (g b).map fun x => { b with relpos := x } else .ok b) bs

/-- fold with exceptions -/
def foldErr {α σ : Type*} (g : σ → α → Except Err σ) : σ → List α → Except Err σ
  | s, [] => .ok s
  | s, x :: xs => match g s x with
    | .error e => .error e
    | .ok s' => foldErr g s' xs

/-- the first loop over the positions (229-237) -/
def placeFirst (ops : ObjOps K O F Fl) (pl : List (String × List String)) (pos : List (String × ℚ)) (bs : List (Blk O)) :
    Except Err (List (Blk O)) :=
  foldErr (fun bs e => match dictGet e.1 pl with
    | none => .error .keyError
    | some ns => foldErr (fun bs n => setRel n (firstPos ops e.1 e.2) bs) bs ns) bs pos

/-- the other ports of a placed block get positions unless they have one (253-267; a mismatch only gives a warning) -/
def spread (p : String) (r : ℚ) : List (String × ℚ) → List (String × ℚ) → List (String × ℚ)
  | [], pos => pos
  | (q, x) :: z, pos =>
    spread p r z (if q ≠ p ∧ q ∉ gtlTags ∧ dictGet q pos = none then dictSet q (r + x) pos else pos)

/-- one block (247-268): the first of its ports that has a position places it -/
def placeBlk (ops : ObjOps K O F Fl) (b : Blk O) (pos : List (String × ℚ)) : Except Err (Option (ℚ × List (String × ℚ))) :=
  match ops.xpos b.obj with
  | none => .error .attributeError
  | some xs =>
    match (b.ports.zip xs).find? fun e => (dictGet e.1 pos).isSome with
    | none => .ok none
    | some (p, x) =>
      let r := (dictGet p pos).getD 0 - x
      .ok (some (r, spread p r (b.ports.zip xs) pos))

/-- one pass over the blocks (242-268); the flag of a block says that it is in `setblks`, the last result is `found` -/
def placePass (ops : ObjOps K O F Fl) : List (Blk O × Bool) → List (String × ℚ) →
    Except Err (List (Blk O × Bool) × List (String × ℚ) × Bool)
  | [], pos => .ok ([], pos, false)
  | (b, true) :: bs, pos => match placePass ops bs pos with
    | .error e => .error e
    | .ok (bs', pos', fnd) => .ok ((b, true) :: bs', pos', fnd)
  | (b, false) :: bs, pos => match placeBlk ops b pos with
    | .error e => .error e
    | .ok none => match placePass ops bs pos with
      | .error e => .error e
      | .ok (bs', pos', fnd) => .ok ((b, false) :: bs', pos', fnd)
    | .ok (some (r, pos)) => match placePass ops bs pos with
      | .error e => .error e
      | .ok (bs', pos', _) => .ok (({ b with relpos := r }, true) :: bs', pos', true)

/-- the `while found` loop (239-271), at most `n` passes -/
def placeLoop (ops : ObjOps K O F Fl) : ℕ → List (Blk O × Bool) → List (String × ℚ) →
    Except Err (List (Blk O × Bool) × List (String × ℚ))
  | 0, bs, pos => .ok (bs, pos)
  | n + 1, bs, pos => match placePass ops bs pos with
    | .error e => .error e
    | .ok (bs', pos', fnd) => if fnd then placeLoop ops n bs' pos' else .ok (bs', pos')

/-- both (229-271): every pass but the last places a block (`placeLoop_done`), so that the bound is never reached -/
def place (ops : ObjOps K O F Fl) (pl : List (String × List String)) (pos : List (String × ℚ)) (bs : List (Blk O)) :
    Except Err (List (Blk O)) :=
  match placeFirst ops pl pos bs with
  | .error e => .error e
  | .ok bs => (placeLoop ops (bs.length + 1) (bs.map fun b => (b, false)) pos).map fun r => r.1.map Prod.fst

/-- the declared ports become external nodes (297-306) -/
def gtlExts (ops : ObjOps K O F Fl) (pl : List (String × List String)) : List String → St K O F Fl → St K O F Fl × Except Err Unit
  | [], s => (s, .ok ())
  | p :: ps, s => match dictGet p pl with
    | some [b] => match connect ops s [.blk b p, .ext p] with
      | (s, .error e) => (s, .error e)
      | (s, .ok _) => gtlExts ops pl ps s
    | _ => (s, .error .valueError)

/-- the constructor (rfGTL.py:80-328); `f0` is 45 MHz, `fl0` the flags `{'sNp': False}` -/
noncomputable def gtlInit (ops : ObjOps K O F Fl) (nan zb : K) (f0 : F) (fl0 : Fl) (portnames : List String) (relpos : List (String × ℚ))
    (gs : List (GBlk K O)) : St K O F Fl × Except Err Unit :=
  let s : St K O F Fl := St.init zb (portnames.map .ext)
  if ∃ e ∈ relpos, e.1 ∉ portnames then (s, .error .valueError) else                                     -- 104-110
  match gtlBlocks ops nan gs s [] relpos with
  | (s, .error e) => (s, .error e)
  | (s, .ok (pl, pos)) => match gtlJoins ops pl s with
    | (s, .error e) => (s, .error e)
    | (s, .ok _) =>
      if (pl.filter fun e => ¬ 1 < e.2.length).length ≠ portnames.length then (s, .error .valueError) else   -- 213-218
      match place ops pl pos s.blocks with
      | .error e => (s, .error e)
      | .ok bs => match gtlExts ops pl portnames { s with blocks := bs } with
        | (s, .error e) => (s, .error e)
        | (s, .ok _) =>
          if s.ports ≠ portnames.map .ext then (s, .error .runtimeError) else                             -- 315-318
          match getS ops s f0 (some s.zbase) fl0 with                                                     -- 326
          | (s, .error e) => (s, .error e)
          | (s, .ok _) => (s, .ok ())

/-! ## specification -/

/-- the ends called `p` -/
def gEnds (gs : List (GBlk K O)) (p : String) : List Node :=
  (gs.filter fun g => p ∈ g.ports.filterMap fun | .name n => some n | _ => none).map fun g => .blk g.name p

/-- **The network a GTL description means.**  Every element obeys its scattering matrix; terminated ends obey Ohm's law (open: no
current, short: no voltage); ends of the same name are one node: one voltage, and the currents into the elements add up to zero, or, if
the name is declared as a port, to the current entering the port. -/
structure GLaws (portnames : List String) (gs : List (GBlk K O)) (zb : K) (Sof : String → SMat K) (w : Wave → K) : Prop where
  elements : ∀ g ∈ gs, BlockLaw (Sof g.name) g.name (g.ports.map GPort.tag) w
  opens : ∀ g ∈ gs, .oc ∈ g.ports → curr w (.blk g.name "[oc]") = 0
  shorts : ∀ g ∈ gs, .sc ∈ g.ports → volt w (.blk g.name "[sc]") = 0
  loads : ∀ g ∈ gs, ∀ a l, .load a ∈ g.ports → a.load = some l →
    l.Law zb (w (.inn, .blk g.name "[**]")) (w (.out, .blk g.name "[**]"))
  nodes : ∀ p, ∀ m ∈ gEnds gs p, ∀ n ∈ gEnds gs p, volt w m = volt w n
  inner : ∀ p ∉ portnames, ((gEnds gs p).map (curr w)).sum = 0
  outerV : ∀ p ∈ portnames, ∀ m ∈ gEnds gs p, volt w (.ext p) = volt w m
  outerI : ∀ p ∈ portnames, curr w (.ext p) = ((gEnds gs p).map (curr w)).sum

end
end PyRFtk.Circuit
