import Verif.CircuitInv

/-!
# Model of `rfCircuit.__str__(full)`: the listing of a circuit

rfCircuit.py:125-242.  The text is modelled by what it shows: one `Line` per equation (its number, the unknown listed beside it, the
label of the equation and the coefficients shown, each with its column), the ports that have no equation yet, and one `BlkText` per
block.

Simplifications: numbers are shown exactly (the code rounds to four decimals); the padding of columns is left out; names contain no white
space (the code splits the label of an equation at white space); the part about objects used for several blocks (185-194, 229-233) is left out,
as in `CircuitModel.lean` no two blocks share an object; the "last evaluation" part (235-239) is left out.

`self.C` (101, 855), which `CircuitModel.lean` leaves out, is added here as a separate dictionary `CDict`.
-/

set_option linter.unusedSectionVars false

namespace PyRFtk.Circuit

/-- `self.C`: `port ↦ (idxA, idxBs)` -/
abbrev CDict := List (Node × (ℕ × List ℕ))

/-- one line of the list of equations -/
structure Line (K : Type*) where
  k : ℕ
  wave : Wave
  eqn : Eqn
  coefs : List (ℕ × K)

/-- what is shown of a block: its name, its ports with the object's own port names and positions, the object's own text -/
structure BlkText where
  name : String
  ports : List (String × String × ℚ)
  text : String
deriving DecidableEq

/-- what printing uses of a block object: whether it is a list or an array, its `ports`, its `xpos` and its `__str__` -/
structure ShowOps (O : Type*) where
  isArray : O → Bool
  ports : O → Option (List String)
  xpos : O → Option (List ℚ)
  str : O → Except Err String

section
variable {K O F Fl : Type*} [Field K] [DecidableEq F] [DecidableEq Fl]

/-- `connect(*ports)` together with the update `self.C[port] = idxA, idxBs` of its loop (rfCircuit.py:843-858): all ports of one call
get the same `idxBs`, an entry that exists is overwritten.  Simplification: nothing is entered when the call raises. -/
def connectC (ops : ObjOps K O F Fl) (s : St K O F Fl) (C : CDict) (ps : List Node) :
    (St K O F Fl × CDict) × Except Err Unit :=
  match connect ops s ps with
  | (s', .error e) => ((s', C), .error e)
  | (s', .ok _) =>
    let new := ps.filter fun p => (Dir.inn, p) ∉ s.waves
    let idxBs := ps.map fun q => idx s'.waves (waveB new q)
    ((s', ps.foldl (fun C p => dictSet p (idx s'.waves (waveA new p), idxBs) C) C), .ok ())

/-- `for idx in idxs: sij = Mr[idx]; …` (IndexError for a column that does not exist) -/
def pick (cols : ℕ) (r : ℕ → K) (idxs : List ℕ) : Except Err (List (ℕ × K)) :=
  mapE (fun j => if j < cols then .ok (j, r j) else .error .indexError) idxs

/-- the block an equation label `S. name.port` belongs to: `port.split('.')[0]` (149) -/
def Node.head : Node → String
  | .blk b _ => b
  | .ext n => n

/-- the coefficients shown for equation `k` with row `r` (151-180); `near1 z` stands for `-1E-6 < abs(z) - 1 < 1E-6` -/
def coefsOf (near1 : K → Bool) (s : St K O F Fl) (C : CDict) (k : ℕ) (r : ℕ → K) : Eqn → Except Err (List (ℕ × K))
  | .S n =>
    match s.blocks.find? (fun b => b.name = n.head) with                                  -- 152
    | none => .error .keyError
    | some b =>
      let N := b.ports.length
      let slice := (List.range' b.loc.2 N).filter (· < s.cols)                            -- 156: a slice is cut, it never raises
      (pick s.cols r [b.loc.2 + N + k - b.loc.1]).map (fun l => slice.map (fun j => (j, r j)) ++ l)     -- 158-159
  | .C n =>
    match dictIndex C n with                                                              -- 161
    | .error e => .error e
    | .ok (a, bs) => pick s.cols r ((a :: bs).mergeSort (· ≤ ·))                          -- 162-165
  | .Di _ | .De _ => .ok (((List.range s.cols).filter (fun j => near1 (r j))).map (fun j => (j, r j)))  -- 166-170
  | .T n =>
    match dictIndex s.T n with                                                            -- 172
    | .error e => .error e
    | .ok (a, b, _) => pick s.cols r ([a, b].mergeSort (· ≤ ·))
  | .E n =>
    match pyIndex s.waves (.inn, n) with                                                  -- 177
    | .error e => .error e
    | .ok j => pick s.cols r [j]

/-- one turn of the loop 146-180 -/
def lineOf (near1 : K → Bool) (s : St K O F Fl) (C : CDict) (x : ((ℕ → K) × Eqn) × ℕ) : Except Err (Line K) :=
  match s.waves[x.2]? with                                                                -- 147
  | none => .error .indexError
  | some w => (coefsOf near1 s C x.2 x.1.1 x.1.2).map fun l => ⟨x.2, w, x.1.2, l⟩

/-- the list of equations (144-180) -/
def listEqs (near1 : K → Bool) (s : St K O F Fl) (C : CDict) : Except Err (List (Line K)) :=
  mapE (lineOf near1 s C) ((s.rows.zip s.eqns).zipIdx)

/-- the ports without an equation (182-183): number, unknown, port.  `zip` stops at the shorter one. -/
def openPorts (s : St K O F Fl) : List ((ℕ × Wave) × Node) :=
  (((s.waves.zipIdx).drop s.rows.length).map fun x => (x.2, x.1)).zip s.ports

/-- what is shown of one block (195-225) -/
def showBlk (sh : ShowOps O) (b : Blk O) : Except Err BlkText :=
  if b.ports = [] then .error .valueError                                                 -- 199, 213: max([])
  else if sh.isArray b.obj then .error .typeError                                         -- 200: zip(blk['ports'], a number)
  else
    let oports := (sh.ports b.obj).getD (b.ports.map fun _ => "-")                        -- 214-217
    if oports = [] then .error .valueError                                                -- 218
    else match sh.xpos b.obj with
      | none => .error .attributeError                                                    -- 219
      | some xs =>
        match sh.str b.obj with                                                           -- 224
        | .error e => .error e
        | .ok t => .ok ⟨b.name, (b.ports.zip (oports.zip xs)).map fun x => (x.1, x.2.1, x.2.2 + b.relpos), t⟩

/-- `__str__(full)` with `full ≥ 1`: equations, ports without an equation, blocks.  Nothing but `<empty>` for a circuit without
equations (140-142). -/
def listing (near1 : K → Bool) (sh : ShowOps O) (s : St K O F Fl) (C : CDict) :
    Except Err (List (Line K) × List ((ℕ × Wave) × Node) × List BlkText) :=
  if s.rows = [] then .ok ([], [], [])
  else match listEqs near1 s C with
    | .error e => .error e
    | .ok ls => match mapE (showBlk sh) s.blocks with
      | .error e => .error e
      | .ok bs => .ok (ls, openPorts s, bs)

/-- the histories of `Built`, with the dictionary `self.C` of the circuit -/
inductive BuiltC (ops : ObjOps K O F Fl) (beh : O → F → K → Fl → Except Err (SMat K)) (nan zb : K) (names : List Node) :
    Net K → Behave K F Fl → St K O F Fl → CDict → Phase → Prop
  | init (bh) : BuiltC ops beh nan zb names Net.empty bh (St.init zb names) [] .building
  | addblock {net bh s s' C name obj spec relpos ports} :
      BuiltC ops beh nan zb names net bh s C .building →
      name ∉ net.blks.map Prod.fst → resolvePorts ops obj spec = .ok ports → ports.Nodup →
      Circuit.addblock ops nan s name obj spec relpos = (s', .ok ()) →
      BuiltC ops beh nan zb names (net.addBlk name ports) (Function.update bh name (beh obj)) s' C .building
  | replace {net bh s s' C ph name obj spec relpos} :
      BuiltC ops beh nan zb names net bh s C ph →
      name ∈ net.blks.map Prod.fst →
      Circuit.addblock ops nan s name obj spec relpos = (s', .ok ()) →
      BuiltC ops beh nan zb names net (Function.update bh name (beh obj)) s' C (if ph = .reloaded then .evaluated else ph)
  | connect {net bh s s' C C' ps} :
      BuiltC ops beh nan zb names net bh s C .building →
      connectC ops s C ps = ((s', C'), .ok ()) → BuiltC ops beh nan zb names (net.connect ps) bh s' C' .building
  | terminate {net bh s s' C ph p args l} :
      BuiltC ops beh nan zb names net bh s C ph → args.load = some l →
      Circuit.terminate s p args = (s', .ok ()) →
      BuiltC ops beh nan zb names (net.load p l) bh s' C
        (if ph ≠ .building ∧ p ∈ net.loads.map Prod.fst then .reloaded else if ph = .reloaded then .evaluated else ph)
  | deembed {net bh s s' C int ext} :
      BuiltC ops beh nan zb names net bh s C .building →
      (∀ x ∈ int, x.2 ∉ net.nodes) → (int.map Prod.snd).Nodup → (∀ x ∈ int, ∀ b p, x.2 ≠ .blk b p) →
      Circuit.deembed s int ext = (s', .ok ()) → BuiltC ops beh nan zb names (net.deembed int ext) bh s' C .building
  | eval {net bh s s' C ph f z fl r} :
      BuiltC ops beh nan zb names net bh s C ph → getS ops s f z fl = (s', r) →
      BuiltC ops beh nan zb names net bh s' C (afterEval ph s f fl r)
  | used {net bh s C ph bs} :
      BuiltC ops beh nan zb names net bh s C ph →
      List.Forall₂ (fun b b' => Blk.Like ops b b' ∧ beh b'.obj = beh b.obj) s.blocks bs →
      BuiltC ops beh nan zb names net bh { s with blocks := bs } C ph

variable {ops : ObjOps K O F Fl} {beh : O → F → K → Fl → Except Err (SMat K)} {nan zb : K} {names : List Node}
variable {net : Net K} {bh : Behave K F Fl} {s s' : St K O F Fl} {ph : Phase} {C C' : CDict}

theorem connectC_ok {ps : List Node} (h : connectC ops s C ps = ((s', C'), .ok ())) :
    connect ops s ps = (s', .ok ()) ∧
    C' = ps.foldl (fun C p => dictSet p (idx s'.waves (waveA (ps.filter fun p => (Dir.inn, p) ∉ s.waves) p),
      ps.map fun q => idx s'.waves (waveB (ps.filter fun p => (Dir.inn, p) ∉ s.waves) q)) C) C := by
  unfold connectC at h
  cases hc : Circuit.connect ops s ps with
  | mk t r =>
    cases r with
    | error e => simp [hc] at h
    | ok u =>
      simp only [hc, Prod.mk.injEq, and_true] at h
      obtain ⟨rfl, rfl⟩ := h
      exact ⟨rfl, rfl⟩

/-- the same calls without the dictionary -/
theorem BuiltC.built (h : BuiltC ops beh nan zb names net bh s C ph) : Built ops beh nan zb names net bh s ph := by
  induction h with
  | init bh => exact .init bh
  | addblock _ h1 h2 h3 h4 ih => exact .addblock ih h1 h2 h3 h4
  | replace _ h1 h2 ih => exact .replace ih h1 h2
  | connect _ h1 ih => exact .connect ih (connectC_ok h1).1
  | terminate _ h1 h2 ih => exact .terminate ih h1 h2
  | deembed _ h1 h2 h3 h4 ih => exact .deembed ih h1 h2 h3 h4
  | eval _ h1 ih => exact .eval ih h1
  | used _ h1 ih => exact .used ih h1

/-- every history of `Built` is one with a dictionary -/
theorem Built.withC (h : Built ops beh nan zb names net bh s ph) : ∃ C, BuiltC ops beh nan zb names net bh s C ph := by
  induction h with
  | init bh => exact ⟨[], .init bh⟩
  | addblock _ h1 h2 h3 h4 ih => obtain ⟨C, ih⟩ := ih; exact ⟨C, .addblock ih h1 h2 h3 h4⟩
  | replace _ h1 h2 ih => obtain ⟨C, ih⟩ := ih; exact ⟨C, .replace ih h1 h2⟩
  | connect _ h1 ih =>
    obtain ⟨C, ih⟩ := ih
    exact ⟨_, .connect ih (by unfold connectC; rw [h1])⟩
  | terminate _ h1 h2 ih => obtain ⟨C, ih⟩ := ih; exact ⟨C, .terminate ih h1 h2⟩
  | deembed _ h1 h2 h3 h4 ih => obtain ⟨C, ih⟩ := ih; exact ⟨C, .deembed ih h1 h2 h3 h4⟩
  | eval _ h1 ih => obtain ⟨C, ih⟩ := ih; exact ⟨C, .eval ih h1⟩
  | used _ h1 ih => obtain ⟨C, ih⟩ := ih; exact ⟨C, .used ih h1⟩

end
end PyRFtk.Circuit
