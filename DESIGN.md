# Formal model of pyRFtk in Lean 4 — design

## 1. What is modelled, and how

The model is a shallow, function-by-function transcription of the Python in `/repo/src/pyRFtk` into Lean functions. Every definition
cites the lines it models and says where it simplifies. Conventions used everywhere:

* **Numbers.** Python floats / complex are replaced by an exact field: an arbitrary field `K` when only `+ - * /` and matrix inversion
  occur, `ℂ`/`ℝ` when `sqrt`, `exp`, `conj`, `abs` or an order is needed, `ℚ` for positions. Floating-point rounding, overflow and NaN
  propagation are *not* modelled; a division by an exact zero, which numpy turns into `inf`/`nan`, is an explicit outcome
  `Err.nonFinite` where it can be reached. Infinite element values of rfRLC/rfArcObj are modelled (`Ext`).
* **Exceptions are values** of type `Except Err _`; `Err` names the Python exception class. For stateful code an operation returns the
  *new state even on failure* (Python mutates before raising), so that "a refused call changes nothing" is a statement that can be
  false — and sometimes is.
* **Arrays.** An array is `ND.d0 … d3` (by number of dimensions) or `dn` (4 or more). A single-frequency matrix is a
  `Matrix (Fin N) (Fin N) K`. `np.linalg.inv` is the matrix inverse guarded by `det ≠ 0`, otherwise `Err.linAlg`.
* **Names and text** are `List Char` or `String`; circuit waves `'->p'`, `'<-p'` are pairs (direction, node).
* **Unbounded Python loops / recursion** are given fuel where Lean needs it; theorems (`C40_terminates`, `C33_listBlocks_ends`,
  `C31_copy_ends`, …) show that the fuel is never what ends them, or that running out stands for Python's RecursionError / a hang.
* Logging, printing, plotting, `process_kwargs`-style option parsing are not modelled unless a property is about them.

Specifications are separate definitions (`…Spec.lean`, or the "specification" section of a file): networks and Kirchhoff's laws for
circuits, port power and wave definitions for conversions, the telegrapher equations for lines, nodal analysis for lumped elements, a
physical coaxial line for the resolver, sequences of assignments for `set`. A statement about the code is always made against those.

## 2. Trusted base

* Lean 4.33.0's kernel. Axioms each theorem depends on: a subset of `propext`, `Classical.choice`, `Quot.sound` (Mathlib's usual
  three); none are added, nothing is left open, no compiled evaluation is used.
* The statements and the definitions they mention: that the definitions transcribe the cited Python lines faithfully (by reading; the
  code could not be run).
* numpy / scipy: `np.linalg.inv` returns the inverse, or raises LinAlgError exactly for singular matrices; exact arithmetic;
  `interp1d` is a parameter that only has to return the stored value at stored abscissae where a theorem needs it; `solve_ivp` is an
  exact solver of the ODE it is given (TRL*); Python `list`, `dict` (insertion ordered), `str` semantics as documented.

### Parameters of the model (assumptions named in the theorems that use them)

| where | parameter | what it stands for |
|---|---|---|
| Circuit* | `ObjOps` | the block objects: size, port names, positions, `getS`. `Lawful`/`Behave` say that an object answers consistently; proved for circuits themselves (C22) |
| Circuit* | `nan` | the filler of `M` before the first evaluation; theorems hold for every value |
| Circuit* | `termRho`'s division by zero | ZeroDivisionError is `nonFinite` |
| TRL* | ODE solver | exact solution of the telegrapher equations on the grid; the sNp branch of rfTRL is not modelled; `set` is limited to L, Zbase, dx and unknown names |
| RfObject* | `Env`: argsort, sort of strings, interpolator builder | numpy's sort is any permutation that sorts (not stable); Python's string sort likewise |
| Touchstone* | `NumIO` (float, int), `Printf` (`%`), `isnt` (`is not` on small ints), `pick` (order of a set) | parsers and printers are characterised by `Prints`; a concrete fixed-decimal instance is proved to satisfy it (`C38_default_formats`), rounding ties excepted |
| Misc | `FS`, `openFile`, environment, `upper` | the file system and locale |
| GTLVars | `parse`, evaluation of expressions | Python's `eval` on arithmetic expressions |
| Resolver* | user functions | total functions of (w, x); values considered at one (w, x); the consistency check only prints; `scipy.constants` satisfy c0² mu0 e0 = 1 exactly |
| Heap* | `fuel` | Python's recursion limit; values are compared by equality; `chk` is the outcome of port-name resolution (modelled in CircuitModel) |

## 3. Modules

| files | source | subject |
|---|---|---|
| ConvertModel, ConvertSpec, ConvertLemmas, ConvertProps, ConvComplete, ConvGen*, PortPower, Bridge | S_from_Z.py, Z_from_S.py, S_from_Y.py, Y_from_S.py, ConvertGeneral.py, S_from_VI.py, _check_3D_shape_.py | conversions (C01–C09) |
| TRLSpec/Model/Lemmas/Props/Props2, MaxFun, VSW | rfTRL.py, _maxfun_ (rfTRL), scaleVSW/findclosest of plotVSWs.py | lines, maxima (C10–C12, C45, C48, C51) |
| RLCModel/Props/Props2/MaxV, Coupler | rfRLC.py, rfArcObj.py, rfCoupler.py | lumped elements (C13–C16, C48, C50) |
| RfBase | rfBase.py | common base: stored matrices, getS, maxV (C34, C48) |
| CircuitModel (+Spec, Rep, Ops, Connect, Term, Deembed, Eval, Solve, Lin, Frame, Built, Inv, Props, Props2, Examples, Power, Nest, Embed, Stale, Extend, Refuse) | rfCircuit.py: __init__, addblock, connect, terminate, deembed, extS, _get1S, getS | networks (C17–C29, C49) |
| CircuitSolution, CircuitSolProps, CircuitMaxV, CircuitCopy | rfCircuit.py: solve, Solution, maxV, copy | (C30, C31, C48) |
| CircuitPorts | rfCircuit.py:617-656 port names of a new block, and what is left of the caller's dict | (C53) |
| CircuitSolStale | Solution after a load was changed | (C30) |
| CircuitSolLater | Solution after any number of changed loads and failed evaluations | (C30) |
| CircuitSolNest, CircuitSolCirc, CircuitSolEx | rfCircuit.py:1550-1612: Solution's descent into blocks that have a Solution method; circuits in circuits to any depth; `nodes` argument. A block may be replaced by a used one (`Built.used`), as the descent evaluates inner circuits | (C30) |
| Heap, HeapCopy, HeapAdd, HeapSet, HeapSetProps, HeapEx | rfCircuit.py: findObj, object, listBlocks, dotted addblock, set; rfBase.py: copy, __deepcopy__ | object identity (C31–C33) |
| RfObject, RfObjectProps, Props2, Deembed, Ex | rfObject.py | measured data (C34–C37, C48, C52) |
| Touchstone, TouchstoneText/Read/Head/Opt/Trip/Dec/Err/Str/Bad/More/Grid | ReadTSF.py, WriteTSF.py, rfBase.tsf2str | files (C38, C39) |
| Resolver, ResolverProps/2/3, ResolverLine, ResolverSound/2, ResolverValues, ResolverWrong | resolveTLparams.py | line parameters (C40, C41) |
| Linfun, LinfunProps | resolveTLparams.py:`_linfunL` (424-495) | parameters as functions of position (C56) |
| CircuitInternal, CircuitInternalProps, CircuitInternalEx | rfCircuit.py:1351-1408: Get_internalSmatrix over `Solution` of nested circuits; `pinv` a parameter | (C58) |
| GTLElem | rfGTL.py:116-203, 375-395: aliases, units, kind of element of an entry | (C59) |
| GTLFile | rfGTL.py: getS / getSgtl with a touchstone file, Solution of such an object | (C60) |
| CircuitPos | rfCircuit.py: `xpos` through addblock (719-726), connect (806-825), terminate (939-961), deembed, getpos (739-763), resolve_xpos (1619-1645) | (C61) |
| CircuitPosNest | rfCircuit.py:739-763: getpos into circuits in circuits, dotted names as paths | (C61) |
| RfObjectRef | rfObject.py: convert2newZbase, `__setitem__`, units (532) | (C62) |
| CircuitParams, CircuitParamsProps, CircuitParamsEx | rfCircuit.py:1279-1307 with `params`; rfTRL.set/getS, rfRLC.set/getS, rfBase.set | parameters of blocks, dictionaries by reference (C63) |
| TouchstoneHFSS | ReadTSF.py:63-411 | port impedances and propagation constants in comments (C64) |
| RfObjectFile | rfObject.py:149-213, 647-661 | rfObject read from a Touchstone file (C65) |
| Interp, InterpProps, InterpEx | rfObject.py:449-502 | np.unwrap, the three modes; `interp1d` a parameter with laws `Interp1.Sound` (node, constants, straight lines), instance `lagrange`; straight lines `lineAt` (C66) |
| TRLFile, TRLFileProps | rfTRL.py:212-243, 534-600 | rfTRL(sNp=file) (C67) |
| CircuitList, CircuitListFrame, CircuitListProps, CircuitListThms, CircuitListEx | rfCircuit.py:125-242, 855 | the listing of a circuit (C68) |
| CircuitOwn, OwnMisc | rfCircuit.py:1249-1345, rfTRL.py:519-610, rfBase.py:244-287 | arrays handed out (C69) |
| CircuitShare | rfCircuit.py:627, 937-938, 1027, rfObject.py:706 | arguments shared between objects (C70) |
| CircuitOld, CircuitOldProps, CircuitOldInternal, CircuitOldMaxV | circuit.py:65-98, 318-594, 601-1233 | the legacy class and its correspondence with rfCircuit (C71); the table of voltages of maxV is left out |
| TouchstoneVars | ReadTSF.py:147-235 | annotations and HFSS variables; specification of the comment forms and C72 |
| RfObjectEq | rfObject.py:85-214 (attributes), 219-283 (copy, pickle), 379-406 | truth values of array comparisons and broadcasting as in numpy, version-dependent cases a parameter (C73) |
| CircuitCtor | rfBase.py:96-122, rfCircuit.py:59-112 (constructor with ports, xpos) | the lists are stored as given; then the circuit model (C74) |
| CompareSs | compareSs.py:6-63 | the panels and curves handed to matplotlib, in order (C75); arrays with more than three axes left out |
| PrintM | printMatrices.py:8-97 | the four formats with an exact decimal rendering (round half to even on the exact value), center as in CPython (C76) |
| CircuitVSW | rfCircuit.py:1651-1828, plotVSWs.py:204-217 | maxV with its table (C77); blocks' maxV as a parameter, not seen to change the block |
| StrVSW | plotVSWs.py:223-248 | strVSW (C78) |
| GTLCopy | rfGTL.py:336-370 | copies of an rfGTL (C79); loads of an rfGTL with a touchstone (C60_load_ignored) |
| Parts | rfCircuit.py:1249-1345, rfTRL.py:534-576, rfRLC.py:181-255, rfBase.py:270-287 | circuits of the modelled objects (C80) |
| PartsNest | rfCircuit.py:1249-1345 | circuits of circuits of the modelled objects, to any depth (C80) |
| CouplerLines | rfCoupler.py:27-110, 149-171, rfBase.py:270-287 | the coupler as coupled transmission lines (C81) |
| PartsSol | rfCircuit.py Solution (model in CircuitSolution) | physical state and power balance of Solution (C82) |
| PartsDeep | rfCircuit.py:1462-1612 (model in CircuitSolNest) | physical state at the nodes inside nested circuits (C82) |
| PartsPower | rfCircuit.py Solution (model in CircuitSolNest) | laws of the elementary parts and loads at every depth, power balance over all of them (C82) |
| LineMax, PartsMax | rfTRL.py maxV and the node grid, rfCircuit.py maxV (models in TRLModel, CircuitMaxV) | maxima between the nodes (C83) |
| RfObjectSeq | rfObject.py `__len__`, `__iter__`, `__getitem__`, `__setitem__` (324-348) | the object as a sequence of samples (C84) |
| Sweep | `getS` of a list of frequencies of rfCircuit, rfTRL, rfRLC, rfObject, rfBase | C85 |
| Chain | rfCircuit.py addblock, connect, get1S, getS (model in CircuitModel) | C86 |
| Loaded | rfCircuit.py terminate, connect, get1S, getS (model in CircuitModel) | C87 |
| Cascade | rfTRL.py, rfRLC.py, rfCircuit.py getS (models in TRLModel, RLCModel, CircuitModel, Parts) | C88 |
| Scaling | rfTRL.py, rfRLC.py, rfCircuit.py getS (models in TRLModel, RLCModel, CircuitModel, Parts) | C89 |
| Resonance | rfCircuit.py getS, ConvertGeneral.py, rfTRL.py getS, rfRLC.py getS (models in CircuitModel, ConvertModel, TRLModel, RLCModel, Parts) | C90 |
| Continuous | rfCircuit.py getS, ConvertGeneral.py, rfTRL.py getS / solveVI, rfRLC.py getS, rfBase.py getS, S_from_VI.py (models in CircuitModel, ConvertModel, TRLModel, RLCModel, RfBase, Parts) | C91 |
| Logging | config.py setLogLevel, logit, ident, logident | C92 |
| ReadDict | ReadDictData.py, tictoc.py | C93, C94 |
| ReadDict (timers) | tictoc.py | C94 |
| Immittance | rfObject.py 667-684 | C95 |
| ResolverUniform | resolveTLparams.py: `ddx` flags; rfTRL.py:253-255 | (C57) |
| GTLVars | rfGTL.py (variables) | (C46) |
| GTLModel | rfGTL.py:80-328 constructor: blocks, terminations, `portlist`, connections, positions, external ports | (C54, C55) |
| GTLPos, GTLPos2, GTLPos3 | rfGTL.py:220-271 (positions) | layouts, reached names, the propagation loop, C55 |
| GTLNet, GTLProps, GTLEx | — | the circuit built is the network described; a concrete description |
| Misc | findpath.py, getlines.py, _newID_, config.py fscale, str_dict.py | (C42–C44, C47) |

Not modelled: of `circuit.py` (older, deprecated module) `sNp` and dotted names (its `maxV` is in CircuitOldMaxV, its internal S-matrix in CircuitOldInternal); plotting (`plotVSWs`, matplotlib),
scipy's ODE integration and spline numerics,
floating-point rounding, real file systems, logging.

## 4. Plan and status per property

Status is "partial" whenever the full English statement is *false of the code*: the part that holds is proved, and so is the negation
(the violation, for every circuit/object concerned where possible, otherwise with a witness). The notes in MANIFEST.json give the
theorem names.

| id | model | proof idea |
|----|-------|-----------|
| C01 (proved) | `check3D` on `ND` | case analysis on the number of dimensions; exact characterisation of the error class |
| C02 (proved) | `sFromZ`, `zFromS` | matrix algebra over a field, lifted through shapes |
| C03 (proved) | `sFromZ`, `zFromS`, `yFromS` | comparison with V = Z I and wave definitions |
| C04 (partial) | `sFromY` incl. the module/function name clash | always raises; the intended body separately |
| C05 (proved) | `convertGeneral` | wave definitions as spec; linear algebra |
| C06 (proved) | `convertGeneral` | identity and composition through uniqueness of the denoted network |
| C07 (proved) | `convertGeneral` | power identity |
| C08 (partial) | `convertGeneral` on all shapes | case analysis |
| C09 (proved) | `sFromVI` | 2x2 block algebra |
| C10 (partial) | `trlConst`, `TRL.getS` state machine | cosh/sinh identities; ODE uniqueness not needed (exact solver assumed) |
| C11 (proved) | `trlConst` | energy argument: power derivative along the line |
| C12 (proved) | `maxfun` loop | induction over the list; parabola algebra |
| C13 (proved) | `RLC.get1S` branch by branch incl. infinite elements | nodal analysis as spec |
| C14 (proved) | same | 2x2 power form |
| C15 (partial) | f = 0 branch | limit circuit as spec |
| C16 (partial) | `arcGet1S`, `couplerS` | complex algebra |
| C17 (proved) | `Circuit.St`, invariant `Rep` | induction over operation lists (`Built`) |
| C18 (proved) | `connect` | junction rows ⇔ equal voltages, currents sum to zero |
| C19 (proved) | `terminate` | load row ⇔ V = -Z I |
| C20 (proved) | `extS`, `get1S`, `getS` | bordered system ⇔ network laws; uniqueness of the answer |
| C21 (proved) | `Built` histories | both circuits answer the same network |
| C22 (proved) | `circOps` | a circuit is a lawful object; flattening |
| C23 (proved) | network laws | Tellegen-type power sum; reciprocity by bilinear form |
| C24 (proved) | `deembed` | dimension count and elimination |
| C25 (partial) | caches of `getS` | invariant; negation for re-terminate |
| C26 (partial) | `squareUp` freeze | phase invariant; negation for every circuit |
| C27 (partial) | state after refusal | simulation; negations |
| C28 (proved) | port bookkeeping | invariant |
| C29 (proved) | `squareUp` | first evaluation fixes order |
| C30 (partial) | `solve`, `solution` | stored inverse solves the laws; negation on first call |
| C31 (partial) | `copy` (value model) and `copyObj` (heap model) | bisimulation; heap isomorphism |
| C32 (partial) | `setObj` on a heap | refinement to sequences of assignments |
| C33 (partial) | `findObj`, `listBlocks`, dotted `addblock` | induction on paths and fuel |
| C34 (partial) | `RfBase`, `RfObj` store | induction over histories |
| C35 (partial) | `RfObj` store | induction over histories |
| C36 (partial) | `sortports` | permutations |
| C37 (proved) | `deembed` of rfObject | 2-port cascade algebra |
| C38 (proved) | character-level writer and reader | induction over characters, pairs, lines |
| C39 (proved) | `decode`/`encode` | polar form |
| C40 (partial) | table-driven search | bounded measure; least fixed point |
| C41 (partial) | `value` of each equation | physical line as invariant of the search |
| C42 (proved) | `findpath` | list search |
| C43 (proved) | `newID`, scales | induction; algebra |
| C44 (partial) | `getlines` | induction over characters |
| C45 (proved) | trees of VSW tables | structural induction |
| C46 (partial) | substitution loop | well-founded recursion on the dependency order |
| C47 (partial) | `str_dict` with its persistent default | two-call trace |
| C48 (partial) | `maxV` of every class | fold invariants |
| C49 (partial) | nested `Portnames` | trace; negation witness |
| C50 (partial) | `len` | exact characterisation |
| C51 (partial) | `TRL` caches | invariant |
| C52 (partial) | pickling of rfObject | simulation |
| C53 (partial) | port names of a new block | `resolvePorts` = specification `Asked`, both ways; dict emptied and duplicates accepted (negations) |
| C54 | the network of an rfGTL object | the constructor is a history (`Built`) whose network has the laws `GLaws` of the description; C20 then gives the matrix |
| C55 | positions in an rfGTL object | invariant of the propagation loop (positions found are those of the layout; every pass but the last places a block; placed blocks are closed under reaching) for an arbitrary layout |
| C56 (partial) | `linfunL` | `interp1d` = the function `Through` the points (unique); flags by cases over the forms |
| C57 (partial) | `ddx` flags of the resolver | induction on evaluation derivations `Ev` with the flag invariant `FlagOK`; negation for rTLI |
| C58 (partial) | Get_internalSmatrix over nested Solution | inner states form a vector space determined by the incident waves at the ports (`Linear`, by nesting); superposition; negation for fewer nodes than ports |
| C59 (partial) | one GTL entry to an element | case analysis over the dict operations by what is found under each key; negations for Rs, Larc and tables |
| C60 (partial) | two stateful objects (the circuit and the file); a relation 'same answers' preserved by every call, by induction over the sequence of calls; Solution from the file by the dictionary lemmas, without it by C30 |
| C61 (partial) | a specification of positions carried along the history (`Laid`); alignment of the two lists by induction over the history; getpos by recursion on the path of a tree of circuits |
| C62 (partial) | a log of described networks (predicates on port voltages and currents) against the table, invariant by induction over the history; conversions by C05_exact |
| C63 (partial) | a store of dictionaries threaded through the evaluation loop, simulated by a circuit whose objects own their dictionaries (the one each block finds); the latter is Lawful, so C20 applies |
| C64 (partial) | a grammar of the files (header, option line, data, tag lines with continuations); induction over the records for the lines and for the comments collected; C05_exact for the conversion |
| C65 (partial) | C38_roundtrip and C64_port_impedances for the text, then the histories of C62 (`Kept`, with an object holding a table as a start) and C62_exact |
| C66 (partial) | uniqueness of the unwrapped phase when steps stay below half a turn, then the law for straight lines; convexity for passivity |
| C67 (partial) | readTSF with and without names gives the same data; C38_roundtrip, onRef_exact; the laws of `interp1d` |
| C68 (partial) | invariant: the dictionary entry of a port gives the columns of its latest junction row, older rows have a non-zero column outside; kept by every call |
| C69 (partial) | simulation: memory model vs pure model, invariant that the caller's arrays are not the kept one |
| C70 (partial) | case analysis of addblock/deembed; the shortened list picks a submatrix of the same inverse |
| C71 (partial) | simulation of the two state machines, call by call; counting equations for the failures |
| C72 (partial) | the regular expressions are characterised by texts (first match); induction over the comments |
| C73 (partial) | attribute dictionaries; one-attribute lemmas, the loop never stops early so one raising attribute decides |
| C74 (partial) | rows + ports = cols + k is an invariant of every accepted call; three classes of unusable states closed under evaluation; positions do not enter the evaluation (commutation with every step) |
| C75 (partial) | the loops enumerate the pairs on and below the diagonal once; the map to places is injective and onto the grid; `zip` cuts the curves |
| C76 (partial) | decimal digits by recursion, value of a text read back; induction over the row for the columns |
| C77 (partial) | invariants of the two loops; linearity of the solution carried through the loops; tables as a mutual inductive type |
| C78 (partial) | parser-style induction on the lines, the indentation delimits the items; digits give the rounded number back |
| C79 (partial) | bisimulation of the circuit (C31) and of the file object, lifted to all calls of rfGTL, by induction on the list of calls |
| C80 | the object models instantiate the block objects of the circuit model; waves are traded for voltages and currents; induction on the sections of a line |
| C81 | sum and difference of the two strips are ordinary lines, whose solutions are sines; linear algebra |
| C82 | laws of the net are the physical laws (C80), uniqueness from C20, Tellegen from C23 |
| C83 | Sturm comparison on each step for the squared magnitude, step lengths of the grid, the parabola through three even samples, C48 for the circuit |
| C84 | the generator as a loop over indices reading the current state, prefix invariant; generations of the stored array for views |
| C85 | each loop step leaves an object with the same answers (`getS_stable`, `Good`, `get1S_keeps`); induction on the list against an independent specification `Swept` |
| C86 | Kirchhoff's laws of a two-member junction give wave equality; induction on the chain for the product; existence of the wave by construction backwards from the last port; the circuit answers iff the network determines its waves |
| C87 | the waves of the circuit before determine those after and conversely; the answer before gives a wave for every excitation, from which the scattering equation after is solved for the waves at the port(s) taken away |
| C88 | C80 says the answer is the physics at the ports; the chain law by induction on the row with Kirchhoff's laws; the converse by counting dimensions: the map from waves sent in to the state at the second port is injective, hence onto |
| C89 | a real automorphism of the complex numbers (identity, conjugation) and a factor k carry the states of one circuit to those of the other, element by element; C80 says the matrix is read off the states |
| C90 | a singular system has a nonzero solution without excitation; power balance (C80) then leaves nothing for objects, loads and free ports; an object with losses that takes no power is at rest, and so are all junctions |
| C91 | the waves of an answering circuit are unique; if they did not converge or stayed unbounded, waves scaled to size 1 would have a limit that obeys the laws without excitation; conversions and objects are products with an inverse, and an even function of the square root does not see its branch |
| C92 | sessions as lists of operations, calls as trees; invariant: flags = enabled levels; induction on call trees for the lines written and for the depth |
| C93 | findpath returns exactly the documented match (both directions, by induction on directories), then reading and evaluating |
| C94 | the global is the time of the last tic, by induction on the session |
| C95 | S_from_Z of C03 on the object's reference gives setS of C62 the described networks; passive Z: v*(Z+z)v has positive real part |

## 5. Findings (each is a theorem about the model, with a witness; see MANIFEST notes)

Circuits: after an evaluation every extension breaks the circuit (C26); changing an existing load returns the old matrix (C25); a
refused `connect` corrupts the circuit or silently drops a port, a refused `deembed` keeps the earlier pairs or makes the circuit
unusable (C27); first `Solution` of a circuit with Portnames misplaces the excitation (C30); a nested circuit with Portnames is
mislabelled (C49); loading a port of a copied evaluated circuit raises (C31); `maxV` raises for a used-up named node and for array blocks, and refuses undriven ports (C48); dotted
`addblock` overwrites the parameters of the enclosing block (C33); a half-way refused `set` keeps assignments and stale matrices, and
a shared object leaves other circuits stale (C32); evaluation followed by `terminate` differs from the reverse order when Portnames
are given.

Elements: rfRLC at DC on the wrong reference and `np.complex` (C15), parameters persist (C13), `len` raises after `set` (C50); default
arc has no finite S and no ports, sequences truncated on another reference (C16, C50); coupler ignores kc=0 / kcdB=0 (C16); lines with
degenerate parameters or zero-length non-uniform lines raise (C10); stale `solved` after a refused `set` (C51); `maxfun` is 0 for
decreasing positions (C12).

Conversions: `S_from_Y` always raises (C04), 1-D arrays are truncated by ConvertGeneral (C08), the shape error is malformed (C01).

rfObject: out-of-order data never interpolates, the order flag is unsound (C35), interpolators and positions stale after `sortports`
(C36), `getS([])` UnboundLocalError (C34), documented scalar/dict forms of `deembed` raise (C37), `maxV` compares complex numbers
(C48), `sortports` fails after pickling (C52), interpolators stale after `convert2newZbase` and item assignment, units ignored in circuits (C62).

Touchstone: tsf2str's 2-ports come back transposed, frequency decimals lost, lower-case `r` ignored, missing number format DB vs MA
(C38), Y files refused, R required (C39).

Resolver: gTL overwritten by zero, AttributeError from the consistency check, Rs never used (C40); epsr/mur from velocity, AdB sign,
outer conductor resistance, strong-loss attenuation wrong (C41).

Get_internalSmatrix with fewer nodes than ports returns a matrix that relates nothing (C58). rfGTL: an entry with Rs becomes an RLC
element, arcs are never made, tables with units raise TypeError (C59); a file is not read while the circuit cannot be evaluated, `getS([])`
raises (C60); positions of external ports go wrong after Portnames, deembed and a replaced
block, `resolve_xpos` cannot work (C61); parameters of blocks: consumed from shared dictionaries, pinned, ignored when cached or when replacing, stale matrix after a refusal (C63); HFSS files: one-ports with `R` refused, any ordinary comment after the data refused (C64); objects read from files: names not counted, positions ignored, ports cannot be reordered, default unit ignored, stale interpolators after read_tsf (C65); interpolation in MA of lossless data can be active, dB with a zero entry not finite, kinds by name refused (C66); rfTRL(sNp): phases unwrapped along rows, set(Zbase) changes the network, voltages not from the file, number of ports unchecked (C67); __str__: a port connected twice shows wrong columns for its first equation, circuits with array blocks cannot be listed (C68); getS of a circuit and rfBase.get1S hand out the arrays they keep: writing to the result changes later answers (C69); addblock and deembed empty the dictionaries they are given, circuits made with the same Portnames list lose each other's ports (C70); the legacy class keeps its matrix after connect/terminate and cannot be evaluated again after a late terminate (C71); a one-number !SHAPE or a !NUMBERING without !SHAPE makes a Touchstone file unreadable, and an unclosed HFSS variable table swallows later comments (C72); comparing evaluated rfObjects raises, even with themselves, and separately made equal objects are unequal (C73); a circuit made with ports= can never be evaluated (C74); compareSs drops the seventh set and never shows an entry above the diagonal (C75); strM writes values below 1e-7 as zero whatever the format (C76); rfCircuit.maxV puts both ports of a lumped element at the position of the first, and a circuit with a block whose maxV is rfBase's returns a table that scaleVSW refuses (C77); strVSW drops the sign of every position (C78); a load on an rfGTL with a touchstone is ignored (C60_load_ignored); an rfGTL can be copied only while its model file is there (C79); legacy Get_internalSmatrix of a circuit that was not evaluated yet always fails when Portnames moves the first port (C71);
a failed evaluation leaves block matrices of its frequency in the equations, and a Solution after a changed load mixes the two frequencies (C30); rfCircuit(sNp=path) passes a misspelt keyword (`touchtone`), so that the file is never read (read in the source, not modelled).

Steps along lines: the step asked for by `dx` is never kept, all steps are longer (the number of steps is used as the number of nodes), and on non-uniform lines they are 2π times too long (`wavlen(f, …)` instead of `wavlen(w, …)`, rfTRL.py:439) (C83).

Sequence protocol of rfObject: `len(obj)` counts ports while the loop visits samples, so `reversed(obj)` and `range(len(obj))` are wrong; item assignment writes the frequency before it looks at the matrix (C84).

Sweeps: after changing the load of an evaluated circuit, what a sweep returns at the last evaluated frequency depends on the position of that frequency in the list (C85).

Others: rfGTL concatenates sums of texts and hangs on cycles (C46); str_dict accumulates (C47); a one-line string is taken as a path by
getlines (C44).

## 6. Testing the theorems

`seeded/LOG.jsonl` records seeded bugs: an edited definition, the claim it breaks and the theorems that no longer prove. Where an edit
survived although its claim was broken, the theorem was tightened; surviving edits that do not break any claim are logged as such.
