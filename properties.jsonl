{"id": "C01", "title": "Array inputs are accepted exactly when they denote a stack of square matrices", "statement": "S_from_Z, Z_from_S, Y_from_S and ConvertGeneral accept an array argument iff it is a scalar, a 1-D array, a square 2-D array or a 3-D array whose last two dimensions agree; a scalar is read as one 1x1 matrix, a 1-D array as one 1x1 matrix per entry, a 2-D array as one matrix, a 3-D array as itself. Every other array makes the call raise, before any result is produced.", "quantifier": "every array of every number of dimensions and every shape", "why_tests_cant": "the set of shapes is infinite; tests sample a handful", "anchors": ["src/pyRFtk/_check_3D_shape_.py:_check_3D_shape_"]}
{"id": "C02", "title": "S_from_Z and Z_from_S are mutual inverses, in every accepted shape", "statement": "For a common nonzero reference impedance, converting an impedance matrix to scattering form and back (or a scattering matrix to impedance form and back) returns the original array with its original shape, whenever the first conversion succeeds; and the first conversion followed by the second never fails.", "quantifier": "every matrix size, every number of frequencies, every input shape, every nonzero Zbase, all entries", "why_tests_cant": "round trip for all sizes and all entries including the singular boundary cannot be sampled", "anchors": ["src/pyRFtk/S_from_Z.py:S_from_Z", "src/pyRFtk/Z_from_S.py:Z_from_S"]}
{"id": "C03", "title": "The Z, Y and S converters agree with Ohm's law at the ports", "statement": "If S = S_from_Z(Z, z0) then for all port voltages V and currents I, V = Z I iff the waves a=(V+z0 I)/2, b=(V-z0 I)/2 satisfy b = S a; similarly for Z_from_S and Y_from_S; Y_from_S(S) is the matrix inverse of Z_from_S(S) when both exist; each converter fails exactly when the matrix it inverts is singular.", "quantifier": "every matrix, every voltage/current vector, every reference impedance", "why_tests_cant": "universally quantified over V and I and all matrices", "anchors": ["src/pyRFtk/S_from_Z.py", "src/pyRFtk/Z_from_S.py", "src/pyRFtk/Y_from_S.py"]}
{"id": "C04", "title": "S_from_Y computes the scattering matrix of an admittance matrix", "statement": "S_from_Y(Y, Zbase) returns S with b = S a iff I = Y V, as its docstring says.", "quantifier": "every admittance matrix of every accepted shape", "why_tests_cant": "no test exercises it; the claim ranges over all inputs", "anchors": ["src/pyRFtk/S_from_Y.py:S_from_Y", "src/pyRFtk/__init__.py"]}
{"id": "C05", "title": "ConvertGeneral preserves the physical network", "statement": "The matrix returned by ConvertGeneral(Z2,S1,Z1,type1,type2) relates the type2/Z2 waves exactly at those port voltages and currents at which S1 relates the type1/Z1 waves: the set of port (V,I) pairs is unchanged.", "quantifier": "every network size, every number of frequencies, every pair of wave definitions V/P/G, every vector of port impedances for which the definitions make sense, every (V,I)", "why_tests_cant": "for all V, I, Z1, Z2, S1 and all types", "anchors": ["src/pyRFtk/ConvertGeneral.py:ConvertGeneral"]}
{"id": "C06", "title": "ConvertGeneral is the identity on equal references, and composes", "statement": "Converting to the same type and impedances returns S unchanged; converting 1->2->3 equals converting 1->3; converting there and back is the identity.", "quantifier": "all sizes, all types, all impedances, all S for which the intermediate conversions succeed", "why_tests_cant": "chains of conversions over all inputs", "anchors": ["src/pyRFtk/ConvertGeneral.py:ConvertGeneral"]}
{"id": "C07", "title": "ConvertGeneral preserves losslessness, passivity and reciprocity", "statement": "Between power-normalised references (P with positive real impedances, G with positive real part) a unitary S stays unitary and a passive S stays passive; a reciprocal (symmetric) S stays symmetric between P references with any impedances and between V references with equal port impedances; between V references with unequal impedances symmetry is in general not preserved.", "quantifier": "all sizes and all matrices with that property", "why_tests_cant": "universal over all lossless / passive / reciprocal matrices", "anchors": ["src/pyRFtk/ConvertGeneral.py:ConvertGeneral"]}
{"id": "C08", "title": "ConvertGeneral result shape and rejected arguments", "statement": "The return value has the shape of S1; a port-impedance argument is accepted iff it is a scalar, a vector of one value per port or a (frequency, port) table; an unknown wave type is refused with ValueError.", "quantifier": "all shapes of S1, Z1, Z2 and all type strings", "why_tests_cant": "infinitely many shapes", "anchors": ["src/pyRFtk/ConvertGeneral.py:ConvertGeneral"]}
{"id": "C09", "title": "S_from_VI turns a transmission (ABCD-like) matrix into the scattering matrix of the same two-port", "statement": "b = S_from_VI(M,Z0) a iff the port voltages and currents defined by the waves satisfy (V2,I2) = M (V1,I1); it fails exactly when no such S exists; det M = 1 iff the two-port is reciprocal.", "quantifier": "every 2x2 M, every Z0, all port voltages and currents", "why_tests_cant": "universal over M, V, I", "anchors": ["src/pyRFtk/S_from_VI.py:S_from_VI"]}
{"id": "C10", "title": "A uniform transmission line is an exact solution of the telegrapher equations", "statement": "The S-matrix of a uniform rfTRL section is the S-matrix of the line: reciprocal, symmetric, a zero-length section is a through, cascading lengths L1 and L2 is the line of length L1+L2, a line followed by its negative-length twin is a through, a line whose characteristic impedance equals the reference has S11=0 and S21=exp(-gamma L), and the choice of square-root branch for the characteristic impedance / propagation constant does not matter.", "quantifier": "all lengths, all per-length impedances and admittances, all reference impedances", "why_tests_cant": "continuum of real and complex parameters", "anchors": ["src/pyRFtk/rfTRL.py:rfTRL.get1S", "src/pyRFtk/rfTRL.py:rfTRL._solve_const"]}
{"id": "C11", "title": "Transmission lines with passive parameters are passive", "statement": "A lossless line with real reference impedance has a unitary S; a line whose series resistance and shunt conductance are non-negative has a passive S.", "quantifier": "all parameters and excitations", "why_tests_cant": "continuum", "anchors": ["src/pyRFtk/rfTRL.py"]}
{"id": "C12", "title": "maxfun brackets the samples it is given", "statement": "For every strictly increasing abscissa list and ordinates, maxfun returns a point inside the sampled range and a maximum that is at least every sample; it never falls through its search loop.", "quantifier": "every list length and all values", "why_tests_cant": "for all lists of all lengths", "anchors": ["src/pyRFtk/maxfun.py:maxfun"]}
{"id": "C13", "title": "rfRLC is the series/shunt circuit it documents", "statement": "For every nonzero frequency the S-matrix of an rfRLC relates the waves exactly at those port voltages and currents allowed by the documented circuit: series branch Rs, Ls, Cs in series between the ports, shunt branch Rp, Lp, Cp in parallel to ground at port p, each element zero or infinite as documented when not given.", "quantifier": "all element values, frequencies, reference impedances, voltages and currents", "why_tests_cant": "continuum, with many degenerate combinations of zero/infinite elements", "anchors": ["src/pyRFtk/rfRLC.py:rfRLC.get1S"]}
{"id": "C14", "title": "rfRLC is reciprocal, and passive for non-negative elements", "statement": "The S-matrix is symmetric for all parameters, never gains power when all element values are non-negative and the reference is positive, and is unitary when no resistor is present.", "quantifier": "all element values, frequencies, excitations", "why_tests_cant": "continuum", "anchors": ["src/pyRFtk/rfRLC.py:rfRLC.get1S"]}
{"id": "C15", "title": "rfRLC at zero frequency is the DC limit of the same circuit", "statement": "At f=0 the returned S is the S of the DC circuit on the same reference impedance.", "quantifier": "all element values at f=0", "why_tests_cant": "degenerate branch combinations", "anchors": ["src/pyRFtk/rfRLC.py:rfRLC.get1S"]}
{"id": "C16", "title": "rfArcObj and rfCoupler are lossless", "statement": "An arc with real inductance reflects all power at every frequency; an ideal coupler's S is unitary, reciprocal and matched at every coupling and frequency; coupling given in dB or linear form describe the same device.", "quantifier": "all parameter values and frequencies", "why_tests_cant": "continuum", "anchors": ["src/pyRFtk/rfArcObj.py", "src/pyRFtk/rfCoupler.py"]}
{"id": "C17", "title": "Circuit assembly keeps the equation system well-formed", "statement": "After any sequence of addblock, connect, terminate and deembed calls that do not raise, the circuit has exactly one equation less per free port than unknown waves (two waves per block port and per introduced node), no wave or free port is listed twice, every free port owns an incoming and an outgoing wave, and adding the external-port equations makes the system square.", "quantifier": "every sequence of operations of every length", "why_tests_cant": "histories of unbounded length", "anchors": ["src/pyRFtk/rfCircuit.py:addblock", "src/pyRFtk/rfCircuit.py:connect", "src/pyRFtk/rfCircuit.py:terminate", "src/pyRFtk/rfCircuit.py:deembed", "src/pyRFtk/rfCircuit.py:extS"]}
{"id": "C18", "title": "connect implements Kirchhoff's laws", "statement": "The equations added when N ports are connected hold exactly when all N port voltages are equal and the currents into the junction sum to zero; connecting a single port leaves it open (zero current).", "quantifier": "every N >= 1, every wave assignment", "why_tests_cant": "for all N", "anchors": ["src/pyRFtk/rfCircuit.py:connect"]}
{"id": "C19", "title": "terminate implements the requested load", "statement": "The equation added by terminate holds exactly when the port sees the given impedance (V = Z I_into_load), admittance, or reflection coefficient.", "quantifier": "every load value, every reference impedance, every wave pair; including the boundary Z = -Zbase", "why_tests_cant": "continuum plus degenerate points", "anchors": ["src/pyRFtk/rfCircuit.py:terminate"]}
{"id": "C20", "title": "getS solves the network equations", "statement": "If getS succeeds and returns S for external ports p1..pn then for all external waves: b = S a iff there is an assignment of waves to every internal port satisfying all block, junction, termination and deembedding laws with those external waves, and that internal assignment is unique for each a. If the laws do not determine the internal waves from a, getS raises instead of returning.", "quantifier": "every circuit built by any sequence of operations, every frequency, every excitation", "why_tests_cant": "all networks of all sizes and topologies", "anchors": ["src/pyRFtk/rfCircuit.py:getS", "src/pyRFtk/rfCircuit.py:get1S", "src/pyRFtk/rfCircuit.py:extS"]}
{"id": "C21", "title": "The order in which a network is built does not matter", "statement": "Two build histories that end with the same blocks, junctions and loads in any order give the same S (up to the order of the external ports), and one evaluates successfully iff the other does.", "quantifier": "all pairs of histories describing the same network", "why_tests_cant": "permutations of unbounded histories", "anchors": ["src/pyRFtk/rfCircuit.py:addblock", "src/pyRFtk/rfCircuit.py:connect", "src/pyRFtk/rfCircuit.py:terminate", "src/pyRFtk/rfCircuit.py:getS"]}
{"id": "C22", "title": "A nested circuit behaves as its own S-matrix", "statement": "Using a circuit as a block of another circuit gives the same S as using a fixed-S object that carries the S the inner circuit returns at that frequency, and its external behaviour satisfies all inner laws too (flattening).", "quantifier": "all nestings and all frequencies", "why_tests_cant": "all depths", "anchors": ["src/pyRFtk/rfCircuit.py:getS", "src/pyRFtk/rfCircuit.py:addblock"]}
{"id": "C23", "title": "Circuits of passive / lossless / reciprocal parts are passive / lossless / reciprocal", "statement": "If every block's S is passive (lossless, reciprocal) on the circuit's common real reference impedance and all loads are passive (lossless; any load for reciprocity), the S returned by getS is passive (lossless, reciprocal).", "quantifier": "all networks of any size and topology built without deembedding", "why_tests_cant": "universal over networks", "anchors": ["src/pyRFtk/rfCircuit.py:getS", "src/pyRFtk/rfCircuit.py:connect", "src/pyRFtk/rfCircuit.py:terminate"]}
{"id": "C24", "title": "Deembedding removes what embedding added", "statement": "If a network T is obtained by connecting a known network X to an unknown network U and T is then deembedded by X, the remaining circuit has U's S on the exposed ports whenever it is evaluable.", "quantifier": "all U, X, port counts and excitations", "why_tests_cant": "universal over networks", "anchors": ["src/pyRFtk/rfCircuit.py:deembed"]}
{"id": "C25", "title": "getS is never stale", "statement": "getS(f) always returns the S of the circuit as last modified: any change made by addblock, connect, terminate, deembed or set before the call is reflected, including changing the value of an existing termination after an evaluation.", "quantifier": "every interleaving of modifications and evaluations", "why_tests_cant": "all histories, cache keyed on frequency and flags", "anchors": ["src/pyRFtk/rfCircuit.py:getS", "src/pyRFtk/rfCircuit.py:terminate", "src/pyRFtk/rfCircuit.py:set"]}
{"id": "C26", "title": "A circuit can be extended after it has been evaluated", "statement": "Evaluating a circuit does not change what later addblock / connect / terminate / deembed calls followed by getS return: the same operations with or without an intermediate getS give the same final S.", "quantifier": "every history and every insertion point of a getS", "why_tests_cant": "all histories", "anchors": ["src/pyRFtk/rfCircuit.py:extS", "src/pyRFtk/rfCircuit.py:addblock", "src/pyRFtk/rfCircuit.py:connect"]}
{"id": "C27", "title": "A refused operation leaves the circuit as it was", "statement": "When addblock, connect, terminate or deembed raises, the circuit's later behaviour is as if the call had not been made.", "quantifier": "every state and every refused call", "why_tests_cant": "all states", "anchors": ["src/pyRFtk/rfCircuit.py:connect", "src/pyRFtk/rfCircuit.py:terminate", "src/pyRFtk/rfCircuit.py:addblock", "src/pyRFtk/rfCircuit.py:deembed"]}
{"id": "C28", "title": "A port can be used only once", "statement": "A block port that has been connected or terminated is no longer a free port and every later connect naming it raises; a terminated port may only be re-terminated; two different connect calls never share a port; naming the same port twice in one connect raises.", "quantifier": "every history", "why_tests_cant": "all histories", "anchors": ["src/pyRFtk/rfCircuit.py:connect", "src/pyRFtk/rfCircuit.py:terminate"]}
{"id": "C29", "title": "External ports: which and in which order", "statement": "The circuit's external ports are exactly the block ports and introduced nodes never connected or terminated; without Portnames they are in creation order; with Portnames the first evaluation raises ValueError unless Portnames lists exactly the external ports, and puts them in that order; the rows and columns of S are in that order.", "quantifier": "every history and every Portnames list", "why_tests_cant": "all histories", "anchors": ["src/pyRFtk/rfCircuit.py:extS", "src/pyRFtk/rfCircuit.py:__init__"]}
{"id": "C30", "title": "Solution and maxV see the excitation on the named ports", "statement": "The waves reported by Solution/solve for an excitation given per port name satisfy all network laws with exactly the requested waves entering the named ports, whether or not the circuit was evaluated before.", "quantifier": "all circuits, all excitations, first or later call", "why_tests_cant": "order dependence on earlier calls", "anchors": ["src/pyRFtk/rfCircuit.py:solve", "src/pyRFtk/rfCircuit.py:Solution", "src/pyRFtk/rfCircuit.py:maxV"]}
{"id": "C31", "title": "A copied circuit behaves as the original", "statement": "After copying a circuit (evaluated or not) every sequence of operations on the copy gives the results it would give on the original, and neither affects the other.", "quantifier": "every history before and after the copy", "why_tests_cant": "all histories", "anchors": ["src/pyRFtk/rfCircuit.py:copy", "src/pyRFtk/rfCircuit.py:__deepcopy__"]}
{"id": "C32", "title": "set assigns exactly the addressed parameters", "statement": "After set with dotted names, each addressed parameter of each addressed (sub)block has the given value, all others are unchanged, and the return value tells whether anything changed; unknown names raise.", "quantifier": "every circuit tree and every assignment list", "why_tests_cant": "all trees and lists, duplicates included", "anchors": ["src/pyRFtk/rfCircuit.py:set", "src/pyRFtk/rfBase.py:set"]}
{"id": "C33", "title": "Every path listed by listBlocks can be used to find the block", "statement": "findObj(path) returns the object at each path listed by the circuit, dotted addblock replaces exactly that block and leaves all the others (including siblings that shared the same object) unchanged.", "quantifier": "every circuit tree", "why_tests_cant": "all trees of all depths", "anchors": ["src/pyRFtk/rfCircuit.py:findObj", "src/pyRFtk/rfCircuit.py:listBlocks", "src/pyRFtk/rfCircuit.py:addblock"]}
{"id": "C34", "title": "Stored S-matrices are returned exactly at stored frequencies", "statement": "After any sequence of setS calls, getS at a stored frequency returns the S stored for that frequency without interpolation error (first stored value wins for a repeated frequency).", "quantifier": "every sequence of setS/getS calls", "why_tests_cant": "all histories", "anchors": ["src/pyRFtk/rfObject.py:setS", "src/pyRFtk/rfObject.py:getS", "src/pyRFtk/rfBase.py:get1S"]}
{"id": "C35", "title": "The stored-frequency bookkeeping stays consistent", "statement": "The frequency list, S list and per-frequency impedances always have the same length and correspond entry by entry after any sequence of setS, sorting and interpolation; data inserted out of order is correctly sorted before interpolation.", "quantifier": "every sequence of setS calls in any frequency order", "why_tests_cant": "all insertion orders", "anchors": ["src/pyRFtk/rfObject.py:setS", "src/pyRFtk/rfObject.py:_sort_fs_", "src/pyRFtk/rfObject.py:_interp"]}
{"id": "C36", "title": "sortports permutes ports consistently", "statement": "After sortports(order), the S entry between any two named ports is what it was before, for every frequency, including for interpolated frequencies and for port positions.", "quantifier": "all permutations and all port counts", "why_tests_cant": "n! permutations for all n", "anchors": ["src/pyRFtk/rfObject.py:sortports"]}
{"id": "C37", "title": "rfObject.deembed removes line sections", "statement": "deembed of a length at given ports yields the S-matrix such that re-adding the line gives the original S; deembedding by opposite lengths is the identity.", "quantifier": "all port counts, port subsets, lengths and impedances", "why_tests_cant": "continuum and all sizes", "anchors": ["src/pyRFtk/rfObject.py:deembed"]}
{"id": "C38", "title": "Touchstone files round trip", "statement": "Reading back what WriteTSF writes gives the same frequencies, port names, reference and S-matrices (up to number formatting) for every number of ports and frequencies.", "quantifier": "all port counts N >= 1 (including the special 2-port order), all frequency counts", "why_tests_cant": "line wrapping differs with N; all N", "anchors": ["src/pyRFtk/WriteTSF.py:WriteTSF", "src/pyRFtk/ReadTSF.py:ReadTSF", "src/pyRFtk/rfBase.py:tsf2str"]}
{"id": "C39", "title": "Touchstone number formats are faithful", "statement": "RI, MA and DB encodings decode to the number encoded (DB for nonzero numbers); the option-line keywords are recognised in any order; a file without, or with more than one, option line is refused.", "quantifier": "all complex numbers and all option lines", "why_tests_cant": "continuum", "anchors": ["src/pyRFtk/WriteTSF.py", "src/pyRFtk/ReadTSF.py"]}
{"id": "C40", "title": "Transmission-line parameter resolution is a well-defined closure", "statement": "TLresolver terminates; succeeds iff the characteristic impedance and propagation constant are derivable from the given parameters by its rules; never overwrites a supplied parameter; applies each rule only after its inputs are known; and the set of derivable parameters does not depend on the order of the supplied parameters.", "quantifier": "all subsets and orders of the supplied parameters", "why_tests_cant": "2^n subsets of parameters", "anchors": ["src/pyRFtk/resolveTLparams.py"]}
{"id": "C41", "title": "The resolver's formulas are mutually consistent", "statement": "Whenever the supplied parameters come from one physical line, every derived parameter equals the value that line has.", "quantifier": "all physical lines and all derivation routes", "why_tests_cant": "continuum times all routes", "anchors": ["src/pyRFtk/resolveTLparams.py"]}
{"id": "C42", "title": "findpath returns the documented match", "statement": "findpath returns a file from the first search directory that has a match; with missingOK false it raises when there is none; existspath returns an empty string exactly then.", "quantifier": "all directory contents and search lists", "why_tests_cant": "all file systems", "anchors": ["src/pyRFtk/findpath.py"]}
{"id": "C43", "title": "Generated identifiers are unique; frequency scales compose", "statement": "Every automatically generated object identifier differs from all others generated in the session; fscale(a,b)*fscale(b,c)=fscale(a,c) and fscale(a,a)=1 for all units.", "quantifier": "all numbers of objects, all unit triples", "why_tests_cant": "unbounded sessions", "anchors": ["src/pyRFtk/config.py"]}
{"id": "C44", "title": "Line scanning is lossless", "statement": "getlines yields the lines of its source in order, identically for a file and for a string with the same content (up to the final newline).", "quantifier": "all texts", "why_tests_cant": "all texts", "anchors": ["src/pyRFtk/getlines.py:getlines"]}
{"id": "C45", "title": "plotVSWs helpers: scaling is consistent and the closest point is closest", "statement": "Scaling a standing-wave tree by s then t equals scaling by s*t and leaves positions alone; findclosest returns a stored segment point at minimal distance.", "quantifier": "all trees and points", "why_tests_cant": "all trees", "anchors": ["src/pyRFtk/plotVSWs.py"]}
{"id": "C46", "title": "rfGTL resolves its variables, or says it cannot", "statement": "The variable table of a generalised TL is resolved to numbers by substituting until nothing is left; if it returns every variable is consistent with its definition; the loop ends for all acyclic definitions.", "quantifier": "all variable tables", "why_tests_cant": "all dependency graphs", "anchors": ["src/pyRFtk/rfGTL.py"]}
{"id": "C47", "title": "The bookkeeping dictionary reader accumulates faithfully", "statement": "str_dict output lists each key once with its value, independent of earlier calls.", "quantifier": "all dictionaries and call histories", "why_tests_cant": "all histories", "anchors": ["src/pyRFtk/str_dict.py"]}
{"id": "C48", "title": "Standing-wave maxima are not underestimated at the ports", "statement": "rfBase.maxV / rfCircuit.maxV / rfObject.maxV return the largest port voltage magnitude for the given excitation; ports not named get zero excitation; an unknown port name is refused.", "quantifier": "all excitations and all S", "why_tests_cant": "all excitations", "anchors": ["src/pyRFtk/rfBase.py:maxV", "src/pyRFtk/rfObject.py:maxV", "src/pyRFtk/rfCircuit.py:maxV"]}
{"id": "C49", "title": "A nested circuit's port labels follow its matrix", "statement": "When a circuit is added as a block of another circuit, the port names recorded for that block are the names of the rows of the scattering matrix the inner circuit later returns, in the same order.", "quantifier": "all inner circuits, all requested port orders, whether or not the inner circuit was evaluated before it was added", "why_tests_cant": "all inner circuits and histories", "anchors": ["src/pyRFtk/rfCircuit.py:addblock", "src/pyRFtk/rfCircuit.py:extS"]}
{"id": "C50", "title": "A block reports its number of ports at any moment", "statement": "len(block) is the number of ports of the block and can be asked (hence the block can be added to a circuit) at any moment after construction: before and after set, before and after getS.", "quantifier": "all histories of set and getS calls on a block", "why_tests_cant": "unbounded histories", "anchors": ["src/pyRFtk/rfRLC.py:rfRLC.__len__", "src/pyRFtk/rfRLC.py:rfRLC.set", "src/pyRFtk/rfArcObj.py:rfArcObj.__init__", "src/pyRFtk/rfBase.py:rfBase.__len__"]}
{"id": "C51", "title": "Standing waves on a line are those of the current line", "statement": "After any history of set, getS, VISWs and solveVI calls, VISWs and solveVI return the voltages and currents, at positions from the first to the second port, of the solution of the telegrapher equations for the present length and parameters that has the requested incident waves (resp. start values); remembered solutions are never stale.", "quantifier": "all histories of calls, all excitations, frequencies, references and node spacings", "why_tests_cant": "unbounded histories with a cache; continuum of parameters", "anchors": ["src/pyRFtk/rfTRL.py:rfTRL.VISWs", "src/pyRFtk/rfTRL.py:rfTRL.solveVI", "src/pyRFtk/rfTRL.py:rfTRL.set"]}
{"id": "C52", "title": "A measured-data object survives pickling", "statement": "An rfObject that is pickled and reloaded (or copied) gives the same answers as the original to every later call.", "quantifier": "all histories before the pickling, all frequencies and references after it", "why_tests_cant": "all histories", "anchors": ["src/pyRFtk/rfObject.py:rfObject.__getstate__", "src/pyRFtk/rfObject.py:rfObject.__setstate__"]}
{"id": "C53", "title": "A block's ports get the names asked for", "statement": "addblock gives a new block the port names asked for by its ports argument, in order: the object's own names (or 1..N) by default, the given list, the format applied to 1..N, or the object's names renamed by a dict; names the object does not have, a wrong number of names and repeated names are refused, a refused call changes nothing, and the caller's argument is left as it was.", "quantifier": "all objects, circuits and ports arguments", "why_tests_cant": "all lists and mappings", "anchors": ["src/pyRFtk/rfCircuit.py:addblock", "src/pyRFtk/rfCircuit.py:_substports"]}
{"id": "C54", "title": "An rfGTL object is the network its description means", "statement": "If the rfGTL constructor accepts a description, getS returns the scattering matrix, at the declared ports in the declared order, of the network in which ends of the same name are one node (one voltage, currents summing to zero or to the port current), '[oc]' ends carry no current, '[sc]' ends no voltage and dict ends obey the load given; the declared ports are exactly the names used once, and an element has at most one terminated end.", "quantifier": "all descriptions: numbers of elements, names, terminations, element matrices, frequencies", "why_tests_cant": "unbounded descriptions", "anchors": ["src/pyRFtk/rfGTL.py:rfGTL.__init__", "src/pyRFtk/rfGTL.py:rfGTL.getSgtl"]}
{"id": "C55", "title": "Positions in an rfGTL object follow the description", "statement": "If the positions given in an rfGTL description (for ports, or for the start of elements) admit a layout, i.e. positions of elements and names with every end at its element's position plus its own offset, then the finished object has every element, name and port whose position follows from the given ones at the place of the layout; elements not reached from any given position are at -10; evaluating moves nothing.", "quantifier": "all descriptions and given positions, any number of elements and any graph of connections", "why_tests_cant": "unbounded graphs; the propagation loop must reach every element in whatever order they are listed", "anchors": ["src/pyRFtk/rfGTL.py:rfGTL.__init__"]}
{"id": "C56", "title": "A line parameter is the function of position it was given as", "statement": "A line parameter given as a number is that number everywhere; given as a table of positions and values it is the piecewise linear function through its points, constant beyond the ends; given as a list of values it is that function with the values spread evenly from 0 to L; given as a function of w and/or x, in either order, it is that function. The recorded dependence on frequency and position is right: a parameter recorded as independent of the position has the same value at all positions.", "quantifier": "all numbers, lists, tables (any length, any increasing or decreasing positions) and callables with any parameter names", "why_tests_cant": "continuum of positions, unbounded tables", "anchors": ["src/pyRFtk/resolveTLparams.py:_linfunL"]}
{"id": "C57", "title": "A line treated as uniform is uniform", "statement": "If rfTRL treats a line as uniform (uses the closed formula instead of integrating along the line), then its series impedance and shunt admittance per unit length are the same at all positions, whatever subset of the line parameters was supplied and in whatever form.", "quantifier": "all accepted subsets of the line parameters, all forms in which they are given, all frequencies and positions", "why_tests_cant": "the dependence on position has to be propagated through every chain of equations the resolver may choose", "anchors": ["src/pyRFtk/resolveTLparams.py:TLresolver", "src/pyRFtk/rfTRL.py:rfTRL._solve"]}
{"id": "C58", "title": "The matrix between waves at chosen nodes", "statement": "circuit.Get_internalSmatrix(f, nodes, Zbase) returns a matrix only if the waves coming back from the nodes are that matrix times the waves running into them ('<node': seen from the other side) in every state the circuit can be in; nodes may lie inside blocks at any depth. It raises if the waves running into the nodes cannot be chosen freely, and if there are more nodes than external ports.", "quantifier": "every circuit reached by any sequence of calls, circuits nested to any depth, every list of nodes, every set of waves sent into the ports, every reference impedance", "why_tests_cant": "the relation must hold for a continuum of excitations, in circuits of any size and depth", "anchors": ["src/pyRFtk/rfCircuit.py:1351-1408 (Get_internalSmatrix)"]}
{"id": "C59", "title": "GTL entries become the elements they describe", "statement": "Each entry of a GTL description becomes the element it describes: an RLC from R/L/C keywords, an arc from Larc, otherwise a transmission line; the parameters are those written, in the units of the format (mm, pF, nH, \u00b5\u03a9m) converted to SI, under either of the names allowed (L/length, Z0TL/Z, xpos/relpos, ports/Portnames); anything ambiguous is refused with ValueError.", "quantifier": "every entry: any set of keywords and values", "why_tests_cant": "the set of combinations of keywords, aliases and value shapes is unbounded", "anchors": ["src/pyRFtk/rfGTL.py:116-203", "src/pyRFtk/rfGTL.py:375-395 (_remap_)"]}
{"id": "C60", "title": "rfGTL with a touchstone file", "statement": "An rfGTL for which a touchstone file is given answers getS, at every frequency and on every reference asked for (by default its own), with the file's matrix, and with the circuit's matrix when the file is switched off by flags={'sNp': False} or when there is no file; getSgtl always answers with the circuit's matrix and is getS with the file switched off. A list of frequencies gives the answers for the single frequencies in order. Solution with the file gives at every port the excitation as forward wave, the file's matrix applied to the excitations as reverse wave, and the voltage and current made of both on the reference asked for; without the file it is the solution of the circuit at all its nodes. No sequence of such calls, with or without the file, changes any later answer or the order of the ports.", "quantifier": "all circuits, all files whose answers do not depend on earlier questions, all frequencies, references, flags, excitations and sequences of calls", "why_tests_cant": "Which of the two descriptions answers depends on flags and on the history of evaluations of two stateful objects; tests with one file and one call order cannot show that the order of calls is irrelevant.", "anchors": ["src/pyRFtk/rfGTL.py: rfGTL.getSgtl, rfGTL.getS", "src/pyRFtk/rfCircuit.py: rfCircuit.Solution"]}
{"id": "C61", "title": "Positions of a circuit's external ports", "statement": "For every history of addblock, connect, terminate and evaluation, circuit.xpos has one entry per entry of circuit.ports, and circuit.xpos[k] is the position of circuit.ports[k]: a port of a block is at the relpos of the block plus its position in the block's object, a port made by connect is at the position of the first existing port given to connect. getpos returns that position for every external port and every port of a block, at any nesting depth.", "quantifier": "all histories of calls, all objects, relative positions, nesting depths and port names", "why_tests_cant": "Positions are kept in a list beside the list of ports and both are changed by every operation; no finite set of histories shows that they remain aligned.", "anchors": ["src/pyRFtk/rfCircuit.py: rfCircuit.addblock", "src/pyRFtk/rfCircuit.py: rfCircuit.getpos", "src/pyRFtk/rfCircuit.py: rfCircuit.connect", "src/pyRFtk/rfCircuit.py: rfCircuit.terminate", "src/pyRFtk/rfCircuit.py: rfCircuit.deembed", "src/pyRFtk/rfCircuit.py: rfCircuit.resolve_xpos"]}
{"id": "C62", "title": "References and units of measured data are only a matter of writing", "statement": "Whatever the history of setS, obj[k] = (f, S), convert2newZbase, getS and pickling, getS(f, Zbase=Z) of an rfObject at a frequency of its table is the scattering matrix, on Z, of the network that was described for f on the reference the object had at that moment; changing the reference of the object changes no answer. The same physical frequency gets the same answer in whatever unit it is given, also when the object is a block of a circuit.", "quantifier": "all histories of calls, tables, references, frequencies and units", "why_tests_cant": "The table, the reference and the cached interpolators are changed by different calls; that the answers stay those of the described networks must hold for every interleaving.", "anchors": ["src/pyRFtk/rfObject.py: rfObject.convert2newZbase", "src/pyRFtk/rfObject.py: rfObject.__setitem__", "src/pyRFtk/rfObject.py: rfObject.getS", "src/pyRFtk/rfObject.py: rfObject.setS", "src/pyRFtk/ConvertGeneral.py: ConvertGeneral", "src/pyRFtk/rfCircuit.py: rfCircuit.getS"]}
{"id": "C63", "title": "Parameters of blocks", "statement": "The parameters given with addblock(name, obj, params=d) and with getS(f, params={name: d'}) are in force: each block's S-matrix is that of its object with the parameters of getS set, those of addblock where none are given there, and the object's own values for the rest; every block gets the parameters it was given, whatever dictionaries are used for other blocks and whatever was evaluated before; parameters set stay set; a parameter the object does not have, or for a block that does not exist, is refused with an exception and nothing is changed. The dictionaries are the caller's and are not changed.", "quantifier": "all circuits, kinds of objects (lines, lumped elements, other elements, data), dictionaries, sharing of dictionaries between blocks, frequencies, flags and histories of evaluations", "why_tests_cant": "Objects, circuit cache and the caller's dictionaries are all changed by an evaluation, by reference; which values are in force depends on the history and on the aliasing of dictionaries.", "anchors": ["src/pyRFtk/rfCircuit.py: rfCircuit.getS", "src/pyRFtk/rfCircuit.py: rfCircuit.addblock", "src/pyRFtk/rfTRL.py: rfTRL.getS, rfTRL.set", "src/pyRFtk/rfRLC.py: rfRLC.getS, rfRLC.set", "src/pyRFtk/rfBase.py: rfBase.set, rfBase.getS"]}
{"id": "C64", "title": "Port impedances exported by HFSS are honoured", "statement": "A Touchstone file in which each frequency is followed by the comments '! Gamma ! ...' and '! Port Impedance ...' (one complex number per port, or a matrix with the values on its diagonal, possibly continued on further comment lines) is read with these values: every S-matrix is understood as power waves on the port impedances of its own frequency and converted to voltage waves on the reference asked for (default 50 Ohm), whatever the R of the option line; the impedances and propagation constants are returned, one row per frequency, one value per port. Other comments do not disturb this.", "quantifier": "all readers of numbers, numbers of ports and frequencies, number formats, units, option lines, headers of blank and comment lines, layouts of the data and of the comment lines, impedances, propagation constants and matrices", "why_tests_cant": "It relates the text of arbitrary files, across line breaks and frequencies, to the set of voltages and currents the result allows; tests read a few files.", "anchors": ["src/pyRFtk/ReadTSF.py: ReadTSF"]}
{"id": "C65", "title": "An rfObject read from a Touchstone file is the network of the file", "statement": "rfObject(touchstone=file, Zbase=Z, funit=u, ports=names, xpos=...) is accepted exactly when every matrix of the file has a counterpart on Z; the object then carries the given names (one per port, else refused) and positions, or the names of the file, and at every frequency of the file, asked for in any unit and on any reference, getS returns the scattering matrix of the network the file describes, through any later history of getS, setS, item assignment, change of reference and pickling. Writing an object with WriteTSF and reading it back gives the same answers. Reading another file into the object (read_tsf) replaces the old data.", "quantifier": "all readers of numbers, objects written, port counts, frequencies, formats, units, references, configured defaults and exported files", "why_tests_cant": "It composes the text writer, the text reader, the change of reference, the unit of frequency and the history of the object; each is unbounded.", "anchors": ["src/pyRFtk/rfObject.py: rfObject.__init__", "src/pyRFtk/rfObject.py: rfObject.read_tsf", "src/pyRFtk/rfObject.py: rfObject.getS", "src/pyRFtk/ReadTSF.py: ReadTSF", "src/pyRFtk/WriteTSF.py: WriteTSF", "src/pyRFtk/config.py: rcparams"]}
{"id": "C66", "title": "Between measured frequencies the answers are the measured response", "statement": "The interpolation of an rfObject goes through the data, so that a frequency in the table and one next to it agree; it reproduces exactly, at every frequency inside and outside the table, a response whose magnitude is linear and whose phase is that of a delay (MA), exponential with a delay (dB) or linear in the complex plane (RI) as soon as there are two frequencies between which the phases turn by less than half a turn; a single frequency is answered everywhere. It works entry by entry, so reciprocal data give reciprocal answers; passive data give passive answers. All kinds of interpolation scipy knows are accepted and zero entries are allowed.", "quantifier": "all numbers of ports, frequencies, matrices, modes, orders of spline, histories, and all spline implementations with the stated laws", "why_tests_cant": "Phase unwrapping depends on the whole sequence of samples, and the claim is about every frequency of a continuum and every delay.", "anchors": ["src/pyRFtk/rfObject.py: rfObject._interp_", "src/pyRFtk/rfObject.py: rfObject.getS", "src/pyRFtk/config.py: rcparams"]}
{"id": "C67", "title": "A line section given by a Touchstone file is the network of the file", "statement": "rfTRL(sNp=file, Zbase=Z, ...) is accepted exactly when every matrix of the file has a counterpart on Z and the file has two ports; at every frequency of the file getS on any reference returns the scattering matrix of the network the file describes, in all three formats; between the frequencies responses with a delay whose phase is resolved by the table are reproduced; changing L or Zbase does not change the network; VISWs gives voltages that agree with the file at both ports.", "quantifier": "all files, numbers of ports and frequencies, formats, references, delays, parameters, and all spline implementations with the stated laws", "why_tests_cant": "It composes the reader, the change of reference and an interpolation over a continuum of frequencies, for every table.", "anchors": ["src/pyRFtk/rfTRL.py: rfTRL.__init__", "src/pyRFtk/rfTRL.py: rfTRL.getS", "src/pyRFtk/rfTRL.py: rfTRL.set", "src/pyRFtk/rfTRL.py: rfTRL.VISWs", "src/pyRFtk/ReadTSF.py: ReadTSF"]}
{"id": "C68", "title": "The listing of a circuit shows the equations it solves", "statement": "str(circuit) / circuit.__str__(1) succeeds in every circuit; it has one line for each equation, each coefficient shown is the one solved with and no non-zero coefficient is missing, so that the waves satisfying the equations shown after an evaluation are exactly those satisfying the block equations, Kirchhoff's laws, the loads and the deembedding ties; ports without an equation are listed below, in order, numbered on; each block is shown with its ports at the positions getpos gives.", "quantifier": "all circuits and histories of addblock, connect, terminate, deembed and evaluation, all block objects", "why_tests_cant": "The listing is computed from data kept beside the equations (a dictionary written by connect, block locations, loads) and must agree with them after every history.", "anchors": ["src/pyRFtk/rfCircuit.py: rfCircuit.__str__", "src/pyRFtk/rfCircuit.py: rfCircuit.connect", "src/pyRFtk/rfCircuit.py: rfCircuit.getpos"]}
{"id": "C69", "title": "A returned matrix is the caller's own", "statement": "Changing in place an array returned by getS, VISWs or maxV does not alter any later answer of the object.", "quantifier": "all circuits, lines and stored data, all histories of questions, load changes and assignments to any element of any array returned so far", "why_tests_cant": "Needs every interleaving of questions and assignments; the values are right until somebody writes.", "anchors": ["src/pyRFtk/rfCircuit.py: rfCircuit.getS", "src/pyRFtk/rfTRL.py: rfTRL.getS", "src/pyRFtk/rfTRL.py: rfTRL.VISWs", "src/pyRFtk/rfBase.py: rfBase.get1S"]}
{"id": "C70", "title": "Lists and dictionaries given as arguments are only read", "statement": "A list or dictionary given to addblock, rfObject.deembed or rfCircuit(Portnames=...) is not altered by the library, so that the same one can serve for several objects.", "quantifier": "all circuits and objects, all argument lists and dictionaries, any second use of the same one", "why_tests_cant": "The first use is always right; the damage shows in a second object, for every content of the argument.", "anchors": ["src/pyRFtk/rfCircuit.py: rfCircuit.addblock", "src/pyRFtk/rfCircuit.py: rfCircuit.terminate", "src/pyRFtk/rfCircuit.py: rfCircuit.extS", "src/pyRFtk/rfObject.py: rfObject.deembed"]}
{"id": "C71", "title": "The legacy class circuit answers like rfCircuit", "statement": "A script written for the legacy class circuit (circuit.py, kept for compatibility) gets from it the same matrices, solutions, tables of nodes and exceptions as from rfCircuit, whatever blocks, connections, loads and evaluations it makes, in any order.", "quantifier": "all lists of calls addblock/connect/terminate/getS/solve/Solution (followed by maxV or Get_internalSmatrix), all blocks, port names, references and frequencies", "why_tests_cant": "Two separate implementations of some 500 lines; equality must hold for every circuit and every history of calls.", "anchors": ["src/pyRFtk/circuit.py: circuit.__init__", "src/pyRFtk/circuit.py: circuit.addblock", "src/pyRFtk/circuit.py: circuit.connect", "src/pyRFtk/circuit.py: circuit.terminate", "src/pyRFtk/circuit.py: circuit.extS", "src/pyRFtk/circuit.py: circuit.set", "src/pyRFtk/circuit.py: circuit.getS", "src/pyRFtk/circuit.py: circuit.solve", "src/pyRFtk/circuit.py: circuit.Solution"]}
{"id": "C72", "title": "Annotations and variables of a Touchstone file", "statement": "ReadTSF reports what the comments before the data say: the port names after !PORTS, the numbers after !MARKERS, the shape, part and numbering, and for files exported by HFSS the design variables of the `! Variables:` tables; the last statement of each kind counts, comments in or after the data say nothing, and an annotation that is incomplete does not prevent the data from being read.", "quantifier": "all files (lists of lines), all annotations and tables of variables in any order, all keyword arguments", "why_tests_cant": "The lines, their order, the texts and the number of tables and assignments are unbounded.", "anchors": ["src/pyRFtk/ReadTSF.py: ReadTSF"]}
{"id": "C73", "title": "Comparing two measured-data objects", "statement": "`a == b` of two rfObjects answers, symmetrically, whether they hold the same ports, reference, unit and (within numpy's tolerances) the same frequencies and matrices; in particular an object equals itself, its copy and what is read back from its pickle, comparing with anything else answers False, and two objects made separately from the same data are equal.", "quantifier": "all pairs of rfObjects with any numbers of ports and frequencies, any histories (evaluated, interpolated, copied, pickled), any right-hand side, both behaviours of numpy for empty and incompatible arrays", "why_tests_cant": "The pair of objects, their histories and the data are unbounded.", "anchors": ["src/pyRFtk/rfObject.py: rfObject.__eq__", "src/pyRFtk/rfObject.py: rfObject.__deepcopy__", "src/pyRFtk/rfObject.py: rfObject.__setstate__"]}
{"id": "C74", "title": "Ports and positions given when a circuit is made", "statement": "`rfCircuit(ports=[...], xpos=[...])` is accepted without a warning; the circuit so made can be built up and evaluated like any other, its ports are those announced and the positions given belong to them, and the caller's lists are not changed.", "quantifier": "all port lists and positions, all sequences of accepted addblock, connect, terminate and deembed calls, all sequences of evaluations", "why_tests_cant": "Neither the lists nor the sequences of calls and evaluations are bounded.", "anchors": ["src/pyRFtk/rfCircuit.py: rfCircuit.__init__", "src/pyRFtk/rfBase.py: rfBase.__init__", "src/pyRFtk/rfCircuit.py: rfCircuit.addblock", "src/pyRFtk/rfCircuit.py: rfCircuit.connect", "src/pyRFtk/rfCircuit.py: rfCircuit.terminate", "src/pyRFtk/rfCircuit.py: rfCircuit.deembed", "src/pyRFtk/rfCircuit.py: rfCircuit.extS"]}
{"id": "C75", "title": "Comparing sets of scattering matrices in a figure", "statement": "`compareSs(fs, Ss)` draws, for every set of matrices given and every entry, modulus and phase against the frequencies of that set, each in a panel of its own with a title naming the entry; sets of matrices that differ give different figures, and arguments that do not fit together are refused with ValueError.", "quantifier": "all numbers of sets, matrix sizes, frequency lists, entries, styles and labels", "why_tests_cant": "The numbers of sets, ports and frequencies are unbounded and the entries are arbitrary complex numbers.", "anchors": ["src/pyRFtk/compareSs.py: compareSs"]}
{"id": "C76", "title": "Printing a matrix", "statement": "`strM(M)` (and printM, printRI, printMA, printDB, printR) writes the shape of the matrix and then one line for each row; in each line each entry has its own column, and the numbers written are those of the entry rounded to the digits of the format; entries written as zero are zero to those digits.", "quantifier": "all complex matrices of any size, the four formats and any format given, any symbol for zeros", "why_tests_cant": "Sizes are unbounded and entries are arbitrary complex numbers.", "anchors": ["src/pyRFtk/printMatrices.py: strM", "src/pyRFtk/printMatrices.py: printM", "src/pyRFtk/printMatrices.py: printRI", "src/pyRFtk/printMatrices.py: printMA", "src/pyRFtk/printMatrices.py: printDB", "src/pyRFtk/printMatrices.py: printR"]}
{"id": "C77", "title": "The table of voltages returned by maxV", "statement": "Beside the maximum, `maxV` of a circuit returns a table: every node stands in it with its position and the magnitude of the voltage it has in the solution of the network for the excitation given; every block stands in it with what its own `maxV` answers for the waves entering it, its positions mapped to the place of the block; nothing else stands in it; no voltage in it exceeds the maximum returned; the table for the excitation multiplied by c is the table with every voltage multiplied by |c|, which is also what `scaleVSW` makes of it; and what the table says for a port of a block and for the node agree.", "quantifier": "all circuits reached by any history of calls (maximum and proportionality: circuits in any state), all excitations, frequencies, references, flags and positions, circuits nested to any depth", "why_tests_cant": "The networks, the nesting and the complex excitations are unbounded.", "anchors": ["src/pyRFtk/rfCircuit.py: maxV", "src/pyRFtk/rfCircuit.py: getpos", "src/pyRFtk/plotVSWs.py: scaleVSW", "src/pyRFtk/rfBase.py: maxV", "src/pyRFtk/rfRLC.py: maxV"]}
{"id": "C78", "title": "The text of a table of voltages", "statement": "`strVSW` of a table of standing-wave voltages tells the table: two tables with the same text have the same keys at the same places, the same points under each key, and positions and voltages that agree to a thousandth; every table `maxV` returns can be written.", "quantifier": "all tables of any depth and size, all keys without newline that do not begin with a blank, any indentation", "why_tests_cant": "Tables are trees of unbounded depth and size with real and complex entries.", "anchors": ["src/pyRFtk/plotVSWs.py: strVSW"]}
{"id": "C79", "title": "A copy of an rfGTL", "statement": "`copy()`, `copy.copy` and `copy.deepcopy` of an rfGTL give an object that answers every later call as the original does, at any time, and copying does not depend on anything but the object.", "quantifier": "all model files, all lists of calls before and after the copy, all states of the file when the copy is made", "why_tests_cant": "The copy is made by reading the file anew and by assigning every attribute afterwards; what it does depends on the whole history of the object and on the file at that time.", "anchors": ["src/pyRFtk/rfGTL.py: copy", "src/pyRFtk/rfGTL.py: __copy__", "src/pyRFtk/rfGTL.py: __deepcopy__"]}
{"id": "C80", "title": "A circuit of lines, lumped elements, couplers and circuits obeys circuit physics", "statement": "The matrix a circuit of rfTRL, rfRLC, rfCoupler and stored-matrix objects, and of circuits of these nested to any depth, returns on a real reference relates exactly those port voltages and currents that extend to voltages and currents at all nodes obeying the telegrapher equations on every line, Ohm's law in every element and load and Kirchhoff's laws at every junction; so a line cut into sections is the line, a circuit of passive parts is passive, one of lossless parts lossless and one of reciprocal parts reciprocal.", "quantifier": "all circuits of these objects built, loaded and evaluated by any calls, all frequencies, all real references other than 0, all ways to cut a uniform or non-uniform line", "why_tests_cant": "The statement is about all voltages and currents on all networks; a test compares numbers of a few networks, and with the program's own conventions.", "anchors": ["src/pyRFtk/rfCircuit.py: getS", "src/pyRFtk/rfTRL.py: getS", "src/pyRFtk/rfRLC.py: getS", "src/pyRFtk/rfBase.py: getS", "src/pyRFtk/rfCoupler.py: get1S"]}
{"id": "C81", "title": "An rfCoupler is a pair of coupled strips", "statement": "The matrix an rfCoupler with coupling kc and impedance Zbase returns, on whatever real reference, relates exactly those port voltages and currents that are end values of a solution of the telegrapher equations of two strips in air coupled by mutual inductance and capacitance with coefficient kc, of the length Lc given, a quarter wave at the f0Hz given, or a quarter wave at the frequency asked; it answers at every frequency (except 0 if it has no length), and a coupling above 1 never answers.", "quantifier": "all couplings below 1 in size given as a factor, in dB or by default, all lengths and centre frequencies, all frequencies and real references other than 0, all port voltages and currents", "why_tests_cant": "The statement is about all solutions of a system of differential equations at all frequencies; a test compares some numbers at the centre frequency.", "anchors": ["src/pyRFtk/rfCoupler.py: __init__", "src/pyRFtk/rfCoupler.py: get1S", "src/pyRFtk/rfBase.py: getS"]}
{"id": "C82", "title": "Solution reports the physical state and conserves power", "statement": "For a circuit of lines, lumped elements, couplers, stored matrices and circuits nested to any depth, what Solution reports at the nodes, those inside nested circuits too, is the one physical state (telegrapher equations, Ohm, Kirchhoff) in which the given waves enter the ports. The complex power V conj(I) reported at the free ports is the sum of what the blocks and the loads are reported to take; with passive objects and loads no block or load delivers power and no load takes more than enters.", "quantifier": "all circuits built by addblock, connect, terminate of these objects with any nesting depth, all frequencies, excitations and real references, all physical states", "why_tests_cant": "A statement about all solutions of differential and algebraic equations of every circuit; a test compares some numbers of one circuit.", "anchors": ["src/pyRFtk/rfCircuit.py: Solution", "src/pyRFtk/rfCircuit.py: getS"]}
{"id": "C83", "title": "Reported voltage maxima are accurate along the whole line", "statement": "maxV of a uniform line bounds the voltage magnitude everywhere on the line, not only at the nodes where it is computed, up to a factor set by the step asked for (1/cos(2 pi/dx) for dx points per wavelength, 0.4 % with the default 72), and does not exceed the largest voltage on the line by more than an eighth; maxV of a circuit bounds in the same way the voltage anywhere on any of its lines. The step between the nodes is at most the one asked for.", "quantifier": "all uniform lines and histories of accepted calls, all frequencies, excitations, references, steps; all circuits of such lines with lumped elements, couplers and stored matrices; all points of the lines", "why_tests_cant": "The voltage between the nodes is never computed, so no test of the returned numbers sees it; the bound is a comparison theorem for all solutions of the telegrapher equations.", "anchors": ["src/pyRFtk/rfTRL.py: maxV", "src/pyRFtk/rfTRL.py: solveVI", "src/pyRFtk/rfCircuit.py: maxV", "src/pyRFtk/maxfun.py: maxfun"]}
{"id": "C84", "title": "A measured-data object is the sequence of its samples", "statement": "An rfObject can be used as a sequence of its (frequency, matrix) samples: `for f, S in obj` and `list(obj)` give the stored samples, each once, also when the loop evaluates the object or stores further samples; `obj[k]` is element k of that list, negative k counting from the end, IndexError otherwise; `obj[k] = f, S` replaces that element and no other, or is refused and changes nothing; `len(obj)` and `reversed(obj)` agree with the loop; the matrices handed out are the caller's own.", "quantifier": "all histories of setS (accepted or refused), getS and pickling, all indices, all loop bodies that evaluate the object or add samples, all assigned values", "why_tests_cant": "The statement ranges over all histories of the object and all bodies of the loop; a test fixes one of each.", "anchors": ["src/pyRFtk/rfObject.py: __iter__", "src/pyRFtk/rfObject.py: __getitem__", "src/pyRFtk/rfObject.py: __setitem__", "src/pyRFtk/rfObject.py: __len__"]}
{"id": "C85", "title": "A frequency sweep gives at each frequency what a single evaluation gives", "statement": "getS of a list of frequencies returns, in the order of the list, at each frequency the matrix that a single getS of the object as it was before the call returns at that frequency with the same arguments; if some single evaluation raises, the sweep raises the error of the first such frequency. Hence the order of the frequencies does not matter, a sweep can be cut in pieces, repeated frequencies get the same matrix, and no sweep changes a later answer. Holds for circuits (also of circuits, to any depth), lines, lumped elements, objects with tabulated data and the other classes deriving from rfBase.", "quantifier": "all lists of frequencies (any length, order, repetition), all circuits and histories, all references, flags and parameter values", "why_tests_cant": "A sweep runs on an object whose caches, interpolators and blocks have been left by the previous frequencies; the claim is about every list and every history, a test fixes one of each.", "anchors": ["src/pyRFtk/rfCircuit.py: getS", "src/pyRFtk/rfTRL.py: getS", "src/pyRFtk/rfRLC.py: getS", "src/pyRFtk/rfObject.py: getS", "src/pyRFtk/rfBase.py: getS"]}
{"id": "C86", "title": "A chain of two-ports has the product of the transmission matrices", "statement": "If a circuit consists of two-port blocks in a row, the second port of each connected to the first port of the next (blocks added and connected in any order, under any names and with any kind of object), then its S-matrix is the one whose transmission (T-) matrix is the product, in the order of the chain, of the transmission matrices of the blocks, all taken at the reference of the circuit. It answers exactly when that product has a nonzero (2,2) entry, i.e. when the chain has no undamped internal resonance; for two blocks exactly when 1 - S22' S11'' is not zero, and then S is the star product. A chain of matched blocks is matched and its transmissions are the products of the transmissions.", "quantifier": "all lengths of chain, all S-matrices of the blocks with nonzero S21 (for matched chains and pairs: any), all object kinds, frequencies and references of the circuit, all building orders and histories of evaluations", "why_tests_cant": "The claim is about chains of every length and every order of building; a test fixes one chain, one order and some numbers.", "anchors": ["src/pyRFtk/rfCircuit.py: addblock", "src/pyRFtk/rfCircuit.py: connect", "src/pyRFtk/rfCircuit.py: get1S", "src/pyRFtk/rfCircuit.py: getS"]}
{"id": "C87", "title": "Loading a port and joining two ports follow the reduction formulas", "statement": "If a circuit answers with the matrix S and one of its free ports p is then terminated with a load of reflection r (given as a reflection, an impedance or an admittance), the circuit with the load answers exactly when 1 - r S_pp is not zero, and its entries are S_ab + S_ap r S_pb / (1 - r S_pp). If instead two of its free ports p, q are connected to each other, it answers exactly when (1 - S_pq)(1 - S_qp) - S_pp S_qq is not zero, and the entries are those of the standard interconnection formula in terms of S. This holds for a circuit of any size and topology, however it was built.", "quantifier": "all circuits with any blocks, connections and loads, every free port or pair of free ports, every load, frequency and reference of the circuit", "why_tests_cant": "The formulas must hold for circuits of every size and every matrix; the code never evaluates them: it adds an equation and solves the whole system again, so tests on a few circuits do not show that the two always agree.", "anchors": ["src/pyRFtk/rfCircuit.py: terminate", "src/pyRFtk/rfCircuit.py: connect", "src/pyRFtk/rfCircuit.py: get1S", "src/pyRFtk/rfCircuit.py: getS"]}
{"id": "C88", "title": "Chain (ABCD) matrices multiply, impedances combine as in the textbooks", "statement": "A uniform line has the chain matrix [[cosh gL, Zc sinh gL], [sinh gL / Zc, cosh gL]]; an rfRLC has that of its series arm followed by its shunt arm. If a circuit is a row of two-ports, each connected to the next, with its two ends as ports, then the voltages and currents at its ports are related by the matrix it returns, on whichever reference is asked for, exactly if they are related by the product of the chain matrices. With the impedance ZL at the end it presents (A ZL + B)/(C ZL + D), for a line Zc (ZL + Zc tanh gL)/(Zc + ZL tanh gL). Series impedances in a row add, shunt admittances in a row add, and one-ports connected at one new port add their admittances.", "quantifier": "all rows of any length of objects that obey a law at their ports (lines, RLCs and circuits of them to any depth), all frequencies, circuit references and references asked for, all loads", "why_tests_cant": "The relation must hold for rows of every length and every parameter value; a test checks some lines at some frequencies with a tolerance.", "anchors": ["src/pyRFtk/rfTRL.py: getS", "src/pyRFtk/rfRLC.py: getS", "src/pyRFtk/rfCircuit.py: connect", "src/pyRFtk/rfCircuit.py: terminate", "src/pyRFtk/rfCircuit.py: getS"]}
{"id": "C89", "title": "Scaling impedances and frequencies, negative frequencies, and exchanging equivalent objects", "statement": "Take two circuits with the same connections, built in any order, and let all impedances of the second (resistances, line impedances, loads, references) be k times those of the first, with reactances chosen for a frequency m times as high (inductances k/m, capacitances 1/(k m)): the matrix of the second on the reference k z at m f is the matrix of the first on z at f, and one answers exactly when the other does. A circuit of real-valued objects with real loads has at -f the complex conjugate of its matrix at f. An object in a circuit may be exchanged for any other object, of whatever class, with the same law between voltages and currents at its ports, without changing any answer.", "quantifier": "all circuits of lines, lumped elements and tabulated objects (for the exchange: all objects, also circuits to any depth), all orders of building, all factors k, m other than 0, all frequencies and references", "why_tests_cant": "The statements compare every circuit with infinitely many others; the code computes each from scratch with other numbers, so only the laws it solves, not a sample of values, can show it.", "anchors": ["src/pyRFtk/rfCircuit.py: getS", "src/pyRFtk/rfCircuit.py: addblock", "src/pyRFtk/rfCircuit.py: connect", "src/pyRFtk/rfCircuit.py: terminate", "src/pyRFtk/rfTRL.py: getS", "src/pyRFtk/rfRLC.py: getS"]}
{"id": "C90", "title": "A circuit without gain can be evaluated unless it holds a resonance without loss", "statement": "For a circuit of objects that cannot deliver power, with passive loads, getS returns a matrix at a frequency exactly when there is no resonance without loss: no set of voltages and currents, not all zero, that obeys all laws of objects, junctions and loads with nothing at the free ports and no power taken by any object or load. If there is one it raises LinAlgError and nothing else. If it answers on its own reference it answers on every positive reference. In particular a circuit whose lines, lumped elements and tabulated matrices all lose power never raises, however they are joined and nested.", "quantifier": "all circuits, nested to any depth, of lines, lumped elements and tabulated objects, all orders of building, all frequencies, all positive references", "why_tests_cant": "Whether a matrix is singular is a question on every network the user can join; tests only meet the ones written down, and near a singular one floating point hides it.", "anchors": ["src/pyRFtk/rfCircuit.py: getS", "src/pyRFtk/rfCircuit.py: _complete", "src/pyRFtk/ConvertGeneral.py: ConvertGeneral", "src/pyRFtk/rfTRL.py: getS", "src/pyRFtk/rfRLC.py: getS"]}
{"id": "C91", "title": "The answers of a circuit vary continuously with the frequency", "statement": "If the series impedance and shunt admittance of the lines and the tabulated matrices are continuous at a frequency f0, and the objects and the circuit answer at f0 (lumped elements: f0 not 0), then getS of the circuit returns a matrix at all frequencies near f0, of the same size, and every entry of it is continuous at f0 - on the circuit's own reference and on every other one it can be converted to. For fixed waves at the ports the voltages, currents and waves that Solution reports at every node are continuous there too. So a sweep has no jumps, and the frequencies at which a circuit fails form a closed set. In particular the choice of the square root in the propagation constant of a line does not show.", "quantifier": "all circuits, nested to any depth, of uniform lines, lumped elements and objects with a matrix of their own, all orders of building, all frequencies f0, all references", "why_tests_cant": "Continuity speaks of arbitrarily close frequencies; a test compares a few samples and cannot tell a steep slope from a jump.", "anchors": ["src/pyRFtk/rfCircuit.py: getS", "src/pyRFtk/rfCircuit.py: _complete", "src/pyRFtk/ConvertGeneral.py: ConvertGeneral", "src/pyRFtk/rfTRL.py: getS", "src/pyRFtk/rfTRL.py: solveVI", "src/pyRFtk/rfRLC.py: getS", "src/pyRFtk/rfBase.py: getS", "src/pyRFtk/S_from_VI.py: S_from_VI"]}
{"id": "C92", "title": "The log follows the level set and the nesting of the calls", "statement": "After any session, logit[name] of a level says whether records of this level are written, setLogLevel with a known name or a number sets the level and with an unknown name raises KeyError and changes nothing. Above DEBUG a call of the library leaves the log and its depth alone. At DEBUG a call in which every function writes its closing message adds each message behind as many bars as functions are open around it, and leaves the depth as it was; so the log of any session can be read as a tree of calls.", "quantifier": "all sequences of setLogLevel calls (accepted or refused) and library calls, all trees of inner calls with or without exceptions, all levels including arbitrary numbers, every level of the root logger", "why_tests_cant": "The depth is global state kept over the whole session; a test sees a few calls, not what exceptions in an arbitrary history leave behind, nor arbitrary numeric levels.", "anchors": ["src/pyRFtk/config.py: setLogLevel", "src/pyRFtk/config.py: logit", "src/pyRFtk/config.py: ident", "src/pyRFtk/config.py: logident"]}
{"id": "C93", "title": "ReadDictData reads the file that findpath documents, or says why not", "statement": "ReadDictData returns the value of the literal in the documented match (the last in alphabetical order in the first directory with a match below the first search directory that has one), and raises IOError when there is no match or it cannot be read, or what the evaluation of the text raises. It gives what ReadDictString gives for the text of that file. A match that can be read is never missed.", "quantifier": "all file systems, patterns, search orders, file contents and literals", "why_tests_cant": "The order of search directories, subdirectories and names interacts with arbitrary file systems; a test sets up one tree.", "anchors": ["src/pyRFtk/ReadDictData.py: ReadDictData", "src/pyRFtk/ReadDictData.py: ReadDictString", "src/pyRFtk/findpath.py: findpath"]}
{"id": "C94", "title": "tic and toc measure the time since the right moment", "statement": "After any sequence of calls, toc() returns the time since the last tic(), and toc(t) with t returned by some tic() the time since that call, whatever happened in between; toc changes nothing. So timers can be nested.", "quantifier": "all sequences of tic and toc calls and all (non-zero) times", "why_tests_cant": "The start time is global state shared by all users of the module; a test sees one sequence of calls.", "anchors": ["src/pyRFtk/tictoc.py: tic", "src/pyRFtk/tictoc.py: toc"]}
{"id": "C95", "title": "an rfObject filled from impedance matrices answers for those impedances on every reference", "statement": "After obj.setS(fs, obj.S_from_Z(Z)) the answer of obj.getS(f, Zbase=R) is exactly the scattering matrix, on R, of the network with the impedance matrix given for f, whatever was done with the object before (other data, change of reference, evaluation, pickling). It succeeds exactly when no Z + Zbase is singular and there is one matrix per frequency, in particular for every passive Z and positive Zbase. S_from_Y does the same for admittances.", "quantifier": "all objects and histories, impedance arrays of every shape, frequencies and references", "why_tests_cant": "The reference used for the conversion and the one used for reading back are chosen independently and change over the life of the object; a test fixes one pair.", "anchors": ["src/pyRFtk/rfObject.py: S_from_Z", "src/pyRFtk/rfObject.py: S_from_Y", "src/pyRFtk/rfObject.py: setS", "src/pyRFtk/rfObject.py: getS"]}
