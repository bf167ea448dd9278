{
 "claims": [
  {
   "property": "C01",
   "status": "proved",
   "theorems": [
    "PyRFtk.C01_check3D",
    "PyRFtk.C01_reject",
    "PyRFtk.C01_reject_convertGeneral"
   ],
   "note": "The code's ValueError for a rejected shape is itself malformed: what is raised is TypeError (C01_reject)."
  },
  {
   "property": "C02",
   "status": "proved",
   "theorems": [
    "PyRFtk.C02_Z_S_Z",
    "PyRFtk.C02_S_Z_S",
    "PyRFtk.C02_empty_stack"
   ],
   "note": "Stated for arrays with at least one frequency; the excluded empty stack is shown to fail (C02_empty_stack)."
  },
  {
   "property": "C03",
   "status": "proved",
   "theorems": [
    "PyRFtk.C03_S_from_Z_ohm",
    "PyRFtk.C03_Z_from_S_ohm",
    "PyRFtk.C03_Y_from_S_ohm",
    "PyRFtk.C03_failure",
    "PyRFtk.C03_Y_Z_inverse"
   ],
   "note": ""
  },
  {
   "property": "C04",
   "status": "partial",
   "theorems": [
    "PyRFtk.C04_S_from_Y_always_raises",
    "PyRFtk.C04_S_from_Y_fixed_import_still_raises",
    "PyRFtk.C04_S_from_Y_formula_partial"
   ],
   "note": "Violated by the code: S_from_Y raises TypeError on every argument (C04_S_from_Y_always_raises); even with the import repaired only 3-D arguments give a result. The formula itself is proved correct for that case."
  },
  {
   "property": "C05",
   "status": "proved",
   "theorems": [
    "PyRFtk.C05_exact",
    "PyRFtk.C05_physical",
    "PyRFtk.C05_total_on_passive"
   ],
   "note": ""
  },
  {
   "property": "C06",
   "status": "proved",
   "theorems": [
    "PyRFtk.C06_identity",
    "PyRFtk.C06_compose",
    "PyRFtk.C06_roundtrip",
    "PyRFtk.C06_zero_reference_collapses"
   ],
   "note": "For 1-D arguments with several entries only the first entry survives, see C08."
  },
  {
   "property": "C07",
   "status": "proved",
   "theorems": [
    "PyRFtk.C07_lossless",
    "PyRFtk.C07_passive",
    "PyRFtk.C07_reciprocal",
    "PyRFtk.C07_V_unequal_not_reciprocal"
   ],
   "note": "Includes the counterexample for V references with unequal impedances."
  },
  {
   "property": "C08",
   "status": "partial",
   "theorems": [
    "PyRFtk.C08_shape",
    "PyRFtk.C08_vector_truncated",
    "PyRFtk.C08_impedance_shape",
    "PyRFtk.C08_unknown_type"
   ],
   "note": "Violated for 1-D arguments: only one entry is returned (C08_vector_truncated and its witness). Holds for all other shapes."
  },
  {
   "property": "C09",
   "status": "proved",
   "theorems": [
    "PyRFtk.C09_S_from_VI",
    "PyRFtk.C09_failure",
    "PyRFtk.C09_reciprocal_iff_det"
   ],
   "note": ""
  },
  {
   "property": "C10",
   "status": "partial",
   "theorems": [
    "PyRFtk.TRL.C10_telegrapher",
    "PyRFtk.TRL.C10_length",
    "PyRFtk.TRL.C10_grid_independent",
    "PyRFtk.TRL.C10_reciprocal",
    "PyRFtk.TRL.C10_symmetric",
    "PyRFtk.TRL.C10_zero_length",
    "PyRFtk.TRL.C10_cascade",
    "PyRFtk.TRL.C10_inverse",
    "PyRFtk.TRL.C10_matched",
    "PyRFtk.TRL.C10_degenerate",
    "PyRFtk.TRL.C10_nonuniform_zero_length",
    "PyRFtk.TRL.C10_sequence"
   ],
   "note": "All clauses proved whenever a result is returned. Violated for degenerate parameters (zero series impedance or zero shunt admittance, e.g. a lossless line at f=0: C10_degenerate) and for non-uniform lines of zero length with the default dx (C10_nonuniform_zero_length). Non-uniform lines: the ODE integrator is assumed exact."
  },
  {
   "property": "C11",
   "status": "proved",
   "theorems": [
    "PyRFtk.TRL.C11_passive",
    "PyRFtk.TRL.C11_lossless",
    "PyRFtk.TRL.C11_total"
   ],
   "note": "Includes totality: no pole for passive uniform lines."
  },
  {
   "property": "C12",
   "status": "proved",
   "theorems": [
    "PyRFtk.TRL.C12_maxfun",
    "PyRFtk.TRL.C12_total",
    "PyRFtk.TRL.C12_range",
    "PyRFtk.TRL.C12_decreasing"
   ],
   "note": "For increasing positions. For decreasing positions (negative length) the result is 0 as soon as there is an interior maximum (C12_decreasing)."
  },
  {
   "property": "C13",
   "status": "proved",
   "theorems": [
    "PyRFtk.RLC.C13_documented_circuit",
    "PyRFtk.RLC.C13_failure",
    "PyRFtk.RLC.C13_sequence",
    "PyRFtk.RLC.C13_params_persist"
   ],
   "note": "Parameters passed to getS persist in the object (C13_params_persist)."
  },
  {
   "property": "C14",
   "status": "proved",
   "theorems": [
    "PyRFtk.RLC.C14_reciprocal",
    "PyRFtk.RLC.C14_passive",
    "PyRFtk.RLC.C14_lossless",
    "PyRFtk.RLC.C14_total"
   ],
   "note": ""
  },
  {
   "property": "C15",
   "status": "partial",
   "theorems": [
    "PyRFtk.RLC.C15_dc_partial",
    "PyRFtk.RLC.C15_wrong_reference",
    "PyRFtk.RLC.C15_numpy_alias"
   ],
   "note": "Violated by the code: at f=0 the result is always expressed on the reference that was asked for only when this equals the object's own (C15_wrong_reference), and with a numpy without np.complex the call raises (C15_numpy_alias). C15_dc_partial is the part that holds."
  },
  {
   "property": "C16",
   "status": "partial",
   "theorems": [
    "PyRFtk.Arc.C16_arc",
    "PyRFtk.Arc.C16_arc_argument",
    "PyRFtk.Arc.C16_arc_total",
    "PyRFtk.Arc.C16_arc_default",
    "PyRFtk.Arc.C16_arc_sequence_truncated",
    "PyRFtk.Coupler.C16_coupler",
    "PyRFtk.Coupler.C16_coupler_any_reference",
    "PyRFtk.Coupler.C16_coupling",
    "PyRFtk.Coupler.C16_coupler_total",
    "PyRFtk.Coupler.C16_dB_linear",
    "PyRFtk.Coupler.C16_zero_coupling_ignored"
   ],
   "note": "Unitarity, reciprocity, match and dB/linear agreement proved. Violated at the edges: a default-constructed arc gives no finite S (C16_arc_default), a frequency sequence on another reference is truncated to one value (C16_arc_sequence_truncated), kc=0 and kcdB=0 are ignored (C16_zero_coupling_ignored)."
  },
  {
   "property": "C17",
   "status": "proved",
   "theorems": [
    "PyRFtk.Circuit.C17_wellformed",
    "PyRFtk.Circuit.C17_square"
   ],
   "note": ""
  },
  {
   "property": "C18",
   "status": "proved",
   "theorems": [
    "PyRFtk.Circuit.C18_connect_kirchhoff",
    "PyRFtk.Circuit.C18_open"
   ],
   "note": ""
  },
  {
   "property": "C19",
   "status": "proved",
   "theorems": [
    "PyRFtk.Circuit.C19_terminate_load",
    "PyRFtk.Circuit.C19_refused"
   ],
   "note": ""
  },
  {
   "property": "C20",
   "status": "proved",
   "theorems": [
    "PyRFtk.Circuit.C20_getS_sound",
    "PyRFtk.Circuit.C20_external",
    "PyRFtk.Circuit.C20_getS_complete",
    "PyRFtk.Circuit.C20_getS_reference"
   ],
   "note": ""
  },
  {
   "property": "C21",
   "status": "proved",
   "theorems": [
    "PyRFtk.Circuit.C21_same_S",
    "PyRFtk.Circuit.C21_same_success"
   ],
   "note": ""
  },
  {
   "property": "C22",
   "status": "proved",
   "theorems": [
    "PyRFtk.Circuit.C22_circuit_is_object",
    "PyRFtk.Circuit.C22_flatten_waves",
    "PyRFtk.Circuit.C22_flatten",
    "PyRFtk.Circuit.C22_substitute",
    "PyRFtk.Circuit.C22_any_depth"
   ],
   "note": "Nesting in both directions (a circuit is a lawful block; flattening; substitution; towers of any depth)."
  },
  {
   "property": "C23",
   "status": "proved",
   "theorems": [
    "PyRFtk.Circuit.C23_tellegen",
    "PyRFtk.Circuit.C23_reciprocal",
    "PyRFtk.Circuit.C23_power_balance",
    "PyRFtk.Circuit.C23_passive",
    "PyRFtk.Circuit.C23_lossless"
   ],
   "note": ""
  },
  {
   "property": "C24",
   "status": "proved",
   "theorems": [
    "PyRFtk.Circuit.C24_deembed"
   ],
   "note": "For as many ports of X leading inside as outside; evaluability of the deembedded circuit then implies that X is transparent (dimension count)."
  },
  {
   "property": "C25",
   "status": "partial",
   "theorems": [
    "PyRFtk.Circuit.C25_fresh",
    "PyRFtk.Circuit.C25_changes_discard",
    "PyRFtk.Circuit.C25_reterminate_stale"
   ],
   "note": "Violated by the code: changing the load of an already loaded port after an evaluation returns the old matrix at the same frequency, for every circuit (C25_reterminate_stale, C25_stale_witness). Proved for all other changes (C25_fresh, C25_changes_discard, C20_getS_sound)."
  },
  {
   "property": "C26",
   "status": "partial",
   "theorems": [
    "PyRFtk.Circuit.C26_extend_after_eval",
    "PyRFtk.Circuit.C26_terminate_after_eval"
   ],
   "note": "Violated by the code: after an evaluation every accepted addblock (new block), connect or deembed makes every later getS raise, for every circuit (C26_extend_after_eval, C26_witness). Proved for terminate (C26_terminate_after_eval)."
  },
  {
   "property": "C27",
   "status": "partial",
   "theorems": [
    "PyRFtk.Circuit.C27_addblock_refused",
    "PyRFtk.Circuit.C27_terminate_refused",
    "PyRFtk.Circuit.C27_connect_unknown_refused",
    "PyRFtk.Circuit.C27_connect_refused",
    "PyRFtk.Circuit.C27_deembed_refused",
    "PyRFtk.Circuit.C27_deembed_first_refused",
    "PyRFtk.Circuit.C27_connect_refused_evaluated"
   ],
   "note": "Proved: a refused addblock only forgets stored results (state still reachable for the same network, all later getS answers equal); a refused terminate changes nothing at all; connect refused for unknown names changes nothing; deembed refused at its first external pair changes nothing that matters. The property fails otherwise, also proved: a refused connect whose first port is free, or that introduces a new name, leaves a circuit every getS of which raises (before the first evaluation), or one returning a matrix with more ports than the circuit has (after it); a refused deembed leaves the earlier pairs deembedded or an unusable circuit."
  },
  {
   "property": "C28",
   "status": "proved",
   "theorems": [
    "PyRFtk.Circuit.C28_no_port_twice",
    "PyRFtk.Circuit.C28_connect_free",
    "PyRFtk.Circuit.C28_terminate_free"
   ],
   "note": ""
  },
  {
   "property": "C29",
   "status": "proved",
   "theorems": [
    "PyRFtk.Circuit.C29_ports",
    "PyRFtk.Circuit.C29_first_eval",
    "PyRFtk.Circuit.C29_portnames_checked"
   ],
   "note": ""
  },
  {
   "property": "C30",
   "status": "partial",
   "theorems": [
    "PyRFtk.Circuit.C30_nested",
    "PyRFtk.Circuit.C30_any_depth",
    "PyRFtk.Circuit.C30_any_depth_answers",
    "PyRFtk.Circuit.C30_renamed_fails",
    "PyRFtk.Circuit.Ex.C30_swapped_wrong",
    "PyRFtk.Circuit.C30_later",
    "PyRFtk.Circuit.C30_later_own",
    "PyRFtk.Circuit.C30_later_answers",
    "PyRFtk.Circuit.C30_solution_positions",
    "PyRFtk.Circuit.C30_solution",
    "PyRFtk.Circuit.C30_solution_again",
    "PyRFtk.Circuit.C30_solution_answers",
    "PyRFtk.Circuit.C30_missing_port",
    "PyRFtk.Circuit.C30_first_call_misplaced",
    "PyRFtk.Circuit.Ex.C30_first_call_wrong",
    "PyRFtk.Circuit.C30_solution_fresh",
    "PyRFtk.Circuit.C30_reloaded",
    "PyRFtk.Circuit.C30_reloaded_own",
    "PyRFtk.Circuit.C30_reloaded_wrong",
    "PyRFtk.Circuit.C30_reloaded_answers"
   ],
   "note": "Proved for every circuit without Portnames, or evaluated before, or whose Portnames are in creation order: Solution reports, at every node, voltage, current and waves of a state that satisfies all network laws with exactly the given waves entering the named ports (C30_solution, C30_solution_again), and it answers whenever getS does (C30_solution_answers). Nodes inside blocks that are circuits themselves, to any depth, for blocks that keep their port names: C30_nested, C30_any_depth, C30_any_depth_answers. Violated on the first call of a circuit with Portnames in another order: the excitation is taken by position (C30_first_call_misplaced, C30_first_call_wrong); Violated for inner circuits whose ports are renamed: KeyError (C30_renamed_fails), or, if names are exchanged, wrong values (C30_swapped_wrong). A missing port raises. After loads were changed: right whenever the circuit has no stored matrix for this frequency and flags (C30_solution_fresh). At the frequency of the evaluation that the change followed: the state reported is one of the network with the new load (C30_reloaded, and the circuit then holds the new matrix), with the right excitation on the circuit's own reference impedance (C30_reloaded_own); violated on any other reference impedance, where the excitation is computed with the matrix of the old load (C30_reloaded_wrong, C30_reloaded_witness, C30_reloaded_answers). After any number of changed loads and failed evaluations: the state reported is one of the network with the present loads in which each block counts with its last answer (C30_later; it answers whenever that has a solution, C30_later_answers); on the own reference impedance, if no evaluation failed, it is right (C30_later_own). Violated when an evaluation at another frequency failed in between: block matrices of two frequencies are mixed, and the matrix returned afterwards is wrong too (C30_later_witness)."
  },
  {
   "property": "C31",
   "status": "partial",
   "theorems": [
    "PyRFtk.Circuit.C31_copy_unevaluated",
    "PyRFtk.Circuit.C31_copy_evaluated",
    "PyRFtk.Circuit.C31_copy_partial",
    "PyRFtk.Circuit.C31_nested",
    "PyRFtk.Circuit.C31_copy_terminate",
    "PyRFtk.Tree.C31_copy_ends",
    "PyRFtk.Tree.C31_copy_looks_alike",
    "PyRFtk.Tree.C31_copy_independent",
    "PyRFtk.Tree.C31_copy_undisturbed"
   ],
   "note": "Same replies to every sequence of calls proved for copies of every unevaluated circuit, and for evaluated circuits for every sequence that neither extends the circuit nor loads a free port; nesting covered (C31_nested). Violated otherwise: loading a free port of the copy of an evaluated circuit makes every later evaluation of the copy raise, for every circuit (C31_copy_terminate). The copy as a tree of objects (HeapCopy): it shows the same at every path, shares no object with the original (C31_copy_independent, C31_copy_undisturbed) and copying ends (C31_copy_ends)."
  },
  {
   "property": "C32",
   "status": "partial",
   "theorems": [
    "PyRFtk.Tree.Ex.C32_shared_stale",
    "PyRFtk.Tree.Ex.C32_refused_halfway",
    "PyRFtk.Tree.Ex.C32_twice",
    "PyRFtk.Tree.C32_set_sound",
    "PyRFtk.Tree.C32_set_complete",
    "PyRFtk.Tree.C32_unknown_raises",
    "PyRFtk.Tree.C32_set",
    "PyRFtk.Tree.C32_args",
    "PyRFtk.Tree.C32_shape",
    "PyRFtk.RLC.C32_rfRLC_set",
    "PyRFtk.RLC.C32_rfRLC_unknown"
   ],
   "note": "rfCircuit.set for every tree and every (nested) dictionary: an accepted set is exactly the sequence of assignments it means (C32_set_sound, C32_set), conversely accepted when everything addressed exists (C32_set_complete), unknown names raise, structure untouched whatever the outcome (C32_shape), positional arguments (C32_args). Violated: a refused set keeps the earlier assignments and the old stored matrices (C32_refused_halfway); a shared object is changed for other sub-circuits whose stored matrix stays (C32_shared_stale); with a parameter addressed twice True may be returned though nothing changed (C32_twice). rfTRL.set is only modelled in TRLModel."
  },
  {
   "property": "C33",
   "status": "partial",
   "theorems": [
    "PyRFtk.Tree.C33_findObj_object",
    "PyRFtk.Tree.C33_listBlocks",
    "PyRFtk.Tree.C33_listBlocks_nodup",
    "PyRFtk.Tree.C33_listBlocks_ends",
    "PyRFtk.Tree.C33_dotted",
    "PyRFtk.Tree.C33_refused",
    "PyRFtk.Tree.C33_replace_accepted",
    "PyRFtk.Tree.Ex.C33_params_lost",
    "PyRFtk.Tree.C33_params_misplaced"
   ],
   "note": "listBlocks lists exactly the paths findObj finds, without repetition (C33_listBlocks, _nodup, _ends), object agrees; dotted addblock: exactly that block, siblings sharing the object untouched (C33_dotted), refused calls change nothing but the stored matrix (C33_refused), accepted for every existing path and object of the same size (C33_replace_accepted). Violated for block parameters: the parameters of the enclosing block are overwritten by those given for the replaced block (C33_params_lost, C33_params_misplaced)."
  },
  {
   "property": "C34",
   "status": "partial",
   "theorems": [
    "PyRFtk.RfBase.C34_rfBase_stored",
    "PyRFtk.RfBase.C34_rfBase_absent",
    "PyRFtk.RfBase.C34_rfBase_pure",
    "PyRFtk.RfBase.C34_getS_reference",
    "PyRFtk.RfBase.C34_getS_sequence",
    "PyRFtk.RfObject.C34_rfObject_stored",
    "PyRFtk.RfObject.C34_rfObject_exact",
    "PyRFtk.RfObject.C34_rfObject_first",
    "PyRFtk.RfObject.C34_rfObject_reference",
    "PyRFtk.RfObject.C34_rfObject_empty",
    "PyRFtk.RfObject.C34_rfObject_sequence"
   ],
   "note": "Proved for rfBase and rfObject: exact at stored frequencies over all histories of setS/getS/pickling, first value wins while the object considers its data in order. Violated for getS([]) of rfObject (UnboundLocalError) and, for repeated frequencies, once a failed sort has permuted the data (numpy argsort is not stable)."
  },
  {
   "property": "C35",
   "status": "partial",
   "theorems": [
    "PyRFtk.RfBase.C35_rfBase_consistent",
    "PyRFtk.RfBase.C35_rfBase_refused",
    "PyRFtk.RfObject.C35_rfObject_consistent",
    "PyRFtk.RfObject.C35_out_of_order_raises",
    "PyRFtk.RfObject.C35_interpolates_current",
    "PyRFtk.RfObject.C35_increasing_sorted",
    "PyRFtk.RfObject.C35_flag_unsound"
   ],
   "note": "Length and pairing consistent over all histories; increasing data interpolates current data. Violations proved: data stored out of order can never be interpolated (IndexError in every later state), and the order flag misses some unordered data."
  },
  {
   "property": "C36",
   "status": "partial",
   "theorems": [
    "PyRFtk.RfObject.C36_stored",
    "PyRFtk.RfObject.C36_order",
    "PyRFtk.RfObject.C36_refused",
    "PyRFtk.RfObject.C36_interpolated_partial",
    "PyRFtk.RfObject.C36_stale",
    "PyRFtk.RfObject.C36_xpos"
   ],
   "note": "Stored matrices keep their entries between named ports, for every order and even when the call raises; requested order honoured; refusals change nothing. Violations proved: interpolators already built are not reordered (C36_stale), port positions are not moved (C36_xpos)."
  },
  {
   "property": "C37",
   "status": "proved",
   "theorems": [
    "PyRFtk.RfObject.C37_waves",
    "PyRFtk.RfObject.C37_failure",
    "PyRFtk.RfObject.C37_restore",
    "PyRFtk.RfObject.C37_network",
    "PyRFtk.RfObject.C37_opposite",
    "PyRFtk.RfObject.C37_sections",
    "PyRFtk.RfObject.C37_section_total",
    "PyRFtk.RfObject.C37_identity",
    "PyRFtk.RfObject.C37_undo",
    "PyRFtk.RfObject.C37_total",
    "PyRFtk.RfObject.C37_scalar_refused",
    "PyRFtk.RfObject.C37_not_atomic"
   ],
   "note": "All port counts, subsets, lengths of either sign, impedances and frequencies: the result is the network with the line attached; opposite lengths restore every matrix (also shown to succeed for one port). Side findings: documented scalar/dict forms raise TypeError; an unknown port is refused only after the others are changed."
  },
  {
   "property": "C38",
   "status": "proved",
   "theorems": [
    "PyRFtk.TSF.C38_two_port_reversed",
    "PyRFtk.TSF.C38_tsf2str_faithful_partial",
    "PyRFtk.TSF.C38_frequency_lost",
    "PyRFtk.TSF.C38_lower_case_reference",
    "PyRFtk.TSF.C38_missing_number_format",
    "PyRFtk.TSF.C38_default_formats",
    "PyRFtk.TSF.C38_step_kept",
    "PyRFtk.TSF.C38_grid_exact",
    "PyRFtk.TSF.C38_signed_reference",
    "PyRFtk.TSF.C38_tsf2str",
    "PyRFtk.TSF.C38_roundtrip",
    "PyRFtk.TSF.C38_same_reference",
    "PyRFtk.TSF.C38_file_or_string",
    "PyRFtk.TSF.C38_rounding_error",
    "PyRFtk.TSF.C38_exact"
   ],
   "note": "WriteTSF then ReadTSF, character by character, for every N >= 1, every number of frequencies and every placement of line breaks; names without comma, exclamation mark, newline and outer blanks. Number printing is a parameter, with a concrete fixed-decimal instance for the default formats (C38_default_formats). Findings: neither WriteTSF nor ReadTSF uses the standard 2-port order, but tsf2str does, so its 2-ports come back transposed (C38_two_port_reversed); tsf2str drops decimals of the frequencies (C38_frequency_lost); WriteTSF ignores a lower-case r and writes DB when no number format is given while ReadTSF reads MA (C38_lower_case_reference, C38_missing_number_format). The writer takes a sign of the reference along (C38_signed_reference)."
  },
  {
   "property": "C39",
   "status": "proved",
   "theorems": [
    "PyRFtk.TSF.C39_one_option_line",
    "PyRFtk.TSF.C39_option_order",
    "PyRFtk.TSF.C39_line_breaks",
    "PyRFtk.TSF.C39_Y_refused",
    "PyRFtk.TSF.C39_reference_required",
    "PyRFtk.TSF.C39_shape_one_number",
    "PyRFtk.TSF.C39_numbering_first",
    "PyRFtk.TSF.C39_option_defaults",
    "PyRFtk.TSF.C39_frequency_unit",
    "PyRFtk.TSF.C39_port_names",
    "PyRFtk.TSF.C39_bare_R",
    "PyRFtk.TSF.C39_decode_encode"
   ],
   "note": "Findings: Y files are never read (C39_Y_refused), a file without R (50 ohm by the standard) is refused (C39_reference_required), and R without a number is refused for S data although a default is computed (C39_bare_R)."
  },
  {
   "property": "C40",
   "status": "partial",
   "theorems": [
    "PyRFtk.Resolver.C40_terminates",
    "PyRFtk.Resolver.C40_success_iff",
    "PyRFtk.Resolver.C40_known_derivable",
    "PyRFtk.Resolver.C40_inputs_first",
    "PyRFtk.Resolver.C40_supplied_kept_partial",
    "PyRFtk.Resolver.C40_gTL_overwritten",
    "PyRFtk.Resolver.C40_order_independent",
    "PyRFtk.Resolver.C40_resolves_iff",
    "PyRFtk.Resolver.C40_returns",
    "PyRFtk.Resolver.C40_unknown_refused",
    "PyRFtk.Resolver.C40_names",
    "PyRFtk.Resolver.C40_raises",
    "PyRFtk.Resolver.C40_Rs_never"
   ],
   "note": "Termination, success iff derivable, the exact set of descriptions that resolve (C40_resolves_iff), inputs before outputs and order independence are proved for every set of parameters and every forget table; supplied parameters are kept except gTL, which is silently replaced by zero when neither sigma nor tand is supplied (C40_gTL_overwritten). The consistency check can raise AttributeError (C40_raises). Rs is accepted but never used (C40_Rs_never). The five names only rules set are refused as arguments (C40_names)."
  },
  {
   "property": "C41",
   "status": "partial",
   "theorems": [
    "PyRFtk.Resolver.C41_values_partial",
    "PyRFtk.Resolver.C41_epsr_wrong",
    "PyRFtk.Resolver.C41_epsr_wrong_iff",
    "PyRFtk.Resolver.C41_AdB_wrong",
    "PyRFtk.Resolver.C41_AdB_negative_wrong",
    "PyRFtk.Resolver.C41_outer_wrong",
    "PyRFtk.Resolver.C41_strong_losses_wrong"
   ],
   "note": "Every coaxial line, every description and route that needs none of the wrong equations: all derived values are the line's. Findings: permeability/permittivity from the velocity wrong by epsr^2 resp. mur^2 (C41_epsr_wrong), attenuation in dB gives a negative resistance (C41_AdB_wrong), the outer conductor is computed with the inner one's surface resistance (C41_outer_wrong), the attenuation for strong losses is nan (C41_strong_losses_wrong)."
  },
  {
   "property": "C42",
   "status": "proved",
   "theorems": [
    "PyRFtk.Misc.C42_found",
    "PyRFtk.Misc.C42_not_found",
    "PyRFtk.Misc.C42_existspath",
    "PyRFtk.Misc.C42_order"
   ],
   "note": "Directory walk, glob and environment are parameters; the result is characterised exactly, including the error."
  },
  {
   "property": "C43",
   "status": "proved",
   "theorems": [
    "PyRFtk.Misc.C43_ids_unique",
    "PyRFtk.Misc.C43_fscale",
    "PyRFtk.Misc.C43_values",
    "PyRFtk.Misc.C43_units"
   ],
   "note": "Identifiers: all sessions, all class names. Scales: exact arithmetic, str.upper a parameter."
  },
  {
   "property": "C44",
   "status": "partial",
   "theorems": [
    "PyRFtk.Misc.C44_lossless",
    "PyRFtk.Misc.C44_file_eq_string",
    "PyRFtk.Misc.C44_single_line_is_a_path"
   ],
   "note": "Lossless and file/string agreement proved for all contents. The clause fails for strings without a newline, which are taken as file paths (C44_single_line_is_a_path)."
  },
  {
   "property": "C45",
   "status": "proved",
   "theorems": [
    "PyRFtk.VSW.C45_scale",
    "PyRFtk.VSW.C45_scale_compose",
    "PyRFtk.VSW.C45_scale_partial_on_error",
    "PyRFtk.VSW.C45_scale_stops",
    "PyRFtk.VSW.C45_findclosest"
   ],
   "note": "scaleVSW and findclosest, all trees, exact arithmetic. When scaling is refused, at whatever depth, exactly the values before the first offending one are scaled (C45_scale_stops)."
  },
  {
   "property": "C46",
   "status": "partial",
   "theorems": [
    "PyRFtk.GTL.C46_resolves",
    "PyRFtk.GTL.C46_final",
    "PyRFtk.GTL.C46_sum_of_texts_wrong",
    "PyRFtk.GTL.C46_cycle_hangs",
    "PyRFtk.GTL.C46_precedence"
   ],
   "note": "Proved for every acyclic table whose texts are names or expressions that do not add or repeat texts. Violated otherwise: sums of texts are concatenated (C46_sum_of_texts_wrong) and cyclic definitions never end (C46_cycle_hangs)."
  },
  {
   "property": "C47",
   "status": "partial",
   "theorems": [
    "PyRFtk.Misc.C47_indent",
    "PyRFtk.Misc.C47_line",
    "PyRFtk.Misc.C47_node",
    "PyRFtk.Misc.C47_first_call",
    "PyRFtk.Misc.C47_later_calls_accumulate",
    "PyRFtk.Misc.C47_second_call_differs"
   ],
   "note": "First call proved. Violated for later calls: they return the concatenation of all texts so far (C47_later_calls_accumulate, C47_second_call_differs). The text of several points states their number, the first and the last (C47_line)."
  },
  {
   "property": "C48",
   "status": "partial",
   "theorems": [
    "PyRFtk.Circuit.C48_circuit_maxV",
    "PyRFtk.Circuit.C48_circuit_missing_port",
    "PyRFtk.Circuit.C48_circuit_inner_node",
    "PyRFtk.Circuit.C48_circuit_maxV_answers",
    "PyRFtk.TRL.C48_rfTRL_maxV",
    "PyRFtk.RLC.C48_rfRLC_maxV",
    "PyRFtk.RLC.C48_rfRLC_missing",
    "PyRFtk.RLC.C48_rfRLC_unknown_ignored",
    "PyRFtk.RfBase.C48_maxV",
    "PyRFtk.RfBase.C48_unknown_port",
    "PyRFtk.RfBase.C48_total",
    "PyRFtk.RfObject.C48_rfObject_partial",
    "PyRFtk.RfObject.C48_rfObject_wrong",
    "PyRFtk.RfObject.C48_rfObject_missing"
   ],
   "note": "rfBase, rfTRL, rfRLC and rfCircuit maxV proved (C48_circuit_maxV covers nodes and blocks, C48_circuit_maxV_answers when it answers). Violated: rfObject.maxV maximises complex numbers and needs every port (C48_rfObject_wrong, C48_rfObject_missing), rfRLC and rfCircuit refuse undriven ports, rfRLC ignores unknown names, rfCircuit.maxV raises once a named node has been used up (C48_circuit_inner_node)."
  },
  {
   "property": "C49",
   "status": "partial",
   "theorems": [
    "PyRFtk.Circuit.C49_labels",
    "PyRFtk.Circuit.Ex.C49_portnames_mislabel"
   ],
   "note": "Violated by the code when the inner circuit asks for a port order (Portnames) and has not been evaluated when it is added (C49_portnames_mislabel); proved otherwise (C49_labels)."
  },
  {
   "property": "C50",
   "status": "partial",
   "theorems": [
    "PyRFtk.C50_rfArcObj_default_ports",
    "PyRFtk.RLC.C50_rfRLC_len"
   ],
   "note": "The property is violated: C50_rfRLC_len characterises exactly when len raises (after a modifying set until the next getS), C50_rfArcObj_default_ports shows the default arc has no ports. The theorems are the exact characterisation, for all histories."
  },
  {
   "property": "C51",
   "status": "partial",
   "theorems": [
    "PyRFtk.TRL.C51_standing_waves",
    "PyRFtk.TRL.C51_solveVI",
    "PyRFtk.TRL.C51_stale_after_refusal"
   ],
   "note": "Proved for all histories in which the modifications are accepted; violated after a set that is refused half-way (C51_stale_after_refusal)."
  },
  {
   "property": "C52",
   "status": "partial",
   "theorems": [
    "PyRFtk.RfObject.C52_pickle",
    "PyRFtk.RfObject.C52_pickle_sortports"
   ],
   "note": "Same answers from getS after pickling in every history; violation: sortports raises IndexError after reloading an object filled with setS."
  },
  {
   "property": "C53",
   "status": "partial",
   "theorems": [
    "PyRFtk.Circuit.C53_names",
    "PyRFtk.Circuit.C53_addblock",
    "PyRFtk.Circuit.C53_refused",
    "PyRFtk.Circuit.C53_dict_used_up",
    "PyRFtk.Circuit.C53_duplicate_accepted"
   ],
   "note": "Proved: which names, and that the call is accepted exactly when there is one name per port (C53_names, C53_addblock, C53_refused). Violated: an accepted dict is emptied, so a second block added with the same dict silently keeps its own names (C53_dict_used_up); a repeated name is accepted and the circuit can never be evaluated (C53_duplicate_accepted)."
  },
  {
   "property": "C54",
   "status": "proved",
   "theorems": [
    "PyRFtk.Circuit.C54_scattering",
    "PyRFtk.Circuit.C54_declared",
    "PyRFtk.Circuit.C54_answers"
   ],
   "note": "C54_scattering (getS of an accepted description is the scattering matrix of the network described, GLaws), C54_answers (it answers exactly when the laws determine the waves), C54_declared (what is accepted). The elements (rfTRL, rfRLC objects) are given; names without dots; the sNp branch is not modelled. Reference impedance nonzero."
  },
  {
   "property": "C55",
   "status": "proved",
   "theorems": [
    "PyRFtk.Circuit.C55_elements",
    "PyRFtk.Circuit.C55_names",
    "PyRFtk.Circuit.C55_ports",
    "PyRFtk.Circuit.C55_stays",
    "PyRFtk.Circuit.C55_terminated_start",
    "PyRFtk.Circuit.C55_unknown_port"
   ],
   "note": "C55_elements (positions of all ends), C55_names (all ends of a name at one place), C55_ports (positions of the ports), C55_stays (evaluation), C55_terminated_start (an element whose first end is terminated cannot be given a position: the constructor fails). Elements do not change their own positions when evaluated (true of rfTRL and rfRLC). Inconsistent given positions (no layout) only give a warning in the code and are out of scope."
  },
  {
   "property": "C56",
   "status": "partial",
   "theorems": [
    "PyRFtk.Linfun.C56_number",
    "PyRFtk.Linfun.C56_table",
    "PyRFtk.Linfun.C56_list",
    "PyRFtk.Linfun.C56_function",
    "PyRFtk.Linfun.C56_flags",
    "PyRFtk.Linfun.C56_other_name_wrong",
    "PyRFtk.Linfun.C56_constant_function_wrong",
    "PyRFtk.Linfun.C56_decreasing_wrong",
    "PyRFtk.Linfun.C56_refused"
   ],
   "note": "Proved: numbers and one-element lists (C56_number), tables with increasing positions (C56_table, determined by Through.unique), lists spread over the line (C56_list), functions of w and/or x in either order (C56_function), dependency flags right for signatures over w and x (C56_flags), what is refused (C56_refused). Violated: a function of w and another name is called with the position but flagged as position-independent (C56_other_name_wrong); a function without parameters is accepted but cannot be evaluated later (C56_constant_function_wrong); a decreasing table takes the value of the wrong end outside (C56_decreasing_wrong); a list without L raises TypeError. interp1d is modelled as sorting plus piecewise linear interpolation with the two fill values; callables have no default arguments."
  },
  {
   "property": "C57",
   "status": "partial",
   "theorems": [
    "PyRFtk.Resolver.C57_uniform_partial",
    "PyRFtk.Resolver.C57_uniform_wrong"
   ],
   "note": "C57_uniform_partial: for every accepted description that does not supply rTLI directly and whose functions are of w and x only, a line treated as uniform (rfTRL.constant) has the same series impedance and shunt admittance per length at all positions. Missing: descriptions with rTLI, where it is false (C57_uniform_wrong: with rTLI, RsI, RsO, OD, LTL, CTL supplied and RsI varying, the line is taken as uniform although its series impedance follows RsI)."
  },
  {
   "property": "C58",
   "status": "partial",
   "theorems": [
    "PyRFtk.Circuit.C58_any_depth",
    "PyRFtk.Circuit.C58_any_depth_fewer",
    "PyRFtk.Circuit.C58_any_depth_answers",
    "PyRFtk.Circuit.C58_fewer_unrelated",
    "PyRFtk.Circuit.Ex.C58_fewer_wrong",
    "PyRFtk.Circuit.C58_matrix",
    "PyRFtk.Circuit.C58_fewer",
    "PyRFtk.Circuit.C58_answers"
   ],
   "note": "As many nodes as external ports: the matrix relates the waves in every state (C58_matrix, C58_any_depth), an answer comes exactly when the incident waves are free, else LinAlgError; more nodes: ValueError (C58_answers, C58_any_depth_answers). Fewer nodes: right if a relation exists and the waves are free, for any generalised inverse (C58_fewer, C58_any_depth_fewer). Violated for fewer nodes than ports: a matrix is returned although no relation between the waves exists (C58_fewer_unrelated, C58_fewer_wrong). np.linalg.pinv is any generalised inverse that does not raise. Circuits as in C30 (names without dots, inner circuits keep their port names)."
  },
  {
   "property": "C59",
   "status": "partial",
   "theorems": [
    "PyRFtk.GTLElem.C59_element",
    "PyRFtk.GTLElem.C59_accepted",
    "PyRFtk.GTLElem.C59_refused",
    "PyRFtk.GTLElem.C59_line_lost",
    "PyRFtk.GTLElem.C59_arc_never",
    "PyRFtk.GTLElem.C59_arc_all",
    "PyRFtk.GTLElem.C59_table_refused"
   ],
   "note": "Proved: which entries are accepted (C59_accepted), the element, its parameters in SI units and the position (C59_element), the exceptions (C59_refused). Violated: a line described with a surface resistance Rs becomes a lumped rfRLC and its other parameters are dropped (C59_line_lost); an entry never makes an arc, the constructor's arguments are tested instead of the entry's (C59_arc_never); tables [[positions],[values]], which rfTRL accepts, raise TypeError for parameters with a unit (C59_table_refused). Texts are taken as already substituted (C46). Conversely, with the single constructor argument Larc every entry without RLC keyword becomes an arc (C59_arc_all)."
  },
  {
   "property": "C60",
   "status": "partial",
   "theorems": [
    "PyRFtk.Circuit.C60_load_ignored",
    "PyRFtk.Circuit.C60_getSgtl",
    "PyRFtk.Circuit.C60_getS",
    "PyRFtk.Circuit.C60_circuit_needed",
    "PyRFtk.Circuit.C60_history",
    "PyRFtk.Circuit.C60_getSs",
    "PyRFtk.Circuit.C60_getSs_empty",
    "PyRFtk.Circuit.C60_solution",
    "PyRFtk.Circuit.C60_solution_circuit",
    "PyRFtk.Circuit.C60_switch"
   ],
   "note": "Proved: C60_getS, C60_getSgtl, C60_switch, C60_getSs, C60_solution, C60_solution_circuit, C60_history. Violated: the circuit must be evaluable for the file to answer (C60_circuit_needed, witness ExFile.C60_circuit_needed_witness); getS([]) raises IndexError (C60_getSs_empty). a load on a port is ignored by the file, whose matrix keeps all ports (C60_load_ignored, witness Ex.C60_load_ignored_witness). Zbase = 0 raises in the model (numpy: nan)."
  },
  {
   "property": "C61",
   "status": "partial",
   "theorems": [
    "PyRFtk.Circuit.C61_positions",
    "PyRFtk.Circuit.C61_getpos",
    "PyRFtk.Circuit.C61_portnames",
    "PyRFtk.Circuit.C61_deembed",
    "PyRFtk.Circuit.C61_deembed_new",
    "PyRFtk.Circuit.C61_replaced",
    "PyRFtk.Circuit.C61_resolve_xpos",
    "PyRFtk.Circuit.C61_resolve_xpos_error",
    "PyRFtk.Circuit.C61_getpos_nested",
    "PyRFtk.Circuit.C61_unknown_block",
    "PyRFtk.Circuit.ExPosNest.C61_renamed_nested"
   ],
   "note": "Proved for histories of addblock (new blocks), connect, terminate and evaluation without Portnames: C61_positions, C61_getpos; nested circuits: C61_getpos_nested. Violated: C61_portnames (the first evaluation with Portnames reorders the ports, not the positions), C61_deembed (the lists get different lengths), C61_deembed_new (shifted by one port), C61_replaced (a replaced block keeps the old positions), C61_renamed_nested (dotted renaming of the ports of a nested circuit), C61_unknown_block (getpos of a node that does not exist answers), C61_resolve_xpos (always raises for a block's port); witnesses in ExPos and ExPosNest. Hypothesis: an object does not move its ports when it is evaluated."
  },
  {
   "property": "C62",
   "status": "partial",
   "theorems": [
    "PyRFtk.RfObject.C62_stored",
    "PyRFtk.RfObject.C62_exact",
    "PyRFtk.RfObject.C62_rebase",
    "PyRFtk.RfObject.C62_stale_reference",
    "PyRFtk.RfObject.C62_stale_item",
    "PyRFtk.RfObject.C62_units",
    "PyRFtk.RfObject.C62_circuit_unit"
   ],
   "note": "Proved at the frequencies of the table: C62_stored, C62_exact, C62_rebase; units: C62_units. Violated: C62_stale_reference (interpolators made before convert2newZbase are kept: the old numbers are taken on the new reference), C62_stale_item (the same after obj[k] = ...), C62_circuit_unit (a circuit names no unit, so an object in MHz is read at the wrong frequency); witnesses in ExRef. A new reference of 0 is excluded (C06_zero_reference_collapses)."
  },
  {
   "property": "C63",
   "status": "partial",
   "theorems": [
    "PyRFtk.Circuit.C63_lawful",
    "PyRFtk.Circuit.C63_in_force",
    "PyRFtk.Circuit.C63_by_reference",
    "PyRFtk.Circuit.C63_network",
    "PyRFtk.Circuit.ExPar.C63_shared_example",
    "PyRFtk.Circuit.ExPar.C63_pinned_example",
    "PyRFtk.Circuit.ExPar.C63_stale_example",
    "PyRFtk.Circuit.C63_as_if_set",
    "PyRFtk.Circuit.C63_cached_ignored",
    "PyRFtk.Circuit.C63_silently_ignored",
    "PyRFtk.Circuit.C63_refused",
    "PyRFtk.Circuit.C63_stale_after_refusal",
    "PyRFtk.Circuit.C63_pinned_block",
    "PyRFtk.Circuit.C63_pinned",
    "PyRFtk.Circuit.C63_shared",
    "PyRFtk.Circuit.C63_consumed",
    "PyRFtk.Circuit.C63_replace_ignores_params",
    "PyRFtk.Circuit.C63_replace_after_eval"
   ],
   "note": "Proved: an object with its own dictionary answers the same before and after any evaluation (C63_lawful: all circuit theorems apply), computed from addblock's parameters over its own values (C63_in_force); when no non-empty dictionary is shared the circuit's answer is the scattering matrix of the network with these parameters (C63_network, for every built circuit); in general each block finds its dictionary as left by the blocks before it (C63_by_reference); getS(params=) on a re-evaluation is setting the parameters and then getS, and leaves the same state (C63_as_if_set); unknown names are refused (C63_refused). Violated by the code, proved: parameters are ignored when the matrix is cached (C63_cached_ignored) and silently for unknown blocks and data blocks (C63_silently_ignored); parameters given with addblock cannot be overridden by getS(params=) (C63_pinned); a dictionary shared by two RLC elements reaches only the first (C63_shared), dictionaries are emptied (C63_consumed); params are ignored when a block is replaced (C63_replace_ignores_params) and lost after an evaluation (C63_replace_after_eval); after a refusal earlier blocks keep the new values while the cached matrix of the old values is still handed out (C63_stale_after_refusal). Not modelled: nested circuits as blocks with params, one object used in two blocks."
  },
  {
   "property": "C64",
   "status": "partial",
   "theorems": [
    "PyRFtk.TSF.C64_default_names",
    "PyRFtk.TSF.C64_port_impedances",
    "PyRFtk.TSF.C64_one_port_refused",
    "PyRFtk.TSF.C64_comment_refused",
    "PyRFtk.TSF.C64_odd_refused",
    "PyRFtk.TSF.C64_all_or_none",
    "PyRFtk.TSF.C64_needs_gamma"
   ],
   "note": "Proved for every such file with N ports, in both forms: read exactly when the voltage waves exist, with exactly these matrices, impedances and propagation constants, independent of R (C64_port_impedances); for any source impedances come for all frequencies and ports or not at all (C64_all_or_none), and never without propagation constants (C64_needs_gamma, as found). Violated by the code, proved: a one-port with R in its option line, as HFSS writes it, is refused with TypeError (C64_one_port_refused); one ordinary comment after the data makes the whole file be refused (C64_comment_refused), and so does an odd number of numbers (C64_odd_refused). Not covered: files mixing the two forms, references given as a list."
  },
  {
   "property": "C65",
   "status": "partial",
   "theorems": [
    "PyRFtk.RfObject.C65_written",
    "PyRFtk.RfObject.C65_answers",
    "PyRFtk.RfObject.C65_hfss",
    "PyRFtk.RfObject.C65_positions_ignored",
    "PyRFtk.RfObject.C65_unknown_unit",
    "PyRFtk.RfObject.C65_names_unchecked",
    "PyRFtk.RfObject.C65_sortports_raises",
    "PyRFtk.RfObject.C65_configured_unit",
    "PyRFtk.RfObject.C65_configured_table",
    "PyRFtk.RfObject.C65_reread_stale",
    "PyRFtk.RfObject.C65_reread_unit"
   ],
   "note": "Proved: written files are accepted exactly when they can be expressed on the reference, and the object holds the written networks in every history (C65_written), with its answers in any unit on any reference (C65_answers); the same for files exported by HFSS, with impedances and propagation constants (C65_hfss). Violated by the code, proved: names are not counted (C65_names_unchecked), positions are ignored (C65_positions_ignored), ports of an ordinary file cannot be reordered (C65_sortports_raises), with another configured default unit frequencies are off by the unit (C65_configured_unit, C65_configured_table), a second file leaves the interpolators of the first (C65_reread_stale) and is read in GHz by default (C65_reread_unit)."
  },
  {
   "property": "C66",
   "status": "partial",
   "theorems": [
    "PyRFtk.RfObject.C66_RI_passive",
    "PyRFtk.RfObject.C66_not_passive",
    "PyRFtk.RfObject.C66_through_the_data",
    "PyRFtk.RfObject.C66_delay",
    "PyRFtk.RfObject.C66_dB",
    "PyRFtk.RfObject.C66_RI",
    "PyRFtk.RfObject.C66_single",
    "PyRFtk.RfObject.C66_array",
    "PyRFtk.RfObject.C66_entrywise",
    "PyRFtk.RfObject.C66_reciprocal",
    "PyRFtk.RfObject.C66_answers",
    "PyRFtk.RfObject.C66_dB_zero",
    "PyRFtk.RfObject.C66_kind_name"
   ],
   "note": "Proved: through the data (C66_through_the_data), exact for delays (C66_delay), exponentials (C66_dB) and straight lines (C66_RI), single frequency (C66_single), entrywise and reciprocal (C66_entrywise, C66_reciprocal), the answers of the object in every history (C66_answers), passivity for RI along straight lines (C66_RI_passive). Violated, proved: with the shipped MA lossless reciprocal data can interpolate to a matrix with a power gain of 2 (C66_not_passive), a zero entry leaves no finite answer in mode dB (C66_dB_zero), kinds given by name raise TypeError (C66_kind_name). An object made from an array answers with it at every frequency, in every mode (C66_array)."
  },
  {
   "property": "C67",
   "status": "partial",
   "theorems": [
    "PyRFtk.TRL.C67_through_the_data",
    "PyRFtk.TRL.C67_written",
    "PyRFtk.TRL.C67_port_count",
    "PyRFtk.TRL.C67_RI",
    "PyRFtk.TRL.C67_small_phases",
    "PyRFtk.TRL.C67_wrong_between",
    "PyRFtk.TRL.C67_set_length",
    "PyRFtk.TRL.C67_set_reference",
    "PyRFtk.TRL.C67_voltages"
   ],
   "note": "Proved: written files are accepted exactly when they can be expressed on the reference, and answered exactly at their frequencies on any reference (C67_written, C67_through_the_data); exact between them for straight lines (C67_RI) and small phases (C67_small_phases); L has no effect (C67_set_length). Violated, proved: the phase is unwrapped along the rows of the matrix instead of along the frequencies, so every delay line is answered with the opposite sign half way between two frequencies between which its phase passes the cut (C67_wrong_between); set(Zbase) changes the network (C67_set_reference); the voltage at the second port comes from the line parameters and not from the file (C67_voltages); the number of ports is not checked (C67_port_count)."
  },
  {
   "property": "C68",
   "status": "partial",
   "theorems": [
    "PyRFtk.Circuit.C68_lines_partial",
    "PyRFtk.Circuit.C68_reconnected_wrong",
    "PyRFtk.Circuit.C68_equations_are_laws",
    "PyRFtk.Circuit.C68_open_ports",
    "PyRFtk.Circuit.C68_array_raises",
    "PyRFtk.Circuit.C68_blocks"
   ],
   "note": "Proved: all equations can be listed, the coefficients shown are true, every line is complete except that of a port connected again later (C68_lines_partial); where no port was connected twice the equations shown are exactly the laws of the network (C68_equations_are_laws); open ports (C68_open_ports); blocks with positions (C68_blocks). Violated, proved: when a port made by connect is connected again, the line of its first equation always omits a non-zero coefficient (C68_reconnected_wrong), because connect overwrites its entry; a circuit with a block given as an array cannot be listed: TypeError (C68_array_raises)."
  },
  {
   "property": "C69",
   "status": "partial",
   "theorems": [
    "PyRFtk.Circuit.C69_circuit_history_partial",
    "PyRFtk.Circuit.C69_circuit_copies",
    "PyRFtk.Circuit.C69_circuit_corrupted",
    "PyRFtk.Circuit.C69_circuit_released",
    "PyRFtk.TRL.C69_line_getS",
    "PyRFtk.TRL.C69_line_positions_corrupted",
    "PyRFtk.TRL.C69_line_positions_own",
    "PyRFtk.RfBase.C69_rfBase_corrupted"
   ],
   "note": "Proved over a memory model of circuits: any history in which the array the circuit keeps is left alone gives exactly the answers of a circuit whose matrices cannot be changed (C69_circuit_history_partial); arrays got for a list of frequencies or on another reference are never kept (C69_circuit_copies), arrays got on the own reference are released by the next evaluation at another frequency (C69_circuit_released); rfTRL.getS never uses what it kept (C69_line_getS), nor do VISWs/maxV without Zbase (C69_line_positions_own). Violated, proved for every instance: a circuit's matrix on its own reference is the stored one, after an assignment the same question is answered with the changed matrix (C69_circuit_corrupted); the positions of VISWs/maxV with Zbase (C69_line_positions_corrupted); the stored data of rfBase (C69_rfBase_corrupted). Not modelled with a memory: rfObject.getS (np.array copies), RLC, coupler and arc objects (computed anew at each call)."
  },
  {
   "property": "C70",
   "status": "partial",
   "theorems": [
    "PyRFtk.Circuit.C70_addblock_reads_partial",
    "PyRFtk.Circuit.C70_addblock_dict_emptied",
    "PyRFtk.Circuit.C70_second_block",
    "PyRFtk.Circuit.C70_dict_twice",
    "PyRFtk.Circuit.C70_shared_portnames",
    "PyRFtk.RfObject.C70_deembed_dict_emptied",
    "PyRFtk.RfObject.C70_deembed_dict_twice"
   ],
   "note": "Proved: lists, formats and absent `ports` of addblock, and dictionaries when a block is replaced, are left alone (C70_addblock_reads_partial). Violated, proved for every instance: an accepted addblock empties its dictionary (C70_addblock_dict_emptied), a second block with it is made as if no ports had been given (C70_second_block), so two blocks of the same object and renaming dictionary differ (C70_dict_twice); the same for rfObject.deembed, whose second use silently does nothing (C70_deembed_dict_emptied, C70_deembed_dict_twice); two evaluated circuits made with the same Portnames list: a load attached in one removes the port from the caller's list and from the other circuit, which then answers the matrix of the remaining ports (C70_shared_portnames). Not modelled: `ports=` of the rfCircuit constructor (extended in place by addblock), nested dictionaries of deembed (refused with TypeError, C37)."
  },
  {
   "property": "C71",
   "status": "partial",
   "theorems": [
    "PyRFtk.Circuit.Old.C71_internal_same",
    "PyRFtk.Circuit.Old.C71_internal_order",
    "PyRFtk.Circuit.Old.C71_internal_refused",
    "PyRFtk.Circuit.Old.C71_maxV_same",
    "PyRFtk.Circuit.Old.C71_maxV_answers",
    "PyRFtk.Circuit.Old.C71_maxV_missing",
    "PyRFtk.Circuit.Old.C71_same_answers",
    "PyRFtk.Circuit.Old.C71_solution_shallow",
    "PyRFtk.Circuit.Old.C71_constructor",
    "PyRFtk.Circuit.Old.C71_connect_stale",
    "PyRFtk.Circuit.Old.C71_terminate_stale",
    "PyRFtk.Circuit.Old.C71_terminate_fatal",
    "PyRFtk.Circuit.Old.C71_unknown_keyword",
    "PyRFtk.Circuit.Old.C71_terminate_twice",
    "PyRFtk.Circuit.Old.C71_connect_used",
    "PyRFtk.Circuit.Old.C71_connect_misspelt",
    "PyRFtk.Circuit.Old.C71_set_never"
   ],
   "note": "Proved by simulation for every list of calls that builds the circuit first and then evaluates, solves and replaces objects any number of times, with at least one free port: all answers are equal, matrices, solutions and the tables of Solution(nodes=[...]) with the descent into the blocks, exceptions included (C71_same_answers). Violated outside that, proved for every instance: after an evaluation connect and terminate keep the stored matrix, which is answered again with one port too many (C71_connect_stale, C71_terminate_stale), and every evaluation at another frequency then fails for good (C71_terminate_fatal); a misspelt keyword of terminate is a matched load (C71_unknown_keyword); a load cannot be changed (C71_terminate_twice); a misspelt port name of connect becomes a new port (C71_connect_misspelt); set never reaches a block (C71_set_never); Solution with nodes=None, the default, never looks into the blocks (C71_solution_shallow); the constructor needs np.complex and a calling function (C71_constructor). After any such list of calls maxV finds the same maximum and place whenever rfCircuit answers (C71_maxV_same), and answers where rfCircuit refuses for a lost position (C71_maxV_answers); ports without excitation are refused alike (C71_maxV_missing); Get_internalSmatrix gives the same answer or exception for as many nodes as ports when the first evaluation does not reorder the ports (C71_internal_same, C71_internal_order); violated otherwise: LinAlgError for fewer nodes, and for every circuit not yet evaluated whose Portnames begin with another port, because the first excitation is read in the old order of the ports and used in the new one (C71_internal_refused). Not modelled: circuits without free ports, the table of voltages of maxV, dotted block names and the sNp option of the legacy class. C71_connect_used: naming in connect a node that is known but no longer free is refused with an error."
  },
  {
   "property": "C72",
   "status": "partial",
   "theorems": [
    "PyRFtk.TSF.C72_variables",
    "PyRFtk.TSF.C72_heading",
    "PyRFtk.TSF.C72_no_banner",
    "PyRFtk.TSF.C72_unclosed_table",
    "PyRFtk.TSF.C72_annotations",
    "PyRFtk.TSF.C72_bad_annotation",
    "PyRFtk.TSF.C72_numbering_needs_shape",
    "PyRFtk.TSF.C72_only_header"
   ],
   "note": "Proved for every file with data that is read: C72_annotations (all five kinds, first occurrence of the tag in a comment, last comment wins, absent means absent), C72_only_header, C72_variables (all tables closed before the data; dictionary semantics), C72_no_banner (no variables unless the very first comment is the HFSS banner). Violated, proved for every instance: a !SHAPE with fewer than two whole numbers or !MARKERS with a non-number makes the file unreadable (C72_bad_annotation; tuple.append for one number), !NUMBERING without an earlier !SHAPE does too (C72_numbering_needs_shape), and a table that is not closed goes on into the comments in and after the data (C72_unclosed_table). The patterns' character classes are ASCII."
  },
  {
   "property": "C73",
   "status": "partial",
   "theorems": [
    "PyRFtk.RfObject.Eqv.C73_equal_sound",
    "PyRFtk.RfObject.Eqv.C73_fresh_iff",
    "PyRFtk.RfObject.Eqv.C73_copy",
    "PyRFtk.RfObject.Eqv.C73_separate",
    "PyRFtk.RfObject.Eqv.C73_other_words",
    "PyRFtk.RfObject.Eqv.C73_evaluated_raises",
    "PyRFtk.RfObject.Eqv.C73_array_raises",
    "PyRFtk.RfObject.Eqv.C73_array_copy",
    "PyRFtk.RfObject.Eqv.C73_ports_raise",
    "PyRFtk.RfObject.Eqv.C73_new_numpy",
    "PyRFtk.RfObject.Eqv.C73_impedances_raise",
    "PyRFtk.RfObject.Eqv.C73_none_raises",
    "PyRFtk.RfObject.Eqv.C73_interpolated_copy",
    "PyRFtk.RfObject.Eqv.C73_pickled",
    "PyRFtk.RfObject.Eqv.C73_pickled_ready",
    "PyRFtk.RfObject.Eqv.C73_single_values",
    "PyRFtk.RfObject.Eqv.C73_one_port",
    "PyRFtk.RfObject.Eqv.C73_asymmetric",
    "PyRFtk.RfObject.Eqv.C73_small_entries"
   ],
   "note": "Proved: an answer True means the same settings and close data, for all histories and numpy versions (C73_equal_sound); for objects that were never evaluated, made without an array and without port impedances, numpy before 2.2, the comparison always answers and True is exactly same settings, keyword arguments and close data (C73_fresh_iff); their copies are equal (C73_copy). Violated, proved for every instance: separately made objects differ by their identifiers (C73_separate) or by the words of their keyword arguments (C73_other_words); once one of the objects was evaluated every comparison raises ValueError, even with itself (C73_evaluated_raises), the same for objects made from arrays (C73_array_raises, C73_array_copy), with port impedances (C73_impedances_raise), with another number of ports (C73_ports_raise), and always with numpy 2.2 (C73_new_numpy); None raises AttributeError (C73_none_raises); a copy with interpolators (C73_interpolated_copy) and a pickled object (C73_pickled) are never equal; not symmetric (C73_asymmetric); all entries below 1e-8 count as 0 (C73_small_entries). Attribute values are modelled as plain values, arrays, objects compared by identity, tuples and dictionaries; Ss has as many matrices as fs frequencies (C35). Equal objects have as many positional arguments and equal single-number arrays (C73_single_values); a one-port compared with a multi-port answers (C73_one_port); a pickled object with ready interpolators is never equal (C73_pickled_ready)."
  },
  {
   "property": "C74",
   "status": "partial",
   "theorems": [
    "PyRFtk.Circuit.Ctor.C74_ports_unusable",
    "PyRFtk.Circuit.Ctor.C74_refused_terminate",
    "PyRFtk.Circuit.Ctor.C74_given_first",
    "PyRFtk.Circuit.Ctor.C74_xpos_only",
    "PyRFtk.Circuit.Ctor.C74_one_list"
   ],
   "note": "Violated, proved for every instance: with at least one port given, whatever accepted calls follow, every evaluation raises, the first and all later ones (C74_ports_unusable: one equation too many for each port given; a connect to the announced name adds the name a second time); only terminating the given ports, which raises UnboundLocalError each time, brings back the ordinary circuit (C74_refused_terminate); the positions given stand before the circuit's own, so they are reported for other ports (C74_given_first); the caller's list is the circuit's own, so one list, even an empty one, used for two circuits makes the second unusable (C74_one_list). Proved: xpos alone changes no call and no evaluation, only the number of positions (C74_xpos_only). Missing: calls between evaluations and refused calls on a circuit with given ports; Ss=, fs= and sNp= of the constructor (stored or, sNp, read from a misspelt keyword, and never used)."
  },
  {
   "property": "C75",
   "status": "partial",
   "theorems": [
    "PyRFtk.Compare.C75_figure",
    "PyRFtk.Compare.C75_one_axis",
    "PyRFtk.Compare.C75_one_set",
    "PyRFtk.Compare.C75_all_sets",
    "PyRFtk.Compare.C75_seventh_lost",
    "PyRFtk.Compare.C75_visible",
    "PyRFtk.Compare.C75_refused",
    "PyRFtk.Compare.C75_single_unchecked",
    "PyRFtk.Compare.C75_plain_list",
    "PyRFtk.Compare.C75_length_refused",
    "PyRFtk.Compare.C75_empty_refused"
   ],
   "note": "Proved: the figure of compatible sets (C75_figure: every place of the N x (N+1) grid used exactly once, moduli on and below the diagonal, phases above, each titled with the entry it shows, one curve for each set with a style and a label), one axis for all sets (C75_one_axis), a single array (C75_one_set), refusal of sets that do not fit (C75_refused, C75_length_refused), all sets shown when there are enough styles (C75_all_sets). Violated: with the default styles the seventh and later sets are dropped silently (C75_seventh_lost); two arguments give the same figure iff they agree on and below the diagonal (C75_visible: nothing above the diagonal is ever shown, so a non-reciprocal difference is invisible); a single array is not checked to be square (C75_single_unchecked); frequencies as a plain list of numbers are refused or raise TypeError (C75_plain_list). Missing: arrays with more than three axes, matplotlib itself."
  },
  {
   "property": "C76",
   "status": "partial",
   "theorems": [
    "PyRFtk.PrintM.C76_layout",
    "PyRFtk.PrintM.C76_columns",
    "PyRFtk.PrintM.C76_widths",
    "PyRFtk.PrintM.C76_zero_dB",
    "PyRFtk.PrintM.C76_accurate",
    "PyRFtk.PrintM.C76_all_written",
    "PyRFtk.PrintM.C76_small_lost",
    "PyRFtk.PrintM.C76_not_matrix"
   ],
   "note": "Proved: the lines (C76_layout), the columns (C76_columns) when all texts of a row have one width, which holds for the four formats for entries in range (C76_widths), correct rounding of every number written (C76_accurate, from the digits of the text back to the value, error at most half a unit of the last digit), everything written without a symbol (C76_all_written), anything but a matrix refused (C76_not_matrix). Violated: an entry below 1e-7 is written as zero whatever the digits of the format (C76_small_lost). Missing: formats of the caller are a parameter (any function from entries to texts), floating-point of abs, angle and log10. A zero entry of printDB is -inf in the same width (C76_zero_dB)."
  },
  {
   "property": "C77",
   "status": "partial",
   "theorems": [
    "PyRFtk.Circuit.C77_table",
    "PyRFtk.Circuit.C77_maximum",
    "PyRFtk.Circuit.C77_proportional",
    "PyRFtk.Circuit.C77_nested",
    "PyRFtk.Circuit.C77_line_positions",
    "PyRFtk.Circuit.C77_lumped_positions",
    "PyRFtk.Circuit.C77_one_port_refused",
    "PyRFtk.Circuit.C77_scaled_entries",
    "PyRFtk.Circuit.C77_scaleVSW",
    "PyRFtk.Circuit.C77_numbers_refused",
    "PyRFtk.Circuit.C77_ports_agree",
    "PyRFtk.Circuit.C77_answers"
   ],
   "note": "Proved: C77_table (nodes, blocks, nothing else, place of the maximum), C77_maximum, C77_proportional and C77_nested (both inherited at every depth), C77_line_positions, C77_scaleVSW, C77_ports_agree, C77_answers. Violated: a node made by connect under the name of a block is replaced by the block's table (second clause of C77_table); lumped elements stand with both ports at the first port's position (C77_lumped_positions); blocks with rfBase's maxV put plain numbers in the table, which scaleVSW then refuses (C77_numbers_refused); a one-port block with a pair of different positions makes maxV raise (C77_one_port_refused). Missing: that a block's maxV may change the block object. What scaleVSW makes of the table, entry by entry: C77_scaled_entries."
  },
  {
   "property": "C78",
   "status": "partial",
   "theorems": [
    "PyRFtk.StrVSW.C78_reads",
    "PyRFtk.StrVSW.C78_accurate",
    "PyRFtk.StrVSW.C78_side_lost",
    "PyRFtk.StrVSW.C78_raises",
    "PyRFtk.StrVSW.C78_length_wrong",
    "PyRFtk.StrVSW.C78_other"
   ],
   "note": "Proved: the text determines, and is determined by, keys, structure, distances of positions from zero and moduli, all in thousandths (C78_reads, C78_accurate); exactly when it raises (C78_raises). Violated: the side of zero of every position is lost, for every table (C78_side_lost: np.abs of the position); for sequences of different lengths the message shows the number of positions twice (C78_length_wrong); numbers, which blocks with rfBase's maxV put in the table, are not shown (C78_other); a pair of numbers without position raises TypeError (C78_raises). Keys are texts; positions are real or None; an empty pair of sequences and an empty dictionary have the same text (excluded by WfF)."
  },
  {
   "property": "C79",
   "status": "partial",
   "theorems": [
    "PyRFtk.Circuit.C79_copy",
    "PyRFtk.Circuit.C79_file_needed",
    "PyRFtk.Circuit.C79_nested",
    "PyRFtk.Circuit.C79_copy_terminate"
   ],
   "note": "Proved: the copy gets the same replies as the original for every list of calls that ask, replace an element or change a load, after every such history (C79_copy, witness C79_copy_witness); the file has no effect on the copy once it can be read (C79_file_needed). Violated: a copy needs the model file: it raises if the file is gone or cannot be used any more, alone or inside a circuit (C79_file_needed, C79_nested); loading a declared port of a copy breaks it for good (C79_copy_terminate, as C31). The new object that is thrown away is not otherwise visible; reading the file is a function of what is at the path (GTLVars, GTLElem); calls that connect further elements are not in the lists."
  },
  {
   "property": "C80",
   "status": "proved",
   "theorems": [
    "PyRFtk.Circuit.C80_parts_lawful",
    "PyRFtk.Circuit.C80_physics",
    "PyRFtk.Circuit.C80_split",
    "PyRFtk.Circuit.C80_answers",
    "PyRFtk.Circuit.C80_split_answers",
    "PyRFtk.Circuit.C80_passive",
    "PyRFtk.Circuit.C80_lossless",
    "PyRFtk.Circuit.C80_reciprocal",
    "PyRFtk.Circuit.C80_any_depth",
    "PyRFtk.Circuit.C80_any_depth_answers",
    "PyRFtk.Circuit.C80_any_depth_passive",
    "PyRFtk.Circuit.C80_any_depth_lossless",
    "PyRFtk.Circuit.C80_any_depth_reciprocal"
   ],
   "note": "The object models of C10-C16 and C34 are put into the circuit model of C20: they have all that the theorems on circuits ask (C80_parts_lawful); C80_physics gives both directions; C80_answers says when such a circuit answers; C80_split: a chain of sections has the matrix of the whole line; C80_split_answers: it answers when the line and the sections do; C80_passive, C80_lossless, C80_reciprocal on every reference. Witnesses ExParts.C80_witness (a line of length 3 cut into 1 and 2), ExParts.C80_power_witness. Circuits used as objects: C80_any_depth, C80_any_depth_answers, C80_any_depth_passive, C80_any_depth_lossless, C80_any_depth_reciprocal for circuits of circuits to any depth; the law of a nested circuit is that voltages and currents inside it exist that obey its physics (witness ExNest.C80_nest_witness). Hypotheses (Part.Proper): the line is uniform or its integrator exact, its own reference is not 0; lumped elements are asked at a frequency other than 0; circuits with Portnames that were reloaded are excluded as in C20. Real references only; couplers enter through their get1S."
  },
  {
   "property": "C81",
   "status": "proved",
   "theorems": [
    "PyRFtk.Coupler.C81_coupled_lines",
    "PyRFtk.Coupler.C81_answers",
    "PyRFtk.Coupler.C81_constructor",
    "PyRFtk.Coupler.C81_in_circuits"
   ],
   "note": "C81_coupled_lines (both directions, any reference), C81_answers (when it answers), C81_constructor (what the constructor's arguments mean), C81_in_circuits (in the circuits of C80 the coupler's law is that of the strips). Witness C81_witness (the default coupler). The specification Coupled is the pair of coupled telegrapher equations, Strips gives inductance and capacitance per metre. Frequencies are Python floats (numpy zeros give inf and not ZeroDivisionError)."
  },
  {
   "property": "C82",
   "status": "proved",
   "theorems": [
    "PyRFtk.Circuit.C82_any_depth",
    "PyRFtk.Circuit.C82_parts_any_depth",
    "PyRFtk.Circuit.C82_dissipation_any_depth",
    "PyRFtk.Circuit.C82_solution",
    "PyRFtk.Circuit.C82_power_balance",
    "PyRFtk.Circuit.C82_efficiency"
   ],
   "note": "C82_solution (the reported table is the physical state; uniqueness), C82_any_depth (the nodes inside nested circuits, reported as block.node, are in the same state, unique at all levels; witness ExDeep.C82_any_depth_witness), C82_parts_any_depth (the reported values at the ports of every elementary part and load at every depth obey its law; the power reported into the circuit is the sum of what is reported into all of them), C82_dissipation_any_depth (signs and bounds at every depth; witness ExDeep.C82_parts_witness), C82_power_balance (complex power), C82_efficiency (signs and bound). Witness C82_witness. Power statements are for circuits without deembedding (Net.Plain). The hypothesis hord is that of C30 (port order given at construction, see C30's finding)."
  },
  {
   "property": "C83",
   "status": "partial",
   "theorems": [
    "PyRFtk.TRL.C83_line_partial",
    "PyRFtk.TRL.C83_step_partial",
    "PyRFtk.TRL.C83_step_violation",
    "PyRFtk.TRL.C83_nonuniform_violation",
    "PyRFtk.TRL.C83_total",
    "PyRFtk.Circuit.C83_circuit_partial"
   ],
   "note": "C83_line_partial (dx points per wavelength, both directions), C83_step_partial (step in metres of either sign), C83_circuit_partial (circuits), C83_total (maxV answers). Violated part, proved: C83_step_violation (on every line longer than the step asked for, all steps are longer than that: the number of steps is used as the number of nodes; so the bound is with the step doubled), C83_nonuniform_violation (on non-uniform lines with parameters proportional to the frequency the steps are 2 pi times too long: the wavelength is computed with f in the place of the angular frequency). Not covered: lines with a negative imaginary part of (r+jwL)(g+jwC) (negative frequency), where only the ends are looked at; the value inside non-uniform lines. Witnesses Ex.C83_witness, ExMax.C83_circuit_witness."
  },
  {
   "property": "C84",
   "status": "partial",
   "theorems": [
    "PyRFtk.RfObject.C84_loop",
    "PyRFtk.RfObject.C84_list",
    "PyRFtk.RfObject.C84_item",
    "PyRFtk.RfObject.C84_loop_evaluating",
    "PyRFtk.RfObject.C84_len_violation",
    "PyRFtk.RfObject.C84_reversed_violation",
    "PyRFtk.RfObject.C84_assign",
    "PyRFtk.RfObject.C84_assign_accepted",
    "PyRFtk.RfObject.C84_assign_not_atomic",
    "PyRFtk.RfObject.C84_assign_any",
    "PyRFtk.RfObject.C84_assign_scalar",
    "PyRFtk.RfObject.C84_view_violation",
    "PyRFtk.RfObject.C84_view_released",
    "PyRFtk.RfObject.Ex.C84_loop_violation"
   ],
   "note": "Proved: C84_list, C84_item, C84_loop (bodies that keep or extend the samples), C84_loop_evaluating (any evaluations inside the loop, samples in order), C84_assign, C84_assign_accepted, C84_assign_any (what a value of any shape becomes, against the broadcasting rule), C84_assign_scalar, C84_view_released. Violated, proved: C84_len_violation (len is the number of ports), C84_reversed_violation (reversed begins at the sample numbered by the number of ports, or gives nothing), C84_assign_not_atomic (a refused assignment leaves its frequency with the old matrix), C84_loop_violation (evaluating inside a loop over data out of order: one sample seen twice, another never), C84_view_violation (matrices handed out are views of the stored data). Not covered: slices. Witnesses Ex.C84_witness, C84_len_witness, C84_assign_witness, C84_view_witness."
  },
  {
   "property": "C85",
   "status": "partial",
   "theorems": [
    "PyRFtk.Circuit.C85_circuit",
    "PyRFtk.Circuit.C85_circuit_physics",
    "PyRFtk.Circuit.C85_order",
    "PyRFtk.Circuit.C85_pieces",
    "PyRFtk.Circuit.C85_reload_violation",
    "PyRFtk.Circuit.C85_any_depth",
    "PyRFtk.TRL.C85_line",
    "PyRFtk.RLC.C85_rlc",
    "PyRFtk.RfObject.C85_rfObject",
    "PyRFtk.RfBase.C85_rfBase"
   ],
   "note": "Proved: C85_circuit, C85_circuit_physics, C85_order, C85_pieces, C85_any_depth, C85_line, C85_rlc, C85_rfObject, C85_rfBase (success and values; which of several errors is raised may differ). Violated, proved: C85_reload_violation (after a load of an evaluated circuit was changed, a sweep beginning at the frequency last evaluated returns the old matrix there, a sweep visiting another frequency first returns the new one). Conditions: the circuit has a free port; nonempty list for lines, rfObject and rfBase (rfObject.getS([]) raises UnboundLocalError, C34_rfObject_empty). Witnesses ExSweep.C85_sweep_witness, ExSweep.C85_reload_witness."
  },
  {
   "property": "C86",
   "status": "proved",
   "theorems": [
    "PyRFtk.Circuit.C86_chain",
    "PyRFtk.Circuit.C86_matched",
    "PyRFtk.Circuit.C86_answers",
    "PyRFtk.Circuit.C86_pair"
   ],
   "note": "C86_chain (the T-matrix of the answer is the product), C86_matched, C86_answers (answers exactly when the (2,2) entry of the product is nonzero), C86_pair (two blocks, any S). Stated at the circuit's own reference with the chain as the whole circuit, no load changed after an evaluation (see C12 for that); another reference is C01/C25. Witness ExChain.C86_witness (three blocks)."
  },
  {
   "property": "C87",
   "status": "proved",
   "theorems": [
    "PyRFtk.Circuit.C87_load",
    "PyRFtk.Circuit.C87_join"
   ],
   "note": "C87_load, C87_join: both the formula and the exact condition for an answer; entries are named by port, so the order of the ports does not matter. On the circuit's own reference (another reference: C01/C25), while no load is changed after an evaluation (that history is C12). Witnesses ExLoaded.C87_load_witness (100 Ohm at a three-port, entry 3/11), ExLoaded.C87_join_witness (entry 1/2)."
  },
  {
   "property": "C88",
   "status": "proved",
   "theorems": [
    "PyRFtk.Circuit.C88_line",
    "PyRFtk.Circuit.C88_rlc",
    "PyRFtk.Circuit.C88_cascade",
    "PyRFtk.Circuit.C88_input",
    "PyRFtk.Circuit.C88_loaded_line",
    "PyRFtk.Circuit.C88_parallel",
    "PyRFtk.Circuit.C88_series"
   ],
   "note": "C88_line, C88_rlc (series arm conducting, shunt arm no short circuit, f nonzero), C88_cascade (exactly if), C88_input, C88_loaded_line, C88_parallel, C88_series. The lines are real-number models whose ODE is solved exactly (see C11); nonuniform lines enter C88_cascade through any chain matrix they have. Real nonzero references, no load changed after an evaluation. Witnesses ExCascade.C88_witness, ExCascade.C88_input_witness."
  },
  {
   "property": "C89",
   "status": "proved",
   "theorems": [
    "PyRFtk.Circuit.C89_scale",
    "PyRFtk.Circuit.C89_scale_answers",
    "PyRFtk.Circuit.C89_conj",
    "PyRFtk.Circuit.C89_conj_answers",
    "PyRFtk.Circuit.C89_exchange"
   ],
   "note": "C89_scale, C89_scale_answers, C89_conj, C89_conj_answers, C89_exchange. Entries are named by port. Lines: uniform, or with an exact integrator (as C10); lumped elements at f not 0; real nonzero references; no load changed after an evaluation. Witnesses ExScale.C89_scale_witness, ExScale.C89_conj_witness."
  },
  {
   "property": "C90",
   "status": "proved",
   "theorems": [
    "PyRFtk.Circuit.C90_resonance",
    "PyRFtk.Circuit.C90_error",
    "PyRFtk.Circuit.C90_reference",
    "PyRFtk.Circuit.C90_lossy",
    "PyRFtk.Circuit.C90_uniform"
   ],
   "note": "C90_resonance, C90_error, C90_reference, C90_lossy, C90_uniform. Circuits built without deembedding; the circuit has a free port and, if it asks for a port order, names all free ports. Lines: uniform, or with an exact integrator (as C10); C90_uniform asks nothing of the objects' own answers but uniform lines with a usable grid. Exact arithmetic: a matrix close to singular is not singular. Witnesses ExRes.C90_lossy_witness, ExRes.C90_uniform_witness, ExRes.C90_resonance_witness (a through connection whose two ports are joined to each other)."
  },
  {
   "property": "C91",
   "status": "proved",
   "theorems": [
    "PyRFtk.Circuit.C91_table",
    "PyRFtk.Circuit.C91_rlc",
    "PyRFtk.Circuit.C91_line",
    "PyRFtk.Circuit.C91_continuous",
    "PyRFtk.Circuit.C91_band",
    "PyRFtk.Circuit.C91_solution"
   ],
   "note": "C91_line, C91_rlc, C91_table (the objects), C91_continuous (circuits of any depth), C91_band (a band of frequencies), C91_solution (Solution, for circuits as in C30). Lines of uniform parameters; a circuit inside with an order of ports names its free ports; the circuit has a free port. Exact arithmetic. Witness ExCont.C91_witness (the loaded line with losses of C90, at every frequency and on every positive reference)."
  },
  {
   "property": "C92",
   "status": "partial",
   "theorems": [
    "PyRFtk.Log.C92_flags",
    "PyRFtk.Log.C92_aliases",
    "PyRFtk.Log.C92_set",
    "PyRFtk.Log.C92_change_record",
    "PyRFtk.Log.C92_silent",
    "PyRFtk.Log.C92_low_level",
    "PyRFtk.Log.C92_depth",
    "PyRFtk.Log.C92_drift",
    "PyRFtk.Log.C92_layout"
   ],
   "note": "C92_flags, C92_set, C92_silent, C92_depth for every session and call tree. Violated by the code, proved: logit['WARN'] and logit['FATAL'] stay True for ever (C92_aliases); the record of a change names the root logger's level as the old one (C92_change_record); after setLogLevel with a number below 10 (not 0) every library call raises KeyError (C92_low_level); functions left by an exception shift the depth for the rest of the session (C92_drift). logging.disable is not used; the formatting of arguments is not modelled. Witness C92_witness."
  },
  {
   "property": "C93",
   "status": "partial",
   "theorems": [
    "PyRFtk.Misc.C93_value",
    "PyRFtk.Misc.C93_raises",
    "PyRFtk.Misc.C93_hidden",
    "PyRFtk.Misc.C93_string"
   ],
   "note": "C93_value, C93_raises, C93_string: proved for every file system. Violated as found, proved: a match that cannot be read, such as a directory with the name, hides every other match (C93_hidden). ast.literal_eval is a parameter. Witness C93_witness."
  },
  {
   "property": "C94",
   "status": "partial",
   "theorems": [
    "PyRFtk.Misc.C94_toc",
    "PyRFtk.Misc.C94_nested",
    "PyRFtk.Misc.C94_zero",
    "PyRFtk.Misc.C94_pure"
   ],
   "note": "C94_toc, C94_nested, C94_pure for every session, with exact times. Violated, proved: toc(0) is taken as toc() (C94_zero). Witness C94_witness."
  },
  {
   "property": "C95",
   "status": "partial",
   "theorems": [
    "PyRFtk.RfObject.C95_recorded",
    "PyRFtk.RfObject.C95_answers",
    "PyRFtk.RfObject.C95_succeeds",
    "PyRFtk.RfObject.C95_back",
    "PyRFtk.RfObject.C95_passive",
    "PyRFtk.RfObject.C95_admittance_raises"
   ],
   "note": "C95_recorded, C95_answers, C95_back, C95_succeeds, C95_passive: proved for every history. Violated for admittances, proved: rfObject.S_from_Y always raises TypeError (C95_admittance_raises). Witness C95_witness."
  }
 ]
}