{
 "claims": [
  {
   "property": "C01",
   "status": "proved",
   "theorems": [
    "Qtc.C01_odd_size_accepted",
    "Qtc.C01_even_size_rejected",
    "Qtc.C01_every_documented_size_asks",
    "Qtc.C01_any_length"
   ],
   "note": ""
  },
  {
   "property": "C02",
   "status": "partial",
   "theorems": [
    "Qtc.C02_accepted_size_real_fails",
    "Qtc.C02_accepted_size_real_partial"
   ],
   "note": "False of the code as stated: negative odd sizes are accepted (negation proved with witness d=-3). Proved for non-negative sizes."
  },
  {
   "property": "C03",
   "status": "proved",
   "theorems": [
    "Qtc.C03_one_logical_qubit"
   ],
   "note": ""
  },
  {
   "property": "C04",
   "status": "proved",
   "theorems": [
    "Qtc.C04_x_plaquettes_in_range",
    "Qtc.C04_z_plaquettes_in_range"
   ],
   "note": ""
  },
  {
   "property": "C05",
   "status": "proved",
   "theorems": [
    "Qtc.C05_x_coordinates",
    "Qtc.C05_z_coordinates"
   ],
   "note": ""
  },
  {
   "property": "C06",
   "status": "proved",
   "theorems": [
    "Qtc.C06_z_coverage",
    "Qtc.C06_x_coverage"
   ],
   "note": ""
  },
  {
   "property": "C07",
   "status": "proved",
   "theorems": [
    "Qtc.C07_stabilizers_commute"
   ],
   "note": ""
  },
  {
   "property": "C08",
   "status": "proved",
   "theorems": [
    "Qtc.C08_logical_operators"
   ],
   "note": ""
  },
  {
   "property": "C09",
   "status": "proved",
   "theorems": [
    "Qtc.C09_x_distance",
    "Qtc.C09_z_distance",
    "Qtc.C09_attained"
   ],
   "note": ""
  },
  {
   "property": "C10",
   "status": "proved",
   "theorems": [
    "Qtc.C10_z_independent",
    "Qtc.C10_x_independent"
   ],
   "note": ""
  },
  {
   "property": "C11",
   "status": "proved",
   "theorems": [
    "Qtc.C11_no_lattice_error",
    "Qtc.C11_all_sizes"
   ],
   "note": ""
  },
  {
   "property": "C12",
   "status": "proved",
   "theorems": [
    "Qtc.C12_default",
    "Qtc.C12_number",
    "Qtc.C12_pair",
    "Qtc.C12_other"
   ],
   "note": ""
  },
  {
   "property": "C13",
   "status": "proved",
   "theorems": [
    "Qtc.C13_idempotent",
    "Qtc.C13_decoder_then_encoder"
   ],
   "note": ""
  },
  {
   "property": "C14",
   "status": "proved",
   "theorems": [
    "Qtc.C14_bit_flip",
    "Qtc.C14_phase_flip"
   ],
   "note": ""
  },
  {
   "property": "C15",
   "status": "proved",
   "theorems": [
    "Qtc.C15_parse_is_changes"
   ],
   "note": ""
  },
  {
   "property": "C16",
   "status": "proved",
   "theorems": [
    "Qtc.C16_no_leak"
   ],
   "note": ""
  },
  {
   "property": "C17",
   "status": "proved",
   "theorems": [
    "Qtc.C17_hits_distinct",
    "Qtc.C17_hits_are_graph_nodes"
   ],
   "note": ""
  },
  {
   "property": "C18",
   "status": "proved",
   "theorems": [
    "Qtc.C18_bad_logical",
    "Qtc.C18_bad_round",
    "Qtc.C18_bad_lattice_readout"
   ],
   "note": ""
  },
  {
   "property": "C19",
   "status": "proved",
   "theorems": [
    "Qtc.C19_z_lattice_readout",
    "Qtc.C19_final_time"
   ],
   "note": ""
  },
  {
   "property": "C20",
   "status": "partial",
   "theorems": [
    "Qtc.C20_x_lattice_readout_fails",
    "Qtc.C20_x_lattice_readout_partial"
   ],
   "note": "False of the code: line 279 of rotated_surface.py reads a missing attribute, so every X lattice readout raises. Negation proved; the plaquette part of the claim proved."
  },
  {
   "property": "C21",
   "status": "proved",
   "theorems": [
    "Qtc.C21_missing",
    "Qtc.C21_repetition_missing_T",
    "Qtc.C21_bad_size",
    "Qtc.C21_bad_number",
    "Qtc.C21_float_size",
    "Qtc.C21_surface_built",
    "Qtc.C21_repetition_built"
   ],
   "note": "Construction succeeds when the recursion limit exceeds the number of nodes of a time step."
  },
  {
   "property": "C22",
   "status": "proved",
   "theorems": [
    "Qtc.C22_nodes"
   ],
   "note": ""
  },
  {
   "property": "C23",
   "status": "proved",
   "theorems": [
    "Qtc.C23_edges",
    "Qtc.C23_data_qubit_edge",
    "Qtc.C23_faults_distinct"
   ],
   "note": ""
  },
  {
   "property": "C24",
   "status": "proved",
   "theorems": [
    "Qtc.C24_terminates",
    "Qtc.C24_slice_size"
   ],
   "note": ""
  },
  {
   "property": "C25",
   "status": "proved",
   "theorems": [
    "Qtc.C25_connected"
   ],
   "note": ""
  },
  {
   "property": "C26",
   "status": "partial",
   "theorems": [
    "Qtc.C26_no_phantom_fails",
    "Qtc.C26_no_phantom_partial"
   ],
   "note": "False of the code for surface-code decoders of one-dimensional lattices: negation proved for every such size; the claim is proved for graphs of types that have stabilizers."
  },
  {
   "property": "C27",
   "status": "proved",
   "theorems": [
    "Qtc.C27_path_independent"
   ],
   "note": ""
  },
  {
   "property": "C28",
   "status": "proved",
   "theorems": [
    "Qtc.C28_no_hits",
    "Qtc.C28_quiet_string"
   ],
   "note": ""
  },
  {
   "property": "C29",
   "status": "proved",
   "theorems": [
    "Qtc.C29_bits_equivariant"
   ],
   "note": ""
  },
  {
   "property": "C30",
   "status": "proved",
   "theorems": [
    "Qtc.C30_perfect_matching_exists",
    "Qtc.C30_every_hit_matched"
   ],
   "note": "For every matching function that meets the contract (some maximum-weight matching among those of maximum cardinality)."
  },
  {
   "property": "C31",
   "status": "proved",
   "theorems": [
    "Qtc.C31_corrects"
   ],
   "note": ""
  },
  {
   "property": "C32",
   "status": "proved",
   "theorems": [
    "Qtc.C32_strings_single",
    "Qtc.C32_strings_lattice"
   ],
   "note": ""
  },
  {
   "property": "C33",
   "status": "proved",
   "theorems": [
    "Qtc.C33_order_irrelevant",
    "Qtc.C33_total_distance"
   ],
   "note": ""
  },
  {
   "property": "C34",
   "status": "partial",
   "theorems": [
    "Qtc.C34_refuted",
    "Qtc.C34_others_unchanged_partial",
    "Qtc.C34_repeated_calls_partial"
   ],
   "note": "False of the code: the caller's list of hits is extended by the boundary nodes (negation proved for every non-empty list of distinct hits). Proved: the other lists stay unchanged and repeated calls on the extended list still correct every correctable fault set."
  },
  {
   "property": "C35",
   "status": "partial",
   "theorems": [
    "Qtc.C35_refuted",
    "Qtc.C35_boundary_degeneracy_partial"
   ],
   "note": "False of the code for the node with index 0 (truthiness test on an index): negation proved for every surface code wider than one. Proved for all other nodes."
  },
  {
   "property": "C36",
   "status": "proved",
   "theorems": [
    "Qtc.C36_symmetric_transparent"
   ],
   "note": ""
  },
  {
   "property": "C37",
   "status": "partial",
   "theorems": [
    "Qtc.C37_refuted_half",
    "Qtc.C37_refuted_above_half",
    "Qtc.C37_out_of_range",
    "Qtc.C37_answers_partial",
    "Qtc.C37_prefers_degenerate_partial"
   ],
   "note": "False of the code: err_prob = 0.5 raises ZeroDivisionError for every non-empty set of hits, and above one half the preference is inverted. Proved: every other probability between 0 and 1 gives an answer matching every hit once; below one half degenerate paths are preferred."
  },
  {
   "property": "C38",
   "status": "proved",
   "theorems": [
    "Qtc.C38_invalid_type",
    "Qtc.C38_invalid_type_string",
    "Qtc.C38_invalid_crossing"
   ],
   "note": ""
  },
  {
   "property": "C39",
   "status": "proved",
   "theorems": [
    "Qtc.C39_latest",
    "Qtc.C39_unset",
    "Qtc.C39_unknown_type"
   ],
   "note": ""
  },
  {
   "property": "C40",
   "status": "proved",
   "theorems": [
    "Qtc.C40_bayes"
   ],
   "note": "Over exact rationals; floating-point rounding is not modelled."
  },
  {
   "property": "C41",
   "status": "proved",
   "theorems": [
    "Qtc.C41_decision"
   ],
   "note": "Over exact rationals; floating-point rounding is not modelled."
  },
  {
   "property": "C42",
   "status": "proved",
   "theorems": [
    "Qtc.C42_unseen",
    "Qtc.C42_no_shots",
    "Qtc.C42_unknown_type",
    "Qtc.C41_decision"
   ],
   "note": "C41_decision shows that the remaining cases answer."
  },
  {
   "property": "C43",
   "status": "proved",
   "theorems": [
    "Qtc.C43_rate",
    "Qtc.C43_no_shots",
    "Qtc.C43_order",
    "Qtc.C43_decoder_raises"
   ],
   "note": ""
  },
  {
   "property": "C44",
   "status": "proved",
   "theorems": [
    "Qtc.C44_merge"
   ],
   "note": ""
  },
  {
   "property": "C45",
   "status": "proved",
   "theorems": [
    "Qtc.C45_sweep",
    "Qtc.C45_completes",
    "Qtc.C45_sweep_saves",
    "Qtc.C45_single"
   ],
   "note": ""
  },
  {
   "property": "C46",
   "status": "proved",
   "theorems": [
    "Qtc.C46_appends"
   ],
   "note": ""
  },
  {
   "property": "C47",
   "status": "partial",
   "theorems": [
    "Qtc.C47_lost_update_refuted",
    "Qtc.C47_crash_refuted",
    "Qtc.C47_serial_partial"
   ],
   "note": "False of the code: two overlapping appends lose a point, and a crash during a save loses the whole file at the next append. Proved for saves that do not overlap."
  },
  {
   "property": "C48",
   "status": "proved",
   "theorems": [
    "Qtc.C48_load",
    "Qtc.C48_batch",
    "Qtc.C48_unreadable"
   ],
   "note": ""
  },
  {
   "property": "C49",
   "status": "proved",
   "theorems": [
    "Qtc.C49_well_formed",
    "Qtc.C49_with_others"
   ],
   "note": ""
  },
  {
   "property": "C50",
   "status": "proved",
   "theorems": [
    "Qtc.C50_stabilize"
   ],
   "note": ""
  },
  {
   "property": "C51",
   "status": "proved",
   "theorems": [
    "Qtc.C51_logical",
    "Qtc.C51_lattice"
   ],
   "note": ""
  },
  {
   "property": "C52",
   "status": "partial",
   "theorems": [
    "Qtc.C52_false_height_one",
    "Qtc.C52_false_width_one",
    "Qtc.C52_entangle_partial"
   ],
   "note": "False of the code on one-dimensional lattices: with height 1 entangle_z entangles the X plaquettes, with width 1 both raise KeyError (negations proved for every such size and history). Proved for the remaining sizes."
  },
  {
   "property": "C53",
   "status": "proved",
   "theorems": [
    "Qtc.C53_id_data",
    "Qtc.C53_id",
    "Qtc.C53_once_each"
   ],
   "note": ""
  },
  {
   "property": "C54",
   "status": "proved",
   "theorems": [
    "Qtc.C54_cx_arguments",
    "Qtc.C54_cx_accepted"
   ],
   "note": ""
  },
  {
   "property": "C55",
   "status": "proved",
   "theorems": [
    "Qtc.C55_stabilize",
    "Qtc.C55_zero",
    "Qtc.C55_projective",
    "Qtc.C55_possible"
   ],
   "note": "An exact characterisation of the executions: outcome, state after it and classical bits."
  },
  {
   "property": "C56",
   "status": "proved",
   "theorems": [
    "Qtc.C56_same_bits",
    "Qtc.C56_no_hits",
    "Qtc.C56_no_hits_lattice"
   ],
   "note": "The lattice readout version is for Z; X lattice readouts cannot be parsed (C20)."
  },
  {
   "property": "C57",
   "status": "proved",
   "theorems": [
    "Qtc.C57_readout_z",
    "Qtc.C57_readout_x",
    "Qtc.C57_lattice_z",
    "Qtc.C57_lattice_x"
   ],
   "note": "For every size on which the operations used do not raise (C62 lists the one-dimensional XZZX lattices on which they do)."
  },
  {
   "property": "C58",
   "status": "proved",
   "theorems": [
    "Qtc.C58_x_flips_z",
    "Qtc.C58_x_keeps_x",
    "Qtc.C58_x_keeps_syndromes",
    "Qtc.C58_z_flips_x",
    "Qtc.C58_z_keeps_z",
    "Qtc.C58_z_keeps_syndromes"
   ],
   "note": "For every size on which the readouts do not raise (C62)."
  },
  {
   "property": "C59",
   "status": "proved",
   "theorems": [
    "Qtc.C59_readout_z",
    "Qtc.C59_readout_x",
    "Qtc.C59_given_register",
    "Qtc.C59_repeat_z",
    "Qtc.C59_repeat_x",
    "Qtc.C59_keeps_syndrome"
   ],
   "note": "For every size on which the readouts do not raise (C62)."
  },
  {
   "property": "C60",
   "status": "proved",
   "theorems": [
    "Qtc.C60_bits",
    "Qtc.C60_hits"
   ],
   "note": ""
  },
  {
   "property": "C61",
   "status": "proved",
   "theorems": [
    "Qtc.C61_operators",
    "Qtc.C61_executions",
    "Qtc.C61_prepare",
    "Qtc.C61_lattice",
    "Qtc.C61_twins",
    "Qtc.C61_indistinguishable"
   ],
   "note": "Operators and executions; the executions for sizes and operations that do not raise (C62)."
  },
  {
   "property": "C62",
   "status": "partial",
   "theorems": [
    "Qtc.C62_false_x",
    "Qtc.C62_false_z",
    "Qtc.C62_readouts_partial"
   ],
   "note": "False of the code on one-dimensional lattices: indexing a register with an empty list raises ValueError after a register has been added (negations proved for every such size and history). Proved for the remaining sizes."
  },
  {
   "property": "C63",
   "status": "proved",
   "theorems": [
    "Qtc.C63_logical_z",
    "Qtc.C63_logical_x",
    "Qtc.C63_lattice_z"
   ],
   "note": "Errors are Pauli gates after identity gates, as in a noise model on \"id\"; for every execution with such errors. The readout of a single logical qubit on sizes on which it does not raise (C62). X-type lattice readouts cannot be decoded (C20)."
  },
  {
   "property": "C64",
   "status": "proved",
   "theorems": [
    "Qtc.C64_x_c_if",
    "Qtc.C64_z_c_if",
    "Qtc.C64_unconditional"
   ],
   "note": "For non-negative values; Qiskit refuses negative ones."
  },
  {
   "property": "C65",
   "status": "proved",
   "theorems": [
    "Qtc.C65_truth"
   ],
   "note": "For control and target of one register that are different and not in its \"ancilla\" sub-register, after any history in which dictionaries may even be shared."
  },
  {
   "property": "C66",
   "status": "partial",
   "theorems": [
    "Qtc.C66_false",
    "Qtc.C66_z_partial"
   ],
   "note": "False of the code: the ancilla of the control keeps a copy of the logical Z, so X of the control and the product of both X are undetermined after every call (negation proved for every state, size, history and outcome). Proved: the rules of a CNOT for Z of both and X of the target."
  },
  {
   "property": "C67",
   "status": "proved",
   "theorems": [
    "Qtc.C67_indexing",
    "Qtc.C67_every_history",
    "Qtc.C67_named"
   ],
   "note": ""
  },
  {
   "property": "C68",
   "status": "proved",
   "theorems": [
    "Qtc.C68_rejected"
   ],
   "note": ""
  },
  {
   "property": "C69",
   "status": "proved",
   "theorems": [
    "Qtc.C69_names_distinct",
    "Qtc.C69_qubit_registers",
    "Qtc.C69_names_disjoint",
    "Qtc.C69_no_collision_partial",
    "Qtc.C69_false_shared"
   ],
   "note": "Distinctness is unconditional. That operations never run into a taken name is proved for histories without shared parameter dictionaries, and false with them (C69_false_shared)."
  },
  {
   "property": "C70",
   "status": "partial",
   "theorems": [
    "Qtc.C70_false_shared",
    "Qtc.C70_own_registers_partial"
   ],
   "note": "False of the code for qubits made from one parameter dictionary: they share their counters. Proved for histories in which every qubit has its own dictionary."
  },
  {
   "property": "C71",
   "status": "partial",
   "theorems": [
    "Qtc.C71_false",
    "Qtc.C71_continues_partial"
   ],
   "note": "False of the code: the default ancilla is built on the dictionary of the control and sets its counters back, so a control stabilized before raises at the next round (negation proved for every sane history). Proved when the ancilla has its own parameters."
  },
  {
   "property": "C72",
   "status": "proved",
   "theorems": [
    "Qtc.C72_known_names",
    "Qtc.C72_ancilla_kept",
    "Qtc.C72_one_ancilla",
    "Qtc.C72_helper_registers"
   ],
   "note": ""
  },
  {
   "property": "C73",
   "status": "proved",
   "theorems": [
    "Qtc.C73_arguments"
   ],
   "note": ""
  },
  {
   "property": "C74",
   "status": "partial",
   "theorems": [
    "Qtc.C74_any_length_fails",
    "Qtc.C74_any_length_partial"
   ],
   "note": "False of the code: negation proved for every recursion limit; construction proved possible when the limit exceeds d+1."
  },
  {
   "property": "C75",
   "status": "proved",
   "theorems": [
    "Qtc.C75_minimum_explanation"
   ],
   "note": ""
  },
  {
   "property": "C76",
   "status": "proved",
   "theorems": [
    "Qtc.C76_small_probability",
    "Qtc.C76_eventually"
   ],
   "note": ""
  },
  {
   "property": "C77",
   "status": "partial",
   "theorems": [
    "Qtc.C77_snapshot_refuted",
    "Qtc.C77_snapshot_partial"
   ],
   "note": "False of the code: the table stores the caller's dictionary itself. Proved as long as the caller leaves the dictionary alone."
  },
  {
   "property": "C78",
   "status": "partial",
   "theorems": [
    "Qtc.C78_multiprocess_refuted",
    "Qtc.C78_empty_partial"
   ],
   "note": "False of the code: the mapped lambda cannot be pickled, so every non-empty multi-process sweep raises. Rests on the contract of Pool.map stated in the model."
  },
  {
   "property": "C79",
   "status": "proved",
   "theorems": [
    "Qtc.C79_correctable_noise"
   ],
   "note": ""
  },
  {
   "property": "C80",
   "status": "proved",
   "theorems": [
    "Qtc.C80_never_raises",
    "Qtc.C80_false_single"
   ],
   "note": "C80_false_single shows that the restriction to two-dimensional lattices is needed."
  },
  {
   "property": "C81",
   "status": "proved",
   "theorems": [
    "Qtc.C81_checks",
    "Qtc.C81_others"
   ],
   "note": "Same histories as C65."
  },
  {
   "property": "C82",
   "status": "partial",
   "theorems": [
    "Qtc.C82_false_last_round",
    "Qtc.C82_earlier_rounds_partial"
   ],
   "note": "False of the code in the last round before a readout of the logical qubit: the decoding graph has no boundary in time, so a misreading next to the upper edge is matched to that edge and the decoded value is wrong for every outcome (negation proved for every size, history and matching). True of earlier rounds."
  },
  {
   "property": "C83",
   "status": "proved",
   "theorems": [
    "Qtc.C83_one_more_is_wrong",
    "Qtc.C83_executions_z"
   ],
   "note": "Decoding with err_prob = None; also for noisy executions with Z readout."
  },
  {
   "property": "C84",
   "status": "proved",
   "theorems": [
    "Qtc.C84_plaquettes",
    "Qtc.C84_executions_z"
   ],
   "note": "Decoding with err_prob = None; also for noisy executions with Z readout."
  },
  {
   "property": "C85",
   "status": "partial",
   "theorems": [
    "Qtc.C85_same_for_all",
    "Qtc.C85_false",
    "Qtc.C85_single_partial"
   ],
   "note": "False of the code: the string of the whole circuit is handed to the parser of the qubit, which takes the last classical register created for the readout of that qubit (negation proved for every history of a register). Proved for circuits with one logical qubit."
  },
  {
   "property": "C86",
   "status": "partial",
   "theorems": [
    "Qtc.C86_iff",
    "Qtc.C86_partial",
    "Qtc.C86_false"
   ],
   "note": "False of the code as stated: an XZZX control of width 1 (its logical readout raises, C62), an ancilla of that kind made earlier, or an empty sub-register \"ancilla\" (C87). C86_iff gives the exact condition in every reachable state."
  },
  {
   "property": "C87",
   "status": "partial",
   "theorems": [
    "Qtc.C87_false",
    "Qtc.C87_early_partial"
   ],
   "note": "False of the code: an unknown code type raises KeyError after the sub-register \"ancilla\" has been made; from then on every cx raises, unless a qubit is added to it by hand (negation proved for all continuations). True of the arguments that are checked first."
  },
  {
   "property": "C88",
   "status": "proved",
   "theorems": [
    "Qtc.C88_majority",
    "Qtc.C88_executions"
   ],
   "note": "Flips between two rounds. With a probability: decoders with one time step, as in the benchmark; 1/2 raises (C37)."
  },
  {
   "property": "C89",
   "status": "proved",
   "theorems": [
    "Qtc.C89_rate",
    "Qtc.C89_below",
    "Qtc.C89_above",
    "Qtc.C89_at",
    "Qtc.C89_suppressed",
    "Qtc.C89_exists"
   ],
   "note": "The rate is the probability, over independent flips of the data qubits, that an execution can be decoded wrongly; by C88 all executions with the same flips agree. Errors are those of the noise model of the script: X after identity gates."
  },
  {
   "property": "C90",
   "status": "partial",
   "theorems": [
    "Qtc.C90_false",
    "Qtc.C90_every_probability",
    "Qtc.C90_executions",
    "Qtc.C90_small_partial"
   ],
   "note": "False of the code: on square lattices of size 4i+1 >= 9 a diagonal chain of (d-1)/2 errors is decoded wrongly with err_prob = p by every matching, for every p <= 3/10 with 1-p < p 2^(2i+1) (and for every p < 1/3 on all large enough lattices), though rightly without p. Proved for every size and all small enough p."
  },
  {
   "property": "C91",
   "status": "proved",
   "theorems": [
    "Qtc.C91_rate",
    "Qtc.C91_bit_flips",
    "Qtc.C91_vanishes",
    "Qtc.C91_exists",
    "Qtc.C91_exists_rep",
    "Qtc.C91_executions"
   ],
   "note": "Noise as in the scripts: Pauli errors of the identity gates between the rounds. The rate is the probability of errors for which some execution is decoded wrongly. Decoding without err_prob; sweeps with deg_weight use err_prob."
  },
  {
   "property": "C92",
   "status": "proved",
   "theorems": [
    "Qtc.C92_weighted_rate",
    "Qtc.C92_weighted_vanishes"
   ],
   "note": "One time step, as in all scripts of /repo/data. err_prob and p may differ; both at most 1/150. For larger p nothing is claimed."
  },
  {
   "property": "C93",
   "status": "proved",
   "theorems": [
    "Qtc.C93_deterministic",
    "Qtc.C93_equivalent",
    "Qtc.C93_xzzx_xxzz",
    "Qtc.C93_complement",
    "Qtc.C93_bit_flips",
    "Qtc.C93_half",
    "Qtc.C93_exists"
   ],
   "note": "The same decoder and matching function on both sides; the matching function may depend on nothing but its argument."
  },
  {
   "property": "C94",
   "status": "proved",
   "theorems": [
    "Qtc.C94_upper",
    "Qtc.C94_lower",
    "Qtc.C94_slope",
    "Qtc.C94_slope_weighted",
    "Qtc.C94_slope_bit_flips"
   ],
   "note": "Slope for X and Z errors of probability p each (any class), and for X errors (XXZZ, repetition codes, Z). At least one time step."
  },
  {
   "property": "C95",
   "status": "partial",
   "theorems": [
    "Qtc.C95_first_use_partial",
    "Qtc.C95_later_uses",
    "Qtc.C95_own_dictionary",
    "Qtc.C95_own_decodes",
    "Qtc.C95_false_resized"
   ],
   "note": "False if the program itself writes another d into the dictionary before the first decode (C95_false_resized: a wrong value without exception); proved for all other actions (C95_first_use_partial), and for all actions after the first decode. Sizes positive and odd."
  },
  {
   "property": "C96",
   "status": "proved",
   "theorems": [
    "Qtc.C96_outside",
    "Qtc.C96_too_many_rounds",
    "Qtc.C96_quiet_end",
    "Qtc.C96_lattice",
    "Qtc.C96_own_lattice"
   ],
   "note": "Sizes positive and odd, at least two data qubits. C96_quiet_end is for err_prob None. Hits at boundary nodes are not refused; strings never contain them."
  },
  {
   "property": "C97",
   "status": "proved",
   "theorems": [
    "Qtc.C97_matched_graph",
    "Qtc.C97_total_weight"
   ],
   "note": "The matching library is the same function in both methods (it is deterministic). Second part without err_prob."
  },
  {
   "property": "C98",
   "status": "proved",
   "theorems": [
    "Qtc.C98_few_lines",
    "Qtc.C98_strings_single",
    "Qtc.C98_strings_lattice",
    "Qtc.C98_logical",
    "Qtc.C98_lattice_z"
   ],
   "note": "Generalises C31, C32 and C63, which are now consequences. err_prob is not given."
  },
  {
   "property": "C99",
   "status": "proved",
   "theorems": [
    "Qtc.C99_lattice_z",
    "Qtc.C99_logical"
   ],
   "note": "For the XZZX code see C101. Not for errors in the preparation, the first round or the readout itself: the decoder takes the first round as its reference. Depolarizing two-qubit noise counts as two errors if it hits both qubits."
  },
  {
   "property": "C100",
   "status": "proved",
   "theorems": [
    "Qtc.C100_more_than_a_third"
   ],
   "note": "The number of rounds of the decoder must be at least f+1; err_prob is not given."
  },
  {
   "property": "C101",
   "status": "proved",
   "theorems": [
    "Qtc.C101_lattice_z",
    "Qtc.C101_logical"
   ],
   "note": "Not for errors in the preparation, the first round or the readout itself. The logical readouts need a lattice with more than one line (CanRead, C69)."
  },
  {
   "property": "C102",
   "status": "proved",
   "theorems": [
    "Qtc.C102_more_than_a_quarter"
   ],
   "note": "The decoder must be built for at least two rounds; err_prob is not given."
  },
  {
   "property": "C103",
   "status": "proved",
   "theorems": [
    "Qtc.C103_rate",
    "Qtc.C103_vanishes",
    "Qtc.C103_independent",
    "Qtc.C103_exists",
    "Qtc.C103_exists_lattice",
    "Qtc.C103_executions"
   ],
   "note": "The threshold is far from the real one: what matters is that there is one. Not for errors in the preparation, the first round or the readout itself; with errors before the first round the claim is false, see C104."
  },
  {
   "property": "C104",
   "status": "partial",
   "theorems": [
    "Qtc.C104_single_flip",
    "Qtc.C104_single_misread",
    "Qtc.C104_site",
    "Qtc.C104_logical_partial",
    "Qtc.C104_lattice_partial"
   ],
   "note": "False of the code; C104_single_flip and C104_single_misread are the negation, the partial theorems say exactly what errors of data qubits before the first round do, for the logical and lattice readouts. Other single misreadings in the first round: C132. Missing from the partial theorems: more misreadings in the first round than C132 allows."
  },
  {
   "property": "C105",
   "status": "proved",
   "theorems": [
    "Qtc.C105_hits"
   ],
   "note": "Proved by decomposition: a state is a sum of states in which all stabilizers of a type have values, for each of which C63's invariant holds, and an execution with given outcomes is linear. Not for errors in the readout itself (C63 shows what they do)."
  },
  {
   "property": "C106",
   "status": "proved",
   "theorems": [
    "Qtc.C106_memory",
    "Qtc.C106_anywhere",
    "Qtc.C106_undone",
    "Qtc.C106_superposition",
    "Qtc.C106_value"
   ],
   "note": "The logical operators that are undone are those of the model's spec (products of Pauli operators), which the code's x and z methods apply, C58. Not for errors in the first round (C104)."
  },
  {
   "property": "C107",
   "status": "proved",
   "theorems": [
    "Qtc.C107_simulate",
    "Qtc.C107_expected",
    "Qtc.C107_passes",
    "Qtc.C107_test",
    "Qtc.C107_test_num",
    "Qtc.C107_rejected"
   ],
   "note": "The simulator is not modelled: its counts are any positive counts of strings of possible executions of the circuit (Spec/OwnTests.lean). The XZZX code with a side 1 is left out, its readout raises an exception (C62). For XZZX the expected list of the test can contain positions without a plaquette, which the test does not notice; the theorem says which nodes are found."
  },
  {
   "property": "C108",
   "status": "partial",
   "theorems": [
    "Qtc.C108_shown",
    "Qtc.C108_decoding_graph",
    "Qtc.C108_error_graph",
    "Qtc.C108_matched_graph",
    "Qtc.C108_returned_refuted",
    "Qtc.C108_returned_partial"
   ],
   "note": "Partial because the code is false of the last sentence: for more than one time step draw calls draw3D and returns None (C108_returned_refuted), so `fig, ax = decoder.draw(graph)` raises; also dpi, sizes and show are ignored then. The other sentences are proved. Weights in error graphs can cover each other (lines between many pairs cross), which is not claimed. matplotlib and mpl_draw by contract, rounding of the weights left out."
  },
  {
   "property": "C109",
   "status": "partial",
   "theorems": [
    "Qtc.C109_names",
    "Qtc.C109_separate_partial",
    "Qtc.C109_origin_partial",
    "Qtc.C109_mixed_refuted",
    "Qtc.C109_stale_refuted",
    "Qtc.C109_list_refuted"
   ],
   "note": "Partial because the code is false of the claim in three ways: the name has only size and time steps, so benchmarks of different codes or noise with the same size share a file (C109_mixed_refuted); and the name is fixed when the benchmark is made, while the saved size is read from the shared dictionary when a point is saved (C109_stale_refuted); and RotatedDecoder keeps a size given as a list, which gets another file than the same size as a tuple (C109_list_refuted). Proved for sizes that are tuples: names are equal exactly for equal size and time steps (C109_names), and, while no dictionary is changed, separation from benchmarks of other sizes and the origin of all points among benchmarks of the same size. Missing: nothing that holds."
  },
  {
   "property": "C110",
   "status": "partial",
   "theorems": [
    "Qtc.C110_plot",
    "Qtc.C110_empty_refuted",
    "Qtc.C110_labels"
   ],
   "note": "Partial because a directory without data raises IndexError (C110_empty_refuted), and because labels can be wrong or equal after a change of a dictionary (C109_stale_refuted); the rest is proved. matplotlib by contract: plot draws the points it is given; on equal heights the order is arbitrary (only the height is compared)."
  },
  {
   "property": "C111",
   "status": "proved",
   "theorems": [
    "Qtc.C111_distance",
    "Qtc.C111_weight"
   ],
   "note": "retworkx.floyd_warshall_numpy by contract (exact distances)."
  },
  {
   "property": "C112",
   "status": "proved",
   "theorems": [
    "Qtc.C112_cheapest",
    "Qtc.C112_search",
    "Qtc.C112_answer",
    "Qtc.C112_recorded"
   ],
   "note": "Matching library by contract (maximum weight among matchings of maximum cardinality). The spec (Spec/Pairing.lean) mentions no graph; its search through all splits is executable and reproduces the matchings recorded in the tutorials (Props/Recorded.lean)."
  },
  {
   "property": "C113",
   "status": "proved",
   "theorems": [
    "Qtc.C113_best",
    "Qtc.C113_no_guess"
   ],
   "note": "Numbers are exact rationals."
  },
  {
   "property": "C114",
   "status": "proved",
   "theorems": [
    "Qtc.C114_fraction",
    "Qtc.C114_unbiased",
    "Qtc.C114_variance",
    "Qtc.C114_close",
    "Qtc.C114_exists",
    "Qtc.C114_repetition",
    "Qtc.C114_repetition_exists"
   ],
   "note": "Exact arithmetic. That a simulator draws its shots independently is a hypothesis."
  },
  {
   "property": "C115",
   "status": "proved",
   "theorems": [
    "Qtc.C115_string",
    "Qtc.C115_same",
    "Qtc.C115_decoded",
    "Qtc.C115_best",
    "Qtc.C115_attained",
    "Qtc.C115_optimal",
    "Qtc.C115_decoder"
   ],
   "note": "Flips between the two rounds of stabilization, as in the simulation script of the repository; decoding for one time step, with or without probability (not 1/2)."
  },
  {
   "property": "C116",
   "status": "proved",
   "theorems": [
    "Qtc.C116_zero",
    "Qtc.C116_checks",
    "Qtc.C116_accepted"
   ],
   "note": "The claim describes what the code does; a CNOT of a qubit with itself has no meaning and should be refused (see the findings in DESIGN.md)."
  },
  {
   "property": "C117",
   "status": "proved",
   "theorems": [
    "Qtc.C117_z",
    "Qtc.C117_x",
    "Qtc.C117_square_z",
    "Qtc.C117_square_x",
    "Qtc.C117_diagonal_z",
    "Qtc.C117_diagonal_x",
    "Qtc.C117_bits",
    "Qtc.C117_xxzz"
   ],
   "note": "This is the property the XZZX code is known for under biased noise."
  },
  {
   "property": "C118",
   "status": "proved",
   "theorems": [
    "Qtc.C118_wrong",
    "Qtc.C118_unique"
   ],
   "note": "The claim describes a limit of the code: the decoding graphs are the same for XXZZ and XZZX and know nothing of the kind of noise."
  },
  {
   "property": "C119",
   "status": "proved",
   "theorems": [
    "Qtc.C119_answers",
    "Qtc.C119_search",
    "Qtc.C119_determined",
    "Qtc.C119_no_ties",
    "Qtc.C119_same",
    "Qtc.C119_one_step",
    "Qtc.C119_ties"
   ],
   "note": "Decoding without err_prob. C119_one_step is for strings whose logical value is 0 or 1."
  },
  {
   "property": "C120",
   "status": "proved",
   "theorems": [
    "Qtc.C120_rule",
    "Qtc.C120_smallest",
    "Qtc.C120_oblong",
    "Qtc.C120_square",
    "Qtc.C120_oblong_not",
    "Qtc.C120_square_not"
   ],
   "note": "Decoding without err_prob. Rules see the hits and the measured value as the encoder of the repository reads them from the readout string."
  },
  {
   "property": "C121",
   "status": "proved",
   "theorems": [
    "Qtc.C121_readouts",
    "Qtc.C121_values",
    "Qtc.C121_executions"
   ],
   "note": "Control and target of cx are different and not in the sub-register \"ancilla\". X of the control counts as unknown after cx (C66 shows that it has no value). Programs with a call that raises are not covered. Noiseless executions."
  },
  {
   "property": "C122",
   "status": "partial",
   "theorems": [
    "Qtc.C122_rejected_partial",
    "Qtc.C122_untouched",
    "Qtc.C122_missing",
    "Qtc.C122_false_valueError"
   ],
   "note": "Proved for calls that end with LatticeError (C122_rejected_partial, C122_untouched) and for RotatedDecoder without d or T, whose ValueError leaves everything as it was (C122_missing). False for RepetitionDecoder without T, which raises ValueError after it has replaced d = n by (n, 1): an XXZZQubit made from the dictionary afterwards has n data qubits and not n * n (C122_false_valueError). Which exception is raised may change (a string d: TypeError first, LatticeError once it is a tuple)."
  },
  {
   "property": "C123",
   "status": "proved",
   "theorems": [
    "Qtc.C123_total",
    "Qtc.C123_possible",
    "Qtc.C123_certain",
    "Qtc.C123_readout_x",
    "Qtc.C123_readout_z",
    "Qtc.C123_coin_x",
    "Qtc.C123_coin_z",
    "Qtc.C123_syndrome",
    "Qtc.C123_first_z",
    "Qtc.C123_first_x"
   ],
   "note": "bornProb sums the squared norms of the branches (one for every sequence of results of measurements and resets), each divided by the norm at the start. The readouts of XZZX lattices of width or height 1 are excluded as in C62; stabilizations start with syndrome qubits in state 0 as in C55."
  },
  {
   "property": "C124",
   "status": "proved",
   "theorems": [
    "Qtc.C124_matrix",
    "Qtc.C124_matrix2",
    "Qtc.C124_pauli",
    "Qtc.C124_lattice_z",
    "Qtc.C124_logical"
   ],
   "note": "OnQubits xs A: A is a sum of products of X and Z operators on xs; every 2 x 2 matrix on one and every 4 x 4 matrix on two qubits is (C124_matrix, C124_matrix2). The operators may be non-unitary; an execution is possible if its final state is not zero. The environment is not modelled: a channel is the choice of one of its Kraus operators."
  },
  {
   "property": "C125",
   "status": "proved",
   "theorems": [
    "Qtc.C125_memory",
    "Qtc.C125_superposition"
   ],
   "note": "As C106_anywhere, with the errors of C124. The flips are those correct_readout returns for a logical bit 0; undoing them is not part of the package."
  },
  {
   "property": "C126",
   "status": "proved",
   "theorems": [
    "Qtc.C126_lattice_z",
    "Qtc.C126_logical",
    "Qtc.C126_tail",
    "Qtc.C126_total",
    "Qtc.C126_near",
    "Qtc.C126_unitary"
   ],
   "note": "The bound compares amplitudes, so that it holds for errors that interfere in the worst way. It is of use while N eps is small; it is no threshold. States are superpositions of finitely many assignments, as in C123."
  },
  {
   "property": "C127",
   "status": "proved",
   "theorems": [
    "Qtc.C127_lattice_z",
    "Qtc.C127_logical",
    "Qtc.C127_weak_lattice_z",
    "Qtc.C127_weak_logical",
    "Qtc.C127_near2",
    "Qtc.C127_unitary2",
    "Qtc.C127_outside"
   ],
   "note": "That a channel is an operator on more qubits is Stinespring's theorem, which is not proved here. The example lets every data qubit decay."
  },
  {
   "property": "C128",
   "status": "proved",
   "theorems": [
    "Qtc.C128_lattice_z",
    "Qtc.C128_logical",
    "Qtc.C128_other_qubit",
    "Qtc.C128_other_cx",
    "Qtc.C128_added",
    "Qtc.C128_wait"
   ],
   "note": "Selecting the qubit's own classical registers is left to the user of the package (the decoder parses a readout of these alone), so the theorems take the groups of these registers in their order. With shared dictionaries C70 fails, hence `SaneState` in the three theorems about registers."
  },
  {
   "property": "C129",
   "status": "proved",
   "theorems": [
    "Qtc.C129_flip",
    "Qtc.C129_truth",
    "Qtc.C129_unnoticed",
    "Qtc.C129_possible"
   ],
   "note": "The error is one X on the readout qubit, inserted right before the first measurement into the instructions that the call adds. Plaquettes: those of control and target; the ancilla is discarded by the code."
  },
  {
   "property": "C130",
   "status": "proved",
   "theorems": [
    "Qtc.C130_spreads",
    "Qtc.C130_checks",
    "Qtc.C130_single"
   ],
   "note": "For the logical values and plaquettes; states without known values are the subject of C66 and C81. Errors in between the instructions of cx: C129."
  },
  {
   "property": "C131",
   "status": "proved",
   "theorems": [
    "Qtc.C131_mean",
    "Qtc.C131_likely",
    "Qtc.C131_threshold",
    "Qtc.C131_exists",
    "Qtc.C131_few"
   ],
   "note": "With deg_weight=False (err_prob None); the method `single` always passes the probability. Errors as in C103 and C124: none in the preparation, the first round and the readout. The example has concrete numbers."
  },
  {
   "property": "C132",
   "status": "proved",
   "theorems": [
    "Qtc.C132_hit",
    "Qtc.C132_logical",
    "Qtc.C132_lattice",
    "Qtc.C132_several"
   ],
   "note": "Completes C82 and C104, whose negations are single places of this. The lattice readout is treated for one misreading only."
  },
  {
   "property": "C133",
   "status": "proved",
   "theorems": [
    "Qtc.C133_decoded",
    "Qtc.C133_lattice",
    "Qtc.C133_rate",
    "Qtc.C133_uniform",
    "Qtc.C133_useless",
    "Qtc.C133_worse",
    "Qtc.C133_exists"
   ],
   "note": "The rates are those of a readout of the logical operator. A readout of all data qubits is a further round of syndromes, which notices errors after the last round (C98), but not those before the first (C133_lattice)."
  },
  {
   "property": "C134",
   "status": "proved",
   "theorems": [
    "Qtc.C134_decoded",
    "Qtc.C134_rate",
    "Qtc.C134_vanishes",
    "Qtc.C134_executions"
   ],
   "note": "Z only; the lattices are those of C91, so XZZX lattices of width 1 are left out. The identity gates are the only source of errors; the data qubits are read out faithfully, but an error before the readout is the same as a misreading."
  },
  {
   "property": "C135",
   "status": "proved",
   "theorems": [
    "Qtc.C135_z",
    "Qtc.C135_x",
    "Qtc.C135_same_z",
    "Qtc.C135_same_x",
    "Qtc.C135_every_z",
    "Qtc.C135_every_x"
   ],
   "note": "About the plaquettes as the constructor builds them (geometry), for errors on data qubits; both types of error are treated separately, as in C07-C10."
  },
  {
   "property": "C136",
   "status": "proved",
   "theorems": [
    "Qtc.C136_born_z",
    "Qtc.C136_born_x",
    "Qtc.C136_code_z",
    "Qtc.C136_code_x",
    "Qtc.C136_prepared_z",
    "Qtc.C136_prepared_x",
    "Qtc.C136_flat_z",
    "Qtc.C136_flat_x"
   ],
   "note": "Without noise. XZZX lattices with a single data qubit are left out where an X type operation is used, as in C57."
  },
  {
   "property": "C137",
   "status": "proved",
   "theorems": [
    "Qtc.C137_one_qubit",
    "Qtc.C137_unique_z",
    "Qtc.C137_unique_x",
    "Qtc.C137_prepared_z",
    "Qtc.C137_prepared_x"
   ],
   "note": "Without noise; all qubits other than the data qubits are 0. XZZX lattices with a single data qubit are left out where reset_x is used, as in C57."
  },
  {
   "property": "C138",
   "status": "proved",
   "theorems": [
    "Qtc.C138_scalar",
    "Qtc.C138_sharp",
    "Qtc.C138_detected",
    "Qtc.C138_unknown"
   ],
   "note": "OnQubits as in C124: any sum of products of X and Z operators on the qubits, which includes every matrix on one and on two qubits. The stabilization after the error is without noise; the syndrome qubits are 0 before."
  },
  {
   "property": "C139",
   "status": "proved",
   "theorems": [
    "Qtc.C139_all",
    "Qtc.C139_gates",
    "Qtc.C139_z",
    "Qtc.C139_x",
    "Qtc.C139_collapse_z",
    "Qtc.C139_collapse_x",
    "Qtc.C139_start_z",
    "Qtc.C139_start_x"
   ],
   "note": "Without noise. As in C59 and C62 the readouts of XZZX lattices of height 1 (readout_x) or width 1 (readout_z) are left out, and reset_x of an XZZX lattice of one qubit. For the resets all qubits but the data qubits are 0 before."
  },
  {
   "property": "C140",
   "status": "proved",
   "theorems": [
    "Qtc.C140_errors",
    "Qtc.C140_z",
    "Qtc.C140_x",
    "Qtc.C140_same",
    "Qtc.C140_between"
   ],
   "note": "The errors are Pauli operators on data qubits between calls (Y is X and Z); C140_z and C140_x are about errors before all gates, for errors in between C140_between gives the state to which C139_z and C139_x apply. The readouts as in C139."
  },
  {
   "property": "C141",
   "status": "proved",
   "theorems": [
    "Qtc.C141_undone",
    "Qtc.C141_restored",
    "Qtc.C141_any",
    "Qtc.C141_sharp_x",
    "Qtc.C141_sharp_z"
   ],
   "note": "The stabilization itself is without noise. That the decoder finds such a guess is C31, C63 and C75."
  },
  {
   "property": "C142",
   "status": "proved",
   "theorems": [
    "Qtc.C142_digital"
   ],
   "note": "The stabilization itself is without noise. The X and Z errors are not unique; C141 says that all choices have the same effect."
  }
 ]
}