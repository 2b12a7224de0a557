{"id": "C01", "title": "Size validation of surface-code qubits", "statement": "Building an XXZZQubit or XZZXQubit accepts params['d'] given as nothing, a number or a pair, defaults to 3x3, turns a number into a square, and raises LatticeError exactly when a dimension is not odd; a tuple or list of fewer than two numbers raises IndexError; on success the parameters report num_data = height*width and the X/Z syndrome counts, and all counters start at -1.", "quantifier": "every value of params['d']: absent, any int or float, any tuple or list of numbers", "why_tests_cant": "the tests build five fixed sizes; acceptance must be decided for every number, including even, negative and fractional ones", "anchors": ["qtcodes/circuits/rotated_surface.py:_RotatedLattice._params_validate_and_generate"]}
{"id": "C02", "title": "A size that is accepted describes a real lattice", "statement": "If the constructor accepts a size, both dimensions are positive and the built qubit has that many data qubits per row and column.", "quantifier": "every accepted params['d']", "why_tests_cant": "tests only try positive sizes, so they never reach the accepted negative odd sizes", "anchors": ["qtcodes/circuits/rotated_surface.py:_RotatedLattice._params_validate_and_generate", "qtcodes/fitters/rotated_surface.py:RotatedDecoder._params_validation"]}
{"id": "C03", "title": "One logical qubit per lattice", "statement": "The number of X syndromes plus the number of Z syndromes is always one less than the number of data qubits.", "quantifier": "every odd height and width", "why_tests_cant": "a counting identity over infinitely many sizes", "anchors": ["qtcodes/circuits/rotated_surface.py:_RotatedLattice._params_validate_and_generate"]}
{"id": "C04", "title": "Plaquettes only use existing, distinct data qubits", "statement": "Every stabilizer built for the lattice names its own syndrome qubit and two or four different data qubits that exist, so construction never fails with an index error and never wraps around a row.", "quantifier": "every odd positive height and width, every plaquette", "why_tests_cant": "the index arithmetic has row/column boundary cases that depend on the size", "anchors": ["qtcodes/circuits/rotated_surface.py:_RotatedLattice._set_geometry", "qtcodes/circuits/rotated_surface.py:_RotatedLattice._gen_qubit_indices_and_stabilizers"]}
{"id": "C05", "title": "Reported syndrome coordinates are where the plaquette is", "statement": "The data qubits entangled by the k-th X (Z) syndrome qubit are exactly the lattice sites at the four corners of the (row, col) coordinate that parse_readout reports for the k-th X (Z) syndrome bit.", "quantifier": "every odd positive height and width, every syndrome index of either type", "why_tests_cant": "two independent pieces of index arithmetic must agree for all sizes; tests compare them only through simulated strings of a few sizes", "anchors": ["qtcodes/circuits/rotated_surface.py:_RotatedLattice._set_geometry", "qtcodes/circuits/rotated_surface.py:_RotatedLattice.parse_readout"]}
{"id": "C06", "title": "Every data qubit is checked by one or two plaquettes of each type", "statement": "A data qubit touches exactly the two diagonal neighbouring sites of each colour, and each of them is either a plaquette of that type or lies outside the lattice on the open boundary of that type; hence it is covered by at most two plaquettes of each type and, when the code has plaquettes of that type, by at least one.", "quantifier": "every odd positive height and width, every data qubit", "why_tests_cant": "coverage of all qubits for all sizes", "anchors": ["qtcodes/circuits/rotated_surface.py:_RotatedLattice._set_geometry"]}
{"id": "C07", "title": "X and Z stabilizers commute", "statement": "Any X plaquette and any Z plaquette share an even number of data qubits, so all syndrome measurements are compatible.", "quantifier": "every odd positive height and width, every pair of plaquettes", "why_tests_cant": "quantifies over all pairs for all sizes", "anchors": ["qtcodes/circuits/rotated_surface.py:_RotatedLattice._set_geometry", "qtcodes/circuits/xxzz.py:_XXXX", "qtcodes/circuits/xxzz.py:_ZZZZ"]}
{"id": "C08", "title": "Logical operators are undetectable and anticommute", "statement": "The left column (logical X) meets every Z plaquette evenly, the top row (logical Z) meets every X plaquette evenly, and the two meet in exactly one data qubit.", "quantifier": "every odd positive height and width, every plaquette", "why_tests_cant": "all sizes and all plaquettes", "anchors": ["qtcodes/circuits/xxzz.py:_XXZZLattice.x", "qtcodes/circuits/xxzz.py:_XXZZLattice.z", "qtcodes/circuits/rotated_surface.py:_RotatedLattice._set_geometry"]}
{"id": "C09", "title": "Code distance", "statement": "Any set of X flips that triggers no Z syndrome but flips the logical Z readout has at least height-many qubits, and logical x() attains this; dually for Z flips, the logical X readout and the width.", "quantifier": "every odd positive height and width, every set of data-qubit flips", "why_tests_cant": "quantifies over all exponentially many flip patterns of all sizes", "anchors": ["qtcodes/circuits/rotated_surface.py:_RotatedLattice._set_geometry", "qtcodes/circuits/xxzz.py:_XXZZLattice.x", "qtcodes/circuits/xxzz.py:_XXZZLattice.z"]}
{"id": "C10", "title": "Stabilizers are independent", "statement": "No non-empty set of Z plaquettes (or of X plaquettes) covers every data qubit an even number of times, so the syndrome bits carry no hidden linear dependency and the lattice encodes exactly one logical qubit.", "quantifier": "every odd positive height and width, every set of plaquettes", "why_tests_cant": "exponentially many subsets for infinitely many sizes", "anchors": ["qtcodes/circuits/rotated_surface.py:_RotatedLattice._set_geometry"]}
{"id": "C11", "title": "Stabilization never reports an inconsistent lattice", "statement": "stabilize() on an accepted XXZZ or repetition lattice never raises the 'Inconsistent X/Z syndrome connections' LatticeError.", "quantifier": "every odd positive height and width", "why_tests_cant": "the guard depends on which corners exist, for every plaquette of every size", "anchors": ["qtcodes/circuits/xxzz.py:_XXXX.entangle", "qtcodes/circuits/xxzz.py:_ZZZZ.entangle"]}
{"id": "C12", "title": "Repetition code orientation", "statement": "RepetitionQubit parameters give a (d,1) lattice by default and a (1,d) lattice when phase-flip-protected; a pair is accepted only if the other dimension is 1, and anything that is neither a number nor a tuple raises LatticeError.", "quantifier": "every params dictionary: d absent, number, tuple, other; flag absent, true or false", "why_tests_cant": "tests only try a handful of argument shapes", "anchors": ["qtcodes/circuits/repetition.py:RepetitionQubit._validate_params"]}
{"id": "C13", "title": "Repetition validation is idempotent", "statement": "Validating already validated repetition parameters (as happens when a RepetitionDecoder later builds its own encoder from a copy of its params) never raises and changes nothing.", "quantifier": "every params dictionary that validates once", "why_tests_cant": "a law over all accepted inputs", "anchors": ["qtcodes/circuits/repetition.py:RepetitionQubit._validate_params", "qtcodes/fitters/repetition.py:RepetitionDecoder._params_validation", "qtcodes/fitters/lattice_decoder.py:LatticeDecoder.encoder"]}
{"id": "C14", "title": "A bit-flip code has only Z checks, a phase-flip code only X checks", "statement": "A (d,1) lattice has d-1 Z checks on neighbouring qubits and no X check; a (1,d) lattice has d-1 X checks on neighbouring qubits and no Z check.", "quantifier": "every odd d", "why_tests_cant": "all sizes", "anchors": ["qtcodes/circuits/repetition.py:RepetitionQubit", "qtcodes/circuits/rotated_surface.py:_RotatedLattice._set_geometry"]}
{"id": "C15", "title": "Readout strings parse to the changes between consecutive rounds", "statement": "For a well-formed readout string with a one-character logical readout, parse_readout returns that digit and reports a hit at (t,row,col) for a stabilizer exactly when its bit differs between rounds t and t+1, each once, in order of time then syndrome index.", "quantifier": "every lattice size, every number of rounds, every bit pattern", "why_tests_cant": "exponentially many strings of unbounded length", "anchors": ["qtcodes/circuits/rotated_surface.py:_RotatedLattice.parse_readout"]}
{"id": "C16", "title": "X and Z syndromes do not leak into each other", "statement": "The X hits depend only on the X part of each round and the Z hits only on the Z part; bits beyond the syndrome width are ignored.", "quantifier": "every pair of readout strings that agree on one part", "why_tests_cant": "a two-run (hyper)property over all strings", "anchors": ["qtcodes/circuits/rotated_surface.py:_RotatedLattice.parse_readout"]}
{"id": "C17", "title": "Parsed hits are distinct nodes of the decoder's graph", "statement": "Different (time, syndrome bit) pairs give different coordinates, and every hit reported for a string with at most T+1 rounds is a node of the syndrome graph of a decoder built for T, so decoding never fails with a missing node.", "quantifier": "every odd lattice size >= 3 (and the non-trivial graph of 1D lattices), every T, every string", "why_tests_cant": "agreement of encoder and decoder coordinate systems for all sizes", "anchors": ["qtcodes/circuits/rotated_surface.py:_RotatedLattice.parse_readout", "qtcodes/fitters/rotated_surface.py:RotatedDecoder._make_syndrome_graph"]}
{"id": "C18", "title": "Malformed readouts are rejected, not misread", "statement": "parse_readout raises ValueError on a round or logical value that is not a binary numeral/digit, raises AssertionError when a full-lattice readout is given without a readout type, IndexError when it has no syndrome round, and TypeError for an unknown readout type.", "quantifier": "every readout string", "why_tests_cant": "all malformed strings", "anchors": ["qtcodes/circuits/rotated_surface.py:_RotatedLattice.parse_readout", "qtcodes/circuits/rotated_surface.py:_RotatedLattice.extract_final_stabilizer_and_logical_readout"]}
{"id": "C19", "title": "Z lattice readout reconstructs the final round", "statement": "For a full-lattice readout of type Z, the logical value returned is the parity of the top row and the appended final round consists of the parity of each Z plaquette's qubits plus the X bits of the previous round, so no X hit is reported at the final time and a Z hit is reported exactly when that parity differs from the last measured bit.", "quantifier": "every lattice size, every data readout, every history of rounds", "why_tests_cant": "all data patterns of all sizes", "anchors": ["qtcodes/circuits/rotated_surface.py:_RotatedLattice.extract_final_stabilizer_and_logical_readout_z", "qtcodes/circuits/rotated_surface.py:_RotatedLattice.parse_readout"]}
{"id": "C20", "title": "X lattice readout reconstructs the final round", "statement": "For a full-lattice readout of type X, parse_readout returns the parity of the left column and the X-plaquette parities.", "quantifier": "every lattice size, every data readout", "why_tests_cant": "no test ever parses an X lattice readout", "anchors": ["qtcodes/circuits/rotated_surface.py:_RotatedLattice.extract_final_stabilizer_and_logical_readout_x"]}
{"id": "C21", "title": "Decoder parameter checks", "statement": "Building a surface-code decoder raises ValueError if d or T is missing and LatticeError if d is not a pair or has an entry that is not odd (a pair with an odd float passes this check and raises TypeError later); a repetition decoder raises ValueError if T is missing; otherwise, for every odd positive size, the decoder is built for exactly that size: a number d becomes a square (surface code) or a line (repetition code).", "quantifier": "every params dictionary", "why_tests_cant": "all argument shapes", "anchors": ["qtcodes/fitters/lattice_decoder.py:LatticeDecoder._params_validation", "qtcodes/fitters/rotated_surface.py:RotatedDecoder._params_validation", "qtcodes/fitters/repetition.py:RepetitionDecoder._params_validation"]}
{"id": "C22", "title": "The syndrome graph has exactly the stabilizers and the boundary nodes", "statement": "The decoding graph for a type contains every stabilizer location of that type once per time step, every boundary (virtual) node once, and nothing else.", "quantifier": "every odd height and width (>= 3 in the direction the type needs), every T >= 1", "why_tests_cant": "the graph is built by a recursive flood fill; exactness must hold for every size and every T", "anchors": ["qtcodes/fitters/rotated_surface.py:RotatedDecoder._make_syndrome_graph", "qtcodes/fitters/rotated_surface.py:RotatedDecoder._populate_syndrome_graph", "qtcodes/fitters/rotated_surface.py:RotatedDecoder._specify_virtual", "qtcodes/fitters/rotated_surface.py:RotatedDecoder._valid_syndrome"]}
{"id": "C23", "title": "Edges of the syndrome graph are exactly the elementary faults", "statement": "Two nodes are joined iff they are the two ends of one data-qubit flip at one time step, or the same stabilizer at consecutive times; every data qubit gives exactly one edge per time step.", "quantifier": "every odd height and width, every T, every pair of nodes", "why_tests_cant": "exactness of a flood fill with revisits, for all sizes", "anchors": ["qtcodes/fitters/rotated_surface.py:RotatedDecoder._populate_syndrome_graph", "qtcodes/fitters/rotated_surface.py:RotatedDecoder._make_syndrome_graph"]}
{"id": "C24", "title": "Building the syndrome graph terminates", "statement": "The recursive population never needs more nested calls than there are nodes in one time slice, and the result does not depend on the recursion limit once it is large enough.", "quantifier": "every lattice size", "why_tests_cant": "termination over all sizes", "anchors": ["qtcodes/fitters/rotated_surface.py:RotatedDecoder._populate_syndrome_graph"]}
{"id": "C25", "title": "Every two nodes are connected", "statement": "Any two nodes of a decoding graph are linked by a path, so every pair distance used for matching is finite.", "quantifier": "every odd lattice size, every T", "why_tests_cant": "reachability for all sizes", "anchors": ["qtcodes/fitters/rotated_surface.py:RotatedDecoder._make_syndrome_graph", "qtcodes/fitters/lattice_decoder.py:LatticeDecoder._make_error_graph"]}
{"id": "C26", "title": "Unused graphs of one-dimensional lattices contain no phantom stabilizer", "statement": "The decoding graph of a type with no stabilizers (width 1 for X, height 1 for Z) contains no real node.", "quantifier": "every odd lattice with one side equal to 1", "why_tests_cant": "tests never inspect the graph of the unused type", "anchors": ["qtcodes/fitters/rotated_surface.py:RotatedDecoder._make_syndrome_graph"]}
{"id": "C27", "title": "The readout-path test is path independent", "statement": "For a match between two nodes that are not both boundary nodes, the match is counted as crossing the logical readout exactly when every error path joining the two nodes flips an odd number of data qubits of the readout row (column).", "quantifier": "every lattice size, T, pair of nodes and every path of any length", "why_tests_cant": "infinitely many paths", "anchors": ["qtcodes/fitters/rotated_surface.py:RotatedDecoder._is_crossing_readout_path"]}
{"id": "C28", "title": "No hits, no correction", "statement": "correct_readout with no syndrome hits of the relevant type returns the measured logical value unchanged.", "quantifier": "every lattice, value and readout type, whatever the other type's hits are", "why_tests_cant": "all states", "anchors": ["qtcodes/fitters/lattice_decoder.py:LatticeDecoder.correct_readout", "qtcodes/fitters/lattice_decoder.py:LatticeDecoder._corrections"]}
{"id": "C29", "title": "Decoded values stay logical bits and are equivariant", "statement": "Given a measured value 0 or 1, correct_readout returns 0 or 1, and flipping the measured value flips the answer.", "quantifier": "every set of hits, both values, every matching the library may return", "why_tests_cant": "all hit sets and all matchings", "anchors": ["qtcodes/fitters/lattice_decoder.py:LatticeDecoder.correct_readout"]}
{"id": "C30", "title": "Every hit is explained", "statement": "The graph handed to the matching library always has a perfect matching, so every hit is matched exactly once, to another hit or to a boundary node.", "quantifier": "every non-empty list of distinct hits on the graph", "why_tests_cant": "all hit sets of all sizes", "anchors": ["qtcodes/fitters/lattice_decoder.py:LatticeDecoder._make_error_graph", "qtcodes/fitters/lattice_decoder.py:LatticeDecoder._run_mwpm"]}
{"id": "C31", "title": "Correctable faults are corrected", "statement": "If at most (distance-1)/2 elementary faults occurred (data flips in any rounds and syndrome misreadings in inner rounds), correct_readout without error probability returns the true logical value, whatever minimum-weight perfect matching the library picks.", "quantifier": "every odd lattice size, every T, every fault set of at most (distance-1)/2 elements, every matching satisfying the library contract", "why_tests_cant": "tests try single data faults on three sizes with T=1; the claim ranges over all multi-fault space-time patterns", "anchors": ["qtcodes/fitters/lattice_decoder.py:LatticeDecoder.correct_readout", "qtcodes/fitters/lattice_decoder.py:LatticeDecoder._make_error_graph", "qtcodes/fitters/lattice_decoder.py:LatticeDecoder._run_mwpm", "qtcodes/fitters/rotated_surface.py:RotatedDecoder._is_crossing_readout_path"]}
{"id": "C32", "title": "String-level decoding of correctable faults", "statement": "The readout string that results from any reference syndrome and any correctable set of faults is decoded by correct_readout(string, type) to the true logical value, for both single-bit readouts and (type Z) full-lattice readouts.", "quantifier": "every odd lattice size, every number of rounds, every reference syndrome, every correctable fault set", "why_tests_cant": "composition of parser and decoder over all strings", "anchors": ["qtcodes/fitters/lattice_decoder.py:LatticeDecoder.correct_readout", "qtcodes/circuits/rotated_surface.py:_RotatedLattice.parse_readout"]}
{"id": "C33", "title": "Decoding does not depend on the order of hits or on duplicates of the call", "statement": "Permuting the list of hits does not change the answer for correctable faults, and the matched total distance is the same for any order.", "quantifier": "every permutation of every hit list", "why_tests_cant": "factorially many orders", "anchors": ["qtcodes/fitters/lattice_decoder.py:LatticeDecoder.correct_readout", "qtcodes/fitters/lattice_decoder.py:LatticeDecoder._make_error_graph"]}
{"id": "C34", "title": "Decoding leaves the caller's data alone", "statement": "correct_readout does not modify the syndromes passed to it, and calling it again with the same dictionary gives the same answer.", "quantifier": "every call with a dictionary of hits", "why_tests_cant": "tests always decode fresh strings", "anchors": ["qtcodes/fitters/lattice_decoder.py:LatticeDecoder._make_error_graph", "qtcodes/fitters/lattice_decoder.py:LatticeDecoder.correct_readout"]}
{"id": "C35", "title": "Degeneracy counts every equally short boundary path", "statement": "With an error probability, the degeneracy between a hit and a boundary node counts the shortest paths to all boundary nodes at the same distance.", "quantifier": "every hit and boundary node", "why_tests_cant": "depends on the node index; a single index behaves differently", "anchors": ["qtcodes/fitters/lattice_decoder.py:LatticeDecoder._path_degeneracy"]}
{"id": "C36", "title": "Degeneracy counting is symmetric and cache-transparent", "statement": "The degeneracy of a pair does not depend on the order of the pair nor on which pairs were counted before.", "quantifier": "every pair and every history of earlier pairs", "why_tests_cant": "depends on call history through a cache", "anchors": ["qtcodes/fitters/lattice_decoder.py:LatticeDecoder._path_degeneracy", "qtcodes/fitters/lattice_decoder.py:LatticeDecoder._path_degeneracy_helper"]}
{"id": "C37", "title": "An error probability of one half or more is handled", "statement": "correct_readout accepts any err_prob strictly between 0 and 1 and prefers more degenerate paths.", "quantifier": "every err_prob", "why_tests_cant": "a singular point and a sign change in a real parameter", "anchors": ["qtcodes/fitters/lattice_decoder.py:LatticeDecoder._make_error_graph"]}
{"id": "C38", "title": "Invalid readout types are rejected", "statement": "Decoding with a logical readout type other than those the decoder knows raises an error instead of returning a value, whenever a correction would be needed.", "quantifier": "every type string", "why_tests_cant": "all strings", "anchors": ["qtcodes/fitters/rotated_surface.py:RotatedDecoder._is_crossing_readout_path", "qtcodes/fitters/rotated_surface.py:RotatedDecoder._valid_syndrome", "qtcodes/fitters/lattice_decoder.py:LatticeDecoder.correct_readout"]}
{"id": "C39", "title": "Look-up table holds the latest data", "statement": "After any sequence of set and reset calls, the table entry for (type, value) is the last counts set since the last reset, its shot count is the sum of those counts, and other entries are unaffected.", "quantifier": "every sequence of set_look_up_table and reset_look_up_table calls", "why_tests_cant": "all histories", "anchors": ["qtcodes/fitters/base.py:TopologicalDecoder.set_look_up_table", "qtcodes/fitters/base.py:TopologicalDecoder.reset_look_up_table"]}
{"id": "C40", "title": "Look-up posterior is Bayes' rule", "statement": "For a readout string seen in the table the returned pair is non-negative, sums to one and is proportional to frequency times prior.", "quantifier": "every table of non-negative counts, every string, every prior", "why_tests_cant": "all tables", "anchors": ["qtcodes/fitters/base.py:TopologicalDecoder._run_look_up"]}
{"id": "C41", "title": "Look-up decision is the maximum posterior", "statement": "correct_readout_look_up_table returns 1 exactly when the relative frequency of the string under |1> strictly exceeds that under |0>, else 0.", "quantifier": "every table and string seen in the table", "why_tests_cant": "all tables, ties included", "anchors": ["qtcodes/fitters/base.py:TopologicalDecoder.correct_readout_look_up_table"]}
{"id": "C42", "title": "Unseen strings are an error", "statement": "A string that occurs in neither table raises ZeroDivisionError and an unknown readout type raises KeyError; nothing else fails.", "quantifier": "every table and string", "why_tests_cant": "all tables", "anchors": ["qtcodes/fitters/base.py:TopologicalDecoder._run_look_up"]}
{"id": "C43", "title": "Logical error rate is the fraction of wrong shots", "statement": "logical_error_rate returns (number of shots decoded to a wrong value) / (number of shots), lies in [0,1], does not depend on dictionary order, is 0 iff no shot with positive count is wrong, and divides by zero exactly for no shots.", "quantifier": "every dictionary of counts, every decoder", "why_tests_cant": "all count dictionaries", "anchors": ["qtcodes/tools/benchmarking.py:TopologicalBenchmark.logical_error_rate"]}
{"id": "C44", "title": "Merging count dictionaries averages error rates", "statement": "The error rate of two batches of shots taken together is the shot-weighted mean of their error rates.", "quantifier": "every pair of count dictionaries", "why_tests_cant": "algebraic law over all inputs", "anchors": ["qtcodes/tools/benchmarking.py:TopologicalBenchmark.logical_error_rate"]}
{"id": "C45", "title": "A sweep reports sorted, aligned data", "statement": "After sweep the stored physical rates are the requested ones in ascending order and each logical rate is the one computed for its physical rate; results of earlier sweeps are gone.", "quantifier": "every list of rates (default or given, duplicates allowed), every simulator", "why_tests_cant": "all lists and histories", "anchors": ["qtcodes/tools/benchmarking.py:TopologicalBenchmark.sweep"]}
{"id": "C46", "title": "Saved data accumulates", "statement": "After any sequence of appends to one file, the file holds exactly all appended (physical, logical) pairs, sorted by physical rate.", "quantifier": "every sequence of append_data calls from any starting file", "why_tests_cant": "all histories", "anchors": ["qtcodes/tools/benchmarking.py:TopologicalBenchmark.append_data"]}
{"id": "C47", "title": "Concurrent or interrupted saves lose nothing", "statement": "Appends made by concurrent worker processes, or after a crash during a save, preserve all previously saved points.", "quantifier": "every interleaving of two appends and every crash point", "why_tests_cant": "schedules and crash points cannot be enumerated by a unit test", "anchors": ["qtcodes/tools/benchmarking.py:TopologicalBenchmark.append_data", "qtcodes/tools/benchmarking.py:TopologicalBenchmark.sweep_mp"]}
{"id": "C48", "title": "Analyses load what was saved and are ordered by distance", "statement": "Loading a saved file returns the saved size, T and data; a batch analysis holds one entry per file in order of non-decreasing height.", "quantifier": "every set of files", "why_tests_cant": "all file sets", "anchors": ["qtcodes/tools/benchmarking.py:TopologicalAnalysis.load_data", "qtcodes/tools/benchmarking.py:TopologicalBatchAnalysis.__init__"]}
{"id": "C49", "title": "Any sequence of operations on one qubit keeps the circuit well formed", "statement": "For a qubit alone on its circuit, no sequence of its operations ever fails because a register name is taken, all instructions refer to existing registers with indices in range, and all register names stay distinct.", "quantifier": "every lattice and every finite sequence of operations", "why_tests_cant": "unbounded histories", "anchors": ["qtcodes/circuits/rotated_surface.py:RotatedQubit.stabilize", "qtcodes/circuits/xxzz.py:_XXZZLattice.readout_x", "qtcodes/circuits/xxzz.py:_XXZZLattice.lattice_readout_z", "qtcodes/circuits/base.py:TopologicalQubit"]}
{"id": "C50", "title": "Each stabilization adds one syndrome register", "statement": "The k-th stabilize call adds a classical register of num_syn bits named after k, measures the Z syndromes into the low bits and the X syndromes into the high bits in order, each exactly once, then resets every syndrome qubit.", "quantifier": "every lattice, every history", "why_tests_cant": "all sizes and histories", "anchors": ["qtcodes/circuits/rotated_surface.py:RotatedQubit.stabilize"]}
{"id": "C51", "title": "Readout strings list registers newest first", "statement": "After any number of stabilizations and one readout, the result string is the readout followed by the rounds from last to first, which is the format parse_readout expects.", "quantifier": "every lattice, number of rounds and measured bits", "why_tests_cant": "all histories", "anchors": ["qtcodes/circuits/rotated_surface.py:RotatedQubit.stabilize", "qtcodes/circuits/rotated_surface.py:_RotatedLattice.parse_readout", "qtcodes/circuits/xxzz.py:_XXZZLattice.readout_z"]}
{"id": "C52", "title": "Partial stabilization touches only one type", "statement": "entangle_x entangles exactly the X plaquettes and entangle_z exactly the Z plaquettes.", "quantifier": "every lattice size, including one-dimensional ones", "why_tests_cant": "boundary sizes fall back silently or fail", "anchors": ["qtcodes/circuits/rotated_surface.py:_RotatedLattice.entangle_x", "qtcodes/circuits/rotated_surface.py:_RotatedLattice.entangle_z", "qtcodes/circuits/base.py:_TopologicalLattice.entangle"]}
{"id": "C53", "title": "Identity insertion covers exactly the requested qubits", "statement": "id_data adds exactly one identity gate per data qubit and id exactly one per physical qubit of the lattice, and nothing else.", "quantifier": "every lattice", "why_tests_cant": "all sizes", "anchors": ["qtcodes/circuits/base.py:TopologicalQubit.id", "qtcodes/circuits/base.py:TopologicalQubit.id_data"]}
{"id": "C54", "title": "Logical cx needs exactly one partner", "statement": "TopologicalQubit.cx raises ValueError and leaves the circuit unchanged unless exactly one of control and target is given.", "quantifier": "all argument combinations on every qubit", "why_tests_cant": "all states", "anchors": ["qtcodes/circuits/base.py:TopologicalQubit.cx"]}
{"id": "C55", "title": "stabilize measures the stabilizers", "statement": "With syndrome qubits in |0>, one stabilize call acts on the data exactly as the joint projective measurement of all plaquette operators, writes the outcomes to the new register and returns the syndrome qubits to |0>.", "quantifier": "every lattice and code type, every quantum state, every measurement outcome", "why_tests_cant": "continuum of states and exponentially many outcomes", "anchors": ["qtcodes/circuits/rotated_surface.py:RotatedQubit.stabilize", "qtcodes/circuits/xxzz.py:_XXXX.entangle", "qtcodes/circuits/xxzz.py:_ZZZZ.entangle", "qtcodes/circuits/xzzx.py:_XZZX.entangle"]}
{"id": "C56", "title": "Repeated stabilization is repeatable", "statement": "Without errors in between, consecutive stabilize calls always give the same syndrome bits, so no hits are reported.", "quantifier": "every lattice, state, number of rounds and outcome sequence", "why_tests_cant": "all states and outcomes", "anchors": ["qtcodes/circuits/rotated_surface.py:RotatedQubit.stabilize", "qtcodes/circuits/rotated_surface.py:_RotatedLattice.parse_readout"]}
{"id": "C57", "title": "Prepared states read back", "statement": "After reset_z (reset_x) and any number of stabilizations, readout_z (readout_x) gives 0 with certainty, also through a full-lattice readout parity.", "quantifier": "every lattice, initial state, number of rounds and outcome sequence", "why_tests_cant": "all states and outcomes", "anchors": ["qtcodes/circuits/xxzz.py:_XXZZLattice.reset_z", "qtcodes/circuits/xxzz.py:_XXZZLattice.readout_z", "qtcodes/circuits/xzzx.py:_XZZXLattice.reset_z", "qtcodes/circuits/xzzx.py:_XZZXLattice.readout_z"]}
{"id": "C58", "title": "Logical gates act as logical gates", "statement": "Logical x() flips the outcome of readout_z and leaves readout_x and every syndrome unchanged; logical z() flips readout_x and leaves readout_z and every syndrome unchanged.", "quantifier": "every lattice, state and outcome", "why_tests_cant": "all states", "anchors": ["qtcodes/circuits/xxzz.py:_XXZZLattice.x", "qtcodes/circuits/xxzz.py:_XXZZLattice.z", "qtcodes/circuits/xzzx.py:_XZZXLattice.x", "qtcodes/circuits/xzzx.py:_XZZXLattice.z"]}
{"id": "C59", "title": "Logical readout is a non-destructive measurement", "statement": "readout_z (readout_x) acts on the data as the projective measurement of the logical operator: repeating it gives the same bit and it does not disturb the syndromes.", "quantifier": "every lattice, state and outcome", "why_tests_cant": "all states", "anchors": ["qtcodes/circuits/xxzz.py:_XXZZLattice._readout_z_into_ancilla", "qtcodes/circuits/xxzz.py:_XXZZLattice._readout_x_into_ancilla", "qtcodes/circuits/xzzx.py:_XZZXLattice._readout_z_into_ancilla"]}
{"id": "C60", "title": "Single faults trigger exactly their neighbouring stabilizers", "statement": "A Pauli X or Z on one data qubit between two stabilizations changes exactly the syndrome bits of the plaquettes that check it, as reported by parse_readout.", "quantifier": "every lattice, code type, data qubit, state and outcome", "why_tests_cant": "tests try three sizes with sampled outcomes", "anchors": ["qtcodes/circuits/rotated_surface.py:RotatedQubit.stabilize", "qtcodes/circuits/rotated_surface.py:_RotatedLattice.parse_readout"]}
{"id": "C61", "title": "XZZX is the XXZZ code up to local Hadamards", "statement": "The XZZX stabilizers, logical operators, preparations and readouts are those of XXZZ conjugated by a Hadamard on every second data qubit.", "quantifier": "every odd lattice size", "why_tests_cant": "all sizes", "anchors": ["qtcodes/circuits/xzzx.py:_XZZX.entangle", "qtcodes/circuits/xzzx.py:_XZZXLattice"]}
{"id": "C62", "title": "XZZX logical readout works on every accepted lattice", "statement": "readout_x and readout_z of an XZZXQubit succeed on every accepted lattice size.", "quantifier": "every accepted size, including one-dimensional ones", "why_tests_cant": "boundary sizes", "anchors": ["qtcodes/circuits/xzzx.py:_XZZXLattice._readout_x_into_ancilla", "qtcodes/circuits/xzzx.py:_XZZXLattice._readout_z_into_ancilla"]}
{"id": "C63", "title": "End-to-end error correction", "statement": "Prepare |0>_L, run T+1 stabilizations with Pauli errors after the identity gates in between (on data qubits, and on syndrome qubits before other rounds than the last), read out and decode: if at most (height-1)/2 of the errors flip operators of the type that is read out, the decoded value is 0 for every measurement outcome; and likewise for |+>_L, for logical gates in between, and for a readout of all data qubits.", "quantifier": "every odd lattice, T, error pattern, initial state, outcome sequence and library matching", "why_tests_cant": "the benchmark samples this by Monte Carlo only", "anchors": ["qtcodes/circuits/rotated_surface.py:RotatedQubit.stabilize", "qtcodes/fitters/lattice_decoder.py:LatticeDecoder.correct_readout", "qtcodes/tools/benchmarking.py:TopologicalBenchmark.logical_error_rate"]}
{"id": "C64", "title": "Classically conditioned gates", "statement": "x_c_if/z_c_if act as the logical gate when the classical register holds the given value and as the identity otherwise.", "quantifier": "every lattice, register value and state", "why_tests_cant": "all states and register contents", "anchors": ["qtcodes/circuits/xxzz.py:_XXZZLattice.x_c_if", "qtcodes/circuits/xzzx.py:_XZZXLattice.z_c_if"]}
{"id": "C65", "title": "Logical CNOT truth table", "statement": "TopologicalCircuit.cx on qubits in logical Z-basis states maps the target to target XOR control and keeps the control.", "quantifier": "every pair of lattices and code types, both values, every measurement outcome", "why_tests_cant": "the tutorial samples one input of d=3", "anchors": ["qtcodes/circuits/circ.py:TopologicalCircuit.cx"]}
{"id": "C66", "title": "Logical CNOT is coherent", "statement": "TopologicalCircuit.cx acts as a CNOT on superpositions: a control in |+>_L and a target in |0>_L become correlated in both the Z and the X basis.", "quantifier": "every pair of lattices and all logical states", "why_tests_cant": "tests and tutorials only use Z-basis inputs", "anchors": ["qtcodes/circuits/circ.py:TopologicalCircuit.cx", "qtcodes/circuits/xxzz.py:_XXZZLattice.cx"]}
{"id": "C67", "title": "Topological register indexing", "statement": "After any sequence of additions to any sub-registers, treg[k] is the k-th qubit ever added, treg[name] the dictionary of that sub-register, and any other key raises.", "quantifier": "every sequence of additions", "why_tests_cant": "all histories", "anchors": ["qtcodes/circuits/circ.py:TopologicalRegister.add_tqubit", "qtcodes/circuits/circ.py:TopologicalRegister.__getitem__"]}
{"id": "C68", "title": "Rejected additions change nothing", "statement": "add_tqubits with mismatched lengths or an unknown code type raises ValueError before any qubit is added.", "quantifier": "every argument list, every register state", "why_tests_cant": "all states", "anchors": ["qtcodes/circuits/circ.py:TopologicalRegister.add_tqubits"]}
{"id": "C69", "title": "Qubits of a register never collide", "statement": "All physical registers created for the qubits of one topological register have distinct names, whatever the sequence of additions and operations.", "quantifier": "every history of additions and operations", "why_tests_cant": "unbounded histories", "anchors": ["qtcodes/circuits/circ.py:TopologicalRegister.add_tqubit", "qtcodes/circuits/rotated_surface.py:_RotatedLattice._gen_registers"]}
{"id": "C70", "title": "Operations on one qubit do not touch the others", "statement": "An operation on one topological qubit only adds instructions on that qubit's own physical registers and does not change any other qubit's counters.", "quantifier": "every register content, operation and qubit", "why_tests_cant": "all states", "anchors": ["qtcodes/circuits/circ.py:TopologicalCircuit", "qtcodes/circuits/base.py:TopologicalQubit"]}
{"id": "C71", "title": "cx does not disturb the control's bookkeeping", "statement": "After TopologicalCircuit.cx the control qubit can go on being stabilized and read out, with its round counter continuing where it was.", "quantifier": "every history before the cx", "why_tests_cant": "depends on aliasing of a parameter dictionary", "anchors": ["qtcodes/circuits/circ.py:TopologicalCircuit.cx", "qtcodes/circuits/rotated_surface.py:_RotatedLattice._params_validate_and_generate"]}
{"id": "C72", "title": "Circuit helpers are idempotent by name and at most one ancilla is made", "statement": "Any number of cx calls creates at most one ancilla qubit and one copy of each helper register; add_creg/add_qreg with a known name do nothing unless overridden.", "quantifier": "every sequence of cx calls", "why_tests_cant": "all histories", "anchors": ["qtcodes/circuits/circ.py:TopologicalCircuit.cx", "qtcodes/circuits/circ.py:TopologicalCircuit.add_creg", "qtcodes/circuits/circ.py:TopologicalCircuit.add_qreg"]}
{"id": "C73", "title": "cx argument checks", "statement": "TopologicalCircuit.cx raises ValueError and changes nothing when exactly one of ancilla_ctype and ancilla_params is given.", "quantifier": "all argument combinations and states", "why_tests_cant": "all states", "anchors": ["qtcodes/circuits/circ.py:TopologicalCircuit.cx"]}
{"id": "C74", "title": "A decoder can be built for any code size", "statement": "RepetitionDecoder and RotatedDecoder can be constructed for every odd code size, independently of the interpreter's recursion limit.", "quantifier": "every odd size, every recursion limit", "why_tests_cant": "failures appear only beyond a size that depends on the interpreter", "anchors": ["qtcodes/fitters/rotated_surface.py:RotatedDecoder._populate_syndrome_graph", "qtcodes/fitters/rotated_surface.py:RotatedDecoder._make_syndrome_graph"]}
{"id": "C75", "title": "Decoding is a minimum explanation", "statement": "The corrections chosen for a set of hits have, in total, the length of the smallest set of elementary faults that causes exactly these hits; no set of faults with fewer members explains them.", "quantifier": "every valid lattice, every list of distinct hits, every matching library meeting its contract", "why_tests_cant": "minimum over all fault sets", "anchors": ["qtcodes/fitters/lattice_decoder.py:LatticeDecoder._corrections", "qtcodes/fitters/lattice_decoder.py:LatticeDecoder._make_error_graph", "qtcodes/fitters/lattice_decoder.py:LatticeDecoder._run_mwpm"]}
{"id": "C76", "title": "A small error probability keeps the correction guarantee", "statement": "For every lattice there is a threshold such that decoding with any positive err_prob below it still returns the true logical value whenever at most (distance-1)/2 elementary faults happened.", "quantifier": "every lattice of distance at most 10000, every err_prob below the threshold, every correctable fault set", "why_tests_cant": "all fault sets and a continuum of probabilities", "anchors": ["qtcodes/fitters/lattice_decoder.py:LatticeDecoder.correct_readout", "qtcodes/fitters/lattice_decoder.py:LatticeDecoder._make_error_graph", "qtcodes/fitters/lattice_decoder.py:LatticeDecoder._path_degeneracy"]}
{"id": "C77", "title": "The look-up table is a snapshot", "statement": "After set_look_up_table, later changes the caller makes to the counts dictionary do not affect look-up decoding.", "quantifier": "every history of table calls and dictionary changes", "why_tests_cant": "depends on object aliasing across calls", "anchors": ["qtcodes/fitters/base.py:TopologicalDecoder.set_look_up_table"]}
{"id": "C78", "title": "Multi-process sweep works", "statement": "sweep_mp stores, for every requested physical rate in ascending order, the logical rate computed for it, as sweep does.", "quantifier": "every list of rates", "why_tests_cant": "all lists; depends on how functions are sent to worker processes", "anchors": ["qtcodes/tools/benchmarking.py:TopologicalBenchmark.sweep_mp"]}
{"id": "C79", "title": "Benchmarks of correctable noise report zero", "statement": "If every readout string of a run is the noisy readout of the expected value under a correctable fault set, logical_error_rate is exactly 0.", "quantifier": "every valid lattice, every dictionary of such readouts, every matching library meeting its contract", "why_tests_cant": "all fault sets and all dictionaries", "anchors": ["qtcodes/tools/benchmarking.py:TopologicalBenchmark.logical_error_rate", "qtcodes/fitters/lattice_decoder.py:LatticeDecoder.correct_readout"]}
{"id": "C80", "title": "Operations with sensible arguments never raise on two-dimensional lattices", "statement": "On every lattice with height and width above 1, every operation of a qubit (stabilize, entangle_x/z, id, id_data, resets, logical gates, conditional gates with a non-negative value, cx with one existing foreign qubit, readouts) succeeds, whatever operations came before.", "quantifier": "every such lattice, every code, every finite history, every operation", "why_tests_cant": "unbounded histories and all sizes; each operation depends on counters, register names and index lists left by the earlier ones", "anchors": ["qtcodes/circuits/xxzz.py:_XXZZLattice", "qtcodes/circuits/xzzx.py:_XZZXLattice", "qtcodes/circuits/base.py:TopologicalQubit", "qtcodes/circuits/rotated_surface.py:RotatedQubit.stabilize"]}
{"id": "C81", "title": "Logical CNOT leaves codes and bystanders alone", "statement": "TopologicalCircuit.cx keeps the value of every stabilizer of control and target, and of every observable of the other qubits of the register.", "quantifier": "every pair of lattices and code types, every history of the register, every state and measurement outcome", "why_tests_cant": "all sizes, histories, states and outcomes", "anchors": ["qtcodes/circuits/circ.py:TopologicalCircuit.cx", "qtcodes/circuits/xxzz.py:_XXZZLattice.cx", "qtcodes/circuits/xzzx.py:_XZZXLattice.cx"]}
{"id": "C82", "title": "A single misreading is tolerated", "statement": "Prepare |0>_L, run T+1 stabilizations on a lattice of distance 3 or more, read out and decode: if the only error makes one syndrome qubit be misread in one round, the decoded value is 0.", "quantifier": "every odd lattice, T, place and round of the misreading, initial state, outcome sequence and library matching", "why_tests_cant": "needs an exact treatment of all places, rounds and outcomes; random tests mix this with other errors", "anchors": ["qtcodes/fitters/lattice_decoder.py:LatticeDecoder.correct_readout", "qtcodes/circuits/rotated_surface.py:RotatedQubit.stabilize"]}
{"id": "C83", "title": "The correction radius is sharp", "statement": "For every lattice, number of rounds and interval between two rounds there are (distance+1)/2 flips of data qubits, one more than is guaranteed to be corrected, for which correct_readout returns the wrong value for every minimum-weight matching.", "quantifier": "every valid lattice, every T, every round, every matching library meeting its contract", "why_tests_cant": "all sizes, rounds and matchings; a test cannot tell an unlucky matching from an impossible one", "anchors": ["qtcodes/fitters/lattice_decoder.py:LatticeDecoder.correct_readout", "qtcodes/fitters/lattice_decoder.py:LatticeDecoder._run_mwpm"]}
{"id": "C84", "title": "Errors that differ by stabilizers are decoded alike", "statement": "Adding flips of all data qubits around any plaquettes of the other type to a correctable fault set changes no syndrome reading and no readout parity, and the decoded value stays right, however many flips there are.", "quantifier": "every valid lattice, every correctable fault set, every list of plaquettes and rounds, every matching library meeting its contract", "why_tests_cant": "unboundedly many errors; all placements of plaquettes", "anchors": ["qtcodes/fitters/lattice_decoder.py:LatticeDecoder.correct_readout", "qtcodes/circuits/xxzz.py:_XXZZLattice", "qtcodes/circuits/rotated_surface.py:_RotatedLattice._gen_qubit_indices_and_stabilizers"]}
{"id": "C85", "title": "parse_readout of a circuit gives the value of the qubit asked for", "statement": "TopologicalCircuit.parse_readout(tqubit, string) returns the logical readout of that qubit, for every register with any number of qubits.", "quantifier": "every history of a register, every order of readouts, every content of the classical bits", "why_tests_cant": "depends on the order in which classical registers of all qubits were created", "anchors": ["qtcodes/circuits/circ.py:TopologicalCircuit.parse_readout", "qtcodes/circuits/rotated_surface.py:_RotatedLattice.parse_readout"]}
{"id": "C86", "title": "cx of existing qubits succeeds", "statement": "TopologicalCircuit.cx with the default ancilla succeeds for every two logical qubits of the register, in every state that a sequence of operations can reach.", "quantifier": "every history of a register, every two qubits, every code type and lattice size", "why_tests_cant": "depends on the whole history: which ancilla was made last, for which code, with which dictionary", "anchors": ["qtcodes/circuits/circ.py:TopologicalCircuit.cx", "qtcodes/circuits/xzzx.py:_XZZXLattice.readout_z"]}
{"id": "C87", "title": "A rejected cx leaves no trace", "statement": "If TopologicalCircuit.cx raises because of its arguments (unknown index, unknown code type, type without parameters), the register and the circuit are as before, and later calls behave as if the rejected one had not been made.", "quantifier": "every history of a register before and after the rejected call, every kind of wrong argument", "why_tests_cant": "the damage only shows in later calls; all continuations have to be considered", "anchors": ["qtcodes/circuits/circ.py:TopologicalCircuit.cx", "qtcodes/circuits/circ.py:TopologicalRegister.add_tqubit"]}
{"id": "C88", "title": "Decoding a repetition code is a majority vote", "statement": "If any data qubits of a repetition code flip between two rounds, correct_readout returns the wrong value if and only if more than half of them flipped; with and without an error probability, and for every execution of the benchmark circuit.", "quantifier": "every odd number of data qubits, every set of flips, every number of rounds (without probability), every probability in [0,1) but 1/2 (one time step), every matching library meeting its contract, every measurement outcome", "why_tests_cant": "2^d sets of flips for every d, and all minimum-weight matchings", "anchors": ["qtcodes/fitters/lattice_decoder.py:LatticeDecoder.correct_readout", "qtcodes/fitters/repetition.py:RepetitionDecoder", "data/rep_threshold/20210617/simulation.py"]}
{"id": "C89", "title": "The repetition-code benchmark has its threshold at 1/2", "statement": "In the benchmark of data/rep_threshold the logical error rate is the sum over k > d/2 of C(d,k) p^k (1-p)^(d-k): for 0 < p < 1/2 it falls strictly with d and is at most 2p (4p(1-p))^((d-1)/2), at p = 1/2 it is 1/2, for 1/2 < p < 1 it grows strictly with d.", "quantifier": "every odd d > 1, every real p, every measurement outcome and matching", "why_tests_cant": "a statement about probabilities for all d and p; a simulation only gives estimates at a few points", "anchors": ["qtcodes/fitters/lattice_decoder.py:LatticeDecoder.correct_readout", "data/rep_threshold/20210617/simulation.py", "qtcodes/tools/benchmarking.py:TopologicalBenchmark.sweep"]}
{"id": "C90", "title": "Weighting by an error probability keeps the correction radius", "statement": "If at most (d-1)/2 data qubits flip, correct_readout with err_prob = p returns the right value, as it does without a probability; for every p in (0,1/2).", "quantifier": "every lattice size, every set of at most (d-1)/2 errors, every p in (0,1/2), every matching library meeting its contract, every measurement outcome", "why_tests_cant": "path degeneracies grow exponentially with the distance; an effect that only shows for particular errors on lattices of at least 9 x 9", "anchors": ["qtcodes/fitters/lattice_decoder.py:LatticeDecoder._make_error_graph", "qtcodes/fitters/lattice_decoder.py:LatticeDecoder._path_degeneracy", "qtcodes/tools/benchmarking.py:TopologicalBenchmark.sweep"]}
{"id": "C91", "title": "The surface codes have a threshold", "statement": "With independent Pauli errors on the identity gates (data and syndrome qubits), each with X part and Z part of probability at most p, the logical error rate of a memory of T time steps, decoded by correct_readout without err_prob, is at most (T b / m) x^d / (1 - x) with x = 2 m sqrt(p(1-p)) < 1, m = 3 for T = 1 and 5 otherwise, b the other side of the lattice; in particular it tends to 0 as the lattice grows for p <= 1/36 (T = 1) and p <= 1/100 (T <= d).", "quantifier": "every lattice size, class and number of time steps, every noise below the bound (different on every gate), every measurement outcome, every matching library meeting its contract", "why_tests_cant": "a statement about probabilities for all distances; simulations cannot reach the error rates of large distances", "anchors": ["qtcodes/fitters/lattice_decoder.py:LatticeDecoder.correct_readout", "qtcodes/fitters/lattice_decoder.py:LatticeDecoder._run_mwpm", "qtcodes/fitters/rotated_surface.py:RotatedDecoder", "data/xxzz_threshold/20210601/simulation.py", "data/xzzx_threshold/20210611/simulation.py"]}
{"id": "C92", "title": "The threshold survives weighting by the error probability", "statement": "In a benchmark with one time step in which the decoder is given an err_prob of at most 1/150 (deg_weight = True) and every identity gate makes an X part and a Z part with probability at most p <= 1/150, the logical error rate is at most (b/4) x^d / (1 - x) with x = 8 p^(5/12) < 1, b the other side of the lattice; in particular it tends to 0 as the lattice grows.", "quantifier": "every lattice size and class, every noise below the bound, every err_prob up to 1/150, every measurement outcome, every matching library meeting its contract", "why_tests_cant": "the weights lose correction radius (C90), so the usual argument fails; simulations cannot reach the error rates of large distances", "anchors": ["qtcodes/fitters/lattice_decoder.py:LatticeDecoder._make_error_graph", "qtcodes/fitters/lattice_decoder.py:LatticeDecoder._path_degeneracy", "qtcodes/fitters/lattice_decoder.py:LatticeDecoder.correct_readout", "qtcodes/tools/benchmarking.py:TopologicalBenchmark.sweep", "data/xxzz_threshold/20210601/simulation.py"]}
{"id": "C93", "title": "What the logical error rate depends on", "statement": "The decoded value of a benchmark execution is a function of the errors that matter for the readout, whatever the measurement outcomes; so the logical error rate depends on the probabilities of these errors only: XZZX codes with X and Z errors of probability p each have exactly the rate of XXZZ codes with X errors of probability p. Exchanging errors and no errors on the data qubits at one time step exchanges right and wrong: with one time step the rate at 1-p is 1 minus the rate at p, and if the data qubits are random at one time step the rate is exactly 1/2.", "quantifier": "every lattice size, class, number of time steps and independent Pauli noise, every err_prob but 1/2 and those outside [0,1), every measurement outcome, every matching library meeting its contract", "why_tests_cant": "equalities of probabilities; simulations only estimate them, and only for a few sizes", "anchors": ["qtcodes/fitters/lattice_decoder.py:LatticeDecoder.correct_readout", "qtcodes/fitters/lattice_decoder.py:LatticeDecoder._is_crossing_readout_path", "qtcodes/circuits/xzzx.py:_XZZXLattice", "qtcodes/circuits/xxzz.py:_XXZZLattice", "data/xxzz_threshold/20210601/simulation.py", "data/xzzx_threshold/20210611/simulation.py"]}
{"id": "C94", "title": "How fast the logical error rate falls with the probability of an error", "statement": "With errors of the identity gates of probability at most p the logical error rate is at most C(n,t) p^t, with errors of probability between p and p' at least p^t (1-p')^(n-t), where n is the number of identity gates and t = (distance+1)/2. So in a doubly logarithmic plot of the logical error rate over p, the slope tends to exactly (distance+1)/2 as p goes to 0; the same if the decoder is given err_prob = p.", "quantifier": "every lattice size (distance at most 10000 with err_prob), class, number of time steps, independent Pauli noise, every measurement outcome, every matching library meeting its contract", "why_tests_cant": "the limit of small probabilities is where simulations see no wrong value at all", "anchors": ["qtcodes/fitters/lattice_decoder.py:LatticeDecoder.correct_readout", "qtcodes/fitters/lattice_decoder.py:LatticeDecoder._make_error_graph", "qtcodes/tools/benchmarking.py:TopologicalBenchmark.sweep", "data/xxzz_threshold/20210601/simulation.py"]}
{"id": "C95", "title": "Decoders that share their parameter dictionary", "statement": "A decoder keeps a reference to the caller's dictionary and makes its encoder from it only when the first string is decoded. Whatever happens to the dictionary in between - qubits and other decoders made from it, operations that count rounds and readouts in it -, strings are decoded with the size the decoder was made for. A decoder made from a qubit's own dictionary after n+1 stabilizations has the qubit's size and n time steps, so it decodes the qubit's readout correctly.", "quantifier": "every sequence of such actions with any arguments (going on after exceptions), both decoder classes, every size, string, type and err_prob; noisy executions of any class for the last sentence", "why_tests_cant": "aliasing and laziness only matter for particular orders of calls on shared objects, of which there are infinitely many", "anchors": ["qtcodes/fitters/lattice_decoder.py:LatticeDecoder.encoder", "qtcodes/fitters/lattice_decoder.py:LatticeDecoder.__init__", "qtcodes/fitters/base.py:TopologicalDecoder.__init__", "qtcodes/circuits/rotated_surface.py:_RotatedLattice._params_validate_and_generate"]}
{"id": "C96", "title": "Strings that do not fit the decoder are refused", "statement": "A hit that is not a node of the decoding graph makes decoding end with KeyError, whatever the other hits are. So a string with more rounds than the decoder was made for is refused exactly if a stabilizer of the type changes after the decoder's last time step, and is decoded otherwise; it is never decoded from a part of its hits. In particular a decoder made from the qubit's own dictionary refuses readouts of all data qubits in which the last round and the plaquettes of the data qubits disagree.", "quantifier": "every decoder made by either class, type, list of hits, string of rounds of bits, final readout, matcher, and err_prob 0, None or in (0,1) without 1/2", "why_tests_cant": "tests use strings that fit; what happens to the others depends on every place where hits are looked up, and a silent default would only show as a worse error rate", "anchors": ["qtcodes/fitters/lattice_decoder.py:LatticeDecoder._make_error_graph", "qtcodes/fitters/lattice_decoder.py:LatticeDecoder.correct_readout", "qtcodes/fitters/rotated_surface.py:RotatedDecoder._make_syndrome_graph"]}
{"id": "C97", "title": "The matched graph shows the matches the decoder uses", "statement": "The graph returned by _run_mwpm_graph, which README and tutorials draw to explain decoding, has exactly the ends of the pairs returned by _run_mwpm as nodes, each once, and exactly those pairs as edges, each with the weight it has in the error graph. For the error graph of distinct hits the pairs are those correct_readout flips the value for, and the total weight is minus the smallest number of faults that explains the hits.", "quantifier": "every graph with distinct nodes and at most one edge between any two, integer and float weights, every optimal matching the library may pick; every decoder, type and set of distinct hits for the second part", "why_tests_cant": "the two methods are separate implementations that must agree on every graph, and minimality is a statement about all sets of faults", "anchors": ["qtcodes/fitters/lattice_decoder.py:LatticeDecoder._run_mwpm_graph", "qtcodes/fitters/lattice_decoder.py:LatticeDecoder._run_mwpm"]}
{"id": "C98", "title": "Faults that lie in few lines are corrected beyond half the distance", "statement": "If the number of elementary faults (data flips at any time, misreadings of inner rounds), together with the number of lines - rows for the readout of Z, columns for the readout of X - in which an odd number of data qubits flip, is less than the distance, the decoder returns the true logical value. So flips of pairs of data qubits of one line, and misreadings, count once, although each flip of a single qubit counts twice. For hits, for strings of logical and lattice readouts, and for noisy executions of the circuits.", "quantifier": "every lattice size, number of rounds, fault set, reference syndrome, outcome of the measurements and every minimum-weight matching", "why_tests_cant": "quantifies over all fault sets up to the distance, and over every choice of the matching library", "anchors": ["qtcodes/fitters/lattice_decoder.py:LatticeDecoder.correct_readout", "qtcodes/fitters/lattice_decoder.py:LatticeDecoder._run_mwpm"]}
{"id": "C99", "title": "Pauli errors anywhere in the circuits are corrected up to a third of the distance", "statement": "A logical qubit of an XXZZ or repetition code is prepared and stabilized at least once without errors. Then come stabilizations, identity and logical gates in which Pauli errors X, Y or Z hit any qubits - data or syndrome - between any two instructions, also between the entangling gates of a round, where they spread to several qubits. If there are fewer than a third of the distance such errors, the decoded value of a following readout is the one without errors: for the lattice readout of Z at once, for readouts of a logical operator of either type after two rounds without errors. The point is the order of the entangling gates: an error on a syndrome qubit spreads along the logical operator that does not matter.", "quantifier": "every lattice size, number of rounds, set and place of the errors, outcome of the measurements, starting state and every minimum-weight matching", "why_tests_cant": "quantifies over every place in circuits of every size, over measurement outcomes and over choices of the matching library; the tests of the repository put single errors between rounds", "anchors": ["qtcodes/circuits/xxzz.py:_XXXX.entangle", "qtcodes/circuits/xxzz.py:_ZZZZ.entangle", "qtcodes/circuits/rotated_surface.py:RotatedQubit.stabilize", "qtcodes/fitters/lattice_decoder.py:LatticeDecoder.correct_readout"]}
{"id": "C100", "title": "A third of the distance is the best possible for errors anywhere in the circuits", "statement": "The bound of C99, and that of C101 for the readout of Z, cannot be improved: for every number f of errors with height/3 < f < height/2 there are f consecutive rounds, each with a single Pauli error between two gates, such that a logical qubit prepared in |0>, stabilized once without errors, then through these rounds and read out, is decoded to 1 - for every outcome of the measurements, every code, every lattice of this height and every minimum-weight matching. A code of distance 5 therefore does not survive two errors, although it has the distance for it.", "quantifier": "every lattice size, number of errors between a third and a half of the height, outcome of the measurements and every minimum-weight matching", "why_tests_cant": "quantifies over all lattice sizes and every choice of the matching library; needs the exact weight of every competing correction", "anchors": ["qtcodes/fitters/rotated_surface.py:RotatedDecoder._make_syndrome_graph", "qtcodes/circuits/xxzz.py:_ZZZZ.entangle", "qtcodes/fitters/lattice_decoder.py:LatticeDecoder.correct_readout"]}
{"id": "C101", "title": "Pauli errors anywhere in the circuits of the XZZX code are corrected up to a third or a quarter of the distance", "statement": "The statement of C99 for the XZZX code: with Pauli errors X, Y or Z on any qubits between any two instructions of stabilizations, identity and logical gates, after a round without errors, the decoded value is the one without errors if there are fewer errors than a third of the height, for the lattice readout of Z and (after two rounds without errors) for the readout of the logical Z; and if there are fewer errors than a quarter of the width, for the readout of the logical X (after two rounds without errors). The X plaquettes and the Z plaquettes of this code meet their data qubits in the same order - upper row first - so the errors of syndrome qubits of Z plaquettes spread along the row, which is the logical operator that matters for the readout of X.", "quantifier": "every lattice size, number of rounds, set and place of the errors, outcome of the measurements, starting state and every minimum-weight matching", "why_tests_cant": "quantifies over every place in circuits of every size, over measurement outcomes and over choices of the matching library; the tests of the repository put single errors between rounds", "anchors": ["qtcodes/circuits/xzzx.py:_XZZX.entangle", "qtcodes/circuits/rotated_surface.py:RotatedQubit.stabilize", "qtcodes/fitters/lattice_decoder.py:LatticeDecoder.correct_readout"]}
{"id": "C102", "title": "A quarter of the width is the best possible for the readout of X of the XZZX code", "statement": "The bound of C101 cannot be improved: on every XZZX lattice with more than one row and for every number f of errors with width/4 < f < width/2 there are f Z errors on syndrome qubits of Z plaquettes, all in one round, such that a logical qubit prepared in |+>, stabilized without errors, then with these errors, then without, and read out in X is decoded to 1 - for every outcome of the measurements and every minimum-weight matching. On the 3x3 lattice a single error suffices.", "quantifier": "every lattice size, number of errors between a quarter and a half of the width, outcome of the measurements and every minimum-weight matching", "why_tests_cant": "quantifies over all lattice sizes and every choice of the matching library", "anchors": ["qtcodes/circuits/xzzx.py:_XZZX.entangle", "qtcodes/fitters/lattice_decoder.py:LatticeDecoder.correct_readout"]}
{"id": "C103", "title": "If errors anywhere in the circuits are rare, the logical error rate falls exponentially with the distance", "statement": "During each operation (stabilization, identity or logical gate) after a round without errors, each qubit may suffer errors: any number of Pauli errors between any of the instructions. Whether it does need not be independent of the others, but any k given pairs of an operation and a qubit are all affected with probability at most p^k (independent errors with probability at most p are a special case). If there are at most G operations per round and 10 G p <= u^20 for some u with 15 u < 1, then the probability that the decoded value may be wrong - for some errors at the affected places, some outcome of the measurements - is at most T * breadth / 5 * (15 u)^distance / (1 - 15 u), where T is the number of time steps of the decoder. In particular there is a threshold: if p <= 1 / (10 G 30^20), it is as small as desired on all sufficiently large square lattices, even if the number of rounds grows like a power of the distance. For all three codes, the lattice readout of Z and (after two rounds without errors) the logical readouts.", "quantifier": "every lattice size with distance at least 3, number of rounds, sequence of operations, distribution of the errors with this property, outcome of the measurements, starting state and every minimum-weight matching", "why_tests_cant": "a statement about probabilities over an unbounded family of circuits, with errors that may conspire; the simulations of the repository sample a few distances with errors on identity gates only", "anchors": ["qtcodes/circuits/xxzz.py:_XXXX.entangle", "qtcodes/circuits/xxzz.py:_ZZZZ.entangle", "qtcodes/circuits/xzzx.py:_XZZX.entangle", "qtcodes/circuits/rotated_surface.py:RotatedQubit.stabilize", "qtcodes/fitters/lattice_decoder.py:LatticeDecoder.correct_readout"]}
{"id": "C104", "title": "A single error before the first round of stabilization is corrected", "statement": "If a qubit is prepared, suffers a single Pauli error of a data or syndrome qubit before the first stabilization, and no further errors, the decoded value is the right one (distance at least 3, at least two rounds). This is false of the code: the decoder compares each round with the one before it, and the first round with nothing, although the stabilizers of the prepared type are known to read 0. An error of data qubit 0 that turns the logical operator is in all rounds and in the readout, so the decoded value is always the opposite of the right one, in every code, size, basis and for every number of rounds; so is it after an error of the syndrome qubit next to it, which looks like an error after the first round. What is true: errors of data qubits before the first round do nothing but flip the decoded value if they flip the logical operator, whatever tolerable errors come later.", "quantifier": "every lattice size, code, basis, number of rounds, sequence of operations, outcome of the measurements, starting state and every minimum-weight matching", "why_tests_cant": "the tests prepare with reset and stabilize before they insert errors, so errors before the first round never occur in them; which ones are harmful depends on the lattice", "anchors": ["qtcodes/fitters/lattice_decoder.py:LatticeDecoder.parse_readout", "qtcodes/circuits/rotated_surface.py:_RotatedLattice.parse_readout", "qtcodes/fitters/lattice_decoder.py:LatticeDecoder.correct_readout"]}
{"id": "C105", "title": "Whatever the state of the qubits, the parsed syndromes of both types are exactly those of the errors", "statement": "Let the circuit of a surface code qubit consist of any stabilizations, identities and logical gates, with Pauli errors in any of them as in C63, and a logical readout. The state before it is arbitrary (not prepared by a reset, entangled with anything, with syndrome qubits 0): the stabilizers of both types may have random values in the first round. Then in every execution, parsing the string gives for both types a node exactly at the positions and times at which an odd number of faults, of those between the first and the last round, change the stabilizer.", "quantifier": "every lattice size, code, number of rounds, sequence of operations, errors, outcome of the measurements and starting state", "why_tests_cant": "the stabilizers of the type that is not prepared are random, so a run of a test sees a few of exponentially many outcomes; the starting state is continuous", "anchors": ["qtcodes/circuits/rotated_surface.py:_RotatedLattice.parse_readout", "qtcodes/circuits/rotated_surface.py:RotatedQubit.stabilize", "qtcodes/circuits/xxzz.py:_XXZZ.entangle", "qtcodes/circuits/xzzx.py:_XZZX.entangle", "qtcodes/fitters/lattice_decoder.py:LatticeDecoder.parse_readout"]}
{"id": "C106", "title": "An unknown quantum state is kept, and the decoder tells which logical operators to undo", "statement": "Let a surface code qubit be in any state whose syndrome qubits are 0 and undergo any stabilizations, identities and logical gates with tolerable errors (C63, or C99: anywhere in the circuits, between rounds without errors). Every execution transforms the state by a linear map K that depends on the outcomes only. Give the decoder the outcomes, with the value 0 in place of a readout, once for X and once for Z. The two bits it gives say how K passes the logical operators: logical X after K is K after logical X up to a sign, which is the decoded X bit (and the parity of the logical Z gates), and likewise for Z. So after undoing logical operators according to the two bits, a superposition a|0> + b|1> of the code has become the superposition, with the same a and b, of a state with logical Z = +1 and its image under logical X: nothing about a and b is lost or measured. If the state has a value of the logical operator that is read, the decoded value is it (turned by the logical gates).", "quantifier": "every lattice size, code, number of rounds, sequence of operations, tolerable errors, outcome of the measurements, state of the qubits and every minimum-weight matching", "why_tests_cant": "about all states of the qubits, which a test can neither list nor see; the tests of the repository only check single syndromes", "anchors": ["qtcodes/fitters/lattice_decoder.py:LatticeDecoder.correct_readout", "qtcodes/circuits/rotated_surface.py:RotatedQubit.stabilize", "qtcodes/circuits/xxzz.py:_XXZZ.entangle", "qtcodes/circuits/xzzx.py:_XZZX.entangle", "qtcodes/circuits/rotated_surface.py:_RotatedLattice.parse_readout"]}
{"id": "C107", "title": "The repository's own tests of single errors pass, for every size and not only those tried", "statement": "Take the test of single errors of the repository (tests/base.py): for every data qubit, each error x and z (leaving out those the lattice does not protect against) and each readout type, a new circuit prepares logical 0, stabilizes, applies the error, stabilizes and reads out; the decoder must give 0 for every readout string, and all nodes parsed from a string must be among the expected neighbours of the data qubit. For the XXZZ code on every odd lattice with at least two data qubits, for the XZZX code on every odd lattice with both sides larger than 1, for every T from 1, and for a repetition decoder with any odd distance, setting up and running the test ends without an exception or failed assertion, whatever counts the simulator gives for the circuit. The nodes of the XXZZ code are exactly the expected ones. The tests of wrong sizes of the repetition code also pass, for every string and every pair with a wrong side.", "quantifier": "every odd size, code, T, data qubit, error, readout type, readout string of a possible execution of the circuit, dictionary of counts, and every minimum-weight matching", "why_tests_cant": "the tests are run for five sizes and for the outcomes that the simulator happens to draw; they do not show that they cannot fail", "anchors": ["qtcodes/fitters/lattice_decoder.py:LatticeDecoder.correct_readout", "qtcodes/fitters/lattice_decoder.py:LatticeDecoder.parse_readout", "qtcodes/circuits/rotated_surface.py:RotatedQubit.stabilize", "qtcodes/fitters/rotated_surface.py:RepetitionDecoder._params_validation", "qtcodes/circuits/repetition.py:RepetitionQubit"]}
{"id": "C108", "title": "Drawings show every node and edge of the decoder's graphs, and are returned", "statement": "draw shows a graph with one dot for every node at its column and row (and time step, if there is more than one), and one line with its weight for every edge. In the drawing of a decoding graph no dot covers another dot and no weight covers another weight, although boundary nodes have no time of their own; in drawings of error graphs and of matched graphs no dot covers another. The colours are in the range of the colour map. draw returns the figure and axes it made, as its signature and documentation say.", "quantifier": "every lattice size, number of time steps, type, set of hits, probability and matching", "why_tests_cant": "a drawing is looked at, not tested; whether two of thousands of dots coincide is not seen for any size", "anchors": ["qtcodes/fitters/lattice_decoder.py:LatticeDecoder.draw", "qtcodes/fitters/lattice_decoder.py:LatticeDecoder.draw3D", "qtcodes/fitters/lattice_decoder.py:LatticeDecoder._run_mwpm_graph"]}
{"id": "C109", "title": "A data file holds what one benchmark measured, under the size that its name says", "statement": "Two benchmarks write to the same file exactly if they are the same experiment; the size and the number of time steps saved in a file are those of its name; a benchmark's data and file do not depend on what other benchmarks do, also when calls raise midway; every point in a file was there before or was measured by the benchmark of this file.", "quantifier": "every number of benchmarks, every sequence of sweeps and single measurements, every decoder, circuit and noise, every earlier content of the files", "why_tests_cant": "one benchmark at a time behaves well; what matters is every interleaving of calls of any number of benchmarks that share a directory and dictionaries", "anchors": ["qtcodes/tools/benchmarking.py:TopologicalBenchmark.__init__", "qtcodes/tools/benchmarking.py:TopologicalBenchmark.append_data", "qtcodes/tools/benchmarking.py:TopologicalBenchmark.sweep", "qtcodes/tools/benchmarking.py:TopologicalBenchmark.single"]}
{"id": "C110", "title": "A batch plot shows every file of a directory once, under its own label", "statement": "For any directory, TopologicalBatchAnalysis(dirname).plot() makes two figures, one with logarithmic axes; each shows exactly one curve per data file with exactly its points, ordered by the height of the lattice, and a line of break-even on which logical and physical rate are equal; the labels tell the curves apart and belong to the benchmarks that measured the points.", "quantifier": "every directory and order of listing, every history of benchmarks", "why_tests_cant": "figures are not tested, and whether labels are distinct depends on the histories that wrote the files", "anchors": ["qtcodes/tools/benchmarking.py:TopologicalBatchAnalysis.plot", "qtcodes/tools/benchmarking.py:TopologicalAnalysis.plot", "qtcodes/tools/benchmarking.py:TopologicalBatchAnalysis.__init__"]}
{"id": "C111", "title": "Distances in the decoding graphs have a closed form", "statement": "For all sizes and numbers of rounds, the table of path lengths a decoder computes holds for any two nodes the least number of faults that links them: the larger of the row and column distance (in diagonal steps) plus the time steps, or a way over one of the two boundaries, where time does not matter; and every edge of the error graph without error probability weighs minus that number, edges between boundary nodes weigh nothing.", "quantifier": "all odd sizes, all T, all pairs of nodes, all lists of hits", "why_tests_cant": "the tables are computed by a graph library for one size at a time; a closed form covers all sizes", "anchors": ["qtcodes/fitters/rotated_surface.py:RotatedDecoder._make_syndrome_graph", "qtcodes/fitters/lattice_decoder.py:LatticeDecoder._make_error_graph", "qtcodes/fitters/lattice_decoder.py:LatticeDecoder._path_degeneracy"]}
{"id": "C112", "title": "Decoding by matching finds a cheapest split of the hits", "statement": "For every list of distinct hits and every maximum weight matching the library may return, the reported matches split the hits into pairs and single ones as cheaply as possible among all splits (cost: least number of faults between the two of a pair, distance to the nearer boundary for single ones), and the logical value is flipped exactly if the number of single hits nearer to the first boundary is odd; so whenever all cheapest splits agree on that parity, it determines the answer.", "quantifier": "all odd sizes, all T, all lists of distinct hits, all optimal matchings", "why_tests_cant": "tests compare single matchings; that no cheaper split exists for any set of hits, and that boundary nodes never restrict the choice, needs a proof", "anchors": ["qtcodes/fitters/lattice_decoder.py:LatticeDecoder._corrections", "qtcodes/fitters/lattice_decoder.py:LatticeDecoder._run_mwpm", "qtcodes/fitters/lattice_decoder.py:LatticeDecoder.correct_readout", "qtcodes/fitters/lattice_decoder.py:LatticeDecoder._make_error_graph"]}
{"id": "C113", "title": "The look-up table is the best decoder of the shots it was made from", "statement": "Benchmark the look-up decoder on the very counts stored in its table, expecting 0 for the shots of |0> and 1 for those of |1>. Then the sum of the two reported error rates is the sum over all strings of the smaller of the two relative frequencies; no decoder whatsoever gets a smaller sum on these shots; the sum is at most 1 and equals 1 exactly if all strings have equal relative frequencies for both values.", "quantifier": "all tables with two non-empty entries of one type, all other decoders", "why_tests_cant": "that no other decoder does better is a claim about all functions from strings to values", "anchors": ["qtcodes/fitters/base.py:TopologicalDecoder.correct_readout_look_up_table", "qtcodes/fitters/base.py:TopologicalDecoder.set_look_up_table", "qtcodes/tools/benchmarking.py:TopologicalBenchmark.logical_error_rate"]}
{"id": "C114", "title": "The reported logical error rate estimates the probability of a wrong answer", "statement": "For the counts of any list of shots the reported rate is the fraction of shots decoded to something other than the expected value. If the shots are independent and each is wrong with probability q, the reported rate has mean q and variance q(1-q)/N, and the probability that it is off by e or more is at most 1/(4Ne^2). For the repetition code with data qubits that flip independently with probability p, its mean is the probability that more than half of the data qubits flip.", "quantifier": "all numbers of shots, all finite laws of a shot, all decoders that answer on them, all tolerances e; repetition codes of all odd sizes, all p", "why_tests_cant": "a test sees one random benchmark; the mean and the spread are statements about all of them", "anchors": ["qtcodes/tools/benchmarking.py:TopologicalBenchmark.logical_error_rate", "qtcodes/tools/benchmarking.py:TopologicalBenchmark.sweep", "qtcodes/fitters/lattice_decoder.py:LatticeDecoder.correct_readout"]}
{"id": "C115", "title": "No decoder of the repetition code does better than matching", "statement": "In the benchmark of the repetition code, for either logical value, the readout string is a fixed function of the value and of the set of data qubits that flipped; the other value with the other data qubits flipped gives the same string. Hence, if the data qubits flip independently with a probability of at most 1/2, no function of the readout misses the two values with a smaller total probability than the decoder of the repository, which misses both with the same probability.", "quantifier": "all odd sizes, both values, all sets of flips, all measurement results, all decoders, all p <= 1/2, all matching libraries", "why_tests_cant": "the claim compares with every possible decoder", "anchors": ["qtcodes/circuits/repetition.py:RepetitionQubit", "qtcodes/fitters/lattice_decoder.py:LatticeDecoder.correct_readout", "qtcodes/tools/benchmarking.py:TopologicalBenchmark.logical_error_rate"]}
{"id": "C116", "title": "A logical CNOT of a qubit with itself resets the qubit", "statement": "TopologicalCircuit.cx does not refuse the same qubit as control and target. If such a call succeeds, then whatever the state before and whatever is measured, the logical Z of the qubit has the value 0 afterwards (a qubit in logical 1 ends in logical 0), while all its plaquettes keep their values.", "quantifier": "all fair histories of a register, all qubits not in the sub-register 'ancilla', all states, all measurement results", "why_tests_cant": "needs the state after every possible measurement result, for all sizes", "anchors": ["qtcodes/circuits/circ.py:TopologicalCircuit.cx"]}
{"id": "C117", "title": "Errors of one kind on the XZZX code go unnoticed only as whole diagonals", "statement": "If only Z errors occur on an XZZX lattice of any odd height and width, the stabilizers notice nothing if and only if the errors fill whole diagonals (down to the right) of these kinds: a diagonal with row plus column even from the top row to the bottom row, or one with row plus column odd from the left column to the right column. Likewise for X errors with the other diagonals. On a square lattice this leaves exactly two sets: no error, and the one diagonal, which is a logical error. The XXZZ code does not have this property. In executions: the syndrome registers before and after the errors agree if and only if the set is of this form.", "quantifier": "all odd heights and widths, all sets of errors, all states with syndrome qubits 0, all measurement results", "why_tests_cant": "quantifies over all sets of errors, lattice sizes and quantum states", "anchors": ["qtcodes/circuits/xzzx.py:_XZZX.entangle", "qtcodes/circuits/rotated_surface.py:RotatedQubit.stabilize"]}
{"id": "C118", "title": "Matching makes no use of the XZZX code's strength against errors of one kind", "statement": "On a square XZZX lattice of distance 5 or more, take Z errors between two rounds on a diagonal that begins in the top row at an even column from 2 to less than half the distance. Every other set of Z errors with the same syndrome contains the whole main diagonal, so these errors could be told from the syndrome; but RotatedDecoder.correct_readout returns the wrong logical value, whatever is measured and whatever optimal matching is picked, because it also considers errors that the noise never makes.", "quantifier": "all odd distances from 5 on, all such diagonals, any number of rounds before and after, all states and measurement results, all optimal matchings", "why_tests_cant": "quantifies over distances, states, measurement results and library behaviour", "anchors": ["qtcodes/fitters/rotated_surface.py:RotatedDecoder._make_syndrome_graph", "qtcodes/fitters/lattice_decoder.py:LatticeDecoder.correct_readout", "qtcodes/circuits/xzzx.py:_XZZX.entangle"]}
{"id": "C119", "title": "When the answer does not depend on which optimal matching is found", "statement": "The answers that matching libraries meeting their contract lead to are exactly the parities of the smallest sets of faults that explain the hits, equivalently of the cheapest splits of the hits (which a search finds). If no two hits lie an odd number of time steps apart, there is only one, because the cost of a split is odd or even according to its parity; so a decoder for one time step gives the same result for every string with every library. With two or more time steps there are two hits on every lattice for which the library decides.", "quantifier": "all odd sizes, all T, all lists of distinct hits, all strings, all matching libraries", "why_tests_cant": "quantifies over all libraries allowed by the contract and over all sizes; a test sees one library", "anchors": ["qtcodes/fitters/lattice_decoder.py:LatticeDecoder._run_mwpm", "qtcodes/fitters/lattice_decoder.py:LatticeDecoder._corrections", "qtcodes/fitters/lattice_decoder.py:LatticeDecoder.correct_readout"]}
{"id": "C120", "title": "On small lattices: from which error probability on matching is not the best decoder", "statement": "Consider the benchmark for one time step, with independent errors between the rounds that turn every data qubit with the same probability p, and all rules that decide from the hits whether the measured value is flipped; the decoder of the repository is one of them. On the 3x3 lattice no rule has a smaller error rate, for all p <= 1/2. On the 3x5 and 5x3 lattices none has for p <= 1/10, but one has for 1/7 <= p < 1/2 (and from 1/9 on for one of the types). On the 5x5 lattice none has for p <= 1/38, but one has for 1/36 <= p < 1/2.", "quantifier": "all three rotated codes, both types, lattices with sides 3 and 5, all rules, all probabilities in the ranges, all measurement results, all matching libraries", "why_tests_cant": "the claim compares with all rules, of which there are 2^4096 on the 5x5 lattice, and for all probabilities", "anchors": ["qtcodes/fitters/lattice_decoder.py:LatticeDecoder.correct_readout", "qtcodes/fitters/lattice_decoder.py:LatticeDecoder._make_error_graph", "qtcodes/tools/benchmarking.py:TopologicalBenchmark.logical_error_rate"]}
{"id": "C121", "title": "Programs on the logical qubits of a topological circuit compute what they say", "statement": "Take any sequence of calls of reset_x, reset_z, x, z, id, id_data, stabilize, measure_x, measure_z and cx on the qubits of a TopologicalCircuit, in any number and order, after any fair history, such that no call raises. In every execution of the instructions it adds, with all random measurement outcomes, every readout gives the result that follows from the calls before it: 0 after a reset in its basis, flipped by x (Z basis) or z (X basis), added from the control to the target by cx (Z basis), and equal to the result of an earlier readout in this basis; and its register still holds that result when the program ends. The logical operators have the values that follow from the calls.", "quantifier": "all programs, all fair histories, all sizes and codes, all states with syndrome qubits 0, all measurement outcomes", "why_tests_cant": "programs have any length, states are continuous and measurement outcomes random", "anchors": ["qtcodes/circuits/circ.py:TopologicalCircuit.cx", "qtcodes/circuits/circ.py:TopologicalCircuit.x", "qtcodes/circuits/circ.py:TopologicalCircuit.measure_z", "qtcodes/circuits/xxzz.py:_XXZZLattice.readout_z", "qtcodes/circuits/base.py:TopologicalQubit.stabilize"]}
{"id": "C122", "title": "A rejected dictionary is worth the same to the next constructor", "statement": "The constructors of encoders and decoders write to the caller's parameter dictionary before they have checked it. Nevertheless a failed attempt has no influence on later ones: after any number of constructor calls with one dictionary that ended with an exception, every constructor returns the same object for this dictionary as it would have without these calls, or raises where it would have raised; circuit and other dictionaries are as before, and a size that some constructor accepts is not changed.", "quantifier": "all dictionaries (any kind of value under d), all sequences of failed calls of all five classes, all later calls", "why_tests_cant": "any sequence of failed calls and any dictionary", "anchors": ["qtcodes/circuits/rotated_surface.py:_RotatedLattice._params_validate_and_generate", "qtcodes/circuits/repetition.py:RepetitionQubit._validate_params", "qtcodes/fitters/rotated_surface.py:RotatedDecoder._params_validation", "qtcodes/fitters/repetition.py:RepetitionDecoder._params_validation", "qtcodes/fitters/lattice_decoder.py:LatticeDecoder._params_validation"]}
{"id": "C123", "title": "The results of the circuits have the probabilities of quantum mechanics", "statement": "By Born's rule, with the state-vector semantics of the emitted instructions: for every sequence of operations and every initial superposition of finitely many values, a property of the final state has a positive probability exactly if some execution has it and probability one exactly if all have it. The logical readouts give each value with the probability that Born's rule gives for the logical operator, and a stabilization gives each syndrome with that for the joint measurement of the plaquettes. Hence readout_x is a fair coin after reset_z and any stabilizations, logical gates and Z readouts, and readout_z after reset_x; in the first round after reset_z the bits of all Z plaquettes are 0 and those of the X plaquettes are independent fair coins (after reset_x the other way round).", "quantifier": "all classes, all odd heights and widths, all histories, all initial states, all syndromes", "why_tests_cant": "probabilities of real measurements can only be estimated; all sizes, states and histories", "anchors": ["qtcodes/circuits/xxzz.py:_XXXX.entangle", "qtcodes/circuits/xxzz.py:_ZZZZ.entangle", "qtcodes/circuits/xzzx.py:_XZZX.entangle", "qtcodes/circuits/xxzz.py:_XXZZLattice.readout_x", "qtcodes/circuits/xxzz.py:_XXZZLattice.readout_z", "qtcodes/circuits/xzzx.py:_XZZXLattice.readout_x", "qtcodes/circuits/xzzx.py:_XZZXLattice.readout_z", "qtcodes/circuits/xxzz.py:_XXZZLattice.reset_z", "qtcodes/circuits/xzzx.py:_XZZXLattice.reset_z", "qtcodes/circuits/rotated_surface.py:RotatedQubit.stabilize"]}
{"id": "C124", "title": "Errors that are not Pauli errors are corrected as well", "statement": "Let arbitrary operators act on qubits between the instructions of a memory: small rotations, Kraus operators of damping or of any other channel, projections, correlated operators on several qubits. Whatever the operations may then write into the classical bits, they may write with Pauli errors instead, as many in each operation as qubits were acted on. Hence a logical qubit prepared, stabilized once without errors, kept with such operators in the circuits of its stabilizations, identities and logical gates, and read by lattice_readout_z (or by readout_x / readout_z after two more clean rounds) is decoded to the right value in every possible execution if operators act on fewer than a third of the distance qubits, with repetition (a quarter for readout_x of the XZZX code).", "quantifier": "all classes, all odd heights and widths, all operators on all sets of qubits at all places, all sequences of memory operations, all initial states, all outcomes, all optimal matchings", "why_tests_cant": "the simulators used by the tests inject Pauli errors; operators form a continuum, sizes and places are unbounded", "anchors": ["qtcodes/circuits/xxzz.py:_XXXX.entangle", "qtcodes/circuits/xxzz.py:_ZZZZ.entangle", "qtcodes/circuits/xzzx.py:_XZZX.entangle", "qtcodes/circuits/rotated_surface.py:RotatedQubit.stabilize", "qtcodes/circuits/rotated_surface.py:RotatedQubit.lattice_readout_z", "qtcodes/fitters/lattice_decoder.py:LatticeDecoder.correct_readout"]}
{"id": "C125", "title": "An unknown quantum state survives errors that are not Pauli errors", "statement": "An unknown state is stored in a code by rounds of stabilization, identities and logical gates; between rounds without errors, arbitrary operators act on qubits between the instructions (rotations, Kraus operators, correlated operators), on fewer than a third of the distance of each type (the XZZX code: a quarter of the width). In every possible execution the decoder, asked for both types with the printed rounds, gives flips with which logical X and logical Z are taken to themselves, up to the logical gates: a superposition alpha|0> + beta|1> of the logical qubit is again alpha|0> + beta|1> when the flips are undone, with the same complex amplitudes.", "quantifier": "all classes, all odd heights and widths, all operators on all sets of qubits at all places, all sequences of memory operations, all initial states and amplitudes, all outcomes, all optimal matchings", "why_tests_cant": "amplitudes cannot be observed; operators form a continuum, sizes and places are unbounded", "anchors": ["qtcodes/circuits/xxzz.py:_XXXX.entangle", "qtcodes/circuits/xxzz.py:_ZZZZ.entangle", "qtcodes/circuits/xzzx.py:_XZZX.entangle", "qtcodes/circuits/rotated_surface.py:RotatedQubit.stabilize", "qtcodes/fitters/lattice_decoder.py:LatticeDecoder.correct_readout"]}
{"id": "C126", "title": "Weak errors everywhere add up to a small probability of a wrong value", "statement": "A logical qubit of any code is prepared, stabilized, operated on and read out (all data qubits, or the logical operator after two more rounds). After a first round without errors, N operators act between the instructions, anywhere and on at most r qubits each, each of which changes states by at most a part eps of their norm (for example systematic over-rotations of every qubit in every round). The probability, by Born's rule, that the decoded value is not the one that would be measured without errors is at most the square of the sum of C(N,n) eps^n over those n for which n such errors are not certainly corrected (3 r n >= distance; 4 r n for X of the XZZX code); with K the first of them, at most (C(N,K) eps^K (1+eps)^(N-K))^2. If the operators are unitary, probabilities add up to one.", "quantifier": "all classes, all odd heights and widths, all operators on all sets of qubits at all places, all eps, all sequences of memory operations, all initial states, all optimal matchings", "why_tests_cant": "coherent errors interfere, which simulations with random Pauli errors do not show; sizes, angles and places are unbounded", "anchors": ["qtcodes/circuits/xxzz.py:_XXXX.entangle", "qtcodes/circuits/xxzz.py:_ZZZZ.entangle", "qtcodes/circuits/xzzx.py:_XZZX.entangle", "qtcodes/circuits/rotated_surface.py:RotatedQubit.stabilize", "qtcodes/fitters/lattice_decoder.py:LatticeDecoder.correct_readout"]}
{"id": "C127", "title": "Noise that leaves traces in an environment is corrected as well", "statement": "The operators of C124 and C126 may also act on any qubits that are not in the circuit. So they may be any noise: decay, dephasing, depolarization and every other channel, also noise whose parts depend on each other over places and rounds through the environment. Only the qubits of the circuit that an operator acts on are counted. If there are few of them (3 f < height for a readout of all data qubits; 3 or 4 f < distance for a logical readout), the decoded value is with certainty the one that would be measured without errors; if there are many but each changes states by at most a part eps of their norm, the probability of another value is at most the square of the sum of C(N,n) eps^n over the n that are not certainly corrected. The environment may be in any state, also an entangled one.", "quantifier": "all classes, all odd heights and widths, all operators on all sets of qubits in and outside the circuit at all places, all eps, all sequences of memory operations, all initial states of circuit and environment, all optimal matchings", "why_tests_cant": "simulated noise models have independent Pauli errors or channels without memory; the environment is unbounded", "anchors": ["qtcodes/circuits/xxzz.py:_XXXX.entangle", "qtcodes/circuits/xxzz.py:_ZZZZ.entangle", "qtcodes/circuits/xzzx.py:_XZZX.entangle", "qtcodes/circuits/rotated_surface.py:RotatedQubit.stabilize", "qtcodes/fitters/lattice_decoder.py:LatticeDecoder.correct_readout"]}
{"id": "C128", "title": "A logical qubit is protected also in a circuit that it shares with others", "statement": "A qubit that was made in a circuit with other content, and waits there for its first operation, keeps its value as one in a circuit of its own: in between its operations registers and instructions may be added that do not use its names, qubits and classical registers (they may depend on the contents of its registers), and any operators may strike, also operators that act on the qubit and on others together. Only the physical qubits of this qubit that operators act on are counted. If there are few of them (3 f < height for a readout of all data qubits; 3 or 4 f < distance for a logical readout), the value that the decoder gets from the qubit's own classical registers is with certainty the one that would be measured without errors. Operations on other qubits of a register, CNOTs of other qubits with or without a new ancilla, and the addition of further qubits leave the qubit alone in this sense, when no parameter dictionaries are shared; a qubit just added to a register waits.", "quantifier": "all classes, all odd heights and widths, all circuits before the qubit, all that is done elsewhere at all times, all operators at all places, all sequences of memory operations, all initial states without syndromes, all executions, all optimal matchings, all sane histories of registers", "why_tests_cant": "tests run one qubit in one circuit, without errors; what else a circuit may contain is unbounded, and errors between blocks are not simulated", "anchors": ["qtcodes/circuits/base.py:TopologicalQubit", "qtcodes/circuits/circ.py:TopologicalCircuit.cx", "qtcodes/circuits/circ.py:TopologicalRegister.add_tqubit", "qtcodes/circuits/rotated_surface.py:RotatedQubit.stabilize", "qtcodes/fitters/lattice_decoder.py:LatticeDecoder.correct_readout"]}
{"id": "C129", "title": "A single error during a logical CNOT flips the target unnoticed, whatever the size of the lattices", "statement": "If the readout qubit of cx suffers one X error before it is measured for the first time (the same as one wrong outcome m1), the call does what a call without errors may do, followed by a logical X of the target. So the target gets the wrong value, not(x xor y), while every plaquette of control and target that had a certain value keeps it: there is no syndrome from which a decoder could learn of the error. This can happen to every successful call, for all sizes and all states: larger lattices do not protect a CNOT.", "quantifier": "all classes of control and target, all odd heights and widths, all states of the register, all states of the physical qubits, all executions", "why_tests_cant": "the tests run one CNOT without errors for one size; that the size gives no protection is a statement about all sizes, and that the error is invisible one about all plaquettes and states", "anchors": ["qtcodes/circuits/circ.py:TopologicalCircuit.cx", "qtcodes/circuits/xxzz.py:_XXZZLattice.x_c_if", "qtcodes/circuits/base.py:TopologicalQubit.x_c_if"]}
{"id": "C130", "title": "An error on the control before a logical CNOT is copied to the target as a logical error without syndrome", "statement": "Errors that strike before a call of cx spread as by a CNOT of the logical qubits: an operator that flips logical Z of the control by u and that of the target by w leaves the control flipped by u and the target by u xor w. The plaquettes of both show what they would show without the call. So one flip of one data qubit in the top row of the control (X, or Z at the even qubits of the XZZX code) makes the value of the target wrong while no plaquette of the target changes; only a plaquette of the control (with more than one row) tells of it, so that a decoder of the target alone, as of the package, cannot correct it, whatever the size.", "quantifier": "all classes of control and target, all odd heights and widths, all states of the register, all states of the physical qubits with known logical values, all operators that commute or anticommute with the logical Z, all data qubits of the top row, all executions", "why_tests_cant": "the tests have no errors before a CNOT; the statement is about all sizes, all plaquettes and all errors", "anchors": ["qtcodes/circuits/circ.py:TopologicalCircuit.cx", "qtcodes/circuits/circ.py:TopologicalCircuit.parse_readout", "qtcodes/fitters/lattice_decoder.py:LatticeDecoder.correct_readout"]}
{"id": "C131", "title": "Benchmarks of circuits with rare errors report small rates, and with few errors zero", "statement": "Benchmark a memory in whose circuits errors anywhere are rare in the sense of C103, with any number N of independent shots, decoded without error probability. The decoder answers on every shot, the reported rate is on average at most the bound of C103, which falls exponentially with the distance, and it exceeds the bound by e with probability at most 1/(4 N e^2). Below the threshold of C103 the reported rate is less than 2 e but for a probability d, on all large enough square lattices, as soon as 4 N e^2 d >= 1, even if the number of rounds grows like a power of the distance. If in every shot arbitrary operators act on fewer than a third of the height qubits, exactly 0 is reported.", "quantifier": "all classes, lattice sizes with distance at least 3, numbers of rounds, sequences of operations, laws of the affected places, errors at them, numbers of shots, outcomes, optimal matchings", "why_tests_cant": "a test samples a few shots of a few sizes with one noise model; the claim bounds the whole distribution of the reported rate for all of them", "anchors": ["qtcodes/tools/benchmarking.py:TopologicalBenchmark.logical_error_rate", "qtcodes/tools/benchmarking.py:TopologicalBenchmark.sweep", "qtcodes/fitters/lattice_decoder.py:LatticeDecoder.correct_readout"]}
{"id": "C132", "title": "A lone misreading is decoded right unless it is in the first or last round and nearer to the measured edge", "statement": "Prepare |0>_L or |+>_L, run T+1 >= 2 rounds of stabilization with memory operations in between, measure the logical operator and decode. If the only error is a misreading of one stabilizer of that type in one round, the decoded value is wrong exactly if the round is the first or the last and the stabilizer is nearer to the edge on which the operator is measured (upper edge for Z, left edge for X) than to the opposite edge. If all data qubits are read out instead, it is wrong exactly if the round is the first and the stabilizer is nearer to the upper edge. In general a lone syndrome hit flips the measured value exactly if it is nearer to the measured edge. As the distances are odd there are no ties, so this does not depend on the matching. Several misreadings in the first and last round and other faults: if the misreadings count as many faults as data qubits lie between the stabilizer and the nearer edge and all faults are at most (distance - 1)/2, the decoded value is wrong exactly if an odd number of those misreadings are nearer to the measured edge.", "quantifier": "every lattice size, code, basis, number of rounds, sequence of operations, place and round of the misreading, starting state, outcome sequence and minimum-weight matching", "why_tests_cant": "a test can try some stabilizers of one size with one matching; that the answer depends on nothing but the nearer edge is a claim about all of them", "anchors": ["qtcodes/fitters/lattice_decoder.py:LatticeDecoder.parse_readout", "qtcodes/circuits/rotated_surface.py:_RotatedLattice.parse_readout", "qtcodes/fitters/lattice_decoder.py:LatticeDecoder.correct_readout", "qtcodes/fitters/lattice_decoder.py:LatticeDecoder._run_mwpm"]}
{"id": "C133", "title": "Errors of data qubits before the first or after the last round are never noticed, so a larger lattice makes them worse", "statement": "Prepare |0>_L or |+>_L, run T+1 >= 1 rounds of stabilization with other memory operations in between, measure the logical operator and decode. Let the data qubits suffer independent Pauli errors before the first or after the last round, and let the other errors be tolerable ones. The syndrome measurements cannot tell the errors before the first round from the reference syndrome, and no round follows those after the last. So the decoded value is wrong exactly if an odd number of these errors flip data qubits of the measured operator. For X and Z errors of probability p <= 1/2 each per data qubit the rate is (1-(1-2p)^n)/2 for an operator of n data qubits: it rises with n, and tends to 1/2 for every p > 0, so there is no threshold. A readout of all data qubits does not notice the errors before the first round either.", "quantifier": "every code, lattice size, basis, number of rounds, sequence of operations, tolerable set of other errors, starting state, outcome sequence, minimum-weight matching and Pauli noise", "why_tests_cant": "the rate is a sum over all sets of errors, and that no probability is below a threshold is a limit over all lattice sizes", "anchors": ["qtcodes/fitters/lattice_decoder.py:LatticeDecoder.correct_readout", "qtcodes/fitters/lattice_decoder.py:LatticeDecoder.parse_readout", "qtcodes/circuits/rotated_surface.py:_RotatedLattice.parse_readout", "qtcodes/circuits/base.py:TopologicalQubit.readout_z"]}
{"id": "C134", "title": "With a readout of all data qubits the errors after the last round have a threshold as well", "statement": "Prepare |0>_L, run T >= 1 rounds of stabilization, each followed by identity gates (on all qubits, after the last round on the data qubits), read out all data qubits with lattice_readout_z and decode with a decoder for T time steps. If the identity gates make independent Pauli errors, each with an X part and a Z part of probability at most p, the probability that the decoded value may be wrong obeys the bound of C91, (T*breadth/b) x^distance/(1-x) with x = 2b sqrt(p(1-p)), b = 3 for T = 1 and 5 otherwise, if x < 1. So it vanishes on large lattices for p <= 1/36 (T = 1) or p <= 1/100 (T up to the distance). A further round of stabilization is not needed, and unlike with readout_z (C133) the errors after the last round are noticed.", "quantifier": "every code, lattice size with a distance of at least 3, number of rounds, Pauli noise below the bound, starting state, outcome sequence and minimum-weight matching", "why_tests_cant": "the rate is a sum over all error patterns, and a threshold is a limit over all lattice sizes", "anchors": ["qtcodes/circuits/base.py:TopologicalQubit.lattice_readout_z", "qtcodes/circuits/rotated_surface.py:_RotatedLattice.extract_final_stabilizer_and_logical_readout_z", "qtcodes/circuits/rotated_surface.py:_RotatedLattice.parse_readout", "qtcodes/fitters/lattice_decoder.py:LatticeDecoder.correct_readout"]}
{"id": "C135", "title": "The stabilizers are complete", "statement": "A set of data qubits meets every X plaquette evenly if and only if it is a sum (mod 2) of Z plaquettes, plus the top row exactly if it meets the left column oddly; the same with X and Z, row and column exchanged. So two sets of errors with the same syndromes differ by stabilizers and, exactly if they differ in their effect on the logical operator, by a logical operator: a decoder that is told the syndromes has one bit to guess and nothing else. Moreover every pattern of syndromes occurs, with either effect on the logical operator.", "quantifier": "every odd positive height and width, every set of data qubits, every pattern of syndromes", "why_tests_cant": "exponentially many sets of qubits for infinitely many sizes", "anchors": ["qtcodes/circuits/rotated_surface.py:_RotatedLattice._set_geometry", "qtcodes/circuits/xxzz.py:XXZZQubit", "qtcodes/fitters/lattice_decoder.py:LatticeDecoder.correct_readout"]}
{"id": "C136", "title": "Readouts of all data qubits follow Born's rule and are otherwise uniformly random", "statement": "lattice_readout_z and lattice_readout_x give a list of bits with the probability of Born's rule for the Z (X) observables of the data qubits (for the XZZX code exchanged at qubits with even number). In a state with certain values of all plaquettes and of the measured logical operator, all lists of bits whose plaquettes and logical line have these parities are equally likely, with probability 2^-(number of plaquettes of the other type), and no other list occurs: besides the syndromes and the logical value the readout tells nothing. So after reset_z and a stabilization lattice_readout_z gives each consistent list with probability 2^-(number of X plaquettes), and after reset_x each list with probability 2^-(number of data qubits); the same with X and Z exchanged.", "quantifier": "every code, lattice size, program before, state with finite support, list of bits", "why_tests_cant": "probabilities can only be estimated by tests, and there are exponentially many results", "anchors": ["qtcodes/circuits/base.py:TopologicalQubit.lattice_readout_z", "qtcodes/circuits/base.py:TopologicalQubit.lattice_readout_x", "qtcodes/circuits/xxzz.py:_XXZZLattice.lattice_readout_z", "qtcodes/circuits/xzzx.py:_XZZXLattice.lattice_readout_x"]}
{"id": "C137", "title": "A lattice holds exactly one qubit", "statement": "For all values of the plaquettes, the states of the data qubits with these values are the combinations a|0>_L + b|1>_L of two states, one with logical Z of value 1 and its image under the logical X, with unique coefficients: no syndrome is impossible, and there is room for one qubit and nothing else. The values of the plaquettes and of the logical Z (or X) determine the state up to a factor. So after reset_z (reset_x) and a stabilization, the state is |0>_L (|+>_L) with the recorded syndromes, and executions with the same syndromes end in the same state, whatever the data qubits were in before.", "quantifier": "every code, lattice size, values of the plaquettes, state, pair of executions", "why_tests_cant": "a statement about all states, and about all results of measurements", "anchors": ["qtcodes/circuits/rotated_surface.py:_RotatedLattice._set_geometry", "qtcodes/circuits/rotated_surface.py:RotatedQubit.stabilize", "qtcodes/circuits/xxzz.py:_XXZZLattice.reset_z", "qtcodes/circuits/xzzx.py:_XZZXLattice.reset_x"]}
{"id": "C138", "title": "Fewer data qubits than the distance know nothing about the logical state, and errors on them are noticed or harmless", "statement": "Take any operator E (a rotation, a Kraus operator of a damping, a result of a measurement, correlated or not) on a set of data qubits with fewer elements than the height and the width of the lattice. Between projections to the same values of all plaquettes E is a number (the condition of Knill and Laflamme). So if E strikes a state with certain syndromes and the next stabilization gives the same syndromes, the state is back to what it was, up to a factor that does not depend on the state; and E has the same probability in all states with the same syndromes, so that no measurement of these qubits tells anything about the logical qubit. Both are sharp: the logical Z acts on as many data qubits as the width, the logical X on as many as the height, and neither is a number.", "quantifier": "every code, lattice size, set of data qubits, operator on them, values of the plaquettes, state, execution", "why_tests_cant": "a statement about all operators and all states", "anchors": ["qtcodes/circuits/rotated_surface.py:_RotatedLattice._set_geometry", "qtcodes/circuits/rotated_surface.py:RotatedQubit.stabilize", "qtcodes/circuits/xxzz.py:_XXZZLattice.x", "qtcodes/circuits/xzzx.py:_XZZXLattice.z"]}
{"id": "C139", "title": "A logical qubit has the amplitudes, gates and measurements of a qubit", "statement": "With given syndromes the states of a lattice are the logical states a|0>_L + b|1>_L with unique amplitudes a and b (C137). reset_z and a stabilization give amplitudes proportional to 1 and 0, reset_x and a stabilization equal amplitudes, with the syndromes the stabilization recorded. Any sequence of x, z, id, id_data and stabilize takes the logical state to the one with the amplitudes of a single qubit after the same gates (x exchanges a and b, z changes the sign of b, the others do nothing), in every execution. A following readout_z gives 0 with probability |a|^2/(|a|^2+|b|^2) and 1 with probability |b|^2/(|a|^2+|b|^2), and a following readout_x gives 0 with probability |a+b|^2/2(|a|^2+|b|^2) and 1 with |a-b|^2/2(|a|^2+|b|^2), with the amplitudes after the gates. After the readout the state is again a logical state with the same syndromes and the amplitudes of a measured qubit: after readout_z the amplitude of the value not read is 0 and the other unchanged; after readout_x the amplitudes are (a+b)/2 and (a+b)/2, or (a-b)/2 and -(a-b)/2.", "quantifier": "every code, lattice size, syndromes, amplitudes, sequence of gates and stabilizations, execution", "why_tests_cant": "a statement about all amplitudes and the probabilities of measurements; tests try basis states and estimate probabilities", "anchors": ["qtcodes/circuits/xxzz.py:_XXZZLattice.x", "qtcodes/circuits/xxzz.py:_XXZZLattice.z", "qtcodes/circuits/xzzx.py:_XZZXLattice.x", "qtcodes/circuits/xzzx.py:_XZZXLattice.z", "qtcodes/circuits/xxzz.py:_XXZZLattice.readout_x", "qtcodes/circuits/xxzz.py:_XXZZLattice.readout_z", "qtcodes/circuits/rotated_surface.py:RotatedQubit.stabilize"]}
{"id": "C140", "title": "Pauli errors on data qubits are gates to the logical qubit, and what the stabilizers notice determines them up to such gates", "statement": "Any sequence of X and Z errors on data qubits takes a logical state to a logical state (C139). Its syndromes are changed exactly at the plaquettes that notice an odd number of the errors, and its amplitudes are those of a qubit after certain gates: a Z gate for every error that anticommutes with the logical X of the left column and an X gate for every error that anticommutes with the logical Z of the top row. Errors between gates and stabilizations act as these gates in their places. So after errors, gates and stabilizations readout_z and readout_x have the probabilities they have for a qubit on which these gates acted first. Two sequences of errors that the same plaquettes notice have, up to a factor of absolute value 1, the same effect but for gates x and z on the logical qubit: all a decoder has to decide is which of these gates to undo.", "quantifier": "every code, lattice size, sequence of errors, syndromes, amplitudes, following sequence of gates and stabilizations", "why_tests_cant": "all sets of errors and all superpositions; tests use single errors on basis states", "anchors": ["qtcodes/circuits/xxzz.py:_XXZZLattice.x", "qtcodes/circuits/xxzz.py:_XXZZLattice.z", "qtcodes/circuits/xzzx.py:_XZZXLattice.x", "qtcodes/circuits/xzzx.py:_XZZXLattice.z", "qtcodes/circuits/xxzz.py:_XXZZLattice.readout_x", "qtcodes/circuits/xxzz.py:_XXZZLattice.readout_z", "qtcodes/circuits/rotated_surface.py:RotatedQubit.stabilize"]}
{"id": "C141", "title": "Undoing any guess that explains the syndromes restores the state if errors and guess are on few qubits", "statement": "A logical qubit in any state with known syndromes suffers X and Z errors on data qubits, and is stabilized. Take any other list of X and Z errors on data qubits that explains the changes of the recorded syndromes. If the errors and the guess are together on fewer data qubits than the height and than the width of the lattice (for example both on at most (d-1)/2 qubits of a d x d lattice), undoing the guess gives back the state from before the errors up to a phase that is the same for all states. The same holds, up to a factor, for errors of any kind: any operator on these qubits, for example a rotation by any angle. This is sharp: there are errors on as many qubits as the height, and on as many as the width, that no plaquette notices and that change a state, so that the guess that nothing happened is wrong.", "quantifier": "every code, lattice size, state of the logical qubit, errors, guess, execution of the stabilization", "why_tests_cant": "all states, all sets of errors and all explanations of them; tests decode chosen errors on basis states", "anchors": ["qtcodes/circuits/rotated_surface.py:RotatedQubit.stabilize", "qtcodes/circuits/xxzz.py:_XXZZLattice", "qtcodes/circuits/xzzx.py:_XZZXLattice"]}
{"id": "C142", "title": "A stabilization turns errors of any kind on few qubits into X and Z errors on these qubits", "statement": "An error of any kind (any operator: a rotation by any angle, a damping, a joint error of several qubits) acts on fewer data qubits than the height and the width of the lattice, on a state with known syndromes. After the next stabilization the state is, up to a factor, the one that some X and Z errors on the same qubits would have made of the state before. These errors explain the changes of the recorded syndromes, and they and the factor depend only on the error and the recorded syndromes, not on the state.", "quantifier": "every code, lattice size, state, error operator, execution of the stabilization", "why_tests_cant": "a continuum of errors and states; tests can only insert a few gates", "anchors": ["qtcodes/circuits/rotated_surface.py:RotatedQubit.stabilize", "qtcodes/circuits/xxzz.py:_XXZZLattice", "qtcodes/circuits/xzzx.py:_XZZXLattice"]}
