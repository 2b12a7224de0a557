# Formal model of yaleqc/qtcodes in Lean 4

## Layout

* `properties.jsonl` – the English properties (C01 ...).
* `lean/Verif/Model/*.lean` – the model, function by function; each definition cites the lines of `/repo` it models.
* `lean/Verif/Spec/*.lean` – small, model-independent vocabulary used by the property statements
  (sites of a checkerboard, bits of a round, faults, matchings, histories, Pauli operators, ...).
* `lean/Verif/Proof/*.lean` – helper lemmas only.
* `lean/Verif/Props/*.lean` – the property theorems, named `Cnn_...`, each with a non-vacuity `example` beside it.
* `MANIFEST.json` – claim status; `seeded/LOG.jsonl` – wrong-program experiments; lines marked as edits of a statement test only what a proof needs.

## Modelling conventions

* Exceptions are values: a Python function that may raise returns `Except PyErr α`.
* Python `int` is `Int`/`Nat`; `//` and `%` are floor division and modulo (`Int.fdiv`, `Int.fmod`).
* Python `str` is `List Char`.
* Grid coordinates, which the code stores as half-integer floats, are stored *doubled* as `Int`
  (`0.5` is `1`, `-0.5` is `-1`); half-integers are exact in floating point, so nothing is lost.
* A Python dict whose iteration order does not matter is a function to `Option`; where order matters it is a list.
* A mutable object shared by reference (the `params` dictionary of a lattice) lives in an explicit heap.
* Third-party libraries are not modelled by code but by a contract: `retworkx` graphs by an adjacency list,
  `graph_floyd_warshall_numpy` by shortest-walk length, `num_shortest_paths_unweighted` by the number of shortest walks,
  `max_weight_matching(max_cardinality=True)` by an arbitrary function that returns *some* maximum-cardinality,
  maximum-weight matching (the theorems hold for every such function), Qiskit circuits by an instruction list and the
  textbook state-vector semantics with projective measurement.

## Trusted base

* The Lean 4 kernel, and the axioms `propext`, `Classical.choice`, `Quot.sound` (no theorem depends on any other; no `sorry`,
  no `native_decide`, no own axioms).
* That the definitions in `Model/` say what the cited lines of `/repo` do. They were written by reading the source; the code
  was never run.
* For C55–C66, C81, C82, C88, C89, C91–C95 and C99–C106: that the state-vector semantics in `Spec/Quantum.lean` (gates, projective measurement, reset, conditions on
  registers) is what a quantum computer does with the instructions (errors are instructions of their own).
* The contracts for third-party code listed above and in the comments of the model files: retworkx, numpy, multiprocessing,
  files, and Qiskit's register and circuit classes.

What is modelled: `qtcodes/circuits/{base,rotated_surface,xxzz,xzzx,repetition,circ}.py`,
`qtcodes/fitters/{base,lattice_decoder,rotated_surface,repetition}.py` and `qtcodes/tools/benchmarking.py`, as far as the
properties need them.

What is not modelled: drawing and plotting (`draw`, `plot`, `__str__`), type annotations, printed text, logging, floating-point
rounding in look-up probabilities, Qiskit's check of register names against a regular expression, performance and memory limits
(except the recursion limit, C22 and C74), noise models other than Pauli errors after identity gates (C63, C82) or
anywhere in the circuits (C99–C103), transpilation and backends.

## Comparison with recorded outputs

The code is not run here, but the notebooks under /repo/tutorials hold outputs of runs by its authors. `Props/Recorded.lean` checks the model
against them:

* every matching printed for a decoder without error probability is a cheapest split of the printed hits (C112);
* the printed results of `parse_readout` are those of the model;
* the probabilities and the answer printed for the look-up table are those of the model.

Checked by hand only: the widths of the figures (180 times the root of the number of nodes, in pixels) fit the numbers of nodes of C22 and C26, and the
sets of strings printed for noiseless circuits fit C57 to C61.

## Coverage

Every function of `/repo/qtcodes` that is not an abstract declaration, and the definitions in `Model/` that say what it does (the first
few; helpers are cited line by line in the files).

| lines | function | definitions |
|---|---|---|
| `circuits/base.py:25-27` | `_Stabilizer.__init__` | `testErrorRate` |
| `circuits/base.py:43-45` | `_TopologicalLattice.H` | `testRateLoop`, `testErrorRate`, `extractX` |
| `circuits/base.py:48-50` | `_TopologicalLattice.W` | `neighborsBase`, `extractX` |
| `circuits/base.py:53-55` | `_TopologicalLattice.SYNX` | `neighborsBase` |
| `circuits/base.py:58-60` | `_TopologicalLattice.SYNZ` | `neighborsBase` |
| `circuits/base.py:62-95` | `_TopologicalLattice.__init__` | `neighborsBase`, `simulateCircuit`, `newLattice` |
| `circuits/base.py:131-154` | `_TopologicalLattice.entangle` | `checkNodes`, `simulateChecks`, `testCalls`, `Lattice.entangle` |
| `circuits/base.py:273-300` | `TopologicalQubit.__init__` | `newQubit` |
| `circuits/base.py:317-324` | `TopologicalQubit.id` | `TQubit.id` |
| `circuits/base.py:326-332` | `TopologicalQubit.id_data` | `TQubit.idData` |
| `circuits/base.py:334-338` | `TopologicalQubit.reset_x` | `QOp` |
| `circuits/base.py:340-344` | `TopologicalQubit.reset_z` | `QOp` |
| `circuits/base.py:346-350` | `TopologicalQubit.x` | `QOp` |
| `circuits/base.py:352-356` | `TopologicalQubit.z` | `QOp` |
| `circuits/base.py:358-362` | `TopologicalQubit.x_c_if` | `QOp` |
| `circuits/base.py:364-368` | `TopologicalQubit.z_c_if` | `QOp` |
| `circuits/base.py:370-386` | `TopologicalQubit.cx` | `TQubit.cx`, `QOp` |
| `circuits/base.py:388-392` | `TopologicalQubit.readout_x` | `QOp` |
| `circuits/base.py:394-398` | `TopologicalQubit.readout_z` | `QOp` |
| `circuits/base.py:400-406` | `TopologicalQubit.lattice_readout_x` | `QOp` |
| `circuits/base.py:408-414` | `TopologicalQubit.lattice_readout_z` | `QOp` |
| `circuits/base.py:416-424` | `TopologicalQubit.parse_readout` | `TQubit.parse` |
| `circuits/circ.py:17-48` | `TopologicalRegister.__init__` | `TState.fresh`, `newTReg` |
| `circuits/circ.py:50-81` | `TopologicalRegister.add_tqubits` | `addAll`, `addTqubits` |
| `circuits/circ.py:83-99` | `TopologicalRegister.add_tqubit` | `touchSub`, `TReg.qubitName`, `makeQubit`, `storeQubit`, `addTqubit` |
| `circuits/circ.py:101-113` | `TopologicalRegister.__getitem__` | `TReg.find?`, `TReg.getItem` |
| `circuits/circ.py:122-126` | `TopologicalCircuit.__init__` | `TState.fresh` |
| `circuits/circ.py:128-133` | `TopologicalCircuit.add_creg` | `addCregT` |
| `circuits/circ.py:135-140` | `TopologicalCircuit.add_qreg` | `addQregT` |
| `circuits/circ.py:142-158` | `TopologicalCircuit._get_index` | `getIndex` |
| `circuits/circ.py:160-169` | `TopologicalCircuit.stabilize` | `onQubit`, `TOp` |
| `circuits/circ.py:171-181` | `TopologicalCircuit.id` | `onQubit`, `TOp` |
| `circuits/circ.py:183-193` | `TopologicalCircuit.id_data` | `onQubit`, `TOp` |
| `circuits/circ.py:195-204` | `TopologicalCircuit.reset_x` | `onQubit`, `TOp` |
| `circuits/circ.py:206-215` | `TopologicalCircuit.reset_z` | `onQubit`, `TOp` |
| `circuits/circ.py:217-226` | `TopologicalCircuit.x` | `onQubit`, `TOp` |
| `circuits/circ.py:228-237` | `TopologicalCircuit.z` | `onQubit`, `TOp` |
| `circuits/circ.py:239-310` | `TopologicalCircuit.cx` | `QClass.ctype`, `ancillaKind`, `ensureAncilla`, `lastAncilla`, `prepareCx`, `measureZZ` |
| `circuits/circ.py:312-325` | `TopologicalCircuit.measure_x` | `onQubit`, `TOp` |
| `circuits/circ.py:327-340` | `TopologicalCircuit.measure_z` | `onQubit`, `TOp` |
| `circuits/circ.py:342-353` | `TopologicalCircuit.measure_lattice_x` | `onQubit`, `TOp` |
| `circuits/circ.py:355-366` | `TopologicalCircuit.measure_lattice_z` | `onQubit`, `TOp` |
| `circuits/circ.py:368-396` | `TopologicalCircuit.parse_readout` | `parseT` |
| `circuits/repetition.py:21-28` | `RepetitionQubit.__init__` | `DClass.validate`, `checkRep`, `newQubit` |
| `circuits/repetition.py:31-69` | `RepetitionQubit._validate_params` | `DClass.touched`, `Num.isOne`, `repValidate` |
| `circuits/rotated_surface.py:34-53` | `_RotatedLattice.__init__` | `newLattice` |
| `circuits/rotated_surface.py:55-91` | `_RotatedLattice._params_validate_and_generate` | `neighborsXZZX`, `toIntTuple`, `numSynX`, `numSynZ`, `rotatedSize`, `rotatedTouched` |
| `circuits/rotated_surface.py:93-115` | `_RotatedLattice._gen_registers` | `neighborsXZZX`, `optReg`, `newLattice`, `Lattice.qregs` |
| `circuits/rotated_surface.py:117-179` | `_RotatedLattice._set_geometry` | `Plaq`, `perRowX`, `perRowZ`, `geomX`, `geomZ`, `geometryX` |
| `circuits/rotated_surface.py:181-210` | `_RotatedLattice._gen_qubit_indices_and_stabilizers` | `cornerQubit`, `qplaq`, `genPlaqs` |
| `circuits/rotated_surface.py:212-217` | `_RotatedLattice.entangle_x` | `Lattice.entangleX` |
| `circuits/rotated_surface.py:219-224` | `_RotatedLattice.entangle_z` | `Lattice.entangleZ` |
| `circuits/rotated_surface.py:226-282` | `_RotatedLattice.extract_final_stabilizer_and_logical_readout_x` | `stabilizerVal`, `stabilizerStr`, `extractX` |
| `circuits/rotated_surface.py:284-339` | `_RotatedLattice.extract_final_stabilizer_and_logical_readout_z` | `parityLoop`, `extractZ` |
| `circuits/rotated_surface.py:341-357` | `_RotatedLattice.extract_final_stabilizer_and_logical_readout` | `extractFinal` |
| `circuits/rotated_surface.py:415-488` | `_RotatedLattice.parse_readout` | `TQubit.parse`, `xorPairs`, `coordX`, `coordZ`, `hitLoop`, `parseRounds` |
| `circuits/rotated_surface.py:496-531` | `RotatedQubit.stabilize` | `TQubit.stabilize` |
| `circuits/xxzz.py:23-43` | `_XXXX.entangle` | `Stab`, `entangleRowX`, `entangleXXXX` |
| `circuits/xxzz.py:51-69` | `_ZZZZ.entangle` | `Stab`, `entangleColZ`, `entangleZZZZ` |
| `circuits/xxzz.py:80-83` | `_XXZZLattice.reset_x` | `Lattice.resetX` |
| `circuits/xxzz.py:85-87` | `_XXZZLattice.reset_z` | `Lattice.resetZ` |
| `circuits/xxzz.py:89-92` | `_XXZZLattice.x` | `Code.gateX`, `Lattice.x` |
| `circuits/xxzz.py:94-97` | `_XXZZLattice.z` | `Code.gateZ`, `Lattice.z` |
| `circuits/xxzz.py:99-106` | `_XXZZLattice.x_c_if` | `Lattice.xCIf` |
| `circuits/xxzz.py:108-116` | `_XXZZLattice.z_c_if` | `Lattice.zCIf` |
| `circuits/xxzz.py:118-138` | `_XXZZLattice.cx` | `Code.ctrlX`, `Lattice.cx` |
| `circuits/xxzz.py:140-150` | `_XXZZLattice._readout_x_into_ancilla` | `Lattice.readoutXIntoAncilla` |
| `circuits/xxzz.py:152-165` | `_XXZZLattice.readout_x` | `Lattice.readoutReg`, `Lattice.readoutX` |
| `circuits/xxzz.py:167-175` | `_XXZZLattice._readout_z_into_ancilla` | `Lattice.readoutZIntoAncilla` |
| `circuits/xxzz.py:177-189` | `_XXZZLattice.readout_z` | `Lattice.readoutZ` |
| `circuits/xxzz.py:191-204` | `_XXZZLattice.lattice_readout_x` | `Lattice.latticeReg`, `Lattice.turnX`, `Lattice.latticeReadoutX` |
| `circuits/xxzz.py:206-218` | `_XXZZLattice.lattice_readout_z` | `Lattice.latticeReadoutZ` |
| `circuits/xzzx.py:19-44` | `_XZZX.entangle` | `Stab`, `entangleCornerX`, `entangleXZZX` |
| `circuits/xzzx.py:55-57` | `_XZZXLattice.reset_x` | `Lattice.resetX` |
| `circuits/xzzx.py:59-61` | `_XZZXLattice.reset_z` | `Lattice.resetZ` |
| `circuits/xzzx.py:63-70` | `_XZZXLattice.x` | `Code.gateX`, `Lattice.x` |
| `circuits/xzzx.py:72-79` | `_XZZXLattice.z` | `Code.gateZ`, `Lattice.z` |
| `circuits/xzzx.py:81-93` | `_XZZXLattice.x_c_if` | `Lattice.xCIf` |
| `circuits/xzzx.py:95-107` | `_XZZXLattice.z_c_if` | `Lattice.zCIf` |
| `circuits/xzzx.py:109-130` | `_XZZXLattice.cx` | `Code.ctrlX`, `Lattice.cx` |
| `circuits/xzzx.py:132-158` | `_XZZXLattice._readout_x_into_ancilla` | `Lattice.readoutXIntoAncilla` |
| `circuits/xzzx.py:160-172` | `_XZZXLattice.readout_x` | `Lattice.readoutReg`, `Lattice.readoutX` |
| `circuits/xzzx.py:174-198` | `_XZZXLattice._readout_z_into_ancilla` | `Lattice.readoutZIntoAncilla` |
| `circuits/xzzx.py:200-212` | `_XZZXLattice.readout_z` | `Lattice.readoutZ` |
| `circuits/xzzx.py:214-230` | `_XZZXLattice.lattice_readout_x` | `Lattice.latticeReg`, `Lattice.turnX`, `Lattice.latticeReadoutX` |
| `circuits/xzzx.py:232-247` | `_XZZXLattice.lattice_readout_z` | `Lattice.turnZ`, `Lattice.latticeReadoutZ` |
| `fitters/base.py:24-31` | `TopologicalDecoder.__init__` | `testErrorRate`, `lookUpRun` |
| `fitters/base.py:114-136` | `TopologicalDecoder.reset_look_up_table` | `checkNodes`, `simulateChecks`, `LookUp.reset` |
| `fitters/base.py:138-157` | `TopologicalDecoder.set_look_up_table` | `testCalls`, `LookUp.set` |
| `fitters/base.py:159-199` | `TopologicalDecoder._run_look_up` | `testCalls`, `LookUp.freq`, `prior`, `LookUp.run` |
| `fitters/base.py:201-218` | `TopologicalDecoder.correct_readout_look_up_table` | `indexMax`, `LookUp.correct` |
| `fitters/lattice_decoder.py:35-44` | `LatticeDecoder.__init__` | `newDecoder`, `buildGraphs`, `decoderOf` |
| `fitters/lattice_decoder.py:47-50` | `LatticeDecoder.encoder` | `DecoderObj.encoder` |
| `fitters/lattice_decoder.py:52-54` | `LatticeDecoder._params_validation` | `latticeDecoderValidate` |
| `fitters/lattice_decoder.py:82-151` | `LatticeDecoder._make_error_graph` | `RxGraph.floydWarshall`, `degDistance`, `pairWeight`, `EGraph.addNew`, `pairStep`, `makeEven` |
| `fitters/lattice_decoder.py:153-217` | `LatticeDecoder._path_degeneracy` | `degLoop`, `pathDegeneracyIdx`, `pathDegeneracy` |
| `fitters/lattice_decoder.py:219-251` | `LatticeDecoder._path_degeneracy_helper` | `RxGraph.numShortestPaths`, `degHelper` |
| `fitters/lattice_decoder.py:253-292` | `LatticeDecoder._run_mwpm_graph` | `matchedStep`, `runMwpmGraph` |
| `fitters/lattice_decoder.py:294-320` | `LatticeDecoder._run_mwpm` | `weightFn`, `runMwpm` |
| `fitters/lattice_decoder.py:322-355` | `LatticeDecoder._corrections` | `corrections` |
| `fitters/lattice_decoder.py:357-395` | `LatticeDecoder.correct_readout` | `DecoderObj.correct`, `flipStep`, `correctHits`, `correctString` |
| `fitters/lattice_decoder.py:397-419` | `LatticeDecoder.parse_readout` | `DecoderObj.parse` |
| `fitters/lattice_decoder.py:421-473` | `LatticeDecoder.draw` | `pos2D`, `draw` |
| `fitters/lattice_decoder.py:475-558` | `LatticeDecoder.draw3D` | `pos3D`, `middle2D`, `draw3D` |
| `fitters/repetition.py:19-25` | `RepetitionDecoder._params_validation` | `DClass.validate`, `repDecoderValidate`, `repetitionDecoder`, `newQubit` |
| `fitters/rotated_surface.py:29-48` | `RotatedDecoder._params_validation` | `DClass.validate`, `Num.notOdd`, `rotatedDecoderValidate`, `rotatedDecoderTouched` |
| `fitters/rotated_surface.py:50-82` | `RotatedDecoder._make_syndrome_graph` | `neighborsXZZX`, `SGraph.addNode`, `SGraph.addEdge`, `startNode`, `timeSlice`, `timeEdges` |
| `fitters/rotated_surface.py:84-177` | `RotatedDecoder._populate_syndrome_graph` | `neighborsXZZX`, `SGraph.addNode`, `SGraph.addEdge`, `diagonals`, `pending`, `linkNbr` |
| `fitters/rotated_surface.py:179-207` | `RotatedDecoder._valid_syndrome` | `validSyndrome` |
| `fitters/rotated_surface.py:209-234` | `RotatedDecoder._specify_virtual` | `virtualNodes` |
| `fitters/rotated_surface.py:236-263` | `RotatedDecoder._is_crossing_readout_path` | `isCrossing` |
| `tools/benchmarking.py:24-40` | `TopologicalBenchmark.__init__` | `Benchmark`, `fileName`, `newBench` |
| `tools/benchmarking.py:42-65` | `TopologicalBenchmark.logical_error_rate` | `errStep`, `logicalErrorRate` |
| `tools/benchmarking.py:67-127` | `TopologicalBenchmark.sweep` | `Benchmark.measure`, `Benchmark.sweepStep`, `requestedRates`, `sortedDesc`, `finalSort`, `Benchmark.sweep` |
| `tools/benchmarking.py:129-161` | `TopologicalBenchmark.sweep_mp` | `sortedAsc`, `Benchmark.sweepMp` |
| `tools/benchmarking.py:163-197` | `TopologicalBenchmark.single` | `Benchmark.single` |
| `tools/benchmarking.py:199-218` | `TopologicalBenchmark.append_data` | `loadArrays`, `newArrays`, `appendData`, `saveStep`, `savedSize` |
| `tools/benchmarking.py:222-225` | `TopologicalAnalysis.__init__` | `batch` |
| `tools/benchmarking.py:227-232` | `TopologicalAnalysis.load_data` | `loadData` |
| `tools/benchmarking.py:234-249` | `TopologicalAnalysis.plot` | `Analysis.curve` |
| `tools/benchmarking.py:253-268` | `TopologicalBatchAnalysis.__init__` | `batch` |
| `tools/benchmarking.py:270-300` | `TopologicalBatchAnalysis.plot` | `batchPlot` |

Not modelled: `TopologicalQubit.draw` (circuits/base.py:302-306), `TopologicalQubit.__str__` (circuits/base.py:308-309), `TopologicalCircuit.draw` (circuits/circ.py:398-402), `TopologicalCircuit.__str__` (circuits/circ.py:404-405).

## Findings

Properties that are false of the code. Each is proved as a negation for all the inputs it concerns, next to a `…_partial` theorem.

* C02: negative odd sizes are accepted. C74: long enough repetition codes exceed the recursion limit.
* C20: X-type lattice readout always raises, `self.DW` does not exist (`rotated_surface.py`).
* C26: a node that no stabilizer has is put into the graph of one-dimensional surface-code decoders.
* C34: `_make_error_graph` extends the caller's list. C35: `if source:` treats node index 0 as missing.
* C37: `err_prob = 0.5` divides by zero.
* C47: overlapping saves lose points. C77: the look-up table keeps a reference to the caller's dictionary. C78: `sweep_mp` cannot
  send its lambda to workers.
* C52: `entangle_z` on a lattice of height 1 entangles the X plaquettes (an empty list is replaced by the whole list);
  `entangle_x`, `entangle_z` on width 1 raise `KeyError`.
* C62: XZZX logical readouts on one-dimensional lattices raise `ValueError` after having added a register.
* C69, C70: qubits made from one non-empty parameter dictionary share their counters, and making another one sets them back; the
  next round of the first asks for a register that exists.
* C71: `TopologicalCircuit.cx` makes its ancilla from the control's own dictionary by default, so the control's round counter is set
  back to -1 and its next round raises if it had been stabilized before.
* C66: `TopologicalCircuit.cx` reads the control into the control's own ancilla qubit, copies from there and never undoes it, so a
  control in superposition is measured: after every call X of the control is undetermined. (Of the corrections at the end, the one
  on the control can therefore not be seen in any of the theorems.)
* C82: a plaquette misread in the last round before a readout of the logical qubit looks like a data error, because decoding graphs
  have no boundary in time; next to the upper edge one such error makes the decoded value wrong.

* C85: `TopologicalCircuit.parse_readout` hands the string of the whole circuit to the parser of one qubit, which takes the first
  group for the readout and the others for rounds. With several qubits the value of the qubit read out last is returned for all.
* C86, C87: `TopologicalCircuit.cx` with an unknown code type raises after having made an empty sub-register "ancilla"; every later
  call of `cx` then raises. `cx` also raises on XZZX codes of width 1.
* C90: the term `log(degeneracy)` in the weights with `err_prob` counts all shortest paths, and paths to the boundary start anywhere on
  it. On a square lattice of size d = 4i+1 >= 9 a diagonal chain of (d-1)/2 errors, which has one shortest path, is beaten by two
  boundary connections with 2^i paths each, so with `err_prob` the decoded value is wrong; without it, it is right.
* C95: `encoder` is made from `self.params.copy()` at the first decoded string, not at construction. If the caller reuses the dictionary for the next size before that, a `3 × 3` decoder cuts strings as for `5 × 5` and silently leaves errors uncorrected.
* C96: a decoder made from the dictionary a qubit has counted in has `T` one less than the number of rounds. That fits readouts with a logical bit, but a readout of all data qubits has one more comparison: `KeyError` as soon as a stabilizer disagrees there.
* C100: the decoding graph has only edges within a round and edges in time, no diagonal ones. An X error between two gates of a round costs two edges, so the decoder only corrects a third of the distance, not half, of the errors within the rounds.
* C102: all plaquettes of the XZZX code entangle their data qubits in the order upper left, upper right, lower left, lower right. For Z plaquettes the two last ones lie along the logical operator, so a single error in a round acts like two: a 3x3 XZZX code does not survive one error of a syndrome qubit when X is read. `_XXXX` and `_ZZZZ` use different orders, which avoids this.
* C104: errors between the preparation and the first stabilization are never corrected: the first round is what the others are compared with, though after `reset_z` (`reset_x`) the Z (X) stabilizers are known to read 0. A single flip of data qubit 0, or a misreading of the check next to it, makes the decoded value wrong. Comparing the first round with zeros for the prepared type would repair it.
* C108: `draw` returns `None` for more than one time step (lattice_decoder.py:442-444), although it is declared and documented to return the figure and axes; its other arguments are ignored then.
* C109: the name of the data file has neither the code nor the noise, so benchmarks of XXZZ and XZZX codes of one size (or two noise models) in one directory write into one file, and nothing tells their points apart (benchmarking.py:33). The name is computed once, but the size is read again for each save (benchmarking.py:212-213): changing the dictionary in between writes a wrong size into the file.
* C110: plotting a directory without data files raises `IndexError` (benchmarking.py:286-289).
* C116: `TopologicalCircuit.cx` accepts the same qubit as control and target and then silently resets it to logical 0.
* C118: the decoder cannot be told about biased noise: Z errors that the XZZX code identifies uniquely are decoded wrongly from distance 5 on.
* C119: which of several optimal matchings retworkx returns can decide the logical value, but only if hits lie an odd number of time steps apart.
* C120: maximum-likelihood decoding beats the matching decoder on the 5x5 lattice as soon as p >= 1/36, at every probability near the threshold; on the 3x3 lattice it never does.
* C122: `RepetitionDecoder(params)` without `T` raises `ValueError` after it has replaced an integer `d` by `(d, 1)` in the caller's dictionary; if the caller mends the dictionary, or makes an `XXZZQubit` from it, the lattice is d×1 and not d×d.
* C129: the logical CNOT is not fault tolerant. The outcome m1 is taken from one measurement of one physical qubit (circ.py:294) and applied to the target as a logical X (circ.py:309). If it is wrong the target is flipped without any syndrome, for lattices of every size.
* C130: the decoder looks at one logical qubit at a time. A data error on the control that strikes before `cx` flips the target as a whole, and the syndrome that tells of it belongs to the control; a decoder of the target never sees it.
* Errors of data qubits before the first round, or between the last round and `readout_z`/`readout_x`, pass unnoticed (C133). Their effect grows with the size of the lattice: the rate of wrong values tends to 1/2 for every probability of an error. `readout_z` measures the operator instead of all data qubits, and `parse_readout` uses the first round as the reference for the others. The recorded benchmarks put errors between rounds only.

## Plan per property

| id | modelled by | proof idea |
|---|---|---|
| C01, C02 | `_params_validate_and_generate` on a sum type of Python values | case analysis; C02 is false for negative odd sizes: witness + partial |
| C03 | num_syn formulas | arithmetic |
| C04–C06 | `_set_geometry` loop bodies over Int with floor division | closed form of each entry = corners of a site |
| C07, C08 | geometry | counting overlaps of corner sets |
| C09 | geometry | row-cut parity argument |
| C10 | geometry | elimination row by row from an open boundary |
| C11 | `_XXXX/_ZZZZ.entangle` guards | from C05 |
| C12–C14 | `_validate_params` | case analysis |
| C15–C18 | `parse_readout` on `List Char` | bit lemmas for binary numerals, masks, shifts |
| C19, C20 | `extract_final_stabilizer_and_logical_readout_*` | list lemmas; C20 is false (`self.DW` does not exist): the model raises AttributeError, proved for all inputs |
| C21 | decoder validation | case analysis |
| C22–C26 | `_make_syndrome_graph`, recursive `_populate_syndrome_graph` with the recursion limit as fuel | DFS invariant + connectivity of the checkerboard; C26 false: witness |
| C27 | `_is_crossing_readout_path` | induction on walks |
| C28, C29, C34, C38 | `correct_readout`, `_corrections` | unfolding; C34 false: the list argument is extended in place |
| C30–C33 | `_make_error_graph`, `_run_mwpm` with a contract for the matcher | T-join pairing by induction on faults, cut parity |
| C35–C37 | `_path_degeneracy(_helper)` with cache | C35 false for node index 0: witness; C36 invariant on the cache; C37 real analysis of the weight formula |
| C39–C42 | look-up table state machine over exact rationals | induction over histories |
| C43–C48 | benchmark functions over exact rationals, files as a key-value store | permutation/sortedness, interleaving witness |
| C49–C54 | circuit builder as an instruction list | induction over operation sequences |
| C55–C64 | instruction semantics on state vectors `(Qubit → Bool) → ℂ` with projective measurement: `Step`, `Run` say which executions an instruction list has | executions are described by Kraus operators (`Kraus`, `run_iff`); a frame in which both codes have the same commutation rules; the instruction list of every operation (closed form from C49–C54, C80) is brought to a product of projections |
| C63, C82 | errors as Pauli gates after the identity gates of an operation (`Spec/Noise.lean`: `withErrors`, `noisyAll`) and the elementary faults they amount to (`faultsOf`) | invariant over noisy executions: every check, syndrome qubit, classical bit and the logical operator have the values the faults say (`Keeps`); then C32; C82 false: the same bits are read if a data qubit flips |
| C65, C66, C81 | as C55 and C67; histories may share dictionaries (`FairState`), since sharing changes counters but not sizes | invariant about places and sizes; closed form of `cx`; what commutes with the measurements keeps its value; C66 false: Z of the control times Z of its ancilla has a value in the end |
| C67–C73 | register/circuit objects with a parameter heap | induction over histories; "sane" histories (no shared dictionaries) keep an invariant about names and counters; C69–C71 false with shared dictionaries: witness, C71 for every sane history |
| C74 | recursion limit as fuel | witness for every limit + partial |
| C75 | as C30–C33 | any explanation contains disjoint paths pairing the hits (T-join), so it is at least as long as the matching |
| C76 | as C37 | integer weights are 10000·distance up to a one-sided error that is too small to change the optimum |
| C77 | caller's dictionaries in a heap | C77 false: the table stores a reference; witness + partial |
| C78 | contract of `Pool.map` | false: the lambda cannot be pickled |
| C79 | C32 + C43 | composition |
| C80 | as C49–C54 | closed form of every operation on a lattice that sits on the circuit |
| C83, C84 | as C32; `Spec/Equivalent.lean`: fault sets with the same readings | a half column (row) reads like its shorter other half, the flips around a plaquette of the other type read like nothing; then C32 for the equivalent set |
| C85 | `TopologicalCircuit.parse_readout` (`Model/CircReadout.lean`) | false: the first group is the register added last; partial from C51 |
| C86, C87 | as C67–C73 | exact condition from the closed form of `cx` and the invariant of histories; C87 false: an empty sub-register stays empty under all operations |
| C88, C89 | as C32 and C63; `Spec/Threshold.lean`: probability of a set of flips, `repOps`: the circuit of data/rep_threshold | all degeneracies of a line are 1 (`Proof/Line.lean`), so any probability gives the matching of unit weights; too many flips read like the complement; Pascal's rule for the tail of the binomial distribution (`Proof/Threshold.lean`) |
| C90 | as C76 | distances in diagonal coordinates (`Proof/Diagonal.lean`): shortest paths along a diagonal are unique, at least 2^j go to the boundary; weights of the two pairings compared (`Proof/Chain.lean`) |
| C91 | as C63 and C75; `Spec/Threshold.lean`: independent Pauli errors, `memoryOps`: the circuit of the memory | Peierls argument: if the decoded value is wrong, errors and correction together contain a path of faults across the lattice, at least half of which are errors (`Proof/Crossing.lean`, `Proof/Peierls.lean`); such paths are counted as walks (`Proof/Chains.lean`); union bound and `C(n, n/2) ≤ 2^n` for probabilities (`Proof/Union.lean`); identity gates ↔ faults (`Proof/Memory.lean`) |
| C92 | as C90 and C91 | with one time step there are at most `4^n` shortest paths of `n` steps, so weights differ from distances by less than 2/7 (`Proof/Weighted.lean`); errors and matching are decomposed into paths and an alternating walk between the boundaries is exchanged (`Proof/Alternate.lean`, `Proof/Exchange.lean`): at least 5/12 of its steps are errors; labelled walks are counted (`Proof/Weighted.lean`, `Proof/Labelled.lean`) |
| C93 | as C91 | the hits and the measured value are functions of the set of errors that matter (`string_verdict`, `rounds_changes`); every stabilizer has an even and every logical operator an odd number of data qubits (`allFlips_affects`, `allFlips_readout`), so flipping all of them changes the measured value only, and with it the decoded value (C29); the probabilities are reindexed by the symmetric difference (`Proof/Symmetric.lean`) |
| C94 | as C91 | upper bound: fewer errors are within the correction radius (C32, C76), union bound over the sets of t places; lower bound: one half of a column is decoded like its other half (C83); the limit by squeezing |
| C95 | decoder objects with the reference to their dictionary and the lazily made encoder (`Model/DecoderObject.lean`); actions on dictionaries | every method keeps what the encoder needs of every dictionary (`KeepsP`, `Proof/KeepDict.lean`); with C63 for the decoder made from the qubit's own dictionary; false with a concrete string |
| C96 | `correctHits`, `correctString` with `KeyError` as a value | the edge loop raises `KeyError` if no weight raises anything else and one raises it (`pairs_keyError`); strings by C15 and C19, success by C75, the own dictionary by C95 |
| C97 | `runMwpmGraph` (`Model/MatchedGraph.lean`) | loop invariant: two new nodes and the edge between them per pair (`Proof/MatchedGraph.lean`); the weights by C75's construction |
| C98 | as C31, C32, C63; `Spec/OddLines.lean` | the correction of C75 has no more faults than happened; if it were wrong, faults and correction together would flip every line an odd number of times (`few_lines`, `Proof/OddLines.lean`) |
| C99 | `Spec/CircuitNoise.lean`: `Slip` (a Pauli error at a place in a circuit), `slipped`, `slippedAll`; circuits and amplitudes as in C55 and C63 | errors are carried through the rest of their operation (`run_slipped`, `Proof/QSpread.lean`); what is left is a set of data flips and misreadings with number plus odd lines at most 3 for each error (`slip_round`, `Proof/Hooks.lean`, `QHooks`, `QRoundSlips`, `QBlockSlips`, `QSlipRun`); then C98 |
| C100 | as C99; `Spec/OddLines.lean` (`Decided`) | errors on data qubits between the two gates of neighbouring Z checks are seen by one check in this round and by the other in the next; arranged as a staircase, their hits are explained by fewer faults along the other half of the column (`stairs_decided`, `Proof/Staircase.lean`; run in `Proof/StairRun.lean`) |
| C101 | as C99 | the gates of each corner of a plaquette are followed one by one, errors on data qubits are told apart by whether they anticommute with the checks of the type (`Marks`, `Proof/QBlockSlipsXZZX.lean`); one error costs 3, or 4 for the readout of X (`slipCost`); then as C99 (`lattice_slips`, `logical_slips`) |
| C102 | as C101 | a Z error on the syndrome qubit after the upper two corners flips the lower two, which is the same as the upper two (`hook_slip`, `Proof/HookRun.lean`); next to each other these fill more than half of the top row, whose rest is the cheaper explanation (`decoded_like`, C83) |
| C103 | errors as in C99, with `LocalNoise` (`Spec/LocalNoise.lean`) for the probabilities | each fault that the errors amount to is close in time and place to an error (`Near`, `Blamed`: at most 10 faults per operation and qubit, at most 10 G pairs of operation and qubit per fault, `Proof/Culprits.lean`); a wrong value needs half of a chain of faults (C91), so errors at a twentieth of its length of places close to it; mean of (1 + s)^(number of errors) and union bound over chains (`many_prob`, `near_chains_prob`) |
| C104 | errors as in C63, in operations before the first stabilization | partial, the code is false of it: flips before the first round change all rounds alike, so they are a reference syndrome for the decoder (C32 holds for every reference); a misreading of the first round reads like a flip of data qubit 0 with such a reference |
| C105 | `Run` as in C55, errors as in C63; nothing is assumed of the starting state but that the syndrome qubits are 0 | a state is a sum of states with values of the stabilizers (`by_values`, `by_obs` in `Proof/Components.lean`); an execution with given outcomes is a linear map, and a summand that survives has outcomes fixed by its values and the faults (`Carries.reads`), so all surviving summands agree on the changes between rounds |
| C106 | `Transforms`, `undo` in `Spec/UnknownState.lean`; otherwise as C105 | on the summands with a value of the logical operator an execution turns it as the faults say (`Carries.passes`), so K passes the logical operator up to a sign on all states; the decoder finds the sign from the changes, which the summands share (C105) |
| C107 | `Model/Tests.lean` models tests/base.py and the neighbours of tests/rotated_surface.py; the counts are those of `CountsOf` in `Spec/OwnTests.lean` | the executions of the circuit by C63/C98, the nodes by C15 and C53 and the geometry of the plaquettes (`test_hits`), the rest by induction over the calls; the circuit does not depend on what an earlier call left (C79 style lemmas) |
| C108 | `Model/Drawing.lean`: a drawing is the list of dots, lines and texts with their places | boundary positions are no plaquettes, so equal places mean equal nodes; the middle of a data edge is its data qubit, and its height tells the time step (`middle_inj`) |
| C109 | `Model/DataFiles.lean`: file names, dictionaries, files and data of any number of benchmarks, histories of calls and changes | decimal digits are injective and contain no separator (`fileName_inj`); induction over the history; a call adds only measured points, also when it raises (`Grows`) |
| C110 | `batchPlot`, `Analysis.curve` in `Model/DataFiles.lean`: a figure is its labelled curves | `C48_batch` for the order, `C109_origin_partial` for the labels |
| C111 | `RxGraph.floydWarshall`, `makeErrorGraph`; the formula `Spec.faultsBetween` uses only coordinates | upper bound by explicit zigzag paths, lower bound since the formula changes by at most one along every edge |
| C112 | `corrections`, `correctHits`; spec: splits of a list of hits with costs from coordinates (`Spec/Pairing.lean`) | every split gives an explanation by that many faults, so the minimality of C29/C97 applies; the kept pairs cost at least their split, so both are equal and single hits end at the nearer boundary |
| C113 | look-up decoder (C40, C41) put into `logicalErrorRate` (C43) | both rates are sums over the distinct strings; string by string the table pays the smaller share |
| C114 | `logicalErrorRate` on the counts of `N` independent draws; spec: `Tally`, `mean`, `probability` (`Spec/Sampling.lean`) | the rate is a mean of independent 0/1 values; variance by expanding the square, then Chebyshev; repetition code by C88 |
| C115 | executions of the benchmark (C88) for both logical values; spec `repString` (`Spec/Repetition.lean`) | the round strings are determined by their lengths and bits; then pair every set of flips with its complement |
| C116 | as C65, with one qubit in both roles | Z of qubit and ancilla is measured, then Z of the ancilla; X of both commutes with the product, so the two conditional X gates undo the value |
| C117 | as C55 | every XZZX plaquette, of either type, compares its top-left and bottom-right qubit for Z errors (top-right and bottom-left for X errors); induction along diagonals, arithmetic at the edges |
| C118 | as C63, with the errors of C117 | the flips of fewer qubits at the end of the right column cause the same hits (sums telescope), so C32 decides for them |
| C119 | as C75 and C112; a library is any function meeting the contract | a smallest explanation is turned into pairs of nodes (T-joins), completed to an optimal matching and returned by a library made for it; parity of the closed distance formula for the rest |
| C120 | rates as in C91–C93; `Bench.ruleRate` for a rule on what `parse_readout` returns | the difference of two rates is a sum over the changes of the checks (`Proof/Rules.lean`); the numbers of sets of flips for all changes are computed by the kernel as digits of one number (`Proof/CountTable.lean`); the difference of two probabilities is a polynomial, certified as a sum of nonnegative terms in powers of 1-ax+x² (`Proof/Certificate.lean`); explicit factorisations for the other direction |
| C121 | `LOp` (a call), `LOp.known` (what is known of the logical qubits after it), `predicted`, `knownAfter`, `Program` (`Spec/Programs.lean`) | one call: its instructions, what they do to operators on this and the other qubits, to syndrome qubits and to classical bits (`Proof/ProgOps.lean`, `Proof/ProgSteps.lean` for one qubit, `Proof/ProgCnot.lean` for `cx` with C65, C66); induction over the calls (`took_all`) |
| C122 | `Maker`, `Maker.call`, `Rejections` (`Props/Rejected.lean`) | a rejection writes nothing, or the default of the flag, or one size with an even side for another (`Mark`); dictionaries that differ so are accepted by the same classes with the same sizes (`Alike`); after validation nothing raises `LatticeError` (`Calm`) |
| C123 | `norm2`, `branches`, `bornProb` (`Spec/Chance.lean`) | gates keep the norm, a measurement splits it (parallelogram law); different executions that carry the whole norm have as probabilities their norms (`share_eq`); an observable is a fair coin if one that anticommutes with it is certain (`norm2_half`); a row or column up to a plaquette is seen by this plaquette alone (`string_seen`) |
| C124 | `matOp`, `OnQubits`, `Blow`, `Happens`, `struckAll` (`Spec/AnyError.lean`) | an operator on qubits is a combination of Pauli errors on them (`onQubits_span`); instructions with known results act linearly, so that a superposition can be led to some readouts only if one of the superposed states can (`happens_pick`); then C99, C101 |
| C125 | `Effects` (`Spec/AnyError.lean`), `undo` (`Spec/UnknownState.lean`) | an execution with operators applies a combination of the operators of executions with Pauli errors that have the same results (`happens_kraus`); each of these passes the logical operators with the sign that the decoder computes from the results, which is the same for all (C106) |
| C126 | `eventBranches`, `eventProb`, `NearOne`, `Isometric`, `strikes` (`Spec/WeakErrors.lean`) | every operator is the identity plus a small one; the branches of an execution are expanded into those with chosen small operators (`wt_expand`, by Minkowski's inequality over branches), where few of them cannot give a wrong value (C124, `wt_never`) and many of them have a small norm (`wt_small`) |
| C127 | `WithEnv` (`Spec/Environment.lean`) over the same circuits | an operator on qubits in and outside the circuit is a combination of Pauli operators inside times operators outside; those outside commute with all instructions and are moved to the initial state (`happens_outside`), which keeps zero syndromes; then the slips of C124 |
| C128 | `Waiting`, `Elsewhere`, `Block` (`Spec/Shared.lean`) over the circuits of C124 | the shared circuit mirrors one of the qubit alone (`Twin`): same dictionary, same instructions of its own, same own registers; instructions elsewhere are operators outside the qubit (`foreign_events`), so an execution gives one of the circuit alone with operators as in C127 (`blocks_alone`); then the slips of C124. Registers: frames of C69 to C72 (`Proof/SharedReg.lean`) |
| C129 | `CxStruck` (`Spec/CnotError.lean`), as `CxRun` of C65 with one instruction inserted | the instructions of `cx` are split at the first measurement of the readout qubit; the flipped outcome is passed on to the conditional X of the target alone, as the readout qubit is reset before it is used again (`run_cnot_struck`, `Proof/CnotError.lean`); then C65 and C81 |
| C130 | `valueFlip` (`Spec/CnotError.lean`), calls and states as in C65 | the error flips the values before the call, C65 and C81 say what the call makes of them; which plaquette sees a data qubit is read off the positions of the Z plaquettes |
| C131 | `Trial` of C103, `Shots` of C114; `Draws` joins them (`Props/RareBenchmark.lean`) | the decoder answers because all hits of a parsed readout lie in its graph (C51, C75); the probability of a wrong shot is at most the rate of C103, summed over the sets of affected places; then C114. `C131_few`: C124 for every string |
| C132 | `nearReadout` (`Spec/LoneHit.lean`) | the chain of data qubits straight from the stabilizer to the nearer edge has the same single hit and at most (distance - 1)/2 faults, so C31, C32 and C98 apply to it; a misreading in the first or last round reads like that chain, apart from the reference syndrome (`Proof/LoneHit.lean`) |
| C133 | `dataErrs`, `lineLength` (`Spec/EdgeErrors.lean`), rates as in C91 | the errors change the syndromes of all rounds alike or of none, so the hits are those of the other faults, and C31 applies to them; the parity of independent errors by induction on the data qubits (`Proof/EdgeErrors.lean`) |
| C134 | `latticeOps` (`Spec/LatticeBench.lean`), rates and bound as in C91 | the faults are those of the memory of C91, whose last round is replaced by the plaquettes of the readout (C98); without half a chain of faults every smallest explanation of the hits flips the readout like the faults (`half_chain`), and the counting of chains is that of C91 (`chains_core`) |
| C135 | vocabulary of C08 and C10 | counting: the Z plaquettes, the top row and strings that end at the X plaquettes are as many as the data qubits (C03) and independent (C10, C08, `row_seen`), so they generate all sets (`Proof/Spanning.lean`) |
| C136 | `readLetter`, `readOps` (`Spec/LatticeOdds.lean`), Born's rule as in C123 | `share_eq` as for stabilizations; plaquettes of the other type have certain values and flip the bits around them, so lists that differ by plaquettes are equally likely (`odds_orbit`), and by completeness (C135) these are all consistent lists (`Proof/LatticeOdds.lean`) |
| C137 | `CodeState` (`Spec/OneQubit.lean`) | a state is the sum of its parts with certain bits of all data qubits; parts with consistent bits are images of each other under plaquettes of the other type (C135), alike for all states with the same values, and a part is fixed up to a factor by its bits; existence: a basis state with fitting bits (C135), projected to the values of the plaquettes of the other type (`Proof/OneQubit.lean`) |
| C138 | `OnQubits` of C124, `checks`, `jointProj` of C55 | an operator on the qubits is a combination of Pauli strings; a string that some plaquette meets oddly leads out of the code space; the others are sums of plaquettes by C135, as they are too short for a logical operator by C09 (`Proof/Detect.lean`); adjoint operators in `Proof/Inner.lean`; sharpness by the two states of C137 |
| C139 | `qubitAfter`, `LogicalZero`, `encoded` (`Spec/LogicalQubit.lean`) | induction over the calls with the effects of C55 and C58 on states; probabilities by C123 and the norms of the projections of a logical state; the state after a readout by C59, as all a readout does besides the projection is to its ancilla (`ancOp`; `Props/LogicalQubit.lean`) |
| C140 | `flipsLogX`, `flipsLogZ`, `afterPaulis`, `gatesOf` (`Spec/LogicalErrors.lean`) | one error by its commutation with the plaquettes and logical operators, induction over the errors, then C139; errors noticed alike by uniqueness of C137 (`Props/LogicalErrors.lean`) |
| C141 | `afterPaulis`, `detects`, `told` | errors followed by the undone guess are an operator on few qubits that no plaquette notices, so a number by C138, of absolute value 1 as norms are kept; the stabilization by C55 (`Props/Restore.lean`) |
| C142 | `OnQubits` (`Spec/AnyError.lean`), `afterPaulis` | an operator is a combination of X and Z errors; one of them survives the projection to the recorded syndromes, so it explains them, and C141 gives the state (`Props/Digital.lean`) |
