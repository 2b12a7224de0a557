import Verif.Model.DecoderObject
import Mathlib.Data.Rat.Defs
/-!
The repository's own test of single errors: /repo/tests/base.py, with the classes of /repo/tests/rotated_surface.py and
/repo/tests/rep.py. The simulator (which gives the dictionary of counts) is left out: the counts are an argument.
-/
namespace Qtc

/-- The elements of `errors`, /repo/tests/base.py:16. -/
inductive TestErr where
  | x
  | z
  deriving DecidableEq, Repr

/-- The gate of that name. -/
def TestErr.gate : TestErr → G1
  | .x => .x
  | .z => .z

/-- `get_neighbors`, /repo/tests/base.py:48-82, with doubled coordinates. -/
def neighborsBase (dh dw indx : Int) (err : TestErr) : List Node :=
  let row := indx.fdiv dw
  let col := indx.fmod dw
  let parity := 2 * indx.fmod 2 - 1
  match err with
  | .x => [(⟨0, 2 * row + parity, 2 * col - 1⟩ : Node), ⟨0, 2 * row - parity, 2 * col + 1⟩].filter fun n => 0 < n.r2 && n.r2 < 2 * (dh - 1)
  | .z => [(⟨0, 2 * row - parity, 2 * col - 1⟩ : Node), ⟨0, 2 * row + parity, 2 * col + 1⟩].filter fun n => 0 < n.c2 && n.c2 < 2 * (dw - 1)

/-- `get_neighbors` of `TestXZZX`, /repo/tests/rotated_surface.py:61-98; `D` is the size of the decoder whose `_valid_syndrome` is used. -/
def neighborsXZZX (D : Int × Int) (dw indx : Int) (err : TestErr) : List Node :=
  let row := indx.fdiv dw
  let col := indx.fmod dw
  let valid := fun n : Node => validSyndrome D.1 D.2 .X n.r2 n.c2 || validSyndrome D.1 D.2 .Z n.r2 n.c2
  match err with
  | .x => [(⟨0, 2 * row - 1, 2 * col + 1⟩ : Node), ⟨0, 2 * row + 1, 2 * col - 1⟩].filter valid
  | .z => [(⟨0, 2 * row - 1, 2 * col - 1⟩ : Node), ⟨0, 2 * row + 1, 2 * col + 1⟩].filter valid

/-- `get_neighbors` of the test class with that encoder. -/
def testNeighbors (cls : QClass) (D : Int × Int) (dh dw indx : Int) (err : TestErr) : List Node :=
  match cls with
  | .xzzx => neighborsXZZX D dw indx err
  | _ => neighborsBase dh dw indx err

/-- The circuit of `simulate`, /repo/tests/base.py:85-98. `circ` is `None`, so a new circuit is made (the caller sees to that). -/
def simulateCircuit (cls : QClass) (r : Nat) (err : TestErr) (i : Int) (key : Key) : WM TQubit := do
  let q ← newQubit cls (some r) "tq".toList
  q.op (match key with
    | .Z => .resetZ
    | .X => .resetX)
  q.stabilize
  let x ← CM.lift (q.lat.data.at i)
  gate1 err.gate [x]
  q.stabilize
  q.op (match key with
    | .Z => .readoutZ none
    | .X => .readoutX none)
  return q

/-- The loop of `get_logical_error_rate`, /repo/tests/base.py:36-44: number of counts and number of errors. -/
noncomputable def testRateLoop (m : Matcher) (correct : Int) (rt : RType) (w : World) :
    List (Str × Nat) → Nat × Nat → DecoderObj → Py (Nat × Nat) × DecoderObj
  | [], s, o => (.ok s, o)
  | (str, n) :: l, s, o =>
    match o.correct m str rt none w with
    | (.error e, o') => (.error e, o')
    | (.ok v, o') => testRateLoop m correct rt w l (s.1 + n, if v ≠ some correct then s.2 + n else s.2) o'

/-- `get_logical_error_rate`, /repo/tests/base.py:18-46. -/
noncomputable def testErrorRate (m : Matcher) (correct : Int) (rt : RType) (w : World) (counts : List (Str × Nat)) (o : DecoderObj) :
    Py ℚ × DecoderObj :=
  match testRateLoop m correct rt w counts (0, 0) o with
  | (.error e, o') => (.error e, o')
  | (.ok s, o') => (if s.1 = 0 then .error .zeroDivisionError else .ok ((s.2 : ℚ) / s.1), o')

/-- `parse_readout` of a decoder without a readout type, /repo/qtcodes/fitters/lattice_decoder.py:397-419. -/
def DecoderObj.parse (o : DecoderObj) (s : Str) (w : World) : Py (Int × Hits) × DecoderObj :=
  match o.encoder w with
  | .error e => (.error e, o)
  | .ok e => (parseReadout e.1 e.2 s .none, { o with enc := some e })

/-- The loop over the readout strings, /repo/tests/base.py:127-131: every node must be one of the expected ones. -/
def checkNodes (expected : List Node) (w : World) : List Str → DecoderObj → Py Unit × DecoderObj
  | [], o => (.ok (), o)
  | s :: l, o =>
    match o.parse s w with
    | (.error e, o') => (.error e, o')
    | (.ok r, o') => if (r.2.X ++ r.2.Z).all expected.contains then checkNodes expected w l o' else (.error .assertionError, o')

/-- The readout type in `simulate`. -/
def testType : Key → RType
  | .X => .X
  | .Z => .Z

/-- `simulate` after the simulation, /repo/tests/base.py:107-131. A failed assertion is an exception. -/
noncomputable def simulateChecks (cls : QClass) (m : Matcher) (r : Nat) (err : TestErr) (i : Int) (key : Key) (w : World)
    (counts : List (Str × Nat)) (o : DecoderObj) : Py Unit × DecoderObj :=
  match testErrorRate m 0 (testType key) w counts o with
  | (.error e, o') => (.error e, o')
  | (.ok rate, o') =>
    if rate ≠ 0 then (.error .assertionError, o')
    else match (w.heap r).dim 0, (w.heap r).dim 1 with
      | .ok dh, .ok dw => checkNodes (testNeighbors cls (o'.D.dh, o'.D.dw) dh dw i err) w (counts.map Prod.fst) o'
      | .error e, _ => (.error e, o')
      | _, .error e => (.error e, o')

/-- The calls of `simulate` in `test_single_errors`, /repo/tests/base.py:153-164, in order. -/
def testCalls (errors : List TestErr) (dh dw : Int) : List (TestErr × Int × Key) :=
  (pyRange (dh * dw)).flatMap fun i => errors.flatMap fun err =>
    if err = .x && dh = 1 then []
    else if err = .z && dw = 1 then []
    else [(err, i, .Z), (err, i, .X)]

end Qtc
