import Verif.Spec.Matching
import Verif.Spec.Quantum
/-!
Circuits with Pauli errors after identity gates, as in a noise model that attaches errors to the gate "id", and the elementary faults
these errors amount to.
-/
namespace Qtc.Spec

/-- Errors on qubits: is there an X error, is there a Z error? (Both together are a Y error up to a phase.) -/
abbrev Errs := Qubit → Bool × Bool

/-- The errors after an instruction: only identity gates make errors. -/
def errorsAfter (e : Errs) : Instr → List Instr
  | .gate1 .id x none => (if (e x).1 then [.gate1 .x x none] else []) ++ if (e x).2 then [.gate1 .z x none] else []
  | _ => []

/-- Every identity gate is followed by the errors of its qubit. -/
def withErrors (e : Errs) (l : List Instr) : List Instr := l.flatMap fun i => i :: errorsAfter e i

/-- The instructions a sequence of operations adds to the circuit, with errors: for every operation it is given which errors its
identity gates make. -/
def noisyAll (q : TQubit) : List (QOp × Errs) → World → List Instr
  | [], _ => []
  | (o, e) :: l, w => withErrors e (added q o w) ++ noisyAll q l (q.op o w).2

/-- Does the error on data qubit `i` flip the operators of a type? It does if it contains the letter those operators do not have
there: X for operators with Z and vice versa. -/
def turnedBy (code : Code) (key : Key) (i : Int) (e : Bool × Bool) : Bool :=
  if code = .xzzx ∧ i % 2 = 0 then
    match key with
    | .X => e.1
    | .Z => e.2
  else
    match key with
    | .X => e.2
    | .Z => e.1

/-- The syndrome qubit of the `k`-th plaquette of a type. -/
def synQ (key : Key) (name : Str) (k : Nat) : Qubit :=
  match key with
  | .X => mxQ name k
  | .Z => mzQ name k

/-- The faults that the errors of an operation after round `t` amount to: data qubits flip between rounds `t` and `t + 1`, and
plaquettes are misread in round `t + 1` because their syndrome qubit is not 0. -/
def faultsIn (code : Code) (key : Key) (name : Str) (dh dw t : Int) (o : QOp) (e : Errs) : List Fault :=
  match o with
  | .idData => dataFaults
  | .id => dataFaults ++ measFaults
  | _ => []
where
  /-- Flips of data qubits. -/
  dataFaults : List Fault := (allQubits dh dw).filterMap fun i =>
    if turnedBy code key i (e (dataQ name i)) then some (.data t (i / dw) (i % dw)) else none
  /-- Misreadings. -/
  measFaults : List Fault := (sitesOf key dh dw).zipIdx.filterMap fun p =>
    if (e (synQ key name p.2)).1 then some (.meas t p.1.1 p.1.2) else none

/-- The faults of a sequence of operations after `n` stabilizations. -/
def faultsOf (code : Code) (key : Key) (name : Str) (dh dw : Int) : Nat → List (QOp × Errs) → List Fault
  | _, [] => []
  | n, (o, e) :: l => faultsIn code key name dh dw (n - 1) o e ++ faultsOf code key name dh dw (if o = .stabilize then n + 1 else n) l

/-- The faults without misreadings of rounds after round `last`, which do not take place. -/
def takePlace (last : Int) (fs : List Fault) : List Fault := fs.filter fun
  | .data _ _ _ => true
  | .meas t _ _ => t + 1 ≤ last

/-- The operations of a quantum memory: stabilizations, identity gates and logical gates. -/
def MemoryOp : QOp → Prop
  | .stabilize => True
  | .id => True
  | .idData => True
  | .x => True
  | .z => True
  | _ => False

/-- No errors. -/
def noErrs : Errs := fun _ => (false, false)

end Qtc.Spec
