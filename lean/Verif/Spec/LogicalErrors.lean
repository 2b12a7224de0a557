import Verif.Spec.AnyError
import Verif.Spec.LogicalQubit
/-!
What Pauli errors on data qubits do to the amplitudes of a logical qubit.
-/
namespace Qtc.Spec
open Qtc

/-- Does the Pauli operator `a` on data qubit `i` change the sign of logical Z? It does if the qubit is in the top row and the letter of
logical Z there is not `a`. -/
def flipsLogZ (code : Code) (dw : Int) (a : Letter) (i : Int) : Bool :=
  decide (i ∈ rowQubits dw 0) && decide ((if code = .xzzx ∧ i % 2 = 0 then .X else .Z) ≠ a)

/-- Does it change the sign of logical X? -/
def flipsLogX (code : Code) (dh dw : Int) (a : Letter) (i : Int) : Bool :=
  decide (i ∈ colQubits dh dw 0) && decide ((if code = .xzzx ∧ i % 2 = 0 then .Z else .X) ≠ a)

/-- The state after Pauli errors on data qubits, one after the other. -/
def afterPaulis (name : Str) : List (Letter × Int) → Psi → Psi
  | [], ψ => ψ
  | e :: l, ψ => afterPaulis name l (e.1.op (dataQ name e.2) ψ)

/-- The gates that errors are to a qubit: an error that changes the sign of logical X is a Z gate, one that changes the sign of logical Z
is an X gate. -/
def gatesOf (code : Code) (dh dw : Int) : List (Letter × Int) → List QOp
  | [] => []
  | e :: l => (if flipsLogX code dh dw e.1 e.2 then [.z] else []) ++ (if flipsLogZ code dw e.1 e.2 then [.x] else []) ++ gatesOf code dh dw l

/-- The circuit of a sequence of operations, with Pauli errors on data qubits before each of them. -/
def hitEvents (q : TQubit) : List (List (Letter × Int) × QOp) → World → List Event
  | [], _ => []
  | (es, o) :: l, w => es.map (fun e => .blow (e.1.op (dataQ q.lat.name e.2))) ++ ((added q o w).map .instr ++ hitEvents q l (q.op o w).2)

/-- The gates that such a circuit is to a qubit. -/
def gatesOfAll (code : Code) (dh dw : Int) (l : List (List (Letter × Int) × QOp)) : List QOp := l.flatMap fun b => gatesOf code dh dw b.1 ++ [b.2]

end Qtc.Spec
