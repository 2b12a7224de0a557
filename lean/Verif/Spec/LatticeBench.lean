import Verif.Spec.Threshold
/-!
A quantum memory that ends with a readout of all data qubits, for C134.
-/
namespace Qtc.Spec

/-- `T` stabilizations, each followed by identity gates: on all qubits of the lattice, after the last one on the data qubits. -/
def latticeOps (T : Nat) (e e' : Nat → Errs) : List (QOp × Errs) :=
  (List.range T).flatMap fun t => [(.stabilize, e' t), (if t + 1 < T then .id else .idData, e t)]

end Qtc.Spec
