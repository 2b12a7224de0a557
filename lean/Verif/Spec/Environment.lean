import Verif.Spec.WeakErrors
import Verif.Spec.Circuit
/-!
Errors that entangle qubits of a circuit with an environment.
-/
namespace Qtc.Spec

/-- An operator on some qubits of a circuit and on any qubits that are not in the circuit. -/
def WithEnv (c : Circ) (xs : List Qubit) (A : Op) : Prop :=
  (∀ x ∈ xs, HasQubit c x) ∧ ∃ es : List Qubit, (∀ e ∈ es, ¬HasQubit c e) ∧ OnQubits (xs ++ es) A

end Qtc.Spec
