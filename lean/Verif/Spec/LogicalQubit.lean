import Verif.Spec.OneQubit
import Verif.Spec.Chance
/-!
One qubit, to compare a logical qubit with.
-/
namespace Qtc.Spec
open Qtc

/-- The amplitudes of a qubit after gates. -/
def qubitAfter : List QOp → ℂ × ℂ → ℂ × ℂ
  | [], p => p
  | .x :: l, p => qubitAfter l (p.2, p.1)
  | .z :: l, p => qubitAfter l (p.1, -p.2)
  | _ :: l, p => qubitAfter l p

/-- A logical |0⟩: a state with certain syndromes, syndrome qubits 0 and logical Z of value 1. -/
def LogicalZero (code : Code) (name : Str) (dh dw : Int) (m : Nat → Bool) (φ : Psi) : Prop :=
  φ ≠ 0 ∧ Bounded φ ∧ Syndrome code name dh dw m φ ∧ SynZero name dh dw φ ∧ HasValue (logZ code name dw) false φ

/-- The logical state with given amplitudes. -/
def encoded (code : Code) (name : Str) (dh dw : Int) (φ : Psi) (p : ℂ × ℂ) : Psi := p.1 • φ + p.2 • logX code name dh dw φ

end Qtc.Spec
