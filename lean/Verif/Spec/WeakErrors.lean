import Verif.Spec.AnyError
import Verif.Spec.Chance
/-!
Errors that happen everywhere, but are weak: how far operators are from doing nothing, and probabilities in circuits with such errors.
-/
namespace Qtc.Spec
open Function Classical

/-- The operator changes states by at most the part `ε` of their norm. -/
def NearOne (ε : ℝ) (A : Op) : Prop := ∀ ψ, Bounded ψ → norm2 (A ψ - ψ) ≤ ε ^ 2 * norm2 ψ

/-- The operator keeps the norm of states, as unitary operators do. -/
def Isometric (A : Op) : Prop := ∀ ψ, Bounded ψ → norm2 (A ψ) = norm2 ψ

/-- What a list of events leads to: one state for every sequence of results. -/
noncomputable def eventBranches (sz : Str → Nat) : List Event → QState → List QState
  | [], s => [s]
  | .instr i :: l, s => (forks sz i s).flatMap (eventBranches sz l)
  | .blow A :: l, s => eventBranches sz l ⟨A s.psi, s.mem⟩

/-- The probability that the events lead from `s` to a state with property `E`: by Born's rule, if the operators nobody asked for keep the
norm. -/
noncomputable def eventProb (sz : Str → Nat) (l : List Event) (s : QState) (E : QState → Prop) : ℝ :=
  (((eventBranches sz l s).filter fun t => E t).map fun t => norm2 t.psi).sum / norm2 s.psi

/-- How many errors there are, whatever the number of their qubits. -/
def strikes (l : List (QOp × List Blow)) : Nat := (l.map fun p => p.2.length).sum

end Qtc.Spec
