import Mathlib.Algebra.BigOperators.Finprod
import Verif.Spec.Quantum
/-!
With which probability a circuit gives a result: Born's rule.
-/
namespace Qtc.Spec
open Function Classical

/-- The square of the norm of a state. -/
noncomputable def norm2 (ψ : Psi) : ℝ := ∑ᶠ c, Complex.normSq (ψ c)

/-- The state is a superposition of finitely many assignments of values, as every state is that circuits lead to from one such assignment. -/
def Bounded (ψ : Psi) : Prop := (Function.support ψ).Finite

/-- What an instruction leads to: one state for every result of a measurement or reset; zero if the result is not possible. -/
noncomputable def forks (sz : Str → Nat) : Instr → QState → List QState
  | .gate1 g q none, s => [⟨gate1Op g q s.psi, s.mem⟩]
  | .gate1 g q (some (r, v)), s => if (regValue s.mem r (sz r) : Int) = v then [⟨gate1Op g q s.psi, s.mem⟩] else [s]
  | .gate2 g a b, s => [⟨gate2Op g a b s.psi, s.mem⟩]
  | .measure q b, s => [⟨opP false q s.psi, update s.mem b false⟩, ⟨opP true q s.psi, update s.mem b true⟩]
  | .reset q, s => [⟨clear false q (opP false q s.psi), s.mem⟩, ⟨clear true q (opP true q s.psi), s.mem⟩]
  | .barrier, s => [s]

/-- What a list of instructions leads to: one state for every sequence of results. -/
noncomputable def branches (sz : Str → Nat) : List Instr → QState → List QState
  | [], s => [s]
  | i :: l, s => (forks sz i s).flatMap (branches sz l)

/-- The probability that the instructions lead from `s` to a state with property `E`. -/
noncomputable def bornProb (sz : Str → Nat) (l : List Instr) (s : QState) (E : QState → Prop) : ℝ :=
  (((branches sz l s).filter fun t => E t).map fun t => norm2 t.psi).sum / norm2 s.psi

end Qtc.Spec
