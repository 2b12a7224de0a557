import Mathlib.Data.Real.Basic
import Mathlib.Algebra.BigOperators.Group.Finset.Basic
import Mathlib.Data.Finset.Powerset
import Verif.Spec.CircuitNoise
/-!
Errors that need not be independent.
-/
namespace Qtc.Spec

/-- `P F` is the probability that errors occur at exactly the places in `F`. Errors at different places need not be independent, but those at
any given places occur together with probability at most `p` to the power of their number. -/
structure LocalNoise {ι : Type} [DecidableEq ι] (S : Finset ι) (P : Finset ι → ℝ) (p : ℝ) : Prop where
  nonneg : ∀ F, F ⊆ S → 0 ≤ P F
  total : ∑ F ∈ S.powerset, P F = 1
  rare : ∀ A, A ⊆ S → ∑ F ∈ S.powerset with A ⊆ F, P F ≤ p ^ A.card

open Classical in
/-- The probability that the set of places with errors has the property `bad`. -/
noncomputable def chance {ι : Type} [DecidableEq ι] (S : Finset ι) (P : Finset ι → ℝ) (bad : Finset ι → Prop) : ℝ :=
  ∑ F ∈ S.powerset, if bad F then P F else 0

/-- A sequence of operations with errors: `E a` are the errors in the circuit of the `a`-th one. -/
def withSlips (l : List QOp) (E : Nat → List Slip) : List (QOp × List Slip) := l.zipIdx.map fun p => (p.1, E p.2)

/-- The errors only affect the qubits `x` in the operations `a` with `(a, x)` in `F`. -/
def Within (F : Finset (Nat × Qubit)) (E : Nat → List Slip) : Prop := ∀ a, ∀ s ∈ E a, (a, s.qubit) ∈ F

/-- There are at most `G` operations per round of stabilization. -/
def Paced (G : Nat) (l : List QOp) : Prop :=
  ∀ n, ((List.range l.length).filter fun a => decide ((l.take a).count .stabilize = n)).length ≤ G

end Qtc.Spec
