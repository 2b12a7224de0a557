import Verif.Spec.Benchmark
import Mathlib.Data.Real.Basic
import Mathlib.Data.Fintype.Pi
import Mathlib.Algebra.BigOperators.Ring.Finset
/-!
Independent shots.
-/
namespace Qtc.Spec

/-- What `get_counts()` returns for shots with the readouts `l`: every string with the number of times it occurred. -/
def Tally (c : Counts) (l : List Str) : Prop := (c.map (·.1)).Nodup ∧ ∀ s, countOf c s = l.count s

/-- `μ` gives the probabilities of the elements of `S`. -/
def Law {Ω : Type} (S : Finset Ω) (μ : Ω → ℝ) : Prop := (∀ x ∈ S, 0 ≤ μ x) ∧ ∑ x ∈ S, μ x = 1

/-- The mean of `f` over `N` independent draws from `S`. -/
def mean {Ω : Type} (N : Nat) (S : Finset Ω) (μ : Ω → ℝ) (f : (Fin N → Ω) → ℝ) : ℝ :=
  ∑ x ∈ Fintype.piFinset (fun _ => S), (∏ i, μ (x i)) * f x

open Classical in
/-- The probability that `N` independent draws from `S` satisfy `E`. -/
noncomputable def probability {Ω : Type} (N : Nat) (S : Finset Ω) (μ : Ω → ℝ) (E : (Fin N → Ω) → Prop) : ℝ :=
  mean N S μ fun x => if E x then 1 else 0

end Qtc.Spec
