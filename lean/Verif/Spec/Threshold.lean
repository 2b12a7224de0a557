import Mathlib.Data.Real.Basic
import Mathlib.Algebra.BigOperators.Group.Finset.Basic
import Mathlib.Data.Finset.Powerset
import Verif.Spec.Noise
/-!
Independent errors.
-/
namespace Qtc.Spec

open Classical in
/-- Each of `n` qubits is flipped with probability `p`, independently of the others. The probability that the set of flipped qubits is
one of those with the property `bad`. -/
noncomputable def flipProb (n : Nat) (p : ℝ) (bad : Finset Nat → Prop) : ℝ :=
  ∑ F ∈ (Finset.range n).powerset, if bad F then p ^ F.card * (1 - p) ^ (n - F.card) else 0

open Classical in
/-- Each place in `S` has an error with its own probability, independently of the others. The probability that the set of places with
errors is one of those with the property `bad`. -/
noncomputable def independent {ι : Type} [DecidableEq ι] (S : Finset ι) (q : ι → ℝ) (bad : Finset ι → Prop) : ℝ :=
  ∑ F ∈ S.powerset, if bad F then (∏ i ∈ F, q i) * ∏ i ∈ S \ F, (1 - q i) else 0

/-- The probabilities of a Pauli error: `π (x, z)` is the probability that it has an X part if `x`, and a Z part if `z`. -/
def PauliNoise (π : Bool × Bool → ℝ) : Prop :=
  (∀ v, 0 ≤ π v) ∧ π (false, false) + π (true, false) + π (false, true) + π (true, true) = 1

open Classical in
/-- Each place in `S` has a Pauli error with its own probabilities, independently of the others. The probability that the set of places
with an X part and the set of places with a Z part have the property `bad`. -/
noncomputable def pauliProb {ι : Type} [DecidableEq ι] (S : Finset ι) (π : ι → Bool × Bool → ℝ) (bad : Finset ι → Finset ι → Prop) : ℝ :=
  ∑ A ∈ S.powerset, ∑ B ∈ S.powerset, if bad A B then ∏ i ∈ S, π i (decide (i ∈ A), decide (i ∈ B)) else 0

/-- A quantum memory: `T + 1` stabilizations with identity gates in between. The identity gates are on all qubits of the lattice, those
before the last stabilization on the data qubits. -/
def memoryOps (T : Nat) (e e' : Nat → Errs) : List (QOp × Errs) :=
  (.stabilize, e' 0) :: (List.range T).flatMap fun t => [(if t + 1 < T then .id else .idData, e t), (.stabilize, e' (t + 1))]

/-- The syndrome qubits. -/
def synQubits (name : Str) (dh dw : Int) : List Qubit :=
  (List.range (zSites dh dw).length).map (fun (k : Nat) => mzQ name k) ++ (List.range (xSites dh dw).length).map fun (k : Nat) => mxQ name k

/-- The identity gates of the quantum memory: those of time step `t` on qubit `x` are called `(t, x)`. -/
def idPlaces (name : Str) (dh dw : Int) (T : Nat) : Finset (Nat × Qubit) :=
  ((List.range T).flatMap fun t =>
    ((allQubits dh dw).map (dataQ name) ++ if t + 1 < T then synQubits name dh dw else []).map fun x => (t, x)).toFinset

/-- The errors of time step `t`, if the places in `A` have an X error and those in `B` a Z error. -/
def placedErrs (A B : Finset (Nat × Qubit)) (t : Nat) : Errs := fun x => (decide ((t, x) ∈ A), decide ((t, x) ∈ B))

/-- X errors on the data qubits whose numbers are in `F`. -/
def bitFlips (name : Str) (F : Finset Nat) : Errs := fun x => (decide (∃ i ∈ F, x = dataQ name (i : Nat)), false)

/-- X with probability `p`. -/
def bitNoise (p : ℝ) : Bool × Bool → ℝ
  | (true, false) => p
  | (false, false) => 1 - p
  | _ => 0

/-- X with probability `p`, Z with probability `p`, never both. -/
def xzNoise (p : ℝ) : Bool × Bool → ℝ
  | (true, false) => p
  | (false, true) => p
  | (true, true) => 0
  | (false, false) => 1 - 2 * p

end Qtc.Spec
