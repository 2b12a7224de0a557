import Verif.Spec.Readout
import Mathlib.Data.Finset.Range
/-!
What a shot of a repetition code shows.
-/
namespace Qtc.Spec

/-- A bit as a character. -/
def digit (b : Bool) : Char := if b then '1' else '0'

/-- The readout of a repetition code with `d` data qubits that holds the value `v`, if the data qubits in `F` flip between its two rounds: the
value of the first data qubit, then the parities of neighbouring data qubits (the last pair first), then the parities of the first
round, which are all 0. -/
def repString (d : Nat) (v : Bool) (F : Finset Nat) : Str :=
  digit (v ^^ decide (0 ∈ F)) :: ' ' ::
    (((List.range (d - 1)).map fun k => digit (decide (k ∈ F) ^^ decide (k + 1 ∈ F))).reverse ++ ' ' :: List.replicate (d - 1) '0')

end Qtc.Spec
