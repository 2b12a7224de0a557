import Verif.Spec.Matching
/-!
Fault sets that are larger than `(distance - 1) / 2` but lie in few lines.
-/
namespace Qtc.Spec

/-- Does the fault flip a data qubit of the `k`-th line? Lines run along the readout: rows for type Z, columns for type X. -/
def Fault.inLine (key : Key) (k : Int) : Fault → Bool
  | .data _ r c => match key with
    | .Z => r == k
    | .X => c == k
  | .meas _ _ _ => false

/-- How many of the first `n` lines are hit by an odd number of flips of data qubits, at whatever times. -/
def oddLines (key : Key) (n : Nat) (fs : List Fault) : Nat :=
  (List.range n).countP fun (k : Nat) => xorAll (fs.map (Fault.inLine key k))

/-- The faults lie inside the lattice, and their number together with the number of lines hit an odd number of times is less than the
distance. -/
def Tolerable (key : Key) (dh dw T : Int) (fs : List Fault) : Prop :=
  (∀ f ∈ fs, f.Fits key dh dw T) ∧ (fs.length : Int) + oddLines key (distance key dh dw).toNat fs < distance key dh dw

/-- Every smallest set of faults that has the same hits does to the readout what `fs` does; if `wrong`, every one does the opposite. -/
def Decided (key : Key) (dh dw T : Int) (fs : List Fault) (wrong : Bool) : Prop :=
  ∀ gs : List Fault, (∀ f ∈ gs, f.Fits key dh dw T) → (∀ n, IsHit key dh dw T gs n ↔ IsHit key dh dw T fs n) →
    (∀ hs : List Fault, (∀ f ∈ hs, f.Fits key dh dw T) → (∀ n, IsHit key dh dw T hs n ↔ IsHit key dh dw T fs n) → gs.length ≤ hs.length) →
    readoutFlipped key gs = (readoutFlipped key fs ^^ wrong)

end Qtc.Spec
