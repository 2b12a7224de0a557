import Verif.Spec.Matching
/-!
Fault sets that no measurement can tell apart.
-/
namespace Qtc.Spec

/-- The other type. -/
def otherKey : Key → Key
  | .X => .Z
  | .Z => .X

/-- A flip, between the rounds `t` and `t + 1`, of every data qubit around the plaquette position `(r2, c2)`. -/
def plaquetteFlips (dh dw t r2 c2 : Int) : List Fault :=
  ([((r2 - 1) / 2, (c2 - 1) / 2), ((r2 - 1) / 2, (c2 + 1) / 2), ((r2 + 1) / 2, (c2 - 1) / 2), ((r2 + 1) / 2, (c2 + 1) / 2)].filter
    fun p => decide (0 ≤ p.1 ∧ p.1 < dh ∧ 0 ≤ p.2 ∧ p.2 < dw)).map fun p => .data t p.1 p.2

/-- A flip of the `i`-th qubit, counted from the edge at which the logical value is read, of a line that crosses the lattice: the left
column for the readout of Z, the top row for the readout of X. -/
def lineFault (key : Key) (t : Int) (i : Nat) : Fault :=
  match key with
  | .Z => .data t i 0
  | .X => .data t 0 i

/-- Flips of the first `n` qubits of this line. -/
def lineFlips (key : Key) (t : Int) (n : Nat) : List Fault := (List.range n).map (lineFault key t)

/-- Every stabilizer of the type reads the same in all rounds. -/
def SameReadings (key : Key) (dh dw : Int) (fs gs : List Fault) : Prop :=
  ∀ t r2 c2, Site key dh dw r2 c2 → xorAll (fs.map (Fault.affects t r2 c2)) = xorAll (gs.map (Fault.affects t r2 c2))

/-- The lattice is a single line of data qubits, along which the type is protected: a repetition code. -/
def Thin (key : Key) (dh dw : Int) : Prop :=
  match key with
  | .Z => dw = 1
  | .X => dh = 1

/-- Flips of the `N` data qubits on the diagonal from `(l, l)` on. -/
def diagChain (l N : Nat) : List Fault := (List.range N).map fun (x : Nat) => .data 0 (l + x) (l + x)

end Qtc.Spec
