/-!
Specification vocabulary for the rotated surface-code lattice, written without reference to the model.

Data qubits sit on integer sites `(r, c)` with `0 ≤ r < dh`, `0 ≤ c < dw`, numbered row by row.
Plaquettes sit between the sites, at half-integer positions, which are written doubled: the plaquette at doubled
position `(r2, c2)` (both odd) has the four neighbouring sites `((r2 ± 1)/2, (c2 ± 1)/2)`.
Plaquettes are coloured like a checkerboard; colour X means `r2 + c2 ≡ 0 (mod 4)`, colour Z means `r2 + c2 ≡ 2 (mod 4)`.
-/
namespace Qtc.Spec

/-- Number of the data qubit at site `(r, c)`, if the site is in the lattice. -/
def dataAt (dh dw r c : Int) : Option Int :=
  if 0 ≤ r ∧ r < dh ∧ 0 ≤ c ∧ c < dw then some (r * dw + c) else none

/-- The data qubits around the plaquette position `(r2, c2)`: top-left, top-right, bottom-left, bottom-right. -/
def cornersOf (dh dw r2 c2 : Int) : List (Option Int) :=
  [dataAt dh dw ((r2 - 1) / 2) ((c2 - 1) / 2), dataAt dh dw ((r2 - 1) / 2) ((c2 + 1) / 2),
   dataAt dh dw ((r2 + 1) / 2) ((c2 - 1) / 2), dataAt dh dw ((r2 + 1) / 2) ((c2 + 1) / 2)]

/-- Positions of the X stabilizers: X-coloured plaquettes inside the lattice or on its top or bottom edge. -/
def XSite (dh dw r2 c2 : Int) : Prop :=
  r2 % 2 = 1 ∧ c2 % 2 = 1 ∧ (r2 + c2) % 4 = 0 ∧ -1 ≤ r2 ∧ r2 ≤ 2 * dh - 1 ∧ 1 ≤ c2 ∧ c2 ≤ 2 * dw - 3

/-- Positions of the Z stabilizers: Z-coloured plaquettes inside the lattice or on its left or right edge. -/
def ZSite (dh dw r2 c2 : Int) : Prop :=
  r2 % 2 = 1 ∧ c2 % 2 = 1 ∧ (r2 + c2) % 4 = 2 ∧ 1 ≤ r2 ∧ r2 ≤ 2 * dh - 3 ∧ -1 ≤ c2 ∧ c2 ≤ 2 * dw - 1

instance (dh dw r2 c2 : Int) : Decidable (XSite dh dw r2 c2) := by unfold XSite; infer_instance
instance (dh dw r2 c2 : Int) : Decidable (ZSite dh dw r2 c2) := by unfold ZSite; infer_instance

/-- All doubled positions of a `dh × dw` lattice including its rim, row by row, each row from left to right. -/
def allPos (dh dw : Int) : List (Int × Int) :=
  (List.range (2 * dh + 1).toNat).flatMap fun (i : Nat) =>
    (List.range (2 * dw + 1).toNat).map fun (j : Nat) => ((i : Int) - 1, (j : Int) - 1)

/-- The X stabilizer positions in reading order: the `k`-th entry is the position of the `k`-th X syndrome. -/
def xSites (dh dw : Int) : List (Int × Int) := (allPos dh dw).filter fun p => XSite dh dw p.1 p.2

/-- The Z stabilizer positions in reading order. -/
def zSites (dh dw : Int) : List (Int × Int) := (allPos dh dw).filter fun p => ZSite dh dw p.1 p.2

/-- A lattice the code can build meaningfully: odd positive height and width. -/
def OddPos (dh dw : Int) : Prop := 0 < dh ∧ dh % 2 = 1 ∧ 0 < dw ∧ dw % 2 = 1

/-- Sum modulo two. -/
def xorAll (l : List Bool) : Bool := l.foldr xor false

/-- Value of a set of flips on an optional data qubit. -/
def optFlip (f : Int → Bool) : Option Int → Bool
  | none => false
  | some q => f q

/-- Parity of the flips `f` on a list of optional data qubits. -/
def parityOn (f : Int → Bool) (qs : List (Option Int)) : Bool := xorAll (qs.map (optFlip f))

/-- Data qubits of row `r`. -/
def rowQubits (dw r : Int) : List Int := (List.range dw.toNat).map fun (c : Nat) => r * dw + (c : Int)

/-- Data qubits of column `c`. -/
def colQubits (dh dw c : Int) : List Int := (List.range dh.toNat).map fun (r : Nat) => (r : Int) * dw + c

/-- All data qubits. -/
def allQubits (dh dw : Int) : List Int := (List.range (dh * dw).toNat).map Int.ofNat

/-- The data qubits (out of the lattice's) on which `f` is set. -/
def support (dh dw : Int) (f : Int → Bool) : List Int := (allQubits dh dw).filter f

end Qtc.Spec
