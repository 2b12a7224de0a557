import Verif.Spec.Lattice
import Verif.Model.Readout
/-!
Specification vocabulary for readout strings and detection events (uses only the result types `Node`, `Str` of the model).
-/
namespace Qtc.Spec

/-- Bit `i` of a bit string written with the most significant bit first (Qiskit's order); missing bits are `0`. -/
def bitFromRight (s : Str) (i : Nat) : Bool := s.reverse[i]? == some '1'

/-- A non-empty string of `0` and `1`. -/
def IsBits (s : Str) : Prop := s ≠ [] ∧ ∀ c ∈ s, c = '0' ∨ c = '1'

/-- Chunks joined by single spaces. -/
def joinSp : List Str → Str
  | [] => []
  | [w] => w
  | w :: ws => w ++ ' ' :: joinSp ws

/-- Detection events: for consecutive rounds `t`, `t+1` and the `k`-th stabilizer position, one event at time `t` and
that position if the bit of the stabilizer changed; ordered by time, then by stabilizer. `rounds` oldest first. -/
def changes (sites : List (Int × Int)) (rounds : List (Nat → Bool)) : List Node :=
  (List.range (rounds.length - 1)).flatMap fun t =>
    (List.range sites.length).flatMap fun k =>
      match rounds[t]?, rounds[t+1]?, sites[k]? with
      | some a, some b, some s => if a k ≠ b k then [{ t := t, r2 := s.1, c2 := s.2 }] else []
      | _, _, _ => []

/-- The bits of the X syndromes in a round string `X_n … X_0 Z_m … Z_0` when there are `nz` Z syndromes. -/
def xBits (nz : Nat) (s : Str) : Nat → Bool := fun k => bitFromRight s (nz + k)

/-- The bits of the Z syndromes in a round string. -/
def zBits (s : Str) : Nat → Bool := fun k => bitFromRight s k

/-- Data bit `q` of a full-lattice readout. -/
def dataBit (final : Str) : Int → Bool := fun q => bitFromRight final q.toNat

/-- The round a full-lattice Z readout stands for: for each Z position the parity of its data bits. -/
def zParities (dh dw : Int) (final : Str) : Nat → Bool := fun k =>
  match (zSites dh dw)[k]? with
  | some s => parityOn (dataBit final) (cornersOf dh dw s.1 s.2)
  | none => false

/-- Number of syndrome rounds in a readout string, counting a full-lattice readout as one more round. -/
def numRounds (chunks : List Str) : Nat :=
  match chunks with
  | [] => 0
  | c :: rest => if 1 < c.length then rest.length + 1 else rest.length

end Qtc.Spec
