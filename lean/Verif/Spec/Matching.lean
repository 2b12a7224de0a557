import Verif.Model.Decoder
import Verif.Spec.Graph
import Verif.Spec.Readout
/-!
Contract of the matching library and the fault model, independent of how the code decodes
(uses only the types `Node`, `Key`, `Matcher`).
-/
namespace Qtc.Spec

/-! ### Matchings -/

/-- The ends of a list of pairs, in order. -/
def ends {α : Type} (M : List (α × α)) : List α := M.flatMap fun p => [p.1, p.2]

/-- The weight of the edge between `i` and `j` in a list of weighted edges. -/
def edgeWeight (E : List (Nat × Nat × Int)) (i j : Nat) : Int :=
  match E.find? (fun e => decide ((e.1 = i ∧ e.2.1 = j) ∨ (e.1 = j ∧ e.2.1 = i))) with
  | some e => e.2.2
  | none => 0

/-- `M` is a matching: every pair is an edge between different nodes, and no node is used twice. -/
def IsMatching (E : List (Nat × Nat × Int)) (M : List (Nat × Nat)) : Prop :=
  (∀ p ∈ M, p.1 ≠ p.2 ∧ ∃ w, (p.1, p.2, w) ∈ E ∨ (p.2, p.1, w) ∈ E) ∧ (ends M).Nodup

/-- Total weight of a matching. -/
def matchWeight (E : List (Nat × Nat × Int)) (M : List (Nat × Nat)) : Int := (M.map fun p => edgeWeight E p.1 p.2).sum

/-- `M` has the largest possible number of pairs, and the largest weight among those. -/
def IsOptimal (E : List (Nat × Nat × Int)) (M : List (Nat × Nat)) : Prop :=
  IsMatching E M ∧ ∀ M', IsMatching E M' →
    M'.length ≤ M.length ∧ (M'.length = M.length → matchWeight E M' ≤ matchWeight E M)

/-- The edges of a graph with `n` nodes and at most one edge between any two nodes. -/
def SimpleEdges (n : Nat) (E : List (Nat × Nat × Int)) : Prop :=
  (∀ e ∈ E, e.1 < n ∧ e.2.1 < n) ∧
    E.Pairwise fun e e' => ¬ ((e.1 = e'.1 ∧ e.2.1 = e'.2.1) ∨ (e.1 = e'.2.1 ∧ e.2.1 = e'.1))

/-- What `max_weight_matching(..., max_cardinality=True)` promises for such a graph: some optimal matching. Which one is
left open. -/
def Contract (m : Matcher) : Prop := ∀ n E, SimpleEdges n E → IsOptimal E (m n E)

/-! ### Faults -/

/-- A logical value as the integer the code works with. -/
def bit (b : Bool) : Int := if b then 1 else 0

/-- The readout type of a key. -/
def rtypeOf : Key → RType
  | .X => .X
  | .Z => .Z

/-- The elementary faults that matter for one type of readout.
`data t r c`: data qubit `(r, c)` flips between the syndrome rounds `t` and `t + 1`.
`meas t r2 c2`: the stabilizer at (doubled) position `(r2, c2)` is misread in round `t + 1`. -/
inductive Fault where
  | data (t r c : Int)
  | meas (t r2 c2 : Int)
  deriving DecidableEq, Repr

/-- The fault lies in a lattice with rounds `0 … T`; only the inner rounds `1 … T-1` can be misread. -/
def Fault.Fits (key : Key) (dh dw T : Int) : Fault → Prop
  | .data t r c => 0 ≤ t ∧ t < T ∧ 0 ≤ r ∧ r < dh ∧ 0 ≤ c ∧ c < dw
  | .meas t r2 c2 => 0 ≤ t ∧ t + 1 < T ∧ Site key dh dw r2 c2

/-- Does the fault change the comparison of rounds `n.t` and `n.t + 1` at the stabilizer of node `n`? A data flip changes it
for the neighbouring stabilizers, a misreading for the two comparisons it takes part in. -/
def Fault.changes (n : Node) : Fault → Bool
  | .data t r c => n.t == t && (n.r2 == 2 * r - 1 || n.r2 == 2 * r + 1) && (n.c2 == 2 * c - 1 || n.c2 == 2 * c + 1)
  | .meas t r2 c2 => n.r2 == r2 && n.c2 == c2 && (n.t == t || n.t == t + 1)

/-- Does the fault flip the measured logical value? The readout of type Z is the parity of the top row, that of type X the
parity of the left column. -/
def Fault.flipsReadout (key : Key) : Fault → Bool
  | .data _ r c => match key with
    | .Z => r == 0
    | .X => c == 0
  | .meas _ _ _ => false

/-- Does the fault change what is read for the stabilizer at `(r2, c2)` in round `t`? A data flip changes all later rounds
for the neighbouring stabilizers, a misreading only its own round. -/
def Fault.affects (t r2 c2 : Int) : Fault → Bool
  | .data t' r c => decide (t' < t) && (r2 == 2 * r - 1 || r2 == 2 * r + 1) && (c2 == 2 * c - 1 || c2 == 2 * c + 1)
  | .meas t' r2' c2' => r2 == r2' && c2 == c2' && t == t' + 1

/-- What is read for the stabilizer at `(r2, c2)` in round `t`, if it reads `ref` without faults. -/
def readBit (ref : Int → Int → Bool) (fs : List Fault) (t r2 c2 : Int) : Bool :=
  ref r2 c2 ^^ xorAll (fs.map (Fault.affects t r2 c2))

/-- The stabilizer positions of a type in reading order. -/
def sitesOf (key : Key) (dh dw : Int) : List (Int × Int) :=
  match key with
  | .X => xSites dh dw
  | .Z => zSites dh dw

/-- The bits of the stabilizers of a type in the string of one round. -/
def keyBits (key : Key) (dh dw : Int) (s : Str) : Nat → Bool :=
  match key with
  | .X => xBits (zSites dh dw).length s
  | .Z => zBits s

/-- `rounds` (oldest first) are strings in which the stabilizers of the type read what the faults make them read. -/
def RoundsRead (key : Key) (dh dw : Int) (ref : Int → Int → Bool) (fs : List Fault) (rounds : List Str) : Prop :=
  (∀ s ∈ rounds, IsBits s) ∧ ∀ (t k : Nat) s p, rounds[t]? = some s → (sitesOf key dh dw)[k]? = some p →
    keyBits key dh dw s k = readBit ref fs t p.1 p.2

/-- Does the fault flip the data qubit with number `q`? (Qubits are numbered row by row.) -/
def Fault.flipsData (dw q : Int) : Fault → Bool
  | .data _ r c => r * dw + c == q
  | .meas _ _ _ => false

/-- What a data qubit reads at the end, if it reads `ref` without faults. -/
def readData (ref : Int → Bool) (fs : List Fault) (dw q : Int) : Bool := ref q ^^ xorAll (fs.map (Fault.flipsData dw q))

/-- `n` is a syndrome hit caused by the faults `fs`: a stabilizer at some time that an odd number of them change. -/
def IsHit (key : Key) (dh dw T : Int) (fs : List Fault) (n : Node) : Prop :=
  0 ≤ n.t ∧ n.t < T ∧ Site key dh dw n.r2 n.c2 ∧ fs.countP (Fault.changes n) % 2 = 1

/-- Do the faults together flip the measured logical value? -/
def readoutFlipped (key : Key) (fs : List Fault) : Bool := xorAll (fs.map (Fault.flipsReadout key))

/-- At most `(distance - 1) / 2` faults, all inside the lattice. -/
def Correctable (key : Key) (dh dw T : Int) (fs : List Fault) : Prop :=
  (∀ f ∈ fs, f.Fits key dh dw T) ∧ (fs.length : Int) ≤ (distance key dh dw - 1) / 2

end Qtc.Spec
