import Verif.Spec.Noise
/-!
Circuits with Pauli errors at arbitrary places: on any qubit, between any two instructions. And how such errors spread through the
rest of the circuit.
-/
namespace Qtc.Spec

/-- An error in a circuit: after the first `pos` instructions a qubit suffers an X error, a Z error or both (a Y error up to a
phase). -/
structure Slip where
  pos : Nat
  qubit : Qubit
  x : Bool
  z : Bool
  deriving DecidableEq, Repr

/-- The error as gates. -/
def Slip.gates (s : Slip) : List Instr :=
  (if s.x then [.gate1 .x s.qubit none] else []) ++ if s.z then [.gate1 .z s.qubit none] else []

/-- The instructions of a circuit, `k` of which have been carried out, with the errors in between; errors said to be after more
instructions than there are happen at the end. -/
def slipped (E : List Slip) : Nat → List Instr → List Instr
  | k, [] => (E.filter fun s => k ≤ s.pos).flatMap Slip.gates
  | k, i :: l => (E.filter fun s => s.pos = k).flatMap Slip.gates ++ i :: slipped E (k + 1) l

/-- The instructions a sequence of operations adds to the circuit, with errors: for every operation it is given which errors
happen in its circuit. -/
def slippedAll (q : TQubit) : List (QOp × List Slip) → World → List Instr
  | [], _ => []
  | (o, E) :: l, w => slipped E 0 (added q o w) ++ slippedAll q l (q.op o w).2

/-- How many errors there are. -/
def slipCount (l : List (QOp × List Slip)) : Nat := (l.map fun p => p.2.length).sum

/-! ### How errors spread -/

/-- The other letter. -/
def Letter.other : Letter → Letter
  | .X => .Z
  | .Z => .X

/-- Something that is wrong: a Pauli operator on a qubit, or a flipped classical bit. -/
inductive Mark where
  | pauli (a : Letter) (q : Qubit)
  | bit (b : Clbit)
  deriving DecidableEq, Repr

/-- What an instruction makes of something that is wrong before it. -/
def spread : Instr → Mark → List Mark
  | .gate1 .h q none, .pauli a q' => [.pauli (if q' = q then a.other else a) q']
  | .gate2 .cx a b, .pauli .X q => if q = a then [.pauli .X a, .pauli .X b] else [.pauli .X q]
  | .gate2 .cx a b, .pauli .Z q => if q = b then [.pauli .Z b, .pauli .Z a] else [.pauli .Z q]
  | .gate2 .cz a b, .pauli .X q =>
      if q = a then [.pauli .X a, .pauli .Z b] else if q = b then [.pauli .X b, .pauli .Z a] else [.pauli .X q]
  | .measure q b, .pauli .X q' => if q' = q then [.pauli .X q, .bit b] else [.pauli .X q']
  | .measure _ b, .bit b' => if b' = b then [] else [.bit b']
  | .reset q, .pauli a q' => if q' = q then [] else [.pauli a q']
  | _, m => [m]

/-- What a list of instructions makes of everything that is wrong before it. -/
def travel : List Instr → List Mark → List Mark
  | [], F => F
  | i :: l, F => travel l (F.flatMap (spread i))

/-- What is wrong right after an error. -/
def Slip.marks (s : Slip) : List Mark :=
  (if s.x then [.pauli .X s.qubit] else []) ++ if s.z then [.pauli .Z s.qubit] else []

/-- Everything that is wrong at the end of a circuit with errors. -/
def wrongAfter (E : List Slip) (l : List Instr) : List Mark := E.flatMap fun s => travel (l.drop s.pos) s.marks

/-- The Pauli operator on a qubit, if it is one. -/
def Mark.letter? : Mark → Option (Letter × Qubit)
  | .pauli a q => some (a, q)
  | .bit _ => none

/-- The Pauli string of all that is wrong. -/
def wrongOp (F : List Mark) : Op := pstr (F.filterMap Mark.letter?)

/-- The classical bits with those flipped that are wrong. -/
def wrongMem (F : List Mark) (m : Mem) : Mem := fun b => m b ^^ xorAll (F.map fun k => decide (k = .bit b))

/-- Not a conditional gate. -/
def _root_.Qtc.Instr.Plain : Instr → Prop
  | .gate1 _ _ (some _) => False
  | _ => True

end Qtc.Spec
