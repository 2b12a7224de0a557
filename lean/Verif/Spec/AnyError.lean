import Mathlib.Algebra.Algebra.Subalgebra.Lattice
import Verif.Spec.CircuitNoise
/-!
Circuits with errors that are not Pauli errors: any operator on some qubits, between any two instructions.
-/
namespace Qtc.Spec
open Function

/-- The operator on a qubit with a given matrix: rotations by any angle, the Kraus operators of a damping, a projection… -/
def matOp (x : Qubit) (M : Bool → Bool → ℂ) : Op where
  toFun ψ := fun c => M (c x) false * ψ (update c x false) + M (c x) true * ψ (update c x true)
  map_add' _ _ := funext fun _ => by simp only [Pi.add_apply]; ring
  map_smul' _ _ := funext fun _ => by simp only [Pi.smul_apply, smul_eq_mul, RingHom.id_apply]; ring

/-- The operator on two qubits with a given matrix: `M` takes the values of both qubits after and before. -/
def matOp2 (x y : Qubit) (M : Bool → Bool → Bool → Bool → ℂ) : Op where
  toFun ψ := fun c =>
    M (c x) (c y) false false * ψ (update (update c x false) y false) + M (c x) (c y) false true * ψ (update (update c x false) y true) +
    M (c x) (c y) true false * ψ (update (update c x true) y false) + M (c x) (c y) true true * ψ (update (update c x true) y true)
  map_add' _ _ := funext fun _ => by simp only [Pi.add_apply]; ring
  map_smul' _ _ := funext fun _ => by simp only [Pi.smul_apply, smul_eq_mul, RingHom.id_apply]; ring

/-- An operator on some qubits: any sum of products of operators on them. -/
def OnQubits (xs : List Qubit) (A : Op) : Prop := A ∈ Algebra.adjoin ℂ {B : Op | ∃ x ∈ xs, B = opX x ∨ B = opZ x}

/-- An error in a circuit: after the first `pos` instructions some operator acts on some qubits. It need not be unitary: it may be any of
the Kraus operators of a channel. -/
structure Blow where
  pos : Nat
  qubits : List Qubit
  op : Op

/-- What happens in a circuit: an instruction, or an operator nobody asked for. -/
inductive Event where
  | instr (i : Instr)
  | blow (A : Op)

/-- What a list of events may do. -/
def Happens (sz : Str → Nat) : List Event → QState → QState → Prop
  | [], s, s' => s' = s
  | .instr i :: l, s, s' => ∃ t, Step sz i s t ∧ Happens sz l t s'
  | .blow A :: l, s, s' => Happens sz l ⟨A s.psi, s.mem⟩ s'

/-- The executions of events that turn the classical bits `m` into `m'` in one particular way: they turn every state `φ` into `K φ`, if
that is not zero. -/
def Effects (sz : Str → Nat) (l : List Event) (m m' : Mem) (K : Op) : Prop := ∀ φ, K φ ≠ 0 → Happens sz l ⟨φ, m⟩ ⟨K φ, m'⟩

/-- The instructions of a circuit, `k` of which have been carried out, with the errors in between; errors said to be after more
instructions than there are happen at the end. -/
def struck (E : List Blow) : Nat → List Instr → List Event
  | k, [] => (E.filter fun b => k ≤ b.pos).map fun b => .blow b.op
  | k, i :: l => ((E.filter fun b => b.pos = k).map fun b => .blow b.op) ++ .instr i :: struck E (k + 1) l

/-- The instructions a sequence of operations adds to the circuit, with errors: for every operation it is given which errors
happen in its circuit. -/
def struckAll (q : TQubit) : List (QOp × List Blow) → World → List Event
  | [], _ => []
  | (o, E) :: l, w => struck E 0 (added q o w) ++ struckAll q l (q.op o w).2

/-- How many errors there are: an operator on several qubits counts as many. -/
def blowCount (l : List (QOp × List Blow)) : Nat := (l.map fun p => (p.2.map fun b => b.qubits.length).sum).sum

end Qtc.Spec
