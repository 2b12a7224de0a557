import Mathlib.Algebra.Module.LinearMap.End
import Mathlib.Analysis.Real.Sqrt
import Mathlib.Data.Complex.Basic
import Verif.Spec.Circuit
/-!
What circuits do to quantum states: the textbook state-vector semantics with projective measurement, and the operators of the
surface code.

There is one two-level system for every possible qubit; a circuit acts on those it mentions. A state is a complex amplitude for
every assignment of classical values (not normalised: the square of the norm of the state after an execution, divided by that
before, is the probability of the execution; an execution is possible if its state is not zero).
-/
namespace Qtc.Spec
open Function

/-! ### States and operators -/

/-- A classical value for every qubit. -/
abbrev Config := Qubit → Bool

/-- A quantum state. -/
abbrev Psi := Config → ℂ

/-- Linear operators on states. -/
abbrev Op := Module.End ℂ Psi

/-- The sign of a measured value: `1` for 0, `-1` for 1. -/
def sg (b : Bool) : ℂ := if b then -1 else 1

/-- Bit flip. -/
def opX (q : Qubit) : Op where
  toFun ψ := fun c => ψ (update c q (!c q))
  map_add' _ _ := rfl
  map_smul' _ _ := rfl

/-- Phase flip. -/
def opZ (q : Qubit) : Op where
  toFun ψ := fun c => sg (c q) * ψ c
  map_add' _ _ := funext fun _ => mul_add _ _ _
  map_smul' _ _ := funext fun _ => mul_left_comm _ _ _

/-- The Hadamard gate. -/
noncomputable def opH (q : Qubit) : Op where
  toFun ψ := fun c => ((Real.sqrt 2 : ℝ) : ℂ)⁻¹ * (ψ (update c q false) + sg (c q) * ψ (update c q true))
  map_add' _ _ := funext fun _ => by simp only [Pi.add_apply]; ring
  map_smul' _ _ := funext fun _ => by simp only [Pi.smul_apply, smul_eq_mul, RingHom.id_apply]; ring

/-- Controlled not, control `a`, target `b`. -/
def opCX (a b : Qubit) : Op where
  toFun ψ := fun c => if c a then ψ (update c b (!c b)) else ψ c
  map_add' _ _ := funext fun c => by simp only [Pi.add_apply]; split <;> rfl
  map_smul' _ _ := funext fun c => by simp only [Pi.smul_apply, RingHom.id_apply]; split <;> rfl

/-- Controlled phase flip. -/
def opCZ (a b : Qubit) : Op where
  toFun ψ := fun c => if c a && c b then -ψ c else ψ c
  map_add' _ _ := funext fun c => by simp only [Pi.add_apply]; split <;> ring
  map_smul' _ _ := funext fun c => by simp only [Pi.smul_apply, smul_eq_mul, RingHom.id_apply]; split <;> ring

/-- The part of a state in which qubit `q` has value `v`. -/
def opP (v : Bool) (q : Qubit) : Op where
  toFun ψ := fun c => if c q = v then ψ c else 0
  map_add' _ _ := funext fun c => by simp only [Pi.add_apply]; split <;> simp
  map_smul' _ _ := funext fun c => by simp only [Pi.smul_apply, RingHom.id_apply]; split <;> simp

/-- The operators of the one-qubit gates. -/
noncomputable def gate1Op : G1 → Qubit → Op
  | .x => opX
  | .z => opZ
  | .h => opH
  | .id => fun _ => 1

/-- The operators of the two-qubit gates. -/
def gate2Op : G2 → Qubit → Qubit → Op
  | .cx => opCX
  | .cz => opCZ

/-- Bring a qubit that has value `v` to 0. -/
def clear (v : Bool) (q : Qubit) : Op := if v then opX q else 1

/-- The part of a state in which the observable `A` (with `A * A = 1`) has value `1` (`v = false`) or `-1` (`v = true`). -/
noncomputable def projOf (A : Op) (v : Bool) : Op := (1 / 2 : ℂ) • (1 + sg v • A)

/-- The observable `A` (with `A * A = 1`) has value `1` (`v = false`) or `-1` (`v = true`) with certainty. -/
def HasValue (A : Op) (v : Bool) (ψ : Psi) : Prop := A ψ = sg v • ψ

/-- The qubit is in state 0. -/
def IsZero (q : Qubit) (ψ : Psi) : Prop := opP true q ψ = 0

/-! ### Executions -/

/-- The contents of the classical bits. -/
abbrev Mem := Clbit → Bool

/-- A quantum state and the classical bits. -/
structure QState where
  psi : Psi
  mem : Mem

/-- The value of a register of `n` bits, bit 0 least significant. -/
def regValue (mem : Mem) (r : Str) : Nat → Nat
  | 0 => 0
  | n + 1 => (if mem ⟨r, n⟩ then 2 ^ n else 0) + regValue mem r n

/-- What one instruction may do; `sz` gives the sizes of the classical registers. Measurement and reset may have any outcome that
has not amplitude zero. -/
inductive Step (sz : Str → Nat) : Instr → QState → QState → Prop
  | gate1 (g : G1) (q : Qubit) (s : QState) : Step sz (.gate1 g q none) s ⟨gate1Op g q s.psi, s.mem⟩
  | taken (g : G1) (q : Qubit) (r : Str) (v : Int) (s : QState) : (regValue s.mem r (sz r) : Int) = v →
      Step sz (.gate1 g q (some (r, v))) s ⟨gate1Op g q s.psi, s.mem⟩
  | skipped (g : G1) (q : Qubit) (r : Str) (v : Int) (s : QState) : (regValue s.mem r (sz r) : Int) ≠ v →
      Step sz (.gate1 g q (some (r, v))) s s
  | gate2 (g : G2) (a b : Qubit) (s : QState) : Step sz (.gate2 g a b) s ⟨gate2Op g a b s.psi, s.mem⟩
  | measure (q : Qubit) (b : Clbit) (v : Bool) (s : QState) : opP v q s.psi ≠ 0 →
      Step sz (.measure q b) s ⟨opP v q s.psi, update s.mem b v⟩
  | reset (q : Qubit) (v : Bool) (s : QState) : opP v q s.psi ≠ 0 →
      Step sz (.reset q) s ⟨clear v q (opP v q s.psi), s.mem⟩
  | barrier (s : QState) : Step sz .barrier s s

/-- What a list of instructions may do. -/
def Run (sz : Str → Nat) : List Instr → QState → QState → Prop
  | [], s, s' => s' = s
  | i :: l, s, s' => ∃ t, Step sz i s t ∧ Run sz l t s'

/-- The instructions an operation of a qubit adds to the circuit. -/
def added (q : TQubit) (o : QOp) (w : World) : List Instr := (q.op o w).2.circ.instrs.drop w.circ.instrs.length

/-- The instructions a sequence of operations adds to the circuit. -/
def addedAll (q : TQubit) (ops : List QOp) (w : World) : List Instr := (q.ops ops w).circ.instrs.drop w.circ.instrs.length

/-! ### The operators of the code -/

/-- Letters of Pauli strings. -/
inductive Letter where
  | X
  | Z
  deriving DecidableEq, Repr

/-- A Pauli operator on one qubit. -/
def Letter.op : Letter → Qubit → Op
  | .X => opX
  | .Z => opZ

/-- A Pauli string. -/
def pstr (l : List (Letter × Qubit)) : Op := (l.map fun p => p.1.op p.2).prod

/-- The letters of a plaquette at its corners top-left, top-right, bottom-left, bottom-right. -/
def checkLetters : Code → Key → List Letter
  | .xxzz, .X => [.X, .X, .X, .X]
  | .xxzz, .Z => [.Z, .Z, .Z, .Z]
  | .xzzx, _ => [.X, .Z, .Z, .X]

/-- The observable of the plaquette at position `p`. -/
def checkOp (code : Code) (name : Str) (dh dw : Int) (key : Key) (p : Int × Int) : Op :=
  pstr (((checkLetters code key).zip (cornersOf dh dw p.1 p.2)).filterMap fun e => e.2.map fun i => (e.1, dataQ name i))

/-- The logical X: X on every qubit of the left column; for the XZZX code Z on qubits with even number. -/
def logX (code : Code) (name : Str) (dh dw : Int) : Op :=
  pstr ((colQubits dh dw 0).map fun i => (if code = .xzzx ∧ i % 2 = 0 then .Z else .X, dataQ name i))

/-- The logical Z: Z on every qubit of the top row; for the XZZX code X on qubits with even number. -/
def logZ (code : Code) (name : Str) (dw : Int) : Op :=
  pstr ((rowQubits dw 0).map fun i => (if code = .xzzx ∧ i % 2 = 0 then .X else .Z, dataQ name i))

/-- The observables of the plaquettes, in the order of the bits of a syndrome register: Z plaquettes, then X plaquettes. -/
def checks (code : Code) (name : Str) (dh dw : Int) : List Op :=
  (zSites dh dw).map (checkOp code name dh dw .Z) ++ (xSites dh dw).map (checkOp code name dh dw .X)

/-- The part of a state in which the `k`-th observable of a list has value `m k`. -/
noncomputable def jointProj : List Op → (Nat → Bool) → Op
  | [], _ => 1
  | A :: l, m => projOf A (m 0) * jointProj l fun k => m (k + 1)

/-- The classical bits after the `n` bits of register `r` have been set to `m`. -/
def writeReg (mem : Mem) (r : Str) (n : Nat) (m : Nat → Bool) : Mem := fun b => if b.reg = r ∧ b.idx < n then m b.idx else mem b

/-- All syndrome qubits are in state 0. -/
def SynZero (name : Str) (dh dw : Int) (ψ : Psi) : Prop :=
  (∀ k : Nat, k < (zSites dh dw).length → IsZero (mzQ name k) ψ) ∧ ∀ k : Nat, k < (xSites dh dw).length → IsZero (mxQ name k) ψ

/-- A measurement of the observable `L` with the help of the ancilla of the lattice called `name`: the ancilla is brought from its
value `c` to 0, then `L` is measured, and its value `m` is in the ancilla and in the `n` bits of register `r`. -/
def Reads (name : Str) (L : Op) (r : Str) (n : Nat) (s s' : QState) : Prop :=
  ∃ c m, s'.psi = clear m (ancQ name) (projOf L m (clear c (ancQ name) (opP c (ancQ name) s.psi))) ∧ s'.psi ≠ 0 ∧
    s'.mem = writeReg s.mem r n fun _ => m

/-- Operations that leave the code space alone: stabilizations, identity gates, logical gates and logical readouts. Conditions of
gates are on non-negative values; the readouts are those the code can do (C62: it fails on XZZX lattices of width or height 1). -/
def Gentle (cls : QClass) (dh dw : Int) : QOp → Prop
  | .stabilize => True
  | .id => True
  | .idData => True
  | .x => True
  | .z => True
  | .xCIf _ v => 0 ≤ v
  | .zCIf _ v => 0 ≤ v
  | .readoutX none => cls ≠ .xzzx ∨ 1 < dh
  | .readoutZ none => cls ≠ .xzzx ∨ 1 < dw
  | _ => False

/-- Operations that may change the value of logical X other than by a known flip. -/
def _root_.Qtc.QOp.blursX : QOp → Bool
  | .zCIf _ _ => true
  | .readoutZ _ => true
  | _ => false

/-- Operations that may change the value of logical Z other than by a known flip. -/
def _root_.Qtc.QOp.blursZ : QOp → Bool
  | .xCIf _ _ => true
  | .readoutX _ => true
  | _ => false

/-- All plaquettes have certain values: the `k`-th one `m k`. -/
def Syndrome (code : Code) (name : Str) (dh dw : Int) (m : Nat → Bool) (ψ : Psi) : Prop :=
  ∀ k C, (checks code name dh dw)[k]? = some C → HasValue C (m k) ψ

/-- Does the plaquette at `p` notice the Pauli operator `a` on data qubit `i`? It does if the qubit is one of its corners and the
letter of the plaquette there is not `a`. -/
def detects (code : Code) (dh dw : Int) (key : Key) (a : Letter) (i : Int) (p : Int × Int) : Bool :=
  ((checkLetters code key).zip (cornersOf dh dw p.1 p.2)).any fun e => decide (e.2 = some i) && decide (e.1 ≠ a)

/-- Hadamard gates on every second data qubit: those with an even number. -/
noncomputable def halfTurn (name : Str) (dh dw : Int) : Op :=
  (((allQubits dh dw).filter fun i => i % 2 = 0).map fun i => opH (dataQ name i)).prod

/-- Two qubits of the same name in corresponding states: the counters in their dictionaries agree. -/
def Twins (q : TQubit) (w : World) (q' : TQubit) (w' : World) : Prop :=
  q.lat.name = q'.lat.name ∧ (w.heap q.lat.pref).T = (w'.heap q'.lat.pref).T ∧
    (w.heap q.lat.pref).numReadout = (w'.heap q'.lat.pref).numReadout ∧
    (w.heap q.lat.pref).numLatticeReadout = (w'.heap q'.lat.pref).numLatticeReadout

open Classical in
/-- All qubits in state 0. -/
noncomputable def ground : Psi := fun c => if ∀ q, c q = false then 1 else 0

end Qtc.Spec
