import Verif.Model.Circuit
import Verif.Spec.Lattice
/-!
Specification vocabulary for circuits.
-/
namespace Qtc.Spec

/-- The circuit has this qubit. -/
def HasQubit (c : Circ) (q : Qubit) : Prop := ∃ r ∈ c.qregs, q.reg = r.name ∧ q.idx < r.size

/-- The circuit has this classical bit. -/
def HasClbit (c : Circ) (b : Clbit) : Prop := ∃ r ∈ c.cregs, b.reg = r.name ∧ b.idx < r.size

/-- All arguments of an instruction are in the circuit, and the qubits of a two-qubit gate differ. -/
def InstrFits (c : Circ) : Instr → Prop
  | .gate1 _ q _ => HasQubit c q
  | .gate2 _ a b => HasQubit c a ∧ HasQubit c b ∧ a ≠ b
  | .measure q b => HasQubit c q ∧ HasClbit c b
  | .reset q => HasQubit c q
  | .barrier => True

/-- A circuit is well formed: register names are distinct, and every instruction refers to bits of the circuit. -/
structure WellFormed (c : Circ) : Prop where
  qnames : (c.qregs.map Reg.name).Nodup
  cnames : (c.cregs.map Reg.name).Nodup
  disjoint : ∀ q ∈ c.qregs, ∀ r ∈ c.cregs, q.name ≠ r.name
  fits : ∀ i ∈ c.instrs, InstrFits c i

/-- The qubits an instruction touches satisfy `Q`, the classical bits it writes satisfy `C`, and its condition, if any,
satisfies `K`. -/
def Only (Q : Qubit → Prop) (C : Clbit → Prop) (K : Str → Int → Prop) : Instr → Prop
  | .gate1 _ q none => Q q
  | .gate1 _ q (some (r, v)) => Q q ∧ K r v
  | .gate2 _ a b => Q a ∧ Q b
  | .measure q b => Q q ∧ C b
  | .reset q => Q q
  | .barrier => True

/-! ### Names -/

/-- Data qubit `i` of the lattice called `name`. -/
def dataQ (name : Str) (i : Int) : Qubit := ⟨name ++ "_data".toList, i.toNat⟩

/-- X syndrome qubit `i`. -/
def mxQ (name : Str) (i : Int) : Qubit := ⟨name ++ "_mx".toList, i.toNat⟩

/-- Z syndrome qubit `i`. -/
def mzQ (name : Str) (i : Int) : Qubit := ⟨name ++ "_mz".toList, i.toNat⟩

/-- The ancilla qubit. -/
def ancQ (name : Str) : Qubit := ⟨name ++ "_ancilla".toList, 0⟩

/-- The name of the `k`-th readout register. -/
def readoutName (name : Str) (k : Int) : Str := name ++ "_readout_".toList ++ strInt k

/-- The name of the `k`-th lattice readout register. -/
def latticeName (name : Str) (k : Int) : Str := name ++ "_lattice_readout_".toList ++ strInt k

/-- The name of the syndrome register of round `k`. -/
def roundName (name : Str) (k : Int) : Str := name ++ "_c".toList ++ strInt k

/-! ### Circuits of the checks

The corners of a plaquette are listed top-left, top-right, bottom-left, bottom-right. -/

/-- Entangling an X check: Hadamard on the syndrome qubit, controlled-not from it to every corner that exists, Hadamard. -/
def xxxxGates (name : Str) (s : Qubit) : List (Option Int) → List Instr
  | [tl, tr, bl, br] => [.gate1 .h s none] ++
      ([tr, tl, br, bl].filterMap id).map (fun i => .gate2 .cx s (dataQ name i)) ++ [.gate1 .h s none]
  | _ => []

/-- Entangling a Z check: controlled-not from every corner that exists to the syndrome qubit. -/
def zzzzGates (name : Str) (s : Qubit) : List (Option Int) → List Instr
  | [tl, tr, bl, br] => ([tr, br, tl, bl].filterMap id).map fun i => .gate2 .cx (dataQ name i) s
  | _ => []

/-- X part of an XZZX check. -/
def cornerX (name : Str) (s : Qubit) : Option Int → List Instr
  | some i => [.gate1 .h s none, .gate2 .cx s (dataQ name i), .gate1 .h s none]
  | none => []

/-- Z part of an XZZX check. -/
def cornerZ (name : Str) (s : Qubit) : Option Int → List Instr
  | some i => [.gate2 .cx (dataQ name i) s]
  | none => []

/-- Entangling an XZZX check. -/
def xzzxGates (name : Str) (s : Qubit) : List (Option Int) → List Instr
  | [tl, tr, bl, br] => cornerX name s tl ++ cornerZ name s tr ++ cornerZ name s bl ++ cornerX name s br
  | _ => []

/-- The gates of a plaquette of type X. -/
def xGates : Code → Str → Qubit → List (Option Int) → List Instr
  | .xxzz => xxxxGates
  | .xzzx => xzzxGates

/-- The gates of a plaquette of type Z. -/
def zGates : Code → Str → Qubit → List (Option Int) → List Instr
  | .xxzz => zzzzGates
  | .xzzx => xzzxGates

/-- Entangling every X plaquette with its syndrome qubit, in order. -/
def entangleXGates (code : Code) (name : Str) (dh dw : Int) : List Instr :=
  (xSites dh dw).zipIdx.flatMap fun p => xGates code name (mxQ name p.2) (cornersOf dh dw p.1.1 p.1.2) ++ [.barrier]

/-- Entangling every Z plaquette with its syndrome qubit, in order. -/
def entangleZGates (code : Code) (name : Str) (dh dw : Int) : List Instr :=
  (zSites dh dw).zipIdx.flatMap fun p => zGates code name (mzQ name p.2) (cornersOf dh dw p.1.1 p.1.2) ++ [.barrier]

/-- Measurement of the syndrome qubits into a register: Z in the low bits, X above. -/
def measureSyn (name : Str) (nx nz : Nat) (creg : Str) : List Instr :=
  (List.range nz).map (fun (k : Nat) => .measure (mzQ name k) ⟨creg, k⟩) ++
    (List.range nx).map (fun (k : Nat) => .measure (mxQ name k) ⟨creg, nz + k⟩)

/-- Reset of the syndrome qubits. -/
def resetSyn (name : Str) (nx nz : Nat) : List Instr :=
  (List.range nz).map (fun (k : Nat) => .reset (mzQ name k)) ++ (List.range nx).map (fun (k : Nat) => .reset (mxQ name k))

/-- The classical registers a qubit called `name` creates: syndrome rounds, logical readouts, lattice readouts, numbered
from 0. -/
def OwnCreg (name : Str) (r : Str) : Prop := ∃ k : Nat, r = name ++ "_c".toList ++ strNat k ∨
  r = name ++ "_readout_".toList ++ strNat k ∨ r = name ++ "_lattice_readout_".toList ++ strNat k

/-- The quantum registers of a qubit called `name`. -/
def OwnQreg (name : Str) (r : Str) : Prop := r = name ++ "_data".toList ∨ r = name ++ "_mz".toList ∨ r = name ++ "_mx".toList ∨
  r = name ++ "_ancilla".toList

/-- A qubit of positive size `dh × dw` freshly made on the circuit of `w0`, giving the state `w`. -/
def Built (cls : QClass) (w0 : World) (q : TQubit) (dh dw : Int) (w : World) : Prop :=
  ∃ params name rest, newQubit cls params name w0 = (.ok q, w) ∧
    (w.heap q.lat.pref).d = some (.tup (.int dh :: .int dw :: rest)) ∧ 0 < dh ∧ 0 < dw

/-- `w` is a state after the history `ops` of a qubit of positive size `dh × dw`. The qubit was made on a well-formed circuit
on which the names of its classical registers were free; the empty circuit is such a circuit. -/
def After (cls : QClass) (q : TQubit) (dh dw : Int) (ops : List QOp) (w : World) : Prop :=
  ∃ w0 w1, WellFormed w0.circ ∧ (∀ s, OwnCreg q.lat.name s → s ∉ w0.circ.names) ∧ Built cls w0 q dh dw w1 ∧ w = q.ops ops w1

/-- The same for a qubit made on an empty circuit. -/
def AfterAlone (cls : QClass) (q : TQubit) (dh dw : Int) (ops : List QOp) (w : World) : Prop :=
  ∃ w0 w1, w0.circ = {} ∧ Built cls w0 q dh dw w1 ∧ w = q.ops ops w1

/-- The arguments of an operation are sensible: conditions on non-negative values, controls and targets that are qubits of the
circuit other than the ones they are combined with, given result registers that exist and are not empty. -/
def ValidArgs (q : TQubit) (w : World) : QOp → Prop
  | .xCIf _ v => 0 ≤ v
  | .zCIf _ v => 0 ≤ v
  | .cx (some c) none => HasQubit w.circ c ∧ c.reg ≠ q.lat.name ++ "_data".toList
  | .cx none (some t) => HasQubit w.circ t ∧ t.reg ≠ q.lat.name ++ "_ancilla".toList
  | .cx _ _ => False
  | .readoutX (some r) => r ∈ w.circ.cregs ∧ 0 < r.size
  | .readoutZ (some r) => r ∈ w.circ.cregs ∧ 0 < r.size
  | _ => True

/-- All operations but the readouts. -/
def _root_.Qtc.QOp.quiet : QOp → Bool
  | .readoutX _ => false
  | .readoutZ _ => false
  | .latticeReadoutX => false
  | .latticeReadoutZ => false
  | _ => true

/-- The qubits given to an operation. -/
def _root_.Qtc.QOp.args : QOp → Qubit → Prop
  | .cx c t, q => c = some q ∨ t = some q
  | _, _ => False

/-- The register given to an operation. -/
def _root_.Qtc.QOp.creg : QOp → Str → Prop
  | .readoutX (some r), s => s = r.name
  | .readoutZ (some r), s => s = r.name
  | _, _ => False

/-- The condition given to an operation. -/
def _root_.Qtc.QOp.cond : QOp → Str → Int → Prop
  | .xCIf c v, c', v' => c' = c ∧ v' = v
  | .zCIf c v, c', v' => c' = c ∧ v' = v
  | _, _, _ => False

end Qtc.Spec
