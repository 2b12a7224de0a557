import Verif.Spec.AnyError
import Verif.Spec.Circuit
/-!
A qubit in a circuit that it shares with others.
-/
namespace Qtc.Spec
open Classical

/-- The names that belong to a qubit called `name`. -/
def OwnName (name s : Str) : Prop := ∃ rest, s = name ++ '_' :: rest

/-- Something happens in the circuit that has nothing to do with the qubit `q`: its dictionary is left alone, registers and instructions are added,
registers do not get its names, instructions do not act on its qubits and do not write to its classical registers. They may depend on what is
in these. -/
structure Elsewhere (q : TQubit) (w w' : World) : Prop where
  heap : w'.heap q.lat.pref = w.heap q.lat.pref
  qregs : ∀ r ∈ w.circ.qregs, r ∈ w'.circ.qregs
  cregs : ∃ new, w'.circ.cregs = w.circ.cregs ++ new ∧ ∀ r ∈ new, ¬OwnName q.lat.name r.name
  names : ∀ n ∈ w'.circ.names, OwnName q.lat.name n → n ∈ w.circ.names
  instrs : ∃ new, w'.circ.instrs = w.circ.instrs ++ new ∧ ∀ i ∈ new,
    Only (fun x => ¬OwnName q.lat.name x.reg) (fun b => ¬OwnName q.lat.name b.reg) (fun _ _ => True) i

/-- The qubit `q` has been made, on a circuit without its names, and has not been used. -/
def Waiting (cls : QClass) (q : TQubit) (dh dw : Int) (w : World) : Prop :=
  ∃ w0 w1, (∀ n ∈ w0.circ.names, ¬OwnName q.lat.name n) ∧ Built cls w0 q dh dw w1 ∧ Elsewhere q w1 w

/-- An operation of the qubit with the errors in its circuit, and what happens elsewhere before its next operation, with errors as well:
the states of the circuit that this leads to. -/
structure Block where
  op : QOp
  errors : List Blow
  others : List (World × List Blow)

/-- The instructions added elsewhere, with errors. -/
def othersEvents : List (World × List Blow) → World → List Event
  | [], _ => []
  | (w', E) :: l, w => struck E 0 (w'.circ.instrs.drop w.circ.instrs.length) ++ othersEvents l w'

/-- The state of the circuit afterwards. -/
def othersAfter : List (World × List Blow) → World → World
  | [], w => w
  | (w', _) :: l, _ => othersAfter l w'

/-- None of this has to do with the qubit. -/
def OthersApart (q : TQubit) : List (World × List Blow) → World → Prop
  | [], _ => True
  | (w', _) :: l, w => Elsewhere q w w' ∧ OthersApart q l w'

/-- The instructions of the qubit and of the others, in order, with errors. -/
def blockEvents (q : TQubit) : List Block → World → List Event
  | [], _ => []
  | b :: l, w => struck b.errors 0 (added q b.op w) ++ othersEvents b.others (q.op b.op w).2 ++
      blockEvents q l (othersAfter b.others (q.op b.op w).2)

/-- The state of the circuit afterwards. -/
def blocksAfter (q : TQubit) : List Block → World → World
  | [], w => w
  | b :: l, w => blocksAfter q l (othersAfter b.others (q.op b.op w).2)

/-- The others leave the qubit alone. -/
def Undisturbed (q : TQubit) : List Block → World → Prop
  | [], _ => True
  | b :: l, w => OthersApart q b.others (q.op b.op w).2 ∧ Undisturbed q l (othersAfter b.others (q.op b.op w).2)

/-- All errors of a block. -/
def Block.blows (b : Block) : List Blow := b.errors ++ b.others.flatMap Prod.snd

/-- How many of the qubits on which errors act belong to the qubit called `name`. -/
noncomputable def ownCount (name : Str) (l : List Block) : Nat :=
  ((l.flatMap Block.blows).map fun b => b.qubits.countP fun x => decide (OwnName name x.reg)).sum

/-- The classical registers of the qubit called `name`. -/
noncomputable def ownCregs (name : Str) (c : Circ) : List Reg := c.cregs.filter fun r => decide (OwnName name r.name)

end Qtc.Spec
