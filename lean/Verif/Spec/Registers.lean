import Verif.Model.Registers
import Verif.Spec.Circuit
/-!
Specification vocabulary for registers of topological qubits.
-/
namespace Qtc.Spec

/-! ### Which qubits have been added -/

/-- `Log s log tried`: `s` is a state of a register called `name`; `log` lists all qubits that have been added, in order, with
the sub-register they went to; `tried` lists the sub-registers to which an addition was tried. Between the additions anything may
happen that leaves the register object alone. -/
inductive Log (name : Str) : TState → List (Str × TQubit) → List Str → Prop
  | start {s : TState} : s.treg = { name } → Log name s [] []
  | other {s s' : TState} {log : List (Str × TQubit)} {tried : List Str} :
      Log name s log tried → s'.treg = s.treg → Log name s' log tried
  | added {s s' : TState} {log : List (Str × TQubit)} {tried : List Str} {sub ctype : Str} {params : Option Nat}
      {cls : QClass} {q : TQubit} {w : World} :
      Log name s log tried → addTqubit sub ctype params s = (.ok (), s') → str2qtype ctype = some cls →
      newQubit cls params (name ++ "_".toList ++ strNat log.length) s.world = (.ok q, w) →
      Log name s' (log ++ [(sub, q)]) (tried ++ [sub])
  | failed {s s' : TState} {log : List (Str × TQubit)} {tried : List Str} {sub ctype : Str} {params : Option Nat} {e : PyErr} :
      Log name s log tried → addTqubit sub ctype params s = (.error e, s') → Log name s' log (tried ++ [sub])

/-- The qubits of one sub-register with their numbers. -/
def entriesOf (log : List (Str × TQubit)) (sub : Str) : List (Nat × TQubit) :=
  (log.zipIdx.filter fun e => e.1.1 = sub).map fun e => (e.2, e.1.2)

/-! ### Histories without shared dictionaries -/

/-- The names that belong to the qubits of a register called `name`. -/
def Reserved (name : Str) (s : Str) : Prop := ∃ (k : Nat) (rest : Str), s = name ++ "_".toList ++ strNat k ++ "_".toList ++ rest

/-- The helper registers of `TopologicalCircuit.cx`. -/
def helperC : List Str := ["m1".toList, "m2".toList, "m3".toList]

/-- See `helperC`. -/
def helperQ : Str := "cnot_readout".toList

/-- A size without negative numbers. -/
def NonNeg : Option DVal → Prop
  | some (.num n) => 0 ≤ n.toInt
  | some (.tup l) => ∀ n ∈ l, 0 ≤ n.toInt
  | some (.lst l) => ∀ n ∈ l, 0 ≤ n.toInt
  | _ => True

/-- The dictionary exists, is not the one of a qubit of the register, and holds no negative size. -/
def OwnDict (s : TState) (p : Option Nat) : Prop :=
  ∀ r, p = some r → r < s.world.next ∧ NonNeg (s.world.heap r).d ∧ ∀ k q, s.treg.find? k = some q → q.lat.pref ≠ r

/-- The argument is an index or a qubit of the register. -/
def Inside (s : TState) : QArg → Prop
  | .idx _ => True
  | .obj q => ∃ k, s.treg.find? k = some q

/-- Operations that do not make qubits share a dictionary, do not use qubits of other registers, and do not take names of the
register's qubits or of the helper registers of `cx`. -/
def Sane (s : TState) : TOp → Prop
  | .addQubits _ _ ps => (∀ p ∈ ps.getD [], OwnDict s p) ∧ ((ps.getD []).filterMap id).Nodup
  | .addQubit _ _ p => OwnDict s p
  | .on a _ => Inside s a
  | .cx c t _ p => Inside s c ∧ Inside s t ∧ (s.treg.tqubits.get? "ancilla".toList = none → p.isSome ∧ OwnDict s p)
  | .addCreg _ n _ => ¬ Reserved s.treg.name n ∧ n ∉ helperC ∧ n ≠ helperQ
  | .addQreg _ n _ => ¬ Reserved s.treg.name n ∧ n ∉ helperC ∧ n ≠ helperQ

/-- Every operation of the list is sane when its turn comes. -/
def SaneRun : List TOp → TState → Prop
  | [], _ => True
  | o :: l, s => Sane s o ∧ SaneRun l (o.run s).2

/-- A circuit on which a register called `name` can be made: well formed, and without names of the register's qubits or of the
helper registers. -/
def FreshFor (name : Str) (w : World) : Prop :=
  WellFormed w.circ ∧ ∀ s ∈ w.circ.names, ¬ Reserved name s ∧ s ∉ helperC ∧ s ≠ helperQ

/-- `s` is the state after a sane history on a new register. -/
def SaneState (s : TState) : Prop := ∃ name w ops, FreshFor name w ∧ SaneRun ops (TState.fresh name w) ∧ s = runOps ops (TState.fresh name w)

/-! ### Histories in which dictionaries may be shared -/

/-- The dictionary exists and holds no negative size. -/
def GivenDict (s : TState) (p : Option Nat) : Prop := ∀ r, p = some r → r < s.world.next ∧ NonNeg (s.world.heap r).d

/-- Operations that do not use qubits of other registers and do not take names of the register's qubits or of the helper registers
of `cx`. Dictionaries may be shared. -/
def Fair (s : TState) : TOp → Prop
  | .addQubits _ _ ps => ∀ p ∈ ps.getD [], GivenDict s p
  | .addQubit _ _ p => GivenDict s p
  | .on a _ => Inside s a
  | .cx c t _ p => Inside s c ∧ Inside s t ∧ GivenDict s p
  | .addCreg _ n _ => ¬ Reserved s.treg.name n ∧ n ∉ helperC ∧ n ≠ helperQ
  | .addQreg _ n _ => ¬ Reserved s.treg.name n ∧ n ∉ helperC ∧ n ≠ helperQ

/-- Every operation of the list is fair when its turn comes. -/
def FairRun : List TOp → TState → Prop
  | [], _ => True
  | o :: l, s => Fair s o ∧ FairRun l (o.run s).2

/-- `s` is the state after a fair history on a new register. -/
def FairState (s : TState) : Prop := ∃ name w ops, FreshFor name w ∧ FairRun ops (TState.fresh name w) ∧ s = runOps ops (TState.fresh name w)

/-- The argument stands for the qubit `q`, which is number `k` of the register. -/
def Points (s : TState) (a : QArg) (k : Int) (q : TQubit) : Prop := s.treg.find? k = some q ∧ (a = .idx k ∨ a = .obj q)

/-- The size of a qubit, as its dictionary has it. -/
def HasSize (s : TState) (q : TQubit) (dh dw : Int) : Prop := ∃ rest, (s.world.heap q.lat.pref).d = some (.tup (.int dh :: .int dw :: rest))

/-- The operation adds no qubit to the sub-register "ancilla". -/
def NotToAncilla : TOp → Prop
  | .addQubits sub _ _ => sub ≠ "ancilla".toList
  | .addQubit sub _ _ => sub ≠ "ancilla".toList
  | _ => True

end Qtc.Spec
