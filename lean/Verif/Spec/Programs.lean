import Verif.Spec.QuantumCnot
/-!
Programs on the logical qubits of a topological circuit, and what they should do.
-/
namespace Qtc.Spec
open Function

/-- The calls of a program; `k`, `i`, `j` are numbers of logical qubits. The last argument of `cx` is the kind of the ancilla, if given:
class and dictionary. -/
inductive LOp where
  | resetX (k : Int)
  | resetZ (k : Int)
  | x (k : Int)
  | z (k : Int)
  | id (k : Int)
  | idData (k : Int)
  | stabilize (k : Int)
  | readX (k : Int)
  | readZ (k : Int)
  | cx (i j : Int) (kind : Option (Str × Nat))

/-- The method that is called. -/
def LOp.call : LOp → TOp
  | .resetX k => .on (.idx k) .resetX
  | .resetZ k => .on (.idx k) .resetZ
  | .x k => .on (.idx k) .x
  | .z k => .on (.idx k) .z
  | .id k => .on (.idx k) .id
  | .idData k => .on (.idx k) .idData
  | .stabilize k => .on (.idx k) .stabilize
  | .readX k => .on (.idx k) (.readoutX none)
  | .readZ k => .on (.idx k) (.readoutZ none)
  | .cx i j kind => .cx (.idx i) (.idx j) (kind.map Prod.fst) (kind.map Prod.snd)

/-- The logical qubits a call is about. -/
def LOp.qubits : LOp → List Int
  | .resetX k | .resetZ k | .x k | .z k | .id k | .idData k | .stabilize k | .readX k | .readZ k => [k]
  | .cx i j _ => [i, j]

/-- The logical qubit that is read out in this basis. -/
def LOp.reads : Key → LOp → Option Int
  | .X, .readX k => some k
  | .Z, .readZ k => some k
  | _, _ => none

/-- Control and target are different; the dictionary for the ancilla exists and holds no negative size. -/
def LOp.Sound (s : TState) : LOp → Prop
  | .cx i j kind => i ≠ j ∧ GivenDict s (kind.map Prod.snd)
  | _ => True

/-- What is known of the logical qubits in one basis: 0 or 1, or nothing. -/
abbrev Known := Int → Option Bool

/-- What is known after a call; `out` is the result if it is a readout of something unknown. In the Z basis X gates flip, in the X basis Z gates; what is
known in one basis is lost by reset and readout in the other; a CNOT adds Z of the control to Z of the target, leaves X of the target
alone, and X of the control is unknown afterwards (see C66). -/
def LOp.known (out : Bool) (b : Known) : Key → LOp → Known
  | .Z, .resetZ k => update b k (some false)
  | .Z, .resetX k => update b k none
  | .Z, .x k => update b k ((b k).map not)
  | .Z, .readZ k => update b k (some ((b k).getD out))
  | .Z, .readX k => update b k none
  | .Z, .cx i j _ => update b j (match b i, b j with
      | some u, some v => some (u ^^ v)
      | _, _ => none)
  | .X, .resetX k => update b k (some false)
  | .X, .resetZ k => update b k none
  | .X, .z k => update b k ((b k).map not)
  | .X, .readX k => update b k (some ((b k).getD out))
  | .X, .readZ k => update b k none
  | .X, .cx i _ _ => update b i none
  | _, _ => b

/-- The state after a call. -/
def LOp.next (o : LOp) (s : TState) : TState := (o.call.run s).2

/-- The name of the newest classical register. -/
def newest (s : TState) : Str := ((s.world.circ.cregs.getLast?).map Reg.name).getD []

/-- The results of readouts that are known beforehand, with their registers. The final contents of the classical bits are given, for
the results that are not. -/
def predicted (key : Key) (mem : Mem) : List LOp → TState → Known → List (Str × Bool)
  | [], _, _ => []
  | o :: l, s, b => (match (o.reads key).bind b with
      | some v => [(newest (o.next s), v)]
      | none => []) ++ predicted key mem l (o.next s) (o.known (mem ⟨newest (o.next s), 0⟩) b key)

/-- What is known in the end. -/
def knownAfter (key : Key) (mem : Mem) : List LOp → TState → Known → Known
  | [], _, b => b
  | o :: l, s, b => knownAfter key mem l (o.next s) (o.known (mem ⟨newest (o.next s), 0⟩) b key)

/-- Logical qubit number `k` of the register is `q`, of this size, and not in the sub-register "ancilla". -/
def Logical (s : TState) (k : Int) (q : TQubit) (dh dw : Int) : Prop :=
  s.treg.find? k = some q ∧ HasSize s q dh dw ∧ ∀ d, s.treg.tqubits.get? "ancilla".toList = some d → ∀ e ∈ d, (e.1 : Int) ≠ k

/-- Logical X or Z of a qubit. -/
def logicalOf (key : Key) (q : TQubit) (dh dw : Int) : Op :=
  match key with
  | .X => logX q.cls.code q.lat.name dh dw
  | .Z => logZ q.cls.code q.lat.name dw

/-- The logical qubits have the known values. -/
def Holds (key : Key) (s : TState) (b : Known) (ψ : Psi) : Prop :=
  ∀ k v, b k = some v → ∃ q dh dw, Logical s k q dh dw ∧ HasValue (logicalOf key q dh dw) v ψ

/-- No call raises. -/
def Succeeds : List LOp → TState → Prop
  | [], _ => True
  | o :: l, s => (o.call.run s).1 = .ok () ∧ Succeeds l (o.next s)

/-- The program `l` is called after a fair history, from state `s` to `s'`, no call raises, and the instructions it adds are executed, from
`φ` to `φ'`. At the beginning the syndrome qubits of the logical qubits concerned are in state 0; everything else is in any state. -/
structure Program (l : List LOp) (s s' : TState) (φ φ' : QState) : Prop where
  fair : FairState s
  sound : ∀ o ∈ l, o.Sound s
  qubits : ∀ o ∈ l, ∀ k ∈ o.qubits, ∃ q dh dw, Logical s k q dh dw ∧ SynZero q.lat.name dh dw φ.psi
  succeeds : Succeeds l s
  calls : s' = runOps (l.map LOp.call) s
  possible : φ.psi ≠ 0
  run : ∃ sz : Str → Nat, (∀ r ∈ s'.world.circ.cregs, sz r.name = r.size) ∧ Run sz (s'.world.circ.instrs.drop s.world.circ.instrs.length) φ φ'

end Qtc.Spec
