import Verif.Model.Circuit
/-!
Registers of topological qubits and circuits on them: /repo/qtcodes/circuits/circ.py.

Simplifications: `bits` arguments are never given; `draw` and `__str__` are left out; `parse_readout` is in `Model/CircReadout.lean`; the methods of `TopologicalCircuit` that only look up the qubit and call its
method of the same meaning (`stabilize`, `id`, `id_data`, `reset_x`, `reset_z`, `x`, `z`, `measure_x`, `measure_z`,
`measure_lattice_x`, `measure_lattice_z`, circ.py:160-237 and 312-366) are one definition `onQubit`.
-/
namespace Qtc

/-- `str2qtype`, /repo/qtcodes/circuits/qubit_types.py:10-14. -/
def str2qtype (s : Str) : Option QClass :=
  if s = "Repetition".toList then some .rep
  else if s = "XXZZ".toList then some .xxzz
  else if s = "XZZX".toList then some .xzzx
  else none

/-- `type(qubit).__name__.replace("Qubit", "")`, /repo/qtcodes/circuits/circ.py:267. -/
def QClass.ctype : QClass → Str
  | .rep => "Repetition".toList
  | .xxzz => "XXZZ".toList
  | .xzzx => "XZZX".toList

/-- A dictionary in order of insertion. -/
abbrev Dict (κ ν : Type) := List (κ × ν)

/-- `d[k] = v`. -/
def Dict.set {κ ν : Type} [DecidableEq κ] (d : Dict κ ν) (k : κ) (v : ν) : Dict κ ν :=
  match d with
  | [] => [(k, v)]
  | e :: d => if e.1 = k then (k, v) :: d else e :: Dict.set d k v

/-- `d[k]`, if there. -/
def Dict.get? {κ ν : Type} [DecidableEq κ] (d : Dict κ ν) (k : κ) : Option ν :=
  match d with
  | [] => none
  | e :: d => if e.1 = k then some e.2 else Dict.get? d k

/-- A `TopologicalRegister`: name, number of qubits added, sub-registers, parameter dictionaries given (by reference). -/
structure TReg where
  name : Str
  n : Nat := 0
  tqubits : Dict Str (Dict Nat TQubit) := []
  params : List (Option Nat) := []

/-- What the methods of registers and circuits work on: the physical circuit and the dictionaries, the register, and the
`qreg`, `creg` dictionaries of the `TopologicalCircuit`. -/
structure TState where
  world : World
  treg : TReg
  qreg : Dict Str Reg := []
  creg : Dict Str Reg := []

/-- Methods of registers and circuits. -/
abbrev TM := CM TState

/-- A method of a qubit or of the physical circuit. -/
def onWorld {α : Type} (x : WM α) : TM α := fun s => ((x s.world).1, { s with world := (x s.world).2 })

/-- `if sub_register not in self.tqubits: self.tqubits[sub_register] = {}`, /repo/qtcodes/circuits/circ.py:93-94. -/
def touchSub (sub : Str) : TM Unit := fun s =>
  match s.treg.tqubits.get? sub with
  | some _ => (.ok (), s)
  | none => (.ok (), { s with treg := { s.treg with tqubits := s.treg.tqubits.set sub [] } })

/-- `self.name + "_" + str(self.n)`, /repo/qtcodes/circuits/circ.py:96. -/
def TReg.qubitName (t : TReg) : Str := t.name ++ "_".toList ++ strNat t.n

/-- `str2qtype[ctype](params, name=..., circ=...)`, /repo/qtcodes/circuits/circ.py:95-97. -/
def makeQubit (ctype : Str) (params : Option Nat) : TM TQubit := fun s =>
  match str2qtype ctype with
  | some cls => onWorld (newQubit cls params s.treg.qubitName) s
  | none => (.error .keyError, s)

/-- `self.tqubits[sub_register][self.n] = qubit; self.params.append(params); self.n += 1`,
/repo/qtcodes/circuits/circ.py:95-99. -/
def storeQubit (sub : Str) (q : TQubit) (params : Option Nat) : TM Unit := fun s =>
  match s.treg.tqubits.get? sub with
  | some d => (.ok (), { s with treg := { s.treg with
      tqubits := s.treg.tqubits.set sub (d.set s.treg.n q)
      params := s.treg.params ++ [params]
      n := s.treg.n + 1 } })
  | none => (.error .keyError, s)

/-- `add_tqubit`, /repo/qtcodes/circuits/circ.py:83-99. The new qubit is made after the sub-register has been created and before it
is stored; if making it raises, the (possibly empty) sub-register stays. -/
def addTqubit (sub ctype : Str) (params : Option Nat) : TM Unit := do
  touchSub sub
  let q ← makeQubit ctype params
  storeQubit sub q params

/-- The second half of `add_tqubits`: one qubit after the other, /repo/qtcodes/circuits/circ.py:80-81. -/
def addAll (sub : Str) (l : List (Str × Option Nat)) : TM Unit := CM.forEach l fun e => addTqubit sub e.1 e.2

/-- `add_tqubits`, /repo/qtcodes/circuits/circ.py:50-81. -/
def addTqubits (sub : Str) (ctypes : Option (List Str)) (params : Option (List (Option Nat))) : TM Unit :=
  if (params.getD []).length ≠ (ctypes.getD []).length then CM.throw .valueError
  else if (ctypes.getD []).any (fun c => (str2qtype c).isNone) then CM.throw .valueError
  else addAll sub ((ctypes.getD []).zip (params.getD []))

/-- The state in which `TopologicalRegister.__init__` calls `add_tqubits("data", ctypes, params)`, and of a
`TopologicalCircuit` on it, /repo/qtcodes/circuits/circ.py:40-47 and 122-126. -/
def TState.fresh (name : Str) (w : World) : TState := { world := w, treg := { name } }

/-- `TopologicalRegister(circ, ctypes, params, name)`, /repo/qtcodes/circuits/circ.py:17-48. -/
def newTReg (name : Str) (ctypes : Option (List Str)) (params : Option (List (Option Nat))) (w : World) : Py Unit × TState :=
  addTqubits "data".toList ctypes params (TState.fresh name w)

/-- Keys of `treg[key]`; `other` is anything but a string or an integer. -/
inductive TKey where
  | str (s : Str)
  | int (k : Int)
  | other
  deriving DecidableEq, Repr

/-- Values of `treg[key]`. -/
inductive TItem where
  | dict (d : Dict Nat TQubit)
  | qubit (q : TQubit)

/-- `for _, sub_reg in self.tqubits.items(): if key in sub_reg: return sub_reg[key]`,
/repo/qtcodes/circuits/circ.py:110-112. -/
def TReg.find? (t : TReg) (k : Int) : Option TQubit :=
  t.tqubits.findSome? fun e => e.2.findSome? fun x => if (x.1 : Int) = k then some x.2 else none

/-- `treg[key]`, /repo/qtcodes/circuits/circ.py:101-113. -/
def TReg.getItem (t : TReg) : TKey → Py TItem
  | .str s => match t.tqubits.get? s with
    | some d => .ok (.dict d)
    | none => .error .keyError
  | .int k => match t.find? k with
    | some q => .ok (.qubit q)
    | none => .error .valueError
  | .other => .error .valueError

/-- `add_creg(size, name, override=…)`, /repo/qtcodes/circuits/circ.py:128-133: the register is stored in the dictionary before
it is added to the circuit. -/
def addCregT (size : Int) (name : Str) (override : Bool) : TM Unit := fun s =>
  if (s.creg.get? name).isSome && !override then (.ok (), s)
  else match newReg size name with
    | .error e => (.error e, s)
    | .ok r => onWorld (addCreg r) { s with creg := s.creg.set name r }

/-- `add_qreg(size, name, override=…)`, /repo/qtcodes/circuits/circ.py:135-140. -/
def addQregT (size : Int) (name : Str) (override : Bool) : TM Unit := fun s =>
  if (s.qreg.get? name).isSome && !override then (.ok (), s)
  else match newReg size name with
    | .error e => (.error e, s)
    | .ok r => onWorld (addQreg r) { s with qreg := s.qreg.set name r }

/-- A qubit argument: an index into the register or a qubit object. -/
inductive QArg where
  | idx (k : Int)
  | obj (q : TQubit)

/-- `_get_index`, /repo/qtcodes/circuits/circ.py:142-158. -/
def getIndex : QArg → TM TQubit
  | .idx k => fun s => match s.treg.find? k with
    | some q => (.ok q, s)
    | none => (.error .valueError, s)
  | .obj q => pure q

/-- The methods of `TopologicalCircuit` that work on one qubit, see the head of this file. -/
def onQubit (a : QArg) (o : QOp) : TM Unit := do
  let q ← getIndex a
  onWorld (q.op o)

/-- The default for the ancilla: class and dictionary of the control qubit, /repo/qtcodes/circuits/circ.py:261-268. -/
def ancillaKind (control : QArg) (ctype : Option Str) (params : Option Nat) : TM (Str × Option Nat) :=
  match ctype, params with
  | some c, some p => pure (c, some p)
  | none, none => do
    let q ← getIndex control
    pure (q.cls.ctype, some q.lat.pref)
  | _, _ => CM.throw .valueError

/-- `if "ancilla" not in self.treg.tqubits: self.treg.add_tqubit("ancilla", ...)`, /repo/qtcodes/circuits/circ.py:273-274. -/
def ensureAncilla (kind : Str × Option Nat) : TM Unit := fun s =>
  match s.treg.tqubits.get? "ancilla".toList with
  | some _ => (.ok (), s)
  | none => addTqubit "ancilla".toList kind.1 kind.2 s

/-- `list(self.treg["ancilla"].values())[-1]`, /repo/qtcodes/circuits/circ.py:275. -/
def lastAncilla : TM TQubit := fun s =>
  match s.treg.tqubits.get? "ancilla".toList with
  | none => (.error .keyError, s)
  | some d => match d.getLast? with
    | some e => (.ok e.2, s)
    | none => (.error .indexError, s)

/-- `self.qreg[name][0]`. -/
def qregBit (name : Str) : TM Qubit := fun s =>
  match s.qreg.get? name with
  | none => (.error .keyError, s)
  | some r => (r.at 0, s)

/-- `self.creg[name]`. -/
def cregOf (name : Str) : TM Reg := fun s =>
  match s.creg.get? name with
  | none => (.error .keyError, s)
  | some r => (.ok r, s)

/-- `self.creg[name][0]`. -/
def cregBit (name : Str) : TM Clbit := do
  let r ← cregOf name
  CM.lift (pyIdx r.clbits 0)

/-- The helper registers and the preparation of the ancilla, /repo/qtcodes/circuits/circ.py:278-288. Gives the readout qubit. -/
def prepareCx (ancilla : TQubit) : TM Qubit := do
  addCregT 1 "m1".toList false
  addCregT 1 "m2".toList false
  addCregT 1 "m3".toList false
  onWorld ancilla.lat.resetX
  addQregT 1 "cnot_readout".toList false
  qregBit "cnot_readout".toList

/-- The joint Z parity of control and ancilla, /repo/qtcodes/circuits/circ.py:291-294. -/
def measureZZ (control ancilla : TQubit) (readout : Qubit) : TM Unit := do
  onWorld (reset [readout])
  onWorld (control.cx none (some readout))
  onWorld (ancilla.cx none (some readout))
  let b ← cregBit "m1".toList
  onWorld (measure [readout] [b])

/-- The joint X parity of target and ancilla, /repo/qtcodes/circuits/circ.py:297-302. -/
def measureXX (target ancilla : TQubit) (readout : Qubit) : TM Unit := do
  onWorld (reset [readout])
  onWorld (gate1 .h [readout])
  onWorld (target.cx (some readout) none)
  onWorld (ancilla.cx (some readout) none)
  onWorld (gate1 .h [readout])
  let b ← cregBit "m2".toList
  onWorld (measure [readout] [b])

/-- The readout of the ancilla and the conditioned corrections, /repo/qtcodes/circuits/circ.py:305-310. -/
def correctCx (control target ancilla : TQubit) : TM Unit := do
  let r ← cregOf "m3".toList
  onWorld (ancilla.lat.readoutZ (some r))
  let m2 ← cregOf "m2".toList
  onWorld (control.lat.zCIf m2.name 1)
  let m1 ← cregOf "m1".toList
  onWorld (target.lat.xCIf m1.name 1)
  let m3 ← cregOf "m3".toList
  onWorld (target.lat.xCIf m3.name 1)

/-- `TopologicalCircuit.cx`, /repo/qtcodes/circuits/circ.py:239-310. -/
def cxT (control target : QArg) (ctype : Option Str) (params : Option Nat) : TM Unit := do
  let kind ← ancillaKind control ctype params
  let c ← getIndex control
  let t ← getIndex target
  ensureAncilla kind
  let a ← lastAncilla
  let r ← prepareCx a
  measureZZ c a r
  measureXX t a r
  correctCx c t a

/-- What can be done with a register and a circuit on it. -/
inductive TOp where
  | addQubits (sub : Str) (ctypes : Option (List Str)) (params : Option (List (Option Nat)))
  | addQubit (sub ctype : Str) (params : Option Nat)
  | on (a : QArg) (o : QOp)
  | cx (control target : QArg) (ctype : Option Str) (params : Option Nat)
  | addCreg (size : Int) (name : Str) (override : Bool)
  | addQreg (size : Int) (name : Str) (override : Bool)

/-- The method an operation stands for. -/
def TOp.run : TOp → TM Unit
  | .addQubits s c p => addTqubits s c p
  | .addQubit s c p => addTqubit s c p
  | .on a o => onQubit a o
  | .cx c t k p => cxT c t k p
  | .addCreg n s b => addCregT n s b
  | .addQreg n s b => addQregT n s b

/-- A sequence of operations; the program goes on after an exception. -/
def runOps (l : List TOp) (s : TState) : TState := l.foldl (fun s o => (o.run s).2) s

end Qtc
