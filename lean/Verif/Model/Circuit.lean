import Verif.Model.Geometry
import Verif.Model.Readout
/-!
Circuit construction: the part of qiskit's `QuantumCircuit` that is used (by contract), the lattices of
/repo/qtcodes/circuits/{base,rotated_surface,xxzz,xzzx}.py and the qubits on top of them.

A circuit is a list of registers and a list of instructions. Methods change the circuit (and the parameter dictionaries,
which are shared by reference) and may raise; what was done before an exception stays done.

Simplifications: a barrier carries no arguments; a bit is its register name and index (register names in one circuit are
distinct); registers of size 0 are allowed (older qiskit versions reject them; this matters only for the 1×1 lattice);
qiskit's check of register names against a regular expression is left out; the dictionary `lattice.cregisters` is left out
(it is only read right after being written).
-/
namespace Qtc

/-! ### State and exceptions -/

/-- A method that works on a state `σ` and may raise: what has been changed before an exception stays changed. -/
def CM (σ α : Type) := σ → Py α × σ

namespace CM
variable {σ α β : Type}

/-- Return a value. -/
protected def pure (a : α) : CM σ α := fun s => (.ok a, s)

/-- One method after another; an exception ends the whole. -/
protected def bind (x : CM σ α) (f : α → CM σ β) : CM σ β := fun s =>
  match x s with
  | (.ok a, s') => f a s'
  | (.error e, s') => (.error e, s')

instance : Monad (CM σ) where
  pure := CM.pure
  bind := CM.bind

/-- Raise an exception. -/
def throw (e : PyErr) : CM σ α := fun s => (.error e, s)

/-- A computation without side effects. -/
def lift (x : Py α) : CM σ α := fun s => (x, s)

/-- `for a in l: f(a)`. -/
def forEach (l : List α) (f : α → CM σ Unit) : CM σ Unit :=
  match l with
  | [] => pure ()
  | a :: l => do
    f a
    forEach l f

/-- `if b: x`. -/
def when (b : Bool) (x : CM σ Unit) : CM σ Unit := if b then x else pure ()

end CM

/-! ### Circuits (qiskit, by contract) -/

/-- A qubit: register name and index. -/
structure Qubit where
  reg : Str
  idx : Nat
  deriving DecidableEq, Repr

/-- A classical bit: register name and index. -/
structure Clbit where
  reg : Str
  idx : Nat
  deriving DecidableEq, Repr

/-- A (quantum or classical) register. -/
structure Reg where
  name : Str
  size : Nat
  deriving DecidableEq, Repr

/-- The qubits of a quantum register. -/
def Reg.qubits (r : Reg) : List Qubit := (List.range r.size).map fun i => ⟨r.name, i⟩

/-- The bits of a classical register. -/
def Reg.clbits (r : Reg) : List Clbit := (List.range r.size).map fun i => ⟨r.name, i⟩

/-- Gates on one qubit. -/
inductive G1 where
  | x
  | z
  | h
  | id
  deriving DecidableEq, Repr

/-- Gates on two qubits. -/
inductive G2 where
  | cx
  | cz
  deriving DecidableEq, Repr

/-- Instructions. A one-qubit gate may be conditioned on a classical register having a value. -/
inductive Instr where
  | gate1 (g : G1) (q : Qubit) (cond : Option (Str × Int))
  | gate2 (g : G2) (a b : Qubit)
  | measure (q : Qubit) (c : Clbit)
  | reset (q : Qubit)
  | barrier
  deriving DecidableEq, Repr

/-- A `QuantumCircuit`. -/
structure Circ where
  qregs : List Reg := []
  cregs : List Reg := []
  instrs : List Instr := []
  deriving DecidableEq, Repr

/-- What the methods work on: the parameter dictionaries (by reference; `next` is the next free reference) and the
circuit. -/
structure World where
  heap : Nat → Params
  next : Nat
  circ : Circ

/-- Methods of qubits and lattices. -/
abbrev WM := CM World

/-- All register names in use. -/
def Circ.names (c : Circ) : List Str := c.qregs.map Reg.name ++ c.cregs.map Reg.name

/-- All qubits of the circuit. -/
def Circ.qubits (c : Circ) : List Qubit := c.qregs.flatMap Reg.qubits

/-- All classical bits of the circuit. -/
def Circ.clbits (c : Circ) : List Clbit := c.cregs.flatMap Reg.clbits

/-- `QuantumRegister(size, name)` and `ClassicalRegister(size, name)`: a negative size is a `CircuitError`. -/
def newReg (size : Int) (name : Str) : Py Reg := if size < 0 then .error .circuitError else .ok ⟨name, size.toNat⟩

/-- `circ.add_register(r)` for a quantum register: the name must be new among all registers. -/
def addQreg (r : Reg) : WM Unit := fun w =>
  if w.circ.names.contains r.name then (.error .nameTaken, w)
  else (.ok (), { w with circ := { w.circ with qregs := w.circ.qregs ++ [r] } })

/-- `circ.add_register(r)` for a classical register. -/
def addCreg (r : Reg) : WM Unit := fun w =>
  if w.circ.names.contains r.name then (.error .nameTaken, w)
  else (.ok (), { w with circ := { w.circ with cregs := w.circ.cregs ++ [r] } })

/-- The qubits an instruction acts on. -/
def Instr.qargs : Instr → List Qubit
  | .gate1 _ q _ => [q]
  | .gate2 _ a b => [a, b]
  | .measure q _ => [q]
  | .reset q => [q]
  | .barrier => []

/-- The classical bits an instruction writes. -/
def Instr.cargs : Instr → List Clbit
  | .measure _ c => [c]
  | _ => []

/-- `circ._append`: the bits must be in the circuit and the qubits different, else `CircuitError`. -/
def append (i : Instr) : WM Unit := fun w =>
  if i.qargs.all (w.circ.qubits.contains ·) && i.cargs.all (w.circ.clbits.contains ·) && decide i.qargs.Nodup then
    (.ok (), { w with circ := { w.circ with instrs := w.circ.instrs ++ [i] } })
  else (.error .circuitError, w)

/-- A one-qubit gate on each qubit of an argument; an empty argument is a `CircuitError` (`Gate.broadcast_arguments`). -/
def gate1 (g : G1) (qs : List Qubit) : WM Unit :=
  match qs with
  | [] => CM.throw .circuitError
  | q :: qs => CM.forEach (q :: qs) fun q => append (.gate1 g q none)

/-- `circ.x(q).c_if(creg, val)` and `circ.z(q).c_if(creg, val)`: for a negative value the gate has already been added
without condition when `c_if` raises. -/
def gate1If (g : G1) (q : Qubit) (creg : Str) (val : Int) : WM Unit :=
  if val < 0 then do
    append (.gate1 g q none)
    CM.throw .circuitError
  else append (.gate1 g q (some (creg, val)))

/-- A two-qubit gate with arguments of equal length (pairwise) or one argument of length one; else `CircuitError`
(`Gate.broadcast_arguments`). -/
def gate2 (g : G2) (as bs : List Qubit) : WM Unit :=
  if as.isEmpty || bs.isEmpty then CM.throw .circuitError
  else if as.length = bs.length then CM.forEach (as.zip bs) fun p => append (.gate2 g p.1 p.2)
  else match as, bs with
    | [a], bs => CM.forEach bs fun b => append (.gate2 g a b)
    | as, [b] => CM.forEach as fun a => append (.gate2 g a b)
    | _, _ => CM.throw .circuitError

/-- `circ.measure(qs, cs)` (`Measure.broadcast_arguments`). -/
def measure (qs : List Qubit) (cs : List Clbit) : WM Unit :=
  if cs.length = qs.length then CM.forEach (qs.zip cs) fun p => append (.measure p.1 p.2)
  else match qs with
    | [q] => if cs.isEmpty then CM.throw .circuitError else CM.forEach cs fun c => append (.measure q c)
    | _ => CM.throw .circuitError

/-- `circ.reset(qs)`. -/
def reset (qs : List Qubit) : WM Unit := CM.forEach qs fun q => append (.reset q)

/-- `circ.barrier()`. -/
def barrier : WM Unit := append .barrier

/-- `reg[i]` for an integer. -/
def Reg.at (r : Reg) (i : Int) : Py Qubit := pyIdx r.qubits i

/-- `reg[l]` for a list of non-negative indices: `max(l)` of an empty list is a `ValueError`. -/
def Reg.atList (r : Reg) (l : List Int) : Py (List Qubit) :=
  if l.isEmpty then .error .valueError
  else if l.all (· < r.size) then l.mapM r.at
  else .error .circuitError

/-- `l[0::2]`. -/
def everySecond {α : Type} : List α → List α
  | [] => []
  | [a] => [a]
  | a :: _ :: l => a :: everySecond l

/-! ### Lattices -/

/-- The two kinds of rotated lattices: `_XXZZLattice` and `_XZZXLattice`. -/
inductive Code where
  | xxzz
  | xzzx
  deriving DecidableEq, Repr

/-- The stabilizer classes `_XXXX`, `_ZZZZ` (xxzz.py:18-69) and `_XZZX` (xzzx.py:14-44). -/
inductive Stab where
  | xxxx
  | zzzz
  | xzzx
  deriving DecidableEq, Repr

/-- One entry of `lattice.qubit_indices`: syndrome qubit and corner data qubits. -/
structure QPlaq where
  syn : Qubit
  tl : Option Qubit
  tr : Option Qubit
  bl : Option Qubit
  br : Option Qubit
  deriving DecidableEq, Repr

/-- A lattice object: its class, name, parameter dictionary (by reference), `qregisters`, `qubit_indices` and
`stabilizers`. -/
structure Lattice where
  code : Code
  name : Str
  pref : Nat
  data : Reg
  mz : Option Reg
  mx : Option Reg
  ancilla : Reg
  qubitIndices : List QPlaq
  stabilizers : List Stab

/-- Read the parameter dictionary with reference `r`. -/
def getParams (r : Nat) : WM Params := fun w => (.ok (w.heap r), w)

/-- `self.params`. -/
def Lattice.params (L : Lattice) : WM Params := getParams L.pref

/-- Write the parameter dictionary with reference `r`. -/
def setParams (r : Nat) (p : Params) : WM Unit := fun w =>
  (.ok (), { w with heap := fun k => if k = r then p else w.heap k })

/-- `params[key]`. -/
def key {α : Type} (v : Option α) : Py α :=
  match v with
  | some a => .ok a
  | none => .error .keyError

/-- `self.params["d"][k]`; the dictionary holds a tuple of integers since validation. -/
def Params.dim (p : Params) (k : Int) : Py Int :=
  match p.d with
  | some (.tup l) => do
    let n ← pyIdx l k
    return n.toInt
  | some _ => .error .typeError
  | none => .error .keyError

/-- `self.params["d"][self.W]`. -/
def Lattice.width (L : Lattice) : WM Int := do
  let p ← L.params
  CM.lift (p.dim 1)

/-- `self.params["num_data"]`. -/
def Lattice.numData (L : Lattice) : WM Int := do
  let p ← L.params
  CM.lift (key p.numData)

/-- `self.params["num_syn"]`. -/
def Lattice.numSyn (L : Lattice) : WM (Int × Int) := do
  let p ← L.params
  CM.lift (key p.numSyn)

/-- `self.qregisters["data"][i]`. -/
def Lattice.dataAt (L : Lattice) (i : Int) : WM Qubit := CM.lift (L.data.at i)

/-- `if top_r: cx(syndrome, top_r); cx(syndrome, top_l)`, /repo/qtcodes/circuits/xxzz.py:37-39 and 40-42; if the right
corner is there, so is the left one (checked before). -/
def entangleRowX (syn : Qubit) (tr tl : Option Qubit) : WM Unit :=
  match tr, tl with
  | some tr, some tl => do
    gate2 .cx [syn] [tr]
    gate2 .cx [syn] [tl]
  | _, _ => pure ()

/-- `_XXXX.entangle`, /repo/qtcodes/circuits/xxzz.py:23-43. -/
def entangleXXXX (p : QPlaq) : WM Unit := do
  if (p.tr.isSome && !p.tl.isSome) || (p.br.isSome && !p.bl.isSome) then CM.throw .latticeError
  gate1 .h [p.syn]
  entangleRowX p.syn p.tr p.tl
  entangleRowX p.syn p.br p.bl
  gate1 .h [p.syn]

/-- `if top_r: cx(top_r, syndrome); cx(bot_r, syndrome)`, /repo/qtcodes/circuits/xxzz.py:64-66 and 67-69; if the upper
corner is there, so is the lower one (checked before). -/
def entangleColZ (syn : Qubit) (tr br : Option Qubit) : WM Unit :=
  match tr, br with
  | some tr, some br => do
    gate2 .cx [tr] [syn]
    gate2 .cx [br] [syn]
  | _, _ => pure ()

/-- `_ZZZZ.entangle`, /repo/qtcodes/circuits/xxzz.py:51-69. -/
def entangleZZZZ (p : QPlaq) : WM Unit := do
  if (p.tr.isSome && !p.br.isSome) || (p.tl.isSome && !p.bl.isSome) then CM.throw .latticeError
  entangleColZ p.syn p.tr p.br
  entangleColZ p.syn p.tl p.bl

/-- The steps for an X corner and for a Z corner of `_XZZX.entangle`, /repo/qtcodes/circuits/xzzx.py:30-44. -/
def entangleCornerX (s : Qubit) : Option Qubit → WM Unit
  | some q => do
    gate1 .h [s]
    gate2 .cx [s] [q]
    gate1 .h [s]
  | none => pure ()

/-- See `entangleCornerX`. -/
def entangleCornerZ (s : Qubit) : Option Qubit → WM Unit
  | some q => gate2 .cx [q] [s]
  | none => pure ()

/-- `_XZZX.entangle`, /repo/qtcodes/circuits/xzzx.py:19-44. -/
def entangleXZZX (p : QPlaq) : WM Unit := do
  entangleCornerX p.syn p.tl
  entangleCornerZ p.syn p.tr
  entangleCornerZ p.syn p.bl
  entangleCornerX p.syn p.br

/-- `stabilizer_cls(self.circ, qubit_indices[i]).entangle()`. -/
def entangleOne : Stab → QPlaq → WM Unit
  | .xxxx => entangleXXXX
  | .zzzz => entangleZZZZ
  | .xzzx => entangleXZZX

/-- `_TopologicalLattice.entangle`, /repo/qtcodes/circuits/base.py:131-154. A missing or empty argument is replaced by the
lattice's own list. -/
def Lattice.entangle (L : Lattice) (qi : Option (List QPlaq)) (st : Option (List Stab)) : WM Unit :=
  let qi := match qi with
    | some (a :: l) => a :: l
    | _ => L.qubitIndices
  let st := match st with
    | some (a :: l) => a :: l
    | _ => L.stabilizers
  CM.forEach st.zipIdx fun s => do
    let p ← CM.lift (pyIdx qi s.2)
    entangleOne s.1 p
    barrier

/-- `len(self.qregisters["mx"])`. -/
def Lattice.numX (L : Lattice) : Py Nat := do
  let r ← key L.mx
  return r.size

/-- `entangle_x`, /repo/qtcodes/circuits/rotated_surface.py:212-217. -/
def Lattice.entangleX (L : Lattice) : WM Unit := do
  let n ← CM.lift L.numX
  L.entangle (some (L.qubitIndices.take n)) (some (L.stabilizers.take n))

/-- `entangle_z`, /repo/qtcodes/circuits/rotated_surface.py:219-224. -/
def Lattice.entangleZ (L : Lattice) : WM Unit := do
  let n ← CM.lift L.numX
  L.entangle (some (L.qubitIndices.drop n)) (some (L.stabilizers.drop n))

/-- `reset_x`, /repo/qtcodes/circuits/xxzz.py:80-83 and xzzx.py:55-57. -/
def Lattice.resetX (L : Lattice) : WM Unit :=
  match L.code with
  | .xxzz => do
    reset L.data.qubits
    gate1 .h L.data.qubits
    barrier
  | .xzzx => do
    reset L.data.qubits
    gate1 .h (everySecond (L.data.qubits.drop 1))

/-- `reset_z`, /repo/qtcodes/circuits/xxzz.py:85-87 and xzzx.py:59-61. -/
def Lattice.resetZ (L : Lattice) : WM Unit :=
  match L.code with
  | .xxzz => do
    reset L.data.qubits
    barrier
  | .xzzx => do
    reset L.data.qubits
    gate1 .h (everySecond L.data.qubits)

/-- `range(0, self.params["num_data"], self.params["d"][self.W])`: the left-most column. -/
def Lattice.columnIdx (L : Lattice) : WM (List Int) := do
  let n ← L.numData
  let dw ← L.width
  if dw = 0 then CM.throw .valueError else pure (pyRangeStep n dw)

/-- `range(self.params["d"][self.W])`: the top-most row. -/
def Lattice.rowIdx (L : Lattice) : WM (List Int) := do
  let dw ← L.width
  pure (pyRange dw)

/-- The gate of the logical X at data qubit `i`: `x`, except on even qubits of the XZZX code,
/repo/qtcodes/circuits/xxzz.py:91 and xzzx.py:66-69. -/
def Code.gateX (c : Code) (i : Int) : G1 :=
  match c with
  | .xxzz => .x
  | .xzzx => if i.fmod 2 = 1 then .x else .z

/-- The gate of the logical Z at data qubit `i`, /repo/qtcodes/circuits/xxzz.py:96 and xzzx.py:75-78. -/
def Code.gateZ (c : Code) (i : Int) : G1 :=
  match c with
  | .xxzz => .z
  | .xzzx => if i.fmod 2 = 0 then .x else .z

/-- The controlled gate of the logical X at data qubit `i`, /repo/qtcodes/circuits/xxzz.py:132 and xzzx.py:123-126. -/
def Code.ctrlX (c : Code) (i : Int) : G2 :=
  match c with
  | .xxzz => .cx
  | .xzzx => if i.fmod 2 = 1 then .cx else .cz

/-- `x`, /repo/qtcodes/circuits/xxzz.py:89-92 and xzzx.py:63-70. -/
def Lattice.x (L : Lattice) : WM Unit := do
  let is ← L.columnIdx
  CM.forEach is fun i => do
    let q ← L.dataAt i
    gate1 (L.code.gateX i) [q]
  barrier

/-- `z`, /repo/qtcodes/circuits/xxzz.py:94-97 and xzzx.py:72-79. -/
def Lattice.z (L : Lattice) : WM Unit := do
  let is ← L.rowIdx
  CM.forEach is fun i => do
    let q ← L.dataAt i
    gate1 (L.code.gateZ i) [q]
  barrier

/-- `x_c_if`, /repo/qtcodes/circuits/xxzz.py:99-106 and xzzx.py:81-93. -/
def Lattice.xCIf (L : Lattice) (creg : Str) (val : Int) : WM Unit := do
  let is ← L.columnIdx
  CM.forEach is fun i => do
    let q ← L.dataAt i
    gate1If (L.code.gateX i) q creg val
  barrier

/-- `z_c_if`, /repo/qtcodes/circuits/xxzz.py:108-116 and xzzx.py:95-107. -/
def Lattice.zCIf (L : Lattice) (creg : Str) (val : Int) : WM Unit := do
  let is ← L.rowIdx
  CM.forEach is fun i => do
    let q ← L.dataAt i
    gate1If (L.code.gateZ i) q creg val
  barrier

/-- `_readout_x_into_ancilla`, /repo/qtcodes/circuits/xxzz.py:140-150 and xzzx.py:132-158. -/
def Lattice.readoutXIntoAncilla (L : Lattice) : WM Unit :=
  match L.code with
  | .xxzz => do
    reset L.ancilla.qubits
    gate1 .h L.ancilla.qubits
    let is ← L.columnIdx
    CM.forEach is fun i => do
      let q ← L.dataAt i
      gate2 .cx L.ancilla.qubits [q]
    gate1 .h L.ancilla.qubits
  | .xzzx => do
    reset L.ancilla.qubits
    let is ← L.columnIdx
    gate1 .h L.ancilla.qubits
    let xs ← CM.lift (L.data.atList (is.filter fun i => i.fmod 2 = 1))
    gate2 .cx L.ancilla.qubits xs
    gate1 .h L.ancilla.qubits
    let zs ← CM.lift (L.data.atList (is.filter fun i => i.fmod 2 = 0))
    gate2 .cx zs L.ancilla.qubits

/-- `_readout_z_into_ancilla`, /repo/qtcodes/circuits/xxzz.py:167-175 and xzzx.py:174-198. -/
def Lattice.readoutZIntoAncilla (L : Lattice) : WM Unit :=
  match L.code with
  | .xxzz => do
    reset L.ancilla.qubits
    let is ← L.rowIdx
    CM.forEach is fun i => do
      let q ← L.dataAt i
      gate2 .cx [q] L.ancilla.qubits
  | .xzzx => do
    reset L.ancilla.qubits
    let is ← L.rowIdx
    gate1 .h L.ancilla.qubits
    let xs ← CM.lift (L.data.atList (is.filter fun i => i.fmod 2 = 0))
    gate2 .cx L.ancilla.qubits xs
    gate1 .h L.ancilla.qubits
    let zs ← CM.lift (L.data.atList (is.filter fun i => i.fmod 2 = 1))
    gate2 .cx zs L.ancilla.qubits

/-- `cx(control, target)`, /repo/qtcodes/circuits/xxzz.py:118-138 and xzzx.py:109-130 (qubit objects are always truthy). -/
def Lattice.cx (L : Lattice) (control target : Option Qubit) : WM Unit :=
  match control, target with
  | some c, _ => do
    let is ← L.columnIdx
    CM.forEach is fun i => do
      let q ← L.dataAt i
      gate2 (L.code.ctrlX i) [c] [q]
    barrier
  | none, some t => do
    L.readoutZIntoAncilla
    gate2 .cx L.ancilla.qubits [t]
  | none, none => pure ()

/-- `str(n)` of a natural number, digits least significant first. -/
def digitsRev : Nat → Nat → Str
  | 0, _ => []
  | fuel + 1, n => Nat.digitChar (n % 10) :: if n < 10 then [] else digitsRev fuel (n / 10)

/-- `str(n)`. -/
def strNat (n : Nat) : Str := (digitsRev (n + 1) n).reverse

/-- `str(n)`. -/
def strInt (n : Int) : Str := if n < 0 then '-' :: strNat (-n).toNat else strNat n.toNat

/-- The classical register a logical readout goes to: the one given (if it is not empty), else a new one with the next
number, /repo/qtcodes/circuits/xxzz.py:153-161 and 178-186, xzzx.py:161-169 and 201-209. -/
def Lattice.readoutReg (L : Lattice) (creg : Option Reg) : WM Reg :=
  match creg with
  | some ⟨n, k + 1⟩ => pure ⟨n, k + 1⟩
  | _ => do
    let p ← L.params
    let k ← CM.lift (key p.numReadout)
    setParams L.pref { p with numReadout := some (k + 1) }
    let r ← CM.lift (newReg 1 (L.name ++ "_readout_".toList ++ strInt (k + 1)))
    addCreg r
    pure r

/-- `readout_x`, /repo/qtcodes/circuits/xxzz.py:152-165 and xzzx.py:160-172. -/
def Lattice.readoutX (L : Lattice) (creg : Option Reg) : WM Unit := do
  let r ← L.readoutReg creg
  L.readoutXIntoAncilla
  measure L.ancilla.qubits r.clbits
  barrier

/-- `readout_z`, /repo/qtcodes/circuits/xxzz.py:177-189 and xzzx.py:200-212. -/
def Lattice.readoutZ (L : Lattice) (creg : Option Reg) : WM Unit := do
  let r ← L.readoutReg creg
  L.readoutZIntoAncilla
  measure L.ancilla.qubits r.clbits
  barrier

/-- The new register of a lattice readout, /repo/qtcodes/circuits/xxzz.py:192-199 and 207-215, xzzx.py:215-223 and
233-240. -/
def Lattice.latticeReg (L : Lattice) : WM Reg := do
  let p ← L.params
  let k ← CM.lift (key p.numLatticeReadout)
  setParams L.pref { p with numLatticeReadout := some (k + 1) }
  let n ← CM.lift (key p.numData)
  let r ← CM.lift (newReg n (L.name ++ "_lattice_readout_".toList ++ strInt (k + 1)))
  addCreg r
  pure r

/-- The change of basis at the start of `lattice_readout_x`, /repo/qtcodes/circuits/xxzz.py:201 and xzzx.py:225-227. -/
def Lattice.turnX (L : Lattice) : WM Unit :=
  match L.code with
  | .xxzz => gate1 .h L.data.qubits
  | .xzzx => gate1 .h (everySecond (L.data.qubits.drop 1))

/-- The change of basis at the start of `lattice_readout_z`, /repo/qtcodes/circuits/xzzx.py:242-244 (none in xxzz.py). -/
def Lattice.turnZ (L : Lattice) : WM Unit :=
  match L.code with
  | .xxzz => pure ()
  | .xzzx => gate1 .h (everySecond L.data.qubits)

/-- `lattice_readout_x`, /repo/qtcodes/circuits/xxzz.py:191-204 and xzzx.py:214-230. -/
def Lattice.latticeReadoutX (L : Lattice) : WM Unit := do
  let r ← L.latticeReg
  L.turnX
  measure L.data.qubits r.clbits
  barrier

/-- `lattice_readout_z`, /repo/qtcodes/circuits/xxzz.py:206-218 and xzzx.py:232-247. -/
def Lattice.latticeReadoutZ (L : Lattice) : WM Unit := do
  let r ← L.latticeReg
  L.turnZ
  measure L.data.qubits r.clbits
  barrier

/-! ### Construction of lattices -/

/-- `stabilizer_shortnames["mx"]` and `["mz"]`, /repo/qtcodes/circuits/xxzz.py:78 and xzzx.py:53. -/
def Code.stab (c : Code) (k : Key) : Stab :=
  match c, k with
  | .xxzz, .X => .xxxx
  | .xxzz, .Z => .zzzz
  | .xzzx, _ => .xzzx

/-- `self.qregisters["data"][idx] if idx is not None else None`, /repo/qtcodes/circuits/rotated_surface.py:204. -/
def cornerQubit (data : Reg) : Option Int → Py (Option Qubit)
  | some i => do
    let q ← data.at i
    return some q
  | none => .ok none

/-- One entry of `qubit_indices`, /repo/qtcodes/circuits/rotated_surface.py:202-208. -/
def qplaq (data : Reg) (syns : Option Reg) (p : Plaq) : Py QPlaq := do
  let r ← key syns
  let syn ← r.at p.syn
  let tl ← cornerQubit data p.tl
  let tr ← cornerQubit data p.tr
  let bl ← cornerQubit data p.bl
  let br ← cornerQubit data p.br
  return { syn, tl, tr, bl, br }

/-- `_gen_qubit_indices_and_stabilizers`, /repo/qtcodes/circuits/rotated_surface.py:181-210. -/
def genPlaqs (code : Code) (dh dw : Int) (data : Reg) (mx mz : Option Reg) : Py (List QPlaq × List Stab) := do
  let xs ← (geometryX dh dw).mapM (qplaq data mx)
  let zs ← (geometryZ dh dw).mapM (qplaq data mz)
  return (xs ++ zs, xs.map (fun _ => code.stab .X) ++ zs.map (fun _ => code.stab .Z))

/-- `QuantumRegister(n, name)` if `n > 0`, /repo/qtcodes/circuits/rotated_surface.py:105-113. -/
def optReg (n : Int) (name : Str) : Option Reg := if 0 < n then some ⟨name, n.toNat⟩ else none

/-- `_TopologicalLattice.__init__`, /repo/qtcodes/circuits/base.py:62-96, with `_params_validate_and_generate` and
`_gen_registers` of /repo/qtcodes/circuits/rotated_surface.py:55-115. -/
def newLattice (code : Code) (name : Str) (pref : Nat) : WM Lattice := do
  let p ← getParams pref
  setParams pref (rotatedTouched p)
  let p ← CM.lift (rotatedValidate p)
  setParams pref p
  let dh ← CM.lift (p.dim 0)
  let dw ← CM.lift (p.dim 1)
  let nd ← CM.lift (key p.numData)
  let ns ← CM.lift (key p.numSyn)
  let data ← CM.lift (newReg nd (name ++ "_data".toList))
  let mz := optReg ns.2 (name ++ "_mz".toList)
  let mx := optReg ns.1 (name ++ "_mx".toList)
  let ancilla : Reg := ⟨name ++ "_ancilla".toList, 1⟩
  CM.forEach ([data] ++ mz.toList ++ mx.toList ++ [ancilla]) addQreg
  let pl ← CM.lift (genPlaqs code dh dw data mx mz)
  return { code, name, pref, data, mz, mx, ancilla, qubitIndices := pl.1, stabilizers := pl.2 }

/-! ### Qubits -/

/-- The qubit classes `XXZZQubit`, `XZZXQubit` and `RepetitionQubit`. -/
inductive QClass where
  | xxzz
  | xzzx
  | rep
  deriving DecidableEq, Repr

/-- `lattice_type`, /repo/qtcodes/circuits/xxzz.py:226, xzzx.py:255; a repetition qubit is an XXZZ qubit. -/
def QClass.code : QClass → Code
  | .xxzz => .xxzz
  | .xzzx => .xzzx
  | .rep => .xxzz

/-- A topological qubit object: its class and its lattice (name and circuit are those of the lattice). -/
structure TQubit where
  cls : QClass
  lat : Lattice

/-- `not params`: the dictionary is empty. -/
def Params.isEmpty (p : Params) : Bool :=
  p.d.isNone && p.T.isNone && p.pfp.isNone && p.numReadout.isNone && p.numLatticeReadout.isNone && p.numData.isNone &&
    p.numSyn.isNone

/-- `params if params else {}`: the caller's dictionary itself, or a new one. -/
def dictOrNew (params : Option Nat) : WM Nat := fun w =>
  match params with
  | some r => if (w.heap r).isEmpty then (.ok w.next, { w with heap := fun k => if k = w.next then {} else w.heap k, next := w.next + 1 })
    else (.ok r, w)
  | none => (.ok w.next, { w with heap := fun k => if k = w.next then {} else w.heap k, next := w.next + 1 })

/-- `RepetitionQubit.__init__` validates the dictionary first, /repo/qtcodes/circuits/repetition.py:21-28. -/
def checkRep (cls : QClass) (r : Nat) : WM Unit :=
  if cls = .rep then do
    let p ← getParams r
    setParams r (repTouched p)
    let p ← CM.lift (repValidate p)
    setParams r p
  else pure ()

/-- `XXZZQubit(params, name, circ)` etc., /repo/qtcodes/circuits/base.py:273-300 and repetition.py:21-28. `params` is a reference
to the caller's dictionary; the circuit is the one of the state. -/
def newQubit (cls : QClass) (params : Option Nat) (name : Str) : WM TQubit := do
  let r ← dictOrNew params
  checkRep cls r
  let lat ← newLattice cls.code name r
  pure ⟨cls, lat⟩

/-- `RotatedQubit.stabilize`, /repo/qtcodes/circuits/rotated_surface.py:496-533. -/
def TQubit.stabilize (q : TQubit) : WM Unit := do
  let ns ← q.lat.numSyn
  let p ← q.lat.params
  let T ← CM.lift (key p.T)
  setParams q.lat.pref { p with T := some (T + 1) }
  let creg ← CM.lift (newReg (ns.1 + ns.2) (q.lat.name ++ "_c".toList ++ strInt (T + 1)))
  addCreg creg
  q.lat.entangle none none
  CM.when (0 < ns.2) do
    let r ← CM.lift (key q.lat.mz)
    measure r.qubits (creg.clbits.take ns.2.toNat)
  CM.when (0 < ns.1) do
    let r ← CM.lift (key q.lat.mx)
    measure r.qubits ((creg.clbits.take (ns.2 + ns.1).toNat).drop ns.2.toNat)
  CM.when (0 < ns.2) do
    let r ← CM.lift (key q.lat.mz)
    reset r.qubits
  CM.when (0 < ns.1) do
    let r ← CM.lift (key q.lat.mx)
    reset r.qubits
  barrier

/-- `self.lattice.qregisters.values()`, in order of insertion (/repo/qtcodes/circuits/rotated_surface.py:100-115). -/
def Lattice.qregs (L : Lattice) : List Reg := [L.data] ++ L.mz.toList ++ L.mx.toList ++ [L.ancilla]

/-- `id`, /repo/qtcodes/circuits/base.py:317-324. -/
def TQubit.id (q : TQubit) : WM Unit := do
  CM.forEach q.lat.qregs fun r => gate1 .id r.qubits
  barrier

/-- `id_data`, /repo/qtcodes/circuits/base.py:326-332. -/
def TQubit.idData (q : TQubit) : WM Unit := do
  gate1 .id q.lat.data.qubits
  barrier

/-- `cx`, /repo/qtcodes/circuits/base.py:370-386. -/
def TQubit.cx (q : TQubit) (control target : Option Qubit) : WM Unit := do
  if !(control.isSome ^^ target.isSome) then CM.throw .valueError
  q.lat.cx control target

/-- The operations of a single qubit (base.py:334-414 passes all others on to the lattice; `entangle_x`/`entangle_z` are
lattice methods). -/
inductive QOp where
  | stabilize
  | entangleX
  | entangleZ
  | id
  | idData
  | resetX
  | resetZ
  | x
  | z
  | xCIf (creg : Str) (val : Int)
  | zCIf (creg : Str) (val : Int)
  | cx (control target : Option Qubit)
  | readoutX (creg : Option Reg)
  | readoutZ (creg : Option Reg)
  | latticeReadoutX
  | latticeReadoutZ
  deriving DecidableEq, Repr

/-- The method an operation stands for. -/
def TQubit.op (q : TQubit) : QOp → WM Unit
  | .stabilize => q.stabilize
  | .entangleX => q.lat.entangleX
  | .entangleZ => q.lat.entangleZ
  | .id => q.id
  | .idData => q.idData
  | .resetX => q.lat.resetX
  | .resetZ => q.lat.resetZ
  | .x => q.lat.x
  | .z => q.lat.z
  | .xCIf c v => q.lat.xCIf c v
  | .zCIf c v => q.lat.zCIf c v
  | .cx c t => q.cx c t
  | .readoutX r => q.lat.readoutX r
  | .readoutZ r => q.lat.readoutZ r
  | .latticeReadoutX => q.lat.latticeReadoutX
  | .latticeReadoutZ => q.lat.latticeReadoutZ

/-- A sequence of operations; the program goes on after an exception. -/
def TQubit.ops (q : TQubit) (l : List QOp) (w : World) : World := l.foldl (fun w o => (q.op o w).2) w

/-! ### Results -/

/-- qiskit's result string for the contents `mem` of the classical bits: one group per classical register, the newest
first, separated by blanks; in a group the highest bit first. -/
def groupString (mem : Clbit → Bool) (r : Reg) : Str := (r.clbits.map fun c => if mem c then '1' else '0').reverse

/-- See `groupString`. -/
def groups (mem : Clbit → Bool) (cregs : List Reg) : List Str := cregs.reverse.map (groupString mem)

end Qtc
