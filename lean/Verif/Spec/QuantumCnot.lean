import Verif.Spec.Quantum
import Verif.Spec.Registers
/-!
Executions of a logical CNOT.
-/
namespace Qtc.Spec

/-- A call of `cx` that succeeds after a fair history, from state `s` to `s'`, with qubit number `i` as control and number `j` as
target, both of them not in the sub-register "ancilla"; and an execution of the instructions it adds, from `φ` to `φ'`. The helper
bits and qubits, the ancilla and everything else are in any state before. -/
structure CxRun (s : TState) (i j : Int) (c t : TQubit) (s' : TState) (φ φ' : QState) : Prop where
  fair : FairState s
  call : ∃ ca ta ctype p, Points s ca i c ∧ Points s ta j t ∧ GivenDict s p ∧ cxT ca ta ctype p s = (.ok (), s')
  ne : i ≠ j
  ancilla : ∀ d, s.treg.tqubits.get? "ancilla".toList = some d → ∀ e ∈ d, (e.1 : Int) ≠ i ∧ (e.1 : Int) ≠ j
  possible : φ.psi ≠ 0
  run : ∃ sz : Str → Nat, (∀ r ∈ s'.world.circ.cregs, sz r.name = r.size) ∧ Run sz (s'.world.circ.instrs.drop s.world.circ.instrs.length) φ φ'

/-- The operator acts on nothing but the registers of the qubit called `name`. -/
def OnQubit (name : Str) (B : Op) : Prop := ∀ x : Qubit, (∀ rest : Str, x.reg ≠ name ++ "_".toList ++ rest) → ∀ l : Letter, Commute B (l.op x)

end Qtc.Spec
