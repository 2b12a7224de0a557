import Verif.Spec.QuantumCnot
/-!
A logical CNOT of a qubit with itself.
-/
namespace Qtc.Spec

/-- A call of `cx` that succeeds after a fair history, from state `s` to `s'`, with qubit number `i`, which is not in the sub-register
"ancilla", as both control and target; and an execution of the instructions it adds, from `φ` to `φ'`. -/
structure SelfCx (s : TState) (i : Int) (c : TQubit) (s' : TState) (φ φ' : QState) : Prop where
  fair : FairState s
  call : ∃ ca ta ctype p, Points s ca i c ∧ Points s ta i c ∧ GivenDict s p ∧ cxT ca ta ctype p s = (.ok (), s')
  ancilla : ∀ d, s.treg.tqubits.get? "ancilla".toList = some d → ∀ e ∈ d, (e.1 : Int) ≠ i
  possible : φ.psi ≠ 0
  run : ∃ sz : Str → Nat, (∀ r ∈ s'.world.circ.cregs, sz r.name = r.size) ∧ Run sz (s'.world.circ.instrs.drop s.world.circ.instrs.length) φ φ'

end Qtc.Spec
