import Verif.Spec.QuantumCnot
/-!
Calls of `cx` with an error.
-/
namespace Qtc.Spec

/-- As `CxRun`, but the readout qubit of `cx` suffers an X error before it is measured for the first time. -/
structure CxStruck (s : TState) (i j : Int) (c t : TQubit) (s' : TState) (φ φ' : QState) : Prop where
  fair : FairState s
  call : ∃ ca ta ctype p, Points s ca i c ∧ Points s ta j t ∧ GivenDict s p ∧ cxT ca ta ctype p s = (.ok (), s')
  ne : i ≠ j
  ancilla : ∀ d, s.treg.tqubits.get? "ancilla".toList = some d → ∀ e ∈ d, (e.1 : Int) ≠ i ∧ (e.1 : Int) ≠ j
  possible : φ.psi ≠ 0
  run : ∃ (sz : Str → Nat) (before after : List Instr), (∀ r ∈ s'.world.circ.cregs, sz r.name = r.size) ∧
    s'.world.circ.instrs.drop s.world.circ.instrs.length = before ++ .measure ⟨"cnot_readout".toList, 0⟩ ⟨"m1".toList, 0⟩ :: after ∧
    Run sz (before ++ .gate1 .x ⟨"cnot_readout".toList, 0⟩ none :: .measure ⟨"cnot_readout".toList, 0⟩ ⟨"m1".toList, 0⟩ :: after) φ φ'

/-- The error that flips the value of data qubit `k`: X, and for the XZZX code Z at every second qubit. -/
noncomputable def valueFlip (code : Code) (name : Str) (k : Int) : Op := if code = .xzzx ∧ k % 2 = 0 then opZ (dataQ name k) else opX (dataQ name k)

end Qtc.Spec
