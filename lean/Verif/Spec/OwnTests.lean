import Verif.Model.Tests
import Verif.Spec.Quantum
import Verif.Spec.Readout
/-!
What it means that the repository's own test passes, whatever the simulator returns.
-/
namespace Qtc.Spec

/-- The simulator, which starts with all qubits in state 0 and all bits 0, may print `str` for the circuit. -/
def Outcome (circ : Circ) (str : Str) : Prop :=
  ∃ (sz : Str → Nat) (s' : QState), Run sz circ.instrs ⟨ground, fun _ => false⟩ s' ∧ str = joinSp (groups s'.mem circ.cregs)

/-- A dictionary of counts that the simulator may return: possible strings, at least one shot. -/
def CountsOf (circ : Circ) (counts : List (Str × Nat)) : Prop :=
  (∀ c ∈ counts, Outcome circ c.1) ∧ 0 < (counts.map Prod.snd).sum

/-- The calls of `simulate` one after another, with one dictionary (reference `r`) and one decoder; every call makes a new circuit. All
assertions hold, whatever counts the simulator returns. -/
def TestPasses (cls : QClass) (m : Matcher) (r : Nat) : List (TestErr × Int × Key) → World → DecoderObj → Prop
  | [], _, _ => True
  | (err, i, key) :: l, w, o => ∃ q w', simulateCircuit cls r err i key { w with circ := {} } = (.ok q, w') ∧
      ∀ counts, CountsOf w'.circ counts → ∃ o', simulateChecks cls m r err i key w' counts o = (.ok (), o') ∧ TestPasses cls m r l w' o'

end Qtc.Spec
