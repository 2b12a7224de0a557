import Verif.Model.Registers
import Verif.Model.Readout
/-!
`parse_readout` of a qubit and of a circuit on a register of qubits.

Simplification: the size is read from the parameter dictionary once, before the string is looked at; the numbers of plaquettes
(`params["num_syn"]`) are the ones that belong to the size, as `_validate_preprocess_params` has stored them.
-/
namespace Qtc

/-- `TopologicalQubit.parse_readout`, /repo/qtcodes/circuits/base.py:416-424, for the lattice's `parse_readout`,
/repo/qtcodes/circuits/rotated_surface.py:415-488. -/
def TQubit.parse (q : TQubit) (str : Str) (rt : RType) : WM (Int × Hits) := do
  let p ← q.lat.params
  let dh ← CM.lift (p.dim 0)
  let dw ← CM.lift (p.dim 1)
  CM.lift (parseReadout dh dw str rt)

/-- `TopologicalCircuit.parse_readout`, /repo/qtcodes/circuits/circ.py:368-396. -/
def parseT (a : QArg) (str : Str) (rt : RType) : TM (Int × Hits) := do
  let q ← getIndex a
  onWorld (q.parse str rt)

end Qtc
