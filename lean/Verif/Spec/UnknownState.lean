import Verif.Spec.CircuitNoise
/-!
Executions of a circuit as linear operators on the state, and what to do about logical flips.
-/
namespace Qtc.Spec

/-- The logical operator of a type. -/
def logical (code : Code) (key : Key) (name : Str) (dh dw : Int) : Op :=
  match key with
  | .X => logX code name dh dw
  | .Z => logZ code name dw

/-- The executions of a circuit that turn the classical bits `m` into `m'` in one particular way: they turn every state `φ` into `K φ`, if
that is not zero. -/
def Transforms (sz : Str → Nat) (l : List Instr) (m m' : Mem) (K : Op) : Prop := ∀ φ, K φ ≠ 0 → Run sz l ⟨φ, m⟩ ⟨K φ, m'⟩

/-- The logical gates that undo flips of logical Z and logical X. -/
noncomputable def undo (code : Code) (name : Str) (dh dw : Int) (flip : Key → Bool) : Op :=
  (if flip .Z then logX code name dh dw else 1) * if flip .X then logZ code name dw else 1

end Qtc.Spec
