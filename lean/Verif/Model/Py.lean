/-!
Python primitives used by the model.
-/
namespace Qtc

/-- The Python exceptions the modelled code can raise.
`LatticeError` is /repo/qtcodes/circuits/base.py:14-17; `circuitError` stands for qiskit's `CircuitError`
(and for the `IndexError`/`CircuitError` family raised by qiskit registers), `nameTaken` for the particular `CircuitError`
"register name already exists";
`recursionError` is CPython's `RecursionError`; `osError` stands for the errors of reading a missing or broken file; `noEdge` is
retworkx's `NoEdgeBetweenNodes`. -/
inductive PyErr where
  | latticeError
  | valueError
  | typeError
  | indexError
  | keyError
  | assertionError
  | attributeError
  | zeroDivisionError
  | circuitError
  | nameTaken
  | recursionError
  | overflowError
  | osError
  | noEdge
  deriving DecidableEq, Repr

/-- A Python computation without side effects: a value or an exception. -/
abbrev Py (α : Type) := Except PyErr α

/-- Python `str`. -/
abbrev Str := List Char

/-- Python `range(n)` (empty for `n ≤ 0`). -/
def pyRange (n : Int) : List Int := (List.range n.toNat).map Int.ofNat

/-- Python `range(0, n, s)` for a positive step `s`: `⌈n/s⌉` terms, none for `n ≤ 0`. -/
def pyRangeStep (n s : Int) : List Int :=
  (List.range ((n + s - 1).fdiv s).toNat).map (fun k => Int.ofNat k * s)

/-- Python `l[k]` on a list or tuple: negative indices count from the end, out of range is `IndexError`. -/
def pyIdx {α : Type} (l : List α) (k : Int) : Py α :=
  let k' := if k < 0 then k + l.length else k
  if k' < 0 then .error .indexError
  else match l[k'.toNat]? with
    | some a => .ok a
    | none => .error .indexError

/-- Python `int(c)` for a one-character string: decimal digits only, else `ValueError`.
(Simplification: non-ASCII digits, which `int` also accepts, are rejected.) -/
def intOfChar (c : Char) : Py Int :=
  if c.isDigit then .ok (Int.ofNat (c.toNat - '0'.toNat)) else .error .valueError

end Qtc
