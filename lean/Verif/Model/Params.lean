import Verif.Model.Py
/-!
Parameter dictionaries and their validation.
-/
namespace Qtc

/-- A Python number as it can occur in `params["d"]` (`numbers.Number`): an `int`, or a finite `float` taken as its
exact rational value. (Simplification: `complex`, `nan` and `inf` are not modelled.) -/
inductive Num where
  | int (n : Int)
  | flt (q : Rat)
  deriving DecidableEq, Repr

/-- Python `int(x)`: truncation towards zero. -/
def Num.toInt : Num → Int
  | .int n => n
  | .flt q => q.num.tdiv q.den

/-- The kinds of value a user may store under `params["d"]`.
`other` stands for a value that is neither a number nor iterable (e.g. `None`). -/
inductive DVal where
  | num (n : Num)
  | tup (l : List Num)
  | lst (l : List Num)
  | str (s : Str)
  | other
  deriving DecidableEq, Repr

/-- The parameter dictionary shared by users, lattices and decoders: one optional field per key the code uses:
`"d"`, `"T"`, `"phase-flip-protected"`, `"num_readout"`, `"num_lattice_readout"`, `"num_data"`, `"num_syn"`.
(Simplification: `"phase-flip-protected"` is a `bool`; other keys are never read by the code.) -/
structure Params where
  d : Option DVal := none
  T : Option Int := none
  pfp : Option Bool := none
  numReadout : Option Int := none
  numLatticeReadout : Option Int := none
  numData : Option Int := none
  numSyn : Option (Int × Int) := none
  deriving DecidableEq, Repr

/-- `tuple(map(int, d))` for an iterable `d`
(/repo/qtcodes/circuits/rotated_surface.py:72): numbers are truncated, a string is read character by character,
a non-iterable raises `TypeError`. -/
def toIntTuple : DVal → Py (List Int)
  | .num _ => .error .typeError
  | .tup l => .ok (l.map Num.toInt)
  | .lst l => .ok (l.map Num.toInt)
  | .str s => s.mapM intOfChar
  | .other => .error .typeError

/-- Number of X syndromes, /repo/qtcodes/circuits/rotated_surface.py:89. -/
def numSynX (dh dw : Int) : Int := (dh + 1).fdiv 2 * (dw - 1)

/-- Number of Z syndromes, /repo/qtcodes/circuits/rotated_surface.py:90. -/
def numSynZ (dh dw : Int) : Int := (dw + 1).fdiv 2 * (dh - 1)

/-- The size step of `_params_validate_and_generate`, /repo/qtcodes/circuits/rotated_surface.py:62-76:
default `(3, 3)`, square for a single number, integer tuple, first two entries. -/
def rotatedSize (d : Option DVal) : Py (List Int × Int × Int) := do
  -- default params (63-64)
  let d0 := d.getD (.tup [.int 3, .int 3])
  -- make square lattice if only one dimension was passed in (67-69)
  let d1 := match d0 with
    | .num n => .tup [.int n.toInt, .int n.toInt]
    | v => v
  -- convert to int tuple (72)
  let l ← toIntTuple d1
  let dh ← pyIdx l 0
  let dw ← pyIdx l 1
  return (l, dh, dw)

/-- What `_params_validate_and_generate` has written to the dictionary when it raises, /repo/qtcodes/circuits/rotated_surface.py:62-72: the
default, the square, and the tuple of integers, if that can be made. -/
def rotatedTouched (p : Params) : Params :=
  { p with d := some (match p.d.getD (.tup [.int 3, .int 3]) with
      | .num n => .tup [.int n.toInt, .int n.toInt]
      | v => match toIntTuple v with
        | .ok l => .tup (l.map .int)
        | .error _ => v) }

/-- `_RotatedLattice._params_validate_and_generate`, /repo/qtcodes/circuits/rotated_surface.py:55-91.
Returns the updated dictionary; if it raises, the dictionary is `rotatedTouched` afterwards. -/
def rotatedValidate (p : Params) : Py Params := do
  let (l, dh, dw) ← rotatedSize p.d
  if dh.fmod 2 ≠ 1 ∨ dw.fmod 2 ≠ 1 then
    .error .latticeError
  else
    return { p with
      d := some (.tup (l.map .int))
      T := some (-1)
      numReadout := some (-1)
      numLatticeReadout := some (-1)
      numData := some (dh * dw)
      numSyn := some (numSynX dh dw, numSynZ dh dw) }

/-- `params["d"][k]` on a tuple of numbers as used by `RepetitionQubit._validate_params`
(/repo/qtcodes/circuits/repetition.py:50,56), compared with `1`: Python compares by value, so `1.0 == 1`. -/
def Num.isOne : Num → Bool
  | .int n => n == 1
  | .flt q => q == 1

/-- `RepetitionQubit._validate_params`, /repo/qtcodes/circuits/repetition.py:30-69. -/
def repValidate (p : Params) : Py Params :=
  -- 34-35
  let pf := p.pfp.getD false
  let p := { p with pfp := some pf }
  match p.d with
  | none => -- 38-42
    .ok { p with d := some (if pf then .tup [.int 1, .int 3] else .tup [.int 3, .int 1]) }
  | some (.num n) => -- 43-48
    .ok { p with d := some (if pf then .tup [.int 1, .int n.toInt] else .tup [.int n.toInt, .int 1]) }
  | some (.tup l) => do -- 49-61
    if !pf then
      let w ← pyIdx l 1
      if !w.isOne then .error .latticeError else pure p
    else
      let h ← pyIdx l 0
      if !h.isOne then .error .latticeError else pure p
  | some _ => .error .latticeError -- 62-67

/-- What `RepetitionQubit._validate_params` has written to the dictionary, whether it raises or not: every exception comes after 34-35 and
before anything is written to `"d"`. -/
def repTouched (p : Params) : Params :=
  match repValidate p with
  | .ok p' => p'
  | .error _ => { p with pfp := some (p.pfp.getD false) }

/-- `LatticeDecoder._params_validation`, /repo/qtcodes/fitters/lattice_decoder.py:52-54. -/
def latticeDecoderValidate (p : Params) : Py Unit :=
  if p.d.isNone ∨ p.T.isNone then .error .valueError else .ok ()

/-- Python `x % 2 != 1` for a number (/repo/qtcodes/fitters/rotated_surface.py:45,47). -/
def Num.notOdd : Num → Bool
  | .int n => n.fmod 2 != 1
  | .flt q => q - 2 * (q / 2).floor != 1

/-- `RotatedDecoder._params_validation`, /repo/qtcodes/fitters/rotated_surface.py:29-48.
A string has a length but its characters do not support `% 2` (`TypeError`). -/
def rotatedDecoderValidate (p : Params) : Py Params := do
  latticeDecoderValidate p
  let p := match p.d with
    | some (.num n) => { p with d := some (.tup [.int n.toInt, .int n.toInt]) }
    | _ => p
  match p.d with
  | some (.tup l) | some (.lst l) =>
    if l.length ≠ 2 then .error .latticeError
    else do
      let dh ← pyIdx l 0
      let dw ← pyIdx l 1
      if dh.notOdd then .error .latticeError
      else if dw.notOdd then .error .latticeError
      else pure p
  | some (.str s) => if s.length ≠ 2 then .error .latticeError else .error .typeError
  | _ => .error .typeError

/-- What `RotatedDecoder._params_validation` has written to the dictionary, whether it raises or not,
/repo/qtcodes/fitters/rotated_surface.py:33-35. -/
def rotatedDecoderTouched (p : Params) : Params :=
  if p.d.isNone ∨ p.T.isNone then p
  else match p.d with
    | some (.num n) => { p with d := some (.tup [.int n.toInt, .int n.toInt]) }
    | _ => p

/-- Which syndrome graphs a decoder builds, by key.  `"X"` and `"Z"` in the code. -/
inductive Key where
  | X
  | Z
  deriving DecidableEq, Repr

/-- `RepetitionDecoder._params_validation` together with the resulting `syndrome_graph_keys`,
/repo/qtcodes/fitters/repetition.py:17-25. -/
def repDecoderValidate (p : Params) : Py (Params × List Key) := do
  let p ← repValidate p
  let keys := if p.pfp.getD false then [Key.X] else [Key.Z]
  let p ← rotatedDecoderValidate p
  return (p, keys)

end Qtc
