import Verif.Model.Geometry
/-!
Parsing of readout strings: `_RotatedLattice.extract_final_stabilizer_and_logical_readout_*` and
`_RotatedLattice.parse_readout`, /repo/qtcodes/circuits/rotated_surface.py:226-357 and 415-488.
-/
namespace Qtc

/-- A syndrome node `(time, row, col)` (`TQubit` in the code).
`row` and `col` are half-integers in the code; here they are stored doubled. -/
structure Node where
  t : Int
  r2 : Int
  c2 : Int
  deriving DecidableEq, Repr

/-- The syndrome dictionary `{"X": [...], "Z": [...]}` returned by `parse_readout`. -/
structure Hits where
  X : List Node
  Z : List Node
  deriving DecidableEq, Repr

/-- Python `s.split(" ")`: always at least one chunk. -/
def splitSpace : Str → List Str
  | [] => [[]]
  | c :: cs =>
    if c = ' ' then [] :: splitSpace cs
    else match splitSpace cs with
      | [] => [[c]]
      | w :: ws => (c :: w) :: ws

/-- Value of a binary numeral, most significant digit first; the digits after the first. -/
def binGo : Nat → Str → Py Nat
  | acc, [] => .ok acc
  | acc, c :: cs =>
    if c = '0' then binGo (2 * acc) cs
    else if c = '1' then binGo (2 * acc + 1) cs
    else .error .valueError

/-- Python `int(s, base=2)`: `ValueError` on the empty string or a non-binary digit.
(Simplification: the exotic numerals `int` also accepts, with sign, `0b` prefix, underscores or surrounding white
space, are rejected.) -/
def parseBin (s : Str) : Py Nat :=
  if s = [] then .error .valueError else binGo 0 s

/-- The readout types a caller can pass: `"X"`, `"Z"`, any other string, or `None`. -/
inductive RType where
  | X
  | Z
  | other
  | none
  deriving DecidableEq, Repr

/-- `sum([readout_values[idx] if idx is not None else 0 for idx in idx_list[1:]]) % 2`,
/repo/qtcodes/circuits/rotated_surface.py:260-268 and 318-326. -/
def stabilizerVal (vals : List Int) (p : Plaq) : Py Int := do
  let xs ← p.corners.mapM (fun
    | some idx => pyIdx vals idx
    | none => pure 0)
  return xs.sum.fmod 2

/-- `str(v)` for the values `0` and `1`, the only results of `% 2`. -/
def strBit (v : Int) : Str := if v = 0 then ['0'] else ['1']

/-- The loop `stabilizer = str(val) + stabilizer` over the plaquettes,
/repo/qtcodes/circuits/rotated_surface.py:257-269 and 315-327. -/
def stabilizerStr (vals : List Int) (geom : List Plaq) : Py Str :=
  geom.foldlM (fun acc p => do
    let v ← stabilizerVal vals p
    return strBit v ++ acc) []

/-- The loop `logical_readout = (logical_readout + readout_values[idx]) % 2` over `idx`,
/repo/qtcodes/circuits/rotated_surface.py:335-337. -/
def parityLoop (vals : List Int) (idxs : List Int) : Py Int :=
  idxs.foldlM (fun acc idx => do
    let v ← pyIdx vals idx
    return (acc + v).fmod 2) 0

/-- `extract_final_stabilizer_and_logical_readout_z`, /repo/qtcodes/circuits/rotated_surface.py:284-339. -/
def extractZ (dh dw : Int) (final prev : Str) : Py (Int × Str) := do
  let vals ← final.mapM intOfChar
  let vals := vals.reverse -- [q_0, q_1, ...]
  let zs ← stabilizerStr vals (geometryZ dh dw)
  let stab := prev.take (numSynX dh dw).toNat ++ zs
  let logical ← parityLoop vals (pyRange dw)
  return (logical, stab)

/-- `extract_final_stabilizer_and_logical_readout_x`, /repo/qtcodes/circuits/rotated_surface.py:226-282.
Line 279 evaluates `self.params["d"][self.DW]`, but a lattice has no attribute `DW` (the properties are called
`H` and `W`, base.py:42-50, and `DH`/`DW` are module constants that are not imported as attributes),
so after the earlier steps the function always ends in `AttributeError`. -/
def extractX (dh dw : Int) (final _prev : Str) : Py (Int × Str) := do
  let vals ← final.mapM intOfChar
  let vals := vals.reverse
  let _xs ← stabilizerStr vals (geometryX dh dw)
  .error .attributeError

/-- `extract_final_stabilizer_and_logical_readout`, /repo/qtcodes/circuits/rotated_surface.py:341-357.
For an unknown type it returns `None`, which the caller cannot unpack (`TypeError`). -/
def extractFinal (dh dw : Int) (final prev : Str) : RType → Py (Int × Str)
  | .X => extractX dh dw final prev
  | .Z => extractZ dh dw final prev
  | _ => .error .typeError

/-- `a ^ b` for consecutive rounds, /repo/qtcodes/circuits/rotated_surface.py:454. -/
def xorPairs (l : List Nat) : List Nat := (l.zip (l.drop 1)).map (fun (a, b) => a ^^^ b)

/-- Coordinate of X syndrome bit `loc` (doubled), /repo/qtcodes/circuits/rotated_surface.py:468,472-473. -/
def coordX (dw : Int) (loc : Int) : Int × Int :=
  let perRow := dw.fdiv 2
  (-1 + 2 * loc.fdiv perRow, (1 + 2 * (loc.fdiv perRow).fmod 2) + loc.fmod perRow * 4)

/-- Coordinate of Z syndrome bit `loc` (doubled), /repo/qtcodes/circuits/rotated_surface.py:477,481-482. -/
def coordZ (dw : Int) (loc : Int) : Int × Int :=
  let perRow := dw.fdiv 2 + 1
  (1 + 2 * loc.fdiv perRow, (1 - 2 * (loc.fdiv perRow).fmod 2) + loc.fmod perRow * 4)

/-- The hit loops, /repo/qtcodes/circuits/rotated_surface.py:469-474 and 478-483:
for every time and every syndrome index whose bit is set, one node. -/
def hitLoop (n : Int) (coord : Int → Int × Int) (syndromes : List Nat) : List Node :=
  syndromes.zipIdx.flatMap (fun (s, T) =>
    (List.range n.toNat).flatMap (fun loc =>
      if s &&& (1 <<< loc) ≠ 0 then
        [{ t := Int.ofNat T, r2 := (coord (Int.ofNat loc)).1, c2 := (coord (Int.ofNat loc)).2 }]
      else []))

/-- The part of `parse_readout` after the logical readout has been split off,
/repo/qtcodes/circuits/rotated_surface.py:453-483. `chunks` are the syndrome rounds, newest first. -/
def parseRounds (dh dw : Int) (chunks : List Str) : Py Hits := do
  let ints ← chunks.reverse.mapM parseBin
  let xors := xorPairs ints
  let nx := numSynX dh dw
  let nz := numSynZ dh dw
  let maskZ : Str := List.replicate nz.toNat '1'
  let maskX : Str := List.replicate nx.toNat '1' ++ List.replicate nz.toNat '0'
  let xs ← xors.mapM (fun x => do
    let m ← parseBin maskX
    return (x &&& m) >>> nz.toNat)
  let zs ← if maskZ ≠ [] then xors.mapM (fun x => do
      let m ← parseBin maskZ
      return x &&& m)
    else pure []
  return { X := hitLoop nx (coordX dw) xs, Z := hitLoop nz (coordZ dw) zs }

/-- `_RotatedLattice.parse_readout` after the split, /repo/qtcodes/circuits/rotated_surface.py:439-488. -/
def parseChunks (dh dw : Int) (chunks : List Str) (rt : RType) : Py (Int × Hits) := do
  let c0 ← pyIdx chunks 0
  if 1 < c0.length then
    if rt = .none then .error .assertionError
    else do
      let c1 ← pyIdx chunks 1
      let (logical, final) ← extractFinal dh dw c0 c1 rt
      let hits ← parseRounds dh dw (final :: chunks.drop 1)
      return (logical, hits)
  else
    match c0 with
    | [c] => do
      let logical ← intOfChar c
      let hits ← parseRounds dh dw (chunks.drop 1)
      return (logical, hits)
    | _ => .error .valueError

/-- `_RotatedLattice.parse_readout`, /repo/qtcodes/circuits/rotated_surface.py:415-488. -/
def parseReadout (dh dw : Int) (s : Str) (rt : RType) : Py (Int × Hits) := parseChunks dh dw (splitSpace s) rt

end Qtc
