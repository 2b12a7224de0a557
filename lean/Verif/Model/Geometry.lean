import Verif.Model.Params
/-!
Lattice geometry: which data qubits each syndrome qubit is entangled with.
-/
namespace Qtc

/-- One entry `[syn, top_l, top_r, bot_l, bot_r]` of `geometry["mx"]`/`geometry["mz"]`
(/repo/qtcodes/circuits/rotated_surface.py:159,178): the syndrome index and the four corner data indices. -/
structure Plaq where
  syn : Int
  tl : Option Int
  tr : Option Int
  bl : Option Int
  br : Option Int
  deriving DecidableEq, Repr

/-- `idx_list[1:]`. -/
def Plaq.corners (p : Plaq) : List (Option Int) := [p.tl, p.tr, p.bl, p.br]

/-- `per_row_x`, /repo/qtcodes/circuits/rotated_surface.py:130. -/
def perRowX (dw : Int) : Int := (dw - 1).fdiv 2

/-- `per_row_z`, /repo/qtcodes/circuits/rotated_surface.py:131. -/
def perRowZ (dw : Int) : Int := (dw + 1).fdiv 2

/-- Body of the X loop of `_set_geometry`, /repo/qtcodes/circuits/rotated_surface.py:139-159.
(`fdiv`/`fmod` by zero would be `ZeroDivisionError` in Python; `rowX_facts` shows the loop never runs then.) -/
def geomX (dh dw : Int) (syn : Int) : Plaq :=
  let row := syn.fdiv (perRowX dw)
  let offset := syn.fmod (perRowX dw)
  let start := (row - 1) * dw
  let rowParity := row.fmod 2
  if row = 0 then -- First row
    { syn, tl := none, tr := none, bl := some (syn * 2), br := some (syn * 2 + 1) }
  else if row = dh then -- Last row
    { syn, tl := some (start + offset * 2 + 1), tr := some (start + offset * 2 + 2), bl := none, br := none }
  else
    { syn
      tl := some (start + offset * 2 + rowParity)
      tr := some (start + offset * 2 + rowParity + 1)
      bl := some (start + dw + offset * 2 + rowParity)
      br := some (start + dw + offset * 2 + rowParity + 1) }

/-- Body of the Z loop of `_set_geometry`, /repo/qtcodes/circuits/rotated_surface.py:161-178. -/
def geomZ (_dh dw : Int) (syn : Int) : Plaq :=
  let row := syn.fdiv (perRowZ dw)
  let offset := syn.fmod (perRowZ dw)
  let start := row * dw
  let rowParity := row.fmod 2
  let tl := start + offset * 2 - rowParity
  let tr := start + offset * 2 - rowParity + 1
  let bl := start + dw + offset * 2 - rowParity
  let br := start + dw + offset * 2 - rowParity + 1
  if rowParity = 0 ∧ offset = perRowZ dw - 1 then -- Last column
    { syn, tl := some tl, tr := none, bl := some bl, br := none }
  else if rowParity = 1 ∧ offset = 0 then -- First column
    { syn, tl := none, tr := some tr, bl := none, br := some br }
  else
    { syn, tl := some tl, tr := some tr, bl := some bl, br := some br }

/-- `geometry["mx"]`, /repo/qtcodes/circuits/rotated_surface.py:126,139-159. -/
def geometryX (dh dw : Int) : List Plaq := (pyRange (numSynX dh dw)).map (geomX dh dw)

/-- `geometry["mz"]`, /repo/qtcodes/circuits/rotated_surface.py:126,161-178. -/
def geometryZ (dh dw : Int) : List Plaq := (pyRange (numSynZ dh dw)).map (geomZ dh dw)

end Qtc
