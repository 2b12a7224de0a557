import Verif.Model.Py
import Mathlib.Data.Rat.Init
import Mathlib.Algebra.Order.Field.Rat
/-!
Look-up table decoding, `TopologicalDecoder`, /repo/qtcodes/fitters/base.py:114-218.
Simplification: Python floats are exact rationals.
-/
namespace Qtc

/-- A dictionary from readout strings to counts: its items, keys distinct. -/
abbrev Counts := List (Str × Int)

/-- `sum(results.values())`. -/
def Counts.total (c : Counts) : Int := (c.map (·.2)).sum

/-- The caller's dictionaries by reference: `set_look_up_table` stores the dictionary itself, not a copy. -/
abbrev CountsHeap := Nat → Counts

/-- A table entry: the empty dictionary made by `reset_look_up_table`, or a dictionary of the caller. -/
inductive Entry where
  | fresh
  | caller (ref : Nat)
  deriving DecidableEq, Repr

/-- What a table entry holds now. -/
def Entry.content (h : CountsHeap) : Entry → Counts
  | .fresh => []
  | .caller r => h r

/-- `self.look_up_table` and `self.look_up_table_shots`, dictionaries from readout type to dictionaries from value. -/
structure LookUp where
  table : Str → Option (Int → Option Entry)
  shots : Str → Option (Int → Option Int)

/-- `reset_look_up_table`, /repo/qtcodes/fitters/base.py:114-136. -/
def LookUp.reset : LookUp where
  table := fun ty => if ty = ['X'] ∨ ty = ['Z'] then some (fun v => if v = 0 ∨ v = 1 then some .fresh else none) else none
  shots := fun ty => if ty = ['X'] ∨ ty = ['Z'] then some (fun v => if v = 0 ∨ v = 1 then some 0 else none) else none

/-- `set_look_up_table`, /repo/qtcodes/fitters/base.py:138-157. An unknown type raises `KeyError` at the first assignment. -/
def LookUp.set (h : CountsHeap) (L : LookUp) (ty : Str) (v : Int) (results : Nat) : Py LookUp :=
  match L.table ty, L.shots ty with
  | some row, some srow => .ok
      { table := fun t => if t = ty then some (fun w => if w = v then some (.caller results) else row w) else L.table t
        shots := fun t => if t = ty then some (fun w => if w = v then some (h results).total else srow w) else L.shots t }
  | _, _ => .error .keyError

/-- `p_s_given_i[log]`, /repo/qtcodes/fitters/base.py:184-189. -/
def LookUp.freq (h : CountsHeap) (L : LookUp) (s ty : Str) (log : Int) : Py ℚ :=
  match L.table ty, L.shots ty with
  | some row, some srow =>
    match row log with
    | none => .error .keyError
    | some e =>
      match (e.content h).lookup s with
      | none => .ok 0
      | some k =>
        match srow log with
        | none => .error .keyError
        | some n => if n = 0 then .error .zeroDivisionError else .ok ((k : ℚ) / n)
  | _, _ => .error .keyError

/-- `[1.0 / 2, 1.0 / 2] if not p_i else p_i`, /repo/qtcodes/fitters/base.py:192; an empty list is falsy. -/
def prior : Option (List ℚ) → List ℚ
  | none => [1 / 2, 1 / 2]
  | some [] => [1 / 2, 1 / 2]
  | some (a :: l) => a :: l

/-- `_run_look_up`, /repo/qtcodes/fitters/base.py:159-199. -/
def LookUp.run (h : CountsHeap) (L : LookUp) (s ty : Str) (p : Option (List ℚ)) : Py (ℚ × ℚ) := do
  let f0 ← L.freq h s ty 0
  let f1 ← L.freq h s ty 1
  let a ← pyIdx (prior p) 0
  let b ← pyIdx (prior p) 1
  if f0 * a + f1 * b = 0 then .error .zeroDivisionError
  else .ok (f0 * a / (f0 * a + f1 * b), f1 * b / (f0 * a + f1 * b))

/-- `l.index(max(l))` for a list of two numbers, /repo/qtcodes/fitters/base.py:218. -/
def indexMax (l : ℚ × ℚ) : Int := if l.1 = (if l.1 < l.2 then l.2 else l.1) then 0 else 1

/-- `correct_readout_look_up_table`, /repo/qtcodes/fitters/base.py:201-218. -/
def LookUp.correct (h : CountsHeap) (L : LookUp) (s ty : Str) : Py Int := do
  let l ← L.run h s ty none
  return indexMax l

/-- What a user does with the table: set an entry, reset it, or change one of their own dictionaries. -/
inductive LookUpOp where
  | set (ty : Str) (v : Int) (ref : Nat)
  | reset
  | write (ref : Nat) (c : Counts)

/-- One step; a call that raises changes nothing. -/
def lookUpStep : CountsHeap × LookUp → LookUpOp → CountsHeap × LookUp
  | (h, L), .set ty v ref =>
    match L.set h ty v ref with
    | .ok L' => (h, L')
    | .error _ => (h, L)
  | (h, _), .reset => (h, .reset)
  | (h, L), .write ref c => (fun r => if r = ref then c else h r, L)

/-- A history; `__init__` resets the table, /repo/qtcodes/fitters/base.py:24-31. -/
def lookUpRun (h : CountsHeap) (ops : List LookUpOp) : CountsHeap × LookUp := ops.foldl lookUpStep (h, .reset)

end Qtc
