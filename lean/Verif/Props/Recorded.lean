import Verif.Props.Pairing
import Verif.Model.LookUp
/-!
Outputs recorded in the tutorials of the repository (/repo/tutorials), against the model. A matching the tutorials show for a graph without
error probability must be a cheapest one, as C112 says; results of parsing and of the look-up table must come out as printed.
Coordinates are doubled, as everywhere in the model.
-/
namespace Qtc
open Spec

/-- The recorded matches cover exactly the recorded hits and cost as little as possible. -/
def recordedOk (key : Key) (dh dw : Int) (L : List Node) (M : List (Node × Node)) : Bool :=
  decide ((ends (splitOf M).1 ++ (splitOf M).2).Perm L) && (M.map fun p => faultsBetween key dh dw p.1 p.2).sum == leastCost key dh dw L

/-- What `recordedOk` checks: the recorded matches are a cheapest split in the sense of C112. -/
theorem C112_recorded (key : Key) (dh dw T : Int) (H : Long key dh dw) (hT : 0 < T) (L : List Node) (M : List (Node × Node))
    (hg : ∀ n ∈ ends M, GNode key dh dw T n) (hv : ∀ p ∈ M, ¬ (p.1.t = -1 ∧ p.2.t = -1)) (h : recordedOk key dh dw L M = true) :
    Cheapest key dh dw L (splitOf M).1 (splitOf M).2 := by
  unfold recordedOk at h
  rw [Bool.and_eq_true, decide_eq_true_iff, beq_iff_eq] at h
  refine cheapest_iff.2 ⟨h.1, le_antisymm ?_ (leastCost_le h.1)⟩
  rw [← h.2]
  refine (splitOf_cost H hT M hg hv).1.trans (le_of_eq ?_)
  unfold totalDist
  congr 1
  apply List.map_congr_left
  intro p hp
  exact pdist_eq H hT (hg _ (mem_ends.2 ⟨p, hp, Or.inl rfl⟩)) (hg _ (mem_ends.2 ⟨p, hp, Or.inr rfl⟩))

/-! ### Matchings, tutorials/rep/2-fitters.ipynb -/

-- d = 5, T = 1
example : recordedOk .Z 5 1 [⟨0, 1, 1⟩, ⟨0, 3, -1⟩, ⟨0, 7, -1⟩] [(⟨0, 1, 1⟩, ⟨0, 3, -1⟩), (⟨0, 7, -1⟩, ⟨-1, 9, 1⟩)] = true := by decide +kernel

-- d = 5, T = 3
example : recordedOk .Z 5 1 [⟨0, 1, 1⟩, ⟨0, 5, 1⟩, ⟨1, 3, -1⟩, ⟨2, 3, -1⟩, ⟨2, 5, 1⟩, ⟨2, 7, -1⟩]
    [(⟨0, 5, 1⟩, ⟨0, 1, 1⟩), (⟨2, 3, -1⟩, ⟨1, 3, -1⟩), (⟨2, 7, -1⟩, ⟨2, 5, 1⟩)] = true := by decide +kernel

/-! ### Matchings, tutorials/xxzz/2-fitters.ipynb -/

-- d = 5, T = 1
example : recordedOk .X 5 5 [⟨0, 3, 1⟩, ⟨0, 1, 3⟩] [(⟨0, 3, 1⟩, ⟨0, 1, 3⟩)] = true := by decide +kernel
example : recordedOk .Z 5 5 [⟨0, 1, 1⟩, ⟨0, 3, 3⟩, ⟨0, 3, 7⟩, ⟨0, 7, 7⟩] [(⟨0, 1, 1⟩, ⟨0, 3, 3⟩), (⟨0, 3, 7⟩, ⟨0, 7, 7⟩)] = true := by
  decide +kernel

-- d = 9, T = 1, and the same hits on a lattice of 9 by 7
example : recordedOk .Z 9 9 [⟨0, 1, 1⟩, ⟨0, 1, 5⟩, ⟨0, 5, 9⟩, ⟨0, 9, 9⟩, ⟨0, 13, 13⟩]
    [(⟨0, 5, 9⟩, ⟨0, 1, 5⟩), (⟨0, 9, 9⟩, ⟨0, 13, 13⟩), (⟨0, 1, 1⟩, ⟨-1, -1, -1⟩)] = true := by decide +kernel
example : recordedOk .Z 9 7 [⟨0, 1, 1⟩, ⟨0, 1, 5⟩, ⟨0, 5, 9⟩, ⟨0, 9, 9⟩, ⟨0, 13, 13⟩]
    [(⟨0, 1, 5⟩, ⟨0, 5, 9⟩), (⟨0, 13, 13⟩, ⟨0, 9, 9⟩), (⟨-1, -1, -1⟩, ⟨0, 1, 1⟩)] = true := by decide +kernel

-- the matches recorded for p = 0.1 on the first of these are not a cheapest split: with a probability the weights are others (C36)
example : recordedOk .Z 9 9 [⟨0, 1, 1⟩, ⟨0, 1, 5⟩, ⟨0, 5, 9⟩, ⟨0, 9, 9⟩, ⟨0, 13, 13⟩]
    [(⟨0, 1, 1⟩, ⟨0, 1, 5⟩), (⟨0, 13, 13⟩, ⟨-1, 17, 9⟩), (⟨0, 9, 9⟩, ⟨0, 5, 9⟩)] = false := by decide +kernel

-- d = 5, T = 3
example : recordedOk .X 5 5 [⟨0, 3, 1⟩, ⟨0, 1, 3⟩, ⟨1, 3, 1⟩, ⟨1, 1, 3⟩, ⟨2, 3, 1⟩, ⟨2, 1, 3⟩]
    [(⟨1, 3, 1⟩, ⟨2, 3, 1⟩), (⟨2, 1, 3⟩, ⟨1, 1, 3⟩), (⟨0, 1, 3⟩, ⟨0, 3, 1⟩)] = true := by decide +kernel
example : recordedOk .Z 5 5 [⟨0, 1, 1⟩, ⟨0, 3, 3⟩, ⟨0, 3, 7⟩, ⟨0, 7, 7⟩, ⟨2, 3, 7⟩, ⟨2, 7, 7⟩]
    [(⟨0, 3, 7⟩, ⟨2, 3, 7⟩), (⟨0, 3, 3⟩, ⟨0, 1, 1⟩), (⟨0, 7, 7⟩, ⟨2, 7, 7⟩)] = true := by decide +kernel

-- d = 9, T = 3
example : recordedOk .Z 9 9 [⟨0, 1, 1⟩, ⟨0, 3, 3⟩, ⟨1, 3, 7⟩, ⟨1, 7, 7⟩, ⟨2, 9, 9⟩, ⟨2, 9, 13⟩]
    [(⟨2, 9, 13⟩, ⟨2, 9, 9⟩), (⟨0, 3, 3⟩, ⟨0, 1, 1⟩), (⟨1, 7, 7⟩, ⟨1, 3, 7⟩)] = true := by decide +kernel
example : recordedOk .X 9 9 [⟨1, 3, 1⟩, ⟨1, 1, 3⟩, ⟨2, 3, 13⟩, ⟨2, 5, 11⟩, ⟨0, 11, 1⟩, ⟨0, 13, 7⟩]
    [(⟨1, 3, 1⟩, ⟨1, 1, 3⟩), (⟨0, 11, 1⟩, ⟨0, 13, 7⟩), (⟨2, 5, 11⟩, ⟨2, 3, 13⟩)] = true := by decide +kernel

/-! ### Parsing, tutorials/rep/1-circuits.ipynb and tutorials/xxzz/1-circuits.ipynb -/

example : parseReadout 3 1 "0 01 00".toList .Z = .ok (0, { X := [], Z := [⟨0, 1, 1⟩] }) := by decide +kernel
example : parseReadout 3 1 "000 01 00".toList .Z = .ok (0, { X := [], Z := [⟨0, 1, 1⟩, ⟨1, 1, 1⟩] }) := by decide +kernel
example : parseReadout 5 5 "0 001010111000000000110101 001010111000000000000000".toList .Z =
    .ok (0, { X := [], Z := [⟨0, 1, 1⟩, ⟨0, 1, 9⟩, ⟨0, 3, 3⟩, ⟨0, 3, 7⟩] }) := by decide +kernel

/-! ### Look-up table, tutorials/rep/2-fitters-lookup.ipynb -/

def recorded0 : Counts := [("1 11 00".toList, 32), ("0 01 00".toList, 20), ("1 10 00".toList, 25), ("0 10 00".toList, 453),
  ("0 11 00".toList, 411), ("1 01 00".toList, 458), ("0 00 00".toList, 8601)]
def recorded1 : Counts := [("0 10 00".toList, 24), ("0 11 00".toList, 18), ("1 10 00".toList, 437), ("1 01 00".toList, 13),
  ("1 11 00".toList, 505), ("0 01 00".toList, 433), ("1 00 00".toList, 8570)]

-- printed: [0.9723991507430997, 0.02760084925690021] and 0
example : let h : CountsHeap := fun r => if r = 0 then recorded0 else recorded1
    ∃ L, (LookUp.reset.set h ['Z'] 0 0 >>= fun L => L.set h ['Z'] 1 1) = .ok L ∧
      L.run h "1 01 00".toList ['Z'] none = .ok (458 / 471, 13 / 471) ∧ L.correct h "1 01 00".toList ['Z'] = .ok 0 ∧
      |(458 / 471 : ℚ) - 0.9723991507430997| < 1 / 10 ^ 15 := by
  refine ⟨_, rfl, ?_, ?_, ?_⟩ <;> decide +kernel

end Qtc
