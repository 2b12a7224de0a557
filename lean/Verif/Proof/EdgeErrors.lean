import Verif.Proof.OneStep
import Verif.Proof.Union
/-!
The probability that an odd number of independent errors occur among some places.
-/
namespace Qtc
open Spec Finset

/-- The chance that an odd number of independent errors hit the places with `c`. -/
theorem independent_parity (q : Nat → ℝ) (c : Nat → Bool) (S : Finset Nat) :
    independent S q (fun F => parity F c = true) = (1 - ∏ i ∈ S.filter (c · = true), (1 - 2 * q i)) / 2 ∧
      independent S q (fun F => ¬ parity F c = true) = (1 + ∏ i ∈ S.filter (c · = true), (1 - 2 * q i)) / 2 := by
  induction S using Finset.induction_on with
  | empty =>
    unfold independent
    simp [parity_empty]
  | insert a S ha ih =>
    have hp : ∀ F, F ⊆ S → parity (insert a F) c = (parity F c ^^ c a) := fun F hF => parity_insert (fun h => ha (hF h)) c
    rw [independent_insert ha, independent_insert ha, filter_insert]
    cases hc : c a
    · rw [independent_congr (bad := fun F => parity (insert a F) c = true) (bad' := fun F => parity F c = true) fun F hF => by
        rw [hp F hF, hc, Bool.xor_false], independent_congr (bad := fun F => ¬ parity (insert a F) c = true) (bad' := fun F => ¬ parity F c = true) fun F hF => by
        rw [hp F hF, hc, Bool.xor_false], ih.1, ih.2, if_neg (by simp)]
      constructor <;> ring
    · rw [independent_congr (bad := fun F => parity (insert a F) c = true) (bad' := fun F => ¬ parity F c = true) fun F hF => by
        rw [hp F hF, hc, Bool.xor_true, Bool.not_eq_true', Bool.not_eq_true], independent_congr (bad := fun F => ¬ parity (insert a F) c = true)
        (bad' := fun F => parity F c = true) fun F hF => by
        rw [hp F hF, hc, Bool.xor_true, Bool.not_eq_true', Bool.not_eq_false], ih.1, ih.2, if_pos rfl, prod_insert (fun h => ha (mem_filter.1 h).1)]
      constructor <;> ring

theorem card_row {dh dw : Int} (h : 0 < dh) (hw : 0 < dw) : ((range (numData dh dw)).filter (valueCheck .Z dw · = true)).card = dw.toNat := by
  have e : (range (numData dh dw)).filter (valueCheck .Z dw · = true) = range dw.toNat := by
    ext i
    simp only [mem_filter, mem_range, valueCheck, flipFault, Fault.flipsReadout, beq_iff_eq, numData]
    constructor
    · rintro ⟨-, h2⟩
      have := (Int.ediv_eq_iff_of_pos hw).1 h2
      omega
    · intro hi
      have h1 : dw ≤ dh * dw := by nlinarith
      exact ⟨by omega, Int.ediv_eq_zero_of_lt (by omega) (by omega)⟩
  rw [e, card_range]

theorem card_column {dh dw : Int} (h : 0 < dh) (hw : 0 < dw) : ((range (numData dh dw)).filter (valueCheck .X dw · = true)).card = dh.toNat := by
  have e : (range (numData dh dw)).filter (valueCheck .X dw · = true) = (range dh.toNat).image (· * dw.toNat) := by
    ext i
    simp only [mem_filter, mem_range, mem_image, valueCheck, flipFault, Fault.flipsReadout, beq_iff_eq, numData]
    obtain ⟨a, rfl⟩ := Int.eq_ofNat_of_zero_le h.le
    obtain ⟨b, rfl⟩ := Int.eq_ofNat_of_zero_le hw.le
    rw [Int.toNat_natCast, Int.toNat_natCast, ← Nat.cast_mul, Int.toNat_natCast]
    have hb : 0 < b := by omega
    constructor
    · rintro ⟨h1, h2⟩
      have h3 : i % b = 0 := by exact_mod_cast h2
      have h4 := Nat.div_mul_cancel (Nat.dvd_of_mod_eq_zero h3)
      exact ⟨i / b, (Nat.div_lt_iff_lt_mul hb).2 h1, h4⟩
    · rintro ⟨k, hk, rfl⟩
      refine ⟨Nat.mul_lt_mul_of_pos_right hk hb, ?_⟩
      push_cast
      exact Int.mul_emod_left _ _
  rw [e, card_image_of_injective _ fun x y hxy => Nat.eq_of_mul_eq_mul_right (by omega) hxy, card_range]

end Qtc
