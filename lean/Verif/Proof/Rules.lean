import Verif.Proof.Certificate
/-!
Rules that decide from the hits whether the measured value is flipped.
-/
namespace Qtc
open Spec Finset

theorem bit_inj {b c : Bool} {n m : Nat} : Nat.bit b n = Nat.bit c m ↔ b = c ∧ n = m := by
  cases b <;> cases c <;> simp [Nat.bit] <;> omega

theorem bit_xor_one (b : Bool) (n : Nat) : Nat.bit b n ^^^ 1 = Nat.bit (!b) n := by
  refine Nat.eq_of_testBit_eq fun k => ?_
  rw [Nat.testBit_xor]
  cases k with
  | zero => simp
  | succ k =>
    have : (1 : Nat).testBit (k + 1) = false := by
      have := Nat.testBit_bit_succ k true 0
      rw [Nat.zero_testBit] at this
      exact this
    rw [Nat.testBit_bit_succ, Nat.testBit_bit_succ, this, Bool.xor_false]

theorem sig_cons (ro : Nat → Bool) (sites : List (Nat → Bool)) (F : Finset Nat) :
    sig (ro :: sites) F = Nat.bit (parity F ro) (sig sites F) := rfl

/-- By how much the probability of a wrong value grows if the rule `x` is replaced by the rule `y`. -/
theorem rule_diff (ro : Nat → Bool) (sites : List (Nat → Bool)) (S : Finset Nat) (f : Nat → ℝ) (x y : Nat → Bool) :
    (∑ F ∈ S.powerset, if (parity F ro ^^ y (sig sites F)) = true then f #F else 0) -
      (∑ F ∈ S.powerset, if (parity F ro ^^ x (sig sites F)) = true then f #F else 0) =
    ∑ h ∈ S.powerset.image (sig sites), if y h = x h then 0 else
      (∑ F ∈ S.powerset, if sig (ro :: sites) F = Nat.bit (x h) h then f #F else 0) -
        ∑ F ∈ S.powerset, if sig (ro :: sites) F = Nat.bit (x h) h ^^^ 1 then f #F else 0 := by
  rw [← sum_sub_distrib, ← sum_fiberwise_of_maps_to (t := S.powerset.image (sig sites)) (g := sig sites) fun F hF => mem_image_of_mem _ hF]
  refine sum_congr rfl fun h _ => ?_
  split
  · rename_i he
    refine sum_eq_zero fun F hF => ?_
    rw [(mem_filter.1 hF).2, he, sub_self]
  · rename_i he
    rw [sum_filter, ← sum_sub_distrib]
    refine sum_congr rfl fun F _ => ?_
    rw [sig_cons, bit_xor_one]
    simp only [bit_inj]
    by_cases hF : sig sites F = h
    · rw [if_pos hF, hF]
      revert he
      cases y h <;> cases x h <;> cases parity F ro <;> simp
    · simp [hF]

theorem mass_eq {checks : List (Nat → Bool)} {n : Nat} {p : ℝ} (s : Nat) :
    (∑ F ∈ (range n).powerset, if sig checks F = s then p ^ #F * (1 - p) ^ (n - #F) else 0) = mass ((List.range n).map (col checks)) p s := by
  have := sum_by_size checks (List.range n) List.nodup_range s fun k => p ^ k * (1 - p) ^ (n - k)
  rw [List.toFinset_range, List.length_range] at this
  rw [this]
  unfold mass
  rw [List.length_map, List.length_range]

theorem plain_ne_zero {checks : List (Nat → Bool)} {n : Nat} (s k : Nat) :
    plain ((List.range n).map (col checks)) s k ≠ 0 ↔ ∃ F ⊆ range n, sig checks F = s ∧ #F = k := by
  by_cases hk : k ≤ n
  · have := sum_by_size checks (List.range n) List.nodup_range s fun j => if j = k then 1 else 0
    rw [List.toFinset_range, List.length_range, sum_eq_single k (fun j _ h => by rw [if_neg h, mul_zero])
      (fun h => absurd (mem_range.2 (by omega)) h), if_pos rfl, mul_one] at this
    constructor
    · intro h
      by_contra hno
      push Not at hno
      refine h ?_
      have h0 : ∑ F ∈ (range n).powerset, (if sig checks F = s then (if #F = k then (1 : ℝ) else 0) else 0) = 0 := by
        refine sum_eq_zero fun F hF => ?_
        by_cases h1 : sig checks F = s
        · rw [if_pos h1, if_neg (hno F (mem_powerset.1 hF) h1)]
        · rw [if_neg h1]
      rw [h0] at this
      exact_mod_cast this.symm
    · rintro ⟨F, h1, h2, h3⟩ h
      rw [h, Nat.cast_zero] at this
      have hpos : ∀ F ∈ (range n).powerset, (0 : ℝ) ≤ if sig checks F = s then (if #F = k then (1 : ℝ) else 0) else 0 := by
        intro F _
        split
        · split <;> norm_num
        · norm_num
      have := (sum_eq_zero_iff_of_nonneg hpos).1 this F (mem_powerset.2 h1)
      rw [if_pos h2, if_pos h3] at this
      norm_num at this
  · constructor
    · intro h
      exact absurd (plain_large _ _ _ (by rw [List.length_map, List.length_range]; omega)) h
    · rintro ⟨F, h1, h2, h3⟩
      have := card_le_card h1
      rw [card_range] at this
      omega

end Qtc
