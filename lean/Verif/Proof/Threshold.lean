import Mathlib.Algebra.BigOperators.Group.Finset.Powerset
import Mathlib.Algebra.BigOperators.Ring.Finset
import Mathlib.Algebra.Order.BigOperators.Group.Finset
import Mathlib.Data.Nat.Choose.Sum
import Mathlib.Tactic.Ring
import Mathlib.Tactic.Linarith
import Mathlib.Tactic.Positivity
import Verif.Spec.Threshold
/-!
The probability that more than half of the qubits are flipped.
-/
namespace Qtc
open Spec Finset

theorem flipProb_congr {n : Nat} {p : ℝ} {bad bad' : Finset Nat → Prop} (h : ∀ F, F ⊆ range n → (bad F ↔ bad' F)) :
    flipProb n p bad = flipProb n p bad' := by
  unfold flipProb
  refine sum_congr rfl fun F hF => ?_
  have := h F (mem_powerset.1 hF)
  by_cases hb : bad F
  · rw [if_pos hb, if_pos (this.1 hb)]
  · rw [if_neg hb, if_neg fun h => hb (this.2 h)]

/-- At least `m` flips among `n` qubits. -/
noncomputable def flipTail (n m : Nat) (p : ℝ) : ℝ := flipProb n p fun F => m ≤ F.card

theorem flipTail_eq (n m : Nat) (p : ℝ) :
    flipTail n m p = ∑ F ∈ (range n).powerset, if m ≤ F.card then p ^ F.card * (1 - p) ^ (n - F.card) else 0 := by
  unfold flipTail flipProb
  refine sum_congr rfl fun F _ => ?_
  by_cases h : m ≤ F.card
  · rw [if_pos h, if_pos h]
  · rw [if_neg h, if_neg h]

theorem flipTail_zero (n : Nat) (p : ℝ) : flipTail n 0 p = 1 := by
  simp only [flipTail_eq]
  have h : ∑ F ∈ (range n).powerset, p ^ F.card * (1 - p) ^ ((range n).card - F.card) = (p + (1 - p)) ^ (range n).card :=
    sum_pow_mul_eq_add_pow p (1 - p) (range n)
  rw [card_range] at h
  simp only [Nat.zero_le, if_true]
  rw [h]
  simp

theorem flipTail_none (m : Nat) (p : ℝ) : flipTail 0 (m + 1) p = 0 := by
  simp only [flipTail_eq]
  simp

theorem flipTail_succ (n m : Nat) (p : ℝ) : flipTail (n + 1) (m + 1) p = (1 - p) * flipTail n (m + 1) p + p * flipTail n m p := by
  simp only [flipTail_eq]
  rw [range_add_one, sum_powerset_insert notMem_range_self, mul_sum, mul_sum]
  congr 1
  · refine sum_congr rfl fun F hF => ?_
    have hc : F.card ≤ n := by
      have := card_le_card (mem_powerset.1 hF)
      rwa [card_range] at this
    by_cases h : m + 1 ≤ F.card
    · rw [if_pos h, if_pos h, Nat.succ_sub hc, pow_succ]
      ring
    · rw [if_neg h, if_neg h, mul_zero]
  · refine sum_congr rfl fun F hF => ?_
    have hc : F.card ≤ n := by
      have := card_le_card (mem_powerset.1 hF)
      rwa [card_range] at this
    have hi : (insert n F).card = F.card + 1 :=
      card_insert_of_notMem fun h => notMem_range_self (mem_powerset.1 hF h)
    rw [hi]
    by_cases h : m ≤ F.card
    · rw [if_pos h, if_pos (by omega), Nat.add_sub_add_right, pow_succ]
      ring
    · rw [if_neg h, if_neg (by omega), mul_zero]

theorem flipTail_step (n m : Nat) (p : ℝ) : flipTail n m p = flipTail n (m + 1) p + n.choose m * p ^ m * (1 - p) ^ (n - m) := by
  simp only [flipTail_eq]
  have hs : ∀ F : Finset Nat, (if m ≤ F.card then p ^ F.card * (1 - p) ^ (n - F.card) else 0) =
      (if m + 1 ≤ F.card then p ^ F.card * (1 - p) ^ (n - F.card) else 0) + if F.card = m then p ^ m * (1 - p) ^ (n - m) else 0 := by
    intro F
    rcases lt_trichotomy F.card m with h | h | h
    · rw [if_neg (by omega), if_neg (by omega), if_neg (by omega), add_zero]
    · rw [if_pos (by omega), if_neg (by omega), if_pos h, zero_add, h]
    · rw [if_pos (by omega), if_pos (by omega), if_neg (by omega), add_zero]
  simp only [hs]
  rw [sum_add_distrib]
  congr 1
  rw [← sum_filter, sum_const, ← powersetCard_eq_filter, card_powersetCard, card_range, nsmul_eq_mul, mul_assoc]

theorem flipTail_closed (n m : Nat) (p : ℝ) :
    flipTail n m p = ∑ k ∈ (range (n + 1)).filter (m ≤ ·), (n.choose k : ℝ) * p ^ k * (1 - p) ^ (n - k) := by
  simp only [flipTail_eq]
  have h := sum_powerset_apply_card (fun k => if m ≤ k then p ^ k * (1 - p) ^ (n - k) else 0) (x := range n)
  rw [card_range] at h
  rw [h, sum_filter]
  refine sum_congr rfl fun k _ => ?_
  split
  · rw [nsmul_eq_mul, mul_assoc]
  · rw [nsmul_zero]

/-- Two more qubits: the exact change of the probability that most of them are flipped. -/
theorem majority_step (n : Nat) (p : ℝ) :
    flipTail (2 * n + 3) (n + 2) p = flipTail (2 * n + 1) (n + 1) p - ((2 * n + 1).choose n) * (p * (1 - p)) ^ (n + 1) * (1 - 2 * p) := by
  have e1 := flipTail_succ (2 * n + 2) (n + 1) p
  have e2 := flipTail_succ (2 * n + 1) (n + 1) p
  have e3 := flipTail_succ (2 * n + 1) n p
  have s1 := flipTail_step (2 * n + 1) (n + 1) p
  have s2 := flipTail_step (2 * n + 1) n p
  have hsym : (2 * n + 1).choose (n + 1) = (2 * n + 1).choose n := by
    rw [← Nat.choose_symm (by omega : n + 1 ≤ 2 * n + 1)]
    congr 1
    omega
  rw [hsym, show 2 * n + 1 - (n + 1) = n by omega] at s1
  rw [show 2 * n + 1 - n = n + 1 by omega] at s2
  have h1 : flipTail (2 * n + 1) (n + 2) p = flipTail (2 * n + 1) (n + 1) p - ((2 * n + 1).choose n) * p ^ (n + 1) * (1 - p) ^ n := by
    linarith
  rw [e1, e2, e3, h1, s2]
  rw [mul_pow, pow_succ p n, pow_succ (1 - p) n]
  ring

theorem majority_half (n : Nat) : flipTail (2 * n + 1) (n + 1) (1 / 2) = 1 / 2 := by
  induction n with
  | zero =>
    rw [flipTail_succ, flipTail_none, flipTail_zero]
    norm_num
  | succ n ih =>
    have := majority_step n (1 / 2)
    rw [ih] at this
    rw [show 2 * (n + 1) + 1 = 2 * n + 3 by omega, this]
    norm_num

theorem majority_step_lt {n : Nat} {p : ℝ} (h0 : 0 < p) (h1 : p < 1 / 2) :
    flipTail (2 * n + 3) (n + 2) p < flipTail (2 * n + 1) (n + 1) p := by
  rw [majority_step]
  have : 0 < ((2 * n + 1).choose n : ℝ) := by exact_mod_cast Nat.choose_pos (by omega)
  have h2 : 0 < p * (1 - p) := mul_pos h0 (by linarith)
  have := mul_pos (mul_pos this (pow_pos h2 (n + 1))) (by linarith : 0 < 1 - 2 * p)
  linarith

theorem majority_step_gt {n : Nat} {p : ℝ} (h0 : 1 / 2 < p) (h1 : p < 1) :
    flipTail (2 * n + 1) (n + 1) p < flipTail (2 * n + 3) (n + 2) p := by
  rw [majority_step]
  have : 0 < ((2 * n + 1).choose n : ℝ) := by exact_mod_cast Nat.choose_pos (by omega)
  have h2 : 0 < p * (1 - p) := mul_pos (by linarith) (by linarith)
  have := mul_pos (mul_pos this (pow_pos h2 (n + 1))) (by linarith : 0 < 2 * p - 1)
  linarith

theorem majority_lt {p : ℝ} (h0 : 0 < p) (h1 : p < 1 / 2) {n n' : Nat} (h : n < n') :
    flipTail (2 * n' + 1) (n' + 1) p < flipTail (2 * n + 1) (n + 1) p := by
  obtain ⟨k, rfl⟩ := Nat.exists_eq_add_of_lt h
  clear h
  induction k with
  | zero => exact majority_step_lt h0 h1
  | succ k ih => exact (majority_step_lt h0 h1).trans ih

theorem majority_gt {p : ℝ} (h0 : 1 / 2 < p) (h1 : p < 1) {n n' : Nat} (h : n < n') :
    flipTail (2 * n + 1) (n + 1) p < flipTail (2 * n' + 1) (n' + 1) p := by
  obtain ⟨k, rfl⟩ := Nat.exists_eq_add_of_lt h
  clear h
  induction k with
  | zero => exact majority_step_gt h0 h1
  | succ k ih => exact ih.trans (majority_step_gt h0 h1)

/-- Exponential suppression below one half. -/
theorem majority_bound {p : ℝ} (h0 : 0 ≤ p) (h1 : p ≤ 1 / 2) (n : Nat) : flipTail (2 * n + 1) (n + 1) p ≤ 2 * p * (4 * (p * (1 - p))) ^ n := by
  simp only [flipTail_eq]
  have hb : ∀ F ∈ (range (2 * n + 1)).powerset, (if n + 1 ≤ F.card then p ^ F.card * (1 - p) ^ (2 * n + 1 - F.card) else 0) ≤
      p ^ (n + 1) * (1 - p) ^ n := by
    intro F hF
    have hc : F.card ≤ 2 * n + 1 := by
      have := card_le_card (mem_powerset.1 hF)
      rwa [card_range] at this
    split
    · rename_i h
      obtain ⟨k, hk⟩ := Nat.exists_eq_add_of_le h
      rw [hk, pow_add, show n = (2 * n + 1 - (n + 1 + k)) + k by omega, mul_assoc]
      have e : 2 * n + 1 - (n + 1 + k) = n - k := by omega
      rw [show (2 * n + 1 - (n + 1 + k)) + k = n by omega]
      rw [e]
      refine mul_le_mul_of_nonneg_left ?_ (pow_nonneg h0 _)
      have hn : (1 - p) ^ n = (1 - p) ^ k * (1 - p) ^ (n - k) := by
        rw [← pow_add]
        congr 1
        omega
      rw [hn]
      exact mul_le_mul_of_nonneg_right (pow_le_pow_left₀ h0 (by linarith) k) (pow_nonneg (by linarith) _)
    · exact mul_nonneg (pow_nonneg h0 _) (pow_nonneg (by linarith) _)
  refine (sum_le_card_nsmul _ _ _ hb).trans (le_of_eq ?_)
  rw [card_powerset, card_range, nsmul_eq_mul]
  push_cast
  rw [pow_succ, pow_mul, mul_pow, mul_pow]
  norm_num
  ring

end Qtc
