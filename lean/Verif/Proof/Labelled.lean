import Mathlib.Analysis.SpecialFunctions.Pow.Real
import Verif.Proof.Union
/-!
The union bound for walks some steps of which are errors.
-/
namespace Qtc
open Spec Finset

variable {ι : Type} [DecidableEq ι] {S : Finset ι} {q : ι → ℝ} {p : ℝ}

/-- Errors at all places of a list. -/
theorem all_prob (h1 : p ≤ 1) (hq : ∀ i ∈ S, 0 ≤ q i ∧ q i ≤ p) {l : List ι} (hn : l.Nodup) (hl : ∀ i ∈ l, i ∈ S) :
    independent S q (fun F => ∀ i ∈ l, i ∈ F) ≤ p ^ l.length := by
  let b : ι → ℝ := fun i => if i ∈ l then 0 else 1
  have hb : ∀ i, 0 ≤ b i := fun i => by simp only [b]; split <;> norm_num
  have hle1 : independent S q (fun F => ∀ i ∈ l, i ∈ F) ≤ ∑ F ∈ S.powerset, (∏ i ∈ F, q i) * ∏ i ∈ S \ F, ((1 - q i) * b i) := by
    unfold independent
    refine sum_le_sum fun F hF => ?_
    have hFS := mem_powerset.1 hF
    have hw := weight_nonneg (q := q) (fun i hi => ⟨(hq i hi).1, by linarith [(hq i hi).2]⟩) hFS
    rw [prod_mul_distrib, ← mul_assoc]
    have hb' : 0 ≤ ∏ i ∈ S \ F, b i := prod_nonneg fun i _ => hb i
    by_cases h : ∀ i ∈ l, i ∈ F
    · rw [if_pos h]
      have hone : ∏ i ∈ S \ F, b i = 1 := by
        refine prod_eq_one fun i hi => ?_
        simp only [b]
        rw [if_neg fun hil => (mem_sdiff.1 hi).2 (h i hil)]
      have h2 : (∏ i ∈ F, q i) * ∏ i ∈ S \ F, (1 - q i) ≤ (∏ i ∈ F, q i) * (∏ i ∈ S \ F, (1 - q i)) * ∏ i ∈ S \ F, b i := by
        rw [hone, mul_one]
      convert h2
    · rw [if_neg h]
      exact mul_nonneg hw hb'
  refine hle1.trans ?_
  rw [← prod_add]
  have h3 : ∀ i ∈ S, q i + (1 - q i) * b i ≤ if i ∈ l then p else 1 := by
    intro i hi
    simp only [b]
    split
    · have := (hq i hi).2
      linarith
    · linarith
  refine (prod_le_prod (fun i hi => ?_) h3).trans (le_of_eq ?_)
  · have := hq i hi
    exact add_nonneg this.1 (mul_nonneg (by linarith) (hb i))
  · rw [prod_ite, prod_const, prod_const_one, mul_one]
    congr 1
    rw [← List.toFinset_card_of_nodup hn]
    congr 1
    ext i
    simp only [mem_filter, List.mem_toFinset]
    exact ⟨fun h => h.2, fun h => ⟨hl i h, h⟩⟩

/-- The errors of a walk. -/
def errsOf (l : List (Bool × ι)) : List ι := (l.filter fun w => w.1 == false).map Prod.snd

omit [DecidableEq ι] in
theorem errsOf_map {κ : Type} (f : ι → κ) (l : List (Bool × ι)) : errsOf (l.map fun w => (w.1, f w.2)) = (errsOf l).map f := by
  unfold errsOf
  rw [List.filter_map, List.map_map, List.map_map]
  rfl

theorem share_pow (h0 : 0 < p) (h1 : p ≤ 1) {n e : Nat} (h : 5 * n ≤ 12 * e) : p ^ e ≤ (p ^ (5 / 12 : ℝ)) ^ n := by
  rw [← Real.rpow_natCast, ← Real.rpow_natCast, ← Real.rpow_mul h0.le]
  refine Real.rpow_le_rpow_of_exponent_ge h0 h1 ?_
  have : (5 : ℝ) * n ≤ 12 * e := by exact_mod_cast h
  linarith

/-- If errors are only bad if at least 5/12 of the steps of some long walk are different errors that have occurred, and there are not too many
walks, then errors are rarely bad. -/
theorem walks_prob (h0 : 0 < p) (h1 : p ≤ 1) (hq : ∀ i ∈ S, 0 ≤ q i ∧ q i ≤ p) {C : Nat → List (List (Bool × ι))} {A m d : Nat}
    (hm : 0 < m) (hC : ∀ k, (C k).length ≤ A * m ^ k) (hx : m * p ^ (5 / 12 : ℝ) < 1) {bad : Finset ι → Prop}
    (h : ∀ F, F ⊆ S → bad F → ∃ k, d ≤ k + 1 ∧ ∃ l ∈ C k, l.length = k + 1 ∧ (errsOf l).Nodup ∧ (∀ i ∈ errsOf l, i ∈ S) ∧
      5 * l.length ≤ 12 * (errsOf l).length ∧ ∀ i ∈ errsOf l, i ∈ F) :
    independent S q bad ≤ A / m * ((m * p ^ (5 / 12 : ℝ)) ^ d / (1 - m * p ^ (5 / 12 : ℝ))) := by
  have hshare : ∀ {n e : Nat}, 5 * n ≤ 12 * e → p ^ e ≤ (p ^ (5 / 12 : ℝ)) ^ n := share_pow h0 h1
  have hy0 : 0 ≤ p ^ (5 / 12 : ℝ) := Real.rpow_nonneg h0.le _
  generalize p ^ (5 / 12 : ℝ) = y at *
  have hq1 : ∀ i ∈ S, 0 ≤ q i ∧ q i ≤ 1 := fun i hi => ⟨(hq i hi).1, by linarith [(hq i hi).2]⟩
  have hm0 : (0 : ℝ) < m := by exact_mod_cast hm
  have hx0 : 0 ≤ m * y := by positivity
  let good : Nat → List (Bool × ι) → Prop := fun k l => l.length = k + 1 ∧ (errsOf l).Nodup ∧ (∀ i ∈ errsOf l, i ∈ S) ∧
    5 * l.length ≤ 12 * (errsOf l).length
  let ev : Nat → Finset ι → Prop := fun k F => d ≤ k + 1 ∧ ∃ l ∈ C k, good k l ∧ ∀ i ∈ errsOf l, i ∈ F
  have hev : ∀ k, independent S q (ev k) ≤ if d ≤ k + 1 then A / m * (m * y) ^ (k + 1) else 0 := by
    intro k
    by_cases hk : d ≤ k + 1
    · rw [if_pos hk]
      have hl := independent_list (y := y ^ (k + 1)) hq1 (fun (l : List (Bool × ι)) F => good k l ∧ ∀ i ∈ errsOf l, i ∈ F) (C k) (by
          intro l _
          by_cases hc : good k l
          · rw [independent_congr (bad' := fun F => ∀ i ∈ errsOf l, i ∈ F) (fun F _ => ⟨fun h => h.2, fun h => ⟨hc, h⟩⟩)]
            obtain ⟨c1, c2, c3, c4⟩ := hc
            refine (all_prob h1 hq c2 c3).trans ?_
            rw [← c1]
            exact hshare c4
          · rw [independent_congr (bad' := fun _ => False) (fun F _ => ⟨fun h => hc h.1, False.elim⟩), independent_false]
            positivity)
      refine (independent_mono hq1 fun F _ h => h.2).trans (hl.trans ?_)
      have hCk : ((C k).length : ℝ) ≤ A * m ^ k := by exact_mod_cast hC k
      calc ((C k).length : ℝ) * y ^ (k + 1) ≤ A * m ^ k * y ^ (k + 1) := mul_le_mul_of_nonneg_right hCk (by positivity)
        _ = A / m * (m * y) ^ (k + 1) := by
          rw [mul_pow, pow_succ (m : ℝ) k]
          field_simp
    · rw [if_neg hk, independent_congr (bad' := fun _ => False) (fun F _ => ⟨fun h => hk h.1, False.elim⟩), independent_false]
  have hall := independent_range hq1 ev _ hev (3 * S.card)
  have hsub : independent S q bad ≤ independent S q (fun F => ∃ k < 3 * S.card, ev k F) := by
    refine independent_mono hq1 fun F hF hb => ?_
    obtain ⟨k, hk, l, hl, c1, c2, c3, c4, c5⟩ := h F hF hb
    refine ⟨k, ?_, hk, l, hl, ⟨c1, c2, c3, c4⟩, c5⟩
    have : (errsOf l).toFinset ⊆ S := fun i hi => c3 i (List.mem_toFinset.1 hi)
    have := card_le_card this
    rw [List.toFinset_card_of_nodup c2] at this
    omega
  refine hsub.trans (hall.trans ?_)
  have hx1 : 0 < 1 - m * y := by linarith
  have hA : (0 : ℝ) ≤ A / m := by positivity
  have e : ∑ k ∈ range (3 * S.card), (if d ≤ k + 1 then (A : ℝ) / m * (m * y) ^ (k + 1) else 0) =
      A / m * ∑ k ∈ range (3 * S.card), if d ≤ k + 1 then (m * y) ^ (k + 1) else 0 := by
    rw [mul_sum]
    refine sum_congr rfl fun k _ => ?_
    split
    · rfl
    · rw [mul_zero]
  rw [e]
  refine mul_le_mul_of_nonneg_left ?_ hA
  rw [le_div_iff₀ hx1]
  refine (geom_tail hx.le d _).trans ?_
  have := pow_nonneg hx0 (max d (3 * S.card + 1))
  linarith

end Qtc
