import Mathlib.Algebra.BigOperators.Ring.Finset
import Mathlib.Algebra.BigOperators.Group.Finset.Powerset
import Mathlib.Algebra.Order.BigOperators.Group.Finset
import Mathlib.Algebra.Order.BigOperators.Ring.Finset
import Mathlib.Analysis.Real.Sqrt
import Mathlib.Tactic.Ring
import Mathlib.Tactic.Linarith
import Mathlib.Tactic.Positivity
import Mathlib.Tactic.FieldSimp
import Verif.Spec.Threshold
/-!
Probabilities of independent errors: marginals, the union bound, and errors on half of a chain.
-/
namespace Qtc
open Spec Finset

variable {ι κ : Type} [DecidableEq ι] {S : Finset ι} {q : ι → ℝ} {p : ℝ}

theorem independent_congr {bad bad' : Finset ι → Prop} (h : ∀ F, F ⊆ S → (bad F ↔ bad' F)) : independent S q bad = independent S q bad' := by
  unfold independent
  refine sum_congr rfl fun F hF => ?_
  have := h F (mem_powerset.1 hF)
  by_cases hb : bad F
  · rw [if_pos hb, if_pos (this.1 hb)]
  · rw [if_neg hb, if_neg fun h => hb (this.2 h)]

theorem pauliProb_congr {π : ι → Bool × Bool → ℝ} {bad bad' : Finset ι → Finset ι → Prop}
    (h : ∀ A B, A ⊆ S → B ⊆ S → (bad A B ↔ bad' A B)) : pauliProb S π bad = pauliProb S π bad' := by
  unfold pauliProb
  refine sum_congr rfl fun A hA => sum_congr rfl fun B hB => ?_
  have := h A B (mem_powerset.1 hA) (mem_powerset.1 hB)
  by_cases hb : bad A B
  · rw [if_pos hb, if_pos (this.1 hb)]
  · rw [if_neg hb, if_neg fun h => hb (this.2 h)]

/-- The probability that exactly the places in `F` have errors is not negative. -/
theorem weight_nonneg (hq : ∀ i ∈ S, 0 ≤ q i ∧ q i ≤ 1) {F : Finset ι} (hF : F ⊆ S) :
    0 ≤ (∏ i ∈ F, q i) * ∏ i ∈ S \ F, (1 - q i) :=
  mul_nonneg (prod_nonneg fun i hi => (hq i (hF hi)).1) (prod_nonneg fun i hi => by linarith [(hq i (mem_sdiff.1 hi).1).2])

theorem independent_nonneg (hq : ∀ i ∈ S, 0 ≤ q i ∧ q i ≤ 1) (bad : Finset ι → Prop) : 0 ≤ independent S q bad := by
  classical
  unfold independent
  refine sum_nonneg fun F hF => ?_
  split
  · convert weight_nonneg hq (mem_powerset.1 hF)
  · exact le_rfl

theorem independent_mono (hq : ∀ i ∈ S, 0 ≤ q i ∧ q i ≤ 1) {bad bad' : Finset ι → Prop} (h : ∀ F, F ⊆ S → bad F → bad' F) :
    independent S q bad ≤ independent S q bad' := by
  classical
  unfold independent
  refine sum_le_sum fun F hF => ?_
  have hw := weight_nonneg hq (mem_powerset.1 hF)
  by_cases hb : bad F
  · rw [if_pos hb, if_pos (h F (mem_powerset.1 hF) hb)]
  · rw [if_neg hb]
    split
    · convert hw
    · exact le_rfl

theorem independent_false : independent S q (fun _ => False) = 0 := by
  unfold independent
  exact sum_eq_zero fun F _ => if_neg id

theorem independent_or (hq : ∀ i ∈ S, 0 ≤ q i ∧ q i ≤ 1) (bad bad' : Finset ι → Prop) :
    independent S q (fun F => bad F ∨ bad' F) ≤ independent S q bad + independent S q bad' := by
  classical
  unfold independent
  rw [← sum_add_distrib]
  refine sum_le_sum fun F hF => ?_
  have hw := weight_nonneg hq (mem_powerset.1 hF)
  have hw' : 0 ≤ (∏ i ∈ F, q i) * ∏ i ∈ S \ F, (1 - q i) := by convert hw
  by_cases h1 : bad F <;> by_cases h2 : bad' F
  · rw [if_pos (Or.inl h1), if_pos h1, if_pos h2]; linarith
  · rw [if_pos (Or.inl h1), if_pos h1, if_neg h2, add_zero]
  · rw [if_pos (Or.inr h2), if_neg h1, if_pos h2, zero_add]
  · rw [if_neg (by tauto), if_neg h1, if_neg h2, add_zero]

theorem independent_list (hq : ∀ i ∈ S, 0 ≤ q i ∧ q i ≤ 1) (ev : κ → Finset ι → Prop) {y : ℝ} :
    ∀ (L : List κ), (∀ l ∈ L, independent S q (ev l) ≤ y) → independent S q (fun F => ∃ l ∈ L, ev l F) ≤ L.length * y
  | [], _ => by
    rw [independent_congr (bad' := fun _ => False) (fun F _ => by simp), independent_false]
    simp
  | a :: L, h => by
    have ih := independent_list hq ev L fun l hl => h l (List.mem_cons_of_mem _ hl)
    have ha := h a List.mem_cons_self
    rw [independent_congr (bad' := fun F => ev a F ∨ ∃ l ∈ L, ev l F) (fun F _ => by simp)]
    refine (independent_or hq _ _).trans ?_
    rw [List.length_cons]
    push_cast
    linarith

theorem independent_range (hq : ∀ i ∈ S, 0 ≤ q i ∧ q i ≤ 1) (ev : Nat → Finset ι → Prop) (y : Nat → ℝ) (hy : ∀ k, independent S q (ev k) ≤ y k)
    (n : Nat) : independent S q (fun F => ∃ k < n, ev k F) ≤ ∑ k ∈ range n, y k := by
  induction n with
  | zero =>
    rw [independent_congr (bad' := fun _ => False) (fun F _ => by simp), independent_false]
    simp
  | succ n ih =>
    rw [independent_congr (bad' := fun F => (∃ k < n, ev k F) ∨ ev n F) (fun F _ => by
      constructor
      · rintro ⟨k, h1, h2⟩
        rcases Nat.lt_succ_iff_lt_or_eq.1 h1 with h | rfl
        · exact Or.inl ⟨k, h, h2⟩
        · exact Or.inr h2
      · rintro (⟨k, h1, h2⟩ | h)
        · exact ⟨k, by omega, h2⟩
        · exact ⟨n, by omega, h⟩)]
    refine (independent_or hq _ _).trans ?_
    rw [sum_range_succ]
    have := hy n
    linarith

/-- Errors on at least half of the places of a chain. -/
theorem half_prob (h0 : 0 < p) (h1 : p ≤ 1 / 2) (hq : ∀ i ∈ S, 0 ≤ q i ∧ q i ≤ p) {l : List ι} (hn : l.Nodup) (hl : ∀ i ∈ l, i ∈ S) :
    independent S q (fun F => l.length ≤ 2 * (l.filter (· ∈ F)).length) ≤ (2 * √(p * (1 - p))) ^ l.length := by
  have hp' : 0 < √p := Real.sqrt_pos.2 h0
  have hp1 : 0 < √(1 - p) := Real.sqrt_pos.2 (by linarith)
  have hle : √p ≤ √(1 - p) := Real.sqrt_le_sqrt (by linarith)
  have e1 : √p * √p = p := Real.mul_self_sqrt h0.le
  have e2 : √(1 - p) * √(1 - p) = 1 - p := Real.mul_self_sqrt (by linarith)
  obtain ⟨s, hs⟩ : ∃ s, s = √(1 - p) / √p := ⟨_, rfl⟩
  have hs1 : 1 ≤ s := by rw [hs, le_div_iff₀ hp']; linarith
  have hs0 : 0 < s := by linarith
  have hi1 : s⁻¹ ≤ 1 := inv_le_one_of_one_le₀ hs1
  have hi0 : 0 < s⁻¹ := inv_pos.2 hs0
  have hps : p * s = √p * √(1 - p) := by
    rw [hs, mul_div_assoc', div_eq_iff hp'.ne']
    linear_combination (-√(1 - p)) * e1
  have hps' : (1 - p) * s⁻¹ = √p * √(1 - p) := by
    rw [hs, inv_div, mul_div_assoc', div_eq_iff hp1.ne']
    linear_combination (-√p) * e2
  have hmax : ∀ x, 0 ≤ x → x ≤ p → x * s + (1 - x) * s⁻¹ ≤ 2 * √(p * (1 - p)) := by
    intro x hx hxp
    rw [Real.sqrt_mul h0.le]
    nlinarith
  let a : ι → ℝ := fun i => if i ∈ l then s else 1
  let b : ι → ℝ := fun i => if i ∈ l then s⁻¹ else 1
  have ha : ∀ i, 0 < a i := fun i => by simp only [a]; split <;> linarith
  have hb : ∀ i, 0 < b i := fun i => by simp only [b]; split <;> linarith
  have hcard : ∀ F : Finset ι, F ⊆ S → (F.filter (· ∈ l)).card = (l.filter (· ∈ F)).length := by
    intro F _
    rw [← List.toFinset_card_of_nodup (hn.filter _)]
    congr 1
    ext i
    simp [and_comm]
  have hcard' : ∀ F : Finset ι, ((S \ F).filter (· ∈ l)).card = l.length - (l.filter (· ∈ F)).length := by
    intro F
    have h1 := List.length_eq_length_filter_add (l := l) (fun i => decide (i ∈ F))
    have h2 : ((S \ F).filter (· ∈ l)).card = (l.filter fun i => !decide (i ∈ F)).length := by
      rw [← List.toFinset_card_of_nodup (hn.filter _)]
      congr 1
      ext i
      simp only [mem_filter, mem_sdiff, List.mem_toFinset, List.mem_filter, Bool.not_eq_true', decide_eq_false_iff_not]
      exact ⟨fun h => ⟨h.2, h.1.2⟩, fun h => ⟨⟨hl i h.1, h.2⟩, h.1⟩⟩
    omega
  have hle1 : independent S q (fun F => l.length ≤ 2 * (l.filter (· ∈ F)).length) ≤
      ∑ F ∈ S.powerset, (∏ i ∈ F, q i * a i) * ∏ i ∈ S \ F, ((1 - q i) * b i) := by
    unfold independent
    refine sum_le_sum fun F hF => ?_
    have hFS := mem_powerset.1 hF
    have hw := weight_nonneg (q := q) (fun i hi => ⟨(hq i hi).1, by linarith [(hq i hi).2]⟩) hFS
    rw [prod_mul_distrib, prod_mul_distrib]
    have hab : 0 < (∏ i ∈ F, a i) * ∏ i ∈ S \ F, b i := mul_pos (prod_pos fun i _ => ha i) (prod_pos fun i _ => hb i)
    have e : (∏ i ∈ F, q i) * (∏ i ∈ F, a i) * ((∏ i ∈ S \ F, (1 - q i)) * ∏ i ∈ S \ F, b i) =
        ((∏ i ∈ F, q i) * ∏ i ∈ S \ F, (1 - q i)) * ((∏ i ∈ F, a i) * ∏ i ∈ S \ F, b i) := by ring
    rw [e]
    by_cases h : l.length ≤ 2 * (l.filter (· ∈ F)).length
    · rw [if_pos h]
      have hone : 1 ≤ (∏ i ∈ F, a i) * ∏ i ∈ S \ F, b i := by
        have h1 : ∏ i ∈ F, a i = s ^ (l.filter (· ∈ F)).length := by
          simp only [a]
          rw [prod_ite, prod_const, prod_const_one, mul_one, hcard F hFS]
        have h2 : ∏ i ∈ S \ F, b i = s⁻¹ ^ (l.length - (l.filter (· ∈ F)).length) := by
          simp only [b]
          rw [prod_ite, prod_const, prod_const_one, mul_one, hcard' F]
        rw [h1, h2, inv_pow, ← div_eq_mul_inv, le_div_iff₀ (pow_pos hs0 _), one_mul]
        exact pow_le_pow_right₀ hs1 (by omega)
      have hw' : 0 ≤ (∏ i ∈ F, q i) * ∏ i ∈ S \ F, (1 - q i) := hw
      convert le_mul_of_one_le_right hw' hone
    · rw [if_neg h]
      exact mul_nonneg hw hab.le
  refine hle1.trans ?_
  rw [← prod_add]
  have h3 : ∀ i ∈ S, q i * a i + (1 - q i) * b i ≤ if i ∈ l then 2 * √(p * (1 - p)) else 1 := by
    intro i hi
    simp only [a, b]
    split
    · exact hmax _ (hq i hi).1 (hq i hi).2
    · linarith
  refine (prod_le_prod (fun i hi => ?_) h3).trans (le_of_eq ?_)
  · have := hq i hi
    exact add_nonneg (mul_nonneg this.1 (ha i).le) (mul_nonneg (by linarith) (hb i).le)
  · rw [prod_ite, prod_const, prod_const_one, mul_one]
    congr 1
    rw [← List.toFinset_card_of_nodup hn]
    congr 1
    ext i
    simp only [mem_filter, List.mem_toFinset]
    exact ⟨fun h => h.2, fun h => ⟨hl i h, h⟩⟩

theorem geom_tail {x : ℝ} (h1 : x ≤ 1) (d n : Nat) :
    (∑ k ∈ range n, if d ≤ k + 1 then x ^ (k + 1) else 0) * (1 - x) ≤ x ^ d - x ^ max d (n + 1) := by
  induction n with
  | zero =>
    rw [range_zero, sum_empty, zero_mul]
    rcases Nat.eq_zero_or_pos d with rfl | h
    · simpa using h1
    · rw [max_eq_left (by omega)]
      simp
  | succ n ih =>
    rw [sum_range_succ, add_mul]
    by_cases h : d ≤ n + 1
    · rw [if_pos h, max_eq_right (by omega)]
      rw [max_eq_right h] at ih
      have : x ^ (n + 1) * (1 - x) = x ^ (n + 1) - x ^ (n + 1 + 1) := by ring
      linarith
    · rw [if_neg h, max_eq_left (by omega)]
      rw [max_eq_left (by omega)] at ih
      linarith

/-- If errors are only bad if half of the places of some long chain have errors, and there are not too many chains, then errors are rarely bad. -/
theorem chains_prob (h0 : 0 < p) (h1 : p ≤ 1 / 2) (hq : ∀ i ∈ S, 0 ≤ q i ∧ q i ≤ p) {C : Nat → List (List ι)} {A m d : Nat}
    (hm : 0 < m) (hC : ∀ k, (C k).length ≤ A * m ^ k) (hx : m * (2 * √(p * (1 - p))) < 1) {bad : Finset ι → Prop}
    (h : ∀ F, F ⊆ S → bad F → ∃ k, d ≤ k + 1 ∧ ∃ l ∈ C k, l.length = k + 1 ∧ l.Nodup ∧ (∀ i ∈ l, i ∈ S) ∧
      l.length ≤ 2 * (l.filter (· ∈ F)).length) :
    independent S q bad ≤ A / m * ((m * (2 * √(p * (1 - p)))) ^ d / (1 - m * (2 * √(p * (1 - p))))) := by
  obtain ⟨y, hy⟩ : ∃ y, y = 2 * √(p * (1 - p)) := ⟨_, rfl⟩
  have hy0 : 0 ≤ y := by rw [hy]; positivity
  rw [← hy] at hx ⊢
  have hq1 : ∀ i ∈ S, 0 ≤ q i ∧ q i ≤ 1 := fun i hi => ⟨(hq i hi).1, by linarith [(hq i hi).2]⟩
  have hm0 : (0 : ℝ) < m := by exact_mod_cast hm
  have hx0 : 0 ≤ m * y := by positivity
  -- one length
  let ev : Nat → Finset ι → Prop := fun k F => d ≤ k + 1 ∧ ∃ l ∈ C k, l.length = k + 1 ∧ l.Nodup ∧ (∀ i ∈ l, i ∈ S) ∧
    l.length ≤ 2 * (l.filter (· ∈ F)).length
  have hev : ∀ k, independent S q (ev k) ≤ if d ≤ k + 1 then A / m * (m * y) ^ (k + 1) else 0 := by
    intro k
    by_cases hk : d ≤ k + 1
    · rw [if_pos hk]
      have hl := independent_list (y := y ^ (k + 1)) hq1 (fun (l : List ι) F => l.length = k + 1 ∧ l.Nodup ∧ (∀ i ∈ l, i ∈ S) ∧
        l.length ≤ 2 * (l.filter (· ∈ F)).length) (C k) (by
          intro l _
          by_cases hc : l.length = k + 1 ∧ l.Nodup ∧ ∀ i ∈ l, i ∈ S
          · obtain ⟨c1, c2, c3⟩ := hc
            rw [independent_congr (bad' := fun F => l.length ≤ 2 * (l.filter (· ∈ F)).length) (fun F _ => by
              exact ⟨fun h => h.2.2.2, fun h => ⟨c1, c2, c3, h⟩⟩), ← c1, hy]
            exact half_prob h0 h1 hq c2 c3
          · rw [independent_congr (bad' := fun _ => False) (fun F _ => ⟨fun h => hc ⟨h.1, h.2.1, h.2.2.1⟩, False.elim⟩), independent_false]
            positivity)
      refine (independent_mono hq1 fun F _ h => h.2).trans (hl.trans ?_)
      have hCk : ((C k).length : ℝ) ≤ A * m ^ k := by exact_mod_cast hC k
      calc ((C k).length : ℝ) * y ^ (k + 1) ≤ A * m ^ k * y ^ (k + 1) := mul_le_mul_of_nonneg_right hCk (by positivity)
        _ = A / m * (m * y) ^ (k + 1) := by
          rw [mul_pow, pow_succ (m : ℝ) k]
          field_simp
    · rw [if_neg hk, independent_congr (bad' := fun _ => False) (fun F _ => ⟨fun h => hk h.1, False.elim⟩), independent_false]
  -- all lengths
  have hall := independent_range hq1 ev _ hev S.card
  have hsub : independent S q bad ≤ independent S q (fun F => ∃ k < S.card, ev k F) := by
    refine independent_mono hq1 fun F hF hb => ?_
    obtain ⟨k, hk, l, hl, c1, c2, c3, c4⟩ := h F hF hb
    refine ⟨k, ?_, hk, l, hl, c1, c2, c3, c4⟩
    have : l.toFinset ⊆ S := fun i hi => c3 i (List.mem_toFinset.1 hi)
    have := card_le_card this
    rw [List.toFinset_card_of_nodup c2] at this
    omega
  refine hsub.trans (hall.trans ?_)
  have hx1 : 0 < 1 - m * y := by linarith
  have hA : (0 : ℝ) ≤ A / m := by positivity
  have e : ∑ k ∈ range S.card, (if d ≤ k + 1 then (A : ℝ) / m * (m * y) ^ (k + 1) else 0) =
      A / m * ∑ k ∈ range S.card, if d ≤ k + 1 then (m * y) ^ (k + 1) else 0 := by
    rw [mul_sum]
    refine sum_congr rfl fun k _ => ?_
    split
    · rfl
    · rw [mul_zero]
  rw [e]
  refine mul_le_mul_of_nonneg_left ?_ hA
  rw [le_div_iff₀ hx1]
  refine (geom_tail hx.le d S.card).trans ?_
  have := pow_nonneg hx0 (max d (S.card + 1))
  linarith

/-! ### Marginals -/

/-- The probability that an error does something. -/
noncomputable def turnProb (turned : Bool × Bool → Bool) (π : Bool × Bool → ℝ) : ℝ :=
  (if turned (false, false) then π (false, false) else 0) + (if turned (true, false) then π (true, false) else 0) +
    (if turned (false, true) then π (false, true) else 0) + if turned (true, true) then π (true, true) else 0

theorem independent_insert {a : ι} (ha : a ∉ S) (bad : Finset ι → Prop) :
    independent (insert a S) q bad = q a * independent S q (fun F => bad (insert a F)) + (1 - q a) * independent S q bad := by
  unfold independent
  rw [sum_powerset_insert ha, add_comm, mul_sum, mul_sum]
  congr 1
  · refine sum_congr rfl fun F hF => ?_
    have haF : a ∉ F := fun h => ha (mem_powerset.1 hF h)
    by_cases hb : bad (insert a F)
    · rw [if_pos hb, if_pos hb, prod_insert haF, mul_assoc]
      congr 3
      ext i
      simp only [mem_sdiff, mem_insert]
      constructor
      · rintro ⟨h1 | h1, h2⟩
        · exact absurd (Or.inl h1) h2
        · exact ⟨h1, fun h => h2 (Or.inr h)⟩
      · rintro ⟨h1, h2⟩
        refine ⟨Or.inr h1, ?_⟩
        rintro (rfl | h)
        · exact ha h1
        · exact h2 h
    · rw [if_neg hb, if_neg hb, mul_zero]
  · refine sum_congr rfl fun F hF => ?_
    have haF : a ∉ F := fun h => ha (mem_powerset.1 hF h)
    by_cases hb : bad F
    · rw [if_pos hb, if_pos hb]
      have : insert a S \ F = insert a (S \ F) := by
        ext i
        simp only [mem_sdiff, mem_insert]
        constructor
        · rintro ⟨h1 | h1, h2⟩
          · exact Or.inl h1
          · exact Or.inr ⟨h1, h2⟩
        · rintro (rfl | h)
          · exact ⟨Or.inl rfl, haF⟩
          · exact ⟨Or.inr h.1, h.2⟩
      have h2 : ∏ i ∈ insert a S \ F, (1 - q i) = (1 - q a) * ∏ i ∈ S \ F, (1 - q i) := by
        rw [this, prod_insert fun h => ha (mem_sdiff.1 h).1]
      have h3 : (∏ i ∈ F, q i) * ∏ i ∈ insert a S \ F, (1 - q i) = (1 - q a) * ((∏ i ∈ F, q i) * ∏ i ∈ S \ F, (1 - q i)) := by
        rw [h2]; ring
      convert h3
    · rw [if_neg hb, if_neg hb, mul_zero]

/-- The set with or without an element. -/
def put (b : Bool) (a : ι) (A : Finset ι) : Finset ι := if b then insert a A else A

theorem mem_put {b : Bool} {a i : ι} {A : Finset ι} : i ∈ put b a A ↔ (b = true ∧ i = a) ∨ i ∈ A := by
  unfold put
  cases b <;> simp

theorem pauliProb_insert {a : ι} (ha : a ∉ S) (π : ι → Bool × Bool → ℝ) (bad : Finset ι → Finset ι → Prop) :
    pauliProb (insert a S) π bad = π a (false, false) * pauliProb S π (fun A B => bad (put false a A) (put false a B)) +
      π a (true, false) * pauliProb S π (fun A B => bad (put true a A) (put false a B)) +
      π a (false, true) * pauliProb S π (fun A B => bad (put false a A) (put true a B)) +
      π a (true, true) * pauliProb S π (fun A B => bad (put true a A) (put true a B)) := by
  have key : ∀ (x z : Bool), (∑ A ∈ S.powerset, ∑ B ∈ S.powerset, open Classical in if bad (put x a A) (put z a B) then
      ∏ i ∈ insert a S, π i (decide (i ∈ put x a A), decide (i ∈ put z a B)) else 0) =
      π a (x, z) * pauliProb S π (fun A B => bad (put x a A) (put z a B)) := by
    intro x z
    unfold pauliProb
    rw [mul_sum]
    refine sum_congr rfl fun A hA => ?_
    rw [mul_sum]
    refine sum_congr rfl fun B hB => ?_
    have hAa : a ∉ A := fun h => ha (mem_powerset.1 hA h)
    have hBa : a ∉ B := fun h => ha (mem_powerset.1 hB h)
    by_cases hb : bad (put x a A) (put z a B)
    · rw [if_pos hb, if_pos hb, prod_insert ha]
      congr 1
      · congr 2
        · cases x <;> simp [mem_put, hAa]
        · cases z <;> simp [mem_put, hBa]
      · refine prod_congr rfl fun i hi => ?_
        have hia : i ≠ a := fun h => ha (h ▸ hi)
        congr 2
        · simp [mem_put, hia]
        · simp [mem_put, hia]
    · rw [if_neg hb, if_neg hb, mul_zero]
  have k1 : (∑ A ∈ S.powerset, ∑ B ∈ S.powerset, open Classical in if bad A B then
      ∏ i ∈ insert a S, π i (decide (i ∈ A), decide (i ∈ B)) else 0) = _ := key false false
  have k2 : (∑ A ∈ S.powerset, ∑ B ∈ S.powerset, open Classical in if bad (insert a A) B then
      ∏ i ∈ insert a S, π i (decide (i ∈ insert a A), decide (i ∈ B)) else 0) = _ := key true false
  have k3 : (∑ A ∈ S.powerset, ∑ B ∈ S.powerset, open Classical in if bad A (insert a B) then
      ∏ i ∈ insert a S, π i (decide (i ∈ A), decide (i ∈ insert a B)) else 0) = _ := key false true
  have k4 : (∑ A ∈ S.powerset, ∑ B ∈ S.powerset, open Classical in if bad (insert a A) (insert a B) then
      ∏ i ∈ insert a S, π i (decide (i ∈ insert a A), decide (i ∈ insert a B)) else 0) = _ := key true true
  rw [← k1, ← k2, ← k3, ← k4]
  unfold pauliProb
  rw [sum_powerset_insert ha]
  simp only [sum_powerset_insert ha, sum_add_distrib]
  ring

theorem pauliProb_mono {π : ι → Bool × Bool → ℝ} (hπ : ∀ i ∈ S, PauliNoise (π i)) {bad bad' : Finset ι → Finset ι → Prop}
    (h : ∀ A B, A ⊆ S → B ⊆ S → bad A B → bad' A B) : pauliProb S π bad ≤ pauliProb S π bad' := by
  unfold pauliProb
  refine sum_le_sum fun A hA => sum_le_sum fun B hB => ?_
  have hw : 0 ≤ ∏ i ∈ S, π i (decide (i ∈ A), decide (i ∈ B)) := prod_nonneg fun i hi => (hπ i hi).1 _
  by_cases hb : bad A B
  · rw [if_pos hb, if_pos (h A B (mem_powerset.1 hA) (mem_powerset.1 hB) hb)]
  · rw [if_neg hb]
    split
    · exact hw
    · exact le_rfl

theorem turnProb_nonneg {π : Bool × Bool → ℝ} (hπ : PauliNoise π) (turned : Bool × Bool → Bool) : 0 ≤ turnProb turned π := by
  obtain ⟨h, -⟩ := hπ
  unfold turnProb
  have : ∀ (b : Bool) (v : Bool × Bool), 0 ≤ if b then π v else 0 := by
    intro b v
    cases b
    · exact le_rfl
    · exact h v
  have h1 := this (turned (false, false)) (false, false)
  have h2 := this (turned (true, false)) (true, false)
  have h3 := this (turned (false, true)) (false, true)
  have h4 := this (turned (true, true)) (true, true)
  linarith

/-- If only what an error does matters, only the probability that it does it matters. -/
theorem pauli_marginal (turned : ι → Bool × Bool → Bool) (π : ι → Bool × Bool → ℝ) :
    ∀ (S : Finset ι), (∀ i ∈ S, PauliNoise (π i)) → ∀ (bad : Finset ι → Prop),
      pauliProb S π (fun A B => bad (S.filter fun i => turned i (decide (i ∈ A), decide (i ∈ B)) = true)) =
        independent S (fun i => turnProb (turned i) (π i)) bad := by
  intro S
  induction S using Finset.induction_on with
  | empty =>
    intro _ bad
    unfold pauliProb independent
    simp only [powerset_empty, sum_singleton, filter_empty, prod_empty, sdiff_self, bot_eq_empty, mul_one]
    rfl
  | @insert a S ha ih =>
    intro hπ bad
    have ih' := ih fun i hi => hπ i (mem_insert_of_mem hi)
    have hone := (hπ a (mem_insert_self _ _)).2
    have hstep : ∀ x z : Bool, pauliProb S π (fun A B => bad ((insert a S).filter fun i =>
        turned i (decide (i ∈ put x a A), decide (i ∈ put z a B)) = true)) =
        independent S (fun i => turnProb (turned i) (π i)) (fun F => bad (put (turned a (x, z)) a F)) := by
      intro x z
      rw [← ih']
      refine pauliProb_congr fun A B hA hB => ?_
      have hAa : a ∉ A := fun h => ha (hA h)
      have hBa : a ∉ B := fun h => ha (hB h)
      have e : (insert a S).filter (fun i => turned i (decide (i ∈ put x a A), decide (i ∈ put z a B)) = true) =
          put (turned a (x, z)) a (S.filter fun i => turned i (decide (i ∈ A), decide (i ∈ B)) = true) := by
        ext i
        rw [mem_put, mem_filter, mem_filter, mem_insert]
        by_cases hia : i = a
        · subst hia
          have h1 : decide (i ∈ put x i A) = x := by cases x <;> simp [mem_put, hAa]
          have h2 : decide (i ∈ put z i B) = z := by cases z <;> simp [mem_put, hBa]
          rw [h1, h2]
          simp [ha]
        · have h1 : decide (i ∈ put x a A) = decide (i ∈ A) := by simp [mem_put, hia]
          have h2 : decide (i ∈ put z a B) = decide (i ∈ B) := by simp [mem_put, hia]
          rw [h1, h2]
          simp [hia]
      rw [e]
    rw [pauliProb_insert ha, independent_insert ha, hstep, hstep, hstep, hstep]
    have hput : ∀ b : Bool, independent S (fun i => turnProb (turned i) (π i)) (fun F => bad (put b a F)) =
        if b then independent S (fun i => turnProb (turned i) (π i)) (fun F => bad (insert a F)) else
          independent S (fun i => turnProb (turned i) (π i)) bad := by
      intro b
      cases b <;> rfl
    simp only [hput]
    unfold turnProb
    have e : π a (false, false) = 1 - π a (true, false) - π a (false, true) - π a (true, true) := by linarith
    rw [e]
    split <;> split <;> split <;> split <;> ring

end Qtc
