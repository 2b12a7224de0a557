import Verif.Spec.Sampling
import Verif.Proof.Benchmark
import Mathlib.Tactic.Ring
import Mathlib.Tactic.Linarith
import Mathlib.Tactic.FieldSimp
import Mathlib.Algebra.Order.BigOperators.Group.Finset
import Mathlib.Algebra.Order.BigOperators.Ring.Finset
import Mathlib.Algebra.BigOperators.Fin
/-!
Means of independent draws.
-/
namespace Qtc
open Spec

variable {Ω : Type} {N : Nat} {S : Finset Ω} {μ : Ω → ℝ}

theorem mean_prod (f : Fin N → Ω → ℝ) : mean N S μ (fun x => ∏ i, f i (x i)) = ∏ i, ∑ a ∈ S, μ a * f i a := by
  unfold mean
  rw [Finset.prod_univ_sum]
  exact Finset.sum_congr rfl fun x _ => by rw [Finset.prod_mul_distrib]

theorem mean_add (f g : (Fin N → Ω) → ℝ) : mean N S μ (fun x => f x + g x) = mean N S μ f + mean N S μ g := by
  unfold mean
  rw [← Finset.sum_add_distrib]
  exact Finset.sum_congr rfl fun x _ => mul_add _ _ _

theorem mean_mul (k : ℝ) (f : (Fin N → Ω) → ℝ) : mean N S μ (fun x => k * f x) = k * mean N S μ f := by
  unfold mean
  rw [Finset.mul_sum]
  exact Finset.sum_congr rfl fun x _ => by ring

theorem mean_sum {ι : Type} (I : Finset ι) (f : ι → (Fin N → Ω) → ℝ) : mean N S μ (fun x => ∑ i ∈ I, f i x) = ∑ i ∈ I, mean N S μ (f i) := by
  unfold mean
  rw [Finset.sum_comm]
  exact Finset.sum_congr rfl fun x _ => Finset.mul_sum _ _ _

theorem mean_mono (hμ : Law S μ) {f g : (Fin N → Ω) → ℝ} (h : ∀ x, (∀ i, x i ∈ S) → f x ≤ g x) : mean N S μ f ≤ mean N S μ g := by
  unfold mean
  refine Finset.sum_le_sum fun x hx => ?_
  rw [Fintype.mem_piFinset] at hx
  exact mul_le_mul_of_nonneg_left (h x hx) (Finset.prod_nonneg fun i _ => hμ.1 _ (hx i))

theorem mean_congr {f g : (Fin N → Ω) → ℝ} (h : ∀ x, (∀ i, x i ∈ S) → f x = g x) : mean N S μ f = mean N S μ g :=
  Finset.sum_congr rfl fun x hx => by rw [h x (Fintype.mem_piFinset.1 hx)]

theorem mean_one (hμ : Law S μ) : mean N S μ (fun _ => 1) = 1 := by
  have := mean_prod (N := N) (S := S) (μ := μ) fun _ _ => 1
  simp only [Finset.prod_const_one, mul_one, hμ.2] at this
  exact this

/-- The mean of a function of one draw. -/
theorem mean_at (hμ : Law S μ) (f : Ω → ℝ) (j : Fin N) : mean N S μ (fun x => f (x j)) = ∑ a ∈ S, μ a * f a := by
  have := mean_prod (N := N) (S := S) (μ := μ) fun i a => if i = j then f a else 1
  simp only [Finset.prod_ite_eq', Finset.mem_univ, if_true] at this
  rw [this, Finset.prod_eq_single j]
  · simp
  · intro i _ hi
    simp [hi, hμ.2]
  · intro h
    exact absurd (Finset.mem_univ j) h

/-- Different draws are independent. -/
theorem mean_two (hμ : Law S μ) (f g : Ω → ℝ) {j k : Fin N} (hjk : j ≠ k) :
    mean N S μ (fun x => f (x j) * g (x k)) = (∑ a ∈ S, μ a * f a) * ∑ a ∈ S, μ a * g a := by
  have h := mean_prod (N := N) (S := S) (μ := μ) fun i a => (if i = j then f a else 1) * if i = k then g a else 1
  have e : ∀ x : Fin N → Ω, ∏ i, ((if i = j then f (x i) else 1) * if i = k then g (x i) else 1) = f (x j) * g (x k) := by
    intro x
    rw [Finset.prod_mul_distrib, Finset.prod_ite_eq', Finset.prod_ite_eq']
    simp
  simp only [e] at h
  rw [h, ← Finset.mul_prod_erase _ _ (Finset.mem_univ j), ← Finset.mul_prod_erase _ _ (Finset.mem_erase.2 ⟨hjk.symm, Finset.mem_univ k⟩),
    Finset.prod_eq_one]
  · simp [hjk, hjk.symm]
  · intro i hi
    rw [Finset.mem_erase, Finset.mem_erase] at hi
    simp [hi.1, hi.2.1, hμ.2]

/-- The mean of the fraction of draws with a property. -/
theorem mean_fraction (hμ : Law S μ) (hN : 0 < N) (f : Ω → ℝ) : mean N S μ (fun x => (∑ i, f (x i)) / N) = ∑ a ∈ S, μ a * f a := by
  have hN' : (N : ℝ) ≠ 0 := by exact_mod_cast hN.ne'
  have e : (fun x : Fin N → Ω => (∑ i, f (x i)) / N) = fun x => (1 / (N : ℝ)) * ∑ i, f (x i) := by
    funext x
    ring
  rw [e, mean_mul, mean_sum]
  simp only [mean_at hμ]
  rw [Finset.sum_const, Finset.card_univ, Fintype.card_fin, nsmul_eq_mul]
  field_simp

/-- The variance of the fraction of draws with a property. -/
theorem mean_variance (hμ : Law S μ) (hN : 0 < N) (f : Ω → ℝ) :
    mean N S μ (fun x => ((∑ i, f (x i)) / N - ∑ a ∈ S, μ a * f a) ^ 2) =
      (∑ a ∈ S, μ a * f a ^ 2 - (∑ a ∈ S, μ a * f a) ^ 2) / N := by
  have hN' : (N : ℝ) ≠ 0 := by exact_mod_cast hN.ne'
  set q := ∑ a ∈ S, μ a * f a with hq
  have hg : ∑ a ∈ S, μ a * (f a - q) = 0 := by
    simp only [mul_sub, Finset.sum_sub_distrib, ← Finset.sum_mul, hμ.2]
    rw [← hq]
    ring
  have hg2 : ∑ a ∈ S, μ a * (f a - q) ^ 2 = ∑ a ∈ S, μ a * f a ^ 2 - q ^ 2 := by
    have : ∀ a, μ a * (f a - q) ^ 2 = μ a * f a ^ 2 - 2 * q * (μ a * f a) + μ a * q ^ 2 := fun a => by ring
    simp only [this, Finset.sum_add_distrib, Finset.sum_sub_distrib, ← Finset.mul_sum, ← Finset.sum_mul, hμ.2]
    rw [← hq]
    ring
  have e : ∀ x : Fin N → Ω, ((∑ i, f (x i)) / N - q) ^ 2 = (1 / (N : ℝ) ^ 2) * ∑ i, ∑ j, (f (x i) - q) * (f (x j) - q) := by
    intro x
    have h1 : (∑ i, f (x i)) / N - q = (1 / (N : ℝ)) * ∑ i, (f (x i) - q) := by
      rw [Finset.sum_sub_distrib, Finset.sum_const, Finset.card_univ, Fintype.card_fin, nsmul_eq_mul]
      field_simp
    rw [h1, mul_pow, sq (∑ i, (f (x i) - q)), Finset.sum_mul_sum]
    ring
  simp only [e]
  rw [mean_mul, mean_sum]
  have hin : ∀ i : Fin N, mean N S μ (fun x => ∑ j, (f (x i) - q) * (f (x j) - q)) = ∑ a ∈ S, μ a * f a ^ 2 - q ^ 2 := by
    intro i
    rw [mean_sum, Finset.sum_eq_single i]
    · rw [← hg2]
      have := mean_at (N := N) hμ (fun a => (f a - q) ^ 2) i
      rw [← this]
      exact mean_congr fun x _ => by ring
    · intro j _ hj
      rw [mean_two hμ (fun a => f a - q) (fun a => f a - q) hj.symm, hg, zero_mul]
    · intro h
      exact absurd (Finset.mem_univ i) h
  simp only [hin]
  rw [Finset.sum_const, Finset.card_univ, Fintype.card_fin, nsmul_eq_mul]
  field_simp

/-- Chebyshev. -/
theorem probability_far (hμ : Law S μ) (f : (Fin N → Ω) → ℝ) (q : ℝ) {ε : ℝ} (hε : 0 < ε) :
    probability N S μ (fun x => ε ≤ |f x - q|) ≤ mean N S μ (fun x => (f x - q) ^ 2) / ε ^ 2 := by
  unfold probability
  rw [div_eq_inv_mul, ← mean_mul]
  refine mean_mono hμ fun x _ => ?_
  split
  · rename_i h
    have h2 : ε ^ 2 ≤ (f x - q) ^ 2 := by
      rw [← sq_abs (f x - q)]
      exact pow_le_pow_left₀ hε.le h 2
    rw [← div_eq_inv_mul, one_le_div (by positivity)]
    exact h2
  · positivity

/-! ### Counts -/

theorem tally_where {c : Counts} {l : List Str} (h : Tally c l) (P : Str → Bool) : shotsWhere P c = (l.filter P).length := by
  have hk : (c.map (·.1) ++ l).dedup.Nodup := List.nodup_dedup _
  rw [shotsWhere_eq P c _ h.1 hk fun q hq => by
    rw [List.mem_dedup, List.mem_append]
    exact Or.inl (List.mem_map.2 ⟨q, hq, rfl⟩)]
  have e : ((c.map (·.1) ++ l).dedup.filter P).map (countOf c) = ((c.map (·.1) ++ l).dedup.filter P).map fun s => ((l.filter P).count s : Int) := by
    refine List.map_congr_left fun s hs => ?_
    rw [h.2 s, List.count_filter (List.mem_filter.1 hs).2]
  rw [e]
  have hsub : ∀ s ∈ l.filter P, s ∈ (c.map (·.1) ++ l).dedup.filter P := by
    intro s hs
    rw [List.mem_filter] at hs ⊢
    exact ⟨List.mem_dedup.2 (List.mem_append.2 (Or.inr hs.1)), hs.2⟩
  have key : ∀ (ks l : List Str), ks.Nodup → (∀ s ∈ l, s ∈ ks) → (ks.map fun s => (l.count s : Int)).sum = l.length := by
    intro ks l hks hl
    induction l with
    | nil => simp
    | cons a l ih =>
      have e : ∀ s, ((List.count s (a :: l) : Nat) : Int) = (l.count s : Int) + if s = a then 1 else 0 := by
        intro s
        rw [List.count_cons]
        by_cases h : s = a
        · simp [h]
        · simp [h, Ne.symm h]
      have one : ∀ ks : List Str, ks.Nodup → a ∈ ks → (ks.map fun s => if s = a then (1 : Int) else 0).sum = 1 := by
        intro ks
        induction ks with
        | nil => intro _ h; simp at h
        | cons b ks ih =>
          intro hn ha
          rw [List.nodup_cons] at hn
          rw [List.map_cons, List.sum_cons]
          by_cases hb : b = a
          · rw [if_pos hb]
            have : (ks.map fun s => if s = a then (1 : Int) else 0) = ks.map fun _ => 0 := by
              refine List.map_congr_left fun s hs => if_neg ?_
              rintro rfl
              exact hn.1 (hb ▸ hs)
            rw [this]
            simp
          · rw [if_neg hb, ih hn.2 ((List.mem_cons.1 ha).resolve_left (Ne.symm hb)), zero_add]
      simp only [e]
      rw [List.sum_map_add, ih fun s hs => hl s (List.mem_cons_of_mem _ hs), one ks hks (hl a List.mem_cons_self), List.length_cons]
      rfl
  exact key _ _ (hk.filter _) hsub

end Qtc
