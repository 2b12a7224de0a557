import Mathlib.Analysis.Complex.ExponentialBounds
import Verif.Proof.Union
import Verif.Spec.LocalNoise
/-!
Probabilities of errors that are not independent: the union bound, and errors at many of the places near a chain.
-/
namespace Qtc
open Spec Finset

variable {ι κ : Type} [DecidableEq ι] {S : Finset ι} {P : Finset ι → ℝ} {p : ℝ}

theorem chance_mono (hP : LocalNoise S P p) {bad bad' : Finset ι → Prop} (h : ∀ F, F ⊆ S → bad F → bad' F) : chance S P bad ≤ chance S P bad' := by
  unfold chance
  refine sum_le_sum fun F hF => ?_
  have hw := hP.nonneg F (mem_powerset.1 hF)
  by_cases hb : bad F
  · rw [if_pos hb, if_pos (h F (mem_powerset.1 hF) hb)]
  · rw [if_neg hb]
    split
    · exact hw
    · exact le_rfl

theorem chance_nonneg (hP : LocalNoise S P p) (bad : Finset ι → Prop) : 0 ≤ chance S P bad := by
  unfold chance
  refine sum_nonneg fun F hF => ?_
  split
  · exact hP.nonneg F (mem_powerset.1 hF)
  · exact le_rfl

theorem chance_le_one (hP : LocalNoise S P p) (bad : Finset ι → Prop) : chance S P bad ≤ 1 := by
  refine (chance_mono hP (bad' := fun _ => True) fun _ _ _ => trivial).trans (le_of_eq ?_)
  rw [← hP.total]
  unfold chance
  exact sum_congr rfl fun F _ => if_pos trivial

theorem chance_none {bad : Finset ι → Prop} (h : ∀ F, F ⊆ S → ¬ bad F) : chance S P bad = 0 := by
  unfold chance
  exact sum_eq_zero fun F hF => if_neg (h F (mem_powerset.1 hF))

theorem chance_or (hP : LocalNoise S P p) (bad bad' : Finset ι → Prop) :
    chance S P (fun F => bad F ∨ bad' F) ≤ chance S P bad + chance S P bad' := by
  unfold chance
  rw [← sum_add_distrib]
  refine sum_le_sum fun F hF => ?_
  have hw := hP.nonneg F (mem_powerset.1 hF)
  by_cases h1 : bad F <;> by_cases h2 : bad' F
  · rw [if_pos (Or.inl h1), if_pos h1, if_pos h2]; linarith
  · rw [if_pos (Or.inl h1), if_pos h1, if_neg h2, add_zero]
  · rw [if_pos (Or.inr h2), if_neg h1, if_pos h2, zero_add]
  · rw [if_neg (by tauto), if_neg h1, if_neg h2, add_zero]

theorem chance_list (hP : LocalNoise S P p) (ev : κ → Finset ι → Prop) {y : ℝ} :
    ∀ (L : List κ), (∀ l ∈ L, chance S P (ev l) ≤ y) → chance S P (fun F => ∃ l ∈ L, ev l F) ≤ L.length * y
  | [], _ => by
    rw [chance_none fun F _ h => by simp at h]
    simp
  | a :: L, h => by
    have ih := chance_list hP ev L fun l hl => h l (List.mem_cons_of_mem _ hl)
    have ha := h a List.mem_cons_self
    refine (chance_mono hP (bad' := fun F => ev a F ∨ ∃ l ∈ L, ev l F) (fun F _ h => by simpa using h)).trans ((chance_or hP _ _).trans ?_)
    rw [List.length_cons]
    push_cast
    linarith

theorem chance_range (hP : LocalNoise S P p) (ev : Nat → Finset ι → Prop) (y : Nat → ℝ) (hy : ∀ k, chance S P (ev k) ≤ y k) (n : Nat) :
    chance S P (fun F => ∃ k < n, ev k F) ≤ ∑ k ∈ range n, y k := by
  induction n with
  | zero =>
    rw [chance_none fun F _ h => by simp at h]
    simp
  | succ n ih =>
    refine (chance_mono hP (bad' := fun F => (∃ k < n, ev k F) ∨ ev n F) (fun F _ => ?_)).trans ((chance_or hP _ _).trans ?_)
    · rintro ⟨k, h1, h2⟩
      rcases Nat.lt_succ_iff_lt_or_eq.1 h1 with h | rfl
      · exact Or.inl ⟨k, h, h2⟩
      · exact Or.inr h2
    · rw [sum_range_succ]
      have := hy n
      linarith

/-- The mean of `(1 + s)` to the number of errors in `C`. -/
theorem mean_le (hP : LocalNoise S P p) (C : Finset ι) {s : ℝ} (hs : 0 ≤ s) (h0 : 0 ≤ p) :
    ∑ F ∈ S.powerset, P F * (1 + s) ^ (F ∩ C).card ≤ (1 + s * p) ^ C.card := by
  have e1 : ∀ F ∈ S.powerset, P F * (1 + s) ^ (F ∩ C).card = ∑ A ∈ (S ∩ C).powerset, if A ⊆ F then P F * s ^ A.card else 0 := by
    intro F hF
    have hFS := mem_powerset.1 hF
    rw [← sum_filter, ← mul_sum]
    congr 1
    have h1 : (S ∩ C).powerset.filter (fun A => A ⊆ F) = (F ∩ C).powerset := by
      ext A
      simp only [mem_filter, mem_powerset, subset_inter_iff]
      exact ⟨fun h => ⟨h.2, h.1.2⟩, fun h => ⟨⟨h.1.trans hFS, h.2⟩, h.1⟩⟩
    rw [h1]
    have := sum_pow_mul_eq_add_pow s 1 (F ∩ C)
    simp only [one_pow, mul_one] at this
    rw [add_comm, this]
  rw [sum_congr rfl e1, sum_comm]
  have e2 : ∀ A ∈ (S ∩ C).powerset, (∑ F ∈ S.powerset, if A ⊆ F then P F * s ^ A.card else 0) ≤ (s * p) ^ A.card := by
    intro A hA
    have hAS : A ⊆ S := (mem_powerset.1 hA).trans inter_subset_left
    rw [← sum_filter, ← sum_mul, mul_pow, mul_comm]
    exact mul_le_mul_of_nonneg_left (hP.rare A hAS) (pow_nonneg hs _)
  refine (sum_le_sum e2).trans ?_
  have e3 := sum_pow_mul_eq_add_pow (s * p) 1 (S ∩ C)
  simp only [one_pow, mul_one] at e3
  rw [e3, add_comm]
  refine pow_le_pow_right₀ ?_ (card_le_card inter_subset_right)
  have : 0 ≤ s * p := mul_nonneg hs h0
  linarith

theorem one_add_inv_pow {M : Nat} (hM : 0 < M) : (1 + 1 / (M : ℝ)) ^ M ≤ 3 := by
  have hM0 : (0 : ℝ) < M := by exact_mod_cast hM
  have h1 : 1 + 1 / (M : ℝ) ≤ Real.exp (1 / M) := by
    have := Real.add_one_le_exp (1 / (M : ℝ))
    linarith
  calc (1 + 1 / (M : ℝ)) ^ M ≤ Real.exp (1 / M) ^ M := pow_le_pow_left₀ (by positivity) h1 _
    _ = Real.exp 1 := by
      rw [← Real.exp_nat_mul]
      congr 1
      field_simp
    _ ≤ 3 := by linarith [Real.exp_one_lt_d9]

/-- Many errors at the places `C`. -/
theorem many_prob (hP : LocalNoise S P p) {C : Finset ι} {L M r : Nat} (hM : 0 < M) (hC : C.card ≤ M * L) {u : ℝ} (h0 : 0 < p) (hu0 : 0 < u)
    (hu1 : u ≤ 1) (hp : M * p ≤ u ^ r) : chance S P (fun F => L ≤ r * (F ∩ C).card) ≤ (3 * u) ^ L := by
  have hM0 : (0 : ℝ) < M := by exact_mod_cast hM
  obtain ⟨s, hs⟩ : ∃ s : ℝ, s = 1 / (M * p) := ⟨_, rfl⟩
  have hs0 : 0 < s := by rw [hs]; positivity
  have hur : 0 < u ^ r := pow_pos hu0 r
  have hsu : 1 ≤ s * u ^ r := by
    rw [hs, one_div_mul_eq_div, le_div_iff₀ (by positivity), one_mul]
    exact hp
  have hmean := mean_le hP C hs0.le h0.le
  have h3 : (1 + s * p) ^ C.card ≤ 3 ^ L := by
    have e : s * p = 1 / M := by rw [hs]; field_simp
    rw [e]
    calc (1 + 1 / (M : ℝ)) ^ C.card ≤ (1 + 1 / (M : ℝ)) ^ (M * L) := by
          refine pow_le_pow_right₀ ?_ hC
          have : 0 ≤ 1 / (M : ℝ) := by positivity
          linarith
      _ = ((1 + 1 / (M : ℝ)) ^ M) ^ L := pow_mul _ _ _
      _ ≤ 3 ^ L := pow_le_pow_left₀ (by positivity) (one_add_inv_pow hM) _
  have hstep : chance S P (fun F => L ≤ r * (F ∩ C).card) ≤ (∑ F ∈ S.powerset, P F * (1 + s) ^ (F ∩ C).card) * u ^ L := by
    unfold chance
    rw [sum_mul]
    refine sum_le_sum fun F hF => ?_
    have hw := hP.nonneg F (mem_powerset.1 hF)
    by_cases hb : L ≤ r * (F ∩ C).card
    · rw [if_pos hb, mul_assoc]
      refine le_mul_of_one_le_right hw ?_
      calc (1 : ℝ) ≤ (s * u ^ r) ^ (F ∩ C).card := one_le_pow₀ hsu
        _ = s ^ (F ∩ C).card * u ^ (r * (F ∩ C).card) := by rw [mul_pow, ← pow_mul]
        _ ≤ (1 + s) ^ (F ∩ C).card * u ^ L := by
          refine mul_le_mul (pow_le_pow_left₀ hs0.le (by linarith) _) (pow_le_pow_of_le_one hu0.le hu1 hb) (by positivity) (by positivity)
    · rw [if_neg hb]
      positivity
  refine hstep.trans ?_
  rw [mul_pow]
  exact mul_le_mul_of_nonneg_right (hmean.trans h3) (by positivity)

/-- If errors are only bad if there are many of them near some long chain, and there are not too many chains, then errors are rarely bad. -/
theorem near_chains_prob (hP : LocalNoise S P p) (h0 : 0 < p) {φ : Type} {C : Nat → List (List φ)} {near : List φ → Finset ι} {A m d M r : Nat}
    (hm : 0 < m) (hM : 0 < M) (hC : ∀ k, (C k).length ≤ A * m ^ k) (hnear : ∀ l, (near l).card ≤ M * l.length) {u : ℝ} (hu0 : 0 < u)
    (hp : M * p ≤ u ^ r) (hx : m * (3 * u) < 1) {bad : Finset ι → Prop}
    (h : ∀ F, F ⊆ S → bad F → ∃ k, d ≤ k + 1 ∧ ∃ l ∈ C k, l.length = k + 1 ∧ l.length ≤ r * (F ∩ near l).card) :
    chance S P bad ≤ A / m * ((m * (3 * u)) ^ d / (1 - m * (3 * u))) := by
  have hm0 : (0 : ℝ) < m := by exact_mod_cast hm
  have hm1 : (1 : ℝ) ≤ m := by exact_mod_cast hm
  have hu1 : u ≤ 1 := by nlinarith
  obtain ⟨y, hy⟩ : ∃ y, y = 3 * u := ⟨_, rfl⟩
  have hy0 : 0 ≤ y := by rw [hy]; positivity
  rw [← hy] at hx ⊢
  have hx0 : 0 ≤ m * y := by positivity
  let ev : Nat → Finset ι → Prop := fun k F => d ≤ k + 1 ∧ ∃ l ∈ C k, l.length = k + 1 ∧ l.length ≤ r * (F ∩ near l).card
  have hev : ∀ k, chance S P (ev k) ≤ if d ≤ k + 1 then A / m * (m * y) ^ (k + 1) else 0 := by
    intro k
    by_cases hk : d ≤ k + 1
    · rw [if_pos hk]
      have hl := chance_list (y := y ^ (k + 1)) hP (fun (l : List φ) F => l.length = k + 1 ∧ l.length ≤ r * (F ∩ near l).card) (C k) (by
          intro l _
          by_cases hc : l.length = k + 1
          · rw [← hc, hy]
            exact (chance_mono hP fun F _ h => h.2).trans (many_prob hP hM (hnear l) h0 hu0 hu1 hp)
          · rw [chance_none fun F _ h => hc h.1]
            positivity)
      refine (chance_mono hP fun F _ h => h.2).trans (hl.trans ?_)
      have hCk : ((C k).length : ℝ) ≤ A * m ^ k := by exact_mod_cast hC k
      calc ((C k).length : ℝ) * y ^ (k + 1) ≤ A * m ^ k * y ^ (k + 1) := mul_le_mul_of_nonneg_right hCk (by positivity)
        _ = A / m * (m * y) ^ (k + 1) := by
          rw [mul_pow, pow_succ (m : ℝ) k]
          field_simp
    · rw [if_neg hk, chance_none fun F _ h => hk h.1]
  have hall := chance_range hP ev _ hev (r * S.card)
  have hsub : chance S P bad ≤ chance S P (fun F => ∃ k < r * S.card, ev k F) := by
    refine chance_mono hP fun F hF hb => ?_
    obtain ⟨k, hk, l, hl, c1, c2⟩ := h F hF hb
    refine ⟨k, ?_, hk, l, hl, c1, c2⟩
    have : (F ∩ near l).card ≤ S.card := card_le_card (inter_subset_left.trans hF)
    have := Nat.mul_le_mul_left r this
    omega
  refine hsub.trans (hall.trans ?_)
  have hx1 : 0 < 1 - m * y := by linarith
  have hA : (0 : ℝ) ≤ A / m := by positivity
  have e : ∑ k ∈ range (r * S.card), (if d ≤ k + 1 then (A : ℝ) / m * (m * y) ^ (k + 1) else 0) =
      A / m * ∑ k ∈ range (r * S.card), if d ≤ k + 1 then (m * y) ^ (k + 1) else 0 := by
    rw [mul_sum]
    refine sum_congr rfl fun k _ => ?_
    split
    · rfl
    · rw [mul_zero]
  rw [e]
  refine mul_le_mul_of_nonneg_left ?_ hA
  rw [le_div_iff₀ hx1]
  refine (geom_tail hx.le d (r * S.card)).trans ?_
  have := pow_nonneg hx0 (max d (r * S.card + 1))
  linarith

/-! ### Independent errors -/

/-- Independent errors are a special case. -/
theorem independent_local {q : ι → ℝ} (hq : ∀ i ∈ S, 0 ≤ q i ∧ q i ≤ p) (hp : p ≤ 1) :
    LocalNoise S (fun F => (∏ i ∈ F, q i) * ∏ i ∈ S \ F, (1 - q i)) p := by
  have hq1 : ∀ i ∈ S, 0 ≤ q i ∧ q i ≤ 1 := fun i hi => ⟨(hq i hi).1, (hq i hi).2.trans hp⟩
  refine ⟨fun F hF => weight_nonneg hq1 hF, ?_, fun A hA => ?_⟩
  · rw [← prod_add]
    exact prod_eq_one fun i _ => by ring
  · have e : ∑ F ∈ S.powerset with A ⊆ F, (∏ i ∈ F, q i) * ∏ i ∈ S \ F, (1 - q i) = ∏ i ∈ A, q i := by
      have h1 : ∏ i ∈ A, q i = (∏ i ∈ A, q i) * ∏ i ∈ S \ A, (q i + (1 - q i)) := by
        rw [prod_eq_one (s := S \ A) fun i _ => by ring, mul_one]
      rw [h1, prod_add, mul_sum]
      refine (sum_bij' (fun F _ => A ∪ F) (fun F _ => F \ A) ?_ ?_ ?_ ?_ ?_).symm
      · intro F hF
        rw [mem_powerset] at hF
        rw [mem_filter, mem_powerset]
        exact ⟨union_subset hA (hF.trans sdiff_subset), subset_union_left⟩
      · intro F hF
        rw [mem_filter, mem_powerset] at hF
        rw [mem_powerset]
        exact sdiff_subset_sdiff hF.1 subset_rfl
      · intro F hF
        rw [mem_powerset] at hF
        rw [union_sdiff_left]
        exact sdiff_eq_self_of_disjoint (disjoint_of_subset_left hF sdiff_disjoint)
      · intro F hF
        rw [mem_filter] at hF
        exact union_sdiff_of_subset hF.2
      · intro F hF
        rw [mem_powerset] at hF
        have hd : Disjoint A F := (disjoint_of_subset_left hF sdiff_disjoint).symm
        rw [prod_union hd, mul_assoc]
        congr 3
        ext i
        simp only [mem_sdiff, mem_union, not_or, and_assoc]
    rw [e]
    calc ∏ i ∈ A, q i ≤ ∏ _i ∈ A, p := prod_le_prod (fun i hi => (hq i (hA hi)).1) fun i hi => (hq i (hA hi)).2
      _ = p ^ A.card := by rw [prod_const]

theorem independent_chance {q : ι → ℝ} (bad : Finset ι → Prop) :
    independent S q bad = chance S (fun F => (∏ i ∈ F, q i) * ∏ i ∈ S \ F, (1 - q i)) bad := by
  unfold independent chance
  refine sum_congr rfl fun F _ => ?_
  split
  · congr 2
  · rfl

end Qtc
