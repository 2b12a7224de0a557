import Mathlib.Algebra.BigOperators.Ring.Finset
import Mathlib.Algebra.BigOperators.Group.Finset.Powerset
import Mathlib.Data.Nat.Bitwise
import Mathlib.Tactic.Linarith
import Mathlib.Tactic.Ring
import Verif.Spec.Threshold
/-!
Counting sets of flips by what they change and by their size.
-/
namespace Qtc
open Spec Finset

/-- The number with these binary digits, the lowest first. -/
def mask : List Bool → Nat
  | [] => 0
  | b :: l => Nat.bit b (mask l)

theorem testBit_mask : ∀ (l : List Bool) (k : Nat), (mask l).testBit k = l[k]?.getD false
  | [], k => by simp [mask]
  | b :: l, 0 => by simp [mask]
  | b :: l, k + 1 => by
    rw [mask, Nat.testBit_bit_succ, testBit_mask l k]
    simp

theorem mask_xor {α : Type} (f g : α → Bool) (l : List α) : mask (l.map fun c => f c ^^ g c) = mask (l.map f) ^^^ mask (l.map g) := by
  refine Nat.eq_of_testBit_eq fun k => ?_
  rw [Nat.testBit_xor, testBit_mask, testBit_mask, testBit_mask]
  simp only [List.getElem?_map]
  cases l[k]? <;> simp

theorem mask_inj {α : Type} {f g : α → Bool} {l : List α} : mask (l.map f) = mask (l.map g) ↔ ∀ c ∈ l, f c = g c := by
  constructor
  · intro h c hc
    obtain ⟨k, hk⟩ := List.getElem?_of_mem hc
    have := congrArg (Nat.testBit · k) h
    simp only [testBit_mask, List.getElem?_map, hk] at this
    exact this
  · intro h
    rw [List.map_congr_left h]

/-- Do an odd number of the flips change `c`? -/
def parity (F : Finset Nat) (c : Nat → Bool) : Bool := decide ((F.filter (c · = true)).card % 2 = 1)

theorem parity_empty (c : Nat → Bool) : parity ∅ c = false := rfl

theorem parity_insert {F : Finset Nat} {a : Nat} (ha : a ∉ F) (c : Nat → Bool) : parity (insert a F) c = (parity F c ^^ c a) := by
  unfold parity
  rw [filter_insert]
  cases hc : c a
  · simp
  · rw [if_pos rfl, card_insert_of_notMem (fun h => ha (mem_filter.1 h).1)]
    generalize #(F.filter (c · = true)) = n
    rw [Bool.eq_iff_iff]
    simp
    omega

/-- What the flips change, as a number. -/
def sig (checks : List (Nat → Bool)) (F : Finset Nat) : Nat := mask (checks.map (parity F))

/-- What the flip of `a` changes. -/
def col (checks : List (Nat → Bool)) (a : Nat) : Nat := mask (checks.map (· a))

theorem sig_empty (checks : List (Nat → Bool)) : sig checks ∅ = 0 := by
  unfold sig
  refine Nat.eq_of_testBit_eq fun k => ?_
  rw [testBit_mask, List.getElem?_map]
  cases checks[k]? <;> simp [parity_empty]

theorem sig_insert {checks : List (Nat → Bool)} {F : Finset Nat} {a : Nat} (ha : a ∉ F) :
    sig checks (insert a F) = sig checks F ^^^ col checks a := by
  unfold sig col
  rw [← mask_xor]
  congr 1
  exact List.map_congr_left fun c _ => parity_insert ha c

theorem sig_erase {checks : List (Nat → Bool)} {F : Finset Nat} {a : Nat} (ha : a ∈ F) :
    sig checks (F.erase a) = sig checks F ^^^ col checks a := by
  have := sig_insert (checks := checks) (notMem_erase a F)
  rw [insert_erase ha] at this
  rw [this, Nat.xor_assoc, Nat.xor_self, Nat.xor_zero]

/-- How many sets of `k` of these columns have the sum `s`. -/
def plain : List Nat → Nat → Nat → Nat
  | [], s, k => if s = 0 ∧ k = 0 then 1 else 0
  | _ :: l, s, 0 => plain l s 0
  | c :: l, s, k + 1 => plain l s (k + 1) + plain l (s ^^^ c) k

theorem plain_large : ∀ (l : List Nat) (s k : Nat), l.length < k → plain l s k = 0
  | [], s, k, h => by
    rw [plain, if_neg]
    rintro ⟨-, rfl⟩
    simp at h
  | _ :: l, s, 0, h => by simp at h
  | c :: l, s, k + 1, h => by
    rw [List.length_cons] at h
    rw [plain, plain_large l _ _ (by omega), plain_large l _ _ (by omega)]

theorem plain_le : ∀ (l : List Nat) (s k : Nat), plain l s k ≤ 2 ^ l.length
  | [], s, k => by
    rw [plain]
    split <;> simp
  | _ :: l, s, 0 => by
    rw [plain, List.length_cons, pow_succ]
    have := plain_le l s 0
    omega
  | c :: l, s, k + 1 => by
    rw [plain, List.length_cons, pow_succ]
    have h1 := plain_le l s (k + 1)
    have h2 := plain_le l (s ^^^ c) k
    omega

theorem xor_eq_iff {a b s : Nat} : a ^^^ b = s ↔ a = s ^^^ b := by
  constructor
  · rintro rfl
    rw [Nat.xor_assoc, Nat.xor_self, Nat.xor_zero]
  · rintro rfl
    rw [Nat.xor_assoc, Nat.xor_self, Nat.xor_zero]

theorem sum_plain_succ {R : Type} [CommSemiring R] (c : Nat) (l : List Nat) (s : Nat) (f : Nat → R) :
    ∑ k ∈ range ((c :: l).length + 1), (plain (c :: l) s k : R) * f k =
      ∑ k ∈ range (l.length + 1), (plain l s k : R) * f k + ∑ k ∈ range (l.length + 1), (plain l (s ^^^ c) k : R) * f (k + 1) := by
  rw [List.length_cons, sum_range_succ', sum_range_succ' (fun k => (plain l s k : R) * f k)]
  have h1 : ∑ k ∈ range (l.length + 1), (plain (c :: l) s (k + 1) : R) * f (k + 1) =
      ∑ k ∈ range (l.length + 1), (plain l s (k + 1) : R) * f (k + 1) +
        ∑ k ∈ range (l.length + 1), (plain l (s ^^^ c) k : R) * f (k + 1) := by
    rw [← sum_add_distrib]
    refine sum_congr rfl fun k _ => ?_
    rw [plain, Nat.cast_add, add_mul]
  rw [h1, sum_range_succ (fun k => (plain l s (k + 1) : R) * f (k + 1)), plain_large l s (l.length + 1) (by omega)]
  rw [show plain (c :: l) s 0 = plain l s 0 from by rw [plain]]
  simp only [Nat.cast_zero, zero_mul, add_zero]
  ring

/-- A sum over the sets of flips that change `s`, by their size. -/
theorem sum_by_size (checks : List (Nat → Bool)) : ∀ (l : List Nat), l.Nodup → ∀ (s : Nat) (f : Nat → ℝ),
    ∑ F ∈ l.toFinset.powerset, (if sig checks F = s then f F.card else 0) =
      ∑ k ∈ range (l.length + 1), (plain (l.map (col checks)) s k : ℝ) * f k
  | [], _, s, f => by
    simp only [List.toFinset_nil, powerset_empty, sum_singleton, sig_empty, card_empty, List.length_nil, zero_add, range_one, List.map_nil, plain]
    by_cases h : s = 0
    · simp [h]
    · simp [h, Ne.symm h]
  | a :: l, hn, s, f => by
    have ha : a ∉ l.toFinset := fun h => (List.nodup_cons.1 hn).1 (List.mem_toFinset.1 h)
    have hl := (List.nodup_cons.1 hn).2
    have hs := sum_plain_succ (R := ℝ) (col checks a) (l.map (col checks)) s f
    rw [List.length_cons, List.length_map] at hs
    rw [List.toFinset_cons, sum_powerset_insert ha, List.map_cons, List.length_cons, hs, ← sum_by_size checks l hl s f,
      ← sum_by_size checks l hl (s ^^^ col checks a) fun k => f (k + 1)]
    congr 1
    refine sum_congr rfl fun F hF => ?_
    have haF : a ∉ F := fun h => ha (mem_powerset.1 hF h)
    rw [sig_insert haF, card_insert_of_notMem haF]
    simp only [xor_eq_iff]

/-! ### Digits -/

theorem digit_of_sum {b : Nat} : ∀ (n : Nat) (a : Nat → Nat), (∀ k, a k < b) → ∀ k, k < n →
    (∑ j ∈ range n, a j * b ^ j) / b ^ k % b = a k
  | 0, _, _, _, h => absurd h (Nat.not_lt_zero _)
  | n + 1, a, ha, k, hk => by
    have hb : 0 < b := Nat.lt_of_le_of_lt (Nat.zero_le _) (ha 0)
    have e : ∑ j ∈ range (n + 1), a j * b ^ j = a 0 + b * ∑ j ∈ range n, a (j + 1) * b ^ j := by
      rw [sum_range_succ', mul_sum, add_comm]
      congr 1
      · simp
      · refine sum_congr rfl fun j _ => ?_
        ring
    rw [e]
    cases k with
    | zero =>
      rw [pow_zero, Nat.div_one, Nat.add_mul_mod_self_left, Nat.mod_eq_of_lt (ha 0)]
    | succ k =>
      rw [pow_succ, mul_comm (b ^ k), ← Nat.div_div_eq_div_mul, Nat.add_mul_div_left _ _ hb, Nat.div_eq_of_lt (ha 0), zero_add]
      exact digit_of_sum n (fun j => a (j + 1)) (fun j => ha _) k (by omega)

/-- The digits of a number, the lowest first. -/
def digitsOf (b : Nat) : Nat → Nat → List Nat
  | 0, _ => []
  | n + 1, a => a % b :: digitsOf b n (a / b)

theorem digitsOf_get {b : Nat} : ∀ (n a k : Nat), k < n → (digitsOf b n a)[k]? = some (a / b ^ k % b)
  | 0, _, _, h => absurd h (Nat.not_lt_zero _)
  | n + 1, a, 0, _ => by simp [digitsOf]
  | n + 1, a, k + 1, h => by
    rw [digitsOf, List.getElem?_cons_succ, digitsOf_get n _ k (by omega), Nat.div_div_eq_div_mul, pow_succ, mul_comm]

/-- The numbers of sets of 0, 1, … columns with the sum `s`. -/
def counts (l : List Nat) (s : Nat) : List Nat := (List.range (l.length + 1)).map (plain l s)

theorem counts_get (l : List Nat) (s k : Nat) (hk : k < l.length + 1) : (counts l s)[k]? = some (plain l s k) := by
  unfold counts
  rw [List.getElem?_map, List.getElem?_range hk]
  rfl

theorem counts_length (l : List Nat) (s : Nat) : (counts l s).length = l.length + 1 := by
  simp [counts]

theorem digitsOf_length (b : Nat) : ∀ n a, (digitsOf b n a).length = n
  | 0, _ => rfl
  | n + 1, a => by rw [digitsOf, List.length_cons, digitsOf_length b n]

theorem counts_of_sum {l : List Nat} {s u b : Nat} (hb : 2 ^ l.length < b) (h : u = ∑ k ∈ range (l.length + 1), plain l s k * b ^ k) :
    digitsOf b (l.length + 1) u = counts l s := by
  refine List.ext_getElem? fun k => ?_
  by_cases hk : k < l.length + 1
  · rw [digitsOf_get _ _ _ hk, h, digit_of_sum _ _ (fun j => Nat.lt_of_le_of_lt (plain_le l s j) hb) _ hk, counts_get l s k hk]
  · rw [List.getElem?_eq_none (by rw [digitsOf_length]; omega), List.getElem?_eq_none (by rw [counts_length]; omega)]

end Qtc
