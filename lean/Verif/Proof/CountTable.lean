import Mathlib.Data.Nat.Bitwise
import Verif.Proof.Counting
/-!
Computing the numbers of sets of flips for all changes at once, as the digits of one number.
-/
namespace Qtc
open Finset

/-- `f n`, where `n` is computed first. -/
def forceNat {α : Type} (n : Nat) (f : Nat → α) : α :=
  match n with
  | 0 => f 0
  | .succ k => f (.succ k)

theorem forceNat_eq {α : Type} (n : Nat) (f : Nat → α) : forceNat n f = f n := by
  cases n <;> rfl

/-- The digits 0, 1, … of `w` bits with an index below `2 ^ (i + 1 + k)` whose bit `i` is 0, all of them `2 ^ w - 1`. -/
def maskFrom (w i : Nat) : Nat → Nat
  | 0 => 2 ^ (w * 2 ^ i) - 1
  | k + 1 => forceNat (maskFrom w i k) fun m => m ||| m <<< (w * 2 ^ (i + 1 + k))

/-- The digits with the indices `s` and `s ^^^ 2 ^ i` exchanged, for `2 ^ d` digits. -/
def swapDigits (w d i t : Nat) : Nat :=
  forceNat (maskFrom w i (d - 1 - i)) fun m => (t >>> (w * 2 ^ i)) &&& m ||| (t &&& m) <<< (w * 2 ^ i)

/-- The digits with the indices `s` and `s ^^^ (c * 2 ^ i)` exchanged. -/
def xorDigits (w d : Nat) : Nat → Nat → Nat → Nat → Nat
  | 0, _, _, t => t
  | k + 1, i, c, t => if c % 2 = 1 then forceNat (swapDigits w d i t) fun t => xorDigits w d k (i + 1) (c / 2) t else xorDigits w d k (i + 1) (c / 2) t

/-- The numbers for the columns of the list, the last one first. -/
def tableFrom (w d b : Nat) : List Nat → Nat → Nat
  | [], t => t
  | c :: l, t => forceNat (t + b * xorDigits w d d 0 c t) fun t => tableFrom w d b l t

/-- Digit `s`. -/
def digitAt (w t s : Nat) : Nat := t / (2 ^ w) ^ s % 2 ^ w

theorem testBit_digitAt (w t s j : Nat) : (digitAt w t s).testBit j = (decide (j < w) && t.testBit (w * s + j)) := by
  unfold digitAt
  rw [← pow_mul, Nat.testBit_mod_two_pow, Nat.testBit_div_two_pow, Nat.add_comm]

theorem xor_two_pow : ∀ (i s : Nat), (s.testBit i = true → 2 ^ i ≤ s ∧ s ^^^ 2 ^ i = s - 2 ^ i) ∧ (s.testBit i = false → s ^^^ 2 ^ i = s + 2 ^ i)
  | 0, s => by
    have h1 : (s ^^^ 1) / 2 = s / 2 := by
      have := Nat.shiftRight_xor_distrib (a := s) (b := 1) (i := 1)
      simpa [Nat.shiftRight_one] using this
    have h2 : (s ^^^ 1) % 2 = (s + 1) % 2 := Nat.xor_mod_two_eq
    rw [Nat.testBit_zero, pow_zero]
    constructor
    · intro h
      have h : s % 2 = 1 := by simpa using h
      omega
    · intro h
      have h : s % 2 ≠ 1 := by simpa using h
      omega
  | i + 1, s => by
    have h1 : (s ^^^ 2 ^ (i + 1)) / 2 = s / 2 ^^^ 2 ^ i := by
      have := Nat.shiftRight_xor_distrib (a := s) (b := 2 ^ (i + 1)) (i := 1)
      rw [Nat.shiftRight_one, Nat.shiftRight_one, Nat.shiftRight_one, pow_succ, Nat.mul_div_cancel _ (by norm_num)] at this
      rw [pow_succ]
      exact this
    have h2 : (s ^^^ 2 ^ (i + 1)) % 2 = (s + 2 ^ (i + 1)) % 2 := Nat.xor_mod_two_eq
    obtain ⟨h3, h4⟩ := xor_two_pow i (s / 2)
    rw [Nat.testBit_succ]
    have h5 : 2 ^ (i + 1) = 2 * 2 ^ i := by rw [pow_succ]; ring
    constructor
    · intro h
      have := h3 h
      omega
    · intro h
      have := h4 h
      omega

theorem testBit_maskFrom {w : Nat} (hw : 0 < w) (i : Nat) : ∀ k t : Nat,
    (maskFrom w i k).testBit t = (decide (t < w * 2 ^ (i + 1 + k)) && !(t / w).testBit i)
  | 0, t => by
    rw [maskFrom, Nat.testBit_two_pow_sub_one, add_zero]
    have h2 : 2 ^ (i + 1) = 2 ^ i + 2 ^ i := by rw [pow_succ]; ring
    have e1 : t < w * 2 ^ i ↔ t / w < 2 ^ i := by rw [Nat.div_lt_iff_lt_mul hw, Nat.mul_comm]
    have e2 : t < w * 2 ^ (i + 1) ↔ t / w < 2 ^ (i + 1) := by rw [Nat.div_lt_iff_lt_mul hw, Nat.mul_comm]
    obtain ⟨h3, h4⟩ := xor_two_pow i (t / w)
    cases hb : (t / w).testBit i with
    | true =>
      have := (h3 hb).1
      simp only [e1, e2, Bool.not_true, Bool.and_false, decide_eq_false_iff_not]
      omega
    | false =>
      by_cases hlt : t / w < 2 ^ (i + 1)
      · have h5 := Nat.xor_lt_two_pow hlt (Nat.pow_lt_pow_right (by norm_num) (Nat.lt_succ_self i))
        rw [h4 hb] at h5
        have : t / w < 2 ^ i := by omega
        simp [e1, e2, this, hlt]
      · have : ¬ t / w < 2 ^ i := by
          have : 2 ^ i ≤ 2 ^ (i + 1) := Nat.pow_le_pow_right (by norm_num) (Nat.le_succ i)
          omega
        simp [e1, e2, this, hlt]
  | k + 1, t => by
    rw [maskFrom, forceNat_eq, Nat.testBit_or, Nat.testBit_shiftLeft, testBit_maskFrom hw i k, testBit_maskFrom hw i k]
    have h2 : 2 ^ (i + 1 + (k + 1)) = 2 ^ (i + 1 + k) + 2 ^ (i + 1 + k) := by rw [← add_assoc, pow_succ]; ring
    have h3 : w * 2 ^ (i + 1 + (k + 1)) = w * 2 ^ (i + 1 + k) + w * 2 ^ (i + 1 + k) := by rw [h2]; ring
    by_cases hlt : t < w * 2 ^ (i + 1 + k)
    · have h4 : ¬ w * 2 ^ (i + 1 + k) ≤ t := by omega
      have h5 : t < w * 2 ^ (i + 1 + (k + 1)) := by omega
      simp [hlt, h4, h5]
    · have h4 : w * 2 ^ (i + 1 + k) ≤ t := by omega
      have h6 : (t - w * 2 ^ (i + 1 + k)) / w = t / w - 2 ^ (i + 1 + k) := Nat.sub_mul_div ..
      have h7 : 2 ^ (i + 1 + k) ≤ t / w := by rw [Nat.le_div_iff_mul_le hw, Nat.mul_comm]; exact h4
      have h8 : (t / w - 2 ^ (i + 1 + k)).testBit i = (t / w).testBit i := by
        have e : t / w = (t / w - 2 ^ (i + 1 + k)) + 2 ^ i * (2 * 2 ^ k) := by
          have : 2 ^ i * (2 * 2 ^ k) = 2 ^ (i + 1 + k) := by rw [pow_add, pow_add]; ring
          omega
        conv_rhs => rw [e]
        rw [Nat.testBit_eq_decide_div_mod_eq, Nat.testBit_eq_decide_div_mod_eq, Nat.add_mul_div_left _ _ (by positivity), Nat.add_mul_mod_self_left]
      have h9 : (t - w * 2 ^ (i + 1 + k) < w * 2 ^ (i + 1 + k)) ↔ t < w * 2 ^ (i + 1 + (k + 1)) := by omega
      simp [hlt, h4, h6, h8, h9]

theorem testBit_swapDigits {w d i t : Nat} (hw : 0 < w) (hi : i < d) {j : Nat} (hj : j < w * 2 ^ d) :
    (swapDigits w d i t).testBit j = t.testBit (w * (j / w ^^^ 2 ^ i) + j % w) := by
  have hd : i + 1 + (d - 1 - i) = d := by omega
  have hm : ∀ x, (maskFrom w i (d - 1 - i)).testBit x = (decide (x < w * 2 ^ d) && !(x / w).testBit i) := by
    intro x
    rw [testBit_maskFrom hw, hd]
  obtain ⟨h3, h4⟩ := xor_two_pow i (j / w)
  have hjw : w * (j / w) + j % w = j := Nat.div_add_mod j w
  rw [swapDigits, forceNat_eq, Nat.testBit_or, Nat.testBit_and, Nat.testBit_shiftRight, Nat.testBit_shiftLeft, Nat.testBit_and, hm, hm]
  have h6 : (j - w * 2 ^ i) / w = j / w - 2 ^ i := Nat.sub_mul_div ..
  cases hb : (j / w).testBit i with
  | true =>
    obtain ⟨h7, h8⟩ := h3 hb
    have h9 : w * 2 ^ i ≤ j := (Nat.mul_le_mul_left w h7).trans (Nat.mul_div_le j w)
    have h10 : (j / w - 2 ^ i).testBit i = false := by
      rw [← h8, Nat.testBit_xor, hb, Nat.testBit_two_pow_self]
      rfl
    have h11 : j - w * 2 ^ i < w * 2 ^ d := by omega
    have h12 : w * (j / w - 2 ^ i) + j % w = j - w * 2 ^ i := by
      rw [Nat.mul_sub]
      have := Nat.mul_le_mul_left w h7
      omega
    rw [h8, h12, h6, h10]
    simp [h9, h11]
  | false =>
    have h8 := h4 hb
    have h12 : w * (j / w + 2 ^ i) + j % w = w * 2 ^ i + j := by
      rw [Nat.mul_add]
      omega
    rw [h8, h12]
    have h13 : (decide (w * 2 ^ i ≤ j) && (t.testBit (j - w * 2 ^ i) && (decide (j - w * 2 ^ i < w * 2 ^ d) && !((j - w * 2 ^ i) / w).testBit i))) =
        false := by
      by_cases h9 : w * 2 ^ i ≤ j
      · have h14 : 2 ^ i ≤ j / w := by rw [Nat.le_div_iff_mul_le hw, Nat.mul_comm]; exact h9
        have h15 : (j / w - 2 ^ i).testBit i = true := by
          have h16 := (xor_two_pow i (j / w - 2 ^ i)).2
          cases hc : (j / w - 2 ^ i).testBit i with
          | true => rfl
          | false =>
            have h17 := h16 hc
            rw [Nat.sub_add_cancel h14] at h17
            have h18 := congrArg (Nat.testBit · i) h17
            simp only [Nat.testBit_xor, hc, hb, Nat.testBit_two_pow_self] at h18
            exact absurd h18 (by decide)
        rw [h6, h15]
        simp
      · simp [h9]
    rw [h13]
    simp [hj]

theorem digitAt_swap {w d i t : Nat} (hw : 0 < w) (hi : i < d) {s : Nat} (hs : s < 2 ^ d) :
    digitAt w (swapDigits w d i t) s = digitAt w t (s ^^^ 2 ^ i) := by
  refine Nat.eq_of_testBit_eq fun j => ?_
  rw [testBit_digitAt, testBit_digitAt]
  by_cases hj : j < w
  · have h1 : (w * s + j) / w = s := by
      rw [Nat.mul_add_div hw, Nat.div_eq_of_lt hj, add_zero]
    have h2 : (w * s + j) % w = j := by rw [Nat.mul_add_mod, Nat.mod_eq_of_lt hj]
    have h3 : w * s + j < w * 2 ^ d := by
      have := Nat.mul_le_mul_left w (Nat.succ_le_of_lt hs)
      rw [Nat.succ_eq_add_one, Nat.mul_add, mul_one] at this
      omega
    rw [testBit_swapDigits hw hi h3, h1, h2]
  · simp [hj]

theorem swap_lt {w d i : Nat} (hw : 0 < w) (hi : i < d) (t : Nat) : swapDigits w d i t < 2 ^ (w * 2 ^ d) := by
  have hd : i + 1 + (d - 1 - i) = d := by omega
  have hm : maskFrom w i (d - 1 - i) < 2 ^ (w * 2 ^ d) := Nat.lt_pow_two_of_testBit _ fun j hj => by
    rw [testBit_maskFrom hw, hd]
    simp [hj]
  rw [swapDigits, forceNat_eq]
  refine Nat.or_lt_two_pow (Nat.and_lt_two_pow _ hm) (Nat.lt_pow_two_of_testBit _ fun j hj => ?_)
  rw [Nat.testBit_shiftLeft, Nat.testBit_and, testBit_maskFrom hw, hd]
  by_cases h9 : w * 2 ^ i ≤ j
  · have h6 : (j - w * 2 ^ i) / w = j / w - 2 ^ i := Nat.sub_mul_div ..
    by_cases h10 : j - w * 2 ^ i < w * 2 ^ d
    · have h14 : 2 ^ i ≤ j / w := by rw [Nat.le_div_iff_mul_le hw, Nat.mul_comm]; exact h9
      have h11 : j / w - 2 ^ i < 2 ^ d := by
        rw [← h6, Nat.div_lt_iff_lt_mul hw, Nat.mul_comm (2 ^ d)]
        exact h10
      have h12 : 2 ^ d ≤ j / w := by
        rw [Nat.le_div_iff_mul_le hw, Nat.mul_comm]
        exact hj
      have h15 : (j / w - 2 ^ i).testBit i = true := by
        cases hc : (j / w - 2 ^ i).testBit i with
        | true => rfl
        | false =>
          have h16 := (xor_two_pow i (j / w - 2 ^ i)).2 hc
          rw [Nat.sub_add_cancel h14] at h16
          have := Nat.xor_lt_two_pow h11 (Nat.pow_lt_pow_right (by norm_num) hi)
          omega
      rw [h6, h15]
      simp
    · simp [h10]
  · simp [h9]

theorem digitAt_xor {w d : Nat} (hw : 0 < w) : ∀ (k i c t : Nat), i + k ≤ d → c < 2 ^ k → t < 2 ^ (w * 2 ^ d) →
    xorDigits w d k i c t < 2 ^ (w * 2 ^ d) ∧ ∀ s < 2 ^ d, digitAt w (xorDigits w d k i c t) s = digitAt w t (s ^^^ c * 2 ^ i)
  | 0, i, c, t, _, hc, ht => by
    have : c = 0 := by simpa using hc
    rw [this, xorDigits]
    exact ⟨ht, fun s _ => by rw [zero_mul, Nat.xor_zero]⟩
  | k + 1, i, c, t, hk, hc, ht => by
    have h2 : c / 2 < 2 ^ k := by rw [pow_succ] at hc; omega
    have h3 : c / 2 * 2 ^ (i + 1) = c / 2 * 2 * 2 ^ i := by rw [pow_succ]; ring
    rw [xorDigits]
    split
    · rename_i h1
      obtain ⟨h4, h5⟩ := digitAt_xor hw k (i + 1) (c / 2) (swapDigits w d i t) (by omega) h2 (swap_lt hw (by omega) t)
      rw [forceNat_eq]
      refine ⟨h4, fun s hs => ?_⟩
      have h6 : c * 2 ^ i = (c / 2 * 2 ^ (i + 1)) ^^^ 2 ^ i := by
        have h7 : (c / 2 * 2 ^ (i + 1)).testBit i = false := by
          rw [Nat.testBit_mul_two_pow]
          simp
        rw [(xor_two_pow i _).2 h7, h3]
        have : c = c / 2 * 2 + 1 := by omega
        nth_rewrite 1 [this]
        ring
      have h8 : s ^^^ c / 2 * 2 ^ (i + 1) < 2 ^ d := by
        refine Nat.xor_lt_two_pow hs (lt_of_lt_of_le (Nat.mul_lt_mul_of_pos_right h2 (by positivity)) ?_)
        rw [← pow_add]
        exact Nat.pow_le_pow_right (by norm_num) (by omega)
      rw [h5 s hs, digitAt_swap hw (by omega) h8, h6, Nat.xor_assoc]
    · rename_i h1
      obtain ⟨h4, h5⟩ := digitAt_xor hw k (i + 1) (c / 2) t (by omega) h2 ht
      refine ⟨h4, fun s hs => ?_⟩
      rw [h5 s hs, h3]
      congr 3
      omega

theorem sum_digitAt (w t : Nat) : ∀ m, ∑ s ∈ range m, digitAt w t s * (2 ^ w) ^ s = t % (2 ^ w) ^ m
  | 0 => by rw [range_zero, sum_empty, pow_zero, Nat.mod_one]
  | m + 1 => by rw [sum_range_succ, sum_digitAt w t m, Nat.mod_pow_succ, digitAt, Nat.mul_comm]

theorem sum_lt {b : Nat} {a : Nat → Nat} (ha : ∀ k, a k < b) : ∀ m, ∑ k ∈ range m, a k * b ^ k < b ^ m
  | 0 => by simp
  | m + 1 => by
    rw [sum_range_succ, pow_succ]
    have h1 := sum_lt ha m
    have h2 := Nat.mul_le_mul_right (b ^ m) (Nat.succ_le_of_lt (ha m))
    rw [Nat.succ_eq_add_one, Nat.add_mul, one_mul] at h2
    rw [Nat.mul_comm (b ^ m)]
    omega

/-- The numbers of sets of all sizes as one number. -/
def whole (cols : List Nat) (b s : Nat) : Nat := ∑ k ∈ range (cols.length + 1), plain cols s k * b ^ k

theorem whole_lt {cols : List Nat} {b : Nat} (hb : 2 ^ cols.length < b) (s : Nat) : whole cols b s < b ^ (cols.length + 1) :=
  sum_lt (fun k => Nat.lt_of_le_of_lt (plain_le cols s k) hb) _

theorem whole_cons (c : Nat) (l : List Nat) (b s : Nat) : whole (c :: l) b s = whole l b s + b * whole l b (s ^^^ c) := by
  have hs := sum_plain_succ (R := Nat) c l s (b ^ ·)
  simp only [Nat.cast_id] at hs
  unfold whole
  rw [hs, mul_sum]
  congr 1
  exact sum_congr rfl fun k _ => by ring

/-- The digits of `t` are the numbers for the columns. -/
def Tabulates (w d b : Nat) (l : List Nat) (t : Nat) : Prop := t < 2 ^ (w * 2 ^ d) ∧ ∀ s < 2 ^ d, digitAt w t s = whole l b s

theorem tabulates_start {w d b : Nat} (hw : 0 < w) : Tabulates w d b [] 1 := by
  constructor
  · exact Nat.one_lt_two_pow (by positivity)
  · intro s _
    have h1 : 1 < 2 ^ w := Nat.one_lt_two_pow (by omega)
    cases s with
    | zero => simp [digitAt, whole, plain, Nat.mod_eq_of_lt h1]
    | succ s =>
      have : 1 < (2 ^ w) ^ (s + 1) := Nat.one_lt_pow (by omega) h1
      simp [digitAt, whole, plain, Nat.div_eq_of_lt this]

theorem tabulates_cons {w d b c : Nat} {l : List Nat} {t : Nat} (hw : 0 < w) (h : Tabulates w d b l t) (hc : c < 2 ^ d)
    (hb : ∀ s, whole (c :: l) b s < 2 ^ w) : Tabulates w d b (c :: l) (t + b * xorDigits w d d 0 c t) := by
  obtain ⟨h1, h2⟩ := digitAt_xor hw d 0 c t (by omega) hc h.1
  have hp : (2 ^ w) ^ 2 ^ d = 2 ^ (w * 2 ^ d) := by rw [← pow_mul]
  have e : t + b * xorDigits w d d 0 c t = ∑ s ∈ range (2 ^ d), whole (c :: l) b s * (2 ^ w) ^ s := by
    have e1 := sum_digitAt w t (2 ^ d)
    have e2 := sum_digitAt w (xorDigits w d d 0 c t) (2 ^ d)
    rw [hp, Nat.mod_eq_of_lt h.1] at e1
    rw [hp, Nat.mod_eq_of_lt h1] at e2
    have e3 : t + b * xorDigits w d d 0 c t = ∑ s ∈ range (2 ^ d), digitAt w t s * (2 ^ w) ^ s +
        b * ∑ s ∈ range (2 ^ d), digitAt w (xorDigits w d d 0 c t) s * (2 ^ w) ^ s := by rw [e1, e2]
    rw [e3, mul_sum, ← sum_add_distrib]
    refine sum_congr rfl fun s hs => ?_
    have hs := mem_range.1 hs
    rw [whole_cons, h.2 s hs, h2 s hs, pow_zero, mul_one, h.2 _ (Nat.xor_lt_two_pow hs hc)]
    ring
  constructor
  · rw [e, ← hp]
    exact sum_lt hb _
  · intro s hs
    rw [e]
    exact digit_of_sum _ _ hb s hs

theorem tabulates_table {d b : Nat} {w : Nat} (hw : 0 < w) : ∀ (l m : List Nat) (t : Nat), 2 ^ (l.length + m.length) < b →
    b ^ (l.length + m.length + 1) ≤ 2 ^ w → (∀ c ∈ l, c < 2 ^ d) → Tabulates w d b m t → Tabulates w d b (l.reverse ++ m) (tableFrom w d b l t)
  | [], m, t, _, _, _, h => by
    rw [tableFrom]
    exact h
  | c :: l, m, t, h1, h2, hc, h => by
    rw [tableFrom, forceNat_eq, List.reverse_cons, List.append_assoc, List.singleton_append]
    rw [List.length_cons] at h1 h2
    refine tabulates_table hw l (c :: m) _ (by rw [List.length_cons]; convert h1 using 2; omega)
      (by rw [List.length_cons]; convert h2 using 2; omega) (fun c h => hc c (List.mem_cons_of_mem _ h))
      (tabulates_cons hw h (hc c List.mem_cons_self) fun s => ?_)
    have hb0 : 0 < b := Nat.lt_of_le_of_lt (Nat.zero_le _) h1
    refine lt_of_lt_of_le (whole_lt (lt_of_le_of_lt (Nat.pow_le_pow_right (by norm_num) (by rw [List.length_cons]; omega)) h1) s)
      (le_trans (Nat.pow_le_pow_right hb0 (by rw [List.length_cons]; omega)) h2)

theorem table_whole {d b w : Nat} {l : List Nat} (hb : 2 ^ l.length < b) (hw : b ^ (l.length + 1) ≤ 2 ^ w) (hl : ∀ c ∈ l, c < 2 ^ d) :
    Tabulates w d b l (tableFrom w d b l.reverse 1) := by
  have hw0 : 0 < w := by
    rcases Nat.eq_zero_or_pos w with rfl | h
    · have h1 : 1 < b := lt_of_le_of_lt Nat.one_le_two_pow hb
      have := Nat.one_lt_pow (Nat.succ_ne_zero l.length) h1
      rw [pow_zero] at hw
      exact absurd hw (Nat.not_le_of_lt this)
    · exact h
  have := tabulates_table (d := d) hw0 l.reverse [] 1 (by simpa using hb) (by simpa using hw) (fun c h => hl c (List.mem_reverse.1 h))
    (tabulates_start hw0)
  rwa [List.reverse_reverse, List.append_nil] at this

/-- Does `f` hold for all pairs of neighbouring digits? -/
def allPairs (w : Nat) (f : Nat → Nat → Bool) : Nat → Nat → Bool
  | 0, t => forceNat (t % 2 ^ w) fun u => forceNat (t / 2 ^ w) fun v => f u v
  | d + 1, t => (forceNat (t % 2 ^ (w * 2 ^ (d + 1))) fun t => allPairs w f d t) && forceNat (t / 2 ^ (w * 2 ^ (d + 1))) fun t => allPairs w f d t

theorem allPairs_digitAt {w : Nat} {f : Nat → Nat → Bool} : ∀ {d t : Nat}, allPairs w f d t = true → t < 2 ^ (w * 2 ^ (d + 1)) →
    ∀ s < 2 ^ d, f (digitAt w t (2 * s)) (digitAt w t (2 * s + 1)) = true
  | 0, t, h, ht, s, hs => by
    have : s = 0 := by simpa using hs
    subst this
    rw [allPairs, forceNat_eq, forceNat_eq] at h
    have h1 : t / 2 ^ w < 2 ^ w := by
      rw [Nat.div_lt_iff_lt_mul (by positivity), ← pow_add]
      convert ht using 2
      ring
    rw [digitAt, digitAt, mul_zero, pow_zero, Nat.div_one, zero_add, pow_one, Nat.mod_eq_of_lt h1]
    exact h
  | d + 1, t, h, ht, s, hs => by
    rw [allPairs, forceNat_eq, forceNat_eq, Bool.and_eq_true] at h
    have hp : (2 ^ w) ^ 2 ^ (d + 1) = 2 ^ (w * 2 ^ (d + 1)) := by rw [← pow_mul]
    have h2 : 2 ^ (d + 1) = 2 ^ d + 2 ^ d := by rw [pow_succ]; ring
    by_cases hlt : s < 2 ^ d
    · have h3 := allPairs_digitAt h.1 (Nat.mod_lt _ (by positivity)) s hlt
      have : ∀ k < 2 ^ (d + 1), digitAt w (t % 2 ^ (w * 2 ^ (d + 1))) k = digitAt w t k := by
        intro k hk
        refine Nat.eq_of_testBit_eq fun j => ?_
        rw [testBit_digitAt, testBit_digitAt, Nat.testBit_mod_two_pow]
        by_cases hj : j < w
        · have : w * k + j < w * 2 ^ (d + 1) := by
            have := Nat.mul_le_mul_left w (Nat.succ_le_of_lt hk)
            rw [Nat.succ_eq_add_one, Nat.mul_add, mul_one] at this
            omega
          simp [this]
        · simp [hj]
      rwa [this _ (by omega), this _ (by omega)] at h3
    · obtain ⟨r, hr⟩ := Nat.exists_eq_add_of_le (Nat.le_of_not_lt hlt)
      have h3 := allPairs_digitAt h.2 (by
        rw [Nat.div_lt_iff_lt_mul (by positivity), ← pow_add]
        convert ht using 2
        rw [pow_succ 2 (d + 1)]
        ring) r (by omega)
      have : ∀ k, digitAt w (t / 2 ^ (w * 2 ^ (d + 1))) k = digitAt w t (2 ^ (d + 1) + k) := by
        intro k
        rw [digitAt, digitAt, pow_add (2 ^ w), hp, Nat.div_div_eq_div_mul]
      rw [this, this] at h3
      convert h3 using 2 <;> congr 1 <;> omega

end Qtc
