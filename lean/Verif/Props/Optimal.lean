import Verif.Proof.OptimalChecks
/-!
C120: is the decoder of the repository the best one? For one time step, on the lattices with sides 3 and 5.

A rule decides from the hits of the type whether the measured value is flipped. The decoder of the repository is one (`C120_rule`).
-/
namespace Qtc
open Spec Function

variable {cls : QClass} {dh dw : Int} {key : Key}

/-- C120: the decoder of the repository is such a rule. -/
theorem C120_rule (B : Bench cls dh dw key 1) : ∃ G : List Node → Bool, ∀ π : Nat × Qubit → Bool × Bool → ℝ, (∀ i ∈ B.places, PauliNoise (π i)) →
    B.ruleRate π G = B.rate π none := by
  obtain ⟨x, hx⟩ := rule_of_bench B
  exact ⟨x, fun π hπ => (rate_is_ruleRate B hπ (x := x) fun F hF L v h => (hx F hF L v h).1).symm⟩

/-- C120: on the 3 × 3 lattice no rule has a smaller error rate, for every code, both types, and every probability up to 1/2. -/
theorem C120_smallest (B : Bench cls 3 3 key 1) {π : Nat × Qubit → Bool × Bool → ℝ} (hπ : ∀ i ∈ B.places, PauliNoise (π i)) {p : ℝ}
    (hp : ∀ i ∈ B.places, turnProb (turnedAt cls.code key B.q.lat.name i) (π i) = p) (h0 : 0 ≤ p) (h1 : p ≤ 1 / 2) (G : List Node → Bool) :
    B.rate π none ≤ B.ruleRate π G := by
  have hu : ((2 : Nat) : ℝ) * (p * (1 - p)) ≤ p ^ 2 + (1 - p) ^ 2 := by push_cast; nlinarith [sq_nonneg (1 - 2 * p)]
  cases key
  · exact best_of_check B hπ hp h0 h1 hu checkX33 G
  · exact best_of_check B hπ hp h0 h1 hu checkZ33 G

/-- C120: on the 3 × 5 and 5 × 3 lattices no rule has a smaller error rate, if the probability is at most 1/10. -/
theorem C120_oblong (hd : (dh, dw) = (3, 5) ∨ (dh, dw) = (5, 3)) (B : Bench cls dh dw key 1) {π : Nat × Qubit → Bool × Bool → ℝ}
    (hπ : ∀ i ∈ B.places, PauliNoise (π i)) {p : ℝ} (hp : ∀ i ∈ B.places, turnProb (turnedAt cls.code key B.q.lat.name i) (π i) = p) (h0 : 0 ≤ p)
    (h1 : p ≤ 1 / 10) (G : List Node → Bool) : B.rate π none ≤ B.ruleRate π G := by
  have hu : ((9 : Nat) : ℝ) * (p * (1 - p)) ≤ p ^ 2 + (1 - p) ^ 2 := by push_cast; nlinarith
  have hu' : ((7 : Nat) : ℝ) * (p * (1 - p)) ≤ p ^ 2 + (1 - p) ^ 2 := by push_cast; nlinarith
  have h2 : p ≤ 1 / 2 := by linarith
  rcases hd with hd | hd <;> obtain ⟨rfl, rfl⟩ := Prod.mk.inj hd <;> cases key
  · exact best_of_check B hπ hp h0 h2 hu' checkX35 G
  · exact best_of_check B hπ hp h0 h2 hu checkZ35 G
  · exact best_of_check B hπ hp h0 h2 hu checkX53 G
  · exact best_of_check B hπ hp h0 h2 hu' checkZ53 G

/-- C120: on the 5 × 5 lattice no rule has a smaller error rate, if the probability is at most 1/38. -/
theorem C120_square (B : Bench cls 5 5 key 1) {π : Nat × Qubit → Bool × Bool → ℝ} (hπ : ∀ i ∈ B.places, PauliNoise (π i)) {p : ℝ}
    (hp : ∀ i ∈ B.places, turnProb (turnedAt cls.code key B.q.lat.name i) (π i) = p) (h0 : 0 ≤ p) (h1 : p ≤ 1 / 38) (G : List Node → Bool) :
    B.rate π none ≤ B.ruleRate π G := by
  have hu : ((37 : Nat) : ℝ) * (p * (1 - p)) ≤ p ^ 2 + (1 - p) ^ 2 := by push_cast; nlinarith
  have h2 : p ≤ 1 / 2 := by linarith
  cases key
  · exact best_of_check B hπ hp h0 h2 hu checkX55 G
  · exact best_of_check B hπ hp h0 h2 hu checkZ55 G

theorem negative35 {x : ℝ} (h0 : 0 < x) (h1 : x < 1) (hx : 1 ≤ 8 * x) :
    ev (diff [0, 0, 0, 1, 0, 48, 0, 106, 0, 88, 0, 13, 0, 0, 0, 0] [0, 0, 0, 0, 13, 0, 88, 0, 106, 0, 48, 0, 1, 0, 0, 0]) x < 0 := by
  have e : ev (diff [0, 0, 0, 1, 0, 48, 0, 106, 0, 88, 0, 13, 0, 0, 0, 0] [0, 0, 0, 0, 13, 0, 88, 0, 106, 0, 48, 0, 1, 0, 0, 0]) x =
      x ^ 3 * (1 - x) ^ 5 * ((1 + x ^ 2) * (1 + x ^ 2 - 8 * x) - 4 * x ^ 2) := by
    simp only [ev, diff, List.foldr]
    push_cast
    ring
  rw [e]
  have h2 : x ^ 2 < 1 := by nlinarith
  refine mul_neg_of_pos_of_neg (mul_pos (pow_pos h0 3) (pow_pos (by linarith) 5)) ?_
  have h3 : 0 < x ^ 2 := pow_pos h0 2
  have h4 : (1 + x ^ 2) * (1 + x ^ 2 - 8 * x) ≤ (1 + x ^ 2) * x ^ 2 := mul_le_mul_of_nonneg_left (by linarith) (by linarith)
  nlinarith

theorem negative53 {x : ℝ} (h0 : 0 < x) (h1 : x < 1) (hx : 1 ≤ 6 * x) :
    ev (diff [0, 0, 0, 1, 0, 13, 0, 27, 0, 15, 0, 8, 0, 0, 0, 0] [0, 0, 0, 0, 8, 0, 15, 0, 27, 0, 13, 0, 1, 0, 0, 0]) x < 0 := by
  have e : ev (diff [0, 0, 0, 1, 0, 13, 0, 27, 0, 15, 0, 8, 0, 0, 0, 0] [0, 0, 0, 0, 8, 0, 15, 0, 27, 0, 13, 0, 1, 0, 0, 0]) x =
      x ^ 3 * (1 - x) ^ 3 * (1 - 5 * x - 5 * x ^ 2 - 14 * x ^ 3 - 5 * x ^ 4 - 5 * x ^ 5 + x ^ 6) := by
    simp only [ev, diff, List.foldr]
    push_cast
    ring
  rw [e]
  refine mul_neg_of_pos_of_neg (mul_pos (pow_pos h0 3) (pow_pos (by linarith) 3)) ?_
  have h2 : 0 < x ^ 2 := pow_pos h0 2
  have h3 : 0 < x ^ 3 := pow_pos h0 3
  have h4 : 0 < x ^ 4 := pow_pos h0 4
  have h6 : x ^ 6 ≤ x ^ 5 := pow_le_pow_of_le_one h0.le h1.le (by norm_num)
  have h5 : 0 < x ^ 5 := pow_pos h0 5
  nlinarith [mul_nonneg h0.le (show 0 ≤ 6 * x - 1 by linarith)]

theorem negative55 {x : ℝ} (h0 : 0 < x) (h1 : x < 1) (hx : 1 ≤ 35 * x) :
    ev (diff [0, 0, 0, 0, 0, 1, 0, 122, 0, 567, 0, 1012, 0, 1247, 0, 842, 0, 265, 0, 40, 0, 0, 0, 0, 0, 0]
      [0, 0, 0, 0, 0, 0, 40, 0, 265, 0, 842, 0, 1247, 0, 1012, 0, 567, 0, 122, 0, 1, 0, 0, 0, 0, 0]) x < 0 := by
  have e : ev (diff [0, 0, 0, 0, 0, 1, 0, 122, 0, 567, 0, 1012, 0, 1247, 0, 842, 0, 265, 0, 40, 0, 0, 0, 0, 0, 0]
      [0, 0, 0, 0, 0, 0, 40, 0, 265, 0, 842, 0, 1247, 0, 1012, 0, 567, 0, 122, 0, 1, 0, 0, 0, 0, 0]) x =
      x ^ 5 * (1 - x) ^ 5 * ((1 + x ^ 2) ^ 3 * ((1 + x ^ 2) * (1 + x ^ 2 - 35 * x) - 68 * x ^ 2) -
        (80 * (1 + x ^ 2) ^ 2 * x ^ 3 + 64 * (1 + x ^ 2) * x ^ 4 + 16 * x ^ 5)) := by
    simp only [ev, diff, List.foldr]
    push_cast
    ring
  rw [e]
  have h2 : x ^ 2 < 1 := by nlinarith
  refine mul_neg_of_pos_of_neg (mul_pos (pow_pos h0 5) (pow_pos (by linarith) 5)) ?_
  have h3 : 0 < x ^ 2 := pow_pos h0 2
  have h4 : (1 + x ^ 2) * (1 + x ^ 2 - 35 * x) ≤ (1 + x ^ 2) * x ^ 2 := mul_le_mul_of_nonneg_left (by linarith) (by linarith)
  have h5 : (1 + x ^ 2) * (1 + x ^ 2 - 35 * x) - 68 * x ^ 2 < 0 := by nlinarith
  have h6 := mul_neg_of_pos_of_neg (pow_pos (show 0 < 1 + x ^ 2 by linarith) 3) h5
  have h7 : 0 < 80 * (1 + x ^ 2) ^ 2 * x ^ 3 + 64 * (1 + x ^ 2) * x ^ 4 + 16 * x ^ 5 := by positivity
  linarith

/-- The better rule of the other theorems. -/
theorem better_of_counts (B : Bench cls dh dw key 1) {π : Nat × Qubit → Bool × Bool → ℝ} (hπ : ∀ i ∈ B.places, PauliNoise (π i)) {p : ℝ}
    (hp : ∀ i ∈ B.places, turnProb (turnedAt cls.code key B.q.lat.name i) (π i) = p) (h1 : p < 1) {s k : Nat} {c c' : List Nat}
    (hc : counts (colsOf key dh dw) s = c ∧ counts (colsOf key dh dw) (s ^^^ 1) = c') (hk : c[k]?.getD 0 ≠ 0) (hz : (c'.take (k + 1)).all (· == 0) = true)
    (hn : ev (diff c c') (p / (1 - p)) < 0) : ∃ G, B.ruleRate π G < B.rate π none := by
  refine better_of_check B hπ hp (s := s) (k := k) (by rw [plain_counts hc.1]; exact hk) (fun j hj => ?_) (mass_less hc.1 hc.2 h1 hn)
  rw [plain_counts hc.2]
  cases h : c'[j]? with
  | none => rfl
  | some v =>
    have : v ∈ c'.take (k + 1) := by
      refine List.mem_of_getElem? (i := j) ?_
      rw [List.getElem?_take, if_pos (by omega), h]
    simpa using List.all_eq_true.1 hz v this

/-- C120: on the 3 × 5 and 5 × 3 lattices there is a rule with a smaller error rate, for every probability from 1/7 on; for type Z of the 3 × 5
lattice and type X of the 5 × 3 one, from 1/9 on. -/
theorem C120_oblong_not (hd : (dh, dw) = (3, 5) ∨ (dh, dw) = (5, 3)) (B : Bench cls dh dw key 1) {π : Nat × Qubit → Bool × Bool → ℝ}
    (hπ : ∀ i ∈ B.places, PauliNoise (π i)) {p : ℝ} (hp : ∀ i ∈ B.places, turnProb (turnedAt cls.code key B.q.lat.name i) (π i) = p)
    (h0 : 1 / 9 ≤ p) (h1 : p < 1 / 2) (hk : (dh = 3 ∧ key = .Z) ∨ (dh = 5 ∧ key = .X) ∨ 1 / 7 ≤ p) : ∃ G, B.ruleRate π G < B.rate π none := by
  have h2 : p < 1 := by linarith
  obtain ⟨a1, a2, a3⟩ := odds_bounds (m := 8) (by norm_num) (by norm_num; linarith) h1
  have key7 : 1 / 7 ≤ p → 1 ≤ 6 * (p / (1 - p)) := fun h => (odds_bounds (m := 6) (by norm_num) (by norm_num; linarith) h1).1
  rcases hd with hd | hd <;> obtain ⟨rfl, rfl⟩ := Prod.mk.inj hd <;> cases key
  · refine better_of_counts B hπ hp h2 countsX35 (k := 3) (by decide) (by decide) (negative53 a2 a3 (key7 ?_))
    rcases hk with ⟨-, hk⟩ | ⟨hk, -⟩ | hk
    · cases hk
    · omega
    · exact hk
  · exact better_of_counts B hπ hp h2 countsZ35 (k := 3) (by decide) (by decide) (negative35 a2 a3 a1)
  · exact better_of_counts B hπ hp h2 countsX53 (k := 3) (by decide) (by decide) (negative35 a2 a3 a1)
  · refine better_of_counts B hπ hp h2 countsZ53 (k := 3) (by decide) (by decide) (negative53 a2 a3 (key7 ?_))
    rcases hk with ⟨hk, -⟩ | ⟨-, hk⟩ | hk
    · omega
    · cases hk
    · exact hk

/-- C120: on the 5 × 5 lattice there is a rule with a smaller error rate for every probability from 1/36 on. -/
theorem C120_square_not (B : Bench cls 5 5 key 1) {π : Nat × Qubit → Bool × Bool → ℝ} (hπ : ∀ i ∈ B.places, PauliNoise (π i)) {p : ℝ}
    (hp : ∀ i ∈ B.places, turnProb (turnedAt cls.code key B.q.lat.name i) (π i) = p) (h0 : 1 / 36 ≤ p) (h1 : p < 1 / 2) :
    ∃ G, B.ruleRate π G < B.rate π none := by
  have h2 : p < 1 := by linarith
  obtain ⟨a1, a2, a3⟩ := odds_bounds (m := 35) (by norm_num) (by norm_num; linarith) h1
  cases key
  · exact better_of_counts B hπ hp h2 countsX55 (k := 5) (by decide) (by decide) (negative55 a2 a3 a1)
  · exact better_of_counts B hπ hp h2 countsZ55 (k := 5) (by decide) (by decide) (negative55 a2 a3 a1)

/-- Bit flips, as in the tutorial: the 3 × 3 XXZZ qubit is decoded as well as possible, the 5 × 5 one for small probabilities only. -/
example : ∃ (B : Bench .xxzz 3 3 .Z 1) (B' : Bench .xxzz 5 5 .Z 1),
    (∀ p : ℝ, 0 ≤ p → p ≤ 1 / 2 → ∀ G, B.rate (fun _ => bitNoise p) none ≤ B.ruleRate (fun _ => bitNoise p) G) ∧
    (∀ p : ℝ, 0 ≤ p → p ≤ 1 / 38 → ∀ G, B'.rate (fun _ => bitNoise p) none ≤ B'.ruleRate (fun _ => bitNoise p) G) ∧
      ∀ p : ℝ, 1 / 36 ≤ p → p < 1 / 2 → ∃ G, B'.ruleRate (fun _ => bitNoise p) G < B'.rate (fun _ => bitNoise p) none := by
  obtain ⟨B, -⟩ := C91_exists (dh := 3) (dw := 3) (T := 1) .xxzz (by decide) .Z (by unfold OddPos; omega) (by decide) (Or.inl (by decide)) true
    (fun h => by cases h)
  obtain ⟨B', -⟩ := C91_exists (dh := 5) (dw := 5) (T := 1) .xxzz (by decide) .Z (by unfold OddPos; omega) (by decide) (Or.inl (by decide)) true
    (fun h => by cases h)
  have ht : ∀ (name : Str) (i : Nat × Qubit) (p : ℝ), turnProb (turnedAt .xxzz .Z name i) (bitNoise p) = p := by
    intro name i p
    rw [turnProb_bit]
    simp [bitNoise]
  exact ⟨B, B', fun p h0 h1 G => C120_smallest B (fun _ _ => bitNoise_pauli h0 (by linarith)) (fun i _ => ht _ i p) h0 h1 G,
    fun p h0 h1 G => C120_square B' (fun _ _ => bitNoise_pauli h0 (by linarith)) (fun i _ => ht _ i p) h0 h1 G,
    fun p h0 h1 => C120_square_not B' (fun _ _ => bitNoise_pauli (by linarith) (by linarith)) (fun i _ => ht _ i p) h0 h1⟩

/-- Noise on the 3 × 5 XZZX qubit that turns a data qubit with probability 1/10, such as depolarising noise of total probability 3/20: the decoder
is the best one. -/
example (B : Bench .xzzx 3 5 .Z 1) (G : List Node → Bool) {π : Nat × Qubit → Bool × Bool → ℝ} (hπ : ∀ i ∈ B.places, PauliNoise (π i))
    (hp : ∀ i ∈ B.places, turnProb (turnedAt .xzzx .Z B.q.lat.name i) (π i) = 1 / 10) : B.rate π none ≤ B.ruleRate π G :=
  C120_oblong (Or.inl rfl) B hπ hp (by norm_num) le_rfl G

end Qtc
