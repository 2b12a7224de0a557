import Verif.Proof.OddLines
import Verif.Proof.QNoisy
/-!
A staircase of faults: data flips in every second row of the left column, one round earlier for every two rows, each together with a
misreading of the plaquette below. There is a smaller set of faults with the same hits.
-/
namespace Qtc
open Spec

variable {dh dw T : Int} {f : Nat}

/-- The column of the Z plaquette at the left edge between rows `k` and `k + 1`. -/
def leftCol (k : Nat) : Int := if k % 2 = 0 then 1 else -1

/-- When the data qubit in the given row flips. -/
def stairTime (f r : Nat) : Nat := f - r / 2

/-- The flip of the data qubit of the left column in the given row. -/
def stairRow (f r : Nat) : Fault := .data (stairTime f r) r 0

/-- A misreading of the plaquette below that row. -/
def stairCut (f k : Nat) : Fault := .meas (stairTime f (k + 1)) (2 * k + 1) (leftCol k)

/-- The staircase. -/
def stairs (f : Nat) : List Fault := (List.range f).flatMap fun j => [stairRow f (2 * j + 1), stairCut f (2 * j + 1)]

/-- The flips of the other data qubits of the column. -/
def stairRest (f d : Nat) : List Fault := ((List.range d).filter fun r => decide (¬ (r % 2 = 1 ∧ r < 2 * f))).map (stairRow f)

theorem leftCol_site {k : Nat} (hk : (k : Int) + 1 < dh) (hw : 0 < dw) : Site .Z dh dw (2 * k + 1) (leftCol k) := by
  show ZSite dh dw _ _
  unfold ZSite leftCol
  split <;> omega

theorem stairs_fits (hf : 2 * (f : Int) < dh) (hw : 0 < dw) (hT : (f : Int) < T) : ∀ x ∈ stairs f, x.Fits .Z dh dw T := by
  intro x hx
  obtain ⟨j, hj, hx⟩ := List.mem_flatMap.1 hx
  rw [List.mem_range] at hj
  simp only [List.mem_cons, List.not_mem_nil, or_false] at hx
  rcases hx with rfl | rfl
  · show _ ∧ _ ∧ _ ∧ _ ∧ _ ∧ _
    unfold stairTime
    omega
  · refine ⟨?_, ?_, leftCol_site (by omega) hw⟩
    · unfold stairTime; omega
    · unfold stairTime; omega

theorem stairRest_fits (hw : 0 < dw) (hT : (f : Int) < T) : ∀ x ∈ stairRest f dh.toNat, x.Fits .Z dh dw T := by
  intro x hx
  obtain ⟨r, hr, rfl⟩ := List.mem_map.1 hx
  have := List.mem_range.1 (List.mem_filter.1 hr).1
  show _ ∧ _ ∧ _ ∧ _ ∧ _ ∧ _
  unfold stairTime
  omega

/-- A sum over a range of which only two neighbouring terms count. -/
theorem xorAll_two (g : Nat → Bool) (n a : Nat) (h : ∀ j, j ≠ a → j ≠ a + 1 → g j = false) :
    xorAll ((List.range n).map g) = ((decide (a < n) && g a) ^^ (decide (a + 1 < n) && g (a + 1))) := by
  induction n with
  | zero => simp
  | succ n ih =>
    rw [List.range_succ, List.map_append, xorAll_append, ih]
    simp only [List.map_cons, List.map_nil, xorAll_cons, xorAll_nil, Bool.xor_false]
    rcases Nat.lt_trichotomy n a with h1 | rfl | h1
    · rw [h n (by omega) (by omega), decide_eq_false (show ¬ a < n by omega), decide_eq_false (show ¬ a + 1 < n by omega),
        decide_eq_false (show ¬ a < n + 1 by omega), decide_eq_false (show ¬ a + 1 < n + 1 by omega)]
      simp
    · rw [decide_eq_false (show ¬ n < n by omega), decide_eq_false (show ¬ n + 1 < n by omega),
        decide_eq_true (show n < n + 1 by omega), decide_eq_false (show ¬ n + 1 < n + 1 by omega)]
      simp
    · by_cases h2 : n = a + 1
      · subst h2
        simp
      · rw [h n (by omega) h2, decide_eq_true (show a < n by omega), decide_eq_true (show a + 1 < n by omega),
          decide_eq_true (show a < n + 1 by omega), decide_eq_true (show a + 1 < n + 1 by omega)]
        simp

theorem countP_odd {α : Type} (p : α → Bool) (l : List α) : l.countP p % 2 = 1 ↔ xorAll (l.map p) = true := by
  induction l with
  | nil => simp
  | cons a l ih =>
    rw [List.countP_cons, List.map_cons, xorAll_cons]
    cases h : p a
    · simpa using ih
    · have : (l.countP p + 1) % 2 = 1 ↔ ¬ l.countP p % 2 = 1 := by omega
      simp [this, ih]

theorem changes_row (n : Node) (k : Nat) (hr : n.r2 = 2 * k + 1) (hc : n.c2 = leftCol k) (r : Nat) :
    Fault.changes n (stairRow f r) = (decide (r = k ∨ r = k + 1) && decide (n.t = stairTime f r)) := by
  unfold stairRow Fault.changes
  rw [Bool.eq_iff_iff]
  simp only [Bool.and_eq_true, Bool.or_eq_true, beq_iff_eq, decide_eq_true_eq]
  have : n.c2 = 1 ∨ n.c2 = -1 := by rw [hc]; unfold leftCol; split <;> simp
  constructor
  · intro h; omega
  · intro h; omega

theorem changes_cut (n : Node) (k : Nat) (hr : n.r2 = 2 * k + 1) (hc : n.c2 = leftCol k) (j : Nat) :
    Fault.changes n (stairCut f j) = (decide (j = k) && (decide (n.t = stairTime f (j + 1)) || decide (n.t = stairTime f (j + 1) + 1))) := by
  unfold stairCut Fault.changes
  rw [Bool.eq_iff_iff]
  simp only [Bool.and_eq_true, Bool.or_eq_true, beq_iff_eq, decide_eq_true_eq]
  constructor
  · intro h; exact ⟨by omega, h.2⟩
  · rintro ⟨rfl, h⟩; exact ⟨⟨hr, hc⟩, h⟩

/-- Nodes away from the left edge are not touched. -/
theorem changes_far (n : Node) (k : Nat) (hr : n.r2 = 2 * k + 1) (hs : Site .Z dh dw n.r2 n.c2) (hc : n.c2 ≠ leftCol k) (r : Nat) :
    Fault.changes n (stairRow f r) = false ∧ Fault.changes n (stairCut f r) = false := by
  have hs' : ZSite dh dw n.r2 n.c2 := hs
  unfold ZSite at hs'
  unfold stairRow stairCut Fault.changes
  constructor
  · rw [Bool.eq_false_iff]
    intro h
    simp only [Bool.and_eq_true, Bool.or_eq_true, beq_iff_eq] at h
    unfold leftCol at hc
    split at hc <;> omega
  · rw [Bool.eq_false_iff]
    intro h
    simp only [Bool.and_eq_true, Bool.or_eq_true, beq_iff_eq] at h
    have : r = k := by omega
    subst this
    exact hc h.1.2

theorem stairs_changes (n : Node) (k : Nat) (hr : n.r2 = 2 * k + 1) (hc : n.c2 = leftCol k) :
    xorAll ((stairs f).map (Fault.changes n)) = (decide (k < 2 * f) && decide (n.t = stairTime f (k + 1))) := by
  unfold stairs
  rw [List.map_flatMap, xorAll_flatMap]
  simp only [List.map_cons, List.map_nil, xorAll_cons, xorAll_nil, Bool.xor_false]
  rw [xorAll_two _ f (k / 2)]
  · simp only [changes_row n k hr hc, changes_cut n k hr hc]
    rcases Nat.mod_two_eq_zero_or_one k with h | h
    · have e1 : 2 * (k / 2) = k := by omega
      rw [e1, decide_eq_true (show k + 1 = k ∨ k + 1 = k + 1 by omega), decide_eq_false (show ¬ k + 1 = k by omega),
        decide_eq_false (show ¬ (2 * (k / 2 + 1) + 1 = k ∨ 2 * (k / 2 + 1) + 1 = k + 1) by omega),
        decide_eq_false (show ¬ (2 * (k / 2 + 1) + 1 = k) by omega)]
      have e2 : decide (k / 2 < f) = decide (k < 2 * f) := by rw [decide_eq_decide]; omega
      rw [e2]
      simp
    · have e1 : 2 * (k / 2) + 1 = k := by omega
      rw [e1, decide_eq_true (show k = k ∨ k = k + 1 by omega), decide_eq_true (show k = k from rfl),
        decide_eq_false (show ¬ (2 * (k / 2 + 1) + 1 = k ∨ 2 * (k / 2 + 1) + 1 = k + 1) by omega),
        decide_eq_false (show ¬ (2 * (k / 2 + 1) + 1 = k) by omega)]
      have e2 : decide (k / 2 < f) = decide (k < 2 * f) := by rw [decide_eq_decide]; omega
      rw [e2]
      by_cases hk : k < 2 * f
      · have e3 : (stairTime f k : Int) = stairTime f (k + 1) + 1 := by unfold stairTime; omega
        rw [decide_eq_true hk, e3]
        by_cases h1 : n.t = (stairTime f (k + 1) : Int)
        · rw [decide_eq_true h1, decide_eq_false (show ¬ n.t = (stairTime f (k + 1) : Int) + 1 by omega)]
          simp
        · rw [decide_eq_false h1]
          cases decide (n.t = (stairTime f (k + 1) : Int) + 1) <;> simp
      · rw [decide_eq_false hk]
        simp
  · intro j h1 h2
    rw [changes_row n k hr hc, changes_cut n k hr hc, decide_eq_false (show ¬ (2 * j + 1 = k ∨ 2 * j + 1 = k + 1) by omega),
      decide_eq_false (show ¬ (2 * j + 1 = k) by omega)]
    simp

theorem stairRest_changes {d : Nat} (n : Node) (k : Nat) (hk : k + 1 < d) (hr : n.r2 = 2 * k + 1) (hc : n.c2 = leftCol k) :
    xorAll ((stairRest f d).map (Fault.changes n)) = (decide (k < 2 * f) && decide (n.t = stairTime f (k + 1))) := by
  unfold stairRest
  rw [List.map_map, xorAll_filter, xorAll_two _ d k]
  · rw [decide_eq_true (show k < d by omega), decide_eq_true hk]
    simp only [Function.comp, changes_row n k hr hc, true_or, or_true, decide_true, Bool.true_and]
    rcases Nat.mod_two_eq_zero_or_one k with h | h
    · rw [decide_eq_true (show ¬ (k % 2 = 1 ∧ k < 2 * f) by omega)]
      by_cases h2 : k < 2 * f
      · rw [decide_eq_false (show ¬ ¬ ((k + 1) % 2 = 1 ∧ k + 1 < 2 * f) by omega), decide_eq_true h2,
          show stairTime f k = stairTime f (k + 1) by unfold stairTime; omega]
        simp
      · rw [decide_eq_true (show ¬ ((k + 1) % 2 = 1 ∧ k + 1 < 2 * f) by omega), decide_eq_false h2,
          show stairTime f k = stairTime f (k + 1) by unfold stairTime; omega]
        simp
    · rw [decide_eq_true (show ¬ ((k + 1) % 2 = 1 ∧ k + 1 < 2 * f) by omega)]
      by_cases h2 : k < 2 * f
      · rw [decide_eq_false (show ¬ ¬ (k % 2 = 1 ∧ k < 2 * f) by omega), decide_eq_true h2]
        simp
      · rw [decide_eq_true (show ¬ (k % 2 = 1 ∧ k < 2 * f) by omega), decide_eq_false h2,
          show stairTime f k = stairTime f (k + 1) by unfold stairTime; omega]
        simp
  · intro j h1 h2
    simp only [Function.comp]
    rw [changes_row n k hr hc, decide_eq_false (show ¬ (j = k ∨ j = k + 1) by omega)]
    simp

/-- The staircase and the rest of the column have the same hits. -/
theorem stairs_hits (hf : 2 * (f : Int) < dh) (n : Node) :
    IsHit .Z dh dw T (stairRest f dh.toNat) n ↔ IsHit .Z dh dw T (stairs f) n := by
  unfold IsHit
  refine and_congr_right fun _ => and_congr_right fun _ => and_congr_right fun hs => ?_
  have hs' : ZSite dh dw n.r2 n.c2 := hs
  unfold ZSite at hs'
  obtain ⟨k, hk⟩ : ∃ k : Nat, n.r2 = 2 * k + 1 := ⟨(n.r2 / 2).toNat, by omega⟩
  rw [countP_odd, countP_odd]
  by_cases hc : n.c2 = leftCol k
  · rw [stairs_changes n k hk hc, stairRest_changes n k (by omega) hk hc]
  · rw [xorAll_eq_false (l := (stairRest f dh.toNat).map _), xorAll_eq_false (l := (stairs f).map _)]
    · intro b hb
      obtain ⟨x, hx, rfl⟩ := List.mem_map.1 hb
      obtain ⟨j, -, hx⟩ := List.mem_flatMap.1 hx
      simp only [List.mem_cons, List.not_mem_nil, or_false] at hx
      rcases hx with rfl | rfl
      · exact (changes_far n k hk hs hc _).1
      · exact (changes_far n k hk hs hc _).2
    · intro b hb
      obtain ⟨x, hx, rfl⟩ := List.mem_map.1 hb
      obtain ⟨r, -, rfl⟩ := List.mem_map.1 hx
      exact (changes_far n k hk hs hc _).1

theorem stairRest_length {d : Nat} (hd : 2 * f ≤ d) : (stairRest f d).length + f = d := by
  unfold stairRest
  rw [List.length_map]
  obtain ⟨e, rfl⟩ := Nat.exists_eq_add_of_le hd
  clear hd
  have h0 : ∀ e, ((List.range (2 * f + e)).filter fun r => decide (¬ (r % 2 = 1 ∧ r < 2 * f))).length =
      ((List.range (2 * f)).filter fun r => decide (¬ (r % 2 = 1 ∧ r < 2 * f))).length + e := by
    intro e
    induction e with
    | zero => rfl
    | succ e ih =>
      rw [← Nat.add_assoc, List.range_succ, List.filter_append, List.length_append, ih, List.filter_cons_of_pos (by simp)]
      rfl
  have h1 : ∀ k, k ≤ f → ((List.range (2 * k)).filter fun r => decide (¬ (r % 2 = 1 ∧ r < 2 * f))).length = k := by
    intro k
    induction k with
    | zero => intro _; rfl
    | succ k ih =>
      intro hk
      rw [show 2 * (k + 1) = 2 * k + 1 + 1 by omega, List.range_succ, List.range_succ, List.filter_append, List.filter_append, List.length_append,
        List.length_append, ih (by omega), List.filter_cons_of_pos (by simp), List.filter_cons_of_neg (by simp; omega)]
      rfl
  rw [h0, h1 f (Nat.le_refl f)]
  omega

theorem stairs_line (k : Nat) : xorAll ((stairs f).map (Fault.inLine .Z k)) = decide (k % 2 = 1 ∧ k < 2 * f) := by
  unfold stairs
  rw [List.map_flatMap, xorAll_flatMap]
  simp only [List.map_cons, List.map_nil, xorAll_cons, xorAll_nil, Bool.xor_false, stairRow, stairCut, Fault.inLine]
  rw [xorAll_two _ f (k / 2)]
  · rw [Bool.eq_iff_iff]
    have e1 : (((2 * (k / 2 + 1) + 1 : Nat) : Int) == (k : Int)) = false := by
      rw [beq_eq_false_iff_ne]; omega
    rw [e1, Bool.and_false, Bool.xor_false]
    simp only [Bool.and_eq_true, decide_eq_true_eq, beq_iff_eq]
    omega
  · intro j h1 h2
    rw [beq_eq_false_iff_ne]
    omega

/-! ### A lower bound -/

/-- The row of a data flip, or the row above a misread plaquette. -/
def levelOf : Fault → Int
  | .data _ r _ => r
  | .meas _ r2 _ => r2 / 2

/-- How many faults there are at a level. -/
def atLevel (gs : List Fault) (k : Nat) : Nat := gs.countP fun g => decide (levelOf g = k)

/-- How many data flips there are in a row. -/
def inRow (gs : List Fault) (k : Nat) : Nat := gs.countP (Fault.inLine .Z k)

theorem atLevel_sum (gs : List Fault) (n : Nat) : ((List.range n).map (atLevel gs)).sum ≤ gs.length := by
  induction gs with
  | nil =>
    have : ∀ n, ((List.range n).map (atLevel [])).sum = 0 := by
      intro n
      induction n with
      | zero => rfl
      | succ n ih => rw [List.range_succ, List.map_append, List.sum_append, ih]; rfl
    rw [this]
    exact Nat.le_refl _
  | cons g gs ih =>
    have hstep : ∀ n, ((List.range n).map (atLevel (g :: gs))).sum =
        ((List.range n).map (atLevel gs)).sum + if 0 ≤ levelOf g ∧ levelOf g < n then 1 else 0 := by
      intro n
      induction n with
      | zero => rw [if_neg (by omega)]; rfl
      | succ n ih =>
        rw [List.range_succ, List.map_append, List.sum_append, ih, List.map_append, List.sum_append]
        simp only [List.map_cons, List.map_nil, List.sum_cons, List.sum_nil, atLevel, List.countP_cons, decide_eq_true_eq]
        split <;> split <;> split <;> omega
    rw [hstep, List.length_cons]
    split <;> omega

theorem inRow_le (gs : List Fault) (k : Nat) : inRow gs k ≤ atLevel gs k := by
  refine List.countP_mono_left fun g _ h => ?_
  cases g with
  | data t r c => exact decide_eq_true (beq_iff_eq.1 h)
  | meas t r c => cases h

/-- A lattice position that changes is explained by a fault next to it. -/
theorem hit_fault {gs : List Fault} {n : Node} (h : IsHit .Z dh dw T gs n) {k : Nat} (hr : n.r2 = 2 * k + 1) :
    (∃ t c, Fault.meas t n.r2 c ∈ gs) ∨ (∃ c, Fault.data n.t k c ∈ gs) ∨ ∃ c, Fault.data n.t (k + 1) c ∈ gs := by
  have := (countP_odd _ _).1 h.2.2.2
  obtain ⟨g, hg, hx⟩ := xorAll_true_exists this
  cases g with
  | data t r c =>
    simp only [Fault.changes, Bool.and_eq_true, Bool.or_eq_true, beq_iff_eq] at hx
    obtain ⟨⟨rfl, h2⟩, -⟩ := hx
    rcases h2 with h2 | h2
    · have : r = k + 1 := by omega
      subst this
      exact Or.inr (Or.inr ⟨c, hg⟩)
    · have : r = k := by omega
      subst this
      exact Or.inr (Or.inl ⟨c, hg⟩)
  | meas t r c =>
    simp only [Fault.changes, Bool.and_eq_true, Bool.or_eq_true, beq_iff_eq] at hx
    obtain ⟨⟨rfl, -⟩, -⟩ := hx
    exact Or.inl ⟨t, c, hg⟩

theorem inRow_pos {gs : List Fault} {t c : Int} {k : Nat} (h : Fault.data t k c ∈ gs) : 0 < inRow gs k :=
  List.countP_pos_iff.2 ⟨_, h, by simp [Fault.inLine]⟩

/-- Misreadings come on top of the data flips of a level. -/
theorem atLevel_meas {gs : List Fault} {t c r : Int} {k : Nat} (h : Fault.meas t r c ∈ gs) (hr : r = 2 * k + 1) : inRow gs k + 1 ≤ atLevel gs k := by
  induction gs with
  | nil => cases h
  | cons g gs ih =>
    unfold inRow atLevel at *
    rw [List.countP_cons, List.countP_cons]
    rcases List.mem_cons.1 h with rfl | h
    · have h1 := inRow_le gs k
      unfold inRow atLevel at h1
      have e : decide (levelOf (.meas t r c) = k) = true := by
        rw [decide_eq_true_eq]
        show r / 2 = k
        omega
      rw [e]
      simp only [Fault.inLine, Bool.false_eq_true, if_false, if_true]
      omega
    · have := ih h
      have e : (if Fault.inLine .Z k g = true then 1 else 0) ≤ if decide (levelOf g = (k : Int)) = true then 1 else 0 := by
        cases g with
        | data t r c =>
          have : Fault.inLine .Z k (.data t r c) = decide (levelOf (.data t r c) = (k : Int)) := beq_eq_decide _ _
          rw [this]
        | meas t r c => simp [Fault.inLine]
      omega

/-- Two flips in the same row at different times. -/
theorem inRow_two {gs : List Fault} {t t' c c' : Int} {k : Nat} (h : Fault.data t k c ∈ gs) (h' : Fault.data t' k c' ∈ gs) (hne : t ≠ t') :
    2 ≤ inRow gs k := by
  by_contra hc
  have h1 := inRow_pos h
  have h2 : inRow gs k = 1 := by omega
  unfold inRow at h2
  rw [List.countP_eq_length_filter, List.length_eq_one_iff] at h2
  obtain ⟨a, ha⟩ := h2
  have m1 : Fault.data t k c ∈ gs.filter (Fault.inLine .Z k) := List.mem_filter.2 ⟨h, by simp [Fault.inLine]⟩
  have m2 : Fault.data t' k c' ∈ gs.filter (Fault.inLine .Z k) := List.mem_filter.2 ⟨h', by simp [Fault.inLine]⟩
  rw [ha, List.mem_singleton] at m1 m2
  rw [← m2] at m1
  exact hne (Fault.data.inj m1).1

theorem stairs_hit (hf : 2 * (f : Int) < dh) (hw : 0 < dw) (hT : (f : Int) < T) {k : Nat} (hk : k < 2 * f) :
    IsHit .Z dh dw T (stairs f) ⟨stairTime f (k + 1), 2 * k + 1, leftCol k⟩ := by
  refine ⟨by show (0 : Int) ≤ (stairTime f (k + 1) : Nat); omega, ?_, leftCol_site (by omega) hw, ?_⟩
  · show ((stairTime f (k + 1) : Nat) : Int) < T
    unfold stairTime
    omega
  · rw [countP_odd, stairs_changes _ k rfl rfl, decide_eq_true hk]
    simp

/-- Every fault set with the hits of the staircase that does the same to the readout has at least `2 * f` faults. -/
theorem stairs_least (H : OddPos dh dw) (hf : 2 * (f : Int) < dh) (hT : (f : Int) < T) {gs : List Fault} (hg : ∀ g ∈ gs, g.Fits .Z dh dw T)
    (hhit : ∀ n, IsHit .Z dh dw T gs n ↔ IsHit .Z dh dw T (stairs f) n) (hr : readoutFlipped .Z gs = readoutFlipped .Z (stairs f)) :
    2 * f ≤ gs.length := by
  rcases Nat.eq_zero_or_pos f with rfl | hpos
  · omega
  have hw : 0 < dw := H.2.2.1
  have hline : ∀ k : Nat, (k : Int) < dh → (inRow gs k % 2 = 1 ↔ k % 2 = 1 ∧ k < 2 * f) := by
    intro k hk
    have := same_lines (T := T) ⟨H, by have := H.2.1; show 3 ≤ dh; omega⟩ (stairs_fits hf hw hT) hg (fun n => (hhit n).symm) k (by show k < dh.toNat; omega)
    rw [hr, Bool.xor_self, stairs_line] at this
    unfold inRow
    rw [countP_odd]
    rw [← decide_eq_true_iff (p := k % 2 = 1 ∧ k < 2 * f)]
    revert this
    cases decide (k % 2 = 1 ∧ k < 2 * f) <;> cases xorAll (gs.map (Fault.inLine .Z k)) <;> simp
  -- one step of the stairs
  have hstep : ∀ j, j < f → 4 + inRow gs (2 * j) ≤ 2 * atLevel gs (2 * j) + 2 * atLevel gs (2 * j + 1) + inRow gs (2 * (j + 1)) := by
    intro j hj
    have p0 := hline (2 * j) (by omega)
    have p1 := hline (2 * j + 1) (by omega)
    have p2 := hline (2 * (j + 1)) (by omega)
    have l0 := inRow_le gs (2 * j)
    have l1 := inRow_le gs (2 * j + 1)
    have hA := (hhit _).2 (stairs_hit hf hw hT (k := 2 * j) (by omega))
    have hB := (hhit _).2 (stairs_hit hf hw hT (k := 2 * j + 1) (by omega))
    have hA' := hit_fault hA (k := 2 * j) rfl
    have hB' := hit_fault hB (k := 2 * j + 1) rfl
    have e2 : ((2 * j + 1 : Nat) : Int) + 1 = ((2 * (j + 1) : Nat) : Int) := by push_cast; omega
    have e1 : ((2 * j : Nat) : Int) + 1 = ((2 * j + 1 : Nat) : Int) := by push_cast; omega
    rw [e1] at hA'
    rw [e2] at hB'
    rcases hA' with ⟨t, c, h⟩ | ⟨c, h⟩ | ⟨c, h⟩
    · have := atLevel_meas h (k := 2 * j) rfl
      omega
    · have := inRow_pos h
      omega
    · rcases hB' with ⟨t', c', h'⟩ | ⟨c', h'⟩ | ⟨c', h'⟩
      · have := atLevel_meas h' (k := 2 * j + 1) rfl
        omega
      · have := inRow_two h h' (by
          show ((stairTime f (2 * j + 1) : Nat) : Int) ≠ (stairTime f (2 * j + 1 + 1) : Nat)
          unfold stairTime
          omega)
        omega
      · have := inRow_pos h'
        omega
  have hind : ∀ j, j ≤ f → 4 * j ≤ 2 * ((List.range (2 * j)).map (atLevel gs)).sum + inRow gs (2 * j) := by
    intro j
    induction j with
    | zero => intro _; omega
    | succ j ih =>
      intro hj
      have h1 := ih (by omega)
      have h2 := hstep j (by omega)
      rw [show 2 * (j + 1) = 2 * j + 1 + 1 by omega] at *
      rw [List.range_succ, List.range_succ, List.map_append, List.map_append, List.sum_append, List.sum_append]
      simp only [List.map_cons, List.map_nil, List.sum_cons, List.sum_nil]
      omega
  have h1 := hind f (Nat.le_refl f)
  have h2 := atLevel_sum gs (2 * f + 1)
  rw [List.range_succ, List.map_append, List.sum_append] at h2
  simp only [List.map_cons, List.map_nil, List.sum_cons, List.sum_nil] at h2
  have h3 := inRow_le gs (2 * f)
  omega

/-- All smallest fault sets with the hits of a staircase of more than a third of the height do the opposite to the readout. -/
theorem stairs_decided (H : OddPos dh dw) (hf : 2 * (f : Int) < dh) (h3 : dh < 3 * (f : Int)) (hT : (f : Int) < T) :
    Decided .Z dh dw T (stairs f) true := by
  intro gs hg hhit hmin
  have h1 := hmin _ (stairRest_fits H.2.2.1 hT) (stairs_hits hf)
  have h2 := stairRest_length (f := f) (d := dh.toNat) (by omega)
  by_contra hne
  have := stairs_least H hf hT hg hhit (by
    revert hne
    cases readoutFlipped .Z gs <;> cases readoutFlipped .Z (stairs f) <;> simp)
  omega

end Qtc
