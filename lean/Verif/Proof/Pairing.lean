import Verif.Proof.Distance
import Verif.Proof.CorrectHits
import Verif.Spec.Pairing
/-!
Lemmas about splits of the hits.
-/
namespace Qtc
open Spec

variable {key : Key} {dh dw T : Int}

theorem level_lev (n : Node) : level key n = lev key n := by cases key <;> rfl

theorem faultsBetween_symm (a b : Node) : faultsBetween key dh dw a b = faultsBetween key dh dw b a := by
  unfold faultsBetween straight viaFirst viaLast timeApart
  have e1 : (level key a - level key b).natAbs = (level key b - level key a).natAbs := by omega
  have e2 : (lane key a - lane key b).natAbs = (lane key b - lane key a).natAbs := by omega
  have e3 : (a.t - b.t).natAbs = (b.t - a.t).natAbs := by omega
  have e4 : 2 * distance key dh dw - level key a - level key b = 2 * distance key dh dw - level key b - level key a := by omega
  rw [e1, e2, e3, e4, Int.add_comm (level key a)]
  simp only [or_comm (a := a.t = -1)]

theorem pdist_eq (H : Long key dh dw) (hT : 0 < T) {a b : Node} (ha : GNode key dh dw T a) (hb : GNode key dh dw T b) :
    pdist (GAdj key dh dw T) a b = faultsBetween key dh dw a b :=
  (pdist_spec (gnode_connected H hT ha hb)).unique (isDist_faultsBetween H hT ha hb)

/-! ### Boundary nodes -/

/-- Every boundary node is at least as far as the nearer boundary. -/
theorem toBoundary_le (H : Long key dh dw) (hT : 0 < T) {a v : Node} (ha : GNode key dh dw T a) (hv : GNode key dh dw T v) (h : v.t = -1) :
    toBoundary key dh dw a ≤ faultsBetween key dh dw a v ∧
      (faultsBetween key dh dw a v ≤ toBoundary key dh dw a → level key v = 0 → 2 * level key a ≤ distance key dh dw) ∧
      (faultsBetween key dh dw a v ≤ toBoundary key dh dw a → level key v = distance key dh dw → distance key dh dw ≤ 2 * level key a) := by
  obtain ⟨fa, -, -, -⟩ := gnode_spot H hT ha
  obtain ⟨fv, bv, -, -⟩ := gnode_spot H hT hv
  have hd := long_sizes H
  have e := bv.1 h
  unfold InFrame at fa fv
  obtain ⟨p1, p2, p3, p4, -⟩ := fa
  obtain ⟨q1, q2, q3, q4, -⟩ := fv
  unfold toBoundary faultsBetween straight viaFirst viaLast timeApart
  rw [if_pos (Or.inr h), Nat.add_zero]
  generalize level key a = la at *
  generalize level key v = lv at *
  generalize (lane key a - lane key v).natAbs = x at *
  generalize distance key dh dw = D at *
  rcases e with rfl | rfl
  · refine ⟨by omega, by omega, by omega⟩
  · refine ⟨by omega, by omega, by omega⟩

/-- There is a boundary node at the distance of the nearer boundary. -/
theorem exists_boundary (H : Long key dh dw) (hT : 0 < T) {a : Node} (ha : GNode key dh dw T a) :
    ∃ v, GNode key dh dw T v ∧ v.t = -1 ∧ faultsBetween key dh dw a v = toBoundary key dh dw a := by
  obtain ⟨fa, -, -, -⟩ := gnode_spot H hT ha
  have hd := long_sizes H
  have hodd : distance key dh dw % 2 = 1 := by
    have := H.1
    unfold OddPos at this
    cases key <;> simp only [distance] <;> omega
  have fa' := fa
  unfold InFrame at fa'
  obtain ⟨p1, p2, p3, p4, p5⟩ := fa'
  -- the level and lane of the boundary node
  obtain ⟨l, k, hl, hk1, hk2, hk3, hx, hpar⟩ : ∃ l k : Int, (l = 0 ∨ l = distance key dh dw) ∧ 0 ≤ k ∧ k ≤ laneMax key dh dw ∧
      (lane key a - k).natAbs ≤ (level key a - l).natAbs ∧
      (level key a - l).natAbs = toBoundary key dh dw a ∧ (l + k) % 2 = (level key a + lane key a) % 2 := by
    unfold toBoundary
    generalize level key a = la at *
    generalize lane key a = ka at *
    generalize distance key dh dw = D at *
    generalize laneMax key dh dw = B at *
    clear fa ha H
    by_cases hn : la ≤ D - la
    · rw [min_eq_left hn]
      by_cases he : la % 2 = 0
      · exact ⟨0, ka, by omega⟩
      · by_cases hb : ka < B
        · exact ⟨0, ka + 1, by omega⟩
        · exact ⟨0, ka - 1, by omega⟩
    · rw [min_eq_right (by omega)]
      by_cases he : (D - la) % 2 = 0
      · exact ⟨D, ka, by omega⟩
      · by_cases hb : ka < B
        · exact ⟨D, ka + 1, by omega⟩
        · exact ⟨D, ka - 1, by omega⟩
  have fv : InFrame key dh dw l k := by
    unfold InFrame
    refine ⟨by omega, by omega, hk1, hk2, ?_⟩
    rw [hpar, p5]
  have gv := spot_gnode (T := T) (t := 0) H (le_refl 0) hT fv
  have hlev : level key (spot key dh dw 0 l k) = l ∧ lane key (spot key dh dw 0 l k) = k ∧ (spot key dh dw 0 l k).t = -1 := by
    cases key
    · simp only [level, lane, spot, distance] at *
      rw [if_pos hl]
      exact ⟨by omega, by omega, rfl⟩
    · simp only [level, lane, spot, distance] at *
      rw [if_pos hl]
      exact ⟨by omega, by omega, rfl⟩
  refine ⟨_, gv, hlev.2.2, le_antisymm ?_ (toBoundary_le H hT ha gv hlev.2.2).1⟩
  unfold faultsBetween
  refine (min_le_left _ _).trans ?_
  unfold straight timeApart
  rw [if_pos (Or.inr hlev.2.2), hlev.1, hlev.2.1, ← hx]
  omega

/-! ### Lists of pairs -/

/-- A split as a list of pairs of nodes. -/
theorem split_pairs (H : Long key dh dw) (hT : 0 < T) {L : List Node} (hL : ∀ n ∈ L, GNode key dh dw T n) {P : List (Node × Node)} {Q : List Node}
    (h : Split L P Q) : ∃ M : List (Node × Node), (∀ n ∈ ends M, GNode key dh dw T n) ∧ totalDist key dh dw T M = splitCost key dh dw P Q ∧
      (∀ n : Node, n.t ≠ -1 → (ends M).count n = L.count n) ∧
      ((∀ n ∈ L, n.t ≠ -1) → crossPar key M = oddFirst key dh dw Q) := by
  have hodd : distance key dh dw % 2 = 1 := by
    have := H.1
    unfold OddPos at this
    cases key <;> simp only [distance] <;> omega
  have hd := long_sizes H
  have key1 : ∀ Q : List Node, (∀ n ∈ Q, GNode key dh dw T n) → ∃ M : List (Node × Node), (∀ n ∈ ends M, GNode key dh dw T n) ∧
      totalDist key dh dw T M = (Q.map (toBoundary key dh dw)).sum ∧ (∀ n : Node, n.t ≠ -1 → (ends M).count n = Q.count n) ∧
      ((∀ n ∈ Q, n.t ≠ -1) → crossPar key M = oddFirst key dh dw Q) := by
    intro Q
    induction Q with
    | nil => intro _; exact ⟨[], by simp, rfl, by simp, fun _ => rfl⟩
    | cons q Q ih =>
      intro hQ
      obtain ⟨M, h1, h2, h3, h4⟩ := ih fun n hn => hQ n (List.mem_cons_of_mem _ hn)
      obtain ⟨v, g1, g2, g3⟩ := exists_boundary H hT (hQ q List.mem_cons_self)
      refine ⟨(q, v) :: M, ?_, ?_, ?_, ?_⟩
      · intro n hn
        rw [ends_cons] at hn
        rcases List.mem_cons.1 hn with rfl | hn
        · exact hQ _ List.mem_cons_self
        · rcases List.mem_cons.1 hn with rfl | hn
          · exact g1
          · exact h1 n hn
      · unfold totalDist at *
        rw [List.map_cons, List.sum_cons, h2, List.map_cons, List.sum_cons, ← g3]
        rw [pdist_eq H hT (hQ q List.mem_cons_self) g1]
      · intro n hn
        rw [ends_cons, List.count_cons, List.count_cons, h3 n hn, List.count_cons]
        simp only [beq_iff_eq]
        have : v ≠ n := fun e => hn (e ▸ g2)
        rw [if_neg this]
        omega
      · intro hr
        obtain ⟨-, b2, b3⟩ := toBoundary_le H hT (hQ q List.mem_cons_self) g1 g2
        have b2 := b2 g3.le
        have b3 := b3 g3.le
        have l1 := gnode_level H (hQ q List.mem_cons_self)
        have l2 := gnode_level H g1
        have hq := hr q List.mem_cons_self
        rw [level_lev, level_lev] at b2 b3
        have h4 := h4 fun n hn => hr n (List.mem_cons_of_mem _ hn)
        unfold crossPar oddFirst at *
        rw [List.map_cons, xorAll_cons, h4, List.map_cons, xorAll_cons]
        congr 1
        rw [level_lev]
        have hx : decide (lev key q ≤ 0) = false := decide_eq_false (by omega)
        simp only
        rw [hx, Bool.false_xor, decide_eq_decide]
        omega
  have hPQ : ∀ n ∈ ends P ++ Q, GNode key dh dw T n := fun n hn => hL n (h.mem_iff.1 hn)
  obtain ⟨M, h1, h2, h3, h4⟩ := key1 Q fun n hn => hPQ n (List.mem_append_right _ hn)
  refine ⟨P ++ M, ?_, ?_, ?_, ?_⟩
  · intro n hn
    rw [ends_append] at hn
    rcases List.mem_append.1 hn with hn | hn
    · exact hPQ n (List.mem_append_left _ hn)
    · exact h1 n hn
  · unfold totalDist splitCost at *
    rw [List.map_append, List.sum_append, h2]
    congr 2
    apply List.map_congr_left
    intro p hp
    exact pdist_eq H hT (hPQ _ (List.mem_append_left _ (mem_ends.2 ⟨p, hp, Or.inl rfl⟩)))
      (hPQ _ (List.mem_append_left _ (mem_ends.2 ⟨p, hp, Or.inr rfl⟩)))
  · intro n hn
    rw [ends_append, List.count_append, h3 n hn, ← List.count_append]
    exact h.count_eq n
  · intro hr
    rw [← h4 fun n hn => hr n (h.mem_iff.1 (List.mem_append_right _ hn))]
    unfold crossPar
    rw [List.map_append, xorAll_append]
    have : xorAll (P.map fun p => (decide (lev key p.1 ≤ 0) ^^ decide (lev key p.2 ≤ 0))) = false := by
      apply xorAll_eq_false
      intro x hx
      obtain ⟨p, hp, rfl⟩ := List.mem_map.1 hx
      have m1 : p.1 ∈ ends P ++ Q := List.mem_append_left _ (mem_ends.2 ⟨p, hp, Or.inl rfl⟩)
      have m2 : p.2 ∈ ends P ++ Q := List.mem_append_left _ (mem_ends.2 ⟨p, hp, Or.inr rfl⟩)
      have l1 := gnode_level H (hPQ _ m1)
      have l2 := gnode_level H (hPQ _ m2)
      have r1 := hr _ (h.mem_iff.1 m1)
      have r2 := hr _ (h.mem_iff.1 m2)
      rw [decide_eq_false (by omega), decide_eq_false (by omega)]
      rfl
    rw [this, Bool.false_xor]

theorem splitOf_cons (p : Node × Node) (M : List (Node × Node)) : splitOf (p :: M) =
    (if p.1.t ≠ -1 ∧ p.2.t ≠ -1 then p :: (splitOf M).1 else (splitOf M).1,
     if p.1.t = -1 then p.2 :: (splitOf M).2 else if p.2.t = -1 then p.1 :: (splitOf M).2 else (splitOf M).2) := by
  unfold splitOf
  by_cases h1 : p.1.t = -1
  · rw [List.filter_cons_of_neg (by simp [h1]), List.filterMap_cons_some (by rw [if_pos h1])]
    simp [h1]
  · by_cases h2 : p.2.t = -1
    · rw [List.filter_cons_of_neg (by simp [h2]), List.filterMap_cons_some (by rw [if_neg h1, if_pos h2])]
      simp [h1, h2]
    · rw [List.filter_cons_of_pos (by simp [h1, h2]), List.filterMap_cons_none (by rw [if_neg h1, if_neg h2])]
      simp [h1, h2]

/-- The hits in a list of matches. -/
theorem splitOf_count (M : List (Node × Node)) (h : ∀ p ∈ M, ¬ (p.1.t = -1 ∧ p.2.t = -1)) (n : Node) :
    (ends (splitOf M).1 ++ (splitOf M).2).count n = if n.t = -1 then 0 else (ends M).count n := by
  induction M with
  | nil => simp [splitOf]
  | cons p M ih =>
    have ih := ih fun q hq => h q (List.mem_cons_of_mem _ hq)
    have hp := h p List.mem_cons_self
    rw [List.count_append] at ih ⊢
    rw [splitOf_cons, ends_cons, List.count_cons, List.count_cons]
    simp only [beq_iff_eq]
    by_cases h1 : p.1.t = -1
    · have h2 : p.2.t ≠ -1 := fun h2 => hp ⟨h1, h2⟩
      rw [if_neg (fun h => h.1 h1), if_pos h1, List.count_cons]
      simp only [beq_iff_eq]
      by_cases hn : n.t = -1
      · have : p.2 ≠ n := fun e => h2 (e ▸ hn)
        rw [if_pos hn] at ih ⊢
        rw [if_neg this]
        omega
      · have : p.1 ≠ n := fun e => hn (e ▸ h1)
        rw [if_neg hn] at ih ⊢
        rw [if_neg this]
        omega
    · by_cases h2 : p.2.t = -1
      · rw [if_neg (fun h => h.2 h2), if_neg h1, if_pos h2, List.count_cons]
        simp only [beq_iff_eq]
        by_cases hn : n.t = -1
        · have : p.1 ≠ n := fun e => h1 (e ▸ hn)
          rw [if_pos hn] at ih ⊢
          rw [if_neg this]
          omega
        · have : p.2 ≠ n := fun e => hn (e ▸ h2)
          rw [if_neg hn] at ih ⊢
          rw [if_neg this]
          omega
      · rw [if_pos ⟨h1, h2⟩, if_neg h1, if_neg h2, ends_cons, List.count_cons, List.count_cons]
        simp only [beq_iff_eq]
        by_cases hn : n.t = -1
        · have e1 : p.1 ≠ n := fun e => h1 (e ▸ hn)
          have e2 : p.2 ≠ n := fun e => h2 (e ▸ hn)
          rw [if_pos hn] at ih ⊢
          rw [if_neg e1, if_neg e2]
          omega
        · rw [if_neg hn] at ih ⊢
          omega

/-- The split of a list of matches costs at most what the matches cost; if it costs as much, every single hit is matched with the nearer boundary. -/
theorem splitOf_cost (H : Long key dh dw) (hT : 0 < T) (M : List (Node × Node)) (hg : ∀ n ∈ ends M, GNode key dh dw T n)
    (h : ∀ p ∈ M, ¬ (p.1.t = -1 ∧ p.2.t = -1)) :
    splitCost key dh dw (splitOf M).1 (splitOf M).2 ≤ totalDist key dh dw T M ∧
      (totalDist key dh dw T M ≤ splitCost key dh dw (splitOf M).1 (splitOf M).2 →
        crossPar key M = oddFirst key dh dw (splitOf M).2) := by
  have hodd : distance key dh dw % 2 = 1 := by
    have := H.1
    unfold OddPos at this
    cases key <;> simp only [distance] <;> omega
  have hd := long_sizes H
  induction M with
  | nil => exact ⟨Nat.le_refl _, fun _ => rfl⟩
  | cons p M ih =>
    obtain ⟨ih1, ih2⟩ := ih (fun n hn => hg n (by rw [ends_cons]; simp [hn])) fun q hq => h q (List.mem_cons_of_mem _ hq)
    have hp := h p List.mem_cons_self
    have g1 := hg p.1 (by rw [ends_cons]; simp)
    have g2 := hg p.2 (by rw [ends_cons]; simp)
    have l1 := gnode_level H g1
    have l2 := gnode_level H g2
    unfold totalDist splitCost crossPar oddFirst at *
    rw [splitOf_cons, List.map_cons, List.sum_cons, pdist_eq H hT g1 g2, List.map_cons, xorAll_cons]
    simp only
    by_cases h1 : p.1.t = -1
    · have h2 : p.2.t ≠ -1 := fun h2 => hp ⟨h1, h2⟩
      obtain ⟨b1, b2, b3⟩ := toBoundary_le H hT g2 g1 h1
      rw [faultsBetween_symm] at b1 b2 b3
      rw [if_neg (fun h => h.1 h1), if_pos h1, List.map_cons, List.sum_cons, List.map_cons, xorAll_cons]
      refine ⟨by omega, fun hc => ?_⟩
      rw [ih2 (by omega)]
      congr 1
      have hle : faultsBetween key dh dw p.1 p.2 ≤ toBoundary key dh dw p.2 := by omega
      have b2 := b2 hle
      have b3 := b3 hle
      rw [level_lev, level_lev] at b2 b3
      rw [level_lev]
      have hx : decide (lev key p.2 ≤ 0) = false := decide_eq_false (by omega)
      rw [hx, Bool.xor_false, decide_eq_decide]
      omega
    · by_cases h2 : p.2.t = -1
      · obtain ⟨b1, b2, b3⟩ := toBoundary_le H hT g1 g2 h2
        rw [if_neg (fun h => h.2 h2), if_neg h1, if_pos h2, List.map_cons, List.sum_cons, List.map_cons, xorAll_cons]
        refine ⟨by omega, fun hc => ?_⟩
        rw [ih2 (by omega)]
        congr 1
        have hle : faultsBetween key dh dw p.1 p.2 ≤ toBoundary key dh dw p.1 := by omega
        have b2 := b2 hle
        have b3 := b3 hle
        rw [level_lev, level_lev] at b2 b3
        rw [level_lev]
        have hx : decide (lev key p.1 ≤ 0) = false := decide_eq_false (by omega)
        rw [hx, Bool.false_xor, decide_eq_decide]
        omega
      · rw [if_pos ⟨h1, h2⟩, if_neg h1, if_neg h2, List.map_cons, List.sum_cons]
        refine ⟨by omega, fun hc => ?_⟩
        rw [ih2 (by omega)]
        have hx : decide (lev key p.1 ≤ 0) = false := decide_eq_false (by omega)
        have hy : decide (lev key p.2 ≤ 0) = false := decide_eq_false (by omega)
        rw [hx, hy]
        simp

/-! ### The search finds the cheapest -/

theorem splits_complete : ∀ (n : Nat) (L : List Node) (P : List (Node × Node)) (Q : List Node), L.length ≤ n → Split L P Q →
    ∃ x ∈ splits n L, splitCost key dh dw x.1 x.2 = splitCost key dh dw P Q ∧ oddFirst key dh dw x.2 = oddFirst key dh dw Q
  | n, [], P, Q, _, h => by
    have he : ends P ++ Q = [] := List.perm_nil.1 h
    obtain ⟨h1, rfl⟩ := List.append_eq_nil_iff.1 he
    have hP : P = [] := by
      rw [← List.length_eq_zero_iff]
      have := length_ends P
      rw [h1, List.length_nil] at this
      omega
    subst hP
    refine ⟨([], []), ?_, rfl, rfl⟩
    cases n <;> simp [splits]
  | 0, a :: l, P, Q, hn, _ => by simp at hn
  | n + 1, a :: l, P, Q, hn, h => by
    have ha : a ∈ ends P ++ Q := h.mem_iff.2 List.mem_cons_self
    rw [List.length_cons] at hn
    rcases List.mem_append.1 ha with ha | ha
    · -- a pair
      obtain ⟨p, hp, hpa⟩ := mem_ends.1 ha
      obtain ⟨P1, P2, rfl⟩ := List.append_of_mem hp
      obtain ⟨b, hb⟩ : ∃ b, p = (a, b) ∨ p = (b, a) := by
        rcases hpa with rfl | rfl
        · exact ⟨p.2, Or.inl rfl⟩
        · exact ⟨p.1, Or.inr rfl⟩
      have hends : (ends (P1 ++ p :: P2)).Perm (a :: b :: ends (P1 ++ P2)) := by
        rw [ends_append, ends_append, ends_cons]
        rcases hb with rfl | rfl
        · exact (List.perm_middle.trans (List.perm_middle.cons a))
        · exact ((List.perm_middle.trans (List.perm_middle.cons b)).trans (List.Perm.swap _ _ _))
      have hl : (b :: (ends (P1 ++ P2) ++ Q)).Perm l := by
        have h1 := (hends.append_right Q).symm.trans h
        exact List.Perm.cons_inv (a := a) (by simpa using h1)
      have hbl : b ∈ l := hl.mem_iff.1 List.mem_cons_self
      have hl2 : Split (l.erase b) (P1 ++ P2) Q := by
        have := hl.erase b
        rwa [List.erase_cons_head] at this
      obtain ⟨x, hx, e1, e2⟩ := splits_complete n _ _ _ (by rw [List.length_erase_of_mem hbl]; omega) hl2
      refine ⟨((a, b) :: x.1, x.2), ?_, ?_, e2⟩
      · unfold splits
        exact List.mem_append_right _ (List.mem_flatMap.2 ⟨b, hbl, List.mem_map.2 ⟨x, hx, rfl⟩⟩)
      · unfold splitCost at *
        simp only [List.map_cons, List.sum_cons, List.map_append, List.sum_append] at *
        have : faultsBetween key dh dw p.1 p.2 = faultsBetween key dh dw a b := by
          rcases hb with rfl | rfl
          · rfl
          · exact faultsBetween_symm _ _
        omega
    · -- a single hit
      obtain ⟨Q1, Q2, rfl⟩ := List.append_of_mem ha
      have hl : Split l P (Q1 ++ Q2) := by
        unfold Split at *
        have h1 : (a :: (ends P ++ (Q1 ++ Q2))).Perm (a :: l) := by
          refine List.Perm.trans ?_ h
          rw [← List.append_assoc, ← List.append_assoc]
          exact List.perm_middle.symm
        exact List.Perm.cons_inv h1
      obtain ⟨x, hx, e1, e2⟩ := splits_complete n _ _ _ (by omega) hl
      refine ⟨(x.1, a :: x.2), ?_, ?_, ?_⟩
      · unfold splits
        exact List.mem_append_left _ (List.mem_map.2 ⟨x, hx, rfl⟩)
      · unfold splitCost at *
        simp only [List.map_cons, List.sum_cons, List.map_append, List.sum_append] at *
        omega
      · unfold oddFirst at *
        rw [List.map_cons, xorAll_cons, e2, List.map_append, List.map_append, xorAll_append, xorAll_append, List.map_cons, xorAll_cons]
        simp only [Bool.xor_left_comm]

theorem splits_sound : ∀ (n : Nat) (L : List Node), L.length ≤ n → ∀ x ∈ splits n L, Split L x.1 x.2
  | 0, L, hn, x, hx => by
    have : L = [] := List.length_eq_zero_iff.1 (by omega)
    subst this
    simp only [splits, List.mem_singleton] at hx
    subst hx
    exact List.Perm.refl _
  | n + 1, [], _, x, hx => by
    simp only [splits, List.mem_singleton] at hx
    subst hx
    exact List.Perm.refl _
  | n + 1, a :: l, hn, x, hx => by
    rw [List.length_cons] at hn
    unfold splits at hx
    rcases List.mem_append.1 hx with hx | hx
    · obtain ⟨y, hy, rfl⟩ := List.mem_map.1 hx
      have := splits_sound n l (by omega) y hy
      unfold Split at *
      exact (List.perm_middle.trans (this.cons a))
    · obtain ⟨b, hb, hx⟩ := List.mem_flatMap.1 hx
      obtain ⟨y, hy, rfl⟩ := List.mem_map.1 hx
      have := splits_sound n (l.erase b) (by rw [List.length_erase_of_mem hb]; omega) y hy
      unfold Split at *
      rw [ends_cons]
      exact ((this.cons b).trans (List.perm_cons_erase hb).symm).cons a

theorem foldl_min_le : ∀ (l : List Nat) (z : Nat), l.foldl min z ≤ z ∧ (∀ y ∈ l, l.foldl min z ≤ y) ∧ (l.foldl min z = z ∨ l.foldl min z ∈ l)
  | [], z => ⟨Nat.le_refl _, by simp, Or.inl rfl⟩
  | y :: l, z => by
    obtain ⟨h1, h2, h3⟩ := foldl_min_le l (min z y)
    rw [List.foldl_cons]
    refine ⟨by omega, ?_, ?_⟩
    · intro w hw
      rcases List.mem_cons.1 hw with rfl | hw
      · omega
      · exact h2 w hw
    · rcases h3 with h3 | h3
      · rcases min_choice z y with h | h
        · left; rw [h3, h]
        · right; rw [h3, h]; exact List.mem_cons_self
      · exact Or.inr (List.mem_cons_of_mem _ h3)

theorem leastCost_le {L : List Node} {P : List (Node × Node)} {Q : List Node} (h : Split L P Q) :
    leastCost key dh dw L ≤ splitCost key dh dw P Q := by
  obtain ⟨x, hx, e1, -⟩ := splits_complete (key := key) (dh := dh) (dw := dw) L.length L P Q (Nat.le_refl _) h
  rw [← e1]
  exact (foldl_min_le _ _).2.1 _ (List.mem_map.2 ⟨x, hx, rfl⟩)

theorem leastCost_attained (L : List Node) : ∃ P Q, Split L P Q ∧ splitCost key dh dw P Q = leastCost key dh dw L := by
  rcases (foldl_min_le ((splits L.length L).map fun x => splitCost key dh dw x.1 x.2) (L.map (toBoundary key dh dw)).sum).2.2 with h | h
  · refine ⟨[], L, by unfold Split; simp, ?_⟩
    unfold leastCost
    rw [h]
    simp [splitCost]
  · obtain ⟨x, hx, e⟩ := List.mem_map.1 h
    exact ⟨x.1, x.2, splits_sound _ _ (Nat.le_refl _) x hx, e⟩

theorem cheapest_iff {L : List Node} {P : List (Node × Node)} {Q : List Node} :
    Cheapest key dh dw L P Q ↔ Split L P Q ∧ splitCost key dh dw P Q = leastCost key dh dw L := by
  constructor
  · rintro ⟨h1, h2⟩
    obtain ⟨P', Q', h3, h4⟩ := leastCost_attained (key := key) (dh := dh) (dw := dw) L
    have := h2 P' Q' h3
    have := leastCost_le (key := key) (dh := dh) (dw := dw) h1
    exact ⟨h1, by omega⟩
  · rintro ⟨h1, h2⟩
    exact ⟨h1, fun P' Q' h3 => by rw [h2]; exact leastCost_le h3⟩

theorem mem_cheapParities {L : List Node} {P : List (Node × Node)} {Q : List Node} (h : Cheapest key dh dw L P Q) :
    oddFirst key dh dw Q ∈ cheapParities key dh dw L := by
  obtain ⟨h1, h2⟩ := cheapest_iff.1 h
  obtain ⟨x, hx, e1, e2⟩ := splits_complete (key := key) (dh := dh) (dw := dw) L.length L P Q (Nat.le_refl _) h1
  unfold cheapParities
  refine List.mem_map.2 ⟨x, List.mem_filter.2 ⟨hx, ?_⟩, e2⟩
  rw [e1, h2]
  simp

end Qtc
