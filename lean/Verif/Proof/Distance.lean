import Verif.Proof.Dist
import Verif.Proof.Decode
import Verif.Spec.Distance
/-!
The closed formula for distances: paths of that length, and no shorter ones.
-/
namespace Qtc
open Spec

variable {key : Key} {dh dw T : Int}

/-- Extent of the lattice along the boundaries. -/
def laneMax (key : Key) (dh dw : Int) : Int :=
  match key with
  | .X => dh
  | .Z => dw

/-- The node at a level and lane, at time `t` unless it is a boundary node. -/
def spot (key : Key) (dh dw t l k : Int) : Node :=
  match key with
  | .Z => ⟨if l = 0 ∨ l = dh then -1 else t, 2 * l - 1, 2 * k - 1⟩
  | .X => ⟨if l = 0 ∨ l = dw then -1 else t, 2 * k - 1, 2 * l - 1⟩

/-- Levels and lanes of nodes. -/
def InFrame (key : Key) (dh dw l k : Int) : Prop :=
  0 ≤ l ∧ l ≤ distance key dh dw ∧ 0 ≤ k ∧ k ≤ laneMax key dh dw ∧ (l + k) % 2 = (match key with | .Z => 0 | .X => 1)

theorem spot_gnode (H : Long key dh dw) {t l k : Int} (h0 : 0 ≤ t) (hT : t < T) (h : InFrame key dh dw l k) :
    GNode key dh dw T (spot key dh dw t l k) := by
  obtain ⟨HO, Hl⟩ := H
  unfold OddPos at HO
  cases key <;> simp only [InFrame, distance, laneMax, GNode, Site, XSite, ZSite, Bdry, Pos, spot] at * <;> split <;> omega

theorem gnode_spot (H : Long key dh dw) (hT : 0 < T) {n : Node} (h : GNode key dh dw T n) :
    InFrame key dh dw (level key n) (lane key n) ∧ (n.t = -1 ↔ level key n = 0 ∨ level key n = distance key dh dw) ∧
      (n.t ≠ -1 → 0 ≤ n.t ∧ n.t < T) ∧ ∀ t, (n.t = -1 ∨ n.t = t) → n = spot key dh dw t (level key n) (lane key n) := by
  obtain ⟨HO, Hl⟩ := H
  unfold OddPos at HO
  obtain ⟨t, r, c⟩ := n
  cases key <;> simp only [InFrame, distance, laneMax, GNode, Site, XSite, ZSite, Bdry, Pos, spot, level, lane, Node.mk.injEq] at *
  · refine ⟨by omega, by omega, by omega, fun t' ht => ⟨?_, by omega, by omega⟩⟩
    split_ifs <;> omega
  · refine ⟨by omega, by omega, by omega, fun t' ht => ⟨?_, by omega, by omega⟩⟩
    split_ifs <;> omega

theorem spot_adj (H : Long key dh dw) {t l k l' k' : Int} (h0 : 0 ≤ t) (hT : t < T) (h : InFrame key dh dw l k)
    (h' : InFrame key dh dw l' k') (h1 : l' = l + 1 ∨ l' = l - 1) (h2 : k' = k + 1 ∨ k' = k - 1) :
    GAdj key dh dw T (spot key dh dw t l k) (spot key dh dw t l' k') := by
  obtain ⟨HO, Hl⟩ := H
  unfold OddPos at HO
  cases key <;> simp only [InFrame, distance, laneMax] at *
  · refine Or.inl ⟨t, min k k', min l l', ?_⟩
    unfold DataEdge Touches Site XSite Bdry Pos spot
    simp only [ne_eq, Node.mk.injEq]
    refine ⟨by omega, by omega, by omega, by omega, by omega, by omega, by omega, ⟨by omega, by omega, ?_⟩, ⟨by omega, by omega, ?_⟩⟩
    · split <;> omega
    · split <;> omega
  · refine Or.inl ⟨t, min l l', min k k', ?_⟩
    unfold DataEdge Touches Site ZSite Bdry Pos spot
    simp only [ne_eq, Node.mk.injEq]
    refine ⟨by omega, by omega, by omega, by omega, by omega, by omega, by omega, ⟨by omega, by omega, ?_⟩, ⟨by omega, by omega, ?_⟩⟩
    · split <;> omega
    · split <;> omega

/-- A path in one time step to any place that is not further away than `m` in both directions. -/
theorem spot_zigzag (H : Long key dh dw) {t : Int} (h0 : 0 ≤ t) (hT : t < T) : ∀ (m : Nat) {l k l' k' : Int},
    InFrame key dh dw l k → InFrame key dh dw l' k' → (l' - l).natAbs ≤ m → (k' - k).natAbs ≤ m → (l' - l + m) % 2 = 0 →
    ∃ es, Path (GAdj key dh dw T) (spot key dh dw t l k) (spot key dh dw t l' k') es ∧ es.length = m
  | 0, l, k, l', k', _, _, h1, h2, _ => by
    obtain rfl : l' = l := by omega
    obtain rfl : k' = k := by omega
    exact ⟨[], Path.nil _, rfl⟩
  | m + 1, l, k, l', k', c, c', h1, h2, h3 => by
    have hd : 3 ≤ distance key dh dw ∧ 1 ≤ laneMax key dh dw := by
      obtain ⟨HO, Hl⟩ := H
      unfold OddPos at HO
      cases key <;> simp only [distance, laneMax] at * <;> omega
    have c0 := c
    have c0' := c'
    unfold InFrame at c c'
    obtain ⟨l1, hl1, hl2, hl3, hl4⟩ : ∃ l1, (l1 = l + 1 ∨ l1 = l - 1) ∧ 0 ≤ l1 ∧ l1 ≤ distance key dh dw ∧ (l' - l1).natAbs ≤ m := by
      rcases lt_trichotomy l l' with h | h | h
      · exact ⟨l + 1, by omega⟩
      · by_cases hx : l < distance key dh dw
        · exact ⟨l + 1, by omega⟩
        · exact ⟨l - 1, by omega⟩
      · exact ⟨l - 1, by omega⟩
    obtain ⟨k1, hk1, hk2, hk3, hk4⟩ : ∃ k1, (k1 = k + 1 ∨ k1 = k - 1) ∧ 0 ≤ k1 ∧ k1 ≤ laneMax key dh dw ∧ (k' - k1).natAbs ≤ m := by
      rcases lt_trichotomy k k' with h | h | h
      · exact ⟨k + 1, by omega⟩
      · by_cases hx : k < laneMax key dh dw
        · exact ⟨k + 1, by omega⟩
        · exact ⟨k - 1, by omega⟩
      · exact ⟨k - 1, by omega⟩
    have c1 : InFrame key dh dw l1 k1 := by
      unfold InFrame
      refine ⟨hl2, hl3, hk2, hk3, ?_⟩
      have := c.2.2.2.2
      omega
    obtain ⟨es, p, hl⟩ := spot_zigzag H h0 hT m c1 c0' hl4 hk4 (by push_cast at h3; omega)
    exact ⟨_, Path.cons (spot_adj H h0 hT c0 c1 hl1 hk1) p, by simp [hl]⟩

theorem long_sizes (H : Long key dh dw) : 3 ≤ distance key dh dw ∧ 1 ≤ laneMax key dh dw := by
  obtain ⟨HO, Hl⟩ := H
  unfold OddPos at HO
  cases key <;> simp only [distance, laneMax] at * <;> omega

theorem spot_first {t t' k : Int} : spot key dh dw t 0 k = spot key dh dw t' 0 k := by
  cases key <;> simp [spot]

theorem spot_last {t t' k : Int} : spot key dh dw t (distance key dh dw) k = spot key dh dw t' (distance key dh dw) k := by
  cases key <;> simp [spot, distance]

/-- A path over the first boundary. -/
theorem path_first (H : Long key dh dw) {t t' : Int} (h0 : 0 ≤ t) (hT : t < T) (h0' : 0 ≤ t') (hT' : t' < T) : ∀ (n : Nat) {k l' k' : Int},
    InFrame key dh dw n k → InFrame key dh dw l' k' →
    ∃ es, Path (GAdj key dh dw T) (spot key dh dw t n k) (spot key dh dw t' l' k') es ∧ es.length = max (n + l').natAbs (k - k').natAbs
  | 0, k, l', k', c, c' => by
    have e : spot key dh dw t ((0 : Nat) : Int) k = spot key dh dw t' 0 k := spot_first
    rw [e]
    have c1 := c
    have c2 := c'
    unfold InFrame at c1 c2
    obtain ⟨es, p, hl⟩ := spot_zigzag (t := t') H h0' hT' (max (((0 : Nat) : Int) + l').natAbs (k - k').natAbs) c c' (by omega) (by omega)
      (by
        have h1 := c1.2.2.2.2
        have h2 := c2.2.2.2.2
        omega)
    exact ⟨es, p, hl⟩
  | n + 1, k, l', k', c, c' => by
    have hd := long_sizes H
    have c1 := c
    have c2 := c'
    unfold InFrame at c1 c2
    have h1 := c1.2.2.2.2
    have h2 := c2.2.2.2.2
    obtain ⟨k1, hk1, hk2, hk3, hk4⟩ : ∃ k1, (k1 = k + 1 ∨ k1 = k - 1) ∧ 0 ≤ k1 ∧ k1 ≤ laneMax key dh dw ∧
        max ((n : Int) + l').natAbs (k1 - k').natAbs + 1 = max (((n + 1 : Nat) : Int) + l').natAbs (k - k').natAbs := by
      rcases lt_trichotomy k k' with h | h | h
      · exact ⟨k + 1, by omega⟩
      · by_cases hx : k < laneMax key dh dw
        · exact ⟨k + 1, by omega⟩
        · exact ⟨k - 1, by omega⟩
      · exact ⟨k - 1, by omega⟩
    have c3 : InFrame key dh dw n k1 := by
      unfold InFrame
      exact ⟨by omega, by omega, hk2, hk3, by omega⟩
    obtain ⟨es, p, hl⟩ := path_first H h0 hT h0' hT' n c3 c'
    exact ⟨_, Path.cons (spot_adj H h0 hT c c3 (by omega) hk1) p, by simp [hl, hk4]⟩

/-- A path over the last boundary. -/
theorem path_last (H : Long key dh dw) {t t' : Int} (h0 : 0 ≤ t) (hT : t < T) (h0' : 0 ≤ t') (hT' : t' < T) : ∀ (n : Nat) {l k l' k' : Int},
    l + n = distance key dh dw → InFrame key dh dw l k → InFrame key dh dw l' k' →
    ∃ es, Path (GAdj key dh dw T) (spot key dh dw t l k) (spot key dh dw t' l' k') es ∧
      es.length = max (2 * distance key dh dw - l - l').natAbs (k - k').natAbs
  | 0, l, k, l', k', hn, c, c' => by
    obtain rfl : l = distance key dh dw := by omega
    rw [spot_last (t := t) (t' := t')]
    have c1 := c
    have c2 := c'
    unfold InFrame at c1 c2
    obtain ⟨es, p, hl⟩ := spot_zigzag (t := t') H h0' hT'
      (max (2 * distance key dh dw - distance key dh dw - l').natAbs (k - k').natAbs) c c' (by omega) (by omega)
      (by
        have h1 := c1.2.2.2.2
        have h2 := c2.2.2.2.2
        omega)
    exact ⟨es, p, hl⟩
  | n + 1, l, k, l', k', hn, c, c' => by
    have hd := long_sizes H
    have c1 := c
    have c2 := c'
    unfold InFrame at c1 c2
    have h1 := c1.2.2.2.2
    have h2 := c2.2.2.2.2
    obtain ⟨k1, hk1, hk2, hk3, hk4⟩ : ∃ k1, (k1 = k + 1 ∨ k1 = k - 1) ∧ 0 ≤ k1 ∧ k1 ≤ laneMax key dh dw ∧
        max (2 * distance key dh dw - (l + 1) - l').natAbs (k1 - k').natAbs + 1 = max (2 * distance key dh dw - l - l').natAbs (k - k').natAbs := by
      rcases lt_trichotomy k k' with h | h | h
      · exact ⟨k + 1, by omega⟩
      · by_cases hx : k < laneMax key dh dw
        · exact ⟨k + 1, by omega⟩
        · exact ⟨k - 1, by omega⟩
      · exact ⟨k - 1, by omega⟩
    have c3 : InFrame key dh dw (l + 1) k1 := by
      unfold InFrame
      exact ⟨by omega, by omega, hk2, hk3, by omega⟩
    obtain ⟨es, p, hl⟩ := path_last H h0 hT h0' hT' n (by push_cast at hn; omega) c3 c'
    exact ⟨_, Path.cons (spot_adj H h0 hT c c3 (by omega) hk1) p, by simp [hl, hk4]⟩

/-- A path in time. -/
theorem path_time {r2 c2 : Int} (hs : Site key dh dw r2 c2) : ∀ (n : Nat) {t t' : Int}, 0 ≤ t → t < T → 0 ≤ t' → t' < T →
    (t - t').natAbs = n → ∃ es, Path (GAdj key dh dw T) ⟨t, r2, c2⟩ ⟨t', r2, c2⟩ es ∧ es.length = n
  | 0, t, t', _, _, _, _, h => by
    obtain rfl : t = t' := by omega
    exact ⟨[], Path.nil _, rfl⟩
  | n + 1, t, t', h1, h2, h3, h4, h => by
    by_cases hlt : t < t'
    · obtain ⟨es, p, hl⟩ := path_time hs n (t := t + 1) (t' := t') (by omega) (by omega) h3 h4 (by omega)
      have e : GAdj key dh dw T ⟨t, r2, c2⟩ ⟨t + 1, r2, c2⟩ := Or.inr ⟨t, h1, by omega, hs, rfl, rfl, Or.inl ⟨rfl, rfl⟩⟩
      exact ⟨_, Path.cons e p, by simp [hl]⟩
    · obtain ⟨es, p, hl⟩ := path_time hs n (t := t - 1) (t' := t') (by omega) (by omega) h3 h4 (by omega)
      have e : GAdj key dh dw T ⟨t, r2, c2⟩ ⟨t - 1, r2, c2⟩ :=
        Or.inr ⟨t - 1, by omega, by omega, hs, rfl, rfl, Or.inr ⟨by simp, rfl⟩⟩
      exact ⟨_, Path.cons e p, by simp [hl]⟩

/-- Paths of the length the formula says. -/
theorem path_of_length (H : Long key dh dw) (hT : 0 < T) {a b : Node} (ha : GNode key dh dw T a) (hb : GNode key dh dw T b) :
    ∃ es, Path (GAdj key dh dw T) a b es ∧ es.length = faultsBetween key dh dw a b := by
  obtain ⟨fa, ba, ta, ea⟩ := gnode_spot H hT ha
  obtain ⟨fb, bb, tb, eb⟩ := gnode_spot H hT hb
  -- a time for each of the nodes
  obtain ⟨ta', ha0, haT, hat⟩ : ∃ t, 0 ≤ t ∧ t < T ∧ (a.t = -1 ∨ a.t = t) := by
    by_cases h : a.t = -1
    · exact ⟨0, le_refl _, hT, Or.inl h⟩
    · exact ⟨a.t, (ta h).1, (ta h).2, Or.inr rfl⟩
  obtain ⟨tb', hb0, hbT, hbt⟩ : ∃ t, 0 ≤ t ∧ t < T ∧ (b.t = -1 ∨ b.t = t) := by
    by_cases h : b.t = -1
    · exact ⟨0, le_refl _, hT, Or.inl h⟩
    · exact ⟨b.t, (tb h).1, (tb h).2, Or.inr rfl⟩
  have pst : ∃ es, Path (GAdj key dh dw T) a b es ∧ es.length = straight key a b := by
    have f1 := fa
    have f2 := fb
    unfold InFrame at f1 f2
    have g1 := f1.2.2.2.2
    have g2 := f2.2.2.2.2
    have zz : ∀ t, 0 ≤ t → t < T → ∃ es, Path (GAdj key dh dw T) (spot key dh dw t (level key a) (lane key a))
        (spot key dh dw t (level key b) (lane key b)) es ∧ es.length = max (level key a - level key b).natAbs (lane key a - lane key b).natAbs :=
      fun t h0 h1 => spot_zigzag H h0 h1 _ fa fb (by omega) (by omega) (by omega)
    by_cases hv : a.t = -1 ∨ b.t = -1
    · unfold straight timeApart
      rw [if_pos hv, Nat.add_zero]
      by_cases h : a.t = -1
      · obtain ⟨es, p, hl⟩ := zz tb' hb0 hbT
        rw [← ea tb' (Or.inl h), ← eb tb' hbt] at p
        exact ⟨es, p, hl⟩
      · obtain ⟨es, p, hl⟩ := zz ta' ha0 haT
        rw [← ea ta' hat, ← eb ta' (Or.inl (hv.resolve_left h))] at p
        exact ⟨es, p, hl⟩
    · rw [not_or] at hv
      unfold straight timeApart
      rw [if_neg (not_or.2 hv)]
      obtain ⟨es, p, hl⟩ := zz a.t (ta hv.1).1 (ta hv.1).2
      rw [← ea a.t (Or.inr rfl)] at p
      have hs : Site key dh dw b.r2 b.c2 := by
        rcases hb with h | h
        · exact h.2.2
        · exact absurd h.1 hv.2
      have eb' : spot key dh dw a.t (level key b) (lane key b) = ⟨a.t, b.r2, b.c2⟩ := by
        have h1 := eb b.t (Or.inr rfl)
        have h2 : ¬ (level key b = 0 ∨ level key b = distance key dh dw) := fun h => hv.2 (bb.2 h)
        have hr := congrArg Node.r2 h1
        have hc := congrArg Node.c2 h1
        cases key <;> simp only [spot, distance] at hr hc h2 ⊢ <;> rw [if_neg h2, ← hr, ← hc]
      rw [eb'] at p
      obtain ⟨es', p', hl'⟩ := path_time hs _ (ta hv.1).1 (ta hv.1).2 (tb hv.2).1 (tb hv.2).2 rfl
      exact ⟨_, Path.append p p', by simp [hl, hl']⟩
  have pfi : ∃ es, Path (GAdj key dh dw T) a b es ∧ es.length = viaFirst key a b := by
    obtain ⟨n, hn⟩ : ∃ n : Nat, level key a = n := ⟨(level key a).toNat, by have := fa.1; omega⟩
    have h := path_first H ha0 haT hb0 hbT n (by rw [← hn]; exact fa) fb
    rw [← hn, ← ea ta' hat, ← eb tb' hbt] at h
    exact h
  have pla : ∃ es, Path (GAdj key dh dw T) a b es ∧ es.length = viaLast key dh dw a b := by
    have h := path_last H ha0 haT hb0 hbT (distance key dh dw - level key a).toNat (by have := fa.2.1; omega) fa fb
    rw [← ea ta' hat, ← eb tb' hbt] at h
    exact h
  unfold faultsBetween
  rcases min_choice (straight key a b) (min (viaFirst key a b) (viaLast key dh dw a b)) with h | h
  · rw [h]; exact pst
  · rw [h]
    rcases min_choice (viaFirst key a b) (viaLast key dh dw a b) with h | h
    · rw [h]; exact pfi
    · rw [h]; exact pla

theorem gadj_coords {a a' : Node} (h : GAdj key dh dw T a a') :
    ((level key a - level key a').natAbs ≤ 1 ∧ (lane key a - lane key a').natAbs ≤ 1 ∧ (a.t = a'.t ∨ a.t = -1 ∨ a'.t = -1)) ∨
      (level key a = level key a' ∧ lane key a = lane key a' ∧ a.t ≠ -1 ∧ a'.t ≠ -1 ∧ (a.t - a'.t).natAbs = 1) := by
  rcases h with ⟨t, r, c, hd⟩ | ⟨t, h1, h2, h3, h4, h5, h6⟩
  · left
    obtain ⟨h1, h2, h3, h4⟩ := dataEdge_diag hd
    have ht : a.t = a'.t ∨ a.t = -1 ∨ a'.t = -1 := by
      obtain ⟨_, _, _, _, _, _, _, ⟨_, _, h8⟩, ⟨_, _, h9⟩⟩ := hd
      rcases h8 with ⟨h8, _⟩ | ⟨h8, _⟩
      · rcases h9 with ⟨h9, _⟩ | ⟨h9, _⟩
        · exact Or.inl (h8.trans h9.symm)
        · exact Or.inr (Or.inr h9)
      · exact Or.inr (Or.inl h8)
    clear hd
    refine ⟨?_, ?_, ht⟩ <;> clear ht <;> cases key <;> simp only [level, lane] <;> omega
  · right
    refine ⟨?_, ?_, by omega, by omega, by omega⟩ <;> cases key <;> simp only [level, lane, h4, h5]

/-- The formula for numbers instead of nodes. -/
def formula (la ka lb kb D : Int) (u : Nat) : Nat :=
  min (max (la - lb).natAbs (ka - kb).natAbs + u) (min (max (la + lb).natAbs (ka - kb).natAbs) (max (2 * D - la - lb).natAbs (ka - kb).natAbs))

theorem natAbs_step {x y : Int} (h : (x - y).natAbs ≤ 1) : x.natAbs ≤ 1 + y.natAbs := by omega

theorem max_step {a b a' b' : Nat} (h1 : a ≤ 1 + a') (h2 : b ≤ 1 + b') : max a b ≤ 1 + max a' b' := by omega

theorem min_step {a b c a' b' c' : Nat} (h1 : a ≤ 1 + a') (h2 : b ≤ 1 + b') (h3 : c ≤ 1 + c') :
    min a (min b c) ≤ 1 + min a' (min b' c') := by omega

theorem formula_space {la ka la' ka' lb kb D : Int} {u u' : Nat} (hu : u ≤ u') (h1 : (la - la').natAbs ≤ 1) (h2 : (ka - ka').natAbs ≤ 1) :
    formula la ka lb kb D u ≤ 1 + formula la' ka' lb kb D u' := by
  have hk : (ka - kb).natAbs ≤ 1 + (ka' - kb).natAbs := natAbs_step (by omega)
  have n1 : (la - lb).natAbs ≤ 1 + (la' - lb).natAbs := natAbs_step (by clear hk; omega)
  have n2 : (la + lb).natAbs ≤ 1 + (la' + lb).natAbs := natAbs_step (by clear hk n1; omega)
  have n3 : (2 * D - la - lb).natAbs ≤ 1 + (2 * D - la' - lb).natAbs := natAbs_step (by clear hk n1 n2; omega)
  exact min_step ((Nat.add_le_add (max_step n1 hk) hu).trans (Nat.add_assoc _ _ _).le) (max_step n2 hk) (max_step n3 hk)

theorem formula_time {la ka lb kb D : Int} {u u' : Nat} (hu : u ≤ 1 + u') : formula la ka lb kb D u ≤ 1 + formula la ka lb kb D u' := by
  unfold formula
  omega

theorem formula_edge {la ka la' ka' lb kb D : Int} {u u' : Nat} (h1 : (la - la').natAbs ≤ 1) (h2 : (ka - ka').natAbs ≤ 1)
    (h3 : 0 ≤ lb) (h4 : lb ≤ D) (h5 : la' = 0 ∨ la' = D) (h6 : 0 ≤ D) : formula la ka lb kb D u ≤ 1 + formula la' ka' lb kb D u' := by
  have m4 : max (la' - lb).natAbs (ka' - kb).natAbs ≤ max (la' + lb).natAbs (ka' - kb).natAbs := by omega
  have m5 : max (la' - lb).natAbs (ka' - kb).natAbs ≤ max (2 * D - la' - lb).natAbs (ka' - kb).natAbs := by omega
  have m6 : max (la + lb).natAbs (ka - kb).natAbs ≤ 1 + max (la' - lb).natAbs (ka' - kb).natAbs ∨
      max (2 * D - la - lb).natAbs (ka - kb).natAbs ≤ 1 + max (la' - lb).natAbs (ka' - kb).natAbs := by
    rcases h5 with rfl | rfl
    · left; clear m4 m5; omega
    · right; clear m4 m5; omega
  unfold formula
  clear h1 h2 h3 h4 h5 h6
  generalize max (la - lb).natAbs _ = x1 at *
  generalize max (la' - lb).natAbs _ = x2 at *
  generalize max (la + lb).natAbs _ = x3 at *
  generalize max (la' + lb).natAbs _ = x4 at *
  generalize max (2 * D - la - lb).natAbs _ = x5 at *
  generalize max (2 * D - la' - lb).natAbs _ = x6 at *
  omega

theorem faultsBetween_eq (a b : Node) : faultsBetween key dh dw a b =
    formula (level key a) (lane key a) (level key b) (lane key b) (distance key dh dw) (timeApart a b) := rfl

/-- One step changes the formula by at most one. -/
theorem faultsBetween_step (H : Long key dh dw) (hT : 0 < T) {a a' b : Node} (h : GAdj key dh dw T a a') (hb : GNode key dh dw T b) :
    faultsBetween key dh dw a b ≤ 1 + faultsBetween key dh dw a' b := by
  obtain ⟨ga, ga'⟩ := gadj_nodes h
  obtain ⟨-, ba, -, -⟩ := gnode_spot H hT ga
  obtain ⟨-, ba', -, -⟩ := gnode_spot H hT ga'
  obtain ⟨fb, -, -, -⟩ := gnode_spot H hT hb
  have hd := long_sizes H
  rw [faultsBetween_eq, faultsBetween_eq]
  rcases gadj_coords h with ⟨h1, h2, h3⟩ | ⟨h1, h2, h3, h4, h5⟩
  · by_cases hv : a'.t = -1
    · exact formula_edge h1 h2 fb.1 fb.2.1 (ba'.1 hv) (by omega)
    · refine formula_space ?_ h1 h2
      unfold timeApart
      by_cases hb' : b.t = -1
      · rw [if_pos (Or.inr hb')]; exact Nat.zero_le _
      · by_cases ha' : a.t = -1
        · rw [if_pos (Or.inl ha')]; exact Nat.zero_le _
        · have : a.t = a'.t := by omega
          rw [if_neg (by omega), if_neg (by omega), this]
  · rw [h1, h2]
    refine formula_time ?_
    unfold timeApart
    split_ifs <;> omega

theorem faultsBetween_self (a : Node) : faultsBetween key dh dw a a = 0 := by
  unfold faultsBetween straight timeApart
  simp

theorem length_of_path (H : Long key dh dw) (hT : 0 < T) {a b : Node} {es : List (Node × Node)} (h : Path (GAdj key dh dw T) a b es)
    (hb : GNode key dh dw T b) : faultsBetween key dh dw a b ≤ es.length := by
  induction h with
  | nil a => rw [faultsBetween_self]; exact Nat.zero_le _
  | cons h _ ih =>
    have := faultsBetween_step H hT h hb
    have := ih hb
    rw [List.length_cons]
    omega

theorem isDist_faultsBetween (H : Long key dh dw) (hT : 0 < T) {a b : Node} (ha : GNode key dh dw T a) (hb : GNode key dh dw T b) :
    IsDist (GAdj key dh dw T) a b (faultsBetween key dh dw a b) :=
  ⟨path_of_length H hT ha hb, fun _ p => length_of_path H hT p hb⟩

end Qtc
