import Verif.Proof.Diagonal
import Verif.Proof.Line
/-!
A diagonal chain of data errors on a square lattice: its hits, and what decoding with a probability makes of them.
-/
namespace Qtc
open Spec

theorem diagChain_hits {dh dw : Int} {n : Node} (hn : ZSite dh dw n.r2 n.c2) (ht : n.t = 0) (l : Nat) : ∀ N : Nat,
    ((diagChain l N).countP (Fault.changes n) % 2 = 1 ↔
      ((n.r2 = 2 * l - 1 ∧ n.c2 = 2 * l - 1) ↔ ¬ (n.r2 = 2 * (l + N) - 1 ∧ n.c2 = 2 * (l + N) - 1)))
  | 0 => by
    have : (diagChain l 0).countP (Fault.changes n) = 0 := rfl
    rw [this, Int.natCast_zero, add_zero]
    tauto
  | N + 1 => by
    have ih := diagChain_hits hn ht l N
    unfold ZSite at hn
    unfold diagChain at ih ⊢
    rw [List.range_succ, List.map_append, List.countP_append, List.map_singleton, List.countP_singleton]
    have e : Fault.changes n (.data 0 (l + N) (l + N)) = true ↔ (n.r2 = 2 * (l + N) - 1 ∨ n.r2 = 2 * (l + N) + 1) ∧
        (n.c2 = 2 * (l + N) - 1 ∨ n.c2 = 2 * (l + N) + 1) := by
      simp only [Fault.changes, ht, beq_self_eq_true, Bool.true_and, Bool.and_eq_true, Bool.or_eq_true, beq_iff_eq]
    push_cast
    by_cases h : Fault.changes n (.data 0 (l + N) (l + N)) = true
    · rw [if_pos h]
      rw [e] at h
      omega
    · rw [if_neg h]
      rw [e] at h
      omega

/-- The hits of the chain are its two ends. -/
theorem diagChain_isHit {d : Int} {i : Nat} (hd : d = 4 * i + 1) (hi : 0 < i) (n : Node) :
    IsHit .Z d d 1 (diagChain i (2 * i)) n ↔ n = nd d i i ∨ n = nd d (i + (2 * i : Nat)) (i + (2 * i : Nat)) := by
  obtain ⟨t, r, c⟩ := n
  constructor
  · rintro ⟨h1, h2, h3, h4⟩
    simp only at h1 h2
    obtain rfl : t = 0 := by omega
    rw [diagChain_hits h3 rfl] at h4
    unfold nd
    simp only [Node.mk.injEq]
    simp only at h4
    rw [if_neg (by omega), if_neg (by omega)]
    push_cast at h4 ⊢
    by_cases hA : r = 2 * (i : Int) - 1 ∧ c = 2 * (i : Int) - 1
    · exact Or.inl ⟨trivial, hA⟩
    · rw [iff_iff_implies_and_implies] at h4
      exact Or.inr ⟨trivial, by_contra fun h => hA (h4.2 h)⟩
  · intro h
    have hs : t = 0 ∧ ZSite d d r c := by
      unfold nd ZSite at *
      simp only [Node.mk.injEq] at h
      rw [if_neg (by omega), if_neg (by omega)] at h
      omega
    obtain ⟨rfl, hs⟩ := hs
    refine ⟨le_refl _, zero_lt_one, hs, ?_⟩
    rw [diagChain_hits hs rfl]
    unfold nd at h
    simp only [Node.mk.injEq] at h
    push_cast at *
    omega

theorem diagChain_readout {i : Nat} (hi : 0 < i) (N : Nat) : readoutFlipped .Z (diagChain i N) = false := by
  unfold readoutFlipped diagChain
  rw [List.map_map]
  refine xorAll_eq_false fun b hb => ?_
  obtain ⟨x, _, rfl⟩ := List.mem_map.1 hb
  simp only [Function.comp, Fault.flipsReadout, beq_eq_false_iff_ne]
  omega

theorem diagChain_correctable {d : Int} {i : Nat} (hd : d = 4 * i + 1) : Correctable .Z d d 1 (diagChain i (2 * i)) := by
  constructor
  · intro f hf
    obtain ⟨x, hx, rfl⟩ := List.mem_map.1 hf
    rw [List.mem_range] at hx
    show _ ∧ _ ∧ _ ∧ _ ∧ _ ∧ _
    omega
  · unfold diagChain
    rw [List.length_map, List.length_range]
    simp only [distance]
    omega

/-! ### Pairings of two hits -/

theorem two_hits {key : Key} {dh dw T : Int} (H : Long key dh dw) {U : Node → Node → Int} (hU : ∀ a b, U a b = U b a) {u v : Node}
    (hu : u.t ≠ -1) (hv : v.t ≠ -1) (huv : u ≠ v) (gu : GNode key dh dw T u) (gv : GNode key dh dw T v)
    {Ms : List (Node × Node)} (hnd : (ends Ms).Nodup) (hL : ∀ n, n.t ≠ -1 → (n ∈ ends Ms ↔ n ∈ [u, v]))
    (hg : ∀ n ∈ ends Ms, GNode key dh dw T n) (hr : ∀ p ∈ Ms, ¬ (p.1.t = -1 ∧ p.2.t = -1)) :
    nweight U Ms = U u v ∨ ∃ b1 b2, (b1.t = -1 ∧ GNode key dh dw T b1) ∧ (b2.t = -1 ∧ GNode key dh dw T b2) ∧
      nweight U Ms = U u b1 + U v b2 ∧ crossPar key Ms = (decide (lev key b1 ≤ 0) ^^ decide (lev key b2 ≤ 0)) := by
  have hlu : decide (lev key u ≤ 0) = false := by
    have := gnode_level H gu
    exact decide_eq_false (by omega)
  have hlv : decide (lev key v ≤ 0) = false := by
    have := gnode_level H gv
    exact decide_eq_false (by omega)
  have hlen := kept_length hnd hr hL
  have mu := (hL u hu).2 (by simp)
  have mv := (hL v hv).2 (by simp)
  have hre : ∀ n ∈ ends Ms, n.t ≠ -1 → n = u ∨ n = v := fun n h ht => by simpa using (hL n ht).1 h
  match Ms, hlen with
  | [], _ => simp [ends] at mu
  | [(a, b)], _ =>
    left
    simp only [ends, List.flatMap_cons, List.flatMap_nil, List.append_nil, List.mem_cons, List.not_mem_nil, or_false] at mu mv
    simp only [nweight, List.map_cons, List.map_nil, List.sum_cons, List.sum_nil, add_zero]
    rcases mu with rfl | rfl <;> rcases mv with rfl | rfl
    · exact absurd rfl huv
    · rfl
    · exact hU _ _
    · exact absurd rfl huv
  | [(a, b), (c, e)], _ =>
    right
    have h1 := hr (a, b) (by simp)
    have h2 := hr (c, e) (by simp)
    simp only [ends, List.flatMap_cons, List.flatMap_nil, List.append_nil, List.cons_append, List.nil_append, List.mem_cons,
      List.not_mem_nil, or_false, forall_eq_or_imp, forall_eq, List.nodup_cons, not_or, List.nodup_nil, not_false_eq_true, and_true] at *
    obtain ⟨ga, gb, gc, ge⟩ := hg
    obtain ⟨ra, rb, rc, re⟩ := hre
    obtain ⟨⟨n1, n2, n3⟩, ⟨n4, n5⟩, n6⟩ := hnd
    have fin : ∀ x y x' y' : Node, (x = a ∧ y = b ∨ x = b ∧ y = a) → (x' = c ∧ y' = e ∨ x' = e ∧ y' = c) →
        nweight U [(a, b), (c, e)] = U x y + U x' y' ∧ crossPar key [(a, b), (c, e)] =
          ((decide (lev key x ≤ 0) ^^ decide (lev key y ≤ 0)) ^^ (decide (lev key x' ≤ 0) ^^ decide (lev key y' ≤ 0))) := by
      intro x y x' y' hx hx'
      simp only [nweight, crossPar, List.map_cons, List.map_nil, List.sum_cons, List.sum_nil, add_zero, xorAll_cons, xorAll_nil, Bool.xor_false]
      rcases hx with ⟨rfl, rfl⟩ | ⟨rfl, rfl⟩ <;> rcases hx' with ⟨rfl, rfl⟩ | ⟨rfl, rfl⟩
      · exact ⟨rfl, rfl⟩
      · exact ⟨by rw [hU y' x'], by rw [Bool.xor_comm (decide (lev key x' ≤ 0))]⟩
      · exact ⟨by rw [hU y x], by rw [Bool.xor_comm (decide (lev key x ≤ 0))]⟩
      · exact ⟨by rw [hU y' x', hU y x], by rw [Bool.xor_comm (decide (lev key x ≤ 0)), Bool.xor_comm (decide (lev key x' ≤ 0))]⟩
    -- the real node and the boundary node of each pair
    have split1 : ∃ x y, (x = a ∧ y = b ∨ x = b ∧ y = a) ∧ (x = u ∨ x = v) ∧ y.t = -1 ∧ GNode key dh dw T y := by
      by_cases ta : a.t = -1
      · have tb : b.t ≠ -1 := fun h => h1 ⟨ta, h⟩
        exact ⟨b, a, Or.inr ⟨rfl, rfl⟩, rb tb, ta, ga⟩
      · by_cases tb : b.t = -1
        · exact ⟨a, b, Or.inl ⟨rfl, rfl⟩, ra ta, tb, gb⟩
        · exfalso
          have ra := ra ta
          have rb := rb tb
          by_cases tc : c.t = -1
          · have re := re fun h => h2 ⟨tc, h⟩
            rcases ra with rfl | rfl <;> rcases rb with rfl | rfl <;> rcases re with rfl | rfl <;> simp_all
          · have rc := rc tc
            rcases ra with rfl | rfl <;> rcases rb with rfl | rfl <;> rcases rc with rfl | rfl <;> simp_all
    have split2 : ∃ x y, (x = c ∧ y = e ∨ x = e ∧ y = c) ∧ (x = u ∨ x = v) ∧ y.t = -1 ∧ GNode key dh dw T y := by
      by_cases ta : c.t = -1
      · have tb : e.t ≠ -1 := fun h => h2 ⟨ta, h⟩
        exact ⟨e, c, Or.inr ⟨rfl, rfl⟩, re tb, ta, gc⟩
      · by_cases tb : e.t = -1
        · exact ⟨c, e, Or.inl ⟨rfl, rfl⟩, rc ta, tb, ge⟩
        · exfalso
          have qc := rc ta
          have qe := re tb
          obtain ⟨x, y, hx, hx', -⟩ := split1
          clear ra rb rc re fin
          rcases hx with ⟨rfl, -⟩ | ⟨rfl, -⟩ <;> rcases qc with rfl | rfl <;> rcases qe with rfl | rfl <;> rcases hx' with rfl | rfl <;> simp_all
    obtain ⟨x, y, x1, x2, x3, x4⟩ := split1
    obtain ⟨x', y', y1, y2, y3, y4⟩ := split2
    obtain ⟨f1, f2⟩ := fin x y x' y' x1 y1
    have hne : x ≠ x' := by
      rcases x1 with ⟨rfl, rfl⟩ | ⟨rfl, rfl⟩ <;> rcases y1 with ⟨rfl, rfl⟩ | ⟨rfl, rfl⟩ <;> assumption
    rcases x2 with rfl | rfl <;> rcases y2 with rfl | rfl
    · exact absurd rfl hne
    · exact ⟨y, y', ⟨x3, x4⟩, ⟨y3, y4⟩, f1, by rw [f2, hlu, hlv, Bool.false_xor, Bool.false_xor]⟩
    · exact ⟨y', y, ⟨y3, y4⟩, ⟨x3, x4⟩, by rw [f1, add_comm], by rw [f2, hlu, hlv, Bool.false_xor, Bool.false_xor, Bool.xor_comm]⟩
    · exact absurd rfl hne
  | _ :: _ :: _ :: _, h => simp at h

/-! ### Weights -/

/-- `log 2 / log ((1 - p) / p)`: what doubling the number of paths is worth, in units of one error. -/
noncomputable def worth (p : ℝ) : ℝ := Real.log 2 / (Real.log (1 - p) - Real.log p)

theorem pyTrunc_neg {x : ℝ} (h : x ≤ 0) : x ≤ pyTrunc x := by
  unfold pyTrunc
  split
  · have : x = 0 := by linarith
    subst this
    simp
  · exact Int.le_ceil x

theorem log_pow_div (p : ℝ) (j : Nat) : Real.log ((2 ^ j : Nat) : ℝ) / (Real.log (1 - p) - Real.log p) = j * worth p := by
  push_cast
  rw [Real.log_pow]
  unfold worth
  ring

/-- A boundary node at distance at least `m` has at most the weight of distance `m` with `2 ^ m` paths. -/
theorem boundary_weight_le {D : Decoder} {s : SGraph} (R : Ready D .Z s) (hT : D.T = 1) {l k : Int} (c : Cell D.dh D.dw l k)
    (h0 : 0 < l) (h1 : l < D.dh) (hst : nd D.dh l k ≠ startNode .Z 0) {b : Node} (hb : b.t = -1) (gb : GNode .Z D.dh D.dw 1 b)
    {p : ℝ} (p0 : 0 < p) (p1 : p < 1 / 2) (hw : worth p ≤ 1) {m : Nat} (hm : m ≤ pdist (GAdj .Z D.dh D.dw 1) (nd D.dh l k) b) :
    (probWeightInt .Z D.dh D.dw 1 p (nd D.dh l k) b : ℝ) ≤ -(10000 * (m * (1 - worth p))) + 1 := by
  have ht : (nd D.dh l k).t ≠ -1 := by
    unfold nd
    rw [if_neg (by omega)]
    simp
  obtain ⟨lb, kb, cb, rfl⟩ := gnode_cell R.long gb
  have hlb : lb = 0 ∨ lb = D.dh := by
    unfold nd at hb
    simp only at hb
    split at hb
    · assumption
    · omega
  have hle := boundary_le R hT c h0 h1 cb hlb rfl
  have hpos : 0 < boundaryPaths .Z D.dh D.dw 1 (virtualNodes D.dh D.dw .Z) (nd D.dh l k) (nd D.dh lb kb) := by
    have := boundaryPaths_pos R (by rw [hT]; exact cell_gnode R.long c) ((gnode_virt R.odd gb).2 hb)
    rwa [hT] at this
  have hq := log_pos_of_small p0 p1
  unfold probWeightInt probWeight weightFn
  rw [if_pos rfl, if_neg (fun h => ht h.1)]
  refine (pyTrunc_le _).trans ?_
  have e : degValue .Z D.dh D.dw 1 (startNode .Z 0) (nd D.dh l k) (nd D.dh lb kb) =
      boundaryPaths .Z D.dh D.dw 1 (virtualNodes D.dh D.dw .Z) (nd D.dh l k) (nd D.dh lb kb) := by
    unfold degValue
    rw [if_neg ht, if_pos hb, if_neg hst]
  rw [e]
  generalize boundaryPaths .Z D.dh D.dw 1 (virtualNodes D.dh D.dw .Z) (nd D.dh l k) (nd D.dh lb kb) = B at *
  generalize pdist (GAdj .Z D.dh D.dw 1) (nd D.dh l k) (nd D.dh lb kb) = j at *
  have h2 : Real.log B / (Real.log (1 - p) - Real.log p) ≤ j * worth p := by
    rw [← log_pow_div]
    refine div_le_div_of_nonneg_right (Real.log_le_log (by exact_mod_cast hpos) (by exact_mod_cast hle)) hq.le
  have h3 : (m : ℝ) ≤ j := by exact_mod_cast hm
  have h4 : (m : ℝ) * (1 - worth p) ≤ j * (1 - worth p) := mul_le_mul_of_nonneg_right h3 (by linarith)
  linarith

/-- A boundary node at distance `m` with at least `2 ^ m` paths has at least the weight of that. -/
theorem boundary_weight_ge {D : Decoder} {s : SGraph} (R : Ready D .Z s) (hT : D.T = 1) {l k : Int} (c : Cell D.dh D.dw l k)
    (h0 : 0 < l) (h1 : l < D.dh) (hst : nd D.dh l k ≠ startNode .Z 0) {lb kb : Int} (cb : Cell D.dh D.dw lb kb) (hlb : lb = 0 ∨ lb = D.dh)
    {p : ℝ} (hw : worth p ≤ 1) {m : Nat} (hm : pdist (GAdj .Z D.dh D.dw 1) (nd D.dh l k) (nd D.dh lb kb) = m)
    (hge : 2 ^ m ≤ boundaryPaths .Z D.dh D.dw 1 (virtualNodes D.dh D.dw .Z) (nd D.dh l k) (nd D.dh lb kb)) :
    -(10000 * (m * (1 - worth p))) ≤ (probWeightInt .Z D.dh D.dw 1 p (nd D.dh l k) (nd D.dh lb kb) : ℝ) := by
  have ht : (nd D.dh l k).t ≠ -1 := by
    unfold nd
    rw [if_neg (by omega)]
    simp
  have hb : (nd D.dh lb kb).t = -1 := by
    unfold nd
    rw [if_pos hlb]
  have hle := boundary_le R hT c h0 h1 cb hlb hm
  unfold probWeightInt probWeight weightFn
  rw [if_pos rfl, if_neg (fun h => ht h.1)]
  have e : degValue .Z D.dh D.dw 1 (startNode .Z 0) (nd D.dh l k) (nd D.dh lb kb) = 2 ^ m := by
    unfold degValue
    rw [if_neg ht, if_pos hb, if_neg hst]
    exact le_antisymm hle hge
  rw [e, hm, log_pow_div]
  have h4 : 0 ≤ (m : ℝ) * (1 - worth p) := mul_nonneg (Nat.cast_nonneg m) (by linarith)
  refine le_trans ?_ (pyTrunc_neg ?_)
  · linarith
  · linarith

/-- The two ends of the chain: every pairing that is optimal for the weights with probability joins them to opposite boundaries. -/
theorem chain_crosses {D : Decoder} {s : SGraph} (R : Ready D .Z s) (hT : D.T = 1) {i : Nat} (hi : 2 ≤ i) (hdh : D.dh = 4 * i + 1)
    (hdw : D.dw = 4 * i + 1) {p : ℝ} (p0 : 0 < p) (p1 : p < 1 / 2) (hbig : 1 < (2 * i + 1) * worth p)
    (hsmall : 2 < 10000 * ((2 * i - 1) * (1 - worth p))) {L : List Node} (hn : L.Nodup)
    (hL : ∀ n, n ∈ L ↔ IsHit .Z D.dh D.dw D.T (diagChain i (2 * i)) n) {M : List (Node × Node)}
    (hM : NOptimal (EAdj L (virtualNodes D.dh D.dw .Z)) (probWeightInt .Z D.dh D.dw D.T p) M) : crossPar .Z (kept M) = true := by
  have H := R.long
  have hi1 : (2 : ℝ) ≤ i := by exact_mod_cast hi
  have hw : worth p < 1 := by
    by_contra h
    have : (2 * (i : ℝ) - 1) * (1 - worth p) ≤ 0 := mul_nonpos_of_nonneg_of_nonpos (by linarith) (by linarith)
    linarith
  have cu : Cell D.dh D.dw i i := by unfold Cell; omega
  have cv : Cell D.dh D.dw (i + (2 * i : Nat)) (i + (2 * i : Nat)) := by unfold Cell; omega
  have gu := cell_gnode H cu
  have gv := cell_gnode H cv
  have tu : (nd D.dh i i).t ≠ -1 := by unfold nd; rw [if_neg (by omega)]; simp
  have tv : (nd D.dh (i + (2 * i : Nat)) (i + (2 * i : Nat))).t ≠ -1 := by unfold nd; rw [if_neg (by omega)]; simp
  have huv : nd D.dh i i ≠ nd D.dh (i + (2 * i : Nat)) (i + (2 * i : Nat)) := by
    intro h
    have := nd_inj h
    omega
  have su : nd D.dh i i ≠ startNode .Z 0 := by
    intro h
    unfold nd startNode at h
    simp only [Node.mk.injEq] at h
    omega
  have sv : nd D.dh (i + (2 * i : Nat)) (i + (2 * i : Nat)) ≠ startNode .Z 0 := by
    intro h
    unfold nd startNode at h
    simp only [Node.mk.injEq] at h
    omega
  rw [hT] at hL hM
  have hL' : ∀ n, n ∈ L ↔ n ∈ [nd D.dh i i, nd D.dh (i + (2 * i : Nat)) (i + (2 * i : Nat))] := by
    intro n
    have e : D.dw = D.dh := by omega
    rw [hL n, e, diagChain_isHit hdh (by omega)]
    simp
  have hLg : ∀ n ∈ L, GNode .Z D.dh D.dw 1 n := fun n h => isHit_gnode ((hL n).1 h)
  have hr : ∀ n ∈ L, n.t ≠ -1 := by
    intro n h
    have := ((hL n).1 h).1
    omega
  -- the pairing with both boundaries
  obtain ⟨ct, dt, nt⟩ := top_ge R hT (j := i) cu (le_refl _) (by omega)
  obtain ⟨cb, db, nb⟩ := bottom_ge R hT (j := i + 1) cv (by push_cast; omega) (by push_cast; omega) (by push_cast; omega)
  have w1 := boundary_weight_ge R hT cu (by omega) (by omega) su ct (Or.inl rfl) hw.le dt nt
  have w2 := boundary_weight_ge R hT cv (by omega) (by omega) sv cb (Or.inr rfl) hw.le db nb
  have gt := cell_gnode H ct
  have gb := cell_gnode H cb
  have tt : (nd D.dh 0 (i - i)).t = -1 := by unfold nd; rw [if_pos (Or.inl rfl)]
  have tb : (nd D.dh D.dh (i + (2 * i : Nat) - (i + 1 : Nat))).t = -1 := by unfold nd; rw [if_pos (Or.inr rfl)]
  have htb : nd D.dh 0 (i - i) ≠ nd D.dh D.dh (i + (2 * i : Nat) - (i + 1 : Nat)) := by
    intro h
    have := nd_inj h
    omega
  have n1 : ∀ {a b : Node}, a.t ≠ -1 → b.t = -1 → a ≠ b := by
    rintro a b h1 h2 rfl
    exact h1 h2
  obtain ⟨hperm, hopt⟩ := optimal_covers (key := .Z) R.odd hLg (parityOk_nodup hn hr) (probWeightInt_virt (p := p))
    (M0 := [(nd D.dh i i, nd D.dh 0 (i - i)), (nd D.dh (i + (2 * i : Nat)) (i + (2 * i : Nat)), nd D.dh D.dh (i + (2 * i : Nat) - (i + 1 : Nat)))])
    (by
      simp only [ends, List.flatMap_cons, List.flatMap_nil, List.append_nil, List.cons_append, List.nil_append, List.nodup_cons, List.mem_cons,
        List.not_mem_nil, or_false, not_or, List.nodup_nil, not_false_eq_true, and_true]
      exact ⟨⟨n1 tu tt, huv, n1 tu tb⟩, ⟨(n1 tv tt).symm, htb⟩, n1 tv tb⟩)
    (by
      intro n h
      rw [hL']
      simp only [ends, List.flatMap_cons, List.flatMap_nil, List.append_nil, List.cons_append, List.nil_append, List.mem_cons,
        List.not_mem_nil, or_false]
      constructor
      · rintro (rfl | rfl | rfl | rfl)
        · exact Or.inl rfl
        · exact absurd tt h
        · exact Or.inr rfl
        · exact absurd tb h
      · rintro (rfl | rfl)
        · exact Or.inl rfl
        · exact Or.inr (Or.inr (Or.inl rfl)))
    (by
      intro n h ht
      simp only [ends, List.flatMap_cons, List.flatMap_nil, List.append_nil, List.cons_append, List.nil_append, List.mem_cons,
        List.not_mem_nil, or_false] at h
      rcases h with rfl | rfl | rfl | rfl
      · exact absurd ht tu
      · exact (gnode_virt R.odd gt).2 tt
      · exact absurd ht tv
      · exact (gnode_virt R.odd gb).2 tb) hM
  obtain ⟨f1, f2, f3, f4⟩ := kept_facts R.odd hLg hM.1 hperm
  rw [← nweight_kept probWeightInt_virt M] at hopt
  have hsum : -(10000 * ((2 * i + 1) * (1 - worth p))) ≤ (nweight (probWeightInt .Z D.dh D.dw 1 p) (kept M) : ℝ) := by
    have h3 : ((probWeightInt .Z D.dh D.dw 1 p (nd D.dh i i) (nd D.dh 0 (i - i)) + probWeightInt .Z D.dh D.dw 1 p
        (nd D.dh (i + (2 * i : Nat)) (i + (2 * i : Nat))) (nd D.dh D.dh (i + (2 * i : Nat) - (i + 1 : Nat))) : Int) : ℝ) ≤
        (nweight (probWeightInt .Z D.dh D.dw 1 p) (kept M) : ℝ) := by
      have h4 := hopt
      simp only [nweight, List.map_cons, List.map_nil, List.sum_cons, List.sum_nil, add_zero] at h4
      exact_mod_cast h4
    rw [Int.cast_add] at h3
    rw [Nat.cast_add, Nat.cast_one] at w2
    linarith
  rcases two_hits H (U := probWeightInt .Z D.dh D.dw 1 p)
      (fun a b => by unfold probWeightInt; rw [probWeight_symm]) tu tv huv gu gv f1 (fun n h => by rw [f2 n h, hL']) f3 f4 with e | ⟨b1, b2, ⟨t1, g1⟩, ⟨t2, g2⟩, e, ec⟩
  · exfalso
    obtain ⟨d1, d2⟩ := diag_shortest H (2 * i) cu cv
    have e2 : probWeightInt .Z D.dh D.dw 1 p (nd D.dh i i) (nd D.dh (i + (2 * i : Nat)) (i + (2 * i : Nat))) = 10000 * (-((2 * i : Nat) : Int)) := by
      unfold probWeightInt probWeight weightFn degValue
      rw [if_pos rfl, if_neg (fun h => tu h.1), if_neg tu, if_neg tv, d1, d2, Nat.cast_one, Real.log_one, zero_div, sub_zero, ← pyTrunc_scaled]
      congr 1
      push_cast
      ring
    rw [e, e2] at hsum
    push_cast at hsum
    linarith
  · rw [ec]
    obtain ⟨l1, k1, c1, rfl⟩ := gnode_cell H g1
    obtain ⟨l2, k2, c2, rfl⟩ := gnode_cell H g2
    have hl1 : l1 = 0 ∨ l1 = D.dh := by
      unfold nd at t1
      simp only at t1
      split at t1
      · assumption
      · omega
    have hl2 : l2 = 0 ∨ l2 = D.dh := by
      unfold nd at t2
      simp only at t2
      split at t2
      · assumption
      · omega
    have hlev : ∀ l k, lev .Z (nd D.dh l k) = l := by
      intro l k
      simp only [lev, nd]
      omega
    rw [hlev, hlev]
    rw [e, Int.cast_add] at hsum
    have q1 := cell_dist H cu c1
    have q2 := cell_dist H cv c2
    rcases hl1 with rfl | rfl <;> rcases hl2 with rfl | rfl
    · exfalso
      have w3 := boundary_weight_le R hT cu (by omega) (by omega) su t1 g1 p0 p1 hw.le (m := i) (by omega)
      have w4 := boundary_weight_le R hT cv (by omega) (by omega) sv t2 g2 p0 p1 hw.le (m := 3 * i) (by omega)
      rw [show ((3 * i : Nat) : ℝ) = 3 * i by push_cast; ring] at w4
      linarith
    · rw [decide_eq_true (le_refl _), decide_eq_false (by omega)]; rfl
    · rw [decide_eq_true (le_refl _), decide_eq_false (by omega)]; rfl
    · exfalso
      have w3 := boundary_weight_le R hT cu (by omega) (by omega) su t1 g1 p0 p1 hw.le (m := 3 * i + 1) (by omega)
      have w4 := boundary_weight_le R hT cv (by omega) (by omega) sv t2 g2 p0 p1 hw.le (m := i + 1) (by omega)
      rw [show ((3 * i + 1 : Nat) : ℝ) = 3 * i + 1 by push_cast; ring] at w3
      rw [show ((i + 1 : Nat) : ℝ) = i + 1 by push_cast; ring] at w4
      linarith

end Qtc
