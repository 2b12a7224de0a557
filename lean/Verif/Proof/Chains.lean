import Verif.Proof.Peierls
/-!
How many chains of faults there are.
-/
namespace Qtc
open Spec

variable {key : Key} {dh dw T : Int}

/-- The faults at an inner node. -/
def nexts (T : Int) (n : Node) : List Fault :=
  [.data n.t ((n.r2 - 1) / 2) ((n.c2 - 1) / 2), .data n.t ((n.r2 - 1) / 2) ((n.c2 + 1) / 2), .data n.t ((n.r2 + 1) / 2) ((n.c2 - 1) / 2),
    .data n.t ((n.r2 + 1) / 2) ((n.c2 + 1) / 2)] ++ if T ≤ 1 then [] else [.meas n.t n.r2 n.c2, .meas (n.t - 1) n.r2 n.c2]

/-- How many faults a chain can be continued by. -/
def branching (T : Int) : Nat := if T ≤ 1 then 3 else 5

/-- The other end of a fault. -/
def otherEnd (f : Fault) (n : Node) : Node :=
  match f with
  | .data t r c => ⟨t, 4 * r - n.r2, 4 * c - n.c2⟩
  | .meas t r c => ⟨2 * t + 1 - n.t, r, c⟩

theorem nexts_length (T : Int) (n : Node) : (nexts T n).length = branching T + 1 := by
  unfold nexts branching
  split <;> rfl

theorem FJ.nexts {f : Fault} {a b : Node} (h : FJ key dh dw T f a b) (ha : RealNode key dh dw T a) : f ∈ nexts T a := by
  have h0 := ha.1
  cases f with
  | data t r c =>
    have hd := dataEdge_diag h
    obtain ⟨_, _, _, _, _, _, _, ⟨_, _, h8⟩, _⟩ := h
    have ht : a.t = t := by
      rcases h8 with h | h
      · exact h.1
      · omega
    unfold Qtc.nexts
    refine List.mem_append_left _ ?_
    simp only [List.mem_cons, Fault.data.injEq, List.not_mem_nil, or_false]
    omega
  | meas t r c =>
    obtain ⟨⟨h1, h2, h3, h4, h5, h6⟩, h7, h8⟩ := h
    unfold Qtc.nexts
    rw [if_neg (by omega)]
    refine List.mem_append_right _ ?_
    simp only [List.mem_cons, Fault.meas.injEq, List.not_mem_nil, or_false]
    omega

theorem FJ.otherEnd {f : Fault} {a b : Node} (h : FJ key dh dw T f a b) (hb : RealNode key dh dw T b) : b = otherEnd f a := by
  have h0 := hb.1
  obtain ⟨bt, br, bc⟩ := b
  cases f with
  | data t r c =>
    have hd := dataEdge_diag h
    obtain ⟨_, _, _, _, _, _, _, _, ⟨_, _, h9⟩⟩ := h
    have ht : bt = t := by
      rcases h9 with h | h
      · exact h.1
      · simp only at h0 h; omega
    simp only [Qtc.otherEnd, Node.mk.injEq]
    simp only at hd
    omega
  | meas t r c =>
    obtain ⟨⟨h1, h2, h3, h4, h5, h6⟩, h7, h8⟩ := h
    simp only [Qtc.otherEnd, Node.mk.injEq]
    simp only at h4 h5 h6
    omega

/-- The position is between the data qubits. -/
def OddNode (n : Node) : Prop := n.r2 % 2 = 1 ∧ n.c2 % 2 = 1

theorem nexts_otherEnd {f : Fault} {n : Node} (hn : OddNode n) (h : f ∈ nexts T n) : f ∈ nexts T (otherEnd f n) ∧ OddNode (otherEnd f n) := by
  obtain ⟨h1, h2⟩ := hn
  unfold nexts at h
  rcases List.mem_append.1 h with h | h
  · have : ∀ t r c, f = .data t r c → n.t = t → (r = (n.r2 - 1) / 2 ∨ r = (n.r2 + 1) / 2) → (c = (n.c2 - 1) / 2 ∨ c = (n.c2 + 1) / 2) →
        f ∈ nexts T (otherEnd f n) ∧ OddNode (otherEnd f n) := by
      rintro t r c rfl ht hr hc
      unfold nexts
      refine ⟨List.mem_append_left _ ?_, ?_⟩
      · simp only [List.mem_cons, Fault.data.injEq, List.not_mem_nil, or_false, otherEnd, true_and]
        omega
      · simp only [OddNode, otherEnd]
        omega
    simp only [List.mem_cons, List.not_mem_nil, or_false] at h
    rcases h with h | h | h | h
    · exact this _ _ _ h rfl (Or.inl rfl) (Or.inl rfl)
    · exact this _ _ _ h rfl (Or.inl rfl) (Or.inr rfl)
    · exact this _ _ _ h rfl (Or.inr rfl) (Or.inl rfl)
    · exact this _ _ _ h rfl (Or.inr rfl) (Or.inr rfl)
  · by_cases hT : T ≤ 1
    · rw [if_pos hT] at h
      exact absurd h List.not_mem_nil
    · rw [if_neg hT] at h
      simp only [List.mem_cons, List.not_mem_nil, or_false] at h
      unfold nexts
      rw [if_neg hT]
      rcases h with rfl | rfl
      · refine ⟨List.mem_append_right _ ?_, h1, h2⟩
        simp only [List.mem_cons, Fault.meas.injEq, List.not_mem_nil, or_false, otherEnd, and_true]
        omega
      · refine ⟨List.mem_append_right _ ?_, h1, h2⟩
        simp only [List.mem_cons, Fault.meas.injEq, List.not_mem_nil, or_false, otherEnd, and_true]
        omega

/-- The chains of `k` faults from the inner node `n`, which was reached by the fault `g`. -/
def walksFrom (T : Int) : Nat → Node → Fault → List (List Fault)
  | 0, _, _ => [[]]
  | k + 1, n, g => ((nexts T n).filter fun f => decide (f ≠ g)).flatMap fun f => (walksFrom T k (otherEnd f n) f).map (f :: ·)

theorem walksFrom_length (T : Int) : ∀ (k : Nat) (n : Node) (g : Fault), OddNode n → g ∈ nexts T n →
    (walksFrom T k n g).length ≤ branching T ^ k
  | 0, _, _, _, _ => by simp [walksFrom]
  | k + 1, n, g, hn, hg => by
    unfold walksFrom
    rw [List.length_flatMap]
    have h1 : ((nexts T n).filter fun f => decide (f ≠ g)).length ≤ branching T := by
      have := List.length_filter_lt_length_iff_exists (p := fun f => decide (f ≠ g)) (l := nexts T n) |>.2 ⟨g, hg, by simp⟩
      rw [nexts_length] at this
      omega
    have h2 : ((((nexts T n).filter fun f => decide (f ≠ g)).map fun f => ((walksFrom T k (otherEnd f n) f).map (f :: ·)).length)).sum ≤
        ((nexts T n).filter fun f => decide (f ≠ g)).length * branching T ^ k := by
      rw [← List.length_map (f := fun f => ((walksFrom T k (otherEnd f n) f).map (f :: ·)).length), ← smul_eq_mul]
      refine List.sum_le_card_nsmul _ _ fun x hx => ?_
      obtain ⟨f, hf, rfl⟩ := List.mem_map.1 hx
      rw [List.length_map]
      obtain ⟨h3, h4⟩ := nexts_otherEnd hn (List.mem_filter.1 hf).1
      exact walksFrom_length T k _ _ h4 h3
    calc _ ≤ _ := h2
      _ ≤ branching T * branching T ^ k := Nat.mul_le_mul_right _ h1
      _ = branching T ^ (k + 1) := by ring

theorem real_odd {n : Node} (h : RealNode key dh dw T n) : OddNode n := by
  obtain ⟨_, _, h⟩ := h
  cases key
  · exact ⟨h.1, h.2.1⟩
  · exact ⟨h.1, h.2.1⟩

theorem Cross.walks {a c : Node} {l : List Fault} (h : Cross (FJ key dh dw T) (RealNode key dh dw T) a l c) :
    RealNode key dh dw T a → ∀ g, (g :: l).Nodup → l ∈ walksFrom T l.length a g := by
  induction h with
  | @last f a b h1 h2 =>
    intro ha g hn
    show _ ∈ walksFrom T (0 + 1) a g
    unfold walksFrom
    rw [List.mem_flatMap]
    refine ⟨f, List.mem_filter.2 ⟨h1.nexts ha, decide_eq_true ?_⟩, by simp [walksFrom]⟩
    simp only [List.nodup_cons, List.mem_singleton] at hn
    exact Ne.symm hn.1
  | @step f a b c l h1 h2 h3 ih =>
    intro ha g hn
    show _ ∈ walksFrom T (l.length + 1) a g
    unfold walksFrom
    rw [List.mem_flatMap]
    refine ⟨f, List.mem_filter.2 ⟨h1.nexts ha, decide_eq_true ?_⟩, ?_⟩
    · rw [List.nodup_cons, List.mem_cons, not_or] at hn
      exact Ne.symm hn.1.1
    · rw [← h1.otherEnd h2]
      exact List.mem_map.2 ⟨l, ih h2 f (List.nodup_cons.1 hn).2, rfl⟩

/-- The faults at the upper boundary, and the inner nodes they lead to. -/
def starts (key : Key) (dh dw T : Int) : List (Fault × Node) :=
  match key with
  | .Z => (List.range T.toNat).flatMap fun (t : Nat) => (List.range dw.toNat).map fun (k : Nat) =>
      (.data t 0 k, ⟨t, 1, if k % 2 = 0 then 2 * k + 1 else 2 * k - 1⟩)
  | .X => (List.range T.toNat).flatMap fun (t : Nat) => (List.range dh.toNat).map fun (k : Nat) =>
      (.data t k 0, ⟨t, if k % 2 = 0 then 2 * k - 1 else 2 * k + 1, 1⟩)

/-- The extension of the lattice along the boundary. -/
def breadth (key : Key) (dh dw : Int) : Nat :=
  match key with
  | .Z => dw.toNat
  | .X => dh.toNat

theorem starts_length : (starts key dh dw T).length = T.toNat * breadth key dh dw := by
  cases key <;> simp [starts, breadth, List.length_flatMap]

theorem mem_starts (H : Long key dh dw) {f : Fault} {a b : Node} (h : FJ key dh dw T f a b) (ha : lev key a ≤ 0) (hb : RealNode key dh dw T b) :
    (f, b) ∈ starts key dh dw T := by
  have h0 := hb.1
  have hlb : 0 < lev key b := by
    rcases gnode_level H (n := b) (Or.inl hb) with h | h
    · omega
    · exact h.2.1
  have hs := hb.2.2
  obtain ⟨bt, br, bc⟩ := b
  cases f with
  | meas t r c =>
    obtain ⟨⟨h1, h2, h3, h4, h5, h6⟩, h7, h8⟩ := h
    exfalso
    cases key
    · simp only [lev] at *; omega
    · simp only [lev] at *; omega
  | data t r c =>
    have hl := dataEdge_level h
    have hd := dataEdge_diag h
    obtain ⟨g1, g2, g3, g4, g5, g6, g7, _, ⟨_, _, h9⟩⟩ := h
    have ht : bt = t := by
      rcases h9 with h | h
      · exact h.1
      · simp only at h0 h; omega
    subst ht
    cases key
    · simp only [Site, XSite, lev] at *
      refine List.mem_flatMap.2 ⟨bt.toNat, List.mem_range.2 (by omega), List.mem_map.2 ⟨r.toNat, List.mem_range.2 (by omega), ?_⟩⟩
      simp only [Prod.mk.injEq, Fault.data.injEq, Node.mk.injEq]
      split <;> omega
    · simp only [Site, ZSite, lev] at *
      refine List.mem_flatMap.2 ⟨bt.toNat, List.mem_range.2 (by omega), List.mem_map.2 ⟨c.toNat, List.mem_range.2 (by omega), ?_⟩⟩
      simp only [Prod.mk.injEq, Fault.data.injEq, Node.mk.injEq]
      split <;> omega

theorem starts_nexts {p : Fault × Node} (h : p ∈ starts key dh dw T) : p.1 ∈ nexts T p.2 ∧ OddNode p.2 := by
  cases key
  · obtain ⟨t, ht, h⟩ := List.mem_flatMap.1 h
    obtain ⟨k, hk, rfl⟩ := List.mem_map.1 h
    unfold nexts
    refine ⟨List.mem_append_left _ ?_, ?_⟩
    · simp only [List.mem_cons, Fault.data.injEq, List.not_mem_nil, or_false, true_and]
      split <;> omega
    · simp only [OddNode]
      split <;> omega
  · obtain ⟨t, ht, h⟩ := List.mem_flatMap.1 h
    obtain ⟨k, hk, rfl⟩ := List.mem_map.1 h
    unfold nexts
    refine ⟨List.mem_append_left _ ?_, ?_⟩
    · simp only [List.mem_cons, Fault.data.injEq, List.not_mem_nil, or_false, true_and]
      split <;> omega
    · simp only [OddNode]
      split <;> omega

/-- The chains of `k + 1` faults from the upper boundary. -/
def chainList (key : Key) (dh dw T : Int) (k : Nat) : List (List Fault) :=
  (starts key dh dw T).flatMap fun p => (walksFrom T k p.2 p.1).map (p.1 :: ·)

theorem chainList_length (k : Nat) : (chainList key dh dw T k).length ≤ T.toNat * breadth key dh dw * branching T ^ k := by
  unfold chainList
  rw [List.length_flatMap, ← starts_length, ← List.length_map (f := fun p => ((walksFrom T k p.2 p.1).map (p.1 :: ·)).length), ← smul_eq_mul]
  refine List.sum_le_card_nsmul _ _ fun x hx => ?_
  obtain ⟨p, hp, rfl⟩ := List.mem_map.1 hx
  rw [List.length_map]
  obtain ⟨h1, h2⟩ := starts_nexts hp
  exact walksFrom_length T k _ _ h2 h1

theorem Cross.level {a c : Node} {l : List Fault} (h : Cross (FJ key dh dw T) (RealNode key dh dw T) a l c) :
    lev key c ≤ lev key a + l.length := by
  induction h with
  | last h1 h2 => have := (gadj_level h1.adj).2; simp only [List.length_singleton]; omega
  | step h1 h2 h3 ih => have := (gadj_level h1.adj).2; simp only [List.length_cons]; push_cast; omega

theorem Cross.listed (H : Long key dh dw) {a c : Node} {l : List Fault} (h : Cross (FJ key dh dw T) (RealNode key dh dw T) a l c)
    (ha : lev key a ≤ 0) (hc : lev key c = distance key dh dw) (hn : l.Nodup) :
    ∃ k, l.length = k + 1 ∧ distance key dh dw ≤ k + 1 ∧ l ∈ chainList key dh dw T k := by
  have hlen := h.level
  have hd : 3 ≤ distance key dh dw := by
    obtain ⟨_, h⟩ := H
    cases key <;> exact h
  cases h with
  | last h1 h2 => simp only [List.length_singleton] at hlen; omega
  | @step f _ b _ l h1 h2 h3 =>
    refine ⟨l.length, rfl, by simp only [List.length_cons] at hlen; push_cast at hlen; omega, List.mem_flatMap.2 ⟨(f, b), mem_starts H h1 ha h2, ?_⟩⟩
    exact List.mem_map.2 ⟨l, h3.walks h2 f hn, rfl⟩

end Qtc
