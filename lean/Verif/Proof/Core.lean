import Verif.Proof.Corrections
/-!
An optimal matching covers all hits, and its correction is right for few faults.
-/
namespace Qtc
open Spec

/-- Is the node a stabilizer at some time (not a boundary node)? -/
def isReal (n : Node) : Bool := n.t != -1

theorem isReal_iff {n : Node} : isReal n = true ↔ n.t ≠ -1 := by unfold isReal; simp

/-- The hits among the nodes of a list, each once. -/
def reals (L : List Node) : List Node := (L.filter isReal).dedup

theorem mem_reals {L : List Node} {n : Node} : n ∈ reals L ↔ n ∈ L ∧ n.t ≠ -1 := by
  unfold reals
  rw [List.mem_dedup, List.mem_filter, isReal_iff]

theorem reals_nodup (L : List Node) : (reals L).Nodup := List.nodup_dedup _

/-- The odd one out. -/
def extras (L : List Node) : List Node := if L.length % 2 = 1 then [extraNode] else []

theorem nweight_append (U : Node → Node → Int) (M N : List (Node × Node)) : nweight U (M ++ N) = nweight U M + nweight U N := by
  simp [nweight]

theorem nweight_zero {U : Node → Node → Int} : ∀ {M : List (Node × Node)}, (∀ p ∈ M, U p.1 p.2 = 0) → nweight U M = 0
  | [], _ => rfl
  | p :: M, h => by
    have := nweight_zero (M := M) fun q hq => h q (List.mem_cons_of_mem _ hq)
    unfold nweight at *
    rw [List.map_cons, List.sum_cons, this, h p List.mem_cons_self]
    rfl

theorem nweight_kept {U : Node → Node → Int} (hU : ∀ a b : Node, a.t = -1 → b.t = -1 → U a b = 0) (M : List (Node × Node)) :
    nweight U (kept M) = nweight U M := by
  induction M with
  | nil => rfl
  | cons p M ih =>
    unfold nweight kept at *
    by_cases h : p.1.t = -1 ∧ p.2.t = -1
    · rw [List.filter_cons_of_neg (by simp [h]), ih, List.map_cons, List.sum_cons, hU _ _ h.1 h.2, zero_add]
    · rw [List.filter_cons_of_pos, List.map_cons, List.sum_cons, List.map_cons, List.sum_cons, ih]
      simp only [Bool.not_eq_true', Bool.and_eq_false_imp, beq_iff_eq, beq_eq_false_iff_ne]
      tauto

theorem ends_ne {M : List (Node × Node)} (h : (ends M).Nodup) : ∀ p ∈ M, p.1 ≠ p.2 := by
  induction M with
  | nil => simp
  | cons q M ih =>
    intro p hp
    rw [ends_cons] at h
    rcases List.mem_cons.1 hp with rfl | hp
    · intro he
      exact (List.nodup_cons.1 h).1 (by rw [he]; exact List.mem_cons_self)
    · exact ih (List.nodup_cons.1 (List.nodup_cons.1 h).2).2 p hp

/-- All nodes of the error graph. -/
def allNodes (L virt : List Node) : List Node := reals L ++ (virt ++ extras L)

theorem mem_extras {L : List Node} {n : Node} : n ∈ extras L ↔ L.length % 2 = 1 ∧ n = extraNode := by
  unfold extras
  split
  · next h => simp [h]
  · next h => simp [h]

section
variable {key : Key} {dh dw T : Int}

/-- The parity condition on the list of hits: repeated hits come in even number. -/
def ParityOk (L : List Node) : Prop := L.length % 2 = (reals L).length % 2

theorem allNodes_nodup (H : OddPos dh dw) {L : List Node} : (allNodes L (virtualNodes dh dw key)).Nodup := by
  unfold allNodes
  rw [List.nodup_append, List.nodup_append]
  refine ⟨reals_nodup L, ⟨virtualNodes_nodup H, ?_, ?_⟩, ?_⟩
  · unfold extras; split <;> simp
  · rintro a ha b hb rfl
    rw [mem_extras] at hb
    rw [hb.2] at ha
    exact extra_not_virt H ha
  · rintro a ha b hb rfl
    have h := (mem_reals.1 ha).2
    rcases List.mem_append.1 hb with hb | hb
    · exact h ((mem_virtualNodes H).1 hb).1
    · rw [mem_extras] at hb
      rw [hb.2] at h
      exact h rfl

/-- A pairing of the hits, possibly with boundary nodes, can be completed to a matching of all nodes of the same weight. -/
theorem complete_pairing (H : OddPos dh dw) {L : List Node} (hp : ParityOk L)
    {U : Node → Node → Int} (hU : ∀ a b : Node, a.t = -1 → b.t = -1 → U a b = 0)
    {M0 : List (Node × Node)} (hnd : (ends M0).Nodup)
    (hcov : ∀ n, n.t ≠ -1 → (n ∈ ends M0 ↔ n ∈ L)) (hvirt : ∀ n ∈ ends M0, n.t = -1 → n ∈ virtualNodes dh dw key) :
    ∃ M, NMatch (EAdj L (virtualNodes dh dw key)) M ∧ (ends M).Perm (allNodes L (virtualNodes dh dw key)) ∧
      nweight U M = nweight U M0 ∧ kept M = kept M0 := by
  classical
  generalize hV : virtualNodes dh dw key = virt at *
  have hvnd : virt.Nodup := by rw [← hV]; exact virtualNodes_nodup H
  have hvev : virt.length % 2 = 0 := by rw [← hV]; exact virtualNodes_even H
  have hvt : ∀ n ∈ virt, n.t = -1 := by
    intro n hn
    rw [← hV] at hn
    exact ((mem_virtualNodes H).1 hn).1
  have hxv : extraNode ∉ virt := by rw [← hV]; exact extra_not_virt H
  -- used and unused boundary nodes
  have hperm : (ends M0).Perm (reals L ++ virt.filter (fun v => decide (v ∈ ends M0))) := by
    rw [List.perm_ext_iff_of_nodup hnd]
    · intro n
      rw [List.mem_append, mem_reals, List.mem_filter, decide_eq_true_eq]
      by_cases ht : n.t = -1
      · constructor
        · intro h; exact Or.inr ⟨hvirt n h ht, h⟩
        · rintro (h | h)
          · exact absurd ht h.2
          · exact h.2
      · rw [hcov n ht]
        constructor
        · intro h; exact Or.inl ⟨h, ht⟩
        · rintro (h | h)
          · exact h.1
          · exact absurd (hvt n h.1) ht
    · rw [List.nodup_append]
      refine ⟨reals_nodup L, hvnd.filter _, ?_⟩
      rintro a ha b hb rfl
      exact (mem_reals.1 ha).2 (hvt a (List.mem_filter.1 hb).1)
  have hsplit : virt.Perm (virt.filter (fun v => decide (v ∈ ends M0)) ++ virt.filter (fun v => !decide (v ∈ ends M0))) :=
    (List.filter_append_perm _ _).symm
  let X : List Node := extras L ++ virt.filter (fun v => !decide (v ∈ ends M0))
  have hXlen : X.length % 2 = 0 := by
    have h1 := hperm.length_eq
    have h2 := hsplit.length_eq
    rw [List.length_append, length_ends] at h1
    rw [List.length_append] at h2
    have h3 : (extras L).length = L.length % 2 := by
      unfold extras
      split
      · next h => simp [h]
      · next h => simp only [List.length_nil]; omega
    unfold ParityOk at hp
    show (extras L ++ _).length % 2 = 0
    rw [List.length_append, h3]
    omega
  obtain ⟨P, hP⟩ := exists_pairUp X hXlen
  have hpermA : (ends M0 ++ X).Perm (allNodes L virt) := by
    unfold allNodes
    refine (hperm.append_right X).trans ?_
    rw [List.append_assoc]
    refine List.Perm.append_left _ ?_
    show (virt.filter _ ++ (extras L ++ virt.filter _)).Perm _
    refine (List.Perm.append_left _ List.perm_append_comm).trans ?_
    rw [← List.append_assoc]
    exact hsplit.symm.append_right _
  have hends : ends (M0 ++ P) = ends M0 ++ X := by rw [ends_append, hP]
  have hMnd : (ends (M0 ++ P)).Nodup := by
    rw [hends, hpermA.nodup_iff, ← hV]
    exact allNodes_nodup H
  have hXmem : ∀ n ∈ X, (L.length % 2 = 1 ∧ n = extraNode) ∨ n ∈ virt := by
    intro n hn
    rcases List.mem_append.1 hn with h | h
    · exact Or.inl (mem_extras.1 h)
    · exact Or.inr (List.mem_filter.1 h).1
  have hPmem : ∀ p ∈ P, p.1 ∈ X ∧ p.2 ∈ X := by
    intro p hp
    rw [← hP]
    exact ⟨mem_ends.2 ⟨p, hp, Or.inl rfl⟩, mem_ends.2 ⟨p, hp, Or.inr rfl⟩⟩
  have hne := ends_ne hMnd
  refine ⟨M0 ++ P, ⟨?_, hMnd⟩, by rw [hends]; exact hpermA, ?_⟩
  · intro p hp
    refine ⟨hne p hp, ?_⟩
    rcases List.mem_append.1 hp with h | h
    · have hin : ∀ n ∈ ends M0, n ∈ L ++ virt := by
        intro n hn
        rw [List.mem_append]
        by_cases ht : n.t = -1
        · exact Or.inr (hvirt n hn ht)
        · exact Or.inl ((hcov n ht).1 hn)
      exact Or.inl ⟨hin _ (mem_ends.2 ⟨p, h, Or.inl rfl⟩), hin _ (mem_ends.2 ⟨p, h, Or.inr rfl⟩)⟩
    · have h12 := hPmem p h
      rcases hXmem _ h12.1 with ⟨ho, h1⟩ | h1 <;> rcases hXmem _ h12.2 with ⟨ho', h2⟩ | h2
      · exact absurd (h1.trans h2.symm) (hne p hp)
      · exact Or.inr ⟨ho, Or.inl ⟨h1, h2⟩⟩
      · exact Or.inr ⟨ho', Or.inr ⟨h1, h2⟩⟩
      · exact Or.inl ⟨List.mem_append.2 (Or.inr h1), List.mem_append.2 (Or.inr h2)⟩
  · have ht : ∀ n ∈ X, n.t = -1 := by
      intro n hn
      rcases hXmem n hn with ⟨_, rfl⟩ | h
      · rfl
      · exact hvt n h
    constructor
    · rw [nweight_append, nweight_zero (M := P), add_zero]
      intro p hp
      exact hU _ _ (ht _ (hPmem p hp).1) (ht _ (hPmem p hp).2)
    · unfold kept
      rw [List.filter_append, List.append_right_eq_self, List.filter_eq_nil_iff]
      intro p hp
      simp [ht _ (hPmem p hp).1, ht _ (hPmem p hp).2]

theorem eadj_mem {L virt : List Node} {a b : Node} (h : EAdj L virt a b) :
    (a ∈ L ++ virt ∨ (L.length % 2 = 1 ∧ a = extraNode)) ∧ (b ∈ L ++ virt ∨ (L.length % 2 = 1 ∧ b = extraNode)) := by
  rcases h with ⟨h1, h2⟩ | ⟨ho, ⟨h1, h2⟩ | ⟨h1, h2⟩⟩
  · exact ⟨Or.inl h1, Or.inl h2⟩
  · exact ⟨Or.inr ⟨ho, h1⟩, Or.inl (List.mem_append.2 (Or.inr h2))⟩
  · exact ⟨Or.inl (List.mem_append.2 (Or.inr h1)), Or.inr ⟨ho, h2⟩⟩

/-- An optimal matching covers all nodes and is at least as heavy as any pairing of the hits. -/
theorem optimal_covers (H : OddPos dh dw) {L : List Node} (hL : ∀ n ∈ L, GNode key dh dw T n) (hp : ParityOk L)
    {U : Node → Node → Int} (hU : ∀ a b : Node, a.t = -1 → b.t = -1 → U a b = 0)
    {M0 : List (Node × Node)} (hnd : (ends M0).Nodup)
    (hcov : ∀ n, n.t ≠ -1 → (n ∈ ends M0 ↔ n ∈ L)) (hvirt : ∀ n ∈ ends M0, n.t = -1 → n ∈ virtualNodes dh dw key)
    {M : List (Node × Node)} (hM : NOptimal (EAdj L (virtualNodes dh dw key)) U M) :
    (ends M).Perm (allNodes L (virtualNodes dh dw key)) ∧ nweight U M0 ≤ nweight U M := by
  obtain ⟨M1, h1, h2, h3, -⟩ := complete_pairing H hp hU hnd hcov hvirt
  obtain ⟨hl, hw⟩ := hM.2 M1 h1
  have hsub : ends M ⊆ allNodes L (virtualNodes dh dw key) := by
    have hc : ∀ n, (n ∈ L ++ virtualNodes dh dw key ∨ (L.length % 2 = 1 ∧ n = extraNode)) →
        n ∈ allNodes L (virtualNodes dh dw key) := by
      intro n hn
      unfold allNodes
      rw [List.mem_append, List.mem_append, mem_reals, mem_extras]
      rcases hn with h | h
      · rcases List.mem_append.1 h with h | h
        · by_cases ht : n.t = -1
          · exact Or.inr (Or.inl ((gnode_virt H (hL n h)).2 ht))
          · exact Or.inl ⟨h, ht⟩
        · exact Or.inr (Or.inl h)
      · exact Or.inr (Or.inr h)
    intro n hn
    obtain ⟨p, hp', he⟩ := mem_ends.1 hn
    have hm := eadj_mem (hM.1.1 p hp').2
    rcases he with rfl | rfl
    · exact hc _ hm.1
    · exact hc _ hm.2
  have hsp : (ends M).Subperm (allNodes L (virtualNodes dh dw key)) := List.subperm_of_subset hM.1.2 hsub
  have hlen : (allNodes L (virtualNodes dh dw key)).length ≤ (ends M).length := by
    rw [← h2.length_eq, length_ends, length_ends]
    omega
  have hperm := hsp.perm_of_length_le hlen
  refine ⟨hperm, ?_⟩
  have heq : M1.length = M.length := by
    have := hperm.length_eq
    rw [← h2.length_eq, length_ends, length_ends] at this
    omega
  rw [← h3]
  exact hw heq

theorem unitWeight_virt (a b : Node) (ha : a.t = -1) (hb : b.t = -1) : unitWeight key dh dw T a b = 0 := by
  unfold unitWeight
  rw [if_pos ⟨ha, hb⟩]

/-- Hits can be paired up: with each other, the last one with a boundary node if there is an odd number. -/
theorem hits_pairing (H : OddPos dh dw) (L : List Node) :
    ∃ M0 : List (Node × Node), (ends M0).Nodup ∧ (∀ n, n.t ≠ -1 → (n ∈ ends M0 ↔ n ∈ L)) ∧
      ∀ n ∈ ends M0, n.t = -1 → n ∈ virtualNodes dh dw key := by
  by_cases hev : (reals L).length % 2 = 0
  · obtain ⟨M0, hM0⟩ := exists_pairUp _ hev
    refine ⟨M0, by rw [hM0]; exact reals_nodup L, ?_, ?_⟩
    · intro n hn
      rw [hM0, mem_reals]
      exact ⟨fun h => h.1, fun h => ⟨h, hn⟩⟩
    · intro n hn ht
      rw [hM0, mem_reals] at hn
      exact absurd ht hn.2
  · obtain ⟨v, hv⟩ := List.exists_mem_of_ne_nil _ (virtualNodes_ne_nil (key := key) H)
    have hvt : v.t = -1 := ((mem_virtualNodes H).1 hv).1
    obtain ⟨M0, hM0⟩ := exists_pairUp (v :: reals L) (by rw [List.length_cons]; omega)
    refine ⟨M0, ?_, ?_, ?_⟩
    · rw [hM0, List.nodup_cons]
      exact ⟨fun h => (mem_reals.1 h).2 hvt, reals_nodup L⟩
    · intro n hn
      rw [hM0, List.mem_cons, mem_reals]
      constructor
      · rintro (rfl | h)
        · exact absurd hvt hn
        · exact h.1
      · exact fun h => Or.inr ⟨h, hn⟩
    · intro n hn ht
      rw [hM0, List.mem_cons, mem_reals] at hn
      rcases hn with rfl | h
      · exact hv
      · exact absurd ht h.2

/-- The kept pairs of a matching of all nodes: every hit in exactly one pair, and all ends in the graph. -/
theorem kept_facts (H : OddPos dh dw) {L : List Node} (hL : ∀ n ∈ L, GNode key dh dw T n) {M : List (Node × Node)}
    (hM : NMatch (EAdj L (virtualNodes dh dw key)) M)
    (hperm : (ends M).Perm (allNodes L (virtualNodes dh dw key))) :
    (ends (kept M)).Nodup ∧ (∀ n, n.t ≠ -1 → (n ∈ ends (kept M) ↔ n ∈ L)) ∧
      (∀ n ∈ ends (kept M), GNode key dh dw T n) ∧ ∀ p ∈ kept M, ¬ (p.1.t = -1 ∧ p.2.t = -1) := by
  have hg : ∀ n ∈ L ++ virtualNodes dh dw key, GNode key dh dw T n := by
    intro n hn
    rcases List.mem_append.1 hn with h | h
    · exact hL n h
    · exact virt_gnode H h
  refine ⟨?_, ?_, ?_, fun p hp => (mem_kept.1 hp).2⟩
  · have hsub : (ends (kept M)).Sublist (ends M) := by
      unfold kept
      generalize M = M
      induction M with
      | nil => exact List.Sublist.refl _
      | cons p M ih =>
        rw [List.filter_cons]
        split
        · rw [ends_cons, ends_cons]; exact (ih.cons_cons _).cons_cons _
        · rw [ends_cons]; exact (ih.cons _).cons _
    exact hsub.nodup hM.2
  · intro n hn
    have : n ∈ ends M ↔ n ∈ L := by
      rw [hperm.mem_iff]
      unfold allNodes
      rw [List.mem_append, List.mem_append, mem_reals, mem_extras]
      constructor
      · rintro (h | h | ⟨_, rfl⟩)
        · exact h.1
        · exact absurd ((mem_virtualNodes H).1 h).1 hn
        · exact absurd rfl hn
      · exact fun h => Or.inl ⟨h, hn⟩
    rw [← this, mem_ends, mem_ends]
    constructor
    · rintro ⟨p, hp, h⟩
      exact ⟨p, (mem_kept.1 hp).1, h⟩
    · rintro ⟨p, hp, h⟩
      refine ⟨p, mem_kept.2 ⟨hp, ?_⟩, h⟩
      rintro ⟨h1, h2⟩
      rcases h with rfl | rfl
      · exact hn h1
      · exact hn h2
  · intro n hn
    obtain ⟨p, hp, h⟩ := mem_ends.1 hn
    obtain ⟨hp1, hp2⟩ := mem_kept.1 hp
    rcases (hM.1 p hp1).2 with ⟨h1, h2⟩ | ⟨_, ⟨h1, h2⟩ | ⟨h1, h2⟩⟩
    · rcases h with rfl | rfl
      · exact hg _ h1
      · exact hg _ h2
    · refine absurd ⟨?_, ?_⟩ hp2
      · rw [h1]; rfl
      · exact ((mem_virtualNodes H).1 h2).1
    · refine absurd ⟨?_, ?_⟩ hp2
      · exact ((mem_virtualNodes H).1 h1).1
      · rw [h2]; rfl

/-- Total distance of a list of pairs. -/
noncomputable def totalDist (key : Key) (dh dw T : Int) (M : List (Node × Node)) : Nat :=
  (M.map fun p => pdist (GAdj key dh dw T) p.1 p.2).sum

theorem nweight_ge (M : List (Node × Node)) : -(totalDist key dh dw T M : Int) ≤ nweight (unitWeight key dh dw T) M := by
  induction M with
  | nil => simp [totalDist, nweight]
  | cons p M ih =>
    unfold totalDist nweight at *
    rw [List.map_cons, List.sum_cons, List.map_cons, List.sum_cons]
    have : -(pdist (GAdj key dh dw T) p.1 p.2 : Int) ≤ unitWeight key dh dw T p.1 p.2 := by
      unfold unitWeight
      split <;> omega
    omega

theorem nweight_eq {M : List (Node × Node)} (h : ∀ p ∈ M, ¬ (p.1.t = -1 ∧ p.2.t = -1)) :
    nweight (unitWeight key dh dw T) M = -(totalDist key dh dw T M : Int) := by
  induction M with
  | nil => simp [totalDist, nweight]
  | cons p M ih =>
    have ih := ih fun q hq => h q (List.mem_cons_of_mem _ hq)
    unfold totalDist nweight at *
    rw [List.map_cons, List.sum_cons, List.map_cons, List.sum_cons, ih]
    have : unitWeight key dh dw T p.1 p.2 = -(pdist (GAdj key dh dw T) p.1 p.2 : Int) := by
      unfold unitWeight
      rw [if_neg (h p List.mem_cons_self)]
    rw [this]
    omega

/-- Shortest paths for all pairs, concatenated. -/
theorem pairs_paths (H : Long key dh dw) (hT : 0 < T) : ∀ (M : List (Node × Node)), (∀ n ∈ ends M, GNode key dh dw T n) →
    ∃ C : List (Node × Node), C.length = totalDist key dh dw T M ∧ (∀ e ∈ C, GAdj key dh dw T e.1 e.2) ∧
      (∀ n, (ends C).count n % 2 = (ends M).count n % 2) ∧
      ∀ k, cutPar (lev key) C k = xorAll (M.map fun p => (decide (lev key p.1 ≤ k) ^^ decide (lev key p.2 ≤ k)))
  | [], _ => ⟨[], rfl, by simp, by simp, fun _ => rfl⟩
  | (a, b) :: M, h => by
    obtain ⟨C, h1, h2, h3, h4⟩ := pairs_paths H hT M (fun n hn => h n (by rw [ends_cons]; simp [hn]))
    obtain ⟨⟨es, g1, g2⟩, _⟩ := pdist_spec (gnode_connected H hT (h a (by simp)) (h b (by simp)))
    refine ⟨es ++ C, ?_, ?_, ?_, ?_⟩
    · unfold totalDist at *
      rw [List.length_append, g2, h1, List.map_cons, List.sum_cons]
    · intro e he
      rcases List.mem_append.1 he with he | he
      · exact path_mem g1 e he
      · exact h2 e he
    · intro n
      have := path_count g1 n
      rw [ends_append, List.count_append, ends_cons, List.count_cons, List.count_cons]
      simp only [beq_iff_eq]
      have := h3 n
      omega
    · intro k
      have := path_cut g1 (lev key) k
      have := h4 k
      unfold cutPar at *
      rw [List.map_append, xorAll_append, List.map_cons, xorAll_cons]
      simp only [*]

/-- Parity of the kept pairs that start or end at the boundary the readout runs along. -/
def crossPar (key : Key) (M : List (Node × Node)) : Bool :=
  xorAll (M.map fun p => (decide (lev key p.1 ≤ 0) ^^ decide (lev key p.2 ≤ 0)))

/-- Main lemma: if the hits are those of few faults, any pairing of the hits that is at least as heavy as all others crosses
the readout line with the parity of the faults. -/
theorem few_faults (H : Long key dh dw) (hT : 0 < T) {fs : List Fault} (hf : Correctable key dh dw T fs) {L : List Node}
    (hL : ∀ n ∈ L, GNode key dh dw T n) (hhit : ∀ n, n.t ≠ -1 → (n ∈ L ↔ IsHit key dh dw T fs n)) (hp : ParityOk L)
    {M : List (Node × Node)} (hM : NOptimal (EAdj L (virtualNodes dh dw key)) (unitWeight key dh dw T) M) :
    crossPar key (kept M) = readoutFlipped key fs := by
  obtain ⟨E, e1, e2, e3, e4⟩ := fault_edges (T := T) H.1 fs hf.1
  have hEg : ∀ n ∈ ends E, GNode key dh dw T n := by
    intro n hn
    obtain ⟨p, hp, h⟩ := mem_ends.1 hn
    have := gadj_nodes (e2 p hp)
    rcases h with rfl | rfl
    · exact this.1
    · exact this.2
  have hEc : ∀ n, n.t ≠ -1 → ((ends E).count n % 2 = 1 ↔ n ∈ L) := by
    intro n hn
    rw [hhit n hn]
    constructor
    · intro h
      have hmem : n ∈ ends E := List.count_pos_iff.1 (by omega)
      rcases hEg n hmem with ⟨g1, g2, g3⟩ | ⟨g1, _⟩
      · exact ⟨g1, g2, g3, by rw [← e3 n hn g3]; exact h⟩
      · exact absurd g1 hn
    · rintro ⟨_, _, g3, g4⟩
      rw [e3 n hn g3]
      exact g4
  -- a cheap pairing
  obtain ⟨M0, m1, m2, m3⟩ := exists_pairing (pdist (GAdj key dh dw T)) (GNode key dh dw T)
    (fun a b => pdist_symm (fun _ _ h => GAdj.symm h) a b) (fun a => pdist_self _ a)
    (fun a b c ha hb hc => pdist_tri (gnode_connected H hT ha hb) (gnode_connected H hT hb hc)) E
    (fun e he => ⟨(gadj_nodes (e2 e he)).1, (gadj_nodes (e2 e he)).2, pdist_adj (e2 e he)⟩)
  have hM0g : ∀ n ∈ ends M0, GNode key dh dw T n := by
    intro n hn
    exact hEg n (List.count_pos_iff.1 (by have := (m2 n).1 hn; omega))
  obtain ⟨hperm, hw⟩ := optimal_covers H.1 hL hp unitWeight_virt m1 (fun n hn => by rw [m2 n, hEc n hn])
    (fun n hn ht => (gnode_virt H.1 (hM0g n hn)).2 ht) hM
  obtain ⟨k1, k2, k3, k4⟩ := kept_facts H.1 hL hM.1 hperm
  obtain ⟨C, c1, c2, c3, c4⟩ := pairs_paths H hT (kept M) k3
  have hC : C.length ≤ fs.length := by
    have h1 := nweight_ge (key := key) (dh := dh) (dw := dw) (T := T) M0
    rw [← nweight_kept unitWeight_virt M, nweight_eq k4] at hw
    unfold totalDist at h1 hw c1
    omega
  have hD : 0 ≤ distance key dh dw := by
    have := H.1
    unfold OddPos at this
    cases key
    · simp only [distance]; omega
    · simp only [distance]; omega
  have hcross := few_cross (lev key) (distance key dh dw).toNat (E ++ C)
    (by
      intro e he
      rcases List.mem_append.1 he with he | he
      · exact gadj_level (e2 e he)
      · exact gadj_level (c2 e he))
    (by
      intro a ha0 haD
      rw [ends_append, List.count_append]
      have hc := c3 a
      by_cases hr : a.t = -1
      · have hE0 : (ends E).count a = 0 := by
          rw [List.count_eq_zero]
          intro h
          rcases gnode_level H (hEg a h) with h' | h' <;> omega
        have hM0 : (ends (kept M)).count a = 0 := by
          rw [List.count_eq_zero]
          intro h
          rcases gnode_level H (k3 a h) with h' | h' <;> omega
        omega
      · by_cases hin : a ∈ L
        · have h1 := (hEc a hr).2 hin
          have h2 := List.count_eq_one_of_mem k1 ((k2 a hr).2 hin)
          omega
        · have h1 : ¬ _ := fun h => hin ((hEc a hr).1 h)
          have h2 := List.count_eq_zero.2 (fun h => hin ((k2 a hr).1 h))
          omega)
    (by
      have := hf.2
      rw [List.length_append, e1]
      omega)
  unfold cutPar at hcross
  rw [List.map_append, xorAll_append] at hcross
  have h4 := c4 0
  unfold cutPar at e4 h4
  rw [e4, h4] at hcross
  unfold crossPar
  revert hcross
  cases readoutFlipped key fs <;> cases xorAll ((kept M).map fun p => (decide (lev key p.1 ≤ 0) ^^ decide (lev key p.2 ≤ 0))) <;> simp

end

end Qtc
