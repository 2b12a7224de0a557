import Verif.Proof.Corners
import Verif.Model.DecoderGraph
import Verif.Spec.Graph
namespace Qtc
open Spec

/-! ### Well-formed graphs and their adjacency -/

/-- Adjacency by payload. -/
def RxGraph.Adj {W : Type} (g : RxGraph W) (a b : Node) : Prop :=
  ∃ i j w, g.nodes[i]? = some a ∧ g.nodes[j]? = some b ∧ ((i, j, w) ∈ g.edges ∨ (j, i, w) ∈ g.edges)

theorem RxGraph.Adj.symm {W : Type} {g : RxGraph W} {a b : Node} (h : g.Adj a b) : g.Adj b a := by
  obtain ⟨i, j, w, h1, h2, h3⟩ := h
  exact ⟨j, i, w, h2, h1, h3.symm⟩

/-- Nodes distinct, edges between existing nodes, no pair joined twice. -/
structure RxGraph.WF {W : Type} (g : RxGraph W) : Prop where
  nodup : g.nodes.Nodup
  lt : ∀ e ∈ g.edges, e.1 < g.nodes.length ∧ e.2.1 < g.nodes.length
  simple : g.edges.Pairwise fun e e' => ¬ sameEnds e e'.1 e'.2.1

structure SGraph.WF (s : SGraph) : Prop extends s.g.WF where
  map : ∀ n i, s.nmap n = some i ↔ s.g.nodes[i]? = some n
  unit : ∀ e ∈ s.g.edges, e.2.2 = 1

theorem sameEnds_iff {W : Type} {e : Nat × Nat × W} {i j : Nat} :
    sameEnds e i j = true ↔ (e.1 = i ∧ e.2.1 = j) ∨ (e.1 = j ∧ e.2.1 = i) := by
  simp [sameEnds]

theorem emptyGraph_WF : ({} : SGraph).WF :=
  { nodup := List.nodup_nil
    lt := by simp
    simple := List.Pairwise.nil
    map := by simp
    unit := by simp }

theorem RxGraph.addNode_WF {W : Type} {g : RxGraph W} (H : g.WF) {n : Node} (hn : n ∉ g.nodes) : (g.addNode n).WF where
  nodup := by
    rw [RxGraph.addNode, List.nodup_append]
    refine ⟨H.nodup, by simp, ?_⟩
    intro a ha b hb
    simp at hb
    subst hb
    rintro rfl
    exact hn ha
  lt := by
    intro e he
    have := H.lt e he
    simp [RxGraph.addNode]
    omega
  simple := H.simple

theorem RxGraph.addNode_adj {W : Type} {g : RxGraph W} (H : g.WF) {n a b : Node} :
    (g.addNode n).Adj a b ↔ g.Adj a b := by
  unfold RxGraph.Adj RxGraph.addNode
  constructor
  · rintro ⟨i, j, w, h1, h2, h3⟩
    have : i < g.nodes.length ∧ j < g.nodes.length := by
      rcases h3 with h3 | h3
      · exact H.lt _ h3
      · exact (H.lt _ h3).symm
    simp only [List.getElem?_append, this, if_true] at h1 h2
    exact ⟨i, j, w, h1, h2, h3⟩
  · rintro ⟨i, j, w, h1, h2, h3⟩
    have : i < g.nodes.length ∧ j < g.nodes.length := by
      rcases h3 with h3 | h3
      · exact H.lt _ h3
      · exact (H.lt _ h3).symm
    refine ⟨i, j, w, ?_, ?_, h3⟩ <;> simp only [List.getElem?_append, this, if_true] <;> assumption

theorem SGraph.addNode_WF {s : SGraph} (H : s.WF) {n : Node} (hn : n ∉ s.g.nodes) : (s.addNode n).WF where
  toWF := RxGraph.addNode_WF H.toWF hn
  map := by
    intro m i
    simp only [SGraph.addNode, RxGraph.addNode]
    by_cases hm : m = n
    · subst hm
      simp only [if_true]
      constructor
      · intro h
        simp at h
        subst h
        simp
      · intro h
        rw [List.getElem?_append] at h
        split at h
        · exact absurd (List.mem_of_getElem? h) hn
        · rename_i hi
          by_cases h' : i - s.g.nodes.length = 0
          · simp; omega
          · rw [List.getElem?_eq_none (by simp; omega)] at h
            cases h
    · simp only [hm, if_false]
      rw [H.map, List.getElem?_append]
      split
      · rfl
      · rename_i hi
        constructor
        · intro h
          rw [List.getElem?_eq_none (by omega)] at h
          cases h
        · intro h
          have := List.mem_of_getElem? h
          simp at this
          exact absurd this hm
  unit := H.unit

theorem SGraph.addNode_nodes {s : SGraph} {n m : Node} : m ∈ (s.addNode n).g.nodes ↔ m ∈ s.g.nodes ∨ m = n := by
  simp [SGraph.addNode, RxGraph.addNode]

theorem RxGraph.addEdge_nodes {W : Type} (g : RxGraph W) (i j : Nat) (w : W) : (g.addEdge i j w).nodes = g.nodes := by
  unfold RxGraph.addEdge
  split <;> rfl

/-- The ends of the edges after `addEdge`. -/
theorem RxGraph.addEdge_ends {W : Type} (g : RxGraph W) (i j : Nat) (w : W) (a b : Nat) :
    (∃ w', (a, b, w') ∈ (g.addEdge i j w).edges ∨ (b, a, w') ∈ (g.addEdge i j w).edges) ↔
      (∃ w', (a, b, w') ∈ g.edges ∨ (b, a, w') ∈ g.edges) ∨ (a = i ∧ b = j) ∨ (a = j ∧ b = i) := by
  unfold RxGraph.addEdge
  split
  · rename_i h
    rw [List.any_eq_true] at h
    obtain ⟨e0, he0, hs0⟩ := h
    rw [sameEnds_iff] at hs0
    have key : ∀ a b, (∃ w', (a, b, w') ∈ (g.edges.map fun e => if sameEnds e i j = true then (e.1, e.2.1, w) else e)) ↔
        (∃ w', (a, b, w') ∈ g.edges) := by
      intro a b
      constructor
      · rintro ⟨w', h⟩
        rw [List.mem_map] at h
        obtain ⟨e, he, hh⟩ := h
        refine ⟨e.2.2, ?_⟩
        split at hh
        · simp only [Prod.mk.injEq] at hh
          obtain ⟨rfl, rfl, _⟩ := hh
          exact he
        · rw [hh] ; rw [hh] at he; exact he
      · rintro ⟨w', h⟩
        by_cases hs : sameEnds (a, b, w') i j = true
        · exact ⟨w, List.mem_map.2 ⟨_, h, by simp [hs]⟩⟩
        · exact ⟨w', List.mem_map.2 ⟨_, h, by simp [hs]⟩⟩
    simp only [exists_or, key]
    constructor
    · exact Or.inl
    · rintro (h | ⟨rfl, rfl⟩ | ⟨rfl, rfl⟩)
      · exact h
      · rcases hs0 with ⟨h1, h2⟩ | ⟨h1, h2⟩
        · left; exact ⟨e0.2.2, by rw [← h1, ← h2]; exact he0⟩
        · right; exact ⟨e0.2.2, by rw [← h1, ← h2]; exact he0⟩
      · rcases hs0 with ⟨h1, h2⟩ | ⟨h1, h2⟩
        · right; exact ⟨e0.2.2, by rw [← h1, ← h2]; exact he0⟩
        · left; exact ⟨e0.2.2, by rw [← h1, ← h2]; exact he0⟩
  · simp only [List.mem_append, List.mem_singleton, Prod.mk.injEq]
    constructor
    · rintro ⟨w', (h | h) | (h | h)⟩
      · exact Or.inl ⟨w', Or.inl h⟩
      · exact Or.inr (Or.inl ⟨h.1, h.2.1⟩)
      · exact Or.inl ⟨w', Or.inr h⟩
      · exact Or.inr (Or.inr ⟨h.2.1, h.1⟩)
    · rintro (⟨w', h | h⟩ | h | h)
      · exact ⟨w', Or.inl (Or.inl h)⟩
      · exact ⟨w', Or.inr (Or.inl h)⟩
      · exact ⟨w, Or.inl (Or.inr ⟨h.1, h.2, rfl⟩)⟩
      · exact ⟨w, Or.inr (Or.inr ⟨h.2, h.1, rfl⟩)⟩

theorem RxGraph.addEdge_WF {W : Type} {g : RxGraph W} (H : g.WF) {i j : Nat} (w : W)
    (hi : i < g.nodes.length) (hj : j < g.nodes.length) : (g.addEdge i j w).WF where
  nodup := by rw [RxGraph.addEdge_nodes]; exact H.nodup
  lt := by
    intro e he
    rw [RxGraph.addEdge_nodes]
    have := (RxGraph.addEdge_ends g i j w e.1 e.2.1).1 ⟨e.2.2, Or.inl he⟩
    rcases this with ⟨w', h | h⟩ | h | h
    · exact H.lt (e.1, e.2.1, w') h
    · exact (H.lt (e.2.1, e.1, w') h).symm
    · omega
    · omega
  simple := by
    unfold RxGraph.addEdge
    split
    · rw [List.pairwise_map]
      refine H.simple.imp ?_
      intro e e' h h'
      apply h
      rw [sameEnds_iff] at h' ⊢
      split at h' <;> split at h' <;> exact h'
    · rename_i h
      rw [List.pairwise_append]
      refine ⟨H.simple, List.pairwise_singleton _ _, ?_⟩
      intro e he e' he'
      simp at he'
      subst he'
      intro hs
      exact h (List.any_eq_true.2 ⟨e, he, hs⟩)

theorem SGraph.idx_ok {s : SGraph} (H : s.WF) {n : Node} (hn : n ∈ s.g.nodes) :
    ∃ i, s.idx n = .ok i ∧ s.g.nodes[i]? = some n := by
  obtain ⟨i, hi⟩ := List.getElem?_of_mem hn
  refine ⟨i, ?_, hi⟩
  unfold SGraph.idx
  rw [(H.map n i).2 hi]

theorem getElem?_inj_of_nodup {l : List Node} (H : l.Nodup) {i j : Nat} {a : Node}
    (h1 : l[i]? = some a) (h2 : l[j]? = some a) : i = j := by
  obtain ⟨hi, h1⟩ := List.getElem?_eq_some_iff.1 h1
  obtain ⟨hj, h2⟩ := List.getElem?_eq_some_iff.1 h2
  exact (H.getElem_inj_iff (hi := hi) (hj := hj)).1 (h1.trans h2.symm)

theorem SGraph.addEdge_spec {s : SGraph} (H : s.WF) {a b : Node} (ha : a ∈ s.g.nodes) (hb : b ∈ s.g.nodes) :
    ∃ s', s.addEdge a b = .ok s' ∧ s'.WF ∧ s'.g.nodes = s.g.nodes ∧
      ∀ x y, s'.g.Adj x y ↔ s.g.Adj x y ∨ (x = a ∧ y = b) ∨ (x = b ∧ y = a) := by
  obtain ⟨i, hi, hi'⟩ := s.idx_ok H ha
  obtain ⟨j, hj, hj'⟩ := s.idx_ok H hb
  have hil : i < s.g.nodes.length := (List.getElem?_eq_some_iff.1 hi').1
  have hjl : j < s.g.nodes.length := (List.getElem?_eq_some_iff.1 hj').1
  refine ⟨{ s with g := s.g.addEdge i j 1 }, ?_, ?_, RxGraph.addEdge_nodes _ _ _ _, ?_⟩
  · unfold SGraph.addEdge
    rw [hi]
    show (do let j ← s.idx b; pure _) = _
    rw [hj]
    rfl
  · exact { toWF := RxGraph.addEdge_WF H.toWF _ hil hjl
            map := by intro n k; simp only [RxGraph.addEdge_nodes]; exact H.map n k
            unit := by
              intro e he
              simp only [RxGraph.addEdge] at he
              split at he
              · simp only [List.mem_map] at he
                obtain ⟨e', he', rfl⟩ := he
                split
                · rfl
                · exact H.unit _ he'
              · simp only [List.mem_append, List.mem_singleton] at he
                rcases he with he | rfl
                · exact H.unit _ he
                · rfl }
  · intro x y
    unfold RxGraph.Adj
    simp only [RxGraph.addEdge_nodes]
    constructor
    · rintro ⟨k, l, w, hk, hl, he⟩
      rcases (RxGraph.addEdge_ends s.g i j 1 k l).1 ⟨w, he⟩ with ⟨w', h⟩ | ⟨rfl, rfl⟩ | ⟨rfl, rfl⟩
      · exact Or.inl ⟨k, l, w', hk, hl, h⟩
      · right; left
        exact ⟨Option.some.inj (hk.symm.trans hi'), Option.some.inj (hl.symm.trans hj')⟩
      · right; right
        exact ⟨Option.some.inj (hk.symm.trans hj'), Option.some.inj (hl.symm.trans hi')⟩
    · rintro (⟨k, l, w, hk, hl, he⟩ | ⟨rfl, rfl⟩ | ⟨rfl, rfl⟩)
      · obtain ⟨w', h⟩ := (RxGraph.addEdge_ends s.g i j 1 k l).2 (Or.inl ⟨w, he⟩)
        exact ⟨k, l, w', hk, hl, h⟩
      · obtain ⟨w', h⟩ := (RxGraph.addEdge_ends s.g i j 1 i j).2 (Or.inr (Or.inl ⟨rfl, rfl⟩))
        exact ⟨i, j, w', hi', hj', h⟩
      · obtain ⟨w', h⟩ := (RxGraph.addEdge_ends s.g i j 1 j i).2 (Or.inr (Or.inr ⟨rfl, rfl⟩))
        exact ⟨j, i, w', hj', hi', h⟩

theorem linkNbr_spec {s : SGraph} (H : s.WF) {cur n : Node} (hc : cur ∈ s.g.nodes) :
    ∃ s', linkNbr cur s n = .ok s' ∧ s'.WF ∧ (∀ m, m ∈ s'.g.nodes ↔ m ∈ s.g.nodes ∨ m = n) ∧
      ∀ x y, s'.g.Adj x y ↔ s.g.Adj x y ∨ (x = cur ∧ y = n) ∨ (x = n ∧ y = cur) := by
  unfold linkNbr
  by_cases hn : n ∈ s.g.nodes
  · rw [if_pos (by simpa using hn)]
    obtain ⟨s', h1, h2, h3, h4⟩ := SGraph.addEdge_spec H hc hn
    refine ⟨s', h1, h2, ?_, h4⟩
    intro m
    rw [h3]
    constructor
    · exact Or.inl
    · rintro (h | rfl)
      · exact h
      · exact hn
  · rw [if_neg (by simpa using hn)]
    obtain ⟨s', h1, h2, h3, h4⟩ := SGraph.addEdge_spec (SGraph.addNode_WF H hn) (a := cur) (b := n)
      (SGraph.addNode_nodes.2 (Or.inl hc)) (SGraph.addNode_nodes.2 (Or.inr rfl))
    refine ⟨s', h1, h2, ?_, ?_⟩
    · intro m
      rw [h3]
      exact SGraph.addNode_nodes
    · intro x y
      rw [h4]
      have : (s.addNode n).g.Adj x y ↔ s.g.Adj x y := RxGraph.addNode_adj H.toWF
      rw [this]

theorem linkAll_spec (cur : Node) : ∀ (P : List Node) {s : SGraph}, s.WF → cur ∈ s.g.nodes →
    ∃ s', P.foldlM (linkNbr cur) s = .ok s' ∧ s'.WF ∧ (∀ m, m ∈ s'.g.nodes ↔ m ∈ s.g.nodes ∨ m ∈ P) ∧
      ∀ x y, s'.g.Adj x y ↔ s.g.Adj x y ∨ (x = cur ∧ y ∈ P) ∨ (x ∈ P ∧ y = cur)
  | [], s, H, _ => ⟨s, rfl, H, by simp, by simp⟩
  | n :: P, s, H, hc => by
    obtain ⟨s1, h1, h2, h3, h4⟩ := linkNbr_spec H (n := n) hc
    obtain ⟨s2, g1, g2, g3, g4⟩ := linkAll_spec cur P h2 ((h3 _).2 (Or.inl hc))
    refine ⟨s2, ?_, g2, ?_, ?_⟩
    · rw [List.foldlM_cons, h1]
      exact g1
    · intro m
      rw [g3, h3, List.mem_cons, or_assoc]
    · intro x y
      rw [g4, h4, List.mem_cons, List.mem_cons]
      tauto

end Qtc
