import Verif.Model.MatchedGraph
import Verif.Proof.MatchNodes
/-!
What `runMwpmGraph` builds.
-/
namespace Qtc
open Spec

/-- Edges between the nodes `n`, `n + 1`, then `n + 2`, `n + 3`, and so on. -/
def pairEdges {W : Type} : Nat → List W → List (Nat × Nat × W)
  | _, [] => []
  | n, w :: ws => (n, n + 1, w) :: pairEdges (n + 2) ws

theorem pairEdges_get {W : Type} : ∀ (n : Nat) (ws : List W) (k : Nat), (pairEdges n ws)[k]? = ws[k]?.map fun w => (n + 2 * k, n + 2 * k + 1, w)
  | _, [], k => by simp [pairEdges]
  | n, w :: ws, 0 => by simp [pairEdges]
  | n, w :: ws, k + 1 => by
    simp only [pairEdges, List.getElem?_cons_succ, pairEdges_get (n + 2) ws k]
    congr 1
    funext w
    simp only [Prod.mk.injEq, and_true]
    omega

theorem pairEdges_length {W : Type} : ∀ (n : Nat) (ws : List W), (pairEdges n ws).length = ws.length
  | _, [] => rfl
  | n, w :: ws => by simp [pairEdges, pairEdges_length (n + 2) ws]

theorem pairEdges_weights {W : Type} : ∀ (n : Nat) (ws : List W), (pairEdges n ws).map (fun e => e.2.2) = ws
  | _, [] => rfl
  | n, w :: ws => by simp [pairEdges, pairEdges_weights (n + 2) ws]

theorem ends_get {α : Type} : ∀ (M : List (α × α)) (k : Nat), (ends M)[2 * k]? = M[k]?.map Prod.fst
  | [], k => by simp [ends]
  | p :: M, 0 => by simp [ends]
  | p :: M, k + 1 => by
    have : ends (p :: M) = p.1 :: p.2 :: ends M := by simp [ends]
    rw [this, show 2 * (k + 1) = 2 * k + 1 + 1 by omega]
    simp only [List.getElem?_cons_succ, ends_get M k]

theorem ends_get' {α : Type} : ∀ (M : List (α × α)) (k : Nat), (ends M)[2 * k + 1]? = M[k]?.map Prod.snd
  | [], k => by simp [ends]
  | p :: M, 0 => by simp [ends]
  | p :: M, k + 1 => by
    have : ends (p :: M) = p.1 :: p.2 :: ends M := by simp [ends]
    rw [this, show 2 * (k + 1) + 1 = 2 * k + 1 + 1 + 1 by omega]
    simp only [List.getElem?_cons_succ, ends_get' M k]

/-- The payload of a node, for nodes in the graph. -/
def RxGraph.pay {W : Type} (g : RxGraph W) (i : Nat) : Node := (g.nodes[i]?).getD extraNode

theorem RxGraph.pay_get {W : Type} {g : RxGraph W} {i : Nat} (hi : i < g.nodes.length) : g.nodes[i]? = some (g.pay i) := by
  unfold RxGraph.pay
  rw [List.getElem?_eq_getElem hi]
  rfl

theorem RxGraph.payload_ok {W : Type} {g : RxGraph W} {i : Nat} (hi : i < g.nodes.length) : g.payload i = .ok (g.pay i) := by
  unfold RxGraph.payload
  rw [RxGraph.pay_get hi]

theorem RxGraph.edgeData_ok {W : Type} {g : RxGraph W} {i j : Nat} (h : ∃ w, (i, j, w) ∈ g.edges ∨ (j, i, w) ∈ g.edges) :
    ∃ w, g.edgeData i j = .ok w ∧ ((i, j, w) ∈ g.edges ∨ (j, i, w) ∈ g.edges) := by
  unfold RxGraph.edgeData
  cases hf : g.edges.find? (fun e => sameEnds e i j) with
  | none =>
    rw [List.find?_eq_none] at hf
    obtain ⟨w, h | h⟩ := h
    · exact absurd (by simp [sameEnds]) (hf _ h)
    · exact absurd (by simp [sameEnds]) (hf _ h)
  | some e =>
    have h1 := List.find?_some hf
    simp only [sameEnds_iff] at h1
    have h2 := List.mem_of_find?_eq_some hf
    refine ⟨e.2.2, rfl, ?_⟩
    obtain ⟨x, y, w⟩ := e
    rcases h1 with ⟨rfl, rfl⟩ | ⟨rfl, rfl⟩
    · exact Or.inl h2
    · exact Or.inr h2

/-- Two new nodes and the edge between them. -/
theorem addPair {e : EGraph} (H : e.WF) {a b : Node} (hab : a ≠ b) (ha : a ∉ e.g.nodes) (hb : b ∉ e.g.nodes) (w : ℝ) :
    ∃ e', ((e.addNew a).addNew b).addEdge a b w = .ok e' ∧ e'.WF ∧ e'.g.nodes = e.g.nodes ++ [a, b] ∧
      e'.g.edges = e.g.edges ++ [(e.g.nodes.length, e.g.nodes.length + 1, w)] := by
  have h1 : e.addNew a = e.addNode a := by
    unfold EGraph.addNew
    rw [if_neg (by rw [List.contains_iff_mem]; exact ha)]
  have hb' : b ∉ (e.addNode a).g.nodes := by
    show b ∉ e.g.nodes ++ [a]
    rw [List.mem_append, List.mem_singleton]
    rintro (h | h)
    · exact hb h
    · exact hab h.symm
  have h2 : (e.addNode a).addNew b = (e.addNode a).addNode b := by
    unfold EGraph.addNew
    rw [if_neg (by rw [List.contains_iff_mem]; exact hb')]
  have W2 := EGraph.addNode_WF (EGraph.addNode_WF H ha) hb'
  have hn : ((e.addNode a).addNode b).g.nodes = e.g.nodes ++ [a, b] := by
    show (e.g.nodes ++ [a]) ++ [b] = _
    simp
  obtain ⟨e', k1, k2, k3, k4, k5⟩ := EGraph.addEdge_spec (Q := fun _ _ _ => True) (fun _ _ _ h => h) W2
    (by intro _ _ _ _ _ _ _ _; trivial) (a := a) (b := b) (by rw [hn]; simp) (by rw [hn]; simp) (w := w) trivial
  rw [h1, h2]
  refine ⟨e', k1, k2, by rw [k3, hn], ?_⟩
  have ia : ((e.addNode a).addNode b).idx a = .ok e.g.nodes.length := by
    unfold EGraph.idx EGraph.addNode
    simp [hab]
  have ib : ((e.addNode a).addNode b).idx b = .ok (e.g.nodes.length + 1) := by
    unfold EGraph.idx EGraph.addNode RxGraph.addNode
    simp
  unfold EGraph.addEdge at k1
  simp only [ia, ib, bind, Except.bind, pure, Except.pure] at k1
  cases k1
  show (RxGraph.addEdge _ _ _ _).edges = _
  unfold RxGraph.addEdge
  rw [if_neg]
  · rfl
  · rw [List.any_eq_true]
    rintro ⟨x, hx, hs⟩
    have := H.lt x hx
    rw [sameEnds_iff] at hs
    omega

/-- The loop over pairs of nodes that do not occur yet. -/
theorem matched_fold {g : RxGraph ℝ} : ∀ (I : List (Nat × Nat)) {e : EGraph}, e.WF →
    (∀ p ∈ I, p.1 < g.nodes.length ∧ p.2 < g.nodes.length ∧ ∃ w, (p.1, p.2, w) ∈ g.edges ∨ (p.2, p.1, w) ∈ g.edges) →
    (ends (I.map fun p => (g.pay p.1, g.pay p.2))).Nodup → (∀ n ∈ ends (I.map fun p => (g.pay p.1, g.pay p.2)), n ∉ e.g.nodes) →
    ∃ e' ws, I.foldlM (matchedStep g) e = .ok e' ∧ e'.WF ∧ e'.g.nodes = e.g.nodes ++ ends (I.map fun p => (g.pay p.1, g.pay p.2)) ∧
      e'.g.edges = e.g.edges ++ pairEdges e.g.nodes.length ws ∧
      List.Forall₂ (fun p w => (p.1, p.2, w) ∈ g.edges ∨ (p.2, p.1, w) ∈ g.edges) I ws
  | [], e, H, _, _, _ => ⟨e, [], rfl, H, by simp [ends], by simp [pairEdges], .nil⟩
  | p :: I, e, H, hI, hnd, hnew => by
    obtain ⟨l1, l2, hw⟩ := hI p List.mem_cons_self
    obtain ⟨w, w1, w2⟩ := RxGraph.edgeData_ok hw
    have hends : ends ((p :: I).map fun p => (g.pay p.1, g.pay p.2)) = g.pay p.1 :: g.pay p.2 :: ends (I.map fun p => (g.pay p.1, g.pay p.2)) := by
      simp [ends]
    rw [hends] at hnd hnew
    rw [List.nodup_cons, List.nodup_cons, List.mem_cons, not_or] at hnd
    obtain ⟨⟨d1, d2⟩, d3, d4⟩ := hnd
    obtain ⟨e1, k1, k2, k3, k4⟩ := addPair H d1 (hnew _ (by simp)) (hnew _ (by simp)) w
    obtain ⟨e', ws, f1, f2, f3, f4, f5⟩ := matched_fold I k2 (fun q hq => hI q (List.mem_cons_of_mem _ hq)) d4 (by
      intro n hn
      rw [k3, List.mem_append]
      rintro (h | h)
      · exact hnew n (by simp [hn]) h
      · simp only [List.mem_cons, List.not_mem_nil, or_false] at h
        rcases h with rfl | rfl
        · exact d2 hn
        · exact d3 hn)
    refine ⟨e', w :: ws, ?_, f2, ?_, ?_, .cons w2 f5⟩
    · rw [List.foldlM_cons]
      have : matchedStep g e p = .ok e1 := by
        unfold matchedStep
        simp only [w1, RxGraph.payload_ok l1, RxGraph.payload_ok l2, bind, Except.bind]
        exact k1
      rw [this]
      exact f1
    · rw [f3, k3, hends]
      simp
    · rw [f4, k4, k3]
      simp [pairEdges]

theorem filterPy_ok {α : Type} {f : α → Py Bool} {g : α → Bool} : ∀ (l : List α), (∀ x ∈ l, f x = .ok (g x)) → filterPy f l = .ok (l.filter g)
  | [], _ => rfl
  | x :: l, h => by
    have ih := filterPy_ok l fun y hy => h y (List.mem_cons_of_mem _ hy)
    unfold filterPy
    simp only [h x List.mem_cons_self, ih, bind, Except.bind, pure, Except.pure, List.filter_cons]

theorem ends_filter {α : Type} (c : α × α → Bool) : ∀ (M : List (α × α)), (ends (M.filter c)).Sublist (ends M)
  | [] => List.Sublist.refl _
  | p :: M => by
    have e : ends (p :: M) = p.1 :: p.2 :: ends M := by simp [ends]
    rw [e, List.filter_cons]
    split
    · have e' : ends (p :: M.filter c) = p.1 :: p.2 :: ends (M.filter c) := by simp [ends]
      rw [e']
      exact ((ends_filter c M).cons_cons _).cons_cons _
    · exact ((ends_filter c M).cons _).cons _

/-- The pairs of indices both methods keep. -/
theorem runMwpmGraph_spec {m : Matcher} (hm : Contract m) {g : RxGraph ℝ} (hw : g.WF) (floats : Bool) :
    ∃ (I : List (Nat × Nat)) (ws : List ℝ), runMwpm m g floats = .ok (I.map fun p => (g.pay p.1, g.pay p.2)) ∧
      runMwpmGraph m g floats = .ok { nodes := ends (I.map fun p => (g.pay p.1, g.pay p.2)), edges := pairEdges 0 ws } ∧
      (ends (I.map fun p => (g.pay p.1, g.pay p.2))).Nodup ∧ (∀ p ∈ I, p.1 < g.nodes.length ∧ p.2 < g.nodes.length) ∧
      List.Forall₂ (fun p w => (p.1, p.2, w) ∈ g.edges ∨ (p.2, p.1, w) ∈ g.edges) I ws := by
  classical
  obtain ⟨E, hEdef⟩ : ∃ E, E = g.edges.map fun e => (e.1, e.2.1, weightFn floats e.2.2) := ⟨_, rfl⟩
  have hE : ∀ i j w, (i, j, w) ∈ E → ∃ v, (i, j, v) ∈ g.edges := by
    intro i j w h
    rw [hEdef] at h
    obtain ⟨⟨x, y, v⟩, h1, h2⟩ := List.mem_map.1 h
    cases h2
    exact ⟨v, h1⟩
  have hsimple : SimpleEdges g.nodes.length E := by
    constructor
    · intro e he
      obtain ⟨v, h⟩ := hE e.1 e.2.1 e.2.2 he
      exact hw.lt _ h
    · rw [hEdef, List.pairwise_map]
      refine hw.simple.imp ?_
      intro e e' h h'
      exact h (sameEnds_iff.2 h')
  obtain ⟨⟨m1, m2⟩, -⟩ := hm g.nodes.length E hsimple
  have hlt : ∀ p ∈ m g.nodes.length E, p.1 < g.nodes.length ∧ p.2 < g.nodes.length := by
    intro p hp
    obtain ⟨_, w, h | h⟩ := m1 p hp
    · exact hsimple.1 _ h
    · exact (hsimple.1 _ h).symm
  have hex : ∀ p ∈ m g.nodes.length E, ∃ w, (p.1, p.2, w) ∈ g.edges ∨ (p.2, p.1, w) ∈ g.edges := by
    intro p hp
    obtain ⟨_, w, h | h⟩ := m1 p hp
    · obtain ⟨v, hv⟩ := hE _ _ _ h; exact ⟨v, Or.inl hv⟩
    · obtain ⟨v, hv⟩ := hE _ _ _ h; exact ⟨v, Or.inr hv⟩
  let keep : Nat × Nat → Bool := fun p => !((g.pay p.1).t == -1 && (g.pay p.2).t == -1)
  let I := (m g.nodes.length E).filter keep
  have hsub : ∀ p ∈ I, p ∈ m g.nodes.length E := fun p hp => (List.mem_filter.1 hp).1
  have hnd : (ends (I.map fun p => (g.pay p.1, g.pay p.2))).Nodup := by
    rw [ends_map]
    have hs : (ends I).Sublist (ends (m g.nodes.length E)) := ends_filter keep _
    refine (List.nodup_map_iff_inj_on (m2.sublist hs)).2 ?_
    have lt : ∀ z ∈ ends I, z < g.nodes.length := by
      intro z hz
      obtain ⟨p, hp, h⟩ := mem_ends.1 hz
      have := hlt p (hsub p hp)
      rcases h with rfl | rfl
      · exact this.1
      · exact this.2
    intro x hx y hy h
    have h1 := RxGraph.pay_get (lt x hx)
    rw [h] at h1
    exact getElem?_inj_of_nodup hw.nodup h1 (RxGraph.pay_get (lt y hy))
  obtain ⟨e', ws, f1, f2, f3, f4, f5⟩ := matched_fold (g := g) I emptyEGraph_WF
    (fun p hp => ⟨(hlt p (hsub p hp)).1, (hlt p (hsub p hp)).2, hex p (hsub p hp)⟩) hnd (by simp)
  refine ⟨I, ws, ?_, ?_, hnd, fun p hp => hlt p (hsub p hp), f5⟩
  · have hmap : (m g.nodes.length E).mapM (fun p => do
        let a ← g.payload p.1
        let b ← g.payload p.2
        return (a, b)) = (.ok ((m g.nodes.length E).map fun p => (g.pay p.1, g.pay p.2)) : Py _) := by
      apply mapM_ok
      intro p hp
      have := hlt p hp
      simp only [RxGraph.payload_ok this.1, RxGraph.payload_ok this.2, bind, Except.bind, pure, Except.pure]
    unfold runMwpm
    rw [← hEdef]
    erw [hmap]
    show Except.ok _ = _
    rw [List.filter_map]
    rfl
  · unfold runMwpmGraph
    rw [← hEdef, filterPy_ok (g := keep)]
    · show (do let e ← I.foldlM (matchedStep g) {}; pure e.g : Py _) = _
      rw [f1]
      show Except.ok _ = _
      have h3 : e'.g.nodes = ends (I.map fun p => (g.pay p.1, g.pay p.2)) := by rw [f3]; rfl
      have h4 : e'.g.edges = pairEdges 0 ws := by rw [f4]; rfl
      rw [← h3, ← h4]
    · intro p hp
      have := hlt p hp
      unfold notBothVirtual
      simp only [RxGraph.payload_ok this.1, RxGraph.payload_ok this.2, bind, Except.bind, pure, Except.pure, keep]
      split
      · next h => simp [h]
      · next h => simp [h]

end Qtc
