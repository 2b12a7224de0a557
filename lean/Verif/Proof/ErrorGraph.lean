import Verif.Proof.Dist
/-!
Shape of the graph built by `makeErrorGraph`, and what `runMwpm` returns, in terms of nodes instead of indices.
-/
namespace Qtc
open Spec

/-! ### Building -/

structure EGraph.WF (e : EGraph) : Prop extends e.g.WF where
  map : ∀ n i, e.nmap n = some i ↔ e.g.nodes[i]? = some n

theorem emptyEGraph_WF : ({} : EGraph).WF :=
  { nodup := List.nodup_nil
    lt := by simp
    simple := List.Pairwise.nil
    map := by simp }

theorem EGraph.addNode_WF {e : EGraph} (H : e.WF) {n : Node} (hn : n ∉ e.g.nodes) : (e.addNode n).WF where
  toWF := RxGraph.addNode_WF H.toWF hn
  map := by
    intro m i
    show (if m = n then some e.g.nodes.length else e.nmap m) = some i ↔ (e.g.nodes ++ [n])[i]? = some m
    by_cases hm : m = n
    · subst hm
      rw [if_pos rfl]
      constructor
      · intro h; cases h; simp
      · intro h
        by_cases hi : i < e.g.nodes.length
        · rw [List.getElem?_append_left hi] at h
          exact absurd (List.mem_of_getElem? h) hn
        · rw [List.getElem?_append_right (by omega)] at h
          have : i - e.g.nodes.length = 0 := by
            by_contra hne
            rw [List.getElem?_eq_none (by simp; omega)] at h
            cases h
          congr 1
          omega
    · rw [if_neg hm, H.map]
      constructor
      · intro h
        rw [List.getElem?_append_left (List.getElem?_eq_some_iff.1 h).1]
        exact h
      · intro h
        by_cases hi : i < e.g.nodes.length
        · rwa [List.getElem?_append_left hi] at h
        · rw [List.getElem?_append_right (by omega)] at h
          have : i - e.g.nodes.length = 0 := by
            by_contra hne
            rw [List.getElem?_eq_none (by simp; omega)] at h
            cases h
          rw [this] at h
          simp at h
          exact absurd h.symm hm

theorem addNew_all : ∀ (l : List Node) {e : EGraph}, e.WF → e.g.edges = [] →
    (l.foldl EGraph.addNew e).WF ∧ (l.foldl EGraph.addNew e).g.edges = [] ∧
      ∀ n, n ∈ (l.foldl EGraph.addNew e).g.nodes ↔ n ∈ e.g.nodes ∨ n ∈ l
  | [], e, H, he => ⟨H, he, by simp⟩
  | a :: l, e, H, he => by
    rw [List.foldl_cons]
    have step : (e.addNew a).WF ∧ (e.addNew a).g.edges = [] ∧ ∀ n, n ∈ (e.addNew a).g.nodes ↔ n ∈ e.g.nodes ∨ n = a := by
      unfold EGraph.addNew
      by_cases h : e.g.nodes.contains a = true
      · rw [if_pos h]
        refine ⟨H, he, ?_⟩
        intro n
        rw [List.contains_eq_mem, decide_eq_true_eq] at h
        constructor
        · exact Or.inl
        · rintro (h' | rfl)
          · exact h'
          · exact h
      · rw [if_neg h]
        rw [List.contains_eq_mem, decide_eq_true_eq] at h
        refine ⟨EGraph.addNode_WF H h, he, ?_⟩
        intro n
        simp [EGraph.addNode, RxGraph.addNode]
    obtain ⟨h1, h2, h3⟩ := addNew_all l step.1 step.2.1
    refine ⟨h1, h2, ?_⟩
    intro n
    rw [h3, step.2.2, List.mem_cons, or_assoc]

/-- Every edge joins nodes `a`, `b` and has a weight `w` with `Q a b w`. -/
def AllEdges {W : Type} (Q : Node → Node → W → Prop) (g : RxGraph W) : Prop :=
  ∀ i j w, (i, j, w) ∈ g.edges → ∀ a b, g.nodes[i]? = some a → g.nodes[j]? = some b → Q a b w

theorem RxGraph.addEdge_all {W : Type} {Q : Node → Node → W → Prop} (hQ : ∀ a b w, Q a b w → Q b a w) {g : RxGraph W}
    (hg : AllEdges Q g) {i j : Nat} {a b : Node} (ha : g.nodes[i]? = some a) (hb : g.nodes[j]? = some b)
    {w : W} (hw : Q a b w) : AllEdges Q (g.addEdge i j w) := by
  intro i' j' w' he a' b' ha' hb'
  rw [RxGraph.addEdge_nodes] at ha' hb'
  unfold RxGraph.addEdge at he
  split at he
  · simp only [List.mem_map] at he
    obtain ⟨⟨x, y, u⟩, h1, h2⟩ := he
    split at h2
    · rename_i hs
      rw [sameEnds_iff] at hs
      simp only at hs
      cases h2
      rcases hs with ⟨rfl, rfl⟩ | ⟨rfl, rfl⟩
      · rw [ha] at ha'; rw [hb] at hb'; cases ha'; cases hb'; exact hw
      · rw [hb] at ha'; rw [ha] at hb'; cases ha'; cases hb'; exact hQ _ _ _ hw
    · cases h2
      exact hg _ _ _ h1 _ _ ha' hb'
  · rcases List.mem_append.1 he with h | h
    · exact hg _ _ _ h _ _ ha' hb'
    · simp at h
      obtain ⟨rfl, rfl, rfl⟩ := h
      rw [ha] at ha'; rw [hb] at hb'; cases ha'; cases hb'; exact hw

theorem EGraph.idx_ok {s : EGraph} (H : s.WF) {n : Node} (hn : n ∈ s.g.nodes) :
    ∃ i, s.idx n = .ok i ∧ s.g.nodes[i]? = some n := by
  obtain ⟨i, hi⟩ := List.getElem?_of_mem hn
  refine ⟨i, ?_, hi⟩
  unfold EGraph.idx
  rw [(H.map n i).2 hi]

theorem EGraph.addEdge_spec {Q : Node → Node → ℝ → Prop} (hQ : ∀ a b w, Q a b w → Q b a w) {e : EGraph} (H : e.WF)
    (hall : AllEdges Q e.g) {a b : Node} (ha : a ∈ e.g.nodes) (hb : b ∈ e.g.nodes) {w : ℝ} (hw : Q a b w) :
    ∃ e', e.addEdge a b w = .ok e' ∧ e'.WF ∧ e'.g.nodes = e.g.nodes ∧ AllEdges Q e'.g ∧
      ∀ x y, e'.g.Adj x y ↔ e.g.Adj x y ∨ (x = a ∧ y = b) ∨ (x = b ∧ y = a) := by
  obtain ⟨i, hi, hi'⟩ := e.idx_ok H ha
  obtain ⟨j, hj, hj'⟩ := e.idx_ok H hb
  have hil : i < e.g.nodes.length := (List.getElem?_eq_some_iff.1 hi').1
  have hjl : j < e.g.nodes.length := (List.getElem?_eq_some_iff.1 hj').1
  refine ⟨{ e with g := e.g.addEdge i j w }, ?_, ?_, RxGraph.addEdge_nodes _ _ _ _, ?_, ?_⟩
  · unfold EGraph.addEdge
    simp only [hi, hj, bind, Except.bind, pure, Except.pure]
  · exact { toWF := RxGraph.addEdge_WF H.toWF w hil hjl
            map := by
              intro n k
              simp only [RxGraph.addEdge_nodes]
              exact H.map n k }
  · exact RxGraph.addEdge_all hQ hall hi' hj' hw
  · intro x y
    constructor
    · rintro ⟨i', j', w', h1, h2, h3⟩
      simp only [RxGraph.addEdge_nodes] at h1 h2
      rcases (RxGraph.addEdge_ends e.g i j w i' j').1 ⟨w', h3⟩ with ⟨w2, h⟩ | ⟨rfl, rfl⟩ | ⟨rfl, rfl⟩
      · exact Or.inl ⟨i', j', w2, h1, h2, h⟩
      · rw [hi'] at h1; rw [hj'] at h2; cases h1; cases h2
        exact Or.inr (Or.inl ⟨rfl, rfl⟩)
      · rw [hj'] at h1; rw [hi'] at h2; cases h1; cases h2
        exact Or.inr (Or.inr ⟨rfl, rfl⟩)
    · rintro (⟨i', j', w', h1, h2, h3⟩ | ⟨rfl, rfl⟩ | ⟨rfl, rfl⟩)
      · obtain ⟨w2, h⟩ := (RxGraph.addEdge_ends e.g i j w i' j').2 (Or.inl ⟨w', h3⟩)
        exact ⟨i', j', w2, by rw [RxGraph.addEdge_nodes]; exact h1, by rw [RxGraph.addEdge_nodes]; exact h2, h⟩
      · obtain ⟨w2, h⟩ := (RxGraph.addEdge_ends e.g i j w i j).2 (Or.inr (Or.inl ⟨rfl, rfl⟩))
        exact ⟨i, j, w2, by rw [RxGraph.addEdge_nodes]; exact hi', by rw [RxGraph.addEdge_nodes]; exact hj', h⟩
      · obtain ⟨w2, h⟩ := (RxGraph.addEdge_ends e.g i j w j i).2 (Or.inr (Or.inr ⟨rfl, rfl⟩))
        exact ⟨j, i, w2, by rw [RxGraph.addEdge_nodes]; exact hj', by rw [RxGraph.addEdge_nodes]; exact hi', h⟩

/-- The edge loop, if it finishes: all edges satisfy `Q`, and exactly the listed pairs have been joined. `I` is an
invariant of the cache. -/
theorem pairs_spec {s : SGraph} {virt : List Node} {ep : Option ℝ} {Q : Node → Node → ℝ → Prop} {I : Cache → Prop}
    (hQ : ∀ a b w, Q a b w → Q b a w) : ∀ (l : List (Node × Node)) {st st' : EGraph × Cache}, st.1.WF →
    (∀ p ∈ l, p.1 ∈ st.1.g.nodes ∧ p.2 ∈ st.1.g.nodes) → AllEdges Q st.1.g → I st.2 →
    (∀ p ∈ l, ∀ c r, I c → pairWeight s virt ep p.1 p.2 c = .ok r → Q p.1 p.2 r.1 ∧ I r.2) →
    l.foldlM (pairStep s virt ep) st = .ok st' →
    st'.1.WF ∧ st'.1.g.nodes = st.1.g.nodes ∧ AllEdges Q st'.1.g ∧ I st'.2 ∧
      ∀ x y, st'.1.g.Adj x y ↔ st.1.g.Adj x y ∨ ∃ p ∈ l, (x = p.1 ∧ y = p.2) ∨ (x = p.2 ∧ y = p.1)
  | [], st, st', H, _, hall, hI, _, h => by
    cases h
    exact ⟨H, rfl, hall, hI, by simp⟩
  | p :: l, st, st', H, hin, hall, hI, hpw, h => by
    rw [List.foldlM_cons] at h
    obtain ⟨st1, h1, h2⟩ := except_bind_ok h
    unfold pairStep at h1
    obtain ⟨r, h3, h4⟩ := except_bind_ok h1
    obtain ⟨e, h5, h6⟩ := except_bind_ok h4
    cases h6
    obtain ⟨q1, q2⟩ := hpw p List.mem_cons_self _ _ hI h3
    obtain ⟨e', g1, g2, g3, g4, g5⟩ := EGraph.addEdge_spec hQ H hall (hin p List.mem_cons_self).1 (hin p List.mem_cons_self).2 q1
    rw [h5] at g1
    cases g1
    obtain ⟨k1, k2, k3, k4, k5⟩ := pairs_spec hQ l (st := (e, r.2)) g2
      (by intro q hq; rw [g3]; exact hin q (List.mem_cons_of_mem _ hq)) g4 q2
      (fun q hq => hpw q (List.mem_cons_of_mem _ hq)) h2
    refine ⟨k1, k2.trans g3, k3, k4, ?_⟩
    intro x y
    rw [k5, g5, or_assoc]
    apply or_congr Iff.rfl
    constructor
    · rintro (h | ⟨q, hq, h⟩)
      · exact ⟨p, List.mem_cons_self, h⟩
      · exact ⟨q, List.mem_cons_of_mem _ hq, h⟩
    · rintro ⟨q, hq, hxy⟩
      rcases List.mem_cons.1 hq with rfl | hq
      · exact Or.inl hxy
      · exact Or.inr ⟨q, hq, hxy⟩

/-- The edge loop finishes if every weight can be computed. -/
theorem pairs_ok {s : SGraph} {virt : List Node} {ep : Option ℝ} {I : Cache → Prop} :
    ∀ (l : List (Node × Node)) {st : EGraph × Cache}, st.1.WF →
    (∀ p ∈ l, p.1 ∈ st.1.g.nodes ∧ p.2 ∈ st.1.g.nodes) → I st.2 →
    (∀ p ∈ l, ∀ c, I c → ∃ r, pairWeight s virt ep p.1 p.2 c = .ok r ∧ I r.2) →
    ∃ st', l.foldlM (pairStep s virt ep) st = .ok st'
  | [], st, _, _, _, _ => ⟨st, rfl⟩
  | p :: l, st, H, hin, hI, hpw => by
    obtain ⟨r, h1, h2⟩ := hpw p List.mem_cons_self st.2 hI
    obtain ⟨e', g1, g2, g3, g4, g5⟩ := EGraph.addEdge_spec (Q := fun _ _ _ => True) (fun _ _ _ h => h) H
      (by intro _ _ _ _ _ _ _ _; trivial) (hin p List.mem_cons_self).1 (hin p List.mem_cons_self).2 (w := r.1) trivial
    obtain ⟨st', h⟩ := pairs_ok (I := I) l (st := (e', r.2)) g2
      (by intro q hq; rw [g3]; exact hin q (List.mem_cons_of_mem _ hq)) h2
      (fun q hq => hpw q (List.mem_cons_of_mem _ hq))
    refine ⟨st', ?_⟩
    rw [List.foldlM_cons]
    unfold pairStep
    simp only [h1, g1, bind, Except.bind, pure, Except.pure]
    exact h

/-- The edges of the extra node. -/
theorem makeEven_fold {Q : Node → Node → ℝ → Prop} (hQ : ∀ a b w, Q a b w → Q b a w) : ∀ (l : List Node) {e : EGraph}, e.WF →
    extraNode ∈ e.g.nodes → (∀ v ∈ l, v ∈ e.g.nodes ∧ Q extraNode v 0) → AllEdges Q e.g →
    ∃ e', l.foldlM (fun e v => e.addEdge extraNode v 0) e = .ok e' ∧ e'.WF ∧ e'.g.nodes = e.g.nodes ∧ AllEdges Q e'.g ∧
      ∀ x y, e'.g.Adj x y ↔ e.g.Adj x y ∨ (x = extraNode ∧ y ∈ l) ∨ (x ∈ l ∧ y = extraNode)
  | [], e, H, _, _, hall => ⟨e, rfl, H, rfl, hall, by simp⟩
  | v :: l, e, H, he, hin, hall => by
    obtain ⟨e1, g1, g2, g3, g4, g5⟩ := EGraph.addEdge_spec hQ H hall he (hin v List.mem_cons_self).1 (hin v List.mem_cons_self).2
    obtain ⟨e', k1, k2, k3, k4, k5⟩ := makeEven_fold hQ l g2 (by rw [g3]; exact he)
      (by intro w hw; rw [g3]; exact hin w (List.mem_cons_of_mem _ hw)) g4
    refine ⟨e', ?_, k2, k3.trans g3, k4, ?_⟩
    · rw [List.foldlM_cons, g1]
      exact k1
    · intro x y
      rw [k5, g5]
      simp only [List.mem_cons]
      tauto

theorem mem_combinations2 : ∀ {l : List Node} {p : Node × Node}, p ∈ combinations2 l → p.1 ∈ l ∧ p.2 ∈ l
  | [], p, h => by simp [combinations2] at h
  | a :: l, p, h => by
    unfold combinations2 at h
    rcases List.mem_append.1 h with h | h
    · obtain ⟨b, hb, rfl⟩ := List.mem_map.1 h
      exact ⟨List.mem_cons_self, List.mem_cons_of_mem _ hb⟩
    · have := mem_combinations2 h
      exact ⟨List.mem_cons_of_mem _ this.1, List.mem_cons_of_mem _ this.2⟩

theorem combinations2_ne : ∀ {l : List Node} {p : Node × Node}, l.Nodup → p ∈ combinations2 l → p.1 ≠ p.2
  | [], p, _, h => by simp [combinations2] at h
  | a :: l, p, hn, h => by
    unfold combinations2 at h
    rcases List.mem_append.1 h with h | h
    · obtain ⟨b, hb, rfl⟩ := List.mem_map.1 h
      intro hab
      simp only at hab
      subst hab
      exact (List.nodup_cons.1 hn).1 hb
    · exact combinations2_ne (List.nodup_cons.1 hn).2 h

theorem combinations2_complete : ∀ {l : List Node} {a b : Node}, a ∈ l → b ∈ l → a ≠ b →
    (a, b) ∈ combinations2 l ∨ (b, a) ∈ combinations2 l
  | [], a, b, h, _, _ => by simp at h
  | x :: l, a, b, ha, hb, hne => by
    unfold combinations2
    simp only [List.mem_append, List.mem_map, Prod.mk.injEq]
    rcases List.mem_cons.1 ha with rfl | ha' <;> rcases List.mem_cons.1 hb with rfl | hb'
    · exact absurd rfl hne
    · exact Or.inl (Or.inl ⟨b, hb', rfl, rfl⟩)
    · exact Or.inr (Or.inl ⟨a, ha', rfl, rfl⟩)
    · rcases combinations2_complete ha' hb' hne with h | h
      · exact Or.inl (Or.inr h)
      · exact Or.inr (Or.inr h)

/-- The pairs the error graph joins. -/
def EAdj (L virt : List Node) (a b : Node) : Prop :=
  (a ∈ L ++ virt ∧ b ∈ L ++ virt) ∨
    (L.length % 2 = 1 ∧ ((a = extraNode ∧ b ∈ virt) ∨ (a ∈ virt ∧ b = extraNode)))

theorem makeErrorGraph_spec {s : SGraph} {virt L : List Node} {ep : Option ℝ} {Q : Node → Node → ℝ → Prop}
    {I : Cache → Prop} (hQ : ∀ a b w, Q a b w → Q b a w) (hI : I fun _ => none)
    (hx : extraNode ∉ L ++ virt) (hxQ : ∀ v ∈ virt, Q extraNode v 0)
    (hpw : ∀ p ∈ combinations2 (L ++ virt), ∀ c r, I c → pairWeight s virt ep p.1 p.2 c = .ok r → Q p.1 p.2 r.1 ∧ I r.2)
    {e : EGraph} {L' : List Node} (h : makeErrorGraph s virt L ep = .ok (e, L')) :
    L' = L ++ virt ∧ e.WF ∧ AllEdges Q e.g ∧
      (∀ n, n ∈ e.g.nodes ↔ n ∈ L ++ virt ∨ (L.length % 2 = 1 ∧ n = extraNode)) ∧
      (∀ a b, a ≠ b → (e.g.Adj a b ↔ EAdj L virt a b)) := by
  unfold makeErrorGraph at h
  obtain ⟨st, h1, h2⟩ := except_bind_ok h
  obtain ⟨e1, h3, h4⟩ := except_bind_ok h2
  cases h4
  obtain ⟨n1, n2, n3⟩ := addNew_all (L ++ virt) emptyEGraph_WF rfl
  have hnodes : ∀ n, n ∈ ((L ++ virt).foldl EGraph.addNew {}).g.nodes ↔ n ∈ L ++ virt := by
    intro n
    rw [n3]
    simp
  have hnoadj : ∀ x y, ¬ ((L ++ virt).foldl EGraph.addNew {}).g.Adj x y := by
    rintro x y ⟨i, j, w, _, _, h⟩
    rw [n2] at h
    simp at h
  obtain ⟨k1, k2, k3, k4, k5⟩ := pairs_spec hQ (combinations2 (L ++ virt)) n1
    (by intro p hp; rw [hnodes, hnodes]; exact mem_combinations2 hp)
    (by intro i j w he; rw [n2] at he; simp at he) hI hpw h1
  have hpair : ∀ a b, a ≠ b → (st.1.g.Adj a b ↔ a ∈ L ++ virt ∧ b ∈ L ++ virt) := by
    intro a b hne
    rw [k5]
    constructor
    · rintro (h | ⟨p, hp, ⟨rfl, rfl⟩ | ⟨rfl, rfl⟩⟩)
      · exact absurd h (hnoadj a b)
      · exact mem_combinations2 hp
      · exact (mem_combinations2 hp).symm
    · rintro ⟨ha, hb⟩
      rcases combinations2_complete ha hb hne with h | h
      · exact Or.inr ⟨_, h, Or.inl ⟨rfl, rfl⟩⟩
      · exact Or.inr ⟨_, h, Or.inr ⟨rfl, rfl⟩⟩
  refine ⟨rfl, ?_⟩
  by_cases hodd : L.length % 2 ≠ 0
  · rw [evenUp, if_pos (by simpa using hodd)] at h3
    unfold makeEven at h3
    have hxn : extraNode ∉ st.1.g.nodes := by rw [k2, hnodes]; exact hx
    have hwf := EGraph.addNode_WF k1 hxn
    have hallx : AllEdges Q (st.1.addNode extraNode).g := by
      intro i j w he a b ha hb
      have hlt := k1.lt _ he
      simp only [EGraph.addNode, RxGraph.addNode] at ha hb
      rw [List.getElem?_append_left hlt.1] at ha
      rw [List.getElem?_append_left hlt.2] at hb
      exact k3 i j w he a b ha hb
    have hmemx : ∀ n, n ∈ (st.1.addNode extraNode).g.nodes ↔ n ∈ L ++ virt ∨ n = extraNode := by
      intro n
      show n ∈ st.1.g.nodes ++ [extraNode] ↔ _
      rw [List.mem_append, List.mem_singleton, k2, hnodes]
    obtain ⟨e', g1, g2, g3, g4, g5⟩ := makeEven_fold hQ virt hwf ((hmemx _).2 (Or.inr rfl))
      (fun v hv => ⟨(hmemx v).2 (Or.inl (List.mem_append_right _ hv)), hxQ v hv⟩) hallx
    rw [h3] at g1
    cases g1
    refine ⟨g2, g4, ?_, ?_⟩
    · intro n
      rw [g3, hmemx]
      have : L.length % 2 = 1 := by omega
      simp [this]
    · intro a b hne
      have : (st.1.addNode extraNode).g.Adj a b ↔ st.1.g.Adj a b := RxGraph.addNode_adj k1.toWF
      rw [g5, this, hpair a b hne]
      unfold EAdj
      have : L.length % 2 = 1 := by omega
      simp only [this, true_and]
  · rw [evenUp, if_neg (by simpa using hodd)] at h3
    cases h3
    refine ⟨k1, k3, ?_, ?_⟩
    · intro n
      rw [k2, hnodes]
      have : ¬ L.length % 2 = 1 := by omega
      simp [this]
    · intro a b hne
      rw [hpair a b hne]
      unfold EAdj
      have : ¬ L.length % 2 = 1 := by omega
      simp only [this, false_and, or_false]

theorem makeErrorGraph_ok {s : SGraph} {virt L : List Node} {ep : Option ℝ} {I : Cache → Prop} (hI : I fun _ => none)
    (hx : extraNode ∉ L ++ virt)
    (hpw : ∀ p ∈ combinations2 (L ++ virt), ∀ c, I c → ∃ r, pairWeight s virt ep p.1 p.2 c = .ok r ∧ I r.2) :
    ∃ e, makeErrorGraph s virt L ep = .ok (e, L ++ virt) := by
  obtain ⟨n1, n2, n3⟩ := addNew_all (L ++ virt) emptyEGraph_WF rfl
  have hnodes : ∀ n, n ∈ ((L ++ virt).foldl EGraph.addNew {}).g.nodes ↔ n ∈ L ++ virt := by
    intro n
    rw [n3]
    simp
  obtain ⟨st, hst⟩ := pairs_ok (I := I) (combinations2 (L ++ virt))
    (st := ((L ++ virt).foldl EGraph.addNew {}, fun _ => none)) n1
    (by intro p hp; simp only [hnodes]; exact mem_combinations2 hp) hI hpw
  obtain ⟨k1, k2, _, _, _⟩ := pairs_spec (Q := fun _ _ _ => True) (I := fun _ => True) (fun _ _ _ h => h)
    (combinations2 (L ++ virt)) n1
    (by intro p hp; rw [hnodes, hnodes]; exact mem_combinations2 hp)
    (by intro i j w he; rw [n2] at he; simp at he) trivial (fun _ _ _ _ _ _ => ⟨trivial, trivial⟩) hst
  by_cases hodd : L.length % 2 ≠ 0
  · have hxn : extraNode ∉ st.1.g.nodes := by rw [k2, hnodes]; exact hx
    have hwf := EGraph.addNode_WF k1 hxn
    obtain ⟨e', g1, _⟩ := makeEven_fold (Q := fun _ _ _ => True) (fun _ _ _ h => h) virt hwf
      (by show extraNode ∈ st.1.g.nodes ++ [extraNode]; simp)
      (by
        intro v hv
        refine ⟨?_, trivial⟩
        show v ∈ st.1.g.nodes ++ [extraNode]
        rw [List.mem_append, k2, hnodes]
        exact Or.inl (List.mem_append_right _ hv))
      (by intro _ _ _ _ _ _ _ _; trivial)
    refine ⟨e', ?_⟩
    unfold makeErrorGraph
    have hb : (L.length % 2 != 0) = true := by simpa using hodd
    simp only [hst, evenUp, hb, if_true, makeEven, g1, bind, Except.bind, pure, Except.pure]
  · refine ⟨st.1, ?_⟩
    unfold makeErrorGraph
    have hb : (L.length % 2 != 0) = false := by simpa using hodd
    simp only [hst, evenUp, hb, Bool.false_eq_true, if_false, bind, Except.bind, pure, Except.pure]

end Qtc
