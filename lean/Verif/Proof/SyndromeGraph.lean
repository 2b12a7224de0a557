import Verif.Proof.Dfs
namespace Qtc
open Spec

/-! ### One time step is connected -/

theorem exists_SN {key : Key} {dh dw t r c : Int} (H : OddPos dh dw) (h : Pos key dh dw r c) :
    ∃ n, SN key dh dw t n ∧ n.r2 = r ∧ n.c2 = c := by
  rcases pos_site_or_bdry H h with h | h
  · exact ⟨⟨t, r, c⟩, Or.inl ⟨rfl, h⟩, rfl, rfl⟩
  · exact ⟨⟨-1, r, c⟩, Or.inr ⟨rfl, h⟩, rfl, rfl⟩

theorem start_SN {key : Key} {dh dw t : Int} (H : Long key dh dw) : SN key dh dw t (startNode key t) := by
  obtain ⟨H, h⟩ := H
  unfold OddPos at H
  cases key
  · refine Or.inl ⟨rfl, ?_⟩
    simp only [startNode, Site, XSite] at *
    omega
  · refine Or.inl ⟨rfl, ?_⟩
    simp only [startNode, Site, ZSite] at *
    omega

theorem closed_all {key : Key} {dh dw t : Int} (H : Long key dh dw) {C : Node → Prop}
    (h0 : C (startNode key t))
    (hc : ∀ u, SN key dh dw t u → C u → ∀ v, SN key dh dw t v → Diag u v → C v) :
    ∀ n, SN key dh dw t n → C n := by
  have H' := H
  obtain ⟨HO, hl⟩ := H'
  let P : Int → Int → Prop := fun r c => ∀ n, SN key dh dw t n → n.r2 = r → n.c2 = c → C n
  have step : ∀ r c r' c', P r c → Pos key dh dw r c → (r' = r - 2 ∨ r' = r + 2) → (c' = c - 2 ∨ c' = c + 2) → P r' c' := by
    intro r c r' c' hP hp h1 h2 n hn hr hcc
    obtain ⟨u, hu, hur, huc⟩ := exists_SN (t := t) HO hp
    refine hc u hu (hP u hu hur huc) n hn ?_
    unfold Diag
    omega
  have HO' := HO
  unfold OddPos at HO'
  suffices h : ∀ r c, Pos key dh dw r c → P r c by
    intro n hn
    exact h n.r2 n.c2 (SN_pos hn) n hn rfl rfl
  have start : P (startNode key t).r2 (startNode key t).c2 := by
    intro n hn hr hcc
    have hs := start_SN (t := t) H
    suffices n = startNode key t by rw [this]; exact h0
    have : n.t = (startNode key t).t := by
      rcases hn with ⟨h1, h2⟩ | ⟨h1, h2⟩
      · cases key <;> exact h1
      · rcases hs with ⟨h3, h4⟩ | ⟨h3, h4⟩
        · rw [hr, hcc] at h2
          exact absurd h2 (site_not_bdry h4)
        · rw [h1, h3]
    obtain ⟨_, _, _⟩ := n
    simp only at *
    generalize startNode key t = m at *
    obtain ⟨_, _, _⟩ := m
    simp only at *
    subst hr hcc this
    rfl
  cases key with
  | Z =>
    simp only [startNode] at start hl
    -- row 1
    have row1 : ∀ m : Nat, Pos .Z dh dw 1 (1 + 4 * (m : Int)) → P 1 (1 + 4 * (m : Int)) := by
      intro m
      induction m with
      | zero => intro _; simpa using start
      | succ m ih =>
        intro hp
        have p0 : Pos .Z dh dw 1 (1 + 4 * (m : Int)) := by simp only [Pos] at *; omega
        have p1 : Pos .Z dh dw 3 (3 + 4 * (m : Int)) := by simp only [Pos] at *; omega
        exact step _ _ _ _ (step _ _ _ _ (ih p0) p0 (Or.inr (by omega)) (Or.inr (by omega))) p1 (Or.inl (by omega))
          (Or.inr (by omega))
    have row1' : ∀ c, Pos .Z dh dw 1 c → P 1 c := by
      intro c hp
      have hm : c = 1 + 4 * (((c - 1) / 4).toNat : Int) := by simp only [Pos] at hp; omega
      rw [hm] at hp ⊢
      exact row1 _ hp
    have rows : ∀ k : Nat, ∀ c, Pos .Z dh dw (1 + 2 * (k : Int)) c → P (1 + 2 * (k : Int)) c := by
      intro k
      induction k with
      | zero => intro c hp; simpa using row1' c (by simpa using hp)
      | succ k ih =>
        intro c hp
        by_cases hcc : 1 ≤ c
        · have p0 : Pos .Z dh dw (1 + 2 * (k : Int)) (c - 2) := by simp only [Pos] at *; omega
          exact step _ _ _ _ (ih _ p0) p0 (Or.inr (by omega)) (Or.inr (by omega))
        · have p0 : Pos .Z dh dw (1 + 2 * (k : Int)) (c + 2) := by simp only [Pos] at *; omega
          exact step _ _ _ _ (ih _ p0) p0 (Or.inr (by omega)) (Or.inl (by omega))
    intro r c hp
    by_cases hr : 1 ≤ r
    · have hm : r = 1 + 2 * (((r - 1) / 2).toNat : Int) := by simp only [Pos] at hp; omega
      rw [hm] at hp ⊢
      exact rows _ c hp
    · have hr1 : r = -1 := by simp only [Pos] at hp; omega
      subst hr1
      by_cases hcc : 1 ≤ c
      · have p0 : Pos .Z dh dw 1 (c - 2) := by simp only [Pos] at *; omega
        exact step _ _ _ _ (row1' _ p0) p0 (Or.inl (by omega)) (Or.inr (by omega))
      · have p0 : Pos .Z dh dw 1 (c + 2) := by simp only [Pos] at *; omega
        exact step _ _ _ _ (row1' _ p0) p0 (Or.inl (by omega)) (Or.inl (by omega))
  | X =>
    simp only [startNode] at start hl
    have col3 : ∀ m : Nat, Pos .X dh dw (1 + 4 * (m : Int)) 3 → P (1 + 4 * (m : Int)) 3 := by
      intro m
      induction m with
      | zero => intro _; simpa using start
      | succ m ih =>
        intro hp
        have p0 : Pos .X dh dw (1 + 4 * (m : Int)) 3 := by simp only [Pos] at *; omega
        have p1 : Pos .X dh dw (3 + 4 * (m : Int)) 1 := by simp only [Pos] at *; omega
        exact step _ _ _ _ (step _ _ _ _ (ih p0) p0 (Or.inr (by omega)) (Or.inl (by omega))) p1 (Or.inr (by omega))
          (Or.inr (by omega))
    have col3' : ∀ r, Pos .X dh dw r 3 → P r 3 := by
      intro r hp
      have hm : r = 1 + 4 * (((r - 1) / 4).toNat : Int) := by simp only [Pos] at hp; omega
      rw [hm] at hp ⊢
      exact col3 _ hp
    have move : ∀ c c', (c' = c - 2 ∨ c' = c + 2) → -1 ≤ c → c ≤ 2 * dw - 1 → c % 2 = 1 →
        (∀ r, Pos .X dh dw r c → P r c) → (∀ r, Pos .X dh dw r c' → P r c') := by
      intro c c' hcc h1 h2 h3 h r hp
      by_cases hr : 1 ≤ r
      · have p0 : Pos .X dh dw (r - 2) c := by simp only [Pos] at *; omega
        exact step _ _ _ _ (h _ p0) p0 (Or.inr (by omega)) hcc
      · have p0 : Pos .X dh dw (r + 2) c := by simp only [Pos] at *; omega
        exact step _ _ _ _ (h _ p0) p0 (Or.inl (by omega)) hcc
    have col1 := move 3 1 (by omega) (by omega) (by omega) (by omega) col3'
    have cols : ∀ k : Nat, 1 + 2 * (k : Int) ≤ 2 * dw - 1 → ∀ r, Pos .X dh dw r (1 + 2 * (k : Int)) → P r (1 + 2 * (k : Int)) := by
      intro k
      induction k with
      | zero => intro _ r hp; simpa using col1 r (by simpa using hp)
      | succ k ih =>
        intro hk
        exact move (1 + 2 * (k : Int)) _ (by omega) (by omega) (by omega) (by omega) (ih (by omega))
    intro r c hp
    by_cases hc1 : 1 ≤ c
    · have hm : c = 1 + 2 * (((c - 1) / 2).toNat : Int) := by simp only [Pos] at hp; omega
      have hle : c ≤ 2 * dw - 1 := by simp only [Pos] at hp; omega
      rw [hm] at hp hle ⊢
      exact cols _ hle r hp
    · have hr1 : c = -1 := by simp only [Pos] at hp; omega
      subst hr1
      exact move 1 (-1) (by omega) (by omega) (by omega) (by omega) col1 r hp

/-! ### All time steps -/

theorem timeSlice_spec {dh dw : Int} {key : Key} (H : Long key dh dw) {U : List Node} {t : Int}
    (hU : ∀ n, SN key dh dw t n → n ∈ U) {limit : Nat} (hlim : U.length ≤ limit) {s : SGraph} (hs : s.WF)
    (hnew : startNode key t ∉ s.g.nodes) :
    ∃ s', timeSlice dh dw key limit s t = .ok s' ∧ s'.WF ∧
      (∀ n, n ∈ s'.g.nodes ↔ n ∈ s.g.nodes ∨ SN key dh dw t n) ∧
      (∀ a b, s'.g.Adj a b ↔ s.g.Adj a b ∨ (SN key dh dw t a ∧ SN key dh dw t b ∧ Diag a b)) := by
  have hst := start_SN (t := t) H
  have hlt : left U ([] ++ [startNode key t]) < limit := by
    have := left_lt (U := U) (v := []) (v' := [startNode key t]) (by simp) (hU _ hst) (by simp) (by simp)
    have h2 := left_le_length U []
    simp only [List.nil_append]
    omega
  obtain ⟨vis, s', e, st, hm⟩ := populate_spec H.1 hU limit (startNode key t) [] (s.addNode (startNode key t))
    (SGraph.addNode_WF hs hnew) hst (SGraph.addNode_nodes.2 (Or.inr rfl)) (by simp) (by simp)
    (by intro u hu; cases hu) hlt
  have hall : ∀ n, SN key dh dw t n → n ∈ vis := by
    refine closed_all H hm ?_
    intro u hu hv v hsv hd
    exact st.closed u hv (by simp) v ((mem_nb H.1 hu).2 ⟨hsv, hd⟩)
  refine ⟨s', ?_, st.wf, ?_, ?_⟩
  · unfold timeSlice
    rw [e]
    rfl
  · intro n
    constructor
    · intro hn
      rcases st.new n hn with h | h
      · rcases SGraph.addNode_nodes.1 h with h | rfl
        · exact Or.inl h
        · exact Or.inr hst
      · exact Or.inr (st.slice n h)
    · rintro (h | h)
      · exact st.grow n (SGraph.addNode_nodes.2 (Or.inl h))
      · exact st.visn n (hall n h)
  · intro a b
    have had : (s.addNode (startNode key t)).g.Adj a b ↔ s.g.Adj a b := RxGraph.addNode_adj hs.toWF
    constructor
    · intro h
      rcases st.sound a b h with h | h
      · exact Or.inl (had.1 h)
      · exact Or.inr h
    · rintro (h | ⟨h1, h2, h3⟩)
      · exact st.adj a b (had.2 h)
      · exact st.joined a (hall a h1) b ((mem_nb H.1 h1).2 ⟨h2, h3⟩)

/-- All nodes of all time steps before `k`. -/
def sliceAdj (key : Key) (dh dw : Int) (k : Int) (a b : Node) : Prop :=
  ∃ t, 0 ≤ t ∧ t < k ∧ SN key dh dw t a ∧ SN key dh dw t b ∧ Diag a b

theorem slices_spec {dh dw : Int} {key : Key} (H : Long key dh dw) (U : Int → List Node) 
    (hU : ∀ t n, SN key dh dw t n → n ∈ U t) {limit : Nat} (hlim : ∀ t, (U t).length ≤ limit) :
    ∀ k : Nat, ∃ s, ((List.range k).map Int.ofNat).foldlM (timeSlice dh dw key limit) {} = .ok s ∧ s.WF ∧
      (∀ n, n ∈ s.g.nodes ↔ ∃ t, 0 ≤ t ∧ t < (k : Int) ∧ SN key dh dw t n) ∧
      (∀ a b, s.g.Adj a b ↔ sliceAdj key dh dw k a b)
  | 0 => by
    refine ⟨{}, rfl, emptyGraph_WF, ?_, ?_⟩
    · intro n
      constructor
      · intro h; cases h
      · rintro ⟨t, h1, h2, _⟩; omega
    · intro a b
      constructor
      · rintro ⟨i, j, w, _, _, h | h⟩ <;> cases h
      · rintro ⟨t, h1, h2, _⟩; omega
  | k + 1 => by
    obtain ⟨s, e, wf, hn, ha⟩ := slices_spec H U hU hlim k
    obtain ⟨s', e', wf', hn', ha'⟩ := timeSlice_spec H (t := (k : Int)) (hU k) (hlim k) wf (by
      rw [hn]
      rintro ⟨t, h1, h2, h3⟩
      rcases h3 with ⟨h3, _⟩ | ⟨h3, _⟩
      · cases key <;> simp only [startNode] at h3 <;> omega
      · cases key <;> simp only [startNode] at h3 <;> omega)
    refine ⟨s', ?_, wf', ?_, ?_⟩
    · rw [List.range_succ, List.map_append, List.foldlM_append, e]
      show (List.foldlM (timeSlice dh dw key limit) s [Int.ofNat k]) = _
      rw [List.foldlM_cons]
      show (do let x ← timeSlice dh dw key limit s (k : Int); _) = _
      rw [e']
      rfl
    · intro n
      rw [hn', hn]
      constructor
      · rintro (⟨t, h1, h2, h3⟩ | h)
        · exact ⟨t, h1, by push_cast; omega, h3⟩
        · exact ⟨k, by omega, by push_cast; omega, h⟩
      · rintro ⟨t, h1, h2, h3⟩
        push_cast at h2
        by_cases h : t = k
        · subst h; exact Or.inr h3
        · exact Or.inl ⟨t, h1, by omega, h3⟩
    · intro a b
      rw [ha', ha]
      constructor
      · rintro (⟨t, h1, h2, h3⟩ | h)
        · exact ⟨t, h1, by push_cast; omega, h3⟩
        · exact ⟨k, by omega, by push_cast; omega, h⟩
      · rintro ⟨t, h1, h2, h3⟩
        push_cast at h2
        by_cases h : t = k
        · subst h; exact Or.inr h3
        · exact Or.inl ⟨t, h1, by omega, h3⟩

theorem addEdges_spec {α : Type} (f g : α → Node) : ∀ (l : List α) {s : SGraph}, s.WF →
    (∀ x ∈ l, f x ∈ s.g.nodes ∧ g x ∈ s.g.nodes) →
    ∃ s', l.foldlM (fun s x => s.addEdge (f x) (g x)) s = .ok s' ∧ s'.WF ∧ s'.g.nodes = s.g.nodes ∧
      ∀ a b, s'.g.Adj a b ↔ s.g.Adj a b ∨ ∃ x ∈ l, (a = f x ∧ b = g x) ∨ (a = g x ∧ b = f x)
  | [], s, hs, _ => ⟨s, rfl, hs, rfl, by simp⟩
  | x :: l, s, hs, hl => by
    obtain ⟨s1, e1, w1, n1, a1⟩ := SGraph.addEdge_spec hs (hl x (by simp)).1 (hl x (by simp)).2
    obtain ⟨s2, e2, w2, n2, a2⟩ := addEdges_spec f g l w1 (by
      intro y hy; rw [n1]; exact hl y (List.mem_cons_of_mem _ hy))
    refine ⟨s2, ?_, w2, n2.trans n1, ?_⟩
    · rw [List.foldlM_cons, e1]
      exact e2
    · intro a b
      rw [a2, a1]
      simp only [List.mem_cons, exists_eq_or_imp]
      rw [or_assoc]

theorem timeEdges_all {T : Int} : ∀ (l : List Node) {s : SGraph}, s.WF →
    (∀ n ∈ l, ∀ t, 0 ≤ t → t < T → (⟨t, n.r2, n.c2⟩ : Node) ∈ s.g.nodes) →
    ∃ s', l.foldlM (timeEdges T) s = .ok s' ∧ s'.WF ∧ s'.g.nodes = s.g.nodes ∧
      ∀ a b, s'.g.Adj a b ↔ s.g.Adj a b ∨ ∃ n ∈ l, ∃ t, 0 ≤ t ∧ t + 1 < T ∧
        ((a = ⟨t, n.r2, n.c2⟩ ∧ b = ⟨t + 1, n.r2, n.c2⟩) ∨ (a = ⟨t + 1, n.r2, n.c2⟩ ∧ b = ⟨t, n.r2, n.c2⟩))
  | [], s, hs, _ => ⟨s, rfl, hs, rfl, by simp⟩
  | n :: l, s, hs, hl => by
    obtain ⟨s1, e1, w1, n1, a1⟩ := addEdges_spec (fun t : Int => (⟨t, n.r2, n.c2⟩ : Node))
      (fun t : Int => (⟨t + 1, n.r2, n.c2⟩ : Node)) (pyRange (T - 1)) hs (by
        intro t ht
        rw [mem_pyRange] at ht
        exact ⟨hl n (by simp) t (by omega) (by omega), hl n (by simp) (t + 1) (by omega) (by omega)⟩)
    obtain ⟨s2, e2, w2, n2, a2⟩ := timeEdges_all l w1 (by
      intro m hm; rw [n1]; exact hl m (List.mem_cons_of_mem _ hm))
    refine ⟨s2, ?_, w2, n2.trans n1, ?_⟩
    · rw [List.foldlM_cons]
      show (do let x ← timeEdges T s n; _) = _
      unfold timeEdges
      rw [e1]
      exact e2
    · intro a b
      rw [a2, a1]
      simp only [List.mem_cons, exists_eq_or_imp, mem_pyRange]
      rw [or_assoc]
      apply or_congr Iff.rfl
      apply or_congr _ Iff.rfl
      apply exists_congr
      intro t
      rw [and_assoc]
      apply and_congr Iff.rfl
      apply and_congr _ Iff.rfl
      omega

/-- The shape of the decoding graph, in raw form. -/
theorem makeSyndromeGraph_raw {dh dw T : Int} {key : Key} (H : Long key dh dw) (U : Int → List Node)
    (hU : ∀ t n, SN key dh dw t n → n ∈ U t) {limit : Nat} (hlim : ∀ t, (U t).length ≤ limit) :
    ∃ s, makeSyndromeGraph dh dw T limit key = .ok s ∧ s.WF ∧
      (∀ n, n ∈ s.g.nodes ↔ 0 < T ∧ GNode key dh dw T n) ∧
      (∀ a b, s.g.Adj a b ↔ sliceAdj key dh dw T a b ∨ ∃ t, TimeEdge key dh dw T t a b) := by
  obtain ⟨s, e, wf, hn, ha⟩ := slices_spec H U hU hlim T.toNat
  have hn' : ∀ n, n ∈ s.g.nodes ↔ 0 < T ∧ GNode key dh dw T n := by
    intro n
    rw [hn]
    constructor
    · rintro ⟨t, h1, h2, ⟨rfl, h3⟩ | ⟨h3, h4⟩⟩
      · exact ⟨by omega, Or.inl ⟨h1, by omega, h3⟩⟩
      · exact ⟨by omega, Or.inr ⟨h3, h4⟩⟩
    · rintro ⟨hT, ⟨h1, h2, h3⟩ | ⟨h1, h2⟩⟩
      · exact ⟨n.t, h1, by omega, Or.inl ⟨rfl, h3⟩⟩
      · exact ⟨0, by omega, by omega, Or.inr ⟨h1, h2⟩⟩
  obtain ⟨s', e', wf', hnn, ha'⟩ := timeEdges_all (T := T) (s.g.nodes.filter fun n => n.t == 0) wf (by
    intro n hm t h1 h2
    rw [List.mem_filter, hn'] at hm
    rw [hn']
    obtain ⟨⟨h3, h4⟩, h5⟩ := hm
    simp only [beq_iff_eq] at h5
    rcases h4 with ⟨_, _, h6⟩ | ⟨h6, _⟩
    · exact ⟨by omega, Or.inl ⟨h1, h2, h6⟩⟩
    · omega)
  refine ⟨s', ?_, wf', by rw [hnn]; exact hn', ?_⟩
  · unfold makeSyndromeGraph pyRange
    rw [e]
    exact e'
  · intro a b
    rw [ha', ha]
    have h1 : sliceAdj key dh dw (T.toNat : Int) a b ↔ sliceAdj key dh dw T a b := by
      unfold sliceAdj
      apply exists_congr
      intro t
      constructor
      · rintro ⟨h1, h2, h3⟩; exact ⟨h1, by omega, h3⟩
      · rintro ⟨h1, h2, h3⟩; exact ⟨h1, by omega, h3⟩
    rw [h1]
    apply or_congr Iff.rfl
    constructor
    · rintro ⟨n, hm, t, h1, h2, h3⟩
      rw [List.mem_filter, hn'] at hm
      obtain ⟨⟨h4, h5⟩, h6⟩ := hm
      simp only [beq_iff_eq] at h6
      have hsite : Site key dh dw n.r2 n.c2 := by
        rcases h5 with ⟨_, _, h⟩ | ⟨h, _⟩
        · exact h
        · omega
      refine ⟨t, h1, h2, ?_⟩
      rcases h3 with ⟨rfl, rfl⟩ | ⟨rfl, rfl⟩
      · exact ⟨hsite, rfl, rfl, Or.inl ⟨rfl, rfl⟩⟩
      · exact ⟨hsite, rfl, rfl, Or.inr ⟨rfl, rfl⟩⟩
    · rintro ⟨t, h1, h2, h3, h4, h5, h6⟩
      refine ⟨⟨0, a.r2, a.c2⟩, ?_, t, h1, h2, ?_⟩
      · rw [List.mem_filter, hn']
        exact ⟨⟨by omega, Or.inl ⟨by simp, by simp only; omega, h3⟩⟩, by simp⟩
      · obtain ⟨at', ar, ac⟩ := a
        obtain ⟨bt, br, bc⟩ := b
        simp only at *
        subst h4 h5
        rcases h6 with ⟨rfl, rfl⟩ | ⟨rfl, rfl⟩
        · exact Or.inl ⟨rfl, rfl⟩
        · exact Or.inr ⟨rfl, rfl⟩

/-- Diagonal neighbours of one time step are the two ends of exactly one data flip. -/
theorem sliceAdj_iff {key : Key} {dh dw T : Int} {a b : Node} :
    sliceAdj key dh dw T a b ↔ ∃ t r c, DataEdge key dh dw T t r c a b := by
  constructor
  · rintro ⟨t, h1, h2, h3, h4, h5⟩
    have pa := SN_pos h3
    have pb := SN_pos h4
    refine ⟨t, (a.r2 + b.r2) / 4, (a.c2 + b.c2) / 4, h1, h2, ?_⟩
    unfold Diag at h5
    unfold Touches
    simp only [Pos] at pa pb
    refine ⟨by omega, by omega, by omega, by omega, ?_, ⟨by omega, by omega, h3⟩, ⟨by omega, by omega, h4⟩⟩
    rintro rfl
    omega
  · rintro ⟨t, r, c, h1, h2, h3, h4, h5, h6, h7, ⟨h8, h9, h10⟩, ⟨h11, h12, h13⟩⟩
    refine ⟨t, h1, h2, h10, h13, ?_⟩
    have pa := SN_pos h10
    have pb := SN_pos h13
    have hne : a.r2 ≠ b.r2 ∨ a.c2 ≠ b.c2 := by
      by_contra hcon
      push Not at hcon
      apply h7
      have : a.t = b.t := by
        rcases h10 with ⟨h, h'⟩ | ⟨h, h'⟩
        · rcases h13 with ⟨g, g'⟩ | ⟨g, g'⟩
          · rw [h, g]
          · rw [hcon.1, hcon.2] at h'
            exact absurd g' (site_not_bdry h')
        · rcases h13 with ⟨g, g'⟩ | ⟨g, g'⟩
          · rw [hcon.1, hcon.2] at h'
            exact absurd h' (site_not_bdry g')
          · rw [h, g]
      obtain ⟨_, _, _⟩ := a
      obtain ⟨_, _, _⟩ := b
      simp only at *
      obtain ⟨rfl, rfl⟩ := hcon
      subst this
      rfl
    clear h10 h13 h7
    have hpar : (a.r2 + a.c2) % 4 = (b.r2 + b.c2) % 4 := pa.2.2.1.trans pb.2.2.1.symm
    clear pa pb
    unfold Diag
    rcases h8 with h8 | h8 <;> rcases h9 with h9 | h9 <;> rcases h11 with h11 | h11 <;> rcases h12 with h12 | h12 <;>
      rw [h8, h9, h11, h12] at hpar hne ⊢ <;> omega

end Qtc
