import Verif.Proof.SyndromeGraph
namespace Qtc
open Spec

/-! ### Counting the nodes of one time step -/

/-- All nodes of one time step, listed. -/
def sliceList (key : Key) (dh dw t : Int) : List Node :=
  (match key with
    | .X => (xSites dh dw).map fun p => (⟨t, p.1, p.2⟩ : Node)
    | .Z => (zSites dh dw).map fun p => (⟨t, p.1, p.2⟩ : Node)) ++ virtualNodes dh dw key

theorem mem_sliceList {key : Key} {dh dw t : Int} (H : OddPos dh dw) {n : Node} (h : SN key dh dw t n) :
    n ∈ sliceList key dh dw t := by
  unfold sliceList
  rw [List.mem_append]
  rcases h with ⟨h1, h2⟩ | h
  · left
    obtain ⟨t', r, c⟩ := n
    simp only at h1 h2
    subst h1
    cases key
    · exact List.mem_map.2 ⟨(r, c), mem_xSites.2 h2, rfl⟩
    · exact List.mem_map.2 ⟨(r, c), mem_zSites.2 h2, rfl⟩
  · right
    exact (mem_virtualNodes H).2 h

theorem length_flatMap_two {α β : Type} (f g : α → β) (l : List α) :
    (l.flatMap fun x => [f x, g x]).length = 2 * l.length := by
  induction l with
  | nil => rfl
  | cons a l ih => rw [List.flatMap_cons, List.length_append, ih]; simp; omega

theorem length_virtualNodes {key : Key} {dh dw : Int} (H : OddPos dh dw) :
    ((virtualNodes dh dw key).length : Int) = match key with | .X => dh + 1 | .Z => dw + 1 := by
  unfold OddPos at H
  cases key
  · simp only [virtualNodes, length_flatMap_two, pyRangeStep, List.length_map, List.length_range]
    rw [fdiv_pos_eq _ (by omega)]
    omega
  · simp only [virtualNodes, length_flatMap_two, pyRangeStep, List.length_map, List.length_range]
    rw [fdiv_pos_eq _ (by omega)]
    omega

theorem length_xSites {dh dw : Int} (H : OddPos dh dw) : ((xSites dh dw).length : Int) = (dh + 1) / 2 * (dw - 1) := by
  obtain ⟨h, w, hh, hw, rfl, rfl⟩ := oddPos_cases H
  rw [xSites_eq hw]
  simp only [pyRange, List.length_map, List.length_range, numSynX_odd]
  have e : (2 * h + 1 + 1) / 2 = h + 1 := by omega
  rw [e, Int.toNat_of_nonneg (Int.mul_nonneg (by omega) (by omega))]
  congr 1
  omega

theorem length_zSites {dh dw : Int} (H : OddPos dh dw) : ((zSites dh dw).length : Int) = (dw + 1) / 2 * (dh - 1) := by
  obtain ⟨h, w, hh, hw, rfl, rfl⟩ := oddPos_cases H
  rw [zSites_eq hw]
  simp only [pyRange, List.length_map, List.length_range, numSynZ_odd]
  have e : (2 * w + 1 + 1) / 2 = w + 1 := by omega
  rw [e, Int.toNat_of_nonneg (Int.mul_nonneg (by omega) (by omega))]
  congr 1
  omega

theorem length_sliceList {key : Key} {dh dw t : Int} (H : OddPos dh dw) :
    (sliceList key dh dw t).length = sliceSize dh dw := by
  have hv := length_virtualNodes (key := key) H
  have hx := length_xSites H
  have hz := length_zSites H
  obtain ⟨h, w, hh, hw, rfl, rfl⟩ := oddPos_cases H
  have e1 : (2 * h + 1 + 1) * (2 * w + 1 + 1) / 2 = 2 * ((h + 1) * (w + 1)) := by
    have : (2 * h + 1 + 1) * (2 * w + 1 + 1) = 2 * (2 * ((h + 1) * (w + 1))) := by
      have a : 2 * h + 1 + 1 = 2 * (h + 1) := by omega
      have b : 2 * w + 1 + 1 = 2 * (w + 1) := by omega
      rw [a, b, Int.mul_assoc, Int.mul_left_comm (h + 1) 2]
    rw [this]
    omega
  have e2 : (h + 1) * (2 * w + 1 - 1) + (2 * h + 2) = 2 * ((h + 1) * (w + 1)) := by
    have a : 2 * w + 1 - 1 = 2 * w := by omega
    rw [a, Int.mul_left_comm, Int.mul_add (h + 1) w 1]
    omega
  have e3 : (w + 1) * (2 * h + 1 - 1) + (2 * w + 2) = 2 * ((h + 1) * (w + 1)) := by
    have a : 2 * h + 1 - 1 = 2 * h := by omega
    rw [a, Int.mul_left_comm, Int.mul_comm (h+1) (w+1), Int.mul_add (w + 1) h 1]
    omega
  have d1 : (2 * h + 1 + 1) / 2 = h + 1 := by omega
  have d2 : (2 * w + 1 + 1) / 2 = w + 1 := by omega
  rw [d1] at hx
  rw [d2] at hz
  unfold sliceSize sliceList
  rw [e1]
  cases key
  · simp only [List.length_append, List.length_map] at *
    omega
  · simp only [List.length_append, List.length_map] at *
    omega

/-! ### Termination alone, without any geometry -/

theorem populate_ok {dh dw : Int} {key : Key} {t : Int} {U : List Node}
    (hU : ∀ u ∈ U, ∀ v ∈ nb dh dw key t u, v ∈ U) :
    ∀ (fuel : Nat) (cur : Node) (vis : List Node) (s : SGraph), s.WF → cur ∈ U → cur ∈ s.g.nodes →
      left U (vis ++ [cur]) < fuel →
      ∃ vis' s', populate dh dw key t fuel cur vis s = .ok (vis', s') ∧ s'.WF ∧ (∀ u ∈ vis ++ [cur], u ∈ vis') ∧
        (∀ n ∈ s.g.nodes, n ∈ s'.g.nodes) ∧ (∀ n ∈ s'.g.nodes, n ∈ s.g.nodes ∨ n ∈ U)
  | 0, _, _, _, _, _, _, h => by omega
  | fuel + 1, cur, vis, s, hs, hcur, hcn, hf => by
    obtain ⟨s1, e1, w1, n1, a1⟩ := linkAll_spec cur (pending dh dw key t (vis ++ [cur]) cur) hs hcn
    have loop : ∀ (P : List Node) (v : List Node) (s2 : SGraph), s2.WF →
        (∀ n ∈ P, n ∈ U ∧ n ∉ vis ++ [cur] ∧ n ∈ s2.g.nodes) → (∀ u ∈ vis ++ [cur], u ∈ v) →
        ∃ v' s3, P.foldlM (fun st n => populate dh dw key t fuel n st.1 st.2) (v, s2) = .ok (v', s3) ∧ s3.WF ∧
          (∀ u ∈ v, u ∈ v') ∧ (∀ n ∈ s2.g.nodes, n ∈ s3.g.nodes) ∧ (∀ n ∈ s3.g.nodes, n ∈ s2.g.nodes ∨ n ∈ U) := by
      intro P
      induction P with
      | nil =>
        intro v s2 h2 _ _
        exact ⟨v, s2, rfl, h2, fun u hu => hu, fun n hn => hn, fun n hn => Or.inl hn⟩
      | cons n P ih =>
        intro v s2 h2 hP hv
        have hn := hP n (by simp)
        have hlt : left U (v ++ [n]) < fuel := by
          have : left U (v ++ [n]) < left U (vis ++ [cur]) :=
            left_lt (fun u hu => List.mem_append_left _ (hv u hu)) hn.1 hn.2.1 (by simp)
          omega
        obtain ⟨v', s3, e3, w3, g3, k3, l3⟩ := populate_ok hU fuel n v s2 h2 hn.1 hn.2.2 hlt
        obtain ⟨v'', s4, e4, w4, g4, k4, l4⟩ := ih v' s3 w3
          (fun m hm => ⟨(hP m (List.mem_cons_of_mem _ hm)).1, (hP m (List.mem_cons_of_mem _ hm)).2.1,
            k3 m (hP m (List.mem_cons_of_mem _ hm)).2.2⟩)
          (fun u hu => g3 u (List.mem_append_left _ (hv u hu)))
        refine ⟨v'', s4, ?_, w4, fun u hu => g4 u (g3 u (List.mem_append_left _ hu)), fun m hm => k4 m (k3 m hm), ?_⟩
        · rw [List.foldlM_cons]
          show (do let st ← populate dh dw key t fuel n v s2; _) = _
          rw [e3]
          exact e4
        · intro m hm
          rcases l4 m hm with h | h
          · exact l3 m h
          · exact Or.inr h
    obtain ⟨v', s3, e3, w3, g3, k3, l3⟩ := loop (pending dh dw key t (vis ++ [cur]) cur) (vis ++ [cur]) s1 w1
      (by
        intro n hn
        have hn' := mem_pending.1 hn
        exact ⟨hU cur hcur n hn'.1, hn'.2, (n1 n).2 (Or.inr hn)⟩) (fun u hu => hu)
    refine ⟨v', s3, ?_, w3, g3, fun n hn => k3 n ((n1 n).2 (Or.inl hn)), ?_⟩
    · rw [populate, e1]
      exact e3
    · intro n hn
      rcases l3 n hn with h | h
      · rcases (n1 n).1 h with h | h
        · exact Or.inl h
        · exact Or.inr (hU cur hcur n (mem_pending.1 h).1)
      · exact Or.inr h

/-- Two graphs of boundary nodes and one phantom real node per time step. -/
def Short (key : Key) (dh dw : Int) : Prop :=
  OddPos dh dw ∧ match key with
    | .X => dw = 1
    | .Z => dh = 1

theorem long_or_short {key : Key} {dh dw : Int} (H : OddPos dh dw) : Long key dh dw ∨ Short key dh dw := by
  have h := H
  unfold OddPos at h
  unfold Long Short
  cases key
  · simp only [H, true_and]; omega
  · simp only [H, true_and]; omega

theorem short_no_site {key : Key} {dh dw r c : Int} (H : Short key dh dw) : ¬ Site key dh dw r c := by
  obtain ⟨H, h⟩ := H
  cases key
  · simp only [Site, XSite] at *; omega
  · simp only [Site, ZSite] at *; omega

theorem short_nb {key : Key} {dh dw t : Int} (H : Short key dh dw) {u v : Node} (hv : v ∈ nb dh dw key t u) :
    v ∈ virtualNodes dh dw key := by
  unfold nb pending at hv
  simp only [List.mem_append, List.mem_map, List.mem_filter, List.not_mem_nil, not_false_eq_true, and_true,
    Bool.and_eq_true, Bool.not_eq_true', List.contains_eq_mem, decide_eq_true_eq, decide_eq_false_iff_not] at hv
  rcases hv with ⟨p, ⟨_, h⟩, _⟩ | ⟨p, ⟨_, h⟩, rfl⟩
  · exfalso
    obtain ⟨H, h'⟩ := H
    cases key
    · simp only [validSyndrome, Bool.and_eq_true, decide_eq_true_eq] at *; omega
    · simp only [validSyndrome, Bool.and_eq_true, decide_eq_true_eq] at *; omega
  · exact h

theorem short_timeSlice {key : Key} {dh dw : Int} (H : Short key dh dw) {limit : Nat} (hlim : sliceSize dh dw < limit)
    {t : Int} {s : SGraph} (hs : s.WF) (hnew : startNode key t ∉ s.g.nodes) :
    ∃ s', timeSlice dh dw key limit s t = .ok s' ∧ s'.WF ∧ startNode key t ∈ s'.g.nodes ∧
      (∀ n ∈ s.g.nodes, n ∈ s'.g.nodes) ∧
      (∀ n ∈ s'.g.nodes, n ∈ s.g.nodes ∨ n = startNode key t ∨ n ∈ virtualNodes dh dw key) := by
  have hlen : (virtualNodes dh dw key).length ≤ sliceSize dh dw := by
    rw [← length_sliceList (key := key) (t := 0) H.1]
    unfold sliceList
    rw [List.length_append]
    omega
  obtain ⟨vis, s', e, w, _, g, l⟩ := populate_ok (U := startNode key t :: virtualNodes dh dw key)
    (fun u hu v hv => List.mem_cons_of_mem _ (short_nb H hv)) limit (startNode key t) [] (s.addNode (startNode key t))
    (SGraph.addNode_WF hs hnew) (by simp) (SGraph.addNode_nodes.2 (Or.inr rfl)) (by
      have := left_le_length (startNode key t :: virtualNodes dh dw key) ([] ++ [startNode key t])
      simp only [List.length_cons] at this
      have h2 : left (startNode key t :: virtualNodes dh dw key) ([] ++ [startNode key t]) <
          left (startNode key t :: virtualNodes dh dw key) [] := left_lt (by simp) (by simp) (x := startNode key t) (by simp) (by simp)
      have h3 := left_le_length (startNode key t :: virtualNodes dh dw key) []
      simp only [List.length_cons] at h3
      omega)
  refine ⟨s', ?_, w, g _ (SGraph.addNode_nodes.2 (Or.inr rfl)), fun n hn => g n (SGraph.addNode_nodes.2 (Or.inl hn)), ?_⟩
  · unfold timeSlice
    rw [e]
    rfl
  · intro n hn
    rcases l n hn with h | h
    · rcases SGraph.addNode_nodes.1 h with h | h
      · exact Or.inl h
      · exact Or.inr (Or.inl h)
    · exact Or.inr (List.mem_cons.1 h)

theorem virtualNodes_t {key : Key} {dh dw : Int} {n : Node} (h : n ∈ virtualNodes dh dw key) : n.t = -1 := by
  cases key
  · simp only [virtualNodes, List.mem_flatMap, List.mem_cons, List.not_mem_nil, or_false] at h
    obtain ⟨_, _, rfl | rfl⟩ := h <;> rfl
  · simp only [virtualNodes, List.mem_flatMap, List.mem_cons, List.not_mem_nil, or_false] at h
    obtain ⟨_, _, rfl | rfl⟩ := h <;> rfl

theorem startNode_t (key : Key) (t : Int) : (startNode key t).t = t := by cases key <;> rfl

theorem short_slices {key : Key} {dh dw : Int} (H : Short key dh dw) {limit : Nat} (hlim : sliceSize dh dw < limit) :
    ∀ k : Nat, ∃ s, ((List.range k).map Int.ofNat).foldlM (timeSlice dh dw key limit) {} = .ok s ∧ s.WF ∧
      (∀ t : Int, 0 ≤ t → t < (k : Int) → startNode key t ∈ s.g.nodes) ∧
      (∀ n ∈ s.g.nodes, (∃ t : Int, 0 ≤ t ∧ t < (k : Int) ∧ n = startNode key t) ∨ n ∈ virtualNodes dh dw key)
  | 0 => ⟨{}, rfl, emptyGraph_WF, by intro t h1 h2; omega, by intro n hn; cases hn⟩
  | k + 1 => by
    obtain ⟨s, e, wf, h1, h2⟩ := short_slices H hlim k
    obtain ⟨s', e', wf', h3, h4, h5⟩ := short_timeSlice H hlim (t := (k : Int)) wf (by
      intro hn
      rcases h2 _ hn with ⟨t, h6, h7, h8⟩ | h
      · have := congrArg Node.t h8
        rw [startNode_t, startNode_t] at this
        omega
      · have := virtualNodes_t h
        rw [startNode_t] at this
        omega)
    refine ⟨s', ?_, wf', ?_, ?_⟩
    · rw [List.range_succ, List.map_append, List.foldlM_append, e]
      show (List.foldlM (timeSlice dh dw key limit) s [Int.ofNat k]) = _
      rw [List.foldlM_cons]
      show (do let x ← timeSlice dh dw key limit s (k : Int); _) = _
      rw [e']
      rfl
    · intro t ha hb
      push_cast at hb
      by_cases htk : t = k
      · rw [htk]; exact h3
      · exact h4 _ (h1 t ha (by omega))
    · intro n hn
      rcases h5 n hn with h | h | h
      · rcases h2 n h with ⟨t, ha, hb, hc⟩ | h
        · exact Or.inl ⟨t, ha, by push_cast; omega, hc⟩
        · exact Or.inr h
      · exact Or.inl ⟨k, by omega, by push_cast; omega, h⟩
      · exact Or.inr h

/-- The unused graph of a one-dimensional lattice: it can be built, and its real nodes are the phantom start nodes. -/
theorem short_graph {key : Key} {dh dw T : Int} (H : Short key dh dw) {limit : Nat} (hlim : sliceSize dh dw < limit) :
    ∃ s, makeSyndromeGraph dh dw T limit key = .ok s ∧ s.WF ∧
      (∀ n, n.t ≠ -1 → (n ∈ s.g.nodes ↔ ∃ t : Int, 0 ≤ t ∧ t < T ∧ n = startNode key t)) := by
  obtain ⟨s, e, wf, h1, h2⟩ := short_slices H hlim T.toNat
  obtain ⟨s', e', wf', hnn, _⟩ := timeEdges_all (T := T) (s.g.nodes.filter fun n => n.t == 0) wf (by
    intro n hm t ha hb
    rw [List.mem_filter] at hm
    obtain ⟨hm, h0⟩ := hm
    simp only [beq_iff_eq] at h0
    rcases h2 n hm with ⟨t', hc, hd, rfl⟩ | h
    · have : (⟨t, (startNode key t').r2, (startNode key t').c2⟩ : Node) = startNode key t := by cases key <;> rfl
      rw [this]
      exact h1 t ha (by omega)
    · have := virtualNodes_t h
      omega)
  refine ⟨s', ?_, wf', ?_⟩
  · unfold makeSyndromeGraph pyRange
    rw [e]
    exact e'
  · intro n hn
    rw [hnn]
    constructor
    · intro hm
      rcases h2 n hm with ⟨t, ha, hb, hc⟩ | h
      · exact ⟨t, ha, by omega, hc⟩
      · exact absurd (virtualNodes_t h) hn
    · rintro ⟨t, ha, hb, rfl⟩
      exact h1 t ha (by omega)

/-! ### More recursion depth does not change the result -/

theorem foldlM_mono {α σ : Type} {f g : σ → α → Py σ} (h : ∀ s a r, f s a = .ok r → g s a = .ok r) :
    ∀ (l : List α) (s r : σ), l.foldlM f s = .ok r → l.foldlM g s = .ok r
  | [], s, r, e => e
  | a :: l, s, r, e => by
    rw [List.foldlM_cons] at e ⊢
    cases hf : f s a with
    | error err => rw [hf] at e; cases e
    | ok s' =>
      rw [hf] at e
      rw [h s a s' hf]
      exact foldlM_mono h l s' r e

theorem populate_mono {dh dw : Int} {key : Key} {t : Int} : ∀ (fuel fuel' : Nat), fuel ≤ fuel' →
    ∀ (cur : Node) (vis : List Node) (s : SGraph) (r : List Node × SGraph),
    populate dh dw key t fuel cur vis s = .ok r → populate dh dw key t fuel' cur vis s = .ok r
  | 0, _, _, _, _, _, _, e => by cases e
  | fuel + 1, fuel', hle, cur, vis, s, r, e => by
    obtain ⟨fuel'', rfl⟩ : ∃ k, fuel' = k + 1 := ⟨fuel' - 1, by omega⟩
    rw [populate] at e ⊢
    cases hl : (pending dh dw key t (vis ++ [cur]) cur).foldlM (linkNbr cur) s with
    | error err => rw [hl] at e; cases e
    | ok s' =>
      rw [hl] at e
      exact foldlM_mono (fun st n r' h => populate_mono fuel fuel'' (by omega) n st.1 st.2 r' h) _ _ _ e

theorem makeSyndromeGraph_mono {dh dw T : Int} {key : Key} {l l' : Nat} (hle : l ≤ l') {s : SGraph}
    (e : makeSyndromeGraph dh dw T l key = .ok s) : makeSyndromeGraph dh dw T l' key = .ok s := by
  unfold makeSyndromeGraph at e ⊢
  cases hl : (pyRange T).foldlM (timeSlice dh dw key l) {} with
  | error err => rw [hl] at e; cases e
  | ok s' =>
    rw [hl] at e
    rw [foldlM_mono (g := timeSlice dh dw key l') ?_ _ _ _ hl]
    · exact e
    · intro s0 t r h
      unfold timeSlice at h ⊢
      cases hp : populate dh dw key t l (startNode key t) [] (s0.addNode (startNode key t)) with
      | error err => rw [hp] at h; cases h
      | ok q =>
        rw [hp] at h
        rw [populate_mono l l' hle _ _ _ _ hp]
        exact h

/-! ### A long line exceeds the recursion limit -/

/-- The `k`-th stabilizer of a bit-flip repetition code. -/
def lineNode (t : Int) (k : Nat) : Node := ⟨t, 2 * k + 1, if k % 2 = 0 then 1 else -1⟩

theorem lineNode_SN {dh t : Int} {k : Nat} (hk : (k : Int) + 2 ≤ dh) : SN .Z dh 1 t (lineNode t k) := by
  refine Or.inl ⟨rfl, ?_⟩
  simp only [lineNode, Site, ZSite]
  split <;> omega

theorem line_pending {dh t : Int} (H : OddPos dh 1) {k : Nat} (hk : (k : Int) + 3 ≤ dh) {vis : List Node} (ht : 0 ≤ t)
    (hprev : ∀ j, j + 1 = k → lineNode t j ∈ vis) (hnext : lineNode t (k + 1) ∉ vis) :
    ∃ P, pending dh 1 .Z t vis (lineNode t k) = lineNode t (k + 1) :: P := by
  have hall : ∀ v ∈ pending dh 1 .Z t vis (lineNode t k), v.t ≠ -1 → v = lineNode t (k + 1) := by
    intro v hv hvt
    obtain ⟨h1, h2⟩ := mem_pending.1 hv
    obtain ⟨h3, h4⟩ := (mem_nb H (lineNode_SN (by omega))).1 h1
    rcases h3 with ⟨h5, h6⟩ | ⟨h5, h6⟩
    · obtain ⟨tv, rv, cv⟩ := v
      simp only [lineNode, Diag, Site, ZSite] at *
      subst h5
      by_cases hr : rv = 2 * (k : Int) + 1 + 2
      · subst hr
        simp only [Node.mk.injEq, true_and]
        constructor
        · push_cast; omega
        · split at h4 <;> split <;> omega
      · exfalso
        have hk0 : 0 < k := by omega
        apply h2
        have := hprev (k - 1) (by omega)
        have e : (⟨tv, 2 * ((k - 1 : Nat) : Int) + 1, if (k - 1) % 2 = 0 then 1 else -1⟩ : Node) = ⟨tv, rv, cv⟩ := by
          simp only [Node.mk.injEq, true_and]
          constructor
          · omega
          · split at h4 <;> split <;> omega
        rw [← e]
        exact this
    · exact absurd h5 hvt
  have hmem : lineNode t (k + 1) ∈ pending dh 1 .Z t vis (lineNode t k) := by
    refine mem_pending.2 ⟨(mem_nb H (lineNode_SN (by omega))).2 ⟨lineNode_SN (by push_cast; omega), ?_⟩, hnext⟩
    simp only [Diag, lineNode]
    constructor
    · push_cast; omega
    · split <;> split <;> omega
  -- real neighbours come first
  unfold pending at hall hmem ⊢
  generalize hA : (List.map (fun n : Int × Int => (⟨t, n.1, n.2⟩ : Node)) _) = A at *
  generalize hB : (List.map (fun n : Int × Int => (⟨-1, n.1, n.2⟩ : Node)) _) = B at *
  have hmA : lineNode t (k + 1) ∈ A := by
    rcases List.mem_append.1 hmem with h | h
    · exact h
    · rw [← hB, List.mem_map] at h
      obtain ⟨p, _, h⟩ := h
      have := congrArg Node.t h
      simp only [lineNode] at this
      omega
  cases A with
  | nil => cases hmA
  | cons a A =>
    have ha : a = lineNode t (k + 1) := by
      apply hall a (by simp)
      have : a ∈ a :: A := by simp
      rw [← hA, List.mem_map] at this
      obtain ⟨p, _, h⟩ := this
      rw [← h]
      simp only
      omega
    exact ⟨A ++ B, by rw [ha]; rfl⟩

theorem line_overflow {dh t : Int} (H : OddPos dh 1) (ht : 0 ≤ t) : ∀ (fuel k : Nat) (vis : List Node) (s : SGraph),
    s.WF → lineNode t k ∈ s.g.nodes → (∀ j, j + 1 = k → lineNode t j ∈ vis) → (∀ n ∈ vis, n.r2 ≤ 2 * k) →
    (k : Int) + fuel + 2 ≤ dh →
    populate dh 1 .Z t fuel (lineNode t k) vis s = .error .recursionError
  | 0, _, _, _, _, _, _, _, _ => rfl
  | fuel + 1, k, vis, s, hs, hk, hprev, hvis, hle => by
    obtain ⟨P, hP⟩ := line_pending H (t := t) (k := k) (vis := vis ++ [lineNode t k]) (by omega) ht
      (fun j hj => List.mem_append_left _ (hprev j hj)) (by
        intro hmem
        rcases List.mem_append.1 hmem with h | h
        · have := hvis _ h
          simp only [lineNode] at this
          push_cast at this
          omega
        · rw [List.mem_singleton] at h
          have := congrArg Node.r2 h
          simp only [lineNode] at this
          push_cast at this
          omega)
    obtain ⟨s1, e1, w1, n1, _⟩ := linkAll_spec (lineNode t k) (pending dh 1 .Z t (vis ++ [lineNode t k]) (lineNode t k)) hs hk
    rw [populate, e1]
    show List.foldlM _ _ _ = _
    have hm1 : lineNode t (k + 1) ∈ s1.g.nodes := (n1 _).2 (Or.inr (by rw [hP]; simp))
    rw [hP, List.foldlM_cons]
    show (do let st ← populate dh 1 .Z t fuel (lineNode t (k + 1)) (vis ++ [lineNode t k]) s1; _) = _
    rw [line_overflow H ht fuel (k + 1) (vis ++ [lineNode t k]) s1 w1 hm1
      (by
        intro j hj
        obtain rfl : j = k := by omega
        simp)
      (by
        intro n hn
        rcases List.mem_append.1 hn with h | h
        · have := hvis n h; push_cast; omega
        · rw [List.mem_singleton.1 h]; simp only [lineNode]; push_cast; omega)
      (by push_cast at hle ⊢; omega)]
    rfl

end Qtc
