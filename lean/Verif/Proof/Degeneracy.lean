import Verif.Proof.CorrectHits
/-!
Counting shortest paths: `_path_degeneracy` and its cache.
-/
namespace Qtc
open Spec

/-! ### Walks by index are paths by payload -/

/-- All walks of `n` steps, as lists of steps. -/
def walkList {W : Type} (g : RxGraph W) : Nat → Nat → Nat → List (List (Node × Node))
  | 0, i, j => if i = j then [[]] else []
  | n + 1, i, j => (List.range g.nodes.length).flatMap fun k =>
    if g.linked i k then (walkList g n k j).map fun es => (g.nodes.getD i extraNode, g.nodes.getD k extraNode) :: es else []

theorem length_walkList {W : Type} (g : RxGraph W) : ∀ (n i j : Nat), (walkList g n i j).length = g.countWalks n i j
  | 0, i, j => by
    unfold walkList RxGraph.countWalks
    split <;> rfl
  | n + 1, i, j => by
    unfold walkList RxGraph.countWalks
    rw [List.length_flatMap]
    congr 1
    refine List.map_congr_left fun k _ => ?_
    split
    · rw [List.length_map, length_walkList g n k j]
    · rfl

theorem getD_some {l : List Node} {i : Nat} {a d : Node} (h : l[i]? = some a) : l.getD i d = a := by
  rw [List.getD_eq_getElem?_getD, h]; rfl

theorem mem_walkList {W : Type} {g : RxGraph W} (hw : g.WF) : ∀ (n : Nat) {i j : Nat} {a b : Node} {es : List (Node × Node)},
    g.nodes[i]? = some a → g.nodes[j]? = some b → (es ∈ walkList g n i j ↔ Path g.Adj a b es ∧ es.length = n)
  | 0, i, j, a, b, es, ha, hb => by
    unfold walkList
    constructor
    · intro h
      split at h
      · rename_i hij
        rw [List.mem_singleton] at h
        subst h hij
        rw [ha] at hb
        cases hb
        exact ⟨Path.nil a, rfl⟩
      · cases h
    · rintro ⟨h, hl⟩
      rw [List.length_eq_zero_iff] at hl
      subst hl
      cases h
      rw [if_pos (getElem?_inj_of_nodup hw.nodup ha hb)]
      exact List.mem_singleton.2 rfl
  | n + 1, i, j, a, b, es, ha, hb => by
    unfold walkList
    rw [List.mem_flatMap]
    constructor
    · rintro ⟨k, hk, h⟩
      rw [List.mem_range] at hk
      split at h
      · rename_i hl
        obtain ⟨es', h1, rfl⟩ := List.mem_map.1 h
        have hkn := List.getElem?_eq_getElem hk
        obtain ⟨h2, h3⟩ := (mem_walkList hw n hkn hb).1 h1
        rw [getD_some ha, getD_some hkn]
        exact ⟨Path.cons ((linked_adj hw ha hkn).1 hl) h2, by simp [h3]⟩
      · cases h
    · rintro ⟨h, hl⟩
      cases h with
      | nil => simp at hl
      | @cons _ c _ es h1 h2 =>
        obtain ⟨i', k, w, hi', hk, hw'⟩ := h1
        have := getElem?_inj_of_nodup hw.nodup ha hi'
        subst this
        refine ⟨k, List.mem_range.2 (List.getElem?_eq_some_iff.1 hk).1, ?_⟩
        rw [if_pos (linked_iff.2 ⟨w, hw'⟩), List.mem_map]
        refine ⟨es, (mem_walkList hw n hk hb).2 ⟨h2, ?_⟩, ?_⟩
        · simpa using hl
        · rw [getD_some ha, getD_some hk]

theorem walkList_nodup {W : Type} {g : RxGraph W} (hw : g.WF) : ∀ (n i j : Nat), (walkList g n i j).Nodup
  | 0, i, j => by
    unfold walkList
    split <;> simp
  | n + 1, i, j => by
    unfold walkList
    rw [List.nodup_flatMap]
    constructor
    · intro k _
      split
      · exact (walkList_nodup hw n k j).map (by intro a b h; simpa using h)
      · exact List.nodup_nil
    · refine List.nodup_range.imp_of_mem ?_
      intro k k' hk hk' hne
      rw [List.mem_range] at hk hk'
      simp only [Function.onFun, List.disjoint_left]
      intro es h1 h2
      split at h1
      · split at h2
        · obtain ⟨e1, _, rfl⟩ := List.mem_map.1 h1
          obtain ⟨e2, _, he⟩ := List.mem_map.1 h2
          have hkn := List.getElem?_eq_getElem hk
          have hkn' := List.getElem?_eq_getElem hk'
          rw [getD_some hkn, getD_some hkn', List.cons.injEq, Prod.mk.injEq] at he
          rw [he.1.2] at hkn'
          exact hne (getElem?_inj_of_nodup hw.nodup hkn hkn')
        · cases h2
      · cases h1

theorem countPaths_eq {W : Type} {g : RxGraph W} (hw : g.WF) (n : Nat) {i j : Nat} {a b : Node} (ha : g.nodes[i]? = some a)
    (hb : g.nodes[j]? = some b) : g.countWalks n i j = countPaths g.Adj n a b := by
  classical
  unfold countPaths
  have : {es | Path g.Adj a b es ∧ es.length = n} = ((walkList g n i j).toFinset : Set (List (Node × Node))) := by
    ext es
    rw [Set.mem_ofPred_eq, List.coe_toFinset, Set.mem_ofPred_eq, mem_walkList hw n ha hb]
  rw [this, Set.ncard_coe_finset, List.toFinset_card_of_nodup (walkList_nodup hw n i j), length_walkList]

/-- A path read backwards. -/
def backwards (es : List (Node × Node)) : List (Node × Node) := (es.map fun e => (e.2, e.1)).reverse

theorem backwards_path {adj : Node → Node → Prop} (hs : ∀ a b, adj a b → adj b a) {a b : Node} {es : List (Node × Node)}
    (h : Path adj a b es) : Path adj b a (backwards es) := by
  induction h with
  | nil a => exact Path.nil a
  | @cons a b c es h1 _ ih =>
    unfold backwards
    rw [List.map_cons, List.reverse_cons]
    exact Path.append ih (Path.cons (hs _ _ h1) (Path.nil _))

theorem backwards_backwards (es : List (Node × Node)) : backwards (backwards es) = es := by
  unfold backwards
  rw [List.map_reverse, List.reverse_reverse, List.map_map]
  exact List.map_id'' (fun _ => rfl) es

theorem countPaths_symm {adj : Node → Node → Prop} (hs : ∀ a b, adj a b → adj b a) (n : Nat) (a b : Node) :
    countPaths adj n a b = countPaths adj n b a := by
  unfold countPaths
  refine Set.ncard_congr (fun es _ => backwards es) ?_ ?_ ?_
  · rintro es ⟨h1, h2⟩
    exact ⟨backwards_path hs h1, by simp [backwards, h2]⟩
  · intro e1 e2 _ _ h
    have := congrArg backwards h
    rwa [backwards_backwards, backwards_backwards] at this
  · rintro es ⟨h1, h2⟩
    exact ⟨backwards es, ⟨backwards_path hs h1, by simp [backwards, h2]⟩, backwards_backwards es⟩

theorem numShortest_symm {adj : Node → Node → Prop} (hs : ∀ a b, adj a b → adj b a) (a b : Node) :
    numShortest adj a b = numShortest adj b a := by
  unfold numShortest
  rw [pdist_symm hs a b, countPaths_symm hs]

/-- Number of shortest paths as the library reports it. -/
theorem Ready.paths {D : Decoder} {key : Key} {s : SGraph} (R : Ready D key s) {a b : Node} {i j : Nat}
    (ha : s.g.nodes[i]? = some a) (hb : s.g.nodes[j]? = some b) :
    s.g.numShortestPaths i j = if a = b then none else some (numShortest (GAdj key D.dh D.dw D.T) a b) := by
  unfold RxGraph.numShortestPaths
  by_cases h : a = b
  · subst h
    rw [if_pos (getElem?_inj_of_nodup R.wf.nodup ha hb), if_pos rfl]
  · have hij : i ≠ j := by
      rintro rfl
      rw [ha] at hb
      exact h (Option.some.inj hb)
    rw [if_neg hij, if_neg h]
    have hga := R.mem.1 (List.mem_of_getElem? ha)
    have hgb := R.mem.1 (List.mem_of_getElem? hb)
    have hf : s.g.floydWarshall i j = some (pdist s.g.Adj a b) :=
      floydWarshall_spec R.wf.toWF (by rw [R.adj]; exact gnode_connected R.long R.pos hga hgb) ha hb
    rw [hf]
    simp only
    rw [countPaths_eq R.wf.toWF _ ha hb, R.adj]
    rfl

theorem numShortest_pos {D : Decoder} {key : Key} {s : SGraph} (R : Ready D key s) {a b : Node}
    (ha : GNode key D.dh D.dw D.T a) (hb : GNode key D.dh D.dw D.T b) : 0 < numShortest (GAdj key D.dh D.dw D.T) a b := by
  obtain ⟨i, j, _, _, hi, hj, _⟩ := R.dist ha hb
  obtain ⟨⟨es, h1, h2⟩, _⟩ := pdist_spec (gnode_connected R.long R.pos ha hb)
  have h := countPaths_eq R.wf.toWF (pdist (GAdj key D.dh D.dw D.T) a b) hi hj
  rw [R.adj] at h
  unfold numShortest
  rw [← h, ← length_walkList]
  refine List.length_pos_of_mem (a := es) ?_
  rw [mem_walkList R.wf.toWF _ hi hj, R.adj]
  exact ⟨h1, h2⟩

/-! ### The cache -/

/-- Every dictionary in the cache is the one the library would return. -/
def CacheOk (s : SGraph) (c : Cache) : Prop := ∀ k d, c k = some d → d = s.g.numShortestPaths k

theorem cacheOk_empty (s : SGraph) : CacheOk s fun _ => none := by
  intro k d h
  cases h

theorem degHelper_ok {s : SGraph} {c : Cache} (hc : CacheOk s c) {a b : Nat} {r : Nat × Cache}
    (h : degHelper s.g a b c = .ok r) : CacheOk s r.2 := by
  unfold degHelper at h
  split at h
  · obtain ⟨_, _, h⟩ := except_bind_ok h; cases h; exact hc
  · split at h
    · obtain ⟨_, _, h⟩ := except_bind_ok h; cases h; exact hc
    · obtain ⟨_, _, h⟩ := except_bind_ok h
      cases h
      intro k d hk
      simp only at hk
      split at hk
      · rename_i e
        rw [e]
        exact (Option.some.inj hk).symm
      · exact hc k d hk

theorem foldlM_inv {α β : Type} {P : β → Prop} {f : β → α → Py β} (hf : ∀ x b b', P b → f b x = .ok b' → P b') :
    ∀ (l : List α) (b b' : β), P b → l.foldlM f b = .ok b' → P b'
  | [], b, b', h, e => by cases e; exact h
  | x :: l, b, b', h, e => by
    rw [List.foldlM_cons] at e
    obtain ⟨b1, h1, h2⟩ := except_bind_ok e
    exact foldlM_inv hf l b1 b' (hf x b b1 h h1) h2

theorem pathDegeneracy_ok {s : SGraph} {virt : List Node} {c : Cache} (hc : CacheOk s c) {a b : Node} {r : Nat × Cache}
    (h : pathDegeneracy s virt a b c = .ok r) : CacheOk s r.2 := by
  unfold pathDegeneracy at h
  obtain ⟨ia, _, h⟩ := except_bind_ok h
  obtain ⟨ib, _, h⟩ := except_bind_ok h
  unfold pathDegeneracyIdx at h
  split at h
  · split at h
    · refine foldlM_inv (P := fun st : Nat × Cache => CacheOk s st.2) ?_ _ _ _ hc h
      intro n st st' hst h1
      unfold degLoop at h1
      obtain ⟨i, _, h1⟩ := except_bind_ok h1
      split at h1
      · obtain ⟨q, h2, h3⟩ := except_bind_ok h1
        cases h3
        have := degHelper_ok hst h2
        exact this
      · cases h1
        exact hst
    · exact degHelper_ok hc h
  · exact degHelper_ok hc h

/-- The helper returns the number of shortest paths, whatever is cached. -/
theorem degHelper_val {D : Decoder} {key : Key} {s : SGraph} (R : Ready D key s) {c : Cache} (hc : CacheOk s c) {a b : Node}
    {i j : Nat} (ha : s.g.nodes[i]? = some a) (hb : s.g.nodes[j]? = some b) :
    if a = b then degHelper s.g i j c = .error .keyError
    else ∃ c', degHelper s.g i j c = .ok (numShortest (GAdj key D.dh D.dw D.T) a b, c') ∧ CacheOk s c' := by
  have h1 := R.paths ha hb
  have h2 := R.paths hb ha
  by_cases hab : a = b
  · rw [if_pos hab] at h1 ⊢
    rw [if_pos hab.symm] at h2
    unfold degHelper dictGet
    cases hca : c i with
    | some d => simp only [hc i d hca, h1, bind, Except.bind]
    | none =>
      simp only
      cases hcb : c j with
      | some d => simp only [hc j d hcb, h2, bind, Except.bind]
      | none => simp only [h1, bind, Except.bind]
  · rw [if_neg hab] at h1 ⊢
    rw [if_neg (Ne.symm hab), numShortest_symm (fun _ _ h => GAdj.symm h)] at h2
    have key : ∃ c', degHelper s.g i j c = .ok (numShortest (GAdj key D.dh D.dw D.T) a b, c') := by
      unfold degHelper dictGet
      cases hca : c i with
      | some d => simp only [hc i d hca, h1, bind, Except.bind, pure, Except.pure]; exact ⟨_, rfl⟩
      | none =>
        simp only
        cases hcb : c j with
        | some d => simp only [hc j d hcb, h2, bind, Except.bind, pure, Except.pure]; exact ⟨_, rfl⟩
        | none => simp only [h1, bind, Except.bind, pure, Except.pure]; exact ⟨_, rfl⟩
    obtain ⟨c', hk⟩ := key
    exact ⟨c', hk, degHelper_ok hc hk⟩

/-- Sum over boundary nodes as far away as `b`. -/
noncomputable def boundaryPaths (key : Key) (dh dw T : Int) (virt : List Node) (a b : Node) : Nat :=
  open Classical in
  ((virt.filter fun v => decide (pdist (GAdj key dh dw T) a v = pdist (GAdj key dh dw T) a b)).map
    (numShortest (GAdj key dh dw T) a)).sum

theorem degLoop_val {D : Decoder} {key : Key} {s : SGraph} (R : Ready D key s) {a b : Node} {i j : Nat}
    (ha : s.g.nodes[i]? = some a) (hb : s.g.nodes[j]? = some b) (hreal : a.t ≠ -1) : ∀ (virt : List Node) (n : Nat) (c : Cache),
    (∀ v ∈ virt, v ∈ virtualNodes D.dh D.dw key) → CacheOk s c →
    ∃ c', virt.foldlM (degLoop s i j) (n, c) = .ok (n + boundaryPaths key D.dh D.dw D.T virt a b, c') ∧ CacheOk s c'
  | [], n, c, _, hc => ⟨c, by simp [boundaryPaths]; rfl, hc⟩
  | v :: virt, n, c, hv, hc => by
    have ih := degLoop_val R ha hb hreal virt
    have hga := R.mem.1 (List.mem_of_getElem? ha)
    have hgb := R.mem.1 (List.mem_of_getElem? hb)
    have hvv := hv v List.mem_cons_self
    have hgv : GNode key D.dh D.dw D.T v := virt_gnode R.odd hvv
    obtain ⟨i', k, hi', hk, hin, hkn, hd⟩ := R.dist hga hgv
    have e1 := getElem?_inj_of_nodup R.wf.nodup hin ha
    subst e1
    obtain ⟨i'', j', _, _, hin', hjn', hd'⟩ := R.dist hga hgb
    have e2 := getElem?_inj_of_nodup R.wf.nodup hin' ha
    have e3 := getElem?_inj_of_nodup R.wf.nodup hjn' hb
    subst e2 e3
    rw [List.foldlM_cons]
    have hstep : ∃ c', degLoop s i'' j' (n, c) v = .ok (n + boundaryPaths key D.dh D.dw D.T [v] a b, c') ∧ CacheOk s c' := by
      unfold degLoop
      simp only [hk, bind, Except.bind, hd, hd', Option.some.injEq]
      by_cases hq : pdist (GAdj key D.dh D.dw D.T) a v = pdist (GAdj key D.dh D.dw D.T) a b
      · rw [if_pos hq]
        have hne : a ≠ v := by
          rintro rfl
          exact hreal (virtualNodes_t hvv)
        have := degHelper_val R hc ha hkn
        rw [if_neg hne] at this
        obtain ⟨c', h1, h2⟩ := this
        refine ⟨c', ?_, h2⟩
        simp [h1, boundaryPaths, hq, pure, Except.pure]
      · rw [if_neg hq]
        exact ⟨c, by simp [boundaryPaths, hq, pure, Except.pure], hc⟩
    obtain ⟨c', h1, h2⟩ := hstep
    obtain ⟨c'', h3, h4⟩ := ih (n + boundaryPaths key D.dh D.dw D.T [v] a b) c' (fun w hw => hv w (List.mem_cons_of_mem _ hw)) h2
    refine ⟨c'', ?_, h4⟩
    simp only [h1, bind, Except.bind]
    have : n + boundaryPaths key D.dh D.dw D.T [v] a b + boundaryPaths key D.dh D.dw D.T virt a b =
        n + boundaryPaths key D.dh D.dw D.T (v :: virt) a b := by
      rw [Nat.add_assoc]
      congr 1
      unfold boundaryPaths
      rw [← List.sum_append, ← List.map_append, ← List.filter_append]
      rfl
    rw [← this]
    exact h3

/-- What `_path_degeneracy` computes for two nodes that are not both on the boundary. -/
noncomputable def degValue (key : Key) (dh dw T : Int) (first : Node) (a b : Node) : Nat :=
  if a.t = -1 then (if b = first then numShortest (GAdj key dh dw T) a b else boundaryPaths key dh dw T (virtualNodes dh dw key) b a)
  else if b.t = -1 then (if a = first then numShortest (GAdj key dh dw T) a b else boundaryPaths key dh dw T (virtualNodes dh dw key) a b)
  else numShortest (GAdj key dh dw T) a b

theorem degValue_symm {key : Key} {dh dw T : Int} {first a b : Node} (h : ¬ (a.t = -1 ∧ b.t = -1)) :
    degValue key dh dw T first a b = degValue key dh dw T first b a := by
  unfold degValue
  by_cases h1 : a.t = -1
  · have h2 : b.t ≠ -1 := fun h2 => h ⟨h1, h2⟩
    rw [if_pos h1, if_neg h2, if_pos h1, numShortest_symm (fun _ _ h => GAdj.symm h)]
  · rw [if_neg h1, if_neg h1]
    by_cases h2 : b.t = -1
    · rw [if_pos h2, if_pos h2, numShortest_symm (fun _ _ h => GAdj.symm h)]
    · rw [if_neg h2, if_neg h2, numShortest_symm (fun _ _ h => GAdj.symm h)]

theorem pathDegeneracy_val {D : Decoder} {key : Key} {s : SGraph} (R : Ready D key s) {first : Node}
    (hfirst : s.g.nodes[0]? = some first) {c : Cache} (hc : CacheOk s c) {a b : Node}
    (ha : GNode key D.dh D.dw D.T a) (hb : GNode key D.dh D.dw D.T b) (h : ¬ (a.t = -1 ∧ b.t = -1)) :
    if a = b then pathDegeneracy s (virtualNodes D.dh D.dw key) a b c = .error .keyError
    else ∃ c', pathDegeneracy s (virtualNodes D.dh D.dw key) a b c = .ok (degValue key D.dh D.dw D.T first a b, c') ∧ CacheOk s c' := by
  obtain ⟨i, j, hi, hj, hin, hjn, _⟩ := R.dist ha hb
  unfold pathDegeneracy pathDegeneracyIdx
  simp only [hi, hj, bind, Except.bind]
  have hz : ∀ {k : Nat} {n : Node}, s.g.nodes[k]? = some n → (k = 0 ↔ n = first) := by
    intro k n hk
    constructor
    · rintro rfl
      rw [hfirst] at hk
      exact (Option.some.inj hk).symm
    · rintro rfl
      exact getElem?_inj_of_nodup R.wf.nodup hk hfirst
  have hh := degHelper_val R hc hin hjn
  have hl := degLoop_val R hin hjn (c := c)
  by_cases h1 : a.t = -1
  · have h2 : b.t ≠ -1 := fun h2 => h ⟨h1, h2⟩
    have hab : a ≠ b := fun e => h2 (e ▸ h1)
    rw [if_neg hab] at hh ⊢
    rw [if_pos h1]
    simp only
    unfold degValue
    rw [if_pos h1]
    by_cases h0 : b = first
    · rw [if_neg (by rw [ne_eq, not_not]; exact (hz hjn).2 h0), if_pos h0]
      exact hh
    · rw [if_pos (fun e => h0 ((hz hjn).1 e)), if_neg h0]
      have := degLoop_val R hjn hin h2 (virtualNodes D.dh D.dw key) 0 c (fun _ h => h) hc
      rw [Nat.zero_add] at this
      exact this
  · rw [if_neg h1]
    by_cases h2 : b.t = -1
    · have hab : a ≠ b := fun e => h1 (e ▸ h2)
      rw [if_neg hab] at hh ⊢
      rw [if_pos h2]
      simp only
      unfold degValue
      rw [if_neg h1, if_pos h2]
      by_cases h0 : a = first
      · rw [if_neg (by rw [ne_eq, not_not]; exact (hz hin).2 h0), if_pos h0]
        exact hh
      · rw [if_pos (fun e => h0 ((hz hin).1 e)), if_neg h0]
        have := degLoop_val R hin hjn h1 (virtualNodes D.dh D.dw key) 0 c (fun _ h => h) hc
        rw [Nat.zero_add] at this
        exact this
    · rw [if_neg h2]
      simp only
      unfold degValue
      rw [if_neg h1, if_neg h2]
      exact hh

/-! ### The node with index 0 -/

theorem addEdge_head {s s' : SGraph} {a b n : Node} (h : s.g.nodes.head? = some n) (e : s.addEdge a b = .ok s') :
    s'.g.nodes.head? = some n := by
  unfold SGraph.addEdge at e
  obtain ⟨i, _, e⟩ := except_bind_ok e
  obtain ⟨j, _, e⟩ := except_bind_ok e
  cases e
  simp only [RxGraph.addEdge_nodes]
  exact h

theorem addNode_head {s : SGraph} {m n : Node} (h : s.g.nodes.head? = some n) : (s.addNode m).g.nodes.head? = some n := by
  unfold SGraph.addNode RxGraph.addNode
  simp only [List.head?_append, h]
  rfl

theorem linkNbr_head {cur : Node} {s s' : SGraph} {m n : Node} (h : s.g.nodes.head? = some n) (e : linkNbr cur s m = .ok s') :
    s'.g.nodes.head? = some n := by
  unfold linkNbr at e
  split at e
  · exact addEdge_head h e
  · exact addEdge_head (addNode_head h) e

theorem populate_head {dh dw : Int} {key : Key} {t : Int} {n : Node} : ∀ (fuel : Nat) (cur : Node) (vis : List Node) (s : SGraph)
    (r : List Node × SGraph), s.g.nodes.head? = some n → populate dh dw key t fuel cur vis s = .ok r → r.2.g.nodes.head? = some n
  | 0, _, _, _, _, _, e => by unfold populate at e; cases e
  | fuel + 1, cur, vis, s, r, h, e => by
    unfold populate at e
    obtain ⟨s', h1, h2⟩ := except_bind_ok e
    refine foldlM_inv (P := fun st : List Node × SGraph => st.2.g.nodes.head? = some n) ?_ _ _ _ ?_ h2
    · intro x st st' hst hx
      exact populate_head fuel _ _ _ _ hst hx
    · exact foldlM_inv (P := fun st : SGraph => st.g.nodes.head? = some n) (fun x st st' hst hx => linkNbr_head hst hx) _ _ _ h h1

theorem timeSlice_head {dh dw : Int} {key : Key} {limit : Nat} {t : Int} {n : Node} {s s' : SGraph}
    (h : s.g.nodes.head? = some n) (e : timeSlice dh dw key limit s t = .ok s') : s'.g.nodes.head? = some n := by
  unfold timeSlice at e
  obtain ⟨r, h1, h2⟩ := except_bind_ok e
  cases h2
  exact populate_head _ _ _ _ _ (addNode_head h) h1

theorem first_node {D : Decoder} {key : Key} {s : SGraph} (R : Ready D key s) : s.g.nodes[0]? = some (startNode key 0) := by
  obtain ⟨_, _, _, limit, keys, hb⟩ := made_facts R.made
  have hm : makeSyndromeGraph D.dh D.dw D.T limit key = .ok s := by
    rcases buildGraphs_some keys _ _ hb key s R.graph with h | h
    · exact h
    · cases h
  unfold makeSyndromeGraph at hm
  obtain ⟨s1, h1, h2⟩ := except_bind_ok hm
  have hT : pyRange D.T = 0 :: (pyRange D.T).tail := by
    have hp := R.pos
    obtain ⟨k, hk⟩ : ∃ k : Nat, D.T = k + 1 := ⟨(D.T - 1).toNat, by omega⟩
    rw [hk]
    unfold pyRange
    rw [show ((k : Int) + 1).toNat = k + 1 by omega, List.range_succ_eq_map]
    rfl
  rw [hT, List.foldlM_cons] at h1
  obtain ⟨s0, h3, h4⟩ := except_bind_ok h1
  have e0 : s0.g.nodes.head? = some (startNode key 0) := by
    unfold timeSlice at h3
    obtain ⟨r, h5, h6⟩ := except_bind_ok h3
    cases h6
    exact populate_head _ _ _ _ _ rfl h5
  have e1 : s1.g.nodes.head? = some (startNode key 0) :=
    foldlM_inv (P := fun st : SGraph => st.g.nodes.head? = some (startNode key 0)) (fun x st st' hst hx => timeSlice_head hst hx) _ _ _ e0 h4
  have e2 : s.g.nodes.head? = some (startNode key 0) := by
    refine foldlM_inv (P := fun st : SGraph => st.g.nodes.head? = some (startNode key 0)) ?_ _ _ _ e1 h2
    intro x st st' hst hx
    exact foldlM_inv (P := fun st : SGraph => st.g.nodes.head? = some (startNode key 0)) (fun x st st' hst hx => addEdge_head hst hx) _ _ _ hst hx
  rw [List.head?_eq_getElem?] at e2
  exact e2

end Qtc
