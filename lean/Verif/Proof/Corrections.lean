import Verif.Proof.Decode
import Verif.Proof.GraphMore
/-!
What `_corrections` computes: the pairs of an optimal matching that covers all hits.
-/
namespace Qtc
open Spec

/-! ### Boundary nodes -/

theorem virtualNodes_nodup {key : Key} {dh dw : Int} (H : OddPos dh dw) : (virtualNodes dh dw key).Nodup := by
  have hr : ∀ n : Int, (pyRangeStep n 2).Nodup := by
    intro n
    unfold pyRangeStep
    refine List.Nodup.map ?_ List.nodup_range
    intro a b h
    simp only at h
    have : (a : Int) * 2 = (b : Int) * 2 := h
    omega
  unfold OddPos at H
  cases key
  · refine List.nodup_flatMap.2 ⟨?_, ?_⟩
    · intro j _
      simp only [List.nodup_cons, List.mem_singleton, Node.mk.injEq, List.not_mem_nil, not_false_eq_true, List.nodup_nil, and_true]
      omega
    · refine (hr dh).imp ?_
      intro a b hab
      simp only [Function.onFun, List.disjoint_left, List.mem_cons, List.not_mem_nil, or_false]
      rintro n (rfl | rfl) (h | h) <;> simp only [Node.mk.injEq] at h <;> omega
  · refine List.nodup_flatMap.2 ⟨?_, ?_⟩
    · intro j _
      simp only [List.nodup_cons, List.mem_singleton, Node.mk.injEq, List.not_mem_nil, not_false_eq_true, List.nodup_nil, and_true]
      omega
    · refine (hr dw).imp ?_
      intro a b hab
      simp only [Function.onFun, List.disjoint_left, List.mem_cons, List.not_mem_nil, or_false]
      rintro n (rfl | rfl) (h | h) <;> simp only [Node.mk.injEq] at h <;> omega

theorem virtualNodes_even {key : Key} {dh dw : Int} (H : OddPos dh dw) : (virtualNodes dh dw key).length % 2 = 0 := by
  have h := length_virtualNodes (key := key) H
  unfold OddPos at H
  cases key
  · simp only at h; omega
  · simp only at h; omega

theorem virtualNodes_ne_nil {key : Key} {dh dw : Int} (H : OddPos dh dw) : virtualNodes dh dw key ≠ [] := by
  have h := length_virtualNodes (key := key) H
  intro he
  rw [he] at h
  unfold OddPos at H
  cases key
  · simp only [List.length_nil] at h; omega
  · simp only [List.length_nil] at h; omega

theorem gnode_virt {key : Key} {dh dw T : Int} (H : OddPos dh dw) {n : Node} (h : GNode key dh dw T n) :
    n ∈ virtualNodes dh dw key ↔ n.t = -1 := by
  rw [mem_virtualNodes H]
  constructor
  · exact fun h => h.1
  · intro ht
    rcases h with h | h
    · omega
    · exact h

theorem virt_gnode {key : Key} {dh dw T : Int} (H : OddPos dh dw) {n : Node} (h : n ∈ virtualNodes dh dw key) :
    GNode key dh dw T n := Or.inr ((mem_virtualNodes H).1 h)

theorem extra_not_gnode {key : Key} {dh dw T : Int} : ¬ GNode key dh dw T extraNode := by
  rintro (h | ⟨_, h, _⟩)
  · simp only [extraNode] at h; omega
  · unfold Pos at h
    simp only [extraNode] at h
    omega

theorem extra_not_virt {key : Key} {dh dw : Int} (H : OddPos dh dw) : extraNode ∉ virtualNodes dh dw key :=
  fun h => extra_not_gnode (virt_gnode (T := 1) H h)

/-! ### Weights without probabilities -/

/-- Weight of a pair: minus the distance, `0` for two boundary nodes. -/
noncomputable def unitWeight (key : Key) (dh dw T : Int) (a b : Node) : Int :=
  if a.t = -1 ∧ b.t = -1 then 0 else -(pdist (GAdj key dh dw T) a b : Int)

theorem unitWeight_symm {key : Key} {dh dw T : Int} (a b : Node) : unitWeight key dh dw T a b = unitWeight key dh dw T b a := by
  unfold unitWeight
  rw [pdist_symm (fun _ _ h => GAdj.symm h) a b]
  by_cases h : a.t = -1 ∧ b.t = -1
  · rw [if_pos h, if_pos h.symm]
  · rw [if_neg h, if_neg (fun h' => h h'.symm)]

theorem pyTrunc_int (z : Int) : pyTrunc (z : ℝ) = z := by
  unfold pyTrunc
  split
  · exact Int.floor_intCast z
  · exact Int.ceil_intCast z

/-- The facts about one graph of a decoder that decoding relies on. -/
structure Ready (D : Decoder) (key : Key) (s : SGraph) : Prop where
  made : Made D
  graph : D.S key = some s
  long : Long key D.dh D.dw
  pos : 0 < D.T

theorem Ready.wf {D : Decoder} {key : Key} {s : SGraph} (R : Ready D key s) : s.WF := (made_graph R.made R.graph R.long).1

theorem Ready.mem {D : Decoder} {key : Key} {s : SGraph} (R : Ready D key s) {n : Node} :
    n ∈ s.g.nodes ↔ GNode key D.dh D.dw D.T n := by
  rw [(made_graph R.made R.graph R.long).2.1 n]
  exact ⟨fun h => h.2, fun h => ⟨R.pos, h⟩⟩

theorem Ready.adj {D : Decoder} {key : Key} {s : SGraph} (R : Ready D key s) : s.g.Adj = GAdj key D.dh D.dw D.T := by
  funext a b
  exact propext ((made_graph R.made R.graph R.long).2.2 a b)

theorem Ready.virt {D : Decoder} {key : Key} {s : SGraph} (R : Ready D key s) : D.virt = virtualNodes D.dh D.dw :=
  (made_facts R.made).1

theorem Ready.odd {D : Decoder} {key : Key} {s : SGraph} (R : Ready D key s) : OddPos D.dh D.dw := R.long.1

/-- Index and distance of nodes of the graph. -/
theorem Ready.dist {D : Decoder} {key : Key} {s : SGraph} (R : Ready D key s) {a b : Node}
    (ha : GNode key D.dh D.dw D.T a) (hb : GNode key D.dh D.dw D.T b) :
    ∃ i j, s.idx a = .ok i ∧ s.idx b = .ok j ∧ s.g.nodes[i]? = some a ∧ s.g.nodes[j]? = some b ∧
      s.g.floydWarshall i j = some (pdist (GAdj key D.dh D.dw D.T) a b) := by
  obtain ⟨i, hi, hi'⟩ := s.idx_ok R.wf (R.mem.2 ha)
  obtain ⟨j, hj, hj'⟩ := s.idx_ok R.wf (R.mem.2 hb)
  refine ⟨i, j, hi, hj, hi', hj', ?_⟩
  rw [← R.adj]
  refine floydWarshall_spec R.wf.toWF ?_ hi' hj'
  rw [R.adj]
  exact gnode_connected R.long R.pos ha hb

theorem pairWeight_none {D : Decoder} {key : Key} {s : SGraph} (R : Ready D key s) {a b : Node}
    (ha : GNode key D.dh D.dw D.T a) (hb : GNode key D.dh D.dw D.T b) (c : Cache) :
    pairWeight s (virtualNodes D.dh D.dw key) none a b c = .ok ((unitWeight key D.dh D.dw D.T a b : ℝ), c) := by
  unfold pairWeight
  by_cases h : a.t = -1 ∧ b.t = -1
  · rw [if_pos]
    · unfold unitWeight
      rw [if_pos h]
      simp
    · rw [Bool.and_eq_true, List.contains_iff_mem, List.contains_iff_mem, gnode_virt R.odd ha, gnode_virt R.odd hb]
      exact h
  · rw [if_neg]
    · obtain ⟨i, j, hi, hj, _, _, hd⟩ := R.dist ha hb
      simp only [hi, hj, bind, Except.bind, hd, probGiven, pure, Except.pure]
      unfold unitWeight
      rw [if_neg h]
      congr 2
      push_cast
      ring
    · rw [Bool.and_eq_true, List.contains_iff_mem, List.contains_iff_mem, gnode_virt R.odd ha, gnode_virt R.odd hb]
      exact h

theorem RType.key_rtypeOf (key : Key) : (rtypeOf key).key = some key := by cases key <;> rfl

theorem nmatch_congr {adj adj' : Node → Node → Prop} (h : ∀ a b, a ≠ b → (adj a b ↔ adj' a b)) {M : List (Node × Node)} :
    NMatch adj M ↔ NMatch adj' M := by
  unfold NMatch
  refine and_congr_left fun _ => forall₂_congr fun p _ => ?_
  constructor
  · rintro ⟨h1, h2⟩; exact ⟨h1, (h _ _ h1).1 h2⟩
  · rintro ⟨h1, h2⟩; exact ⟨h1, (h _ _ h1).2 h2⟩

theorem noptimal_congr {adj adj' : Node → Node → Prop} (h : ∀ a b, a ≠ b → (adj a b ↔ adj' a b)) {U : Node → Node → Int}
    {M : List (Node × Node)} : NOptimal adj U M ↔ NOptimal adj' U M := by
  unfold NOptimal
  rw [nmatch_congr h]
  refine and_congr_right fun _ => forall_congr' fun M' => ?_
  rw [nmatch_congr h]

/-- The pairs that are kept. -/
def kept (M : List (Node × Node)) : List (Node × Node) := M.filter fun p => !(p.1.t == -1 && p.2.t == -1)

theorem mem_kept {M : List (Node × Node)} {p : Node × Node} : p ∈ kept M ↔ p ∈ M ∧ ¬ (p.1.t = -1 ∧ p.2.t = -1) := by
  unfold kept
  rw [List.mem_filter]
  simp only [Bool.not_eq_true', Bool.and_eq_false_imp, beq_iff_eq, beq_eq_false_iff_ne]
  tauto

/-- General form: whenever all pair weights are defined, `_corrections` returns the kept pairs of an optimal matching. -/
theorem corrections_gen {D : Decoder} {key : Key} {s : SGraph} (R : Ready D key s) {m : Matcher} (hm : Contract m)
    {ep : Option ℝ} {I : Cache → Prop} (hI : I fun _ => none) {U : Node → Node → Int} (hs : ∀ a b, U a b = U b a)
    (hU0 : ∀ v, v ∈ virtualNodes D.dh D.dw key → U extraNode v = 0) {L : List Node} (hne : L ≠ [])
    (hL : ∀ n ∈ L, GNode key D.dh D.dw D.T n)
    (hpw : ∀ p ∈ combinations2 (L ++ virtualNodes D.dh D.dw key), ∀ c, I c → ∃ r,
      pairWeight s (virtualNodes D.dh D.dw key) ep p.1 p.2 c = .ok r ∧ weightFn ep.isSome r.1 = U p.1 p.2 ∧ I r.2) :
    ∃ M, corrections D m L (rtypeOf key) ep = .ok (kept M, L ++ virtualNodes D.dh D.dw key) ∧
      NOptimal (EAdj L (virtualNodes D.dh D.dw key)) U M := by
  have hx : extraNode ∉ L ++ virtualNodes D.dh D.dw key := by
    rw [List.mem_append]
    rintro (h | h)
    · exact extra_not_gnode (hL _ h)
    · exact extra_not_virt R.odd h
  obtain ⟨e, he⟩ := makeErrorGraph_ok (L := L) hI hx (fun p hp c hc => by
    obtain ⟨r, h1, _, h3⟩ := hpw p hp c hc
    exact ⟨r, h1, h3⟩)
  obtain ⟨_, hwf, hall, _, hadj⟩ := makeErrorGraph_spec (Q := fun a b w => weightFn ep.isSome w = U a b) (I := I)
    (fun a b w h => by rw [hs b a]; exact h) hI hx
    (fun v hv => by
      rw [hU0 v hv]
      unfold weightFn
      have := pyTrunc_int 0
      rw [Int.cast_zero] at this
      simp [this])
    (fun p hp c r hc h => by
      obtain ⟨r', h1, h2, h3⟩ := hpw p hp c hc
      rw [h1] at h
      cases h
      exact ⟨h2, h3⟩) he
  obtain ⟨M, h1, h2, _⟩ := runMwpm_spec hm hwf.toWF ep.isSome hall hs
  refine ⟨M, ?_, (noptimal_congr hadj).1 h2⟩
  unfold corrections
  rw [if_neg hne, RType.key_rtypeOf]
  simp only [R.graph, R.virt, he, bind, Except.bind, h1, pure, Except.pure]
  rfl

theorem corrections_spec {D : Decoder} {key : Key} {s : SGraph} (R : Ready D key s) {m : Matcher} (hm : Contract m)
    {L : List Node} (hne : L ≠ []) (hL : ∀ n ∈ L, GNode key D.dh D.dw D.T n) :
    ∃ M, corrections D m L (rtypeOf key) none = .ok (kept M, L ++ virtualNodes D.dh D.dw key) ∧
      NOptimal (EAdj L (virtualNodes D.dh D.dw key)) (unitWeight key D.dh D.dw D.T) M := by
  refine corrections_gen R hm (I := fun _ => True) trivial unitWeight_symm ?_ hne hL ?_
  · intro v hv
    unfold unitWeight
    rw [if_pos ⟨rfl, ((mem_virtualNodes R.odd).1 hv).1⟩]
  · intro p hp c _
    have hmem := mem_combinations2 hp
    have hg : ∀ n ∈ L ++ virtualNodes D.dh D.dw key, GNode key D.dh D.dw D.T n := by
      intro n hn
      rcases List.mem_append.1 hn with h | h
      · exact hL n h
      · exact virt_gnode R.odd h
    refine ⟨_, pairWeight_none R (hg _ hmem.1) (hg _ hmem.2) c, ?_, trivial⟩
    unfold weightFn
    exact pyTrunc_int _

end Qtc
