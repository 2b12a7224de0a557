import Verif.Proof.Pairing
import Verif.Spec.Ties
/-!
Every optimal matching is one that some matching library meeting its contract returns.
-/
namespace Qtc
open Spec

/-- Matchings of indices and matchings of nodes are the same, and weigh the same. -/
theorem index_matchings {g : RxGraph ℝ} (hw : g.WF) (floats : Bool) {U : Node → Node → Int}
    (hU : AllEdges (fun a b w => weightFn floats w = U a b) g) (hs : ∀ a b, U a b = U b a) {M' : List (Node × Node)} (hM' : NMatch g.Adj M') :
    ∃ I : List (Nat × Nat), IsMatching (g.edges.map fun e => (e.1, e.2.1, weightFn floats e.2.2)) I ∧ I.length = M'.length ∧
      matchWeight (g.edges.map fun e => (e.1, e.2.1, weightFn floats e.2.2)) I = nweight U M' ∧
      I.mapM (fun p => do
        let a ← g.payload p.1
        let b ← g.payload p.2
        return (a, b)) = (.ok M' : Py _) := by
  classical
  let E : List (Nat × Nat × Int) := g.edges.map fun e => (e.1, e.2.1, weightFn floats e.2.2)
  have hE : ∀ i j w, (i, j, w) ∈ E → ∃ v, (i, j, v) ∈ g.edges ∧ w = weightFn floats v := by
    intro i j w h
    obtain ⟨⟨x, y, v⟩, h1, h2⟩ := List.mem_map.1 h
    cases h2
    exact ⟨v, h1, rfl⟩
  have hE' : ∀ i j v, (i, j, v) ∈ g.edges → (i, j, weightFn floats v) ∈ E := fun i j v h => List.mem_map.2 ⟨_, h, rfl⟩
  let ix : Node → Nat := fun n => g.nodes.idxOf n
  have hix : ∀ n ∈ g.nodes, g.nodes[ix n]? = some n := by
    intro n hn
    have := List.idxOf_lt_length_of_mem hn
    rw [List.getElem?_eq_getElem this, List.getElem_idxOf]
  have hinj : ∀ x ∈ g.nodes, ∀ y ∈ g.nodes, ix x = ix y → x = y := by
    intro x hx y hy h
    have h1 := hix x hx
    rw [h, hix y hy] at h1
    exact (Option.some.inj h1).symm
  have hmem : ∀ p ∈ M', p.1 ∈ g.nodes ∧ p.2 ∈ g.nodes := by
    intro p hp
    obtain ⟨_, i, j, w, h1, h2, _⟩ := hM'.1 p hp
    exact ⟨List.mem_of_getElem? h1, List.mem_of_getElem? h2⟩
  have hedge : ∀ p ∈ M', ∃ w, (ix p.1, ix p.2, w) ∈ E ∨ (ix p.2, ix p.1, w) ∈ E := by
    intro p hp
    obtain ⟨_, i, j, w, h1, h2, h3⟩ := hM'.1 p hp
    have hm := hmem p hp
    rw [← getElem?_inj_of_nodup hw.nodup h1 (hix p.1 hm.1), ← getElem?_inj_of_nodup hw.nodup h2 (hix p.2 hm.2)]
    refine ⟨weightFn floats w, ?_⟩
    rcases h3 with h3 | h3
    · exact Or.inl (hE' _ _ _ h3)
    · exact Or.inr (hE' _ _ _ h3)
  have inn : ∀ z ∈ ends M', z ∈ g.nodes := by
    intro z hz
    obtain ⟨p, hp, h⟩ := mem_ends.1 hz
    have := hmem p hp
    rcases h with rfl | rfl
    · exact this.1
    · exact this.2
  refine ⟨M'.map fun p => (ix p.1, ix p.2), ⟨?_, ?_⟩, List.length_map _, ?_, ?_⟩
  · intro q hq
    obtain ⟨p, hp, rfl⟩ := List.mem_map.1 hq
    have hm := hmem p hp
    exact ⟨fun h => (hM'.1 p hp).1 (hinj _ hm.1 _ hm.2 h), hedge p hp⟩
  · rw [ends_map, List.nodup_map_iff_inj_on hM'.2]
    intro x hx y hy h
    exact hinj x (inn x hx) y (inn y hy) h
  · unfold matchWeight nweight
    rw [List.map_map]
    congr 1
    apply List.map_congr_left
    intro p hp
    have hm := hmem p hp
    show edgeWeight E (ix p.1) (ix p.2) = _
    apply edgeWeight_of (hedge p hp)
    rintro ⟨x, y, w⟩ he h
    obtain ⟨v, hv, rfl⟩ := hE x y w he
    rcases h with ⟨h1, h2⟩ | ⟨h1, h2⟩
    · simp only at h1 h2
      subst h1 h2
      exact hU _ _ _ hv _ _ (hix _ hm.1) (hix _ hm.2)
    · simp only at h1 h2
      subst h1 h2
      rw [hs]
      exact hU _ _ _ hv _ _ (hix _ hm.2) (hix _ hm.1)
  · have : ∀ l : List (Node × Node), (∀ p ∈ l, p.1 ∈ g.nodes ∧ p.2 ∈ g.nodes) →
        (l.map fun p => (ix p.1, ix p.2)).mapM (fun p => do
          let a ← g.payload p.1
          let b ← g.payload p.2
          return (a, b)) = (.ok l : Py _) := by
      intro l
      induction l with
      | nil => intro _; rfl
      | cons p l ih =>
        intro h
        have hm := h p List.mem_cons_self
        rw [List.map_cons, List.mapM_cons, ih fun q hq => h q (List.mem_cons_of_mem _ hq)]
        simp only [RxGraph.payload, hix _ hm.1, hix _ hm.2, bind, Except.bind, pure, Except.pure]
    exact this M' hmem

/-- The other way round. -/
theorem node_matchings {g : RxGraph ℝ} (hw : g.WF) (floats : Bool) {U : Node → Node → Int}
    (hU : AllEdges (fun a b w => weightFn floats w = U a b) g) (hs : ∀ a b, U a b = U b a) {I : List (Nat × Nat)}
    (hI : IsMatching (g.edges.map fun e => (e.1, e.2.1, weightFn floats e.2.2)) I) :
    ∃ M, NMatch g.Adj M ∧ M.length = I.length ∧
      nweight U M = matchWeight (g.edges.map fun e => (e.1, e.2.1, weightFn floats e.2.2)) I := by
  classical
  obtain ⟨m1, m2⟩ := hI
  have hE : ∀ i j w, (i, j, w) ∈ (g.edges.map fun e => (e.1, e.2.1, weightFn floats e.2.2)) → ∃ v, (i, j, v) ∈ g.edges ∧ w = weightFn floats v := by
    intro i j w h
    obtain ⟨⟨x, y, v⟩, h1, h2⟩ := List.mem_map.1 h
    cases h2
    exact ⟨v, h1, rfl⟩
  let pay : Nat → Node := fun i => (g.nodes[i]?).getD extraNode
  have hpay : ∀ i, i < g.nodes.length → g.nodes[i]? = some (pay i) := by
    intro i hi
    simp only [pay]
    rw [List.getElem?_eq_getElem hi]
    rfl
  have hlt : ∀ p ∈ I, p.1 < g.nodes.length ∧ p.2 < g.nodes.length := by
    intro p hp
    obtain ⟨_, w, h | h⟩ := m1 p hp
    · obtain ⟨v, hv, -⟩ := hE _ _ _ h
      exact hw.lt _ hv
    · obtain ⟨v, hv, -⟩ := hE _ _ _ h
      exact (hw.lt _ hv).symm
  have hinj : ∀ i j, i < g.nodes.length → j < g.nodes.length → pay i = pay j → i = j := by
    intro i j hi hj h
    have h1 := hpay i hi
    rw [h] at h1
    exact getElem?_inj_of_nodup hw.nodup h1 (hpay j hj)
  refine ⟨I.map fun p => (pay p.1, pay p.2), ⟨?_, ?_⟩, List.length_map _, ?_⟩
  · intro q hq
    obtain ⟨p, hp, rfl⟩ := List.mem_map.1 hq
    have hl := hlt p hp
    obtain ⟨hne, w, h⟩ := m1 p hp
    refine ⟨fun h => hne (hinj _ _ hl.1 hl.2 h), ?_⟩
    rcases h with h | h
    · obtain ⟨v, hv, _⟩ := hE _ _ _ h
      exact ⟨_, _, v, hpay _ hl.1, hpay _ hl.2, Or.inl hv⟩
    · obtain ⟨v, hv, _⟩ := hE _ _ _ h
      exact ⟨_, _, v, hpay _ hl.1, hpay _ hl.2, Or.inr hv⟩
  · rw [ends_map, List.nodup_map_iff_inj_on m2]
    intro x hx y hy h
    have lt : ∀ z ∈ ends I, z < g.nodes.length := by
      intro z hz
      obtain ⟨p, hp, h⟩ := mem_ends.1 hz
      have := hlt p hp
      rcases h with rfl | rfl
      · exact this.1
      · exact this.2
    exact hinj x y (lt x hx) (lt y hy) h
  · unfold matchWeight nweight
    rw [List.map_map]
    congr 1
    apply List.map_congr_left
    intro p hp
    have hl := hlt p hp
    refine (edgeWeight_of (m1 p hp).2 ?_).symm
    rintro ⟨x, y, w⟩ he h
    obtain ⟨v, hv, rfl⟩ := hE x y w he
    rcases h with ⟨h1, h2⟩ | ⟨h1, h2⟩
    · simp only at h1 h2
      subst h1 h2
      exact hU _ _ _ hv _ _ (hpay _ hl.1) (hpay _ hl.2)
    · simp only at h1 h2
      subst h1 h2
      show _ = U _ _
      rw [hs]
      exact hU _ _ _ hv _ _ (hpay _ hl.2) (hpay _ hl.1)

/-- Some library returns a given optimal matching. -/
theorem runMwpm_any {g : RxGraph ℝ} (hw : g.WF) (floats : Bool) {U : Node → Node → Int}
    (hU : AllEdges (fun a b w => weightFn floats w = U a b) g) (hs : ∀ a b, U a b = U b a) {M : List (Node × Node)} (hM : NOptimal g.Adj U M) :
    ∃ m, Contract m ∧ runMwpm m g floats = .ok (kept M) := by
  classical
  obtain ⟨m0, hm0⟩ := contract_exists
  obtain ⟨I, i1, i2, i3, i4⟩ := index_matchings hw floats hU hs hM.1
  obtain ⟨n, E, hn, hE⟩ : ∃ n E, n = g.nodes.length ∧ E = g.edges.map fun e => (e.1, e.2.1, weightFn floats e.2.2) := ⟨_, _, rfl, rfl⟩
  rw [← hE] at i1 i3
  have hsimple : SimpleEdges n E := by
    rw [hE, hn]
    constructor
    · intro e he
      obtain ⟨e', h, rfl⟩ := List.mem_map.1 he
      exact hw.lt _ h
    · rw [List.pairwise_map]
      refine hw.simple.imp ?_
      intro e e' h h'
      exact h (sameEnds_iff.2 h')
  have hopt : IsOptimal E I := by
    refine ⟨i1, fun I' hI' => ?_⟩
    rw [hE] at hI'
    obtain ⟨M', h1, h2, h3⟩ := node_matchings hw floats hU hs hI'
    obtain ⟨o1, o2⟩ := hM.2 M' h1
    rw [← h2, i2, i3]
    refine ⟨o1, fun h => ?_⟩
    rw [hE, ← h3]
    exact o2 h
  refine ⟨fun n' E' => if n' = n ∧ E' = E then I else m0 n' E', ?_, ?_⟩
  · intro n' E' h
    by_cases hc : n' = n ∧ E' = E
    · simp only [if_pos hc]
      rw [hc.2]
      exact hopt
    · simp only [if_neg hc]
      exact hm0 n' E' h
  · unfold runMwpm
    simp only [← hE, ← hn, and_self, if_true]
    erw [i4]
    rfl

/-- … also as corrections of a decoder. -/
theorem corrections_any {D : Decoder} {key : Key} {s : SGraph} (R : Ready D key s)
    {L : List Node} (hne : L ≠ []) (hL : ∀ n ∈ L, GNode key D.dh D.dw D.T n) {M : List (Node × Node)}
    (hM : NOptimal (EAdj L (virtualNodes D.dh D.dw key)) (unitWeight key D.dh D.dw D.T) M) :
    ∃ m, Contract m ∧ corrections D m L (rtypeOf key) none = .ok (kept M, L ++ virtualNodes D.dh D.dw key) := by
  have hg : ∀ n ∈ L ++ virtualNodes D.dh D.dw key, GNode key D.dh D.dw D.T n := by
    intro n hn
    rcases List.mem_append.1 hn with h | h
    · exact hL n h
    · exact virt_gnode R.odd h
  have hx : extraNode ∉ L ++ virtualNodes D.dh D.dw key := fun h => extra_not_gnode (hg _ h)
  have hpw : ∀ p ∈ combinations2 (L ++ virtualNodes D.dh D.dw key), ∀ c,
      pairWeight s (virtualNodes D.dh D.dw key) none p.1 p.2 c = .ok ((unitWeight key D.dh D.dw D.T p.1 p.2 : ℝ), c) := by
    intro p hp c
    have hmem := mem_combinations2 hp
    exact pairWeight_none R (hg _ hmem.1) (hg _ hmem.2) c
  obtain ⟨e, he⟩ := makeErrorGraph_ok (L := L) (I := fun _ => True) trivial hx (fun p hp c _ => ⟨_, hpw p hp c, trivial⟩)
  obtain ⟨_, hwf, hall, _, hadj⟩ := makeErrorGraph_spec (Q := fun a b w => weightFn false w = unitWeight key D.dh D.dw D.T a b)
    (I := fun _ => True) (fun a b w h => by rw [unitWeight_symm b a]; exact h) trivial hx
    (fun v hv => by
      unfold unitWeight
      rw [if_pos ⟨rfl, ((mem_virtualNodes R.odd).1 hv).1⟩]
      have := pyTrunc_int 0
      rw [Int.cast_zero] at this
      unfold weightFn
      simp [this])
    (fun p hp c r _ h => by
      rw [hpw p hp c] at h
      cases h
      exact ⟨pyTrunc_int _, trivial⟩) he
  obtain ⟨m, h1, h2⟩ := runMwpm_any hwf.toWF false hall unitWeight_symm ((noptimal_congr hadj).2 hM)
  refine ⟨m, h1, ?_⟩
  unfold corrections
  rw [if_neg hne, RType.key_rtypeOf]
  simp only [R.graph, R.virt, he, bind, Except.bind, pure, Except.pure, Option.isSome_none, h2]

end Qtc
