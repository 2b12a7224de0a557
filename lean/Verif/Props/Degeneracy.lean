import Verif.Proof.Prob
import Verif.Props.Decoding
/-!
Decoding with an error probability: C35 – C37, C76.
-/
namespace Qtc
open Spec

/-! ### C36 -/

/-- The caches that can occur: they start empty and are passed from call to call. -/
inductive Seen (s : SGraph) (virt : List Node) : Cache → Prop where
  | start : Seen s virt fun _ => none
  | next {c : Cache} {a b : Node} {r : Nat × Cache} : Seen s virt c → pathDegeneracy s virt a b c = .ok r → Seen s virt r.2

theorem Seen.ok {s : SGraph} {virt : List Node} {c : Cache} (h : Seen s virt c) : CacheOk s c := by
  induction h with
  | start => exact cacheOk_empty s
  | next _ h ih => exact pathDegeneracy_ok ih h

/-- C36: the degeneracy of a pair does not depend on the order of the pair nor on the calls made before. (For one and the
same node both calls raise `KeyError`.) -/
theorem C36_symmetric_transparent (D : Decoder) (hD : Made D) (key : Key) (s : SGraph) (hs : D.S key = some s)
    (H : Long key D.dh D.dw) (a b : Node) (ha : a ∈ s.g.nodes) (hb : b ∈ s.g.nodes) (hab : ¬ (a.t = -1 ∧ b.t = -1))
    (c c' : Cache) (hc : Seen s (D.virt key) c) (hc' : Seen s (D.virt key) c') :
    (pathDegeneracy s (D.virt key) a b c).map (·.1) = (pathDegeneracy s (D.virt key) b a c').map (·.1) := by
  have hT := (((made_graph hD hs H).2.1 a).1 ha).1
  have R : Ready D key s := ⟨hD, hs, H, hT⟩
  have h1 := pathDegeneracy_val R (first_node R) hc.ok (R.mem.1 ha) (R.mem.1 hb) hab
  have h2 := pathDegeneracy_val R (first_node R) hc'.ok (R.mem.1 hb) (R.mem.1 ha) (fun h => hab h.symm)
  rw [R.virt]
  by_cases e : a = b
  · rw [if_pos e] at h1
    rw [if_pos e.symm] at h2
    rw [h1, h2]
  · rw [if_neg e] at h1
    rw [if_neg (Ne.symm e)] at h2
    obtain ⟨_, h1, _⟩ := h1
    obtain ⟨_, h2, _⟩ := h2
    rw [h1, h2, degValue_symm hab]
    rfl

/-! ### C35 -/

/-- The shortest paths from `a` to any boundary node that is as far away as `b`. -/
def BoundaryPath (key : Key) (dh dw T : Int) (a b : Node) (es : List (Node × Node)) : Prop :=
  ∃ v, GNode key dh dw T v ∧ v.t = -1 ∧ Path (GAdj key dh dw T) a v es ∧ es.length = pdist (GAdj key dh dw T) a v ∧
    pdist (GAdj key dh dw T) a v = pdist (GAdj key dh dw T) a b

theorem path_end {adj : Node → Node → Prop} {a v w : Node} {es : List (Node × Node)} (h : Path adj a v es) (h' : Path adj a w es) :
    v = w := by
  induction h with
  | nil a => cases h'; rfl
  | cons _ _ ih => cases h' with | cons _ h2 => exact ih h2

theorem Ready.finite {D : Decoder} {key : Key} {s : SGraph} (R : Ready D key s) (n : Nat) {a b : Node}
    (ha : GNode key D.dh D.dw D.T a) (hb : GNode key D.dh D.dw D.T b) :
    {es | Path (GAdj key D.dh D.dw D.T) a b es ∧ es.length = n}.Finite := by
  obtain ⟨i, j, _, _, hi, hj, _⟩ := R.dist ha hb
  refine Set.Finite.subset (List.finite_toSet (walkList s.g n i j)) ?_
  intro es hes
  rw [Set.mem_ofPred_eq, mem_walkList R.wf.toWF n hi hj, R.adj]
  exact hes

theorem boundaryPaths_eq {D : Decoder} {key : Key} {s : SGraph} (R : Ready D key s) {a b : Node}
    (ha : GNode key D.dh D.dw D.T a) (virt : List Node) (hv : ∀ v ∈ virt, GNode key D.dh D.dw D.T v) (hn : virt.Nodup) :
    boundaryPaths key D.dh D.dw D.T virt a b = Set.ncard {es | ∃ v ∈ virt, Path (GAdj key D.dh D.dw D.T) a v es ∧
      es.length = pdist (GAdj key D.dh D.dw D.T) a v ∧
      pdist (GAdj key D.dh D.dw D.T) a v = pdist (GAdj key D.dh D.dw D.T) a b} ∧
    {es | ∃ v ∈ virt, Path (GAdj key D.dh D.dw D.T) a v es ∧ es.length = pdist (GAdj key D.dh D.dw D.T) a v ∧
      pdist (GAdj key D.dh D.dw D.T) a v = pdist (GAdj key D.dh D.dw D.T) a b}.Finite := by
  induction virt with
  | nil =>
    have : {es | ∃ v ∈ ([] : List Node), Path (GAdj key D.dh D.dw D.T) a v es ∧ es.length = pdist (GAdj key D.dh D.dw D.T) a v ∧
        pdist (GAdj key D.dh D.dw D.T) a v = pdist (GAdj key D.dh D.dw D.T) a b} = (∅ : Set (List (Node × Node))) := by
      ext es
      simp
    rw [this]
    simp [boundaryPaths]
  | cons v virt ih =>
    rw [List.nodup_cons] at hn
    obtain ⟨ih1, ih2⟩ := ih (fun w hw => hv w (List.mem_cons_of_mem _ hw)) hn.2
    have hgv := hv v List.mem_cons_self
    by_cases hq : pdist (GAdj key D.dh D.dw D.T) a v = pdist (GAdj key D.dh D.dw D.T) a b
    · have hset : {es | ∃ w ∈ v :: virt, Path (GAdj key D.dh D.dw D.T) a w es ∧
          es.length = pdist (GAdj key D.dh D.dw D.T) a w ∧
          pdist (GAdj key D.dh D.dw D.T) a w = pdist (GAdj key D.dh D.dw D.T) a b} =
          {es | Path (GAdj key D.dh D.dw D.T) a v es ∧ es.length = pdist (GAdj key D.dh D.dw D.T) a v} ∪
          {es | ∃ w ∈ virt, Path (GAdj key D.dh D.dw D.T) a w es ∧ es.length = pdist (GAdj key D.dh D.dw D.T) a w ∧
            pdist (GAdj key D.dh D.dw D.T) a w = pdist (GAdj key D.dh D.dw D.T) a b} := by
        ext es
        simp only [Set.mem_ofPred_eq, Set.mem_union, List.mem_cons]
        constructor
        · rintro ⟨w, rfl | hw, h1, h2, h3⟩
          · exact Or.inl ⟨h1, h2⟩
          · exact Or.inr ⟨w, hw, h1, h2, h3⟩
        · rintro (⟨h1, h2⟩ | ⟨w, hw, h1, h2, h3⟩)
          · exact ⟨v, Or.inl rfl, h1, h2, hq⟩
          · exact ⟨w, Or.inr hw, h1, h2, h3⟩
      have hfin := R.finite (pdist (GAdj key D.dh D.dw D.T) a v) ha hgv
      rw [hset]
      refine ⟨?_, hfin.union ih2⟩
      rw [Set.ncard_union_eq ?_ hfin ih2, ← ih1]
      · unfold boundaryPaths
        rw [List.filter_cons_of_pos (by simpa using hq), List.map_cons, List.sum_cons]
        rfl
      · rw [Set.disjoint_left]
        rintro es ⟨h1, _⟩ ⟨w, hw, h2, _⟩
        exact hn.1 (path_end h1 h2 ▸ hw)
    · have hset : {es | ∃ w ∈ v :: virt, Path (GAdj key D.dh D.dw D.T) a w es ∧
          es.length = pdist (GAdj key D.dh D.dw D.T) a w ∧
          pdist (GAdj key D.dh D.dw D.T) a w = pdist (GAdj key D.dh D.dw D.T) a b} =
          {es | ∃ w ∈ virt, Path (GAdj key D.dh D.dw D.T) a w es ∧ es.length = pdist (GAdj key D.dh D.dw D.T) a w ∧
            pdist (GAdj key D.dh D.dw D.T) a w = pdist (GAdj key D.dh D.dw D.T) a b} := by
        ext es
        simp only [Set.mem_ofPred_eq, List.mem_cons]
        constructor
        · rintro ⟨w, rfl | hw, h1, h2, h3⟩
          · exact absurd h3 hq
          · exact ⟨w, hw, h1, h2, h3⟩
        · rintro ⟨w, hw, h1, h2, h3⟩
          exact ⟨w, Or.inr hw, h1, h2, h3⟩
      rw [hset, ← ih1]
      refine ⟨?_, ih2⟩
      unfold boundaryPaths
      rw [List.filter_cons_of_neg (by simpa using hq)]

theorem boundaryPaths_all {D : Decoder} {key : Key} {s : SGraph} (R : Ready D key s) {a b : Node}
    (ha : GNode key D.dh D.dw D.T a) :
    boundaryPaths key D.dh D.dw D.T (virtualNodes D.dh D.dw key) a b = Set.ncard {es | BoundaryPath key D.dh D.dw D.T a b es} ∧
      {es | BoundaryPath key D.dh D.dw D.T a b es}.Finite := by
  have h := boundaryPaths_eq (b := b) R ha (virtualNodes D.dh D.dw key) (fun v hv => virt_gnode R.odd hv) (virtualNodes_nodup R.odd)
  have hset : {es | BoundaryPath key D.dh D.dw D.T a b es} = {es | ∃ v ∈ virtualNodes D.dh D.dw key, Path (GAdj key D.dh D.dw D.T) a v es ∧
      es.length = pdist (GAdj key D.dh D.dw D.T) a v ∧
      pdist (GAdj key D.dh D.dw D.T) a v = pdist (GAdj key D.dh D.dw D.T) a b} := by
    ext es
    simp only [Set.mem_ofPred_eq, BoundaryPath]
    constructor
    · rintro ⟨v, h1, h2, h3⟩
      exact ⟨v, (gnode_virt R.odd h1).2 h2, h3⟩
    · rintro ⟨v, h1, h3⟩
      exact ⟨v, virt_gnode R.odd h1, virtualNodes_t h1, h3⟩
  rw [hset]
  exact h

/-- C35 for all hits except the one with index 0 (the start node of the first time step): the degeneracy between a hit
and a boundary node is the number of shortest paths from the hit to all boundary nodes at the same distance. Missing: the
start node, for which the claim is false (`C35_refuted`). -/
theorem C35_boundary_degeneracy_partial (D : Decoder) (hD : Made D) (key : Key) (s : SGraph) (hs : D.S key = some s)
    (H : Long key D.dh D.dw) (a b : Node) (ha : HitPlace key D a) (hb : b ∈ D.virt key) (h0 : a ≠ startNode key 0)
    (c : Cache) (hc : Seen s (D.virt key) c) :
    ∃ c', pathDegeneracy s (D.virt key) a b c = .ok (Set.ncard {es | BoundaryPath key D.dh D.dw D.T a b es}, c') := by
  have R := ready_of_hit hD hs H.1 ha
  rw [R.virt] at hb ⊢
  have hbt := virtualNodes_t hb
  have hat := hitPlace_real ha
  have h1 := pathDegeneracy_val R (first_node R) hc.ok (hitPlace_gnode ha) (virt_gnode R.odd hb) (fun h => hat h.1)
  rw [if_neg (by rintro rfl; exact hat hbt)] at h1
  obtain ⟨c', h1, _⟩ := h1
  unfold degValue at h1
  rw [if_neg hat, if_pos hbt, if_neg h0, (boundaryPaths_all R (hitPlace_gnode ha)).1] at h1
  exact ⟨c', h1⟩

theorem pdist_one {adj : Node → Node → Prop} {a b : Node} (h : adj a b) (hne : a ≠ b) : pdist adj a b = 1 := by
  have h1 := pdist_adj h
  obtain ⟨⟨es, p, l⟩, _⟩ := pdist_spec ⟨_, Path.cons h (Path.nil b)⟩
  by_contra hc
  have : es = [] := List.length_eq_zero_iff.1 (by omega)
  subst this
  cases p
  exact hne rfl

/-- C35 is false of the code: for every decoder with a Z graph on a lattice at least three columns wide, the hit at the
start node `(0, 0.5, 0.5)` has two boundary nodes at distance 1, but the code counts one path only. -/
theorem C35_refuted (D : Decoder) (hD : Made D) (s : SGraph) (hs : D.S .Z = some s) (H : Long .Z D.dh D.dw) (hw : 3 ≤ D.dw)
    (hT : 0 < D.T) (c : Cache) (hc : Seen s (D.virt .Z) c) :
    HitPlace .Z D ⟨0, 1, 1⟩ ∧ (⟨-1, -1, -1⟩ : Node) ∈ D.virt .Z ∧
    (∃ c', pathDegeneracy s (D.virt .Z) ⟨0, 1, 1⟩ ⟨-1, -1, -1⟩ c = .ok (1, c')) ∧
    2 ≤ Set.ncard {es | BoundaryPath .Z D.dh D.dw D.T ⟨0, 1, 1⟩ ⟨-1, -1, -1⟩ es} := by
  have HO := H.1
  have hl := H.2
  simp only at hl
  have R : Ready D .Z s := ⟨hD, hs, H, hT⟩
  unfold OddPos at HO
  have ha : HitPlace .Z D ⟨0, 1, 1⟩ := by
    unfold HitPlace Site ZSite
    simp only
    omega
  have b1 : Bdry .Z D.dh D.dw (-1) (-1) := ⟨⟨by decide, by decide, by decide, by omega, by omega, by omega, by omega⟩, Or.inl rfl⟩
  have b2 : Bdry .Z D.dh D.dw (-1) 3 := ⟨⟨by decide, by decide, by decide, by omega, by omega, by omega, by omega⟩, Or.inl rfl⟩
  have hv1 : (⟨-1, -1, -1⟩ : Node) ∈ virtualNodes D.dh D.dw .Z := (mem_virtualNodes R.odd).2 ⟨rfl, b1⟩
  have e1 : GAdj .Z D.dh D.dw D.T ⟨0, 1, 1⟩ ⟨-1, -1, -1⟩ := by
    refine Or.inl ⟨0, 0, 0, by omega, hT, by omega, by omega, by omega, by omega, by simp, ?_, ?_⟩
    · exact ⟨by simp, by simp, Or.inl ⟨rfl, ha.2.2⟩⟩
    · exact ⟨by simp, by simp, Or.inr ⟨rfl, b1⟩⟩
  have e2 : GAdj .Z D.dh D.dw D.T ⟨0, 1, 1⟩ ⟨-1, -1, 3⟩ := by
    refine Or.inl ⟨0, 0, 1, by omega, hT, by omega, by omega, by omega, by omega, by simp, ?_, ?_⟩
    · exact ⟨by simp, by simp, Or.inl ⟨rfl, ha.2.2⟩⟩
    · exact ⟨by simp, by simp, Or.inr ⟨rfl, b2⟩⟩
  have d1 := pdist_one e1 (by simp)
  have d2 := pdist_one e2 (by simp)
  refine ⟨ha, by rw [R.virt]; exact hv1, ?_, ?_⟩
  · have h1 := pathDegeneracy_val (a := ⟨0, 1, 1⟩) (b := ⟨-1, -1, -1⟩) R (first_node R) hc.ok (hitPlace_gnode ha) (virt_gnode R.odd hv1) (by simp)
    rw [if_neg (by simp)] at h1
    obtain ⟨c', h1, _⟩ := h1
    unfold degValue at h1
    rw [if_neg (by simp), if_pos rfl, if_pos (show (⟨0, 1, 1⟩ : Node) = startNode .Z 0 from rfl)] at h1
    refine ⟨c', ?_⟩
    rw [R.virt, h1]
    have : numShortest (GAdj .Z D.dh D.dw D.T) ⟨0, 1, 1⟩ ⟨-1, -1, -1⟩ = 1 := by
      unfold numShortest countPaths
      rw [d1, Set.ncard_eq_one]
      refine ⟨[(⟨0, 1, 1⟩, ⟨-1, -1, -1⟩)], ?_⟩
      ext es
      rw [Set.mem_ofPred_eq, Set.mem_singleton_iff]
      constructor
      · rintro ⟨p, l⟩
        cases p with
        | cons h1 h2 =>
          cases h2 with
          | nil => rfl
          | cons h3 h4 => simp at l
      · rintro rfl
        exact ⟨Path.cons e1 (Path.nil _), rfl⟩
    rw [this]
  · have hfin := (boundaryPaths_all (b := ⟨-1, -1, -1⟩) R (hitPlace_gnode ha)).2
    have hsub : ({[(⟨0, 1, 1⟩, ⟨-1, -1, -1⟩)], [(⟨0, 1, 1⟩, ⟨-1, -1, 3⟩)]} : Set (List (Node × Node))) ⊆
        {es | BoundaryPath .Z D.dh D.dw D.T ⟨0, 1, 1⟩ ⟨-1, -1, -1⟩ es} := by
      intro es hes
      rw [Set.mem_insert_iff, Set.mem_singleton_iff] at hes
      rcases hes with rfl | rfl
      · exact ⟨⟨-1, -1, -1⟩, Or.inr ⟨rfl, b1⟩, rfl, Path.cons e1 (Path.nil _), by rw [d1]; rfl, rfl⟩
      · exact ⟨⟨-1, -1, 3⟩, Or.inr ⟨rfl, b2⟩, rfl, Path.cons e2 (Path.nil _), by rw [d2]; rfl, by rw [d1, d2]⟩
    have := Set.ncard_le_ncard hsub hfin
    rwa [Set.ncard_pair (by simp)] at this

-- the 3 × 5 decoder satisfies all assumptions; another hit, for which both boundary paths are counted
example : ∃ D s, Made D ∧ D.S .Z = some s ∧ Long .Z D.dh D.dw ∧ 3 ≤ D.dw ∧ 0 < D.T ∧ Seen s (D.virt .Z) (fun _ => none) ∧
    HitPlace .Z D ⟨1, 1, 1⟩ ∧ (⟨1, 1, 1⟩ : Node) ≠ startNode .Z 0 := by
  obtain ⟨D, sx, sz, h, h1, h2, h3, h4, h5, h6, h7⟩ := demo_decoder
  refine ⟨D, sz, h, h5, h7, by omega, by omega, Seen.start, ?_, by decide⟩
  unfold HitPlace Site ZSite
  rw [h1, h2, h3]
  decide

/-! ### C37 -/

/-- C37 is false of the code: with `err_prob = 0.5` decoding raises `ZeroDivisionError` for every non-empty list of distinct
hits. -/
theorem C37_refuted_half (D : Decoder) (hD : Made D) (key : Key) (s : SGraph) (hs : D.S key = some s) (HO : OddPos D.dh D.dw)
    (m : Matcher) (L : List Node) (hne : L ≠ []) (hn : L.Nodup) (hL : ∀ n ∈ L, HitPlace key D n) (syn : SynDict)
    (hsyn : syn (rtypeOf key) = some L) (v : Option Int) :
    correctHits D m syn (rtypeOf key) v (some (1 / 2)) = .error .zeroDivisionError := by
  obtain ⟨n0, h0⟩ := List.exists_mem_of_ne_nil _ hne
  have R := ready_of_hit hD hs HO (hL n0 h0)
  have hc := corrections_err R (m := m) hne hn (fun n h => hitPlace_gnode (hL n h)) (fun n h => hitPlace_real (hL n h))
    (p := 1 / 2) (by norm_num) (e := .zeroDivisionError) ?_
  · unfold correctHits
    simp only [hsyn, hc, bind, Except.bind]
  · intro dist deg hd
    unfold degDistance
    rw [if_neg (by omega), if_neg (by norm_num), if_neg (by norm_num), if_pos]
    rw [show (1 - 1 / 2 : ℝ) = 1 / 2 by norm_num, sub_self]

/-- Probabilities outside `[0, 1)` are rejected, with `ValueError`, when there are hits. -/
theorem C37_out_of_range (D : Decoder) (hD : Made D) (key : Key) (s : SGraph) (hs : D.S key = some s) (HO : OddPos D.dh D.dw)
    (m : Matcher) (L : List Node) (hne : L ≠ []) (hn : L.Nodup) (hL : ∀ n ∈ L, HitPlace key D n) (syn : SynDict)
    (hsyn : syn (rtypeOf key) = some L) (v : Option Int) (p : ℝ) (hp : p < 0 ∨ 1 ≤ p) :
    correctHits D m syn (rtypeOf key) v (some p) = .error .valueError := by
  obtain ⟨n0, h0⟩ := List.exists_mem_of_ne_nil _ hne
  have R := ready_of_hit hD hs HO (hL n0 h0)
  have hc := corrections_err R (m := m) hne hn (fun n h => hitPlace_gnode (hL n h)) (fun n h => hitPlace_real (hL n h))
    (p := p) (by rintro rfl; rcases hp with h | h <;> norm_num at h) (e := .valueError) ?_
  · unfold correctHits
    simp only [hsyn, hc, bind, Except.bind]
  · intro dist deg hd
    unfold degDistance
    rw [if_neg (by omega)]
    by_cases h1 : 1 ≤ p
    · rw [if_pos h1]
    · rw [if_neg h1, if_pos (by rcases hp with h | h <;> [exact h.le; exact absurd h h1])]

/-- C37, positive part: for every probability strictly between 0 and 1 other than 1/2 and every list of distinct hits,
decoding succeeds, matches every hit exactly once and returns a bit. -/
theorem C37_answers_partial (D : Decoder) (hD : Made D) (key : Key) (s : SGraph) (hs : D.S key = some s) (HO : OddPos D.dh D.dw)
    (m : Matcher) (hm : Contract m) (L : List Node) (hn : L.Nodup) (hL : ∀ n ∈ L, HitPlace key D n) (p : ℝ) (h0 : 0 < p)
    (h1 : p < 1) (h2 : p ≠ 1 / 2) (syn : SynDict) (hsyn : syn (rtypeOf key) = some L) (b : Bool) :
    (∃ Ms L', corrections D m L (rtypeOf key) (some p) = .ok (Ms, L') ∧ ∀ n ∈ L, (ends Ms).count n = 1) ∧
      ∃ b' syn', correctHits D m syn (rtypeOf key) (some (bit b)) (some p) = .ok (some (bit b'), syn') := by
  by_cases hne : L = []
  · subst hne
    refine ⟨⟨[], [], rfl, by simp⟩, b, ?_⟩
    unfold correctHits
    simp only [hsyn]
    exact ⟨_, rfl⟩
  obtain ⟨n0, hn0⟩ := List.exists_mem_of_ne_nil _ hne
  have R := ready_of_hit hD hs HO (hL n0 hn0)
  have hLg : ∀ n ∈ L, GNode key D.dh D.dw D.T n := fun n h => hitPlace_gnode (hL n h)
  have hr : ∀ n ∈ L, n.t ≠ -1 := fun n h => hitPlace_real (hL n h)
  obtain ⟨M, c1, c2⟩ := corrections_prob R hm hne hn hLg hr h0 h1 h2
  obtain ⟨M0, a1, a2, a3⟩ := hits_pairing (key := key) R.odd L
  obtain ⟨hperm, _⟩ := optimal_covers R.odd hLg (parityOk_nodup hn hr) probWeightInt_virt a1 a2 a3 c2
  obtain ⟨f1, f2, f3, f4⟩ := kept_facts R.odd hLg c2.1 hperm
  refine ⟨⟨_, _, c1, fun n h => List.count_eq_one_of_mem f1 ((f2 n (hr n h)).2 h)⟩, _, _, correctHits_of R.long hsyn c1 f3 f4 b⟩

/-- C37, positive part: below one half the more degenerate of two equally long connections has the larger weight (the
library maximises weight). -/
theorem C37_prefers_degenerate_partial (p : ℝ) (h0 : 0 < p) (h1 : p < 1 / 2) (dist : ℝ) (k k' : Nat) (hk : 0 < k) (hkk : k < k')
    (w w' : ℝ) (hw : degDistance dist k p = .ok w) (hw' : degDistance dist k' p = .ok w') : w' < w := by
  have hq := log_pos_of_small h0 h1
  rw [degDistance_ok hk h0 (by linarith) (by linarith)] at hw
  rw [degDistance_ok (by omega) h0 (by linarith) (by linarith)] at hw'
  cases hw
  cases hw'
  have h3 : Real.log (k : ℝ) < Real.log k' := Real.log_lt_log (by exact_mod_cast hk) (by exact_mod_cast hkk)
  have := div_lt_div_of_pos_right h3 hq
  linarith

/-- C37 is false of the code: above one half the less degenerate connection is preferred. -/
theorem C37_refuted_above_half (p : ℝ) (h0 : 1 / 2 < p) (h1 : p < 1) (dist : ℝ) (k k' : Nat) (hk : 0 < k) (hkk : k < k') :
    ∃ w w', degDistance dist k p = .ok w ∧ degDistance dist k' p = .ok w' ∧ w < w' := by
  refine ⟨_, _, degDistance_ok hk (by linarith) h1 (by linarith), degDistance_ok (by omega) (by linarith) h1 (by linarith), ?_⟩
  have hq : Real.log (1 - p) - Real.log p < 0 := by
    have := Real.log_lt_log (by linarith : (0 : ℝ) < 1 - p) (by linarith : 1 - p < p)
    linarith
  have h3 : Real.log (k : ℝ) < Real.log k' := Real.log_lt_log (by exact_mod_cast hk) (by exact_mod_cast hkk)
  have := div_lt_div_of_neg_of_lt hq h3
  linarith

example : ∃ D s, Made D ∧ D.S .Z = some s ∧ OddPos D.dh D.dw ∧ HitPlace .Z D ⟨1, 1, 1⟩ := by
  obtain ⟨D, sx, sz, h, h1, h2, h3, h4, h5, h6, h7⟩ := demo_decoder
  refine ⟨D, sz, h, h5, h6.1, ?_⟩
  unfold HitPlace Site ZSite
  rw [h1, h2, h3]
  decide

example : degDistance 3 4 (1 / 5) = .ok 2 := by
  rw [degDistance_ok (by omega) (by norm_num) (by norm_num) (by norm_num)]
  congr 1
  rw [← Real.log_div (by norm_num) (by norm_num), show (1 - 1 / 5 : ℝ) / (1 / 5) = 4 by norm_num, Nat.cast_ofNat,
    div_self (ne_of_gt (Real.log_pos (by norm_num)))]
  norm_num

/-! ### C76 -/

/-- C76: let no degeneracy exceed `K`. If `p < 1/2` satisfies
`(distance - 1) * (10000 * log K / log ((1-p)/p) + 1) < 10000`, decoding with `err_prob = p` corrects all correctable faults. -/
theorem C76_small_probability (D : Decoder) (hD : Made D) (key : Key) (s : SGraph) (hs : D.S key = some s) (HO : OddPos D.dh D.dw)
    (K : Nat) (hK : ∀ a ∈ s.g.nodes, ∀ b ∈ s.g.nodes, ∀ k c, pathDegeneracy s (D.virt key) a b (fun _ => none) = .ok (k, c) → k ≤ K)
    (p : ℝ) (h0 : 0 < p) (h1 : p < 1 / 2)
    (hsmall : ((distance key D.dh D.dw - 1 : Int) : ℝ) * (10000 * (Real.log K / (Real.log (1 - p) - Real.log p)) + 1) < 10000)
    (m : Matcher) (hm : Contract m) (fs : List Fault) (hf : Correctable key D.dh D.dw D.T fs) (L : List Node) (hn : L.Nodup)
    (hL : ∀ n, n ∈ L ↔ IsHit key D.dh D.dw D.T fs n) (syn : SynDict) (hsyn : syn (rtypeOf key) = some L) (b : Bool) :
    ∃ syn', correctHits D m syn (rtypeOf key) (some (bit (b ^^ readoutFlipped key fs))) (some p) = .ok (some (bit b), syn') := by
  have hr : ∀ n ∈ L, n.t ≠ -1 := by
    intro n h
    have := ((hL n).1 h).1
    omega
  have hLg : ∀ n ∈ L, GNode key D.dh D.dw D.T n := fun n h => isHit_gnode ((hL n).1 h)
  refine correct_core_of hD hs HO hf hLg (fun n _ => hL n) (parityOk_nodup hn hr) ?_ hsyn ?_ b
  · by_cases h : fs = []
    · right
      subst h
      rw [List.eq_nil_iff_forall_not_mem]
      intro n hn
      have := ((hL n).1 hn).2.2.2
      simp at this
    · exact Or.inl h
  · intro R hne
    obtain ⟨M, c1, c2⟩ := corrections_prob R hm hne hn hLg hr h0 (by linarith) (by linarith)
    refine ⟨M, c1, optimal_small R h0 h1 (K := K) ?_ hn hLg hr ?_ c2⟩
    · intro a b ha hb hv hab
      have := pathDegeneracy_val R (first_node R) (cacheOk_empty s) ha hb hv
      rw [if_neg hab] at this
      obtain ⟨c', hc, _⟩ := this
      rw [← R.virt] at hc
      exact hK a (R.mem.2 ha) b (R.mem.2 hb) _ _ hc
    · have hlen := hits_length (T := D.T) HO hf.1 hn fun n h => (hL n).1 h
      have h2 := hf.2
      have h3 : (L.length : Int) ≤ distance key D.dh D.dw - 1 := by omega
      have h4 : (L.length : ℝ) ≤ ((distance key D.dh D.dw - 1 : Int) : ℝ) := by exact_mod_cast h3
      have hB : 0 ≤ 10000 * (Real.log K / (Real.log (1 - p) - Real.log p)) + 1 := by
        have := div_nonneg (Real.log_natCast_nonneg K) (log_pos_of_small h0 h1).le
        linarith
      exact lt_of_le_of_lt (mul_le_mul_of_nonneg_right h4 hB) hsmall

/-- The degeneracies of a decoding graph are bounded. -/
theorem degeneracy_bounded (s : SGraph) (virt : List Node) :
    ∃ K : Nat, ∀ a ∈ s.g.nodes, ∀ b ∈ s.g.nodes, ∀ k c, pathDegeneracy s virt a b (fun _ => none) = .ok (k, c) → k ≤ K := by
  refine ⟨((s.g.nodes ×ˢ s.g.nodes).map fun q =>
    match pathDegeneracy s virt q.1 q.2 (fun _ => none) with | .ok r => r.1 | .error _ => 0).sum, ?_⟩
  intro a ha b hb k c h
  refine List.le_sum_of_mem (List.mem_map.2 ⟨(a, b), List.mem_product.2 ⟨ha, hb⟩, ?_⟩)
  simp only [h]

/-- C76: on lattices of distance at most 10000 every sufficiently small positive probability gives the same guarantee as no
probability. (The weights are truncated to multiples of 1/10000, hence the bound on the distance.) -/
theorem C76_eventually (D : Decoder) (hD : Made D) (key : Key) (s : SGraph) (hs : D.S key = some s) (HO : OddPos D.dh D.dw)
    (hd : distance key D.dh D.dw ≤ 10000) :
    ∃ p0 : ℝ, 0 < p0 ∧ ∀ p, 0 < p → p < p0 → ∀ (m : Matcher), Contract m → ∀ (fs : List Fault), Correctable key D.dh D.dw D.T fs →
      ∀ (L : List Node), L.Nodup → (∀ n, n ∈ L ↔ IsHit key D.dh D.dw D.T fs n) → ∀ (syn : SynDict), syn (rtypeOf key) = some L →
      ∀ b : Bool, ∃ syn', correctHits D m syn (rtypeOf key) (some (bit (b ^^ readoutFlipped key fs))) (some p) =
        .ok (some (bit b), syn') := by
  obtain ⟨K, hK⟩ := degeneracy_bounded s (D.virt key)
  have hd1 : (1 : Int) ≤ distance key D.dh D.dw := by
    unfold OddPos at HO
    cases key
    · simp only [distance]; omega
    · simp only [distance]; omega
  have hd1' : (0 : ℝ) ≤ ((distance key D.dh D.dw - 1 : Int) : ℝ) := by exact_mod_cast (by omega : (0 : Int) ≤ distance key D.dh D.dw - 1)
  have hd2' : ((distance key D.dh D.dw - 1 : Int) : ℝ) ≤ 9999 := by exact_mod_cast (by omega : distance key D.dh D.dw - 1 ≤ 9999)
  have hK0 : 0 ≤ Real.log (K : ℝ) := Real.log_natCast_nonneg K
  obtain ⟨Q, hQ⟩ : ∃ Q : ℝ, Q = ((distance key D.dh D.dw - 1 : Int) : ℝ) * (10000 * Real.log K) + 1 := ⟨_, rfl⟩
  have hQ1 : 1 ≤ Q := by
    have := mul_nonneg hd1' (mul_nonneg (by norm_num : (0 : ℝ) ≤ 10000) hK0)
    linarith
  have hlog2 : 0 < Real.log 2 := Real.log_pos (by norm_num)
  refine ⟨Real.exp (-(Q + Real.log 2)), Real.exp_pos _, ?_⟩
  intro p h0 hp m hm fs hf L hn hL syn hsyn b
  have hlp : Real.log p < -(Q + Real.log 2) := by
    have := Real.log_lt_log h0 hp
    rwa [Real.log_exp] at this
  have h1 : p < 1 / 2 := by
    have h2 : Real.log p < Real.log (1 / 2) := by
      rw [one_div, Real.log_inv]
      linarith
    exact (Real.log_lt_log_iff h0 (by norm_num)).1 h2
  have hq : Q ≤ Real.log (1 - p) - Real.log p := by
    have h2 : Real.log (1 / 2) < Real.log (1 - p) := Real.log_lt_log (by norm_num) (by linarith)
    rw [one_div, Real.log_inv] at h2
    linarith
  refine C76_small_probability D hD key s hs HO K hK p h0 h1 ?_ m hm fs hf L hn hL syn hsyn b
  have hq0 : 0 < Real.log (1 - p) - Real.log p := by linarith
  have hfrac : ((distance key D.dh D.dw - 1 : Int) : ℝ) * (10000 * (Real.log K / (Real.log (1 - p) - Real.log p))) < 1 := by
    have he : ((distance key D.dh D.dw - 1 : Int) : ℝ) * (10000 * (Real.log K / (Real.log (1 - p) - Real.log p))) =
        (Q - 1) / (Real.log (1 - p) - Real.log p) := by
      rw [hQ]
      ring
    rw [he, div_lt_one hq0]
    linarith
  linarith

example : ∃ D s, Made D ∧ D.S .X = some s ∧ OddPos D.dh D.dw ∧ distance .X D.dh D.dw ≤ 10000 ∧
    Correctable .X D.dh D.dw D.T [.data 0 1 0, .meas 0 1 7] := by
  obtain ⟨D, sx, sz, h, h1, h2, h3, h4, h5, h6, h7⟩ := demo_decoder
  refine ⟨D, sx, h, h4, h6.1, ?_, ?_⟩
  · rw [h1, h2]; decide
  · rw [h1, h2, h3]
    refine ⟨?_, by decide⟩
    intro f hf
    simp only [List.mem_cons, List.not_mem_nil, or_false] at hf
    rcases hf with rfl | rfl
    · unfold Fault.Fits; decide
    · unfold Fault.Fits Site XSite; decide

end Qtc
