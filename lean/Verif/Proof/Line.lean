import Verif.Props.Degeneracy
import Verif.Spec.Equivalent
/-!
Decoding graphs of repetition codes with one time step are lines: all shortest paths are unique.
-/
namespace Qtc
open Spec

variable {key : Key} {dh dw : Int}

theorem thin_eq (H : OddPos dh dw) (ht : Thin key dh dw) {a b : Node} (ha : GNode key dh dw 1 a) (hb : GNode key dh dw 1 b)
    (h : lev key a = lev key b) : a = b := by
  unfold OddPos at H
  obtain ⟨ta, ra, ca⟩ := a
  obtain ⟨tb, rb, cb⟩ := b
  cases key
  · simp only [Thin, GNode, Site, XSite, Bdry, Pos, lev] at *
    simp only [Node.mk.injEq]
    omega
  · simp only [Thin, GNode, Site, ZSite, Bdry, Pos, lev] at *
    simp only [Node.mk.injEq]
    omega

theorem thin_adj {a b : Node} (h : GAdj key dh dw 1 a b) : lev key b = lev key a + 1 ∨ lev key b = lev key a - 1 := by
  rcases h with ⟨t, r, c, h⟩ | ⟨t, h1, h2, _⟩
  · have := dataEdge_level h
    cases key
    · simp only at this; omega
    · simp only at this; omega
  · omega

/-- The neighbour further down the line. -/
theorem thin_next (H : Long key dh dw) (ht : Thin key dh dw) {a : Node} (ha : GNode key dh dw 1 a)
    (h : lev key a < distance key dh dw) : ∃ b, GAdj key dh dw 1 a b ∧ lev key b = lev key a + 1 := by
  obtain ⟨HO, Hl⟩ := H
  unfold OddPos at HO
  obtain ⟨ta, ra, ca⟩ := a
  cases key
  · simp only [Thin, GNode, Site, XSite, Bdry, Pos, lev, distance] at *
    refine ⟨⟨if ca + 2 = 2 * dw - 1 then -1 else 0, -ra, ca + 2⟩, Or.inl ⟨0, 0, (ca + 1) / 2, ?_⟩, by simp only []; omega⟩
    unfold DataEdge Touches Bdry Pos Site XSite
    simp only [ne_eq, Node.mk.injEq]
    split <;> omega
  · simp only [Thin, GNode, Site, ZSite, Bdry, Pos, lev, distance] at *
    refine ⟨⟨if ra + 2 = 2 * dh - 1 then -1 else 0, ra + 2, -ca⟩, Or.inl ⟨0, (ra + 1) / 2, 0, ?_⟩, by simp only []; omega⟩
    unfold DataEdge Touches Bdry Pos Site ZSite
    simp only [ne_eq, Node.mk.injEq]
    split <;> omega

theorem gnode_range (H : Long key dh dw) {T : Int} {a : Node} (ha : GNode key dh dw T a) : 0 ≤ lev key a ∧ lev key a ≤ distance key dh dw := by
  have := gnode_level H ha
  have hd : 3 ≤ distance key dh dw := by
    have := H.2
    cases key <;> exact this
  omega

theorem thin_path_up (H : Long key dh dw) (ht : Thin key dh dw) : ∀ (n : Nat) {a b : Node}, GNode key dh dw 1 a → GNode key dh dw 1 b →
    lev key b = lev key a + n → ∃ es, Path (GAdj key dh dw 1) a b es ∧ es.length = n
  | 0, a, b, ha, hb, h => by
    have : a = b := thin_eq H.1 ht ha hb (by simpa using h.symm)
    subst this
    exact ⟨[], Path.nil _, rfl⟩
  | n + 1, a, b, ha, hb, h => by
    have := gnode_range H hb
    obtain ⟨c, h1, h2⟩ := thin_next H ht ha (by push_cast at h; omega)
    obtain ⟨es, p, l⟩ := thin_path_up H ht n (gadj_nodes h1).2 hb (by push_cast at h; omega)
    exact ⟨_, Path.cons h1 p, by simp [l]⟩

theorem thin_path (H : Long key dh dw) (ht : Thin key dh dw) {a b : Node} (ha : GNode key dh dw 1 a) (hb : GNode key dh dw 1 b) :
    ∃ es, Path (GAdj key dh dw 1) a b es ∧ es.length = (lev key b - lev key a).natAbs := by
  rcases le_total (lev key a) (lev key b) with h | h
  · exact thin_path_up H ht _ ha hb (by omega)
  · obtain ⟨es, p, l⟩ := thin_path_up H ht (lev key b - lev key a).natAbs hb ha (by omega)
    obtain ⟨es', p', l'⟩ := Path.rev (fun _ _ h => GAdj.symm h) p
    exact ⟨es', p', by omega⟩

theorem path_lev {a b : Node} {es : List (Node × Node)} (h : Path (GAdj key dh dw 1) a b es) :
    (lev key b - lev key a).natAbs ≤ es.length := by
  induction h with
  | nil a => simp
  | cons h1 _ ih =>
    have := thin_adj h1
    rw [List.length_cons]
    omega

theorem thin_dist (H : Long key dh dw) (ht : Thin key dh dw) {a b : Node} (ha : GNode key dh dw 1 a) (hb : GNode key dh dw 1 b) :
    pdist (GAdj key dh dw 1) a b = (lev key b - lev key a).natAbs := by
  obtain ⟨es, p, l⟩ := thin_path H ht ha hb
  exact (pdist_spec ⟨es, p⟩).unique ⟨⟨es, p, l⟩, fun es' p' => path_lev p'⟩

theorem thin_unique (H : OddPos dh dw) (ht : Thin key dh dw) {a b : Node} {es : List (Node × Node)} (h : Path (GAdj key dh dw 1) a b es) :
    ∀ {es' : List (Node × Node)}, Path (GAdj key dh dw 1) a b es' → es.length = (lev key b - lev key a).natAbs →
      es'.length = (lev key b - lev key a).natAbs → es = es' := by
  induction h with
  | nil a =>
    intro es' _ _ l'
    rw [sub_self] at l'
    exact (List.length_eq_zero_iff.1 l').symm
  | @cons a c b es h1 p ih =>
    intro es' p' l l'
    cases p' with
    | nil =>
      rw [sub_self, List.length_cons] at l
      simp at l
    | @cons _ c' _ es' h1' p' =>
      rw [List.length_cons] at l l'
      have b1 := path_lev p
      have b2 := path_lev p'
      have a1 := thin_adj h1
      have a2 := thin_adj h1'
      have : c = c' := thin_eq H ht (gadj_nodes h1).2 (gadj_nodes h1').2 (by omega)
      subst this
      rw [ih p' (by omega) (by omega)]

theorem thin_shortest (H : Long key dh dw) (ht : Thin key dh dw) {a b : Node} (ha : GNode key dh dw 1 a) (hb : GNode key dh dw 1 b) :
    numShortest (GAdj key dh dw 1) a b = 1 := by
  unfold numShortest countPaths
  rw [thin_dist H ht ha hb, Set.ncard_eq_one]
  obtain ⟨es, p, l⟩ := thin_path H ht ha hb
  refine ⟨es, ?_⟩
  ext es'
  rw [Set.mem_ofPred_eq, Set.mem_singleton_iff]
  constructor
  · rintro ⟨p', l'⟩
    exact (thin_unique H.1 ht p p' l l').symm
  · rintro rfl
    exact ⟨p, l⟩

theorem thin_boundary (H : Long key dh dw) (ht : Thin key dh dw) {a b : Node} (ha : GNode key dh dw 1 a)
    (hb : b ∈ virtualNodes dh dw key) : boundaryPaths key dh dw 1 (virtualNodes dh dw key) a b = 1 := by
  classical
  have gb : GNode key dh dw 1 b := virt_gnode H.1 hb
  have hf : (virtualNodes dh dw key).filter (fun v => decide (pdist (GAdj key dh dw 1) a v = pdist (GAdj key dh dw 1) a b)) = [b] := by
    have hn : ((virtualNodes dh dw key).filter (fun v => decide (pdist (GAdj key dh dw 1) a v = pdist (GAdj key dh dw 1) a b))).Nodup :=
      (virtualNodes_nodup H.1).filter _
    have hm : ∀ v, v ∈ (virtualNodes dh dw key).filter (fun v => decide (pdist (GAdj key dh dw 1) a v = pdist (GAdj key dh dw 1) a b)) ↔
        v = b := by
      intro v
      rw [List.mem_filter, decide_eq_true_eq]
      constructor
      · rintro ⟨hv, he⟩
        have gv : GNode key dh dw 1 v := virt_gnode H.1 hv
        rw [thin_dist H ht ha gv, thin_dist H ht ha gb] at he
        refine thin_eq H.1 ht gv gb ?_
        have h1 := gnode_level H gv
        have h2 := gnode_level H gb
        have h3 := virtualNodes_t hv
        have h4 := virtualNodes_t hb
        have h5 : distance key dh dw % 2 = 1 := by
          have := H.1
          unfold OddPos at this
          cases key
          · exact this.2.2.2
          · exact this.2.1
        omega
      · rintro rfl
        exact ⟨hb, rfl⟩
    exact List.perm_singleton.1 ((List.perm_ext_iff_of_nodup hn (List.nodup_singleton _)).2 fun v => by rw [hm, List.mem_singleton])
  unfold boundaryPaths
  rw [hf, List.map_singleton, List.sum_singleton]
  exact thin_shortest H ht ha gb

theorem thin_deg (H : Long key dh dw) (ht : Thin key dh dw) (first : Node) {a b : Node} (ha : GNode key dh dw 1 a) (hb : GNode key dh dw 1 b) :
    degValue key dh dw 1 first a b = 1 := by
  unfold degValue
  split
  · rename_i h
    split
    · exact thin_shortest H ht ha hb
    · exact thin_boundary H ht hb ((gnode_virt H.1 ha).2 h)
  · split
    · rename_i h
      split
      · exact thin_shortest H ht ha hb
      · exact thin_boundary H ht ha ((gnode_virt H.1 hb).2 h)
    · exact thin_shortest H ht ha hb

theorem pyTrunc_scaled (z : Int) : pyTrunc ((z : ℝ) * 10000) = 10000 * z := by
  have := pyTrunc_int (10000 * z)
  push_cast at this
  rw [mul_comm]
  exact this

/-- On a repetition code the probability only scales the weights. -/
theorem thin_weight (H : Long key dh dw) (ht : Thin key dh dw) (p : ℝ) {a b : Node} (ha : GNode key dh dw 1 a) (hb : GNode key dh dw 1 b) :
    probWeightInt key dh dw 1 p a b = 10000 * unitWeight key dh dw 1 a b := by
  unfold probWeightInt probWeight unitWeight weightFn
  rw [if_pos rfl]
  split
  · simp [pyTrunc_zero]
  · rw [thin_deg H ht _ ha hb, Nat.cast_one, Real.log_one, zero_div, sub_zero, ← pyTrunc_scaled]
    push_cast
    ring_nf

theorem noptimal_scale {adj : Node → Node → Prop} {U : Node → Node → Int} {M : List (Node × Node)}
    (h : NOptimal adj (fun a b => 10000 * U a b) M) : NOptimal adj U M := by
  refine ⟨h.1, fun M' hM' => ⟨(h.2 M' hM').1, fun hl => ?_⟩⟩
  have := (h.2 M' hM').2 hl
  rw [nweight_scale, nweight_scale] at this
  omega

/-- `err_prob = 0`: the weights are those without probability, in units of 1/10000. -/
theorem corrections_zero {D : Decoder} {s : SGraph} (R : Ready D key s) {m : Matcher} (hm : Contract m)
    {L : List Node} (hne : L ≠ []) (hL : ∀ n ∈ L, GNode key D.dh D.dw D.T n) :
    ∃ M, corrections D m L (rtypeOf key) (some 0) = .ok (kept M, L ++ virtualNodes D.dh D.dw key) ∧
      NOptimal (EAdj L (virtualNodes D.dh D.dw key)) (unitWeight key D.dh D.dw D.T) M := by
  have hz : probGiven (some 0) = probGiven none := if_pos rfl
  obtain ⟨M, h1, h2⟩ := corrections_gen (ep := some 0) R hm (I := fun _ => True) trivial
    (U := fun a b => 10000 * unitWeight key D.dh D.dw D.T a b) (fun a b => by simp only [unitWeight_symm a b]) (by
      intro v hv
      simp only [unitWeight]
      rw [if_pos ⟨rfl, ((mem_virtualNodes R.odd).1 hv).1⟩, mul_zero]) hne hL (by
      intro p hp c _
      have hmem := mem_combinations2 hp
      have hg : ∀ n ∈ L ++ virtualNodes D.dh D.dw key, GNode key D.dh D.dw D.T n := by
        intro n hn
        rcases List.mem_append.1 hn with h | h
        · exact hL n h
        · exact virt_gnode R.odd h
      have he : pairWeight s (virtualNodes D.dh D.dw key) (some 0) p.1 p.2 c = pairWeight s (virtualNodes D.dh D.dw key) none p.1 p.2 c := by
        unfold pairWeight
        rw [hz]
      refine ⟨_, he.trans (pairWeight_none R (hg _ hmem.1) (hg _ hmem.2) c), ?_, trivial⟩
      unfold weightFn
      exact pyTrunc_scaled _)
  exact ⟨M, h1, noptimal_scale h2⟩

/-- With a usable probability, the library optimises the distances on a repetition code. -/
theorem corrections_thin {D : Decoder} {s : SGraph} (R : Ready D key s) (hT : D.T = 1) (ht : Thin key D.dh D.dw) {m : Matcher} (hm : Contract m)
    {L : List Node} (hne : L ≠ []) (hn : L.Nodup) (hL : ∀ n ∈ L, GNode key D.dh D.dw D.T n) (hr : ∀ n ∈ L, n.t ≠ -1)
    {p : ℝ} (h0 : 0 < p) (h1 : p < 1) (h2 : p ≠ 1 / 2) :
    ∃ M, corrections D m L (rtypeOf key) (some p) = .ok (kept M, L ++ virtualNodes D.dh D.dw key) ∧
      NOptimal (EAdj L (virtualNodes D.dh D.dw key)) (unitWeight key D.dh D.dw D.T) M := by
  obtain ⟨M, c1, c2⟩ := corrections_prob R hm hne hn hL hr h0 h1 h2
  refine ⟨M, c1, c2.1, fun M' hM' => ⟨(c2.2 M' hM').1, fun hl => ?_⟩⟩
  have hw := (c2.2 M' hM').2 hl
  have hg : ∀ n ∈ L ++ virtualNodes D.dh D.dw key, GNode key D.dh D.dw D.T n := by
    intro n hn
    rcases List.mem_append.1 hn with h | h
    · exact hL n h
    · exact virt_gnode R.odd h
  have key' : ∀ N, NMatch (EAdj L (virtualNodes D.dh D.dw key)) N → nweight (probWeightInt key D.dh D.dw D.T p) N =
      10000 * nweight (unitWeight key D.dh D.dw D.T) N := by
    intro N hN
    rw [← nweight_scale]
    unfold nweight
    congr 1
    refine List.map_congr_left fun q hq => ?_
    obtain ⟨_, k⟩ := hN.1 q hq
    rw [hT] at hg ⊢
    show _ = 10000 * unitWeight key D.dh D.dw 1 q.1 q.2
    rcases k with ⟨k1, k2⟩ | ⟨_, ⟨k1, k2⟩ | ⟨k1, k2⟩⟩
    · exact thin_weight R.long ht p (hg _ k1) (hg _ k2)
    · rw [probWeightInt_virt _ _ (by rw [k1]; rfl) (virtualNodes_t k2), unitWeight_virt _ _ (by rw [k1]; rfl) (virtualNodes_t k2), mul_zero]
    · rw [probWeightInt_virt _ _ (virtualNodes_t k1) (by rw [k2]; rfl), unitWeight_virt _ _ (virtualNodes_t k1) (by rw [k2]; rfl), mul_zero]
  rw [key' _ hM', key' _ c2.1] at hw
  omega

/-- From hits to strings. -/
theorem strings_of_hits {D : Decoder} {m : Matcher} {ep : Option ℝ} (HO : OddPos D.dh D.dw) (hbig : 1 < D.dh * D.dw) {T : Int} {fs : List Fault}
    {v b : Bool} (h : ∀ (L : List Node) (syn : SynDict), L.Nodup → (∀ n, n ∈ L ↔ IsHit key D.dh D.dw T fs n) → syn (rtypeOf key) = some L →
      ∃ syn', correctHits D m syn (rtypeOf key) (some (bit v)) ep = .ok (some (bit b), syn'))
    {ref : Int → Int → Bool} {rounds : List Str} (hlen : (rounds.length : Int) = T + 1) (hr : RoundsRead key D.dh D.dw ref fs rounds) :
    correctString D m (joinSp ([if v then '1' else '0'] :: rounds.reverse)) (rtypeOf key) ep = .ok (some (bit b)) := by
  have hp := C15_parse_is_changes D.dh D.dw HO hbig (rtypeOf key) (if v then '1' else '0') (by split <;> decide) rounds hr.1
  have hv : digitVal (if v then '1' else '0') = bit v := by cases v <;> decide
  rw [hv] at hp
  have hch : ∀ n, n ∈ changes (sitesOf key D.dh D.dw) (rounds.map (keyBits key D.dh D.dw)) ↔ IsHit key D.dh D.dw T fs n := by
    refine changes_isHit (ref := ref) (by rw [List.length_map]; exact hlen) ?_
    intro t k a p ha hp
    rw [List.getElem?_map, Option.map_eq_some_iff] at ha
    obtain ⟨s, h1, rfl⟩ := ha
    exact hr.2 t k s p h1 hp
  unfold correctString
  simp only [hp, bind, Except.bind]
  have hdict : Hits.toDict { X := changes (xSites D.dh D.dw) (rounds.map (xBits (zSites D.dh D.dw).length)), Z := changes (zSites D.dh D.dw) (rounds.map zBits) }
      (rtypeOf key) = some (changes (sitesOf key D.dh D.dw) (rounds.map (keyBits key D.dh D.dw))) := by
    cases key <;> rfl
  obtain ⟨syn', hc⟩ := h _ _ (changes_nodup' key D.dh D.dw _) hch hdict
  rw [hc]
  rfl

end Qtc
