import Verif.Proof.Degeneracy
/-!
Matching weights with an error probability.
-/
namespace Qtc
open Spec

theorem boundaryPaths_pos {D : Decoder} {key : Key} {s : SGraph} (R : Ready D key s) {a b : Node}
    (ha : GNode key D.dh D.dw D.T a) (hb : b ∈ virtualNodes D.dh D.dw key) :
    0 < boundaryPaths key D.dh D.dw D.T (virtualNodes D.dh D.dw key) a b := by
  unfold boundaryPaths
  have hm : numShortest (GAdj key D.dh D.dw D.T) a b ∈ ((virtualNodes D.dh D.dw key).filter fun v =>
      decide (pdist (GAdj key D.dh D.dw D.T) a v = pdist (GAdj key D.dh D.dw D.T) a b)).map (numShortest (GAdj key D.dh D.dw D.T) a) :=
    List.mem_map.2 ⟨b, List.mem_filter.2 ⟨hb, by simp⟩, rfl⟩
  have h1 := List.le_sum_of_mem hm
  have h2 := numShortest_pos R ha (virt_gnode R.odd hb)
  omega

theorem degValue_pos {D : Decoder} {key : Key} {s : SGraph} (R : Ready D key s) (first : Node) {a b : Node}
    (ha : GNode key D.dh D.dw D.T a) (hb : GNode key D.dh D.dw D.T b) : 0 < degValue key D.dh D.dw D.T first a b := by
  unfold degValue
  split
  · rename_i h1
    split
    · exact numShortest_pos R ha hb
    · exact boundaryPaths_pos R hb ((gnode_virt R.odd ha).2 h1)
  · split
    · rename_i h2
      split
      · exact numShortest_pos R ha hb
      · exact boundaryPaths_pos R ha ((gnode_virt R.odd hb).2 h2)
    · exact numShortest_pos R ha hb

/-- The weight of a pair as a real number. -/
noncomputable def probWeight (key : Key) (dh dw T : Int) (p : ℝ) (a b : Node) : ℝ :=
  if a.t = -1 ∧ b.t = -1 then 0
  else -1 * ((pdist (GAdj key dh dw T) a b : ℝ) -
    Real.log (degValue key dh dw T (startNode key 0) a b) / (Real.log (1 - p) - Real.log p))

theorem probWeight_symm {key : Key} {dh dw T : Int} {p : ℝ} (a b : Node) :
    probWeight key dh dw T p a b = probWeight key dh dw T p b a := by
  unfold probWeight
  by_cases h : a.t = -1 ∧ b.t = -1
  · rw [if_pos h, if_pos h.symm]
  · rw [if_neg h, if_neg (fun h' => h h'.symm), pdist_symm (fun _ _ h => GAdj.symm h) a b, degValue_symm h]

/-- The weight of a pair given to the library. -/
noncomputable def probWeightInt (key : Key) (dh dw T : Int) (p : ℝ) (a b : Node) : Int :=
  weightFn true (probWeight key dh dw T p a b)

theorem pyTrunc_zero : pyTrunc 0 = 0 := by
  have := pyTrunc_int 0
  rwa [Int.cast_zero] at this

theorem probWeightInt_virt {key : Key} {dh dw T : Int} {p : ℝ} (a b : Node) (ha : a.t = -1) (hb : b.t = -1) :
    probWeightInt key dh dw T p a b = 0 := by
  unfold probWeightInt probWeight
  rw [if_pos ⟨ha, hb⟩]
  show pyTrunc (if true then (0 : ℝ) * 10000 else 0) = 0
  rw [if_pos rfl, zero_mul, pyTrunc_zero]

theorem log_ne {p : ℝ} (h0 : 0 < p) (h1 : p < 1) (h2 : p ≠ 1 / 2) : Real.log (1 - p) - Real.log p ≠ 0 := by
  intro h
  have h3 : Real.log (1 - p) = Real.log p := by linarith
  have := Real.log_injOn_pos (Set.mem_Ioi.2 (by linarith : (0:ℝ) < 1 - p)) (Set.mem_Ioi.2 h0) h3
  exact h2 (by linarith)

theorem degDistance_ok {dist : ℝ} {deg : Nat} {p : ℝ} (hd : 0 < deg) (h0 : 0 < p) (h1 : p < 1) (h2 : p ≠ 1 / 2) :
    degDistance dist deg p = .ok (dist - Real.log deg / (Real.log (1 - p) - Real.log p)) := by
  unfold degDistance
  rw [if_neg (by omega), if_neg (by linarith), if_neg (by linarith), if_neg (log_ne h0 h1 h2)]

theorem pairWeight_virt {s : SGraph} {virt : List Node} {ep : Option ℝ} {a b : Node} {c : Cache} (ha : a ∈ virt) (hb : b ∈ virt) :
    pairWeight s virt ep a b c = .ok (0, c) := by
  unfold pairWeight
  rw [if_pos (by rw [Bool.and_eq_true, List.contains_iff_mem, List.contains_iff_mem]; exact ⟨ha, hb⟩)]

/-- A pair that is not on the boundary, in terms of its degeneracy. -/
theorem pairWeight_some {D : Decoder} {key : Key} {s : SGraph} (R : Ready D key s) {a b : Node}
    (ha : GNode key D.dh D.dw D.T a) (hb : GNode key D.dh D.dw D.T b) (hab : a ≠ b) (hv : ¬ (a.t = -1 ∧ b.t = -1))
    {c : Cache} (hc : CacheOk s c) {p : ℝ} (hp : p ≠ 0) :
    ∃ c', CacheOk s c' ∧ pairWeight s (virtualNodes D.dh D.dw key) (some p) a b c =
      (degDistance (pdist (GAdj key D.dh D.dw D.T) a b) (degValue key D.dh D.dw D.T (startNode key 0) a b) p).map
        (fun d => (-1 * d, c')) := by
  obtain ⟨i, j, hi, hj, _, _, hd⟩ := R.dist ha hb
  have h1 := pathDegeneracy_val R (first_node R) hc ha hb hv
  rw [if_neg hab] at h1
  obtain ⟨c', h1, hc'⟩ := h1
  refine ⟨c', hc', ?_⟩
  unfold pairWeight
  rw [if_neg]
  · have hpg : probGiven (some p) = some p := if_neg hp
    simp only [hi, hj, bind, Except.bind, hd, hpg, h1]
    cases degDistance (pdist (GAdj key D.dh D.dw D.T) a b : ℝ) (degValue key D.dh D.dw D.T (startNode key 0) a b) p with
    | error e => rfl
    | ok d => rfl
  · rw [Bool.and_eq_true, List.contains_iff_mem, List.contains_iff_mem, gnode_virt R.odd ha, gnode_virt R.odd hb]
    exact hv

theorem hits_virt_nodup {D : Decoder} {key : Key} (H : OddPos D.dh D.dw) {L : List Node} (hn : L.Nodup)
    (hr : ∀ n ∈ L, n.t ≠ -1) : (L ++ virtualNodes D.dh D.dw key).Nodup := by
  rw [List.nodup_append]
  refine ⟨hn, virtualNodes_nodup H, ?_⟩
  rintro a ha b hb rfl
  exact hr a ha (virtualNodes_t hb)

/-- With a usable probability the call succeeds and the library optimises `probWeightInt`. -/
theorem corrections_prob {D : Decoder} {key : Key} {s : SGraph} (R : Ready D key s) {m : Matcher} (hm : Contract m)
    {L : List Node} (hne : L ≠ []) (hn : L.Nodup) (hL : ∀ n ∈ L, GNode key D.dh D.dw D.T n) (hr : ∀ n ∈ L, n.t ≠ -1)
    {p : ℝ} (h0 : 0 < p) (h1 : p < 1) (h2 : p ≠ 1 / 2) :
    ∃ M, corrections D m L (rtypeOf key) (some p) = .ok (kept M, L ++ virtualNodes D.dh D.dw key) ∧
      NOptimal (EAdj L (virtualNodes D.dh D.dw key)) (probWeightInt key D.dh D.dw D.T p) M := by
  have hg : ∀ n ∈ L ++ virtualNodes D.dh D.dw key, GNode key D.dh D.dw D.T n := by
    intro n hn
    rcases List.mem_append.1 hn with h | h
    · exact hL n h
    · exact virt_gnode R.odd h
  refine corrections_gen R hm (I := CacheOk s) (cacheOk_empty s) (fun a b => ?_) ?_ hne hL ?_
  · unfold probWeightInt
    rw [probWeight_symm]
  · intro v hv
    exact probWeightInt_virt _ _ rfl (virtualNodes_t hv)
  · intro q hq c hc
    obtain ⟨m1, m2⟩ := mem_combinations2 hq
    have hab := combinations2_ne (hits_virt_nodup R.odd hn hr) hq
    have ga := hg _ m1
    have gb := hg _ m2
    by_cases hv : q.1.t = -1 ∧ q.2.t = -1
    · refine ⟨_, pairWeight_virt ((gnode_virt R.odd ga).2 hv.1) ((gnode_virt R.odd gb).2 hv.2), ?_, hc⟩
      rw [probWeightInt_virt _ _ hv.1 hv.2]
      unfold weightFn
      simp [pyTrunc_zero]
    · obtain ⟨c', hc', hp⟩ := pairWeight_some R ga gb hab hv hc (ne_of_gt h0)
      rw [degDistance_ok (degValue_pos R _ ga gb) h0 h1 h2] at hp
      refine ⟨_, hp, ?_, hc'⟩
      unfold probWeightInt probWeight
      rw [if_neg hv]
      rfl

/-- An error in the weight of the first pair ends the call. -/
theorem corrections_err {D : Decoder} {key : Key} {s : SGraph} (R : Ready D key s) {m : Matcher}
    {L : List Node} (hne : L ≠ []) (hn : L.Nodup) (hL : ∀ n ∈ L, GNode key D.dh D.dw D.T n) (hr : ∀ n ∈ L, n.t ≠ -1)
    {p : ℝ} (hp : p ≠ 0) {e : PyErr} (he : ∀ (dist : ℝ) (deg : Nat), 0 < deg → degDistance dist deg p = .error e) :
    corrections D m L (rtypeOf key) (some p) = .error e := by
  obtain ⟨a, L', rfl⟩ := List.exists_cons_of_ne_nil hne
  have hg : ∀ n ∈ (a :: L') ++ virtualNodes D.dh D.dw key, GNode key D.dh D.dw D.T n := by
    intro n hn
    rcases List.mem_append.1 hn with h | h
    · exact hL n h
    · exact virt_gnode R.odd h
  have hnd := hits_virt_nodup (key := key) R.odd hn hr
  have hne' : L' ++ virtualNodes D.dh D.dw key ≠ [] := by
    intro h
    exact virtualNodes_ne_nil (key := key) R.odd (List.append_eq_nil_iff.1 h).2
  obtain ⟨b, l, hb⟩ := List.exists_cons_of_ne_nil hne'
  have hcons : (a :: L') ++ virtualNodes D.dh D.dw key = a :: b :: l := by rw [List.cons_append, hb]
  rw [hcons] at hg hnd
  have hab : a ≠ b := by
    rw [List.nodup_cons] at hnd
    rintro rfl
    exact hnd.1 List.mem_cons_self
  obtain ⟨c', _, hpw⟩ := pairWeight_some R (hg a (by simp)) (hg b (by simp)) hab (fun h => hr a (by simp) h.1) (cacheOk_empty s) hp
  rw [he _ _ (degValue_pos R _ (hg a (by simp)) (hg b (by simp)))] at hpw
  unfold corrections
  rw [if_neg hne, RType.key_rtypeOf]
  simp only [R.graph, R.virt]
  unfold makeErrorGraph
  rw [hcons]
  unfold combinations2
  rw [List.map_cons, List.cons_append, List.foldlM_cons]
  unfold pairStep
  simp only [hpw, Except.map, bind, Except.bind]

/-! ### Small probabilities -/

theorem pyTrunc_ge {x : ℝ} {z : Int} (h : (z : ℝ) ≤ x) : z ≤ pyTrunc x := by
  unfold pyTrunc
  split
  · exact Int.le_floor.2 h
  · have : (z : ℝ) ≤ (⌈x⌉ : ℝ) := h.trans (Int.le_ceil x)
    exact_mod_cast this

theorem pyTrunc_le (x : ℝ) : (pyTrunc x : ℝ) ≤ x + 1 := by
  unfold pyTrunc
  split
  · have := Int.floor_le x
    linarith
  · exact (Int.ceil_lt_add_one x).le

theorem log_pos_of_small {p : ℝ} (h0 : 0 < p) (h1 : p < 1 / 2) : 0 < Real.log (1 - p) - Real.log p := by
  have := Real.log_lt_log h0 (by linarith : p < 1 - p)
  linarith

/-- The integer weight is the distance in units of `1/10000`, up to a bounded one-sided error. -/
theorem probWeightInt_bounds {D : Decoder} {key : Key} {s : SGraph} (R : Ready D key s) {p : ℝ} (h0 : 0 < p) (h1 : p < 1 / 2)
    {K : Nat} {a b : Node} (ha : GNode key D.dh D.dw D.T a) (hb : GNode key D.dh D.dw D.T b)
    (hK : degValue key D.dh D.dw D.T (startNode key 0) a b ≤ K) (hv : ¬ (a.t = -1 ∧ b.t = -1)) :
    10000 * unitWeight key D.dh D.dw D.T a b ≤ probWeightInt key D.dh D.dw D.T p a b ∧
    (probWeightInt key D.dh D.dw D.T p a b : ℝ) ≤ 10000 * (unitWeight key D.dh D.dw D.T a b : ℝ) +
      (10000 * (Real.log K / (Real.log (1 - p) - Real.log p)) + 1) := by
  have hq := log_pos_of_small h0 h1
  have hd := degValue_pos R (startNode key 0) ha hb
  have hl0 : 0 ≤ Real.log (degValue key D.dh D.dw D.T (startNode key 0) a b) := Real.log_natCast_nonneg _
  have hlK : Real.log (degValue key D.dh D.dw D.T (startNode key 0) a b) ≤ Real.log K := by
    apply Real.log_le_log
    · exact_mod_cast hd
    · exact_mod_cast hK
  have hx0 := div_nonneg hl0 hq.le
  have hxK := div_le_div_of_nonneg_right hlK hq.le
  unfold probWeightInt weightFn probWeight unitWeight
  rw [if_neg hv, if_neg hv, if_pos rfl]
  constructor
  · apply pyTrunc_ge
    push_cast
    nlinarith
  · refine (pyTrunc_le _).trans ?_
    push_cast
    nlinarith

theorem length_le_reals : ∀ (Ms : List (Node × Node)), (∀ p ∈ Ms, ¬ (p.1.t = -1 ∧ p.2.t = -1)) →
    Ms.length ≤ ((ends Ms).filter isReal).length
  | [], _ => by simp
  | p :: Ms, h => by
    have ih := length_le_reals Ms fun q hq => h q (List.mem_cons_of_mem _ hq)
    have hp := h p List.mem_cons_self
    rw [ends_cons]
    by_cases h1 : p.1.t = -1
    · have h2 : isReal p.2 = true := isReal_iff.2 fun h2 => hp ⟨h1, h2⟩
      have h3 : ¬ isReal p.1 = true := fun h => isReal_iff.1 h h1
      rw [List.filter_cons_of_neg h3, List.filter_cons_of_pos h2, List.length_cons, List.length_cons]
      omega
    · have h2 : isReal p.1 = true := isReal_iff.2 h1
      rw [List.filter_cons_of_pos h2, List.length_cons, List.length_cons]
      have : ((ends Ms).filter isReal).length ≤ ((p.2 :: ends Ms).filter isReal).length :=
        ((List.sublist_cons_self _ _).filter _).length_le
      omega

theorem kept_length {L : List Node} {Ms : List (Node × Node)} (hnd : (ends Ms).Nodup)
    (hv : ∀ p ∈ Ms, ¬ (p.1.t = -1 ∧ p.2.t = -1)) (hL : ∀ n, n.t ≠ -1 → (n ∈ ends Ms ↔ n ∈ L)) : Ms.length ≤ L.length := by
  refine (length_le_reals Ms hv).trans ?_
  refine (List.subperm_of_subset (hnd.filter _) ?_).length_le
  intro n hn
  rw [List.mem_filter, isReal_iff] at hn
  exact (hL n hn.2).1 hn.1

theorem ends_length_two : ∀ (E : List (Node × Node)), (ends E).length = 2 * E.length
  | [] => rfl
  | p :: E => by
    rw [ends_cons, List.length_cons, List.length_cons, List.length_cons, ends_length_two E]
    omega

theorem hits_length {key : Key} {dh dw T : Int} (H : OddPos dh dw) {fs : List Fault} (hf : ∀ f ∈ fs, f.Fits key dh dw T)
    {L : List Node} (hn : L.Nodup) (hL : ∀ n ∈ L, IsHit key dh dw T fs n) : L.length ≤ 2 * fs.length := by
  obtain ⟨E, e1, _, e3, _⟩ := fault_edges (T := T) H fs hf
  have hlen := ends_length_two E
  have := (List.subperm_of_subset hn (l₂ := ends E) ?_).length_le
  · omega
  · intro n h
    obtain ⟨h1, _, h3, h4⟩ := hL n h
    rw [← e3 n (by omega) h3] at h4
    exact List.count_pos_iff.1 (by omega)

theorem nweight_le_of {U V : Node → Node → Int} : ∀ (M : List (Node × Node)), (∀ p ∈ M, U p.1 p.2 ≤ V p.1 p.2) →
    nweight U M ≤ nweight V M
  | [], _ => le_refl _
  | p :: M, h => by
    have ih := nweight_le_of M fun q hq => h q (List.mem_cons_of_mem _ hq)
    have := h p List.mem_cons_self
    unfold nweight at *
    rw [List.map_cons, List.sum_cons, List.map_cons, List.sum_cons]
    omega

theorem nweight_scale {U : Node → Node → Int} : ∀ (M : List (Node × Node)),
    nweight (fun a b => 10000 * U a b) M = 10000 * nweight U M
  | [] => rfl
  | p :: M => by
    have ih := nweight_scale (U := U) M
    unfold nweight at *
    rw [List.map_cons, List.sum_cons, List.map_cons, List.sum_cons, ih]
    exact (mul_add _ _ _).symm

theorem nweight_real_le {U V : Node → Node → Int} {B : ℝ} : ∀ (M : List (Node × Node)),
    (∀ p ∈ M, (U p.1 p.2 : ℝ) ≤ 10000 * (V p.1 p.2 : ℝ) + B) → (nweight U M : ℝ) ≤ 10000 * (nweight V M : ℝ) + M.length * B
  | [], _ => by simp [nweight]
  | p :: M, h => by
    have ih := nweight_real_le M fun q hq => h q (List.mem_cons_of_mem _ hq)
    have := h p List.mem_cons_self
    unfold nweight at *
    rw [List.map_cons, List.sum_cons, List.map_cons, List.sum_cons, List.length_cons, Int.cast_add, Int.cast_add, Nat.cast_add,
      Nat.cast_one]
    linarith

/-- If the corrections of the distances are small enough, the matching is also optimal for the distances alone. -/
theorem optimal_small {D : Decoder} {key : Key} {s : SGraph} (R : Ready D key s) {p : ℝ} (h0 : 0 < p) (h1 : p < 1 / 2)
    {K : Nat} (hK : ∀ a b, GNode key D.dh D.dw D.T a → GNode key D.dh D.dw D.T b → ¬ (a.t = -1 ∧ b.t = -1) → a ≠ b →
      degValue key D.dh D.dw D.T (startNode key 0) a b ≤ K)
    {L : List Node} (hn : L.Nodup) (hL : ∀ n ∈ L, GNode key D.dh D.dw D.T n) (hr : ∀ n ∈ L, n.t ≠ -1)
    (hsmall : (L.length : ℝ) * (10000 * (Real.log K / (Real.log (1 - p) - Real.log p)) + 1) < 10000)
    {M : List (Node × Node)} (hM : NOptimal (EAdj L (virtualNodes D.dh D.dw key)) (probWeightInt key D.dh D.dw D.T p) M) :
    NOptimal (EAdj L (virtualNodes D.dh D.dw key)) (unitWeight key D.dh D.dw D.T) M := by
  refine ⟨hM.1, ?_⟩
  intro M' hM'
  obtain ⟨g1, g2⟩ := hM.2 M' hM'
  refine ⟨g1, ?_⟩
  intro hlen
  have hw := g2 hlen
  have hg : ∀ n ∈ L ++ virtualNodes D.dh D.dw key, GNode key D.dh D.dw D.T n := by
    intro n hn
    rcases List.mem_append.1 hn with h | h
    · exact hL n h
    · exact virt_gnode R.odd h
  -- pairs of a matching
  have hpair : ∀ q : Node × Node, EAdj L (virtualNodes D.dh D.dw key) q.1 q.2 → ¬ (q.1.t = -1 ∧ q.2.t = -1) →
      GNode key D.dh D.dw D.T q.1 ∧ GNode key D.dh D.dw D.T q.2 := by
    rintro q (⟨k1, k2⟩ | ⟨_, ⟨k1, k2⟩ | ⟨k1, k2⟩⟩) hv
    · exact ⟨hg _ k1, hg _ k2⟩
    · exact absurd ⟨by rw [k1]; rfl, virtualNodes_t k2⟩ hv
    · exact absurd ⟨virtualNodes_t k1, by rw [k2]; rfl⟩ hv
  have lower : 10000 * nweight (unitWeight key D.dh D.dw D.T) M' ≤ nweight (probWeightInt key D.dh D.dw D.T p) M' := by
    rw [← nweight_scale]
    apply nweight_le_of
    intro q hq
    obtain ⟨k1, k2⟩ := hM'.1 q hq
    by_cases hv : q.1.t = -1 ∧ q.2.t = -1
    · rw [probWeightInt_virt _ _ hv.1 hv.2, unitWeight_virt _ _ hv.1 hv.2]
      omega
    · obtain ⟨k3, k4⟩ := hpair q k2 hv
      exact (probWeightInt_bounds R h0 h1 k3 k4 (hK _ _ k3 k4 hv k1) hv).1
  have hpar : ParityOk L := parityOk_nodup hn hr
  obtain ⟨M0, a1, a2, a3⟩ := hits_pairing (key := key) R.odd L
  obtain ⟨hperm, _⟩ := optimal_covers R.odd hL hpar probWeightInt_virt a1 a2 a3 hM
  obtain ⟨f1, f2, f3, f4⟩ := kept_facts R.odd hL hM.1 hperm
  have upper : (nweight (probWeightInt key D.dh D.dw D.T p) M : ℝ) ≤ 10000 * (nweight (unitWeight key D.dh D.dw D.T) M : ℝ) +
      (kept M).length * (10000 * (Real.log K / (Real.log (1 - p) - Real.log p)) + 1) := by
    rw [← nweight_kept probWeightInt_virt M, ← nweight_kept unitWeight_virt M]
    apply nweight_real_le
    intro q hq
    obtain ⟨q1, q2⟩ := mem_kept.1 hq
    obtain ⟨k1, k2⟩ := hM.1.1 q q1
    obtain ⟨k3, k4⟩ := hpair q k2 q2
    exact (probWeightInt_bounds R h0 h1 k3 k4 (hK _ _ k3 k4 q2 k1) q2).2
  have hkl := kept_length f1 f4 f2
  have hB : 0 ≤ 10000 * (Real.log K / (Real.log (1 - p) - Real.log p)) + 1 := by
    have := div_nonneg (Real.log_natCast_nonneg K) (log_pos_of_small h0 h1).le
    linarith
  have hkl' : ((kept M).length : ℝ) ≤ L.length := by exact_mod_cast hkl
  have hmul := mul_le_mul_of_nonneg_right hkl' hB
  by_contra hc
  have hc' : nweight (unitWeight key D.dh D.dw D.T) M + 1 ≤ nweight (unitWeight key D.dh D.dw D.T) M' := by omega
  have l1 : (10000 * nweight (unitWeight key D.dh D.dw D.T) M + 10000 : ℝ) ≤ nweight (probWeightInt key D.dh D.dw D.T p) M := by
    have : 10000 * nweight (unitWeight key D.dh D.dw D.T) M + 10000 ≤ nweight (probWeightInt key D.dh D.dw D.T p) M := by omega
    exact_mod_cast this
  linarith

end Qtc
