import Verif.Proof.AnyMatching
import Verif.Props.Pairing
/-!
Which matchings a library may return, in terms of smallest explanations of the hits.
-/
namespace Qtc
open Spec

/-- If everything occurs an even number of times, parities cancel. -/
theorem xorAll_even {α : Type} [DecidableEq α] (f : α → Bool) : ∀ (k : Nat) (l : List α), l.length ≤ k → (∀ a, l.count a % 2 = 0) →
    xorAll (l.map f) = false
  | _, [], _, _ => rfl
  | 0, a :: l, h, _ => by simp at h
  | k + 1, a :: l, h, hc => by
    have hal : a ∈ l := by
      have := hc a
      rw [List.count_cons_self] at this
      exact List.count_pos_iff.1 (by omega)
    have hp : (a :: l).Perm (a :: a :: l.erase a) := (List.perm_cons_erase hal).cons a
    rw [xorAll_perm (hp.map f), List.map_cons, List.map_cons, xorAll_cons, xorAll_cons]
    have hlen := hp.length_eq
    rw [List.length_cons, List.length_cons, List.length_cons] at hlen
    rw [List.length_cons] at h
    rw [xorAll_even f k (l.erase a) (by omega) fun b => ?_]
    · simp
    · have h1 := hc b
      rw [hp.count_eq b, List.count_cons, List.count_cons] at h1
      split at h1 <;> omega

theorem xorAll_counts {α : Type} [DecidableEq α] (f : α → Bool) {l l' : List α} (h : ∀ a, l.count a % 2 = l'.count a % 2) :
    xorAll (l.map f) = xorAll (l'.map f) := by
  have := xorAll_even f _ (l ++ l') (Nat.le_refl _) fun a => by
    rw [List.count_append]
    have := h a
    omega
  rw [List.map_append, xorAll_append] at this
  simpa using this

theorem xorAll_pairs {α : Type} (f : α → Bool) (M : List (α × α)) : xorAll (M.map fun p => (f p.1 ^^ f p.2)) = xorAll ((ends M).map f) := by
  induction M with
  | nil => rfl
  | cons p M ih => rw [List.map_cons, xorAll_cons, ih, ends_cons, List.map_cons, List.map_cons, xorAll_cons, xorAll_cons, Bool.xor_assoc]

variable {D : Decoder} {key : Key} {s : SGraph}

/-- Pairs of nodes that cause these hits can be turned into faults that explain them. -/
theorem explains_of_pairs (R : Ready D key s) {L : List Node} (hn : L.Nodup) (hL : ∀ n ∈ L, HitPlace key D n) {M : List (Node × Node)}
    (hg : ∀ n ∈ ends M, GNode key D.dh D.dw D.T n) (hc : ∀ n : Node, n.t ≠ -1 → (ends M).count n = L.count n) :
    ∃ fs, Explains key D.dh D.dw D.T L fs ∧ fs.length = totalDist key D.dh D.dw D.T M ∧ readoutFlipped key fs = crossPar key M := by
  obtain ⟨C, k1, k2, k3, k4⟩ := pairs_paths R.long R.pos M hg
  obtain ⟨fs, f1, f2, f3, f4⟩ := edges_faults R.odd C k2
  refine ⟨fs, ⟨f2, fun n => ⟨?_, fun h => ?_⟩⟩, by rw [f1, k1], by rw [f4, k4 0]; rfl⟩
  · rintro ⟨a1, a2, a3, a4⟩
    have hr : n.t ≠ -1 := by omega
    rw [f3 n hr a3, k3 n, hc n hr] at a4
    exact List.count_pos_iff.1 (by omega)
  · obtain ⟨a1, a2, a3⟩ := hL n h
    have hr := hitPlace_real (hL n h)
    refine ⟨a1, a2, a3, ?_⟩
    rw [f3 n hr a3, k3 n, hc n hr, List.count_eq_one_of_mem hn h]

/-- A smallest explanation comes from pairs that some library returns. -/
theorem least_realised (R : Ready D key s) {L : List Node} (hne : L ≠ []) (hn : L.Nodup) (hL : ∀ n ∈ L, HitPlace key D n) {fs : List Fault}
    (h : LeastExplains key D.dh D.dw D.T L fs) :
    ∃ m M L', Contract m ∧ corrections D m L (rtypeOf key) none = .ok (M, L') ∧ (∀ n ∈ ends M, GNode key D.dh D.dw D.T n) ∧
      (∀ p ∈ M, ¬ (p.1.t = -1 ∧ p.2.t = -1)) ∧ crossPar key M = readoutFlipped key fs := by
  classical
  obtain ⟨⟨hfit, hhit⟩, hleast⟩ := h
  have HO := R.odd
  have hLg : ∀ n ∈ L, GNode key D.dh D.dw D.T n := fun n h => hitPlace_gnode (hL n h)
  have hLr : ∀ n ∈ L, n.t ≠ -1 := fun n h => hitPlace_real (hL n h)
  have hpar : ParityOk L := parityOk_nodup hn hLr
  obtain ⟨E, e1, e2, e3, e4⟩ := fault_edges (T := D.T) HO fs hfit
  have hEg : ∀ n ∈ ends E, GNode key D.dh D.dw D.T n := by
    intro n hn
    obtain ⟨p, hp, h⟩ := mem_ends.1 hn
    have := gadj_nodes (e2 p hp)
    rcases h with rfl | rfl
    · exact this.1
    · exact this.2
  have hEc : ∀ n, n.t ≠ -1 → ((ends E).count n % 2 = 1 ↔ n ∈ L) := by
    intro n hn
    rw [← hhit n]
    constructor
    · intro h
      have hmem : n ∈ ends E := List.count_pos_iff.1 (by omega)
      rcases hEg n hmem with ⟨g1, g2, g3⟩ | ⟨g1, _⟩
      · exact ⟨g1, g2, g3, by rw [← e3 n hn g3]; exact h⟩
      · exact absurd g1 hn
    · rintro ⟨_, _, g3, g4⟩
      rw [e3 n hn g3]
      exact g4
  obtain ⟨M0, m1, m2, m3⟩ := exists_pairing (pdist (GAdj key D.dh D.dw D.T)) (GNode key D.dh D.dw D.T)
    (fun a b => pdist_symm (fun _ _ h => GAdj.symm h) a b) (fun a => pdist_self _ a)
    (fun a b c ha hb hc => pdist_tri (gnode_connected R.long R.pos ha hb) (gnode_connected R.long R.pos hb hc)) E
    (fun e he => ⟨(gadj_nodes (e2 e he)).1, (gadj_nodes (e2 e he)).2, pdist_adj (e2 e he)⟩)
  have hM0g : ∀ n ∈ ends M0, GNode key D.dh D.dw D.T n := by
    intro n hn
    exact hEg n (List.count_pos_iff.1 (by have := (m2 n).1 hn; omega))
  have hcov : ∀ n, n.t ≠ -1 → (n ∈ ends M0 ↔ n ∈ L) := fun n hn => by rw [m2 n, hEc n hn]
  have hvirt : ∀ n ∈ ends M0, n.t = -1 → n ∈ virtualNodes D.dh D.dw key := fun n hn ht => (gnode_virt HO (hM0g n hn)).2 ht
  have hcount : ∀ l : List (Node × Node), (ends l).Nodup → (∀ n, n.t ≠ -1 → (n ∈ ends l ↔ n ∈ L)) →
      ∀ n : Node, n.t ≠ -1 → (ends l).count n = L.count n := by
    intro l h1 h2 n ht
    by_cases hmem : n ∈ L
    · rw [List.count_eq_one_of_mem hn hmem, List.count_eq_one_of_mem h1 ((h2 n ht).2 hmem)]
    · rw [List.count_eq_zero_of_not_mem hmem, List.count_eq_zero_of_not_mem fun h => hmem ((h2 n ht).1 h)]
  -- a pair of two boundary nodes could be left out
  have hkept : kept M0 = M0 := by
    by_contra hk
    have hex : ∃ p ∈ M0, p.1.t = -1 ∧ p.2.t = -1 := by
      by_contra hno
      apply hk
      unfold kept
      rw [List.filter_eq_self]
      intro p hp
      have := fun h => hno ⟨p, hp, h⟩
      simp only [Bool.not_eq_true', Bool.and_eq_false_imp, beq_iff_eq, beq_eq_false_iff_ne]
      tauto
    obtain ⟨p, hp, hv1, hv2⟩ := hex
    have hperm := List.perm_cons_erase hp
    have hends : (ends M0).Perm (p.1 :: p.2 :: ends (M0.erase p)) := by
      have := hperm.flatMap_right fun p : Node × Node => [p.1, p.2]
      exact this
    have hnd' : (ends (M0.erase p)).Nodup := ((List.nodup_cons.1 ((List.nodup_cons.1 (hends.nodup_iff.1 m1)).2)).2)
    obtain ⟨fs', x1, x2, -⟩ := explains_of_pairs R hn hL (M := M0.erase p)
      (fun n hn => hM0g n (hends.mem_iff.2 (List.mem_cons_of_mem _ (List.mem_cons_of_mem _ hn))))
      (hcount _ hnd' fun n ht => by
        rw [← hcov n ht, hends.mem_iff, List.mem_cons, List.mem_cons]
        constructor
        · exact fun h => Or.inr (Or.inr h)
        · rintro (rfl | rfl | h)
          · exact absurd hv1 ht
          · exact absurd hv2 ht
          · exact h)
    have hle := hleast fs' x1
    have hsum : totalDist key D.dh D.dw D.T M0 = pdist (GAdj key D.dh D.dw D.T) p.1 p.2 + totalDist key D.dh D.dw D.T (M0.erase p) := by
      unfold totalDist
      rw [(hperm.map fun p : Node × Node => pdist (GAdj key D.dh D.dw D.T) p.1 p.2).sum_eq, List.map_cons, List.sum_cons]
    have hne12 : p.1 ≠ p.2 := ends_ne m1 p hp
    have hpos : 0 < pdist (GAdj key D.dh D.dw D.T) p.1 p.2 := by
      rcases Nat.eq_zero_or_pos (pdist (GAdj key D.dh D.dw D.T) p.1 p.2) with h0 | h0
      · exfalso
        have hs := pdist_spec (gnode_connected R.long R.pos (hM0g p.1 (mem_ends.2 ⟨p, hp, Or.inl rfl⟩)) (hM0g p.2 (mem_ends.2 ⟨p, hp, Or.inr rfl⟩)))
        rw [h0] at hs
        obtain ⟨⟨es, p1, p2⟩, -⟩ := hs
        rw [List.length_eq_zero_iff.1 p2] at p1
        have : ∀ a b : Node, Path (GAdj key D.dh D.dw D.T) a b [] → a = b := by
          intro a b h
          cases h
          rfl
        exact hne12 (this _ _ p1)
      · exact h0
    unfold totalDist at hsum x2
    omega
  have hM0v : ∀ p ∈ M0, ¬ (p.1.t = -1 ∧ p.2.t = -1) := by
    intro p hp
    rw [← hkept] at hp
    exact (mem_kept.1 hp).2
  obtain ⟨M1, c1, c2, c3, c4⟩ := complete_pairing (key := key) HO hpar (unitWeight_virt (key := key) (dh := D.dh) (dw := D.dw) (T := D.T)) m1 hcov hvirt
  -- it is optimal, because another one is
  obtain ⟨m0, hm0⟩ := contract_exists
  obtain ⟨M, gs, h1, h6, h7, hx, hlen, hfit', hhit', hmin⟩ := kept_explanation R.made R.graph HO hm0 hn hL hne
  obtain ⟨M', h1', hopt, hperm', -, -, -, -⟩ := corrections_full R hm0 hne hLg hpar
  have hMM : kept M' = kept M := (Prod.mk.inj (Except.ok.inj (h1'.symm.trans h1))).1
  have hle : totalDist key D.dh D.dw D.T M0 ≤ gs.length := by
    have := hleast gs ⟨hfit', hhit'⟩
    unfold totalDist
    omega
  have hlenM : M1.length = M'.length := by
    have := c2.length_eq
    rw [← hperm'.length_eq, length_ends, length_ends] at this
    omega
  have hwM : nweight (unitWeight key D.dh D.dw D.T) M' ≤ nweight (unitWeight key D.dh D.dw D.T) M1 := by
    rw [c3, nweight_eq hM0v, ← nweight_kept unitWeight_virt M', hMM, nweight_eq h7]
    omega
  have hbest : NOptimal (EAdj L (virtualNodes D.dh D.dw key)) (unitWeight key D.dh D.dw D.T) M1 := by
    refine ⟨c1, fun M'' hM'' => ?_⟩
    obtain ⟨o1, o2⟩ := hopt.2 M'' hM''
    rw [hlenM]
    exact ⟨o1, fun h => (o2 h).trans hwM⟩
  obtain ⟨m, hm, hcor⟩ := corrections_any R hne hLg hbest
  rw [c4, hkept] at hcor
  refine ⟨m, M0, _, hm, hcor, hM0g, hM0v, ?_⟩
  rw [← e4]
  unfold crossPar cutPar
  rw [xorAll_pairs (fun n => decide (lev key n ≤ 0)), xorAll_pairs (fun n => decide (lev key n ≤ 0))]
  apply xorAll_counts
  intro n
  by_cases hmem : n ∈ ends M0
  · rw [List.count_eq_one_of_mem m1 hmem, (m2 n).1 hmem]
  · rw [List.count_eq_zero_of_not_mem hmem]
    have : ¬ (ends E).count n % 2 = 1 := fun h => hmem ((m2 n).2 h)
    omega

end Qtc
