import Verif.Proof.Core
/-!
From matchings to the value returned by `correct_readout`.
-/
namespace Qtc
open Spec

theorem gnode_top {key : Key} {dh dw T : Int} (H : Long key dh dw) {n : Node} (h : GNode key dh dw T n) :
    decide (lev key n ≤ 0) = (n.t == -1 && (match key with | .Z => n.r2 == -1 | .X => n.c2 == -1)) := by
  have hl := gnode_level H h
  obtain ⟨HO, hlong⟩ := H
  unfold OddPos at HO
  rw [Bool.eq_iff_iff, decide_eq_true_eq, Bool.and_eq_true, beq_iff_eq]
  cases key
  · simp only [beq_iff_eq, lev, distance] at *
    rcases h with h | ⟨h1, h2, h3⟩
    · omega
    · unfold Pos at h2; simp only at h2 h3; omega
  · simp only [beq_iff_eq, lev, distance] at *
    rcases h with h | ⟨h1, h2, h3⟩
    · omega
    · unfold Pos at h2; simp only at h2 h3; omega

theorem crossing_ok {key : Key} {dh dw T : Int} (H : Long key dh dw) {p : Node × Node} (h1 : GNode key dh dw T p.1)
    (h2 : GNode key dh dw T p.2) (hv : ¬ (p.1.t = -1 ∧ p.2.t = -1)) :
    isCrossing p (rtypeOf key) = .ok (decide (lev key p.1 ≤ 0) ^^ decide (lev key p.2 ≤ 0)) := by
  rw [gnode_top H h1, gnode_top H h2]
  cases key
  · simp only [isCrossing, rtypeOf]
    by_cases e1 : p.1.t = -1
    · have e2 : p.2.t ≠ -1 := fun h => hv ⟨e1, h⟩
      simp [e1, beq_eq_false_iff_ne.2 e2]
    · simp [beq_eq_false_iff_ne.2 e1]
  · simp only [isCrossing, rtypeOf]
    by_cases e1 : p.1.t = -1
    · have e2 : p.2.t ≠ -1 := fun h => hv ⟨e1, h⟩
      simp [e1, beq_eq_false_iff_ne.2 e2]
    · simp [beq_eq_false_iff_ne.2 e1]

theorem bit_flip (b : Bool) : (bit b + 1).fmod 2 = bit (!b) := by cases b <;> rfl

theorem flip_fold {key : Key} {dh dw T : Int} (H : Long key dh dw) : ∀ (M : List (Node × Node)) (b : Bool),
    (∀ n ∈ ends M, GNode key dh dw T n) → (∀ p ∈ M, ¬ (p.1.t = -1 ∧ p.2.t = -1)) →
    M.foldlM (flipStep (rtypeOf key)) (some (bit b)) = .ok (some (bit (b ^^ crossPar key M)))
  | [], b, _, _ => by simp [crossPar]; rfl
  | p :: M, b, hg, hv => by
    have hc := crossing_ok H (hg p.1 (by simp)) (hg p.2 (by simp)) (hv p List.mem_cons_self)
    have ih := fun b' => flip_fold H M b' (fun n hn => hg n (by rw [ends_cons]; simp [hn])) (fun q hq => hv q (List.mem_cons_of_mem _ hq))
    rw [List.foldlM_cons]
    unfold flipStep
    simp only [hc, bind, Except.bind]
    unfold crossPar at ih ⊢
    rw [List.map_cons, xorAll_cons]
    cases hx : (decide (lev key p.1 ≤ 0) ^^ decide (lev key p.2 ≤ 0))
    · simp only [Bool.false_eq_true, if_false, pure, Except.pure]
      have := ih b
      rw [Bool.false_xor]
      exact this
    · simp only [if_true, pure, Except.pure, bit_flip]
      have := ih (!b)
      rw [show (b ^^ (true ^^ xorAll (M.map fun p => (decide (lev key p.1 ≤ 0) ^^ decide (lev key p.2 ≤ 0))))) =
        (!b ^^ xorAll (M.map fun p => (decide (lev key p.1 ≤ 0) ^^ decide (lev key p.2 ≤ 0)))) from by
          cases b <;> simp]
      exact this

/-- The outcome of a call whose corrections are known. -/
theorem correctHits_of {D : Decoder} {m : Matcher} {syn : SynDict} {key : Key} {L L' : List Node} {ep : Option ℝ}
    {M : List (Node × Node)} {T : Int} (H : Long key D.dh D.dw) (hsyn : syn (rtypeOf key) = some L)
    (hc : corrections D m L (rtypeOf key) ep = .ok (M, L')) (hg : ∀ n ∈ ends M, GNode key D.dh D.dw T n)
    (hv : ∀ p ∈ M, ¬ (p.1.t = -1 ∧ p.2.t = -1)) (b : Bool) :
    correctHits D m syn (rtypeOf key) (some (bit b)) ep =
      .ok (some (bit (b ^^ crossPar key M)), fun k => if k = rtypeOf key then some L' else syn k) := by
  unfold correctHits
  simp only [hsyn, hc, bind, Except.bind, flip_fold H M b hg hv, pure, Except.pure]

/-- Everything about a call without error probability on a non-empty list of hits. -/
theorem corrections_full {D : Decoder} {key : Key} {s : SGraph} (R : Ready D key s) {m : Matcher} (hm : Contract m)
    {L : List Node} (hne : L ≠ []) (hL : ∀ n ∈ L, GNode key D.dh D.dw D.T n) (hp : ParityOk L) :
    ∃ M, corrections D m L (rtypeOf key) none = .ok (kept M, L ++ virtualNodes D.dh D.dw key) ∧
      NOptimal (EAdj L (virtualNodes D.dh D.dw key)) (unitWeight key D.dh D.dw D.T) M ∧
      (ends M).Perm (allNodes L (virtualNodes D.dh D.dw key)) ∧
      (ends (kept M)).Nodup ∧ (∀ n, n.t ≠ -1 → (n ∈ ends (kept M) ↔ n ∈ L)) ∧
      (∀ n ∈ ends (kept M), GNode key D.dh D.dw D.T n) ∧ ∀ p ∈ kept M, ¬ (p.1.t = -1 ∧ p.2.t = -1) := by
  obtain ⟨M, h1, h2⟩ := corrections_spec R hm hne hL
  obtain ⟨M0, a1, a2, a3⟩ := hits_pairing (key := key) R.odd L
  obtain ⟨hperm, _⟩ := optimal_covers R.odd hL hp unitWeight_virt a1 a2 a3 h2
  exact ⟨M, h1, h2, hperm, kept_facts R.odd hL h2.1 hperm⟩

theorem parityOk_nodup {L : List Node} (h : L.Nodup) (hr : ∀ n ∈ L, n.t ≠ -1) : ParityOk L := by
  unfold ParityOk reals
  rw [List.filter_eq_self.2 (fun n hn => isReal_iff.2 (hr n hn)), h.dedup]

theorem isHit_gnode {key : Key} {dh dw T : Int} {fs : List Fault} {n : Node} (h : IsHit key dh dw T fs n) :
    GNode key dh dw T n := Or.inl ⟨h.1, h.2.1, h.2.2.1⟩

theorem fits_pos {key : Key} {dh dw T : Int} {f : Fault} (h : f.Fits key dh dw T) : 0 < T := by
  cases f with
  | data t r c => obtain ⟨h1, h2, _⟩ := h; omega
  | meas t r c => obtain ⟨h1, h2, _⟩ := h; omega

/-- Correctable faults are corrected, for any list whose real members are the hits, if the library optimises the distances. -/
theorem correct_core_of {D : Decoder} (hD : Made D) {key : Key} {s : SGraph} (hs : D.S key = some s) (HO : OddPos D.dh D.dw)
    {m : Matcher} {fs : List Fault} (hf : Correctable key D.dh D.dw D.T fs) {L : List Node}
    (hL : ∀ n ∈ L, GNode key D.dh D.dw D.T n) (hhit : ∀ n, n.t ≠ -1 → (n ∈ L ↔ IsHit key D.dh D.dw D.T fs n))
    (hp : ParityOk L) (hor : fs ≠ [] ∨ L = []) {syn : SynDict} (hsyn : syn (rtypeOf key) = some L) {ep : Option ℝ}
    (hopt : Ready D key s → L ≠ [] → ∃ M, corrections D m L (rtypeOf key) ep = .ok (kept M, L ++ virtualNodes D.dh D.dw key) ∧
      NOptimal (EAdj L (virtualNodes D.dh D.dw key)) (unitWeight key D.dh D.dw D.T) M) (b : Bool) :
    ∃ syn', correctHits D m syn (rtypeOf key) (some (bit (b ^^ readoutFlipped key fs))) ep = .ok (some (bit b), syn') := by
  by_cases hfs : fs = []
  · have hL0 : L = [] := hor.resolve_left (fun h => h hfs)
    subst hfs hL0
    have : readoutFlipped key [] = false := rfl
    rw [this, Bool.xor_false]
    unfold correctHits
    simp only [hsyn]
    exact ⟨_, rfl⟩
  · obtain ⟨f, hfm⟩ := List.exists_mem_of_ne_nil _ hfs
    have hT : 0 < D.T := fits_pos (hf.1 f hfm)
    have H : Long key D.dh D.dw := by
      refine ⟨HO, ?_⟩
      have h2 := hf.2
      have h3 : 0 < fs.length := List.length_pos_iff.2 hfs
      unfold OddPos at HO
      cases key
      · simp only [distance] at *; omega
      · simp only [distance] at *; omega
    have R : Ready D key s := ⟨hD, hs, H, hT⟩
    by_cases hne : L = []
    · -- no hits although there are faults: they do not flip the readout
      have hz : readoutFlipped key fs = false := by
        obtain ⟨E, e1, e2, e3, e4⟩ := fault_edges (T := D.T) H.1 fs hf.1
        rw [← e4]
        have hD0 : 0 ≤ distance key D.dh D.dw := by
          unfold OddPos at HO
          cases key
          · simp only [distance]; omega
          · simp only [distance]; omega
        refine few_cross (lev key) (distance key D.dh D.dw).toNat E (fun e he => gadj_level (e2 e he)) ?_ ?_
        · intro a h0 h1
          by_contra hc
          have hmem : a ∈ ends E := List.count_pos_iff.1 (by omega)
          have hga : GNode key D.dh D.dw D.T a := by
            obtain ⟨p, hp', h⟩ := mem_ends.1 hmem
            have := gadj_nodes (e2 p hp')
            rcases h with rfl | rfl
            · exact this.1
            · exact this.2
          rcases gnode_level H hga with h' | h'
          · omega
          · have hr : a.t ≠ -1 := by omega
            rcases hga with ⟨g1, g2, g3⟩ | ⟨g1, _⟩
            · have := (hhit a hr).2 ⟨g1, g2, g3, by rw [← e3 a hr g3]; omega⟩
              rw [hne] at this
              cases this
            · exact hr g1
        · have := hf.2
          rw [e1]
          omega
      rw [hz, Bool.xor_false]
      unfold correctHits
      rw [hne] at hsyn
      simp only [hsyn]
      exact ⟨_, rfl⟩
    · obtain ⟨M, h1, h2⟩ := hopt R hne
      obtain ⟨M0, a1, a2, a3⟩ := hits_pairing (key := key) R.odd L
      obtain ⟨hperm, _⟩ := optimal_covers R.odd hL hp unitWeight_virt a1 a2 a3 h2
      obtain ⟨_, _, h6, h7⟩ := kept_facts R.odd hL h2.1 hperm
      have hx := few_faults H hT hf hL hhit hp h2
      have hc := correctHits_of H hsyn h1 h6 h7 (b ^^ readoutFlipped key fs)
      rw [hx, Bool.xor_assoc, Bool.xor_self, Bool.xor_false] at hc
      exact ⟨_, hc⟩

/-- Correctable faults are corrected, for any list whose real members are the hits. -/
theorem correct_core {D : Decoder} (hD : Made D) {key : Key} {s : SGraph} (hs : D.S key = some s) (HO : OddPos D.dh D.dw)
    {m : Matcher} (hm : Contract m) {fs : List Fault} (hf : Correctable key D.dh D.dw D.T fs) {L : List Node}
    (hL : ∀ n ∈ L, GNode key D.dh D.dw D.T n) (hhit : ∀ n, n.t ≠ -1 → (n ∈ L ↔ IsHit key D.dh D.dw D.T fs n))
    (hp : ParityOk L) (hor : fs ≠ [] ∨ L = []) {syn : SynDict} (hsyn : syn (rtypeOf key) = some L) (b : Bool) :
    ∃ syn', correctHits D m syn (rtypeOf key) (some (bit (b ^^ readoutFlipped key fs))) none = .ok (some (bit b), syn') :=
  correct_core_of hD hs HO hf hL hhit hp hor hsyn (fun R hne => corrections_spec R hm hne hL) b

end Qtc
