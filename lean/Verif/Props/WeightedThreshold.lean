import Verif.Proof.Labelled
import Verif.Proof.Weighted
import Verif.Props.SurfaceThreshold
/-!
C92: the logical error rate also falls exponentially with the distance if the decoder weights by the error probability.
-/
namespace Qtc
open Spec Function

variable {cls : QClass} {dh dw : Int} {key : Key}

/-- With `err_prob` the decoded value is only wrong if at least 5/12 of the steps of a walk between the boundaries are different faults that have
occurred. -/
theorem wrong_walk (B : Bench cls dh dw key 1) {X Z : Finset (Nat × Qubit)} {s' : QState} (hR : B.Ends X Z s') {r : ℝ} (r0 : 0 < r)
    (r1 : r ≤ 1 / 150) (hne : B.decoded s' (some r) ≠ .ok (some 0)) :
    ∃ k, (distance key dh dw).toNat ≤ k + 1 ∧ ∃ W ∈ walkList1 key dh dw k, W.length = k + 1 ∧ (∀ w ∈ W, w.2.Fits key dh dw 1) ∧
      (errsOf W).Nodup ∧ 5 * W.length ≤ 12 * (errsOf W).length ∧ ∀ f ∈ errsOf W, f ∈ B.faults X Z := by
  by_contra hno
  refine hne ?_
  obtain ⟨rounds, t1, t2, t3⟩ := B.strings hR (some r)
  rw [t3]
  have hT : B.D.T = 1 := B.steps
  have hfits : ∀ f ∈ B.faults X Z, f.Fits key dh dw 1 := fun f hf => B.faults_fits hf
  have hnd : (B.faults X Z).Nodup := memory_nodup (by have := B.odd; unfold OddPos at this; exact this.2.2.1)
  have hperm : (B.faults X Z).toFinset.toList.Perm (B.faults X Z) := List.toFinset_toList hnd
  refine strings_of_hits (fs := B.faults X Z) (b := false) (T := 1) (by rw [B.height, B.width]; exact B.odd) (by rw [B.height, B.width]; exact B.big)
    ?_ t1 (by rw [B.height, B.width]; exact t2)
  intro L syn hn hL hsyn
  have R : Ready B.D key B.g := ⟨B.made, B.graph, by rw [B.height, B.width]; exact B.isLong, by rw [hT]; decide⟩
  have hLg : ∀ n ∈ L, GNode key B.D.dh B.D.dw B.D.T n := fun n h => by rw [hT]; exact isHit_gnode ((hL n).1 h)
  have hr : ∀ n ∈ L, n.t ≠ -1 := by
    intro n h
    have := ((hL n).1 h).1
    omega
  rw [B.height, B.width] at hL
  have hro : readoutFlipped key (B.faults X Z).toFinset.toList = readoutFlipped key (B.faults X Z) := xorAll_perm (hperm.map _)
  have hhits : ∀ n, n ∈ L ↔ IsHit key dh dw 1 (B.faults X Z).toFinset.toList n := by
    intro n
    rw [hL n]
    unfold IsHit
    rw [hperm.countP_eq]
  -- the matching
  have hmain : ∃ M, corrections B.D B.m L (rtypeOf key) (some r) = .ok (M, if L = [] then [] else L ++ virtualNodes dh dw key) ∧
      (ends M).Nodup ∧ (∀ n : Node, n.t ≠ -1 → (n ∈ ends M ↔ n ∈ L)) ∧ (∀ n ∈ ends M, GNode key dh dw 1 n) ∧
      (∀ q ∈ M, ¬ (q.1.t = -1 ∧ q.2.t = -1)) ∧
      ∀ M0 : List (Node × Node), (ends M0).Nodup → (∀ n : Node, n.t ≠ -1 → (n ∈ ends M0 ↔ n ∈ L)) →
        (∀ n ∈ ends M0, n.t = -1 → n ∈ virtualNodes dh dw key) →
        nweight (probWeightInt key dh dw 1 r) M0 ≤ nweight (probWeightInt key dh dw 1 r) M := by
    by_cases hempty : L = []
    · refine ⟨[], by unfold corrections; rw [if_pos hempty, if_pos hempty, hempty], by simp, by simp [hempty], by simp, by simp, ?_⟩
      intro M0 _ h2 _
      refine le_of_eq ?_
      unfold nweight
      refine List.sum_eq_zero fun x hx => ?_
      obtain ⟨e, he, rfl⟩ := List.mem_map.1 hx
      have hv : ∀ n ∈ ends M0, n.t = -1 := by
        intro n hn
        by_contra h
        have := (h2 n h).1 hn
        rw [hempty] at this
        exact absurd this List.not_mem_nil
      exact probWeightInt_virt _ _ (hv _ (mem_ends.2 ⟨e, he, Or.inl rfl⟩)) (hv _ (mem_ends.2 ⟨e, he, Or.inr rfl⟩))
    · obtain ⟨M, c1, c2⟩ := corrections_prob R B.contract hempty hn hLg hr r0 (by linarith) (by linarith)
      obtain ⟨M0, a1, a2, a3⟩ := hits_pairing (key := key) R.odd L
      obtain ⟨hp, _⟩ := optimal_covers R.odd hLg (parityOk_nodup hn hr) probWeightInt_virt a1 a2 a3 c2
      obtain ⟨f1, f2, f3, f4⟩ := kept_facts R.odd hLg c2.1 hp
      rw [hT, B.height, B.width] at f3
      refine ⟨kept M, by rw [c1, if_neg hempty, B.height, B.width], f1, f2, f3, f4, ?_⟩
      intro M1 b1 b2 b3
      have := (optimal_covers R.odd hLg (parityOk_nodup hn hr) probWeightInt_virt b1 b2 (by rw [B.height, B.width]; exact b3) c2).2
      rw [← nweight_kept probWeightInt_virt M, B.height, B.width, hT] at this
      exact this
  obtain ⟨M, c1, m1, m2, m3, m4, hopt⟩ := hmain
  have hans := correctHits_of (T := 1) R.long (syn := syn) hsyn c1 (by rw [B.height, B.width]; exact m3) m4 (readoutFlipped key (B.faults X Z))
  have heq : readoutFlipped key (B.faults X Z) = crossPar key M := by
    by_contra hdiff
    have hcost := fun {a b : Node} => cost_bounds (a := a) (b := b) R hT r0 r1
    rw [B.height, B.width] at hcost
    have hne' : ∀ q ∈ M, q.1 ≠ q.2 := fun q hq => ends_ne m1 q hq
    obtain ⟨a, c, W, w1, w2, -, w4, w5, w6, w7⟩ := alternating (T := 1) B.isLong (by decide) (E := (B.faults X Z).toFinset)
      (fun f hf => hfits f (List.mem_toFinset.1 hf)) hhits m1 m2 m3 hopt (lo := 7143) (hi := 10000)
      (fun q hq => (hcost (m3 _ (mem_ends.2 ⟨q, hq, Or.inl rfl⟩)) (m3 _ (mem_ends.2 ⟨q, hq, Or.inr rfl⟩)) (hne' q hq)).1 (m4 q hq))
      (by norm_num) (fun a b ha hb hab => (hcost ha hb hab).2) (by rw [hro]; exact hdiff)
    obtain ⟨k, k1, k2, k3⟩ := fpath_listed B.isLong w4 w1 w2
    refine hno ⟨k, by omega, W, k3, k1, fpath_fits w4, w5, ?_, ?_⟩
    · have hsplit : W.length = (W.filter fun w => w.1 == false).length + (W.filter fun w => w.1 == true).length := by
        rw [List.length_eq_length_filter_add (l := W) (fun w => w.1 == false)]
        congr 2
        refine List.filter_congr fun w _ => ?_
        cases w.1 <;> rfl
      have e : (errsOf W).length = (W.filter fun w => w.1 == false).length := List.length_map _
      rw [e]
      omega
    · intro f hf
      exact List.mem_toFinset.1 (w6 f hf)
  rw [← heq, Bool.xor_self] at hans
  exact ⟨_, hans⟩

/-- The bound of C92. -/
noncomputable def weightedBound (key : Key) (dh dw : Int) (p : ℝ) : ℝ :=
  (breadth key dh dw : ℝ) / 4 * ((8 * p ^ (5 / 12 : ℝ)) ^ (distance key dh dw).toNat / (1 - 8 * p ^ (5 / 12 : ℝ)))

theorem weighted_core (B : Bench cls dh dw key 1) (π : Nat × Qubit → Bool × Bool → ℝ) (hπ : ∀ i ∈ B.places, PauliNoise (π i)) (p : ℝ)
    (h0 : 0 < p) (h1 : p ≤ 1) (hp : ∀ i ∈ B.places, turnProb (turnedAt cls.code key B.q.lat.name i) (π i) ≤ p)
    (hx : 8 * p ^ (5 / 12 : ℝ) < 1) {r : ℝ} (r0 : 0 < r) (r1 : r ≤ 1 / 150) : B.rate π (some r) ≤ weightedBound key dh dw p := by
  classical
  have hw : 0 < dw := by have := B.odd; unfold OddPos at this; exact this.2.2.1
  let bad : Finset (Nat × Qubit) → Prop := fun F => ∃ k, (distance key dh dw).toNat ≤ k + 1 ∧ ∃ W ∈ walkList1 key dh dw k, W.length = k + 1 ∧
    (∀ w ∈ W, w.2.Fits key dh dw 1) ∧ (errsOf W).Nodup ∧ 5 * W.length ≤ 12 * (errsOf W).length ∧
    ∀ f ∈ errsOf W, faultPlace key B.q.lat.name dh dw f ∈ F
  have hfit : ∀ {W : List (Bool × Fault)}, (∀ w ∈ W, w.2.Fits key dh dw 1) → ∀ f ∈ errsOf W, f.Fits key dh dw ((1 : Nat) : Int) := by
    intro W h f hf
    obtain ⟨w, hw, rfl⟩ := List.mem_map.1 hf
    exact h w (List.mem_filter.1 hw).1
  have hstep : B.rate π (some r) ≤ pauliProb B.places π fun X Z => bad (B.places.filter fun i =>
      turnedAt cls.code key B.q.lat.name i (decide (i ∈ X), decide (i ∈ Z)) = true) := by
    refine pauliProb_mono hπ fun X Z _ _ => ?_
    rintro ⟨s', h1, h2⟩
    obtain ⟨k, hk, W, hW, l1, l2, l3, l4, l5⟩ := wrong_walk B h1 r0 r1 h2
    exact ⟨k, hk, W, hW, l1, l2, l3, l4, fun f hf => ((mem_memory hw).1 (l5 f hf)).2⟩
  refine hstep.trans ?_
  rw [pauli_marginal _ _ _ hπ]
  refine (walks_prob (C := fun k => (walkList1 key dh dw k).map (List.map fun w => (w.1, faultPlace key B.q.lat.name dh dw w.2))) h0 h1
    (A := 2 * breadth key dh dw) (m := 8) (d := (distance key dh dw).toNat)
    (fun i hi => ⟨turnProb_nonneg (hπ i hi) _, hp i hi⟩) (by norm_num) ?_ (by exact_mod_cast hx) ?_).trans (le_of_eq ?_)
  · intro k
    rw [List.length_map, walkList1_length]
  · rintro F - ⟨k, hk, W, hW, l1, l2, l3, l4, l5⟩
    refine ⟨k, hk, _, List.mem_map.2 ⟨W, hW, rfl⟩, by rw [List.length_map, l1], ?_⟩
    rw [errsOf_map, List.length_map, List.length_map]
    refine ⟨?_, ?_, l4, ?_⟩
    · exact List.Nodup.map_on (fun x hx y hy h => faultPlace_inj hw (hfit l2 x hx) (hfit l2 y hy) h) l3
    · intro i hi
      obtain ⟨f, hf, rfl⟩ := List.mem_map.1 hi
      exact faultPlace_mem (hfit l2 f hf)
    · intro i hi
      obtain ⟨f, hf, rfl⟩ := List.mem_map.1 hi
      exact l5 f hf
  · unfold weightedBound
    push_cast
    ring

theorem share_small {p : ℝ} (h0 : 0 < p) (h : p ≤ 1 / 150) : 8 * p ^ (5 / 12 : ℝ) < 1 := by
  have h1 : p ^ (5 / 12 : ℝ) < 1 / 8 := by
    by_contra hno
    rw [not_lt] at hno
    have h2 : (1 / 8 : ℝ) ^ 12 ≤ (p ^ (5 / 12 : ℝ)) ^ 12 := pow_le_pow_left₀ (by norm_num) hno 12
    have h3 : (p ^ (5 / 12 : ℝ)) ^ 12 = p ^ 5 := by
      rw [← Real.rpow_natCast (p ^ (5 / 12 : ℝ)), ← Real.rpow_mul h0.le, ← Real.rpow_natCast]
      norm_num
    have h4 : p ^ 5 ≤ (1 / 150) ^ 5 := pow_le_pow_left₀ h0.le h 5
    rw [h3] at h2
    norm_num at h2 h4
    linarith
  linarith

/-- C92: one time step, Pauli errors of the identity gates, independent of each other, each with an X part with probability at most `p` and a Z
part with probability at most `p`, a decoder that is given any `err_prob` of at most 1/150. The probability that the decoded value may be wrong is
at most `(breadth / 4) · x ^ distance / (1 - x)` with `x = 8 p ^ (5/12)`, if `p ≤ 1/150`, for every outcome of the measurements and every
matching the library may find. -/
theorem C92_weighted_rate (B : Bench cls dh dw key 1) (π : Nat × Qubit → Bool × Bool → ℝ) (p : ℝ) (h0 : 0 < p) (h1 : p ≤ 1 / 150)
    (hπ : ∀ i ∈ B.places, PauliNoise (π i) ∧ π i (true, false) + π i (true, true) ≤ p ∧ π i (false, true) + π i (true, true) ≤ p)
    (r : ℝ) (r0 : 0 < r) (r1 : r ≤ 1 / 150) : B.rate π (some r) ≤ weightedBound key dh dw p ∧ 8 * p ^ (5 / 12 : ℝ) < 1 :=
  ⟨weighted_core B π (fun i hi => (hπ i hi).1) p h0 (by linarith) (fun i hi => turnProb_le (hπ i hi).2.1 (hπ i hi).2.2) (share_small h0 h1) r0 r1,
    share_small h0 h1⟩

/-- C92, threshold: if the probability of an error is at most 1/150 and the decoder is given it, the probability that the decoded value may be
wrong is as small as desired on all sufficiently large square lattices. -/
theorem C92_weighted_vanishes (p : ℝ) (h0 : 0 < p) (hp : p ≤ 1 / 150) (ε : ℝ) (hε : 0 < ε) :
    ∃ d0 : Nat, ∀ (d : Nat) (cls : QClass) (key : Key) (B : Bench cls d d key 1) (π : Nat × Qubit → Bool × Bool → ℝ), d0 ≤ d →
      (∀ i ∈ B.places, PauliNoise (π i) ∧ π i (true, false) + π i (true, true) ≤ p ∧ π i (false, true) + π i (true, true) ≤ p) →
      B.rate π (some p) ≤ ε := by
  have hx := share_small h0 hp
  obtain ⟨d0, g⟩ := small_eventually 1 (b := 4) (x := 8 * p ^ (5 / 12 : ℝ)) (by positivity) hx hε
  refine ⟨d0, fun d cls key B π hd hπ => ?_⟩
  refine le_trans (C92_weighted_rate B π p h0 hp hπ p h0 hp).1 (le_of_eq_of_le ?_ (g d hd))
  have hb : breadth key d d = d := by cases key <;> simp [breadth]
  have hdist : (distance key d d).toNat = d := by cases key <;> simp [distance]
  unfold weightedBound
  rw [hb, hdist, pow_one]

/-- The circuit, the decoder and the noise of `data/xxzz_threshold/20210601/simulation.py` with `deg_weight = True`, of every sufficiently large
distance, with `p = 0.5 %`. -/
example : ∃ d0 : Nat, ∀ n : Nat, d0 ≤ n → ∃ B : Bench .xxzz (2 * n + 1 : Nat) (2 * n + 1 : Nat) .Z 1,
    B.pre = [] ∧ B.rate (fun _ => bitNoise 0.005) (some 0.005) ≤ 0.000001 := by
  obtain ⟨d0, h⟩ := C92_weighted_vanishes 0.005 (by norm_num) (by norm_num) 0.000001 (by norm_num)
  refine ⟨d0 + 1, fun n hn => ?_⟩
  obtain ⟨B, hB⟩ := C91_exists (dh := (2 * n + 1 : Nat)) (dw := (2 * n + 1 : Nat)) (T := 1) .xxzz (by decide) .Z (by unfold OddPos; omega)
    (by simp only [distance]; omega) (Or.inr (by omega)) false (fun _ => ⟨rfl, rfl⟩)
  exact ⟨B, List.length_eq_zero_iff.1 hB, h _ _ _ B _ (by omega)
    fun i _ => ⟨bitNoise_pauli (by norm_num) (by norm_num), by simp [bitNoise], by simp [bitNoise]; norm_num⟩⟩

end Qtc
