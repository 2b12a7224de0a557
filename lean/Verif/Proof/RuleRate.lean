import Verif.Proof.OneStep
/-!
The error rates of rules that decide from the hits whether the measured value is flipped.
-/
namespace Qtc
open Spec Function

variable {cls : QClass} {dh dw : Int} {key : Key} {T : Nat}

/-- The probability, with independent Pauli errors of the identity gates, that errors occur for which the rule "flip the measured value if `G` holds
of the hits" may give a wrong value. The hits and the measured value are those that the encoder reads from the readout. -/
noncomputable def Bench.ruleRate (B : Bench cls dh dw key T) (π : Nat × Qubit → Bool × Bool → ℝ) (G : List Node → Bool) : ℝ :=
  pauliProb B.places π fun X Z => ∃ s', B.Ends X Z s' ∧ ∃ v hits L, parseReadout dh dw (B.shown s') (rtypeOf key) = .ok (bit v, hits) ∧
    hits.toDict (rtypeOf key) = some L ∧ (v ^^ G L) = true

/-- What the encoder reads. -/
theorem Bench.parsed (B : Bench cls dh dw key T) {X Z : Finset (Nat × Qubit)} {s' : QState} (hR : B.Ends X Z s') :
    ∃ hits L v, parseReadout dh dw (B.shown s') (rtypeOf key) = .ok (bit v, hits) ∧ hits.toDict (rtypeOf key) = some L ∧
      Observed key B.q.lat.name dh dw T (B.turned X Z) L v := by
  have hw : 0 < dw := by have := B.odd; unfold OddPos at this; exact this.2.2.1
  obtain ⟨rounds, r1, r2, r3⟩ := B.shown_eq hR
  have hp := C15_parse_is_changes dh dw B.odd B.big (rtypeOf key) (if readoutFlipped key (B.faults X Z) then '1' else '0') (by split <;> decide) rounds r2.1
  have hv : digitVal (if readoutFlipped key (B.faults X Z) then '1' else '0') = bit (readoutFlipped key (B.faults X Z)) := by
    cases readoutFlipped key (B.faults X Z) <;> decide
  rw [hv] at hp
  exact ⟨_, changes (sitesOf key dh dw) (rounds.map (keyBits key dh dw)), _, by rw [r3]; exact hp, by cases key <;> rfl,
    B.faults X Z, rounds, memory_nodup hw, fun f => mem_memory hw, r1, r2, rfl, rfl⟩

theorem bench_ruleRate (B : Bench cls dh dw key T) {π : Nat × Qubit → Bool × Bool → ℝ} (hπ : ∀ i ∈ B.places, PauliNoise (π i)) (G : List Node → Bool) :
    B.ruleRate π G = independent B.places (fun i => turnProb (turnedAt cls.code key B.q.lat.name i) (π i))
      (fun F => ∃ L v, Observed key B.q.lat.name dh dw T F L v ∧ (v ^^ G L) = true) := by
  rw [← pauli_marginal _ _ _ hπ]
  unfold Bench.ruleRate
  refine pauliProb_congr fun X Z _ _ => ?_
  constructor
  · rintro ⟨s', h1, v, hits, L, h2, h3, h4⟩
    obtain ⟨hits', L', v', h2', h3', h4'⟩ := B.parsed h1
    rw [h2] at h2'
    obtain ⟨e1, rfl⟩ := Prod.mk.inj (Except.ok.inj h2')
    rw [h3] at h3'
    obtain rfl := Option.some.inj h3'
    have : v = v' := by
      revert e1
      cases v <;> cases v' <;> simp [bit]
    subst this
    exact ⟨L, v, h4', h4⟩
  · rintro ⟨L, v, h3, h4⟩
    obtain ⟨s', h⟩ := C91_executions B X Z
    obtain ⟨hits', L', v', h2', h3', h4'⟩ := B.parsed h
    obtain ⟨rfl, rfl⟩ := observed_unique h3 h4'
    exact ⟨s', h, v, hits', L, h2', h3', h4⟩

/-! ### One time step -/

theorem places_one_step (B : Bench cls dh dw key 1) : B.places = (Finset.range (numData dh dw)).image (placeOf B.q.lat.name) := by
  ext i
  unfold Bench.places
  rw [mem_idPlaces, Finset.mem_image]
  constructor
  · rintro ⟨h1, h | ⟨h, -⟩⟩
    · obtain ⟨j, hj, he⟩ := List.mem_map.1 h
      have := mem_allQubits.1 hj
      refine ⟨j.toNat, Finset.mem_range.2 (by unfold numData; omega), ?_⟩
      unfold placeOf
      rw [Int.toNat_of_nonneg this.1, he, Prod.ext_iff]
      exact ⟨by simp only; omega, rfl⟩
    · omega
  · rintro ⟨j, hj, rfl⟩
    have := Finset.mem_range.1 hj
    exact ⟨Nat.zero_lt_one, Or.inl (List.mem_map.2 ⟨j, mem_allQubits.2 (by unfold numData at this; omega), rfl⟩)⟩

/-- Independent flips with the same probability. -/
theorem independent_one_step (B : Bench cls dh dw key 1) {q : Nat × Qubit → ℝ} {p : ℝ} (hq : ∀ i ∈ B.places, q i = p)
    (bad : Finset (Nat × Qubit) → Prop) :
    independent B.places q bad = flipProb (numData dh dw) p fun F => bad (F.image (placeOf B.q.lat.name)) := by
  classical
  unfold independent flipProb
  have hinj := placeOf_inj (name := B.q.lat.name)
  symm
  refine Finset.sum_nbij (fun F => F.image (placeOf B.q.lat.name)) ?_ ?_ ?_ ?_
  · intro F hF
    rw [Finset.mem_powerset, places_one_step]
    exact Finset.image_subset_image (Finset.mem_powerset.1 hF)
  · intro F _ F' _ h
    exact Finset.image_injective hinj h
  · intro F hF
    have hF := Finset.mem_powerset.1 (Finset.mem_coe.1 hF)
    rw [places_one_step] at hF
    obtain ⟨F', h1, rfl⟩ := Finset.subset_image_iff.1 hF
    exact ⟨F', Finset.mem_coe.2 (Finset.mem_powerset.2 h1), rfl⟩
  · intro F hF
    have hF := Finset.mem_powerset.1 hF
    have h1 : ∏ i ∈ F.image (placeOf B.q.lat.name), q i = p ^ F.card := by
      rw [Finset.prod_congr rfl fun i hi => hq i (by rw [places_one_step]; exact Finset.image_subset_image hF hi), Finset.prod_const,
        Finset.card_image_of_injective _ hinj]
    have h2 : ∏ i ∈ B.places \ F.image (placeOf B.q.lat.name), (1 - q i) = (1 - p) ^ (numData dh dw - F.card) := by
      rw [Finset.prod_congr rfl fun i hi => by rw [hq i (Finset.mem_sdiff.1 hi).1], Finset.prod_const,
        Finset.card_sdiff_of_subset (by rw [places_one_step]; exact Finset.image_subset_image hF), Finset.card_image_of_injective _ hinj, places_one_step,
        Finset.card_image_of_injective _ hinj, Finset.card_range]
    rw [h1, h2]

theorem observed_one (B : Bench cls dh dw key 1) {F : Finset Nat} (hF : F ⊆ Finset.range (numData dh dw)) :
    ∃ L, Observed key B.q.lat.name dh dw (1 : Nat) (F.image (placeOf B.q.lat.name)) L (parity F (valueCheck key dw)) := by
  obtain ⟨L, v, h⟩ := observed_exists B (F := F.image (placeOf B.q.lat.name)) (by rw [places_one_step]; exact Finset.image_subset_image hF)
  obtain ⟨-, rfl⟩ := observed_flips B.odd hF h
  exact ⟨L, h⟩

/-- The hits by what the stabilizers notice. -/
theorem hits_of_sig (B : Bench cls dh dw key 1) : ∃ hitsOf : Nat → List Node, ∀ F ⊆ Finset.range (numData dh dw), ∀ L v,
    Observed key B.q.lat.name dh dw (1 : Nat) (F.image (placeOf B.q.lat.name)) L v → L = hitsOf (sig (siteChecks key dh dw) F) := by
  classical
  refine ⟨fun h => if hh : ∃ F ⊆ Finset.range (numData dh dw), sig (siteChecks key dh dw) F = h
    then (observed_one B hh.choose_spec.1).choose else [], ?_⟩
  intro F hF L v h
  have hh : ∃ F' ⊆ Finset.range (numData dh dw), sig (siteChecks key dh dw) F' = sig (siteChecks key dh dw) F := ⟨F, hF, rfl⟩
  simp only [dif_pos hh]
  exact (observed_same B.odd hF hh.choose_spec.1 h (observed_one B hh.choose_spec.1).choose_spec).2 hh.choose_spec.2.symm

/-- The rule of the decoder of the repository. -/
theorem rule_of_bench (B : Bench cls dh dw key 1) : ∃ x : List Node → Bool, ∀ F ⊆ Finset.range (numData dh dw), ∀ L v,
    Observed key B.q.lat.name dh dw (1 : Nat) (F.image (placeOf B.q.lat.name)) L v →
      (∀ w, verdictOf B.D B.m key none L w = .ok (some (bit (w ^^ x L)))) ∧
      ∃ F1 ⊆ Finset.range (numData dh dw), sig (siteChecks key dh dw) F1 = sig (siteChecks key dh dw) F ∧ parity F1 (valueCheck key dw) = x L ∧
        ∀ F2 ⊆ Finset.range (numData dh dw), sig (siteChecks key dh dw) F2 = sig (siteChecks key dh dw) F → F1.card ≤ F2.card := by
  refine ⟨fun L => decide (verdictOf B.D B.m key none L false = .ok (some (bit true))), ?_⟩
  intro F hF L v h
  obtain ⟨F1, f1, f2, f3, f4⟩ := least_flips B hF h
  have e : decide (verdictOf B.D B.m key none L false = .ok (some (bit true))) = parity F1 (valueCheck key dw) := by
    rw [f3 false]
    cases parity F1 (valueCheck key dw) <;> simp [bit]
  simp only [e]
  exact ⟨f3, F1, f1, f2, rfl, f4⟩

/-- The rate of a rule as a sum over the sets of flips. -/
theorem ruleRate_one (B : Bench cls dh dw key 1) {π : Nat × Qubit → Bool × Bool → ℝ} (hπ : ∀ i ∈ B.places, PauliNoise (π i)) {p : ℝ}
    (hp : ∀ i ∈ B.places, turnProb (turnedAt cls.code key B.q.lat.name i) (π i) = p) (G : List Node → Bool) {hitsOf : Nat → List Node}
    (hh : ∀ F ⊆ Finset.range (numData dh dw), ∀ L v, Observed key B.q.lat.name dh dw (1 : Nat) (F.image (placeOf B.q.lat.name)) L v →
      L = hitsOf (sig (siteChecks key dh dw) F)) :
    B.ruleRate π G = ∑ F ∈ (Finset.range (numData dh dw)).powerset,
      if (parity F (valueCheck key dw) ^^ G (hitsOf (sig (siteChecks key dh dw) F))) = true then p ^ F.card * (1 - p) ^ (numData dh dw - F.card) else 0 := by
  classical
  rw [bench_ruleRate B hπ, independent_one_step B hp]
  unfold flipProb
  refine Finset.sum_congr rfl fun F hF => ?_
  have hF := Finset.mem_powerset.1 hF
  obtain ⟨L0, h0⟩ := observed_one B hF
  have e : (∃ L v, Observed key B.q.lat.name dh dw (1 : Nat) (F.image (placeOf B.q.lat.name)) L v ∧ (v ^^ G L) = true) ↔
      (parity F (valueCheck key dw) ^^ G (hitsOf (sig (siteChecks key dh dw) F))) = true := by
    constructor
    · rintro ⟨L, v, h1, h2⟩
      obtain ⟨rfl, rfl⟩ := observed_unique h0 h1
      rw [← hh F hF _ _ h1]
      exact h2
    · intro h
      refine ⟨L0, _, h0, ?_⟩
      rw [hh F hF _ _ h0]
      exact h
  simp only [e]

/-- The decoder of the repository has the rate of its rule. -/
theorem rate_is_ruleRate (B : Bench cls dh dw key 1) {π : Nat × Qubit → Bool × Bool → ℝ} (hπ : ∀ i ∈ B.places, PauliNoise (π i)) {x : List Node → Bool}
    (hx : ∀ F ⊆ Finset.range (numData dh dw), ∀ L v, Observed key B.q.lat.name dh dw (1 : Nat) (F.image (placeOf B.q.lat.name)) L v →
      ∀ w, verdictOf B.D B.m key none L w = .ok (some (bit (w ^^ x L)))) : B.rate π none = B.ruleRate π x := by
  rw [bench_rate B hπ, bench_ruleRate B hπ]
  refine independent_congr fun F hF => ?_
  rw [places_one_step] at hF
  obtain ⟨F', h1, rfl⟩ := Finset.subset_image_iff.1 hF
  unfold Wrong
  constructor
  · rintro ⟨L, v, h2, h3⟩
    refine ⟨L, v, h2, ?_⟩
    rw [hx F' h1 L v h2 v] at h3
    by_contra hc
    rw [Bool.not_eq_true] at hc
    rw [hc] at h3
    exact h3 rfl
  · rintro ⟨L, v, h2, h3⟩
    refine ⟨L, v, h2, ?_⟩
    rw [hx F' h1 L v h2 v, h3]
    simp [bit]

/-- The columns of the data qubits: which of the measured value and the stabilizers their flips change. -/
def colsOf (key : Key) (dh dw : Int) : List Nat := (List.range (numData dh dw)).map (col (valueCheck key dw :: siteChecks key dh dw))

theorem siteChecks_sig_lt {F : Finset Nat} : sig (siteChecks key dh dw) F < 2 ^ (sitesOf key dh dw).length := by
  have : ∀ l : List Bool, mask l < 2 ^ l.length := by
    intro l
    induction l with
    | nil => simp [mask]
    | cons b l ih =>
      rw [mask, List.length_cons, pow_succ]
      cases b <;> simp [Nat.bit] <;> omega
  have h := this ((siteChecks key dh dw).map (parity F))
  rw [List.length_map] at h
  unfold siteChecks at h
  rw [List.length_map] at h
  exact h

/-- If a computation shows that the smallest sets of flips are always of the likelier kind, no rule is better than the decoder of the repository. -/
theorem best_of_check (B : Bench cls dh dw key 1) {π : Nat × Qubit → Bool × Bool → ℝ} (hπ : ∀ i ∈ B.places, PauliNoise (π i)) {p : ℝ}
    (hp : ∀ i ∈ B.places, turnProb (turnedAt cls.code key B.q.lat.name i) (π i) = p) (h0 : 0 ≤ p) (h1 : p ≤ 1 / 2) {a : Nat}
    (hu : a * (p * (1 - p)) ≤ p ^ 2 + (1 - p) ^ 2)
    (hc : ∀ s < 2 ^ ((sitesOf key dh dw).length + 1), Likelier a (colsOf key dh dw) s) (G : List Node → Bool) :
    B.rate π none ≤ B.ruleRate π G := by
  classical
  obtain ⟨hitsOf, hh⟩ := hits_of_sig B
  obtain ⟨x, hx⟩ := rule_of_bench B
  rw [rate_is_ruleRate B hπ (x := x) fun F hF L v h => (hx F hF L v h).1, ← sub_nonneg, ruleRate_one B hπ hp G hh, ruleRate_one B hπ hp x hh,
    rule_diff (valueCheck key dw) (siteChecks key dh dw) (Finset.range (numData dh dw)) (fun k => p ^ k * (1 - p) ^ (numData dh dw - k))
      (fun h => x (hitsOf h)) fun h => G (hitsOf h)]
  refine Finset.sum_nonneg fun h hm => ?_
  split
  · exact le_rfl
  obtain ⟨F, hF, rfl⟩ := Finset.mem_image.1 hm
  have hF := Finset.mem_powerset.1 hF
  obtain ⟨L, hL⟩ := observed_one B hF
  obtain rfl := hh F hF _ _ hL
  obtain ⟨-, F1, f1, f2, f3, f4⟩ := hx F hF _ _ hL
  rw [mass_eq, mass_eq, sub_nonneg]
  have hs : sig (valueCheck key dw :: siteChecks key dh dw) F1 =
      Nat.bit (x (hitsOf (sig (siteChecks key dh dw) F))) (sig (siteChecks key dh dw) F) := by
    rw [sig_cons, f2, f3]
  refine likelier_mass (k := F1.card) (hc _ ?_) h0 h1 hu ?_ ((plain_ne_zero _ _).2 ⟨F1, f1, hs, rfl⟩) ?_
  · rw [pow_succ]
    have := siteChecks_sig_lt (key := key) (dh := dh) (dw := dw) (F := F)
    cases x (hitsOf (sig (siteChecks key dh dw) F)) <;> simp [Nat.bit] <;> omega
  · have := Finset.card_le_card f1
    rw [Finset.card_range] at this
    unfold colsOf
    rw [List.length_map, List.length_range]
    omega
  · intro j hj
    by_contra hne
    obtain ⟨F2, g1, g2, g3⟩ := (plain_ne_zero _ _).1 hne
    rw [sig_cons, bit_xor_one, bit_inj] at g2
    have := f4 F2 g1 g2.2
    omega

/-- If a computation shows that for one `s` the smallest sets of flips are of the less likely kind, there is a better rule. -/
theorem better_of_check (B : Bench cls dh dw key 1) {π : Nat × Qubit → Bool × Bool → ℝ} (hπ : ∀ i ∈ B.places, PauliNoise (π i)) {p : ℝ}
    (hp : ∀ i ∈ B.places, turnProb (turnedAt cls.code key B.q.lat.name i) (π i) = p) {s k : Nat} (hk : plain (colsOf key dh dw) s k ≠ 0)
    (hz : ∀ j, j ≤ k → plain (colsOf key dh dw) (s ^^^ 1) j = 0) (hm : mass (colsOf key dh dw) p s < mass (colsOf key dh dw) p (s ^^^ 1)) :
    ∃ G, B.ruleRate π G < B.rate π none := by
  classical
  obtain ⟨hitsOf, hh⟩ := hits_of_sig B
  obtain ⟨x, hx⟩ := rule_of_bench B
  obtain ⟨F0, e1, e2, e3⟩ := (plain_ne_zero _ _).1 hk
  obtain ⟨L0, hL0⟩ := observed_one B e1
  refine ⟨fun L => if L = L0 then !x L else x L, ?_⟩
  rw [rate_is_ruleRate B hπ (x := x) fun F hF L v h => (hx F hF L v h).1, ← sub_neg, ruleRate_one B hπ hp _ hh, ruleRate_one B hπ hp x hh,
    rule_diff (valueCheck key dw) (siteChecks key dh dw) (Finset.range (numData dh dw)) (fun k => p ^ k * (1 - p) ^ (numData dh dw - k))
      (fun h => x (hitsOf h)) fun h => if hitsOf h = L0 then !x (hitsOf h) else x (hitsOf h)]
  have hL : hitsOf (sig (siteChecks key dh dw) F0) = L0 := (hh F0 e1 _ _ hL0).symm
  obtain ⟨-, F1, f1, f2, f3, f4⟩ := hx F0 e1 _ _ hL0
  have hs : Nat.bit (x L0) (sig (siteChecks key dh dw) F0) = s := by
    rw [← f3, ← f2]
    change sig (valueCheck key dw :: siteChecks key dh dw) F1 = s
    by_contra hne
    have h1 : sig (valueCheck key dw :: siteChecks key dh dw) F1 = s ^^^ 1 := by
      rw [← e2, sig_cons, sig_cons, bit_xor_one, f2]
      rw [← e2, sig_cons, sig_cons, f2, bit_inj] at hne
      congr 1
      revert hne
      cases parity F1 (valueCheck key dw) <;> cases parity F0 (valueCheck key dw) <;> simp
    have := f4 F0 e1 rfl
    exact absurd (hz F1.card (by omega)) ((plain_ne_zero _ _).2 ⟨F1, f1, h1, rfl⟩)
  rw [Finset.sum_eq_single (sig (siteChecks key dh dw) F0)]
  · rw [hL, if_neg (by rw [if_pos rfl]; cases x L0 <;> simp), hs, mass_eq, mass_eq, sub_neg]
    exact hm
  · intro h hmem hne
    obtain ⟨F, hF, rfl⟩ := Finset.mem_image.1 hmem
    have hF := Finset.mem_powerset.1 hF
    obtain ⟨L, hL⟩ := observed_one B hF
    have : hitsOf (sig (siteChecks key dh dw) F) ≠ L0 := by
      intro he
      rw [← hh F hF _ _ hL] at he
      exact hne ((observed_same B.odd hF e1 hL hL0).1 he)
    rw [if_neg this, if_pos rfl]
  · intro h
    exact absurd (Finset.mem_image_of_mem _ (Finset.mem_powerset.2 e1)) h

end Qtc
