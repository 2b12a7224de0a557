import Verif.Proof.Prob
import Verif.Proof.Symmetric
import Verif.Props.SurfaceThreshold
/-!
C93: what the logical error rate depends on.
-/
namespace Qtc
open Spec Function

variable {cls cls' : QClass} {dh dw : Int} {key : Key} {T : Nat}

/-- `L` are the hits and `v` is the measured value if the errors that matter are those of the identity gates in `F`. -/
def Observed (key : Key) (name : Str) (dh dw : Int) (T : Nat) (F : Finset (Nat × Qubit)) (L : List Node) (v : Bool) : Prop :=
  ∃ fs rounds, fs.Nodup ∧ (∀ f, f ∈ fs ↔ f.Fits key dh dw T ∧ faultPlace key name dh dw f ∈ F) ∧ (rounds.length : Int) = T + 1 ∧
    RoundsRead key dh dw (fun _ _ => false) fs rounds ∧ L = changes (sitesOf key dh dw) (rounds.map (keyBits key dh dw)) ∧
    v = readoutFlipped key fs

/-- The errors that matter. -/
def Bench.turned (B : Bench cls dh dw key T) (X Z : Finset (Nat × Qubit)) : Finset (Nat × Qubit) :=
  B.places.filter fun i => turnedAt cls.code key B.q.lat.name i (decide (i ∈ X), decide (i ∈ Z)) = true

theorem observed_unique {name : Str} {F : Finset (Nat × Qubit)} {L L' : List Node} {v v' : Bool} (h : Observed key name dh dw T F L v)
    (h' : Observed key name dh dw T F L' v') : L = L' ∧ v = v' := by
  obtain ⟨fs, rs, h1, h2, h3, h4, rfl, rfl⟩ := h
  obtain ⟨fs', rs', h1', h2', h3', h4', rfl, rfl⟩ := h'
  have hp : fs.Perm fs' := (List.perm_ext_iff_of_nodup h1 h1').2 fun f => by rw [h2, h2']
  refine ⟨rounds_changes (by omega) h4 h4' fun t p _ => ?_, xorAll_perm (hp.map _)⟩
  unfold readBit
  rw [xorAll_perm (hp.map _)]

theorem Bench.observed (B : Bench cls dh dw key T) {X Z : Finset (Nat × Qubit)} {s' : QState} (hR : B.Ends X Z s') (ep : Option ℝ) :
    ∃ L v, Observed key B.q.lat.name dh dw T (B.turned X Z) L v ∧ B.decoded s' ep = verdictOf B.D B.m key ep L v := by
  have hw : 0 < dw := by have := B.odd; unfold OddPos at this; exact this.2.2.1
  obtain ⟨rounds, r1, r2, r3⟩ := B.strings hR ep
  refine ⟨_, _, ⟨B.faults X Z, rounds, memory_nodup hw, fun f => mem_memory hw, r1, r2, rfl, rfl⟩, ?_⟩
  rw [r3, string_verdict (by rw [B.height, B.width]; exact B.odd) (by rw [B.height, B.width]; exact B.big) r2.1, B.height, B.width]

theorem turned_self (B : Bench cls dh dw key T) {F : Finset (Nat × Qubit)} (hF : F ⊆ B.places) : B.turned F F = F := by
  ext i
  unfold Bench.turned
  rw [Finset.mem_filter]
  have h : ∀ b : Bool, turnedAt cls.code key B.q.lat.name i (b, b) = b := by
    intro b
    unfold turnedAt turnedBy
    cases cls.code <;> cases key <;> simp
  rw [h]
  simp only [decide_eq_true_eq]
  exact ⟨fun h => h.2, fun h => ⟨hF h, h⟩⟩

theorem observed_exists (B : Bench cls dh dw key T) {F : Finset (Nat × Qubit)} (hF : F ⊆ B.places) :
    ∃ L v, Observed key B.q.lat.name dh dw T F L v := by
  obtain ⟨s', h⟩ := C91_executions B F F
  obtain ⟨L, v, h1, -⟩ := B.observed h none
  rw [turned_self B hF] at h1
  exact ⟨L, v, h1⟩

/-- C93: the decoded value of an execution is a function of the errors that matter: it does not depend on the outcomes of the measurements. -/
theorem C93_deterministic (B : Bench cls dh dw key T) {X Z X' Z' : Finset (Nat × Qubit)} (ht : B.turned X Z = B.turned X' Z') {s s' : QState}
    (h : B.Ends X Z s) (h' : B.Ends X' Z' s') (ep : Option ℝ) : B.decoded s ep = B.decoded s' ep := by
  obtain ⟨L, v, h1, h2⟩ := B.observed h ep
  obtain ⟨L', v', h1', h2'⟩ := B.observed h' ep
  rw [ht] at h1
  obtain ⟨rfl, rfl⟩ := observed_unique h1 h1'
  rw [h2, h2']

/-- The decoded value is wrong if these errors matter. -/
def Wrong (D : Decoder) (m : Matcher) (key : Key) (name : Str) (dh dw : Int) (T : Nat) (ep : Option ℝ) (F : Finset (Nat × Qubit)) : Prop :=
  ∃ L v, Observed key name dh dw T F L v ∧ verdictOf D m key ep L v ≠ .ok (some 0)

theorem bench_rate (B : Bench cls dh dw key T) {π : Nat × Qubit → Bool × Bool → ℝ} (hπ : ∀ i ∈ B.places, PauliNoise (π i)) (ep : Option ℝ) :
    B.rate π ep = independent B.places (fun i => turnProb (turnedAt cls.code key B.q.lat.name i) (π i)) (Wrong B.D B.m key B.q.lat.name dh dw T ep) := by
  rw [← pauli_marginal _ _ _ hπ]
  unfold Bench.rate
  refine pauliProb_congr fun X Z _ _ => ?_
  constructor
  · rintro ⟨s', h1, h2⟩
    obtain ⟨L, v, h3, h4⟩ := B.observed h1 ep
    exact ⟨L, v, h3, h4 ▸ h2⟩
  · rintro ⟨L, v, h3, h4⟩
    obtain ⟨s', h⟩ := C91_executions B X Z
    obtain ⟨L', v', h3', h4'⟩ := B.observed h ep
    obtain ⟨rfl, rfl⟩ := observed_unique h3 h3'
    exact ⟨s', h, by rw [h4']; exact h4⟩

/-- C93: the logical error rate depends on the decoder and on the probabilities of the errors that matter only, even between classes of codes. -/
theorem C93_equivalent (B : Bench cls dh dw key T) (B' : Bench cls' dh dw key T) (hname : B.q.lat.name = B'.q.lat.name) (hD : B.D = B'.D)
    (hm : B.m = B'.m) (π π' : Nat × Qubit → Bool × Bool → ℝ) (hπ : ∀ i ∈ B.places, PauliNoise (π i)) (hπ' : ∀ i ∈ B.places, PauliNoise (π' i))
    (h : ∀ i ∈ B.places, turnProb (turnedAt cls.code key B.q.lat.name i) (π i) = turnProb (turnedAt cls'.code key B.q.lat.name i) (π' i))
    (ep : Option ℝ) : B.rate π ep = B'.rate π' ep := by
  have hpl : B.places = B'.places := by unfold Bench.places; rw [hname]
  rw [bench_rate B hπ, bench_rate B' (hpl ▸ hπ'), ← hpl, ← hname, ← hD, ← hm]
  exact independent_q h _

theorem turnProb_xz {code : Code} {name : Str} {i : Nat × Qubit} (p : ℝ) : turnProb (turnedAt code key name i) (xzNoise p) = p := by
  have h : turnedAt code key name i = Prod.fst ∨ turnedAt code key name i = Prod.snd := by
    unfold turnedAt turnedBy
    by_cases h1 : i.2.reg = name ++ "_data".toList
    · simp only [if_pos h1]
      by_cases h2 : code = .xzzx ∧ (i.2.idx : Int) % 2 = 0
      · simp only [if_pos h2]
        cases key
        · exact Or.inl rfl
        · exact Or.inr rfl
      · simp only [if_neg h2]
        cases key
        · exact Or.inr rfl
        · exact Or.inl rfl
    · left
      simp only [if_neg h1]
      try rfl
  rcases h with h | h
  · rw [h]
    unfold turnProb
    simp [xzNoise]
  · rw [h]
    unfold turnProb
    simp [xzNoise]

/-- C93: XZZX codes with X and Z errors of probability `p` each have exactly the logical error rate of XXZZ codes with X errors of
probability `p`. -/
theorem C93_xzzx_xxzz (B : Bench .xzzx dh dw .Z T) (B' : Bench .xxzz dh dw .Z T) (hname : B.q.lat.name = B'.q.lat.name) (hD : B.D = B'.D)
    (hm : B.m = B'.m) (p : ℝ) (h0 : 0 ≤ p) (h1 : p ≤ 1 / 2) (ep : Option ℝ) :
    B.rate (fun _ => xzNoise p) ep = B'.rate (fun _ => bitNoise p) ep := by
  refine C93_equivalent B B' hname hD hm _ _ (fun _ _ => xzNoise_pauli h0 h1) (fun _ _ => bitNoise_pauli h0 (by linarith)) (fun i _ => ?_) ep
  rw [turnProb_xz]
  show p = turnProb (turnedAt .xxzz .Z B.q.lat.name i) (bitNoise p)
  rw [turnProb_bit]
  simp [bitNoise]

/-! ### Exchanging errors and no errors -/

/-- The values of `err_prob` for which decoding never raises an exception. -/
def UsableProb (ep : Option ℝ) : Prop := ep = none ∨ ep = some 0 ∨ ∃ p, ep = some p ∧ 0 < p ∧ p < 1 ∧ p ≠ 1 / 2

/-- The identity gates on data qubits in time step `t`. -/
def dataPlaces (name : Str) (dh dw : Int) (t : Nat) : Finset (Nat × Qubit) := ((allQubits dh dw).map fun i => (t, dataQ name i)).toFinset

theorem mem_dataPlaces {name : Str} {t : Nat} {i : Nat × Qubit} : i ∈ dataPlaces name dh dw t ↔ ∃ j ∈ allQubits dh dw, i = (t, dataQ name j) := by
  unfold dataPlaces
  rw [List.mem_toFinset, List.mem_map]
  exact ⟨fun ⟨j, h1, h2⟩ => ⟨j, h1, h2.symm⟩, fun ⟨j, h1, h2⟩ => ⟨j, h1, h2.symm⟩⟩

theorem dataPlaces_subset {name : Str} {t : Nat} (ht : t < T) : dataPlaces name dh dw t ⊆ idPlaces name dh dw T := by
  intro i hi
  obtain ⟨j, hj, rfl⟩ := mem_dataPlaces.1 hi
  exact mem_idPlaces.2 ⟨ht, Or.inl (List.mem_map.2 ⟨j, hj, rfl⟩)⟩

theorem faultPlace_data {name : Str} {t : Nat} {f : Fault} (hf : f.Fits key dh dw T) :
    faultPlace key name dh dw f ∈ dataPlaces name dh dw t ↔ f ∈ allFlips dh dw t := by
  rw [mem_dataPlaces, mem_allFlips]
  cases f with
  | data t' r c =>
    obtain ⟨h1, h2, h3, h4, h5, h6⟩ := hf
    constructor
    · rintro ⟨j, hj, h⟩
      simp only [faultPlace, Prod.mk.injEq] at h
      refine ⟨r, c, ?_, h3, h4, h5, h6⟩
      rw [← h.1, Int.toNat_of_nonneg h1]
    · rintro ⟨r', c', h, -⟩
      simp only [Fault.data.injEq] at h
      obtain ⟨rfl, rfl, rfl⟩ := h
      exact ⟨_, site_mem ⟨h3, h4, h5, h6⟩, by simp [faultPlace]⟩
  | meas t' r c =>
    constructor
    · rintro ⟨j, hj, h⟩
      simp only [faultPlace, Prod.mk.injEq] at h
      exact absurd (congrArg Qubit.reg h.2) synQ_reg
    · rintro ⟨r', c', h, -⟩
      cases h

theorem allFlips_fits {t : Nat} (ht : t < T) {f : Fault} (h : f ∈ allFlips dh dw t) : f.Fits key dh dw T := by
  obtain ⟨r, c, rfl, h1, h2, h3, h4⟩ := mem_allFlips.1 h
  exact ⟨by omega, by omega, h1, h2, h3, h4⟩

/-- Flipping all data qubits at once changes no hits but the measured value. -/
theorem observed_symm {name : Str} (H : OddPos dh dw) {t : Nat} (ht : t < T) {F : Finset (Nat × Qubit)} {L L' : List Node} {v v' : Bool}
    (h : Observed key name dh dw T F L v) (h' : Observed key name dh dw T (symmDiff F (dataPlaces name dh dw t)) L' v') :
    L' = L ∧ v' = !v := by
  classical
  obtain ⟨fs, rs, h1, h2, h3, h4, rfl, rfl⟩ := h
  obtain ⟨fs', rs', h1', h2', h3', h4', rfl, rfl⟩ := h'
  have hmem : ∀ f, f ∈ fs' ↔ ¬ (f ∈ fs ↔ f ∈ allFlips dh dw t) := by
    intro f
    rw [h2', h2, Finset.mem_symmDiff]
    by_cases hf : f.Fits key dh dw T
    · rw [faultPlace_data hf]
      tauto
    · have := fun h => hf (allFlips_fits (key := key) ht h)
      tauto
  have hx := xorAll_symm (s := fs') h1 allFlips_nodup h1' hmem
  constructor
  · refine rounds_changes (by omega) h4' h4 fun u p hp => ?_
    unfold readBit
    rw [hx, allFlips_affects (mem_sitesOf.1 hp), Bool.xor_false]
  · unfold readoutFlipped
    rw [hx, show xorAll ((allFlips dh dw t).map (Fault.flipsReadout key)) = true from allFlips_readout H, Bool.xor_true]

theorem corrections_usable (B : Bench cls dh dw key T) {ep : Option ℝ} (he : UsableProb ep) {F : Finset (Nat × Qubit)} {L : List Node} {v : Bool}
    (h : Observed key B.q.lat.name dh dw T F L v) : ∃ r, corrections B.D B.m L (rtypeOf key) ep = .ok r := by
  by_cases hne : L = []
  · refine ⟨([], L), ?_⟩
    unfold corrections
    rw [if_pos hne]
  obtain ⟨fs, rs, h1, h2, h3, h4, rfl, rfl⟩ := h
  have hn : (changes (sitesOf key dh dw) (rs.map (keyBits key dh dw))).Nodup := changes_nodup' _ _ _ _
  have hh : ∀ n ∈ changes (sitesOf key dh dw) (rs.map (keyBits key dh dw)), IsHit key dh dw T fs n := by
    intro n hn
    refine (changes_isHit (ref := fun _ _ => false) (T := T) (fs := fs) (by rw [List.length_map]; exact h3) ?_ n).1 hn
    intro t k a p ha hp
    rw [List.getElem?_map, Option.map_eq_some_iff] at ha
    obtain ⟨s, hs, rfl⟩ := ha
    exact h4.2 t k s p hs hp
  generalize changes (sitesOf key dh dw) (rs.map (keyBits key dh dw)) = L at *
  obtain ⟨n0, hn0⟩ := List.exists_mem_of_ne_nil _ hne
  have hT : 0 < T := by
    have := hh n0 hn0
    have := this.1.trans_lt this.2.1
    omega
  have R : Ready B.D key B.g := ⟨B.made, B.graph, by rw [B.height, B.width]; exact B.isLong, by rw [B.steps]; omega⟩
  have hLg : ∀ n ∈ L, GNode key B.D.dh B.D.dw B.D.T n := fun n h => by rw [B.steps, B.height, B.width]; exact isHit_gnode (hh n h)
  have hr : ∀ n ∈ L, n.t ≠ -1 := by
    intro n h
    have := (hh n h).1
    omega
  rcases he with rfl | rfl | ⟨p, rfl, p0, p1, p2⟩
  · obtain ⟨M, h, -⟩ := corrections_full R B.contract hne hLg (parityOk_nodup hn hr)
    exact ⟨_, h⟩
  · obtain ⟨M, h, -⟩ := corrections_zero R B.contract hne hLg
    exact ⟨_, h⟩
  · obtain ⟨M, h, -⟩ := corrections_prob R B.contract hne hn hLg hr p0 p1 p2
    exact ⟨_, h⟩

theorem wrong_symm (B : Bench cls dh dw key T) {ep : Option ℝ} (he : UsableProb ep) {t : Nat} (ht : t < T) {F : Finset (Nat × Qubit)}
    (hF : F ⊆ B.places) : Wrong B.D B.m key B.q.lat.name dh dw T ep (symmDiff F (dataPlaces B.q.lat.name dh dw t)) ↔
      ¬ Wrong B.D B.m key B.q.lat.name dh dw T ep F := by
  classical
  have hF' : symmDiff F (dataPlaces B.q.lat.name dh dw t) ⊆ B.places := by
    intro i hi
    rcases Finset.mem_symmDiff.1 hi with h | h
    · exact hF h.1
    · exact dataPlaces_subset ht h.1
  obtain ⟨L, v, h⟩ := observed_exists B hF
  obtain ⟨L', v', h'⟩ := observed_exists B hF'
  obtain ⟨rfl, rfl⟩ := observed_symm B.odd ht h h'
  obtain ⟨r, hr⟩ := corrections_usable B he h
  obtain ⟨x, hx⟩ := verdict_flip hr
  have e1 : ∀ {G w}, Observed key B.q.lat.name dh dw T G L' w → (Wrong B.D B.m key B.q.lat.name dh dw T ep G ↔ (w ^^ x) = true) := by
    intro G w hG
    constructor
    · rintro ⟨L1, v1, a1, a2⟩
      obtain ⟨rfl, rfl⟩ := observed_unique hG a1
      rw [hx] at a2
      by_contra hc
      rw [Bool.not_eq_true] at hc
      rw [hc] at a2
      exact a2 rfl
    · intro hw
      refine ⟨_, _, hG, ?_⟩
      rw [hx, hw]
      simp [bit]
  rw [e1 h, e1 h']
  cases v <;> cases x <;> decide

/-- C93: if at one time step errors and no errors that matter on the data qubits are exchanged, right and wrong decoded values are exchanged. -/
theorem C93_complement (B : Bench cls dh dw key T) {ep : Option ℝ} (he : UsableProb ep) {t : Nat} (ht : t < T)
    (π π' : Nat × Qubit → Bool × Bool → ℝ) (hπ : ∀ i ∈ B.places, PauliNoise (π i)) (hπ' : ∀ i ∈ B.places, PauliNoise (π' i))
    (h1 : ∀ j ∈ allQubits dh dw, turnProb (turnedAt cls.code key B.q.lat.name (t, dataQ B.q.lat.name j)) (π' (t, dataQ B.q.lat.name j)) =
      1 - turnProb (turnedAt cls.code key B.q.lat.name (t, dataQ B.q.lat.name j)) (π (t, dataQ B.q.lat.name j)))
    (h2 : ∀ i ∈ B.places, i ∉ dataPlaces B.q.lat.name dh dw t →
      turnProb (turnedAt cls.code key B.q.lat.name i) (π' i) = turnProb (turnedAt cls.code key B.q.lat.name i) (π i)) :
    B.rate π' ep = 1 - B.rate π ep := by
  rw [bench_rate B hπ, bench_rate B hπ', independent_symmDiff (S := B.places) (q := fun i => turnProb (turnedAt cls.code key B.q.lat.name i) (π i))
    (dataPlaces_subset ht) ?_ h2, ← independent_not]
  · exact independent_congr fun F hF => wrong_symm B he ht hF
  · intro i hi
    obtain ⟨j, hj, rfl⟩ := mem_dataPlaces.1 hi
    exact h1 j hj

/-- C93: with one time step and X errors of probability `p`, the curve of the logical error rate is symmetric about the point (1/2, 1/2). -/
theorem C93_bit_flips (B : Bench cls dh dw .Z 1) (hcls : cls ≠ .xzzx) {ep : Option ℝ} (he : UsableProb ep) (p : ℝ) (h0 : 0 ≤ p) (h1 : p ≤ 1) :
    B.rate (fun _ => bitNoise (1 - p)) ep = 1 - B.rate (fun _ => bitNoise p) ep := by
  have hc : cls.code = .xxzz := by
    cases cls
    · rfl
    · exact absurd rfl hcls
    · rfl
  refine C93_complement B he (t := 0) Nat.zero_lt_one _ _ (fun _ _ => bitNoise_pauli h0 h1) (fun _ _ => bitNoise_pauli (by linarith) (by linarith))
    (fun j _ => ?_) (fun i hi hn => ?_)
  · rw [hc, turnProb_bit, turnProb_bit]
    simp [bitNoise]
  · exfalso
    obtain ⟨hi, h⟩ := mem_idPlaces.1 hi
    rcases h with h | h
    · obtain ⟨j, hj, h⟩ := List.mem_map.1 h
      refine hn (mem_dataPlaces.2 ⟨j, hj, ?_⟩)
      rw [h, Prod.ext_iff]
      exact ⟨by simp only; omega, rfl⟩
    · omega

/-- C93: as soon as the data qubits are random at one time step, the decoded value is wrong with probability exactly 1/2: with every code,
every size, every number of time steps, every noise at the other time steps, and every value of `err_prob` that can be used. -/
theorem C93_half (B : Bench cls dh dw key T) {ep : Option ℝ} (he : UsableProb ep) {t : Nat} (ht : t < T)
    (π : Nat × Qubit → Bool × Bool → ℝ) (hπ : ∀ i ∈ B.places, PauliNoise (π i))
    (h : ∀ j ∈ allQubits dh dw, turnProb (turnedAt cls.code key B.q.lat.name (t, dataQ B.q.lat.name j)) (π (t, dataQ B.q.lat.name j)) = 1 / 2) :
    B.rate π ep = 1 / 2 := by
  have := C93_complement B he ht π π hπ hπ (fun j hj => by rw [h j hj]; norm_num) (fun _ _ _ => rfl)
  linarith

/-- Both benchmarks of `C93_xzzx_xxzz` exist, with the decoder in common. -/
theorem C93_exists (H : OddPos dh dw) (h3 : 3 ≤ distance .Z dh dw) (hc : CanRead .xzzx dh dw .Z) :
    ∃ (B : Bench .xzzx dh dw .Z T) (B' : Bench .xxzz dh dw .Z T), B.q.lat.name = B'.q.lat.name ∧ B.D = B'.D ∧ B.m = B'.m := by
  obtain ⟨B, -⟩ := C91_exists (T := T) .xzzx (by decide) .Z H h3 hc true (fun h => by cases h)
  obtain ⟨q, w, A, hname⟩ := afterAlone_exists .xxzz B.q.lat.name H (fun h => by cases h) []
  refine ⟨B, {
    q := q, ops := [], w := w, D := B.D, g := B.g, m := B.m, s := ⟨ground, fun _ => false⟩, sz := fun _ => 0,
    pre := [(prepOp .Z, noErrs)], e0 := noErrs, other := fun _ => noErrs, last := noErrs, after := A,
    quiet := fun o h => absurd h List.not_mem_nil, fresh := rfl, long := h3, canRead := Or.inl (by decide), made := B.made, height := B.height,
    width := B.width, graph := B.graph, steps := B.steps, contract := B.contract, nonzero := ground_ne_zero, zeros := ground_synZero,
    start := Or.inl rfl }, hname.symm, rfl, rfl⟩

/-- The sweeps of `data/xzzx_threshold/20210611/simulation.py` and `data/xxzz_threshold/20210601/simulation.py` at distance 5 with one decoder
give the same curve, and the second one is symmetric. -/
example : ∃ (B : Bench .xzzx 5 5 .Z 1) (B' : Bench .xxzz 5 5 .Z 1), ∀ p : ℝ, 0 ≤ p → p ≤ 1 / 2 → ∀ ep,
    B.rate (fun _ => xzNoise p) ep = B'.rate (fun _ => bitNoise p) ep ∧
      (UsableProb ep → B'.rate (fun _ => bitNoise (1 - p)) ep = 1 - B'.rate (fun _ => bitNoise p) ep) := by
  obtain ⟨B, B', h1, h2, h3⟩ := C93_exists (dh := 5) (dw := 5) (T := 1) (by unfold OddPos; omega) (by decide) (Or.inr (by decide))
  exact ⟨B, B', fun p p0 p1 ep => ⟨C93_xzzx_xxzz B B' h1 h2 h3 p p0 p1 ep, fun he => C93_bit_flips B' (by decide) he p p0 (by linarith)⟩⟩

/-- The noise `p = 1/2`: no code helps. -/
example : ∃ B : Bench .xxzz 11 11 .Z 3, B.rate (fun _ => bitNoise (1 / 2)) none = 1 / 2 := by
  obtain ⟨B, -⟩ := C91_exists (dh := 11) (dw := 11) (T := 3) .xxzz (by decide) .Z (by unfold OddPos; omega) (by decide) (Or.inl (by decide)) true
    (fun h => by cases h)
  refine ⟨B, C93_half B (Or.inl rfl) (t := 1) (by decide) _ (fun _ _ => bitNoise_pauli (by norm_num) (by norm_num)) fun j _ => ?_⟩
  show turnProb (turnedAt .xxzz .Z B.q.lat.name _) (bitNoise (1 / 2)) = 1 / 2
  rw [turnProb_bit]
  simp [bitNoise]

end Qtc
