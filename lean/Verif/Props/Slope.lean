import Mathlib.Analysis.SpecialFunctions.Log.Basic
import Mathlib.Topology.Order.OrderClosed
import Verif.Proof.Labelled
import Verif.Props.Degeneracy
import Verif.Props.Radius
import Verif.Props.RateSymmetry
/-!
C94: how fast the logical error rate falls with the probability of an error.
-/
namespace Qtc
open Spec Function Finset

/-! ### Probabilities -/

section
variable {ι : Type} [DecidableEq ι] {S : Finset ι} {q : ι → ℝ} {p : ℝ}

/-- The probability of at least `t` errors. -/
theorem independent_many (h1 : p ≤ 1) (hq : ∀ i ∈ S, 0 ≤ q i ∧ q i ≤ p) (t : Nat) :
    independent S q (fun F => t ≤ F.card) ≤ (S.card.choose t : ℝ) * p ^ t := by
  have hq1 : ∀ i ∈ S, 0 ≤ q i ∧ q i ≤ 1 := fun i hi => ⟨(hq i hi).1, (hq i hi).2.trans h1⟩
  have h := independent_list hq1 (fun (G : Finset ι) F => ∀ i ∈ G.toList, i ∈ F) (y := p ^ t) (powersetCard t S).toList (by
    intro G hG
    rw [mem_toList, mem_powersetCard] at hG
    have := all_prob (S := S) h1 hq (l := G.toList) (nodup_toList _) (fun i hi => hG.1 (mem_toList.1 hi))
    rwa [length_toList, hG.2] at this)
  rw [length_toList, card_powersetCard] at h
  refine (independent_mono hq1 fun F hF hc => ?_).trans h
  obtain ⟨G, hG, hc⟩ := exists_subset_card_eq hc
  exact ⟨G, mem_toList.2 (mem_powersetCard.2 ⟨hG.trans hF, hc⟩), fun i hi => hG (mem_toList.1 hi)⟩

/-- The probability of a set of errors is at most that of a property it has. -/
theorem independent_one (hq : ∀ i ∈ S, 0 ≤ q i ∧ q i ≤ 1) {bad : Finset ι → Prop} {F : Finset ι} (hF : F ⊆ S) (hb : bad F) :
    (∏ i ∈ F, q i) * ∏ i ∈ S \ F, (1 - q i) ≤ independent S q bad := by
  classical
  unfold independent
  have := single_le_sum (s := S.powerset) (a := F) (f := fun F => if bad F then (∏ i ∈ F, q i) * ∏ i ∈ S \ F, (1 - q i) else 0)
    (fun G hG => by
      show 0 ≤ if bad G then _ else _
      split
      · exact weight_nonneg hq (mem_powerset.1 hG)
      · exact le_rfl) (mem_powerset.2 hF)
  rw [if_pos hb] at this
  convert this

end

variable {cls : QClass} {dh dw : Int} {key : Key} {T : Nat}

/-- All sets of faults within the correction radius are decoded right. -/
def Corrects (D : Decoder) (m : Matcher) (key : Key) (T : Nat) (ep : Option ℝ) : Prop :=
  ∀ fs, Correctable key D.dh D.dw T fs → ∀ (rounds : List Str), (rounds.length : Int) = T + 1 →
    RoundsRead key D.dh D.dw (fun _ _ => false) fs rounds → ∀ b : Bool,
    correctString D m (joinSp ([if b ^^ readoutFlipped key fs then '1' else '0'] :: rounds.reverse)) (rtypeOf key) ep = .ok (some (bit b))

/-- The smallest number of errors that are decoded wrongly. -/
def halfDistance (key : Key) (dh dw : Int) : Nat := ((distance key dh dw + 1) / 2).toNat

theorem halfDistance_spec (B : Bench cls dh dw key T) : (halfDistance key dh dw : Int) + (halfDistance key dh dw - 1) = distance key dh dw ∧
    0 < halfDistance key dh dw := by
  have h := B.odd
  have h3 := B.long
  unfold OddPos at h
  unfold halfDistance
  have : distance key dh dw % 2 = 1 := by
    cases key
    · exact h.2.2.2
    · exact h.2.1
  omega

theorem wrong_many (B : Bench cls dh dw key T) {ep : Option ℝ} (hc : Corrects B.D B.m key T ep) {X Z : Finset (Nat × Qubit)} {s' : QState}
    (hR : B.Ends X Z s') (hne : B.decoded s' ep ≠ .ok (some 0)) : halfDistance key dh dw ≤ (B.turned X Z).card := by
  have hw : 0 < dw := by have := B.odd; unfold OddPos at this; exact this.2.2.1
  obtain ⟨rounds, r1, r2, r3⟩ := B.strings hR ep
  by_contra hlt
  refine hne ?_
  have hlen : (B.faults X Z).length ≤ (B.turned X Z).card := by
    have hnd : ((B.faults X Z).map (faultPlace key B.q.lat.name dh dw)).Nodup :=
      List.Nodup.map_on (fun x hx y hy h => faultPlace_inj hw (B.faults_fits hx) (B.faults_fits hy) h) (memory_nodup hw)
    rw [← List.length_map (f := faultPlace key B.q.lat.name dh dw), ← List.toFinset_card_of_nodup hnd]
    refine card_le_card fun i hi => ?_
    obtain ⟨f, hf, rfl⟩ := List.mem_map.1 (List.mem_toFinset.1 hi)
    exact ((mem_memory hw).1 hf).2
  have hs := halfDistance_spec B
  have := hc (B.faults X Z) (by
    rw [B.height, B.width]
    exact ⟨fun f hf => B.faults_fits hf, by omega⟩) rounds r1 (by rw [B.height, B.width]; exact r2) false
  rw [Bool.false_xor] at this
  rw [r3, this]
  rfl

/-- The rate is at most that of as many errors as are needed. -/
theorem rate_upper (B : Bench cls dh dw key T) {ep : Option ℝ} (hc : Corrects B.D B.m key T ep) (π : Nat × Qubit → Bool × Bool → ℝ)
    (hπ : ∀ i ∈ B.places, PauliNoise (π i)) {p : ℝ} (h1 : p ≤ 1)
    (hp : ∀ i ∈ B.places, turnProb (turnedAt cls.code key B.q.lat.name i) (π i) ≤ p) :
    B.rate π ep ≤ (B.places.card.choose (halfDistance key dh dw) : ℝ) * p ^ halfDistance key dh dw := by
  refine le_trans ?_ (independent_many (S := B.places) h1 (fun i hi => ⟨turnProb_nonneg (hπ i hi) _, hp i hi⟩) _)
  rw [← pauli_marginal _ _ _ hπ]
  refine pauliProb_mono hπ fun X Z _ _ => ?_
  rintro ⟨s', h1, h2⟩
  exact wrong_many B hc h1 h2

/-- The places of the flips of the first qubits of the left column (for X: of the top row) in the first time step. -/
def linePlaces (key : Key) (name : Str) (dh dw : Int) (n : Nat) : Finset (Nat × Qubit) :=
  ((lineFlips key 0 n).map (faultPlace key name dh dw)).toFinset

theorem line_fits (B : Bench cls dh dw key T) (hT : 0 < T) {k : Nat} (hk : (k : Int) < distance key dh dw) :
    Fault.Fits key dh dw T (lineFault key 0 k) := by
  have H := B.odd
  unfold OddPos at H
  cases key
  · change (k : Int) < dw at hk
    show _ ∧ _ ∧ _ ∧ _ ∧ _ ∧ _
    omega
  · change (k : Int) < dh at hk
    show _ ∧ _ ∧ _ ∧ _ ∧ _ ∧ _
    omega

theorem linePlaces_facts (B : Bench cls dh dw key T) (hT : 0 < T) {n : Nat} (hn : (n : Int) ≤ distance key dh dw) :
    linePlaces key B.q.lat.name dh dw n ⊆ B.places ∧ (linePlaces key B.q.lat.name dh dw n).card = n ∧
      ∀ f : Fault, f.Fits key dh dw T → (faultPlace key B.q.lat.name dh dw f ∈ linePlaces key B.q.lat.name dh dw n ↔ f ∈ lineFlips key 0 n) := by
  have hw : 0 < dw := by have := B.odd; unfold OddPos at this; exact this.2.2.1
  have hfit : ∀ f ∈ lineFlips key 0 n, f.Fits key dh dw T := by
    intro f hf
    obtain ⟨k, hk, rfl⟩ := List.mem_map.1 hf
    rw [List.mem_range] at hk
    exact line_fits B hT (by omega)
  refine ⟨?_, ?_, ?_⟩
  · intro i hi
    obtain ⟨f, hf, rfl⟩ := List.mem_map.1 (List.mem_toFinset.1 hi)
    exact faultPlace_mem (hfit f hf)
  · unfold linePlaces
    rw [List.toFinset_card_of_nodup, List.length_map]
    · unfold lineFlips
      rw [List.length_map, List.length_range]
    · refine List.Nodup.map_on (fun x hx y hy h => faultPlace_inj hw (hfit x hx) (hfit y hy) h) ?_
      refine List.Nodup.map ?_ List.nodup_range
      intro a b h
      cases key
      · simpa [lineFault] using h
      · simpa [lineFault] using h
  · intro f hf
    unfold linePlaces
    rw [List.mem_toFinset, List.mem_map]
    constructor
    · rintro ⟨g, hg, h⟩
      rwa [← faultPlace_inj hw (hfit g hg) hf h]
    · exact fun h => ⟨f, h, rfl⟩

theorem line_wrong (B : Bench cls dh dw key T) (hT : 0 < T) {ep : Option ℝ} (hc : Corrects B.D B.m key T ep) {X Z : Finset (Nat × Qubit)}
    (hX : B.turned X Z = linePlaces key B.q.lat.name dh dw (halfDistance key dh dw)) {s' : QState} (hR : B.Ends X Z s') :
    B.decoded s' ep = .ok (some 1) := by
  have hw : 0 < dw := by have := B.odd; unfold OddPos at this; exact this.2.2.1
  have hs := halfDistance_spec B
  obtain ⟨n, hn⟩ : ∃ n, n = halfDistance key dh dw := ⟨_, rfl⟩
  rw [← hn] at hs hX
  obtain ⟨f1, f2, f3⟩ := linePlaces_facts B hT (n := n) (by omega)
  obtain ⟨rounds, r1, r2, r3⟩ := B.strings hR ep
  have hnd : (B.faults X Z).Nodup := memory_nodup hw
  have hln : (lineFlips key 0 n).Nodup := by
    refine List.Nodup.map ?_ List.nodup_range
    intro a b h
    cases key
    · simpa [lineFault] using h
    · simpa [lineFault] using h
  have hperm : (B.faults X Z).Perm (lineFlips key 0 n) := by
    refine (List.perm_ext_iff_of_nodup hnd hln).2 fun f => ?_
    refine (mem_memory hw).trans ?_
    change _ ∧ faultPlace key B.q.lat.name dh dw f ∈ B.turned X Z ↔ _
    rw [hX]
    constructor
    · exact fun h => (f3 f h.1).1 h.2
    · intro h
      have hfit : f.Fits key dh dw T := by
        obtain ⟨k, hk, rfl⟩ := List.mem_map.1 h
        rw [List.mem_range] at hk
        exact line_fits B hT (by omega)
      exact ⟨hfit, (f3 f hfit).2 h⟩
  have hro : readoutFlipped key (B.faults X Z) = true := by
    rw [← lineFlips_readout (key := key) (t := 0) hs.2]
    exact xorAll_perm (hperm.map _)
  have hsame : SameReadings key dh dw (B.faults X Z) (lineRest key 0 n (n - 1)) := by
    intro N r2 c2 h
    rw [xorAll_perm (hperm.map _)]
    exact line_same (by omega) N r2 c2 h
  have hcor : Correctable key dh dw T (lineRest key 0 n (n - 1)) := by
    refine ⟨?_, ?_⟩
    · intro f hf
      obtain ⟨k, hk, rfl⟩ := List.mem_map.1 hf
      have := List.mem_range'_1.1 hk
      exact line_fits B hT (by omega)
    · unfold lineRest
      rw [List.length_map, List.length_range']
      omega
  have := hc _ (by rw [B.height, B.width]; exact hcor) rounds r1 (by rw [B.height, B.width]; exact sameReadings_rounds hsame r2) true
  rw [lineRest_readout hs.2, Bool.xor_false] at this
  rw [r3, hro, this]
  rfl

/-- The rate is at least the probability of one half of a column. -/
theorem rate_lower (B : Bench cls dh dw key T) (hT : 0 < T) {ep : Option ℝ} (hc : Corrects B.D B.m key T ep) (π : Nat × Qubit → Bool × Bool → ℝ)
    (hπ : ∀ i ∈ B.places, PauliNoise (π i)) {p p' : ℝ} (h0 : 0 ≤ p) (h1 : p' ≤ 1)
    (hp : ∀ i ∈ B.places, p ≤ turnProb (turnedAt cls.code key B.q.lat.name i) (π i) ∧ turnProb (turnedAt cls.code key B.q.lat.name i) (π i) ≤ p') :
    p ^ halfDistance key dh dw * (1 - p') ^ (B.places.card - halfDistance key dh dw) ≤ B.rate π ep := by
  have hs := halfDistance_spec B
  obtain ⟨f1, f2, f3⟩ := linePlaces_facts B hT (n := halfDistance key dh dw) (by omega)
  have hq : ∀ i ∈ B.places, 0 ≤ turnProb (turnedAt cls.code key B.q.lat.name i) (π i) ∧ turnProb (turnedAt cls.code key B.q.lat.name i) (π i) ≤ 1 :=
    fun i hi => ⟨turnProb_nonneg (hπ i hi) _, (hp i hi).2.trans h1⟩
  have hle : independent B.places (fun i => turnProb (turnedAt cls.code key B.q.lat.name i) (π i))
      (fun F => F = linePlaces key B.q.lat.name dh dw (halfDistance key dh dw)) ≤ B.rate π ep := by
    rw [← pauli_marginal _ _ _ hπ]
    refine pauliProb_mono hπ fun X Z _ _ h => ?_
    obtain ⟨s', hR⟩ := C91_executions B X Z
    refine ⟨s', hR, ?_⟩
    rw [line_wrong B hT hc h hR]
    simp
  refine le_trans ?_ hle
  refine le_trans ?_ (independent_one hq f1 rfl)
  refine mul_le_mul ?_ ?_ (pow_nonneg (by linarith) _) (prod_nonneg fun i hi => (hq i (f1 hi)).1)
  · have e : p ^ halfDistance key dh dw = ∏ _i ∈ linePlaces key B.q.lat.name dh dw (halfDistance key dh dw), p := by rw [prod_const, f2]
    rw [e]
    exact prod_le_prod (fun i _ => h0) fun i hi => (hp i (f1 hi)).1
  · have : (B.places \ linePlaces key B.q.lat.name dh dw (halfDistance key dh dw)).card = B.places.card - halfDistance key dh dw := by
      rw [card_sdiff_of_subset f1, f2]
    rw [← this, ← prod_const]
    exact prod_le_prod (fun i _ => by linarith) fun i hi => by linarith [(hp i (mem_sdiff.1 hi).1).2]

theorem corrects_none (B : Bench cls dh dw key T) : Corrects B.D B.m key T none := by
  intro fs hf rounds hlen hr b
  exact C32_strings_single B.D B.made key B.g B.graph (by rw [B.height, B.width]; exact B.odd) (by rw [B.height, B.width]; exact B.big) B.m
    B.contract T (by rw [B.steps]) fs hf _ rounds hlen hr b

/-- With a probability it is true if it is small (C76). -/
theorem corrects_small (B : Bench cls dh dw key T) (hd : distance key dh dw ≤ 10000) :
    ∃ p0 : ℝ, 0 < p0 ∧ ∀ p, 0 < p → p < p0 → Corrects B.D B.m key T (some p) := by
  have HO : OddPos B.D.dh B.D.dw := by rw [B.height, B.width]; exact B.odd
  obtain ⟨p0, h0, H⟩ := C76_eventually B.D B.made key B.g B.graph HO (by rw [B.height, B.width]; exact hd)
  refine ⟨p0, h0, fun p a1 a2 fs hf rounds hlen hr b => ?_⟩
  rw [← B.steps] at hf hlen
  exact strings_of_hits HO (by rw [B.height, B.width]; exact B.big) (fun L syn h1 h2 h3 => H p a1 a2 B.m B.contract fs hf L h1 h2 syn h3 b) hlen hr

/-- C94: with Pauli errors of probability at most `p` (X parts and Z parts each), the logical error rate is at most `C(n, t) p ^ t`, where
`n` is the number of identity gates in the circuit and `t = (distance + 1) / 2`. -/
theorem C94_upper (B : Bench cls dh dw key T) (π : Nat × Qubit → Bool × Bool → ℝ) (p : ℝ) (h1 : p ≤ 1)
    (hπ : ∀ i ∈ B.places, PauliNoise (π i) ∧ π i (true, false) + π i (true, true) ≤ p ∧ π i (false, true) + π i (true, true) ≤ p) :
    B.rate π none ≤ (B.places.card.choose (halfDistance key dh dw) : ℝ) * p ^ halfDistance key dh dw :=
  rate_upper B (corrects_none B) π (fun i hi => (hπ i hi).1) h1 fun i hi => turnProb_le (hπ i hi).2.1 (hπ i hi).2.2

theorem turnProb_ge {π : Bool × Bool → ℝ} {code : Code} {name : Str} {i : Nat × Qubit} {p : ℝ}
    (hX : p ≤ π (true, false) + π (true, true)) (hZ : p ≤ π (false, true) + π (true, true)) : p ≤ turnProb (turnedAt code key name i) π := by
  have h := turnProb_le (key := key) (code := code) (name := name) (i := i) (π := fun v => -π v) (p := -p) (by linarith) (by linarith)
  have e : turnProb (turnedAt code key name i) (fun v => -π v) = -turnProb (turnedAt code key name i) π := by
    unfold turnProb
    split <;> split <;> split <;> split <;> ring
  rw [e] at h
  linarith

/-- C94: no decoder of this kind is better: with errors of probability between `p` and `p'`, the logical error rate is at least
`p ^ t (1 - p') ^ (n - t)`. -/
theorem C94_lower (B : Bench cls dh dw key T) (hT : 0 < T) (π : Nat × Qubit → Bool × Bool → ℝ) (p p' : ℝ) (h0 : 0 ≤ p) (h1 : p' ≤ 1)
    (hπ : ∀ i ∈ B.places, PauliNoise (π i) ∧ (p ≤ π i (true, false) + π i (true, true) ∧ π i (true, false) + π i (true, true) ≤ p') ∧
      p ≤ π i (false, true) + π i (true, true) ∧ π i (false, true) + π i (true, true) ≤ p') :
    p ^ halfDistance key dh dw * (1 - p') ^ (B.places.card - halfDistance key dh dw) ≤ B.rate π none :=
  rate_lower B hT (corrects_none B) π (fun i hi => (hπ i hi).1) h0 h1 fun i hi =>
    ⟨turnProb_ge (hπ i hi).2.1.1 (hπ i hi).2.2.1, turnProb_le (hπ i hi).2.1.2 (hπ i hi).2.2.2⟩

open Filter Topology in
/-- A function between `p ^ t (1 - p) ^ k` and `c p ^ t` has slope `t` in a doubly logarithmic plot. -/
theorem slope_of_bounds {f : ℝ → ℝ} {t k : Nat} {c p0 : ℝ} (hc : 0 < c) (h0 : 0 < p0)
    (h : ∀ p, 0 < p → p < p0 → p ^ t * (1 - p) ^ k ≤ f p ∧ f p ≤ c * p ^ t) :
    Tendsto (fun p => Real.log (f p) / Real.log p) (𝓝[>] 0) (𝓝 (t : ℝ)) := by
  have hlog : Tendsto (fun p : ℝ => (Real.log p)⁻¹) (𝓝[>] 0) (𝓝 0) := Real.tendsto_log_nhdsGT_zero.inv_tendsto_atBot
  have hA : Tendsto (fun p : ℝ => (t : ℝ) + Real.log c * (Real.log p)⁻¹) (𝓝[>] 0) (𝓝 t) := by
    have := (hlog.const_mul (Real.log c)).const_add (t : ℝ)
    simpa using this
  have hB : Tendsto (fun p : ℝ => (t : ℝ) + k * Real.log (1 - p) * (Real.log p)⁻¹) (𝓝[>] 0) (𝓝 t) := by
    have h1 : Tendsto (fun p : ℝ => (k : ℝ) * Real.log (1 - p)) (𝓝[>] 0) (𝓝 (k * Real.log (1 - 0))) := by
      refine Tendsto.mono_left ?_ nhdsWithin_le_nhds
      exact ((continuousAt_const.sub continuousAt_id).log (by simp)).tendsto.const_mul _
    have := (h1.mul hlog).const_add (t : ℝ)
    simpa using this
  have hev : ∀ᶠ p : ℝ in 𝓝[>] 0, 0 < p ∧ p < min p0 1 :=
    Filter.eventually_of_mem (Ioo_mem_nhdsGT (by positivity : (0 : ℝ) < min p0 1)) fun p hp => hp
  refine tendsto_of_tendsto_of_tendsto_of_le_of_le' hA hB ?_ ?_
  · filter_upwards [hev] with p hp
    obtain ⟨p1, p2⟩ := hp
    have p3 := p2.trans_le (min_le_right _ _)
    obtain ⟨l1, l2⟩ := h p p1 (p2.trans_le (min_le_left _ _))
    have hl := Real.log_neg p1 p3
    have hf : 0 < f p := lt_of_lt_of_le (mul_pos (pow_pos p1 _) (pow_pos (by linarith) _)) l1
    have := Real.log_le_log hf l2
    rw [Real.log_mul hc.ne' (pow_pos p1 _).ne', Real.log_pow] at this
    rw [le_div_iff_of_neg hl, add_mul, mul_assoc, inv_mul_cancel₀ hl.ne]
    linarith
  · filter_upwards [hev] with p hp
    obtain ⟨p1, p2⟩ := hp
    have p3 := p2.trans_le (min_le_right _ _)
    obtain ⟨l1, l2⟩ := h p p1 (p2.trans_le (min_le_left _ _))
    have hl := Real.log_neg p1 p3
    have hq : 0 < 1 - p := by linarith
    have := Real.log_le_log (mul_pos (pow_pos p1 _) (pow_pos hq _)) l1
    rw [Real.log_mul (pow_pos p1 _).ne' (pow_pos hq _).ne', Real.log_pow, Real.log_pow] at this
    rw [div_le_iff_of_neg hl, add_mul, mul_assoc, inv_mul_cancel₀ hl.ne]
    linarith

theorem places_many (B : Bench cls dh dw key T) (hT : 0 < T) : halfDistance key dh dw ≤ B.places.card := by
  have hs := halfDistance_spec B
  obtain ⟨f1, f2, f3⟩ := linePlaces_facts B hT (n := halfDistance key dh dw) (by omega)
  rw [← f2]
  exact card_le_card f1

open Filter Topology in
/-- The slope for any noise in which an error that matters has probability `p`. -/
theorem slope_core (B : Bench cls dh dw key T) (hT : 0 < T) (ν : ℝ → Bool × Bool → ℝ) (ep : ℝ → Option ℝ) {p0 : ℝ} (h0 : 0 < p0)
    (hc : ∀ p, 0 < p → p < p0 → Corrects B.D B.m key T (ep p))
    (hν : ∀ p, 0 < p → p < 1 / 2 → PauliNoise (ν p) ∧ ∀ i ∈ B.places, turnProb (turnedAt cls.code key B.q.lat.name i) (ν p) = p) :
    Tendsto (fun p => Real.log (B.rate (fun _ => ν p) (ep p)) / Real.log p) (𝓝[>] 0) (𝓝 (halfDistance key dh dw : ℝ)) := by
  refine slope_of_bounds (k := B.places.card - halfDistance key dh dw) (c := B.places.card.choose (halfDistance key dh dw))
    (p0 := min p0 (1 / 2)) (by exact_mod_cast Nat.choose_pos (places_many B hT)) (by positivity) fun p p1 p2 => ?_
  have p3 := p2.trans_le (min_le_left _ _)
  have p4 := p2.trans_le (min_le_right _ _)
  obtain ⟨n1, n2⟩ := hν p p1 p4
  exact ⟨rate_lower B hT (hc p p1 p3) _ (fun _ _ => n1) p1.le (by linarith) fun i hi => ⟨(n2 i hi).ge, (n2 i hi).le⟩,
    rate_upper B (hc p p1 p3) _ (fun _ _ => n1) (by linarith) fun i hi => (n2 i hi).le⟩

open Filter Topology in
/-- C94: in the doubly logarithmic plot of the logical error rate over the probability of an error, the slope tends to exactly
`(distance + 1) / 2` for small probabilities. Here X and Z errors have probability `p` each. -/
theorem C94_slope (B : Bench cls dh dw key T) (hT : 0 < T) :
    Tendsto (fun p => Real.log (B.rate (fun _ => xzNoise p) none) / Real.log p) (𝓝[>] 0) (𝓝 (halfDistance key dh dw : ℝ)) :=
  slope_core B hT _ _ one_pos (fun _ _ _ => corrects_none B) fun p p1 p2 => ⟨xzNoise_pauli p1.le p2.le, fun _ _ => turnProb_xz p⟩

open Filter Topology in
/-- C94: the same if the decoder is given the probability, although it costs correction radius at fixed probability (C90). -/
theorem C94_slope_weighted (B : Bench cls dh dw key T) (hT : 0 < T) (hd : distance key dh dw ≤ 10000) :
    Tendsto (fun p => Real.log (B.rate (fun _ => xzNoise p) (some p)) / Real.log p) (𝓝[>] 0) (𝓝 (halfDistance key dh dw : ℝ)) := by
  obtain ⟨p0, h0, H⟩ := corrects_small B hd
  exact slope_core B hT _ _ h0 H fun p p1 p2 => ⟨xzNoise_pauli p1.le p2.le, fun _ _ => turnProb_xz p⟩

open Filter Topology in
/-- C94: the same for X errors and the codes of which Z only sees those. -/
theorem C94_slope_bit_flips (B : Bench cls dh dw .Z T) (hcls : cls ≠ .xzzx) (hT : 0 < T) (hd : distance .Z dh dw ≤ 10000) (weighted : Bool) :
    Tendsto (fun p => Real.log (B.rate (fun _ => bitNoise p) (if weighted then some p else none)) / Real.log p) (𝓝[>] 0)
      (𝓝 (halfDistance .Z dh dw : ℝ)) := by
  have hν : ∀ p : ℝ, 0 < p → p < 1 / 2 → PauliNoise (bitNoise p) ∧
      ∀ i ∈ B.places, turnProb (turnedAt cls.code .Z B.q.lat.name i) (bitNoise p) = p := by
    intro p p1 p2
    refine ⟨bitNoise_pauli p1.le (by linarith), fun i _ => ?_⟩
    have hc : cls.code = .xxzz := by
      cases cls
      · rfl
      · exact absurd rfl hcls
      · rfl
    rw [hc, turnProb_bit]
    simp [bitNoise]
  cases weighted
  · exact slope_core B hT _ _ one_pos (fun _ _ _ => corrects_none B) hν
  · obtain ⟨p0, h0, H⟩ := corrects_small B hd
    exact slope_core B hT _ _ h0 H hν

/-- The 5 × 5 XXZZ code with 3 time steps: slope 3. -/
example (B : Bench .xxzz 5 5 .Z 3) : Filter.Tendsto (fun p => Real.log (B.rate (fun _ => bitNoise p) none) / Real.log p) (nhdsWithin 0 (Set.Ioi 0))
    (nhds 3) := by
  have := C94_slope_bit_flips B (by decide) (by decide) (by decide) false
  have e : (halfDistance .Z 5 5 : ℝ) = 3 := by
    have : halfDistance .Z 5 5 = 3 := by decide
    rw [this]
    norm_num
  rw [e] at this
  simpa using this

example : Nonempty (Bench .xxzz 5 5 .Z 3) :=
  let ⟨B, _⟩ := C91_exists .xxzz (by decide) .Z (by unfold OddPos; omega) (by decide) (Or.inl (by decide)) true (fun h => absurd h (by decide))
  ⟨B⟩

theorem places_one (B : Bench cls dh dw key 1) : B.places.card = (dh * dw).toNat := by
  have e : B.places = ((allQubits dh dw).map fun i => (0, dataQ B.q.lat.name i)).toFinset := by
    unfold Bench.places idPlaces
    congr 1
    simp
  have hnd : ((allQubits dh dw).map fun i => ((0 : Nat), dataQ B.q.lat.name i)).Nodup := by
    refine List.Nodup.map_on ?_ ?_
    · intro x hx y hy h
      unfold allQubits at hx hy
      obtain ⟨a, -, rfl⟩ := List.mem_map.1 hx
      obtain ⟨b, -, rfl⟩ := List.mem_map.1 hy
      exact dataQ_inj (Int.natCast_nonneg a) (Int.natCast_nonneg b) (Prod.ext_iff.1 h).2
    · exact List.nodup_range.map fun a b h => Int.ofNat.inj h
  rw [e, List.toFinset_card_of_nodup hnd, List.length_map]
  unfold allQubits
  rw [List.length_map, List.length_range]

/-- The 5 × 5 code with one time step and X errors of probability 1/1000: fewer than 3 wrong values in a million. -/
example (B : Bench .xxzz 5 5 .Z 1) : B.rate (fun _ => bitNoise (1 / 1000)) none < 3 / 1000000 := by
  have := C94_upper B (fun _ => bitNoise (1 / 1000)) (1 / 1000) (by norm_num) fun _ _ =>
    ⟨bitNoise_pauli (by norm_num) (by norm_num), by simp [bitNoise], by norm_num [bitNoise]⟩
  have e : halfDistance .Z 5 5 = 3 := by decide
  have e2 : Nat.choose 25 3 = 2300 := by decide
  rw [e, places_one, show ((5 : Int) * 5).toNat = 25 from rfl, e2] at this
  norm_num at this ⊢
  linarith

end Qtc
