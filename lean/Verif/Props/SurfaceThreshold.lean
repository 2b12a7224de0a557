import Mathlib.Analysis.SpecificLimits.Normed
import Verif.Proof.Chains
import Verif.Proof.Line
import Verif.Proof.Memory
import Verif.Proof.Union
import Verif.Props.EndToEnd
/-!
C91: the logical error rate of quantum memories falls exponentially with the distance if errors are rare.
-/
namespace Qtc
open Spec Function

variable {cls : QClass} {dh dw : Int} {key : Key} {T : Nat}

/-- Everything a benchmark with `T` time steps on a lattice of the given class and size is made of: a qubit on which nothing has been
measured, a decoder, any matching library, and the state of the machine at the start. The circuit starts with the preparation of the
logical state, or without it, if the class is not XZZX, Z is read out and the data qubits are 0. -/
structure Bench (cls : QClass) (dh dw : Int) (key : Key) (T : Nat) where
  (q : TQubit) (ops : List QOp) (w : World) (D : Decoder) (g : SGraph) (m : Matcher) (s : QState) (sz : Str → Nat)
  (pre : List (QOp × Errs)) (e0 : Errs) (other : Nat → Errs) (last : Errs)
  after : AfterAlone cls q dh dw ops w
  quiet : ∀ o ∈ ops, o.quiet = true
  fresh : ops.count .stabilize = 0
  long : 3 ≤ distance key dh dw
  canRead : CanRead cls dh dw key
  made : Made D
  height : D.dh = dh
  width : D.dw = dw
  graph : D.S key = some g
  steps : D.T = T
  contract : Contract m
  nonzero : s.psi ≠ 0
  zeros : SynZero q.lat.name dh dw s.psi
  start : pre = [(prepOp key, e0)] ∨
    (pre = [] ∧ cls ≠ .xzzx ∧ key = .Z ∧ ∀ i ∈ allQubits dh dw, IsZero (dataQ q.lat.name i) s.psi)

namespace Bench

variable (B : Bench cls dh dw key T)

/-- `s'` is a possible end of an execution in which the identity gates in `X` make X errors and those in `Z` make Z errors. -/
def Ends (X Z : Finset (Nat × Qubit)) (s' : QState) : Prop :=
  Run B.sz (noisyAll B.q (B.pre ++ (memoryOps T (placedErrs X Z) B.other ++ [(readOp key, B.last)])) B.w) B.s s'

/-- The readout of an execution. -/
def shown (s' : QState) : Str :=
  joinSp (groups s'.mem (B.q.ops (B.pre.map Prod.fst ++ ((memoryOps T (fun _ => noErrs) B.other).map Prod.fst ++ [readOp key])) B.w).circ.cregs)

/-- What the benchmark compares with `correct_logical_value`. -/
noncomputable def decoded (s' : QState) (ep : Option ℝ) : Py (Option Int) := correctString B.D B.m (B.shown s') (rtypeOf key) ep

/-- The identity gates of the circuit. -/
def places : Finset (Nat × Qubit) := idPlaces B.q.lat.name dh dw T

/-- The probability, with independent Pauli errors of the identity gates, that errors occur for which the decoded value may be wrong. -/
noncomputable def rate (π : Nat × Qubit → Bool × Bool → ℝ) (ep : Option ℝ) : ℝ :=
  pauliProb B.places π fun X Z => ∃ s', B.Ends X Z s' ∧ B.decoded s' ep ≠ .ok (some 0)

include B in
theorem odd : OddPos dh dw := B.after.after.own.2.placed.odd

include B in
theorem isLong : Long key dh dw := ⟨B.odd, by have := B.long; cases key <;> exact this⟩

include B in
theorem big : 1 < dh * dw := by
  have h := B.odd
  have h3 := B.long
  unfold OddPos at h
  cases key
  · simp only [distance] at h3; nlinarith
  · simp only [distance] at h3; nlinarith

/-- The faults of the errors. -/
def faults (X Z : Finset (Nat × Qubit)) : List Fault := faultsOf cls.code key B.q.lat.name dh dw 0 (memoryOps T (placedErrs X Z) B.other)

theorem faults_fits {X Z : Finset (Nat × Qubit)} {f : Fault} (h : f ∈ B.faults X Z) : f.Fits key dh dw T :=
  ((mem_memory (by have := B.odd; unfold OddPos at this; exact this.2.2.1)).1 h).1

end Bench

theorem memoryOps_kinds {e e1 e' : Nat → Errs} : (memoryOps T e e').map Prod.fst = (memoryOps T e1 e').map Prod.fst := by
  unfold memoryOps
  rw [List.map_cons, List.map_cons, List.map_flatMap, List.map_flatMap]
  rfl

theorem takePlace_memory {fs : List Fault} (h : ∀ f ∈ fs, f.Fits key dh dw T) : takePlace T fs = fs := by
  unfold takePlace
  rw [List.filter_eq_self]
  intro f hf
  have := h f hf
  cases f with
  | data t r c => rfl
  | meas t r c =>
    obtain ⟨_, h2, _⟩ := this
    exact decide_eq_true (by omega)

/-- What the benchmark gives to the decoder. -/
theorem Bench.shown_eq (B : Bench cls dh dw key T) {X Z : Finset (Nat × Qubit)} {s' : QState} (hR : B.Ends X Z s') :
    ∃ rounds : List Str, (rounds.length : Int) = T + 1 ∧ RoundsRead key dh dw (fun _ _ => false) (B.faults X Z) rounds ∧
      B.shown s' = joinSp ([if readoutFlipped key (B.faults X Z) then '1' else '0'] :: rounds.reverse) := by
  have htp : takePlace T (faultsOf cls.code key B.q.lat.name dh dw 0 (memoryOps T (placedErrs X Z) B.other)) = B.faults X Z :=
    takePlace_memory fun f hf => B.faults_fits hf
  have hfl : decide (((memoryOps T (placedErrs X Z) B.other).map Prod.fst).count (flipGate key) % 2 = 1) = false := by
    rw [memoryOps_flip]; rfl
  unfold Bench.Ends at hR
  unfold Bench.shown
  rw [memoryOps_kinds (e := fun _ => noErrs) (e1 := placedErrs X Z)]
  rcases B.start with h | ⟨h, h1, h2, h3⟩
  · rw [h] at hR ⊢
    obtain ⟨rounds, r1, r2, r3⟩ := endToEnd_strings (key := key) (T := T) B.after B.quiet B.fresh B.big B.canRead memoryOps_memory memoryOps_count
      B.nonzero B.zeros hR
    rw [htp] at r2 r3
    rw [hfl, Bool.false_xor] at r3
    refine ⟨rounds, r1, r2, ?_⟩
    rw [← r3]
    rfl
  · rw [h] at hR ⊢
    subst h2
    have hc : cls.code = .xxzz := by
      cases cls
      · rfl
      · exact absurd rfl h1
      · rfl
    obtain ⟨rounds, r1, r2, r3⟩ := strings_held (key := .Z) (T := T) B.after B.quiet B.fresh B.big B.canRead memoryOps_memory memoryOps_count
      (hc ▸ zeros_held B.odd B.nonzero B.zeros h3) hR
    rw [htp] at r2 r3
    rw [hfl, Bool.false_xor] at r3
    refine ⟨rounds, r1, r2, ?_⟩
    rw [← r3]
    rfl

theorem Bench.strings (B : Bench cls dh dw key T) {X Z : Finset (Nat × Qubit)} {s' : QState} (hR : B.Ends X Z s') (ep : Option ℝ) :
    ∃ rounds : List Str, (rounds.length : Int) = T + 1 ∧ RoundsRead key dh dw (fun _ _ => false) (B.faults X Z) rounds ∧
      B.decoded s' ep = correctString B.D B.m (joinSp ([if readoutFlipped key (B.faults X Z) then '1' else '0'] :: rounds.reverse))
        (rtypeOf key) ep := by
  obtain ⟨rounds, r1, r2, r3⟩ := B.shown_eq hR
  refine ⟨rounds, r1, r2, ?_⟩
  rw [← r3]
  rfl

/-- The decoded value is only wrong if at least half of a chain of faults between the boundaries have occurred. -/
theorem wrong_chain (B : Bench cls dh dw key T) {X Z : Finset (Nat × Qubit)} {s' : QState} (hR : B.Ends X Z s')
    (hne : B.decoded s' none ≠ .ok (some 0)) :
    ∃ k, (distance key dh dw).toNat ≤ k + 1 ∧ ∃ l ∈ chainList key dh dw T k, l.length = k + 1 ∧ l.Nodup ∧ (∀ f ∈ l, f.Fits key dh dw T) ∧
      l.length ≤ 2 * (l.filter (· ∈ B.faults X Z)).length := by
  by_contra hno
  refine hne ?_
  obtain ⟨rounds, r1, r2, r3⟩ := B.strings hR none
  rw [r3]
  have hnd : (B.faults X Z).Nodup := memory_nodup (by have := B.odd; unfold OddPos at this; exact this.2.2.1)
  have hperm : (B.faults X Z).toFinset.toList.Perm (B.faults X Z) := List.toFinset_toList hnd
  refine strings_of_hits (fs := B.faults X Z) (b := false) (T := T) (by rw [B.height, B.width]; exact B.odd) (by rw [B.height, B.width]; exact B.big)
    ?_ r1 (by rw [B.height, B.width]; exact r2)
  intro L syn hn hL hsyn
  rw [B.height, B.width] at hL
  obtain ⟨gs, syn', g1, g2, g3, g4⟩ := C75_minimum_explanation B.D B.made key B.g B.graph (by rw [B.height, B.width]; exact B.odd) B.m B.contract L hn
    (by
      intro n h
      have := (hL n).1 h
      unfold HitPlace
      rw [B.height, B.width, B.steps]
      exact ⟨this.1, this.2.1, this.2.2.1⟩) syn hsyn (readoutFlipped key (B.faults X Z))
  rw [B.height, B.width, B.steps] at g2 g3 g4
  refine ⟨syn', ?_⟩
  rw [g1]
  have heq : readoutFlipped key (B.faults X Z) = readoutFlipped key gs := by
    by_contra hdiff
    have hro : readoutFlipped key (B.faults X Z).toFinset.toList = readoutFlipped key (B.faults X Z) := xorAll_perm (hperm.map _)
    have hhits : ∀ n, IsHit key dh dw T (B.faults X Z).toFinset.toList n ↔ n ∈ L := by
      intro n
      rw [hL n]
      unfold IsHit
      rw [hperm.countP_eq]
    obtain ⟨a, c, l, c1, c2, -, c4, c5, c6⟩ := half_chain (T := T) B.isLong (E := (B.faults X Z).toFinset)
      (fun f hf => B.faults_fits (List.mem_toFinset.1 hf)) g2 (fun n => by rw [hhits, g3])
      (fun fs h1 h2 => g4 fs h1 fun n => by rw [h2, g3]) (by rw [hro]; exact hdiff)
    obtain ⟨k, k1, k2, k3⟩ := c4.listed B.isLong c1 c2 c5
    refine hno ⟨k, by omega, l, k3, k1, c5, c4.all fun _ _ _ h => h.fits, ?_⟩
    simpa only [List.mem_toFinset] using c6
  rw [heq, Bool.xor_self]

/-- The bound of C91. -/
noncomputable def peierlsBound (key : Key) (dh dw : Int) (T : Nat) (p : ℝ) : ℝ :=
  ((T * breadth key dh dw : Nat) : ℝ) / branching T * ((branching T * (2 * √(p * (1 - p)))) ^ (distance key dh dw).toNat /
    (1 - branching T * (2 * √(p * (1 - p)))))

/-- The bound holds for every event that takes half of such a chain. -/
theorem chains_core (B : Bench cls dh dw key T) {wrong : Finset (Nat × Qubit) → Finset (Nat × Qubit) → Prop} (hwrong : ∀ X Z, wrong X Z →
      ∃ k, (distance key dh dw).toNat ≤ k + 1 ∧ ∃ l ∈ chainList key dh dw T k, l.length = k + 1 ∧ l.Nodup ∧ (∀ f ∈ l, f.Fits key dh dw T) ∧
        l.length ≤ 2 * (l.filter (· ∈ B.faults X Z)).length) (π : Nat × Qubit → Bool × Bool → ℝ) (hπ : ∀ i ∈ B.places, PauliNoise (π i)) (p : ℝ)
    (h0 : 0 < p) (h1 : p ≤ 1 / 2) (hp : ∀ i ∈ B.places, turnProb (turnedAt cls.code key B.q.lat.name i) (π i) ≤ p)
    (hx : branching T * (2 * √(p * (1 - p))) < 1) : pauliProb B.places π wrong ≤ peierlsBound key dh dw T p := by
  classical
  have hw : 0 < dw := by have := B.odd; unfold OddPos at this; exact this.2.2.1
  let bad : Finset (Nat × Qubit) → Prop := fun F => ∃ k, (distance key dh dw).toNat ≤ k + 1 ∧ ∃ l ∈ chainList key dh dw T k,
    l.length = k + 1 ∧ l.Nodup ∧ (∀ f ∈ l, f.Fits key dh dw T) ∧ l.length ≤ 2 * (l.filter (fun f => faultPlace key B.q.lat.name dh dw f ∈ F)).length
  have hstep : pauliProb B.places π wrong ≤ pauliProb B.places π fun X Z => bad (B.places.filter fun i =>
      turnedAt cls.code key B.q.lat.name i (decide (i ∈ X), decide (i ∈ Z)) = true) := by
    refine pauliProb_mono hπ fun X Z _ _ => ?_
    intro h
    obtain ⟨k, hk, l, hl, l1, l2, l3, l4⟩ := hwrong X Z h
    refine ⟨k, hk, l, hl, l1, l2, l3, ?_⟩
    have e : l.filter (· ∈ B.faults X Z) = l.filter fun f => faultPlace key B.q.lat.name dh dw f ∈ B.places.filter fun i =>
        turnedAt cls.code key B.q.lat.name i (decide (i ∈ X), decide (i ∈ Z)) = true := by
      refine List.filter_congr fun f hf => decide_eq_decide.2 ?_
      refine (mem_memory hw).trans ⟨fun h => h.2, fun h => ⟨l3 f hf, h⟩⟩
    rwa [e] at l4
  refine hstep.trans ?_
  rw [pauli_marginal _ _ _ hπ]
  refine chains_prob (C := fun k => (chainList key dh dw T k).map (List.map (faultPlace key B.q.lat.name dh dw))) h0 h1
    (fun i hi => ⟨turnProb_nonneg (hπ i hi) _, hp i hi⟩) (by unfold branching; split <;> omega) ?_ hx ?_
  · intro k
    rw [List.length_map]
    have := chainList_length (key := key) (dh := dh) (dw := dw) (T := T) k
    rwa [Int.toNat_natCast] at this
  · rintro F - ⟨k, hk, l, hl, l1, l2, l3, l4⟩
    refine ⟨k, hk, l.map (faultPlace key B.q.lat.name dh dw), List.mem_map.2 ⟨l, hl, rfl⟩, by rw [List.length_map, l1], ?_, ?_, ?_⟩
    · exact List.Nodup.map_on (fun x hx y hy h => faultPlace_inj hw (l3 x hx) (l3 y hy) h) l2
    · intro i hi
      obtain ⟨f, hf, rfl⟩ := List.mem_map.1 hi
      exact faultPlace_mem (l3 f hf)
    · rw [List.length_map, List.filter_map, List.length_map]
      exact l4

theorem threshold_core (B : Bench cls dh dw key T) (π : Nat × Qubit → Bool × Bool → ℝ) (hπ : ∀ i ∈ B.places, PauliNoise (π i)) (p : ℝ)
    (h0 : 0 < p) (h1 : p ≤ 1 / 2) (hp : ∀ i ∈ B.places, turnProb (turnedAt cls.code key B.q.lat.name i) (π i) ≤ p)
    (hx : branching T * (2 * √(p * (1 - p))) < 1) : B.rate π none ≤ peierlsBound key dh dw T p :=
  chains_core B (fun _ _ ⟨_, h1, h2⟩ => wrong_chain B h1 h2) π hπ p h0 h1 hp hx

theorem turnProb_le {π : Bool × Bool → ℝ} {code : Code} {name : Str} {i : Nat × Qubit} {p : ℝ}
    (hX : π (true, false) + π (true, true) ≤ p) (hZ : π (false, true) + π (true, true) ≤ p) : turnProb (turnedAt code key name i) π ≤ p := by
  have h : turnedAt code key name i = Prod.fst ∨ turnedAt code key name i = Prod.snd := by
    unfold turnedAt turnedBy
    by_cases h1 : i.2.reg = name ++ "_data".toList
    · simp only [if_pos h1]
      by_cases h2 : code = .xzzx ∧ (i.2.idx : Int) % 2 = 0
      · simp only [if_pos h2]
        cases key
        · exact Or.inl rfl
        · exact Or.inr rfl
      · simp only [if_neg h2]
        cases key
        · exact Or.inr rfl
        · exact Or.inl rfl
    · left
      simp only [if_neg h1]
      try rfl
  rcases h with h | h
  · rw [h]
    unfold turnProb
    simpa using hX
  · rw [h]
    unfold turnProb
    simpa using hZ

theorem turnProb_bit {π : Bool × Bool → ℝ} {name : Str} {i : Nat × Qubit} : turnProb (turnedAt .xxzz .Z name i) π = π (true, false) + π (true, true) := by
  have h : turnedAt .xxzz .Z name i = Prod.fst := by
    unfold turnedAt turnedBy
    by_cases h1 : i.2.reg = name ++ "_data".toList
    · funext v
      simp
    · funext v
      simp
  rw [h]
  unfold turnProb
  simp

/-- C91: Pauli errors of the identity gates, independent of each other, each with an X part with probability at most `p` and a Z part with
probability at most `p`. The probability that the decoded value may be wrong is at most `(T · breadth / b) · x ^ distance / (1 - x)` with
`x = 2 b √(p (1 - p))`, if `x < 1`, where `b` is 3 for one time step and 5 otherwise, for every outcome of the measurements and every
matching the library may find. -/
theorem C91_rate (B : Bench cls dh dw key T) (π : Nat × Qubit → Bool × Bool → ℝ) (p : ℝ) (h0 : 0 < p) (h1 : p ≤ 1 / 2)
    (hπ : ∀ i ∈ B.places, PauliNoise (π i) ∧ π i (true, false) + π i (true, true) ≤ p ∧ π i (false, true) + π i (true, true) ≤ p)
    (hx : branching T * (2 * √(p * (1 - p))) < 1) : B.rate π none ≤ peierlsBound key dh dw T p :=
  threshold_core B π (fun i hi => (hπ i hi).1) p h0 h1 (fun i hi => turnProb_le (hπ i hi).2.1 (hπ i hi).2.2) hx

/-- C91 for XXZZ and repetition codes and Z: only X parts matter. -/
theorem C91_bit_flips (B : Bench cls dh dw .Z T) (hcls : cls ≠ .xzzx) (π : Nat × Qubit → Bool × Bool → ℝ) (p : ℝ) (h0 : 0 < p) (h1 : p ≤ 1 / 2)
    (hπ : ∀ i ∈ B.places, PauliNoise (π i) ∧ π i (true, false) + π i (true, true) ≤ p)
    (hx : branching T * (2 * √(p * (1 - p))) < 1) : B.rate π none ≤ peierlsBound .Z dh dw T p := by
  refine threshold_core B π (fun i hi => (hπ i hi).1) p h0 h1 (fun i hi => ?_) hx
  have hc : cls.code = .xxzz := by
    cases cls
    · rfl
    · exact absurd rfl hcls
    · rfl
  rw [hc, turnProb_bit]
  exact (hπ i hi).2

theorem sqrt_small {p c : ℝ} (h0 : 0 < p) (hc : 0 < c) (h : p ≤ 1 / (c * c)) : c * √(p * (1 - p)) < 1 := by
  have h1 : p * (1 - p) < 1 / (c * c) := by nlinarith
  have h2 : √(p * (1 - p)) < 1 / c := by
    rw [Real.sqrt_lt' (by positivity)]
    calc p * (1 - p) < 1 / (c * c) := h1
      _ = (1 / c) ^ 2 := by field_simp
  calc c * √(p * (1 - p)) < c * (1 / c) := mul_lt_mul_of_pos_left h2 hc
    _ = 1 := by field_simp

theorem small_eventually (k : Nat) {b x ε : ℝ} (h0 : 0 ≤ x) (h1 : x < 1) (hε : 0 < ε) :
    ∃ d0 : Nat, ∀ d : Nat, d0 ≤ d → (d : ℝ) ^ k / b * (x ^ d / (1 - x)) ≤ ε := by
  have h := (tendsto_pow_const_mul_const_pow_of_lt_one k h0 h1).mul_const (1 / b / (1 - x))
  rw [zero_mul] at h
  have h2 := h.eventually (ge_mem_nhds hε)
  rw [Filter.eventually_atTop] at h2
  obtain ⟨d0, h2⟩ := h2
  refine ⟨d0, fun d hd => le_of_eq_of_le ?_ (h2 d hd)⟩
  ring

/-- The bound is as small as desired on all sufficiently large square lattices. -/
theorem peierls_small (p : ℝ) (h0 : 0 < p) (more : Bool) (hp : p ≤ if more then 1 / 100 else 1 / 36) (ε : ℝ) (hε : 0 < ε) :
    ∃ d0 : Nat, ∀ (d : Nat) (key : Key) (T : Nat), d0 ≤ d → (T ≤ 1 ∨ (more = true ∧ T ≤ d)) →
      branching T * (2 * √(p * (1 - p))) < 1 ∧ peierlsBound key d d T p ≤ ε := by
  have hp36 : p ≤ 1 / 36 := by
    cases more
    · exact hp
    · exact le_trans hp (by norm_num)
  have hs : 0 ≤ √(p * (1 - p)) := Real.sqrt_nonneg _
  have k3 : 3 * (2 * √(p * (1 - p))) < 1 := by
    have := sqrt_small (c := 6) h0 (by norm_num) (le_trans hp36 (by norm_num))
    linarith
  obtain ⟨d1, g1⟩ := small_eventually 1 (b := 3) (x := 3 * (2 * √(p * (1 - p)))) (by positivity) k3 hε
  have far : ∃ d2 : Nat, more = true → 5 * (2 * √(p * (1 - p))) < 1 ∧
      ∀ d : Nat, d2 ≤ d → (d : ℝ) ^ 2 / 5 * ((5 * (2 * √(p * (1 - p)))) ^ d / (1 - 5 * (2 * √(p * (1 - p))))) ≤ ε := by
    cases hm : more
    · exact ⟨0, fun h => by cases h⟩
    · rw [hm] at hp
      have k5 : 5 * (2 * √(p * (1 - p))) < 1 := by
        have := sqrt_small (c := 10) h0 (by norm_num) (le_trans hp (by norm_num))
        linarith
      obtain ⟨d2, g2⟩ := small_eventually 2 (b := 5) (x := 5 * (2 * √(p * (1 - p)))) (by positivity) k5 hε
      exact ⟨d2, fun _ => ⟨k5, g2⟩⟩
  obtain ⟨d2, g2⟩ := far
  refine ⟨max d1 d2, fun d key T hd hT => ?_⟩
  have hb : breadth key d d = d := by cases key <;> simp [breadth]
  have hdist : (distance key d d).toNat = d := by cases key <;> simp [distance]
  by_cases hT1 : T ≤ 1
  · have e : branching (T : Int) = 3 := by unfold branching; rw [if_pos (by omega)]
    refine ⟨by rw [e]; exact_mod_cast k3, le_trans ?_ (g1 d (by omega))⟩
    unfold peierlsBound
    rw [e, hb, hdist, pow_one]
    push_cast
    have hx : 0 < 1 - 3 * (2 * √(p * (1 - p))) := by linarith
    have hT' : (T : ℝ) ≤ 1 := by exact_mod_cast hT1
    have hd0 : (0 : ℝ) ≤ d := Nat.cast_nonneg d
    gcongr
    nlinarith
  · obtain ⟨hm, hTd⟩ := hT.resolve_left hT1
    obtain ⟨k5, g2⟩ := g2 hm
    have e : branching (T : Int) = 5 := by unfold branching; rw [if_neg (by omega)]
    refine ⟨by rw [e]; exact_mod_cast k5, le_trans ?_ (g2 d (by omega))⟩
    unfold peierlsBound
    rw [e, hb, hdist]
    push_cast
    have hx : 0 < 1 - 5 * (2 * √(p * (1 - p))) := by linarith
    have hT' : (T : ℝ) ≤ d := by exact_mod_cast hTd
    have hd0 : (0 : ℝ) ≤ d := Nat.cast_nonneg d
    gcongr
    nlinarith

/-- C91, threshold: if the probability of an error is at most 1/36 (1/100 with more than one time step), the probability that the decoded value
may be wrong is as small as desired on all sufficiently large square lattices, if there are at most as many time steps as the distance. -/
theorem C91_vanishes (p : ℝ) (h0 : 0 < p) (more : Bool) (hp : p ≤ if more then 1 / 100 else 1 / 36) (ε : ℝ) (hε : 0 < ε) :
    ∃ d0 : Nat, ∀ (d : Nat) (cls : QClass) (key : Key) (T : Nat) (B : Bench cls d d key T) (π : Nat × Qubit → Bool × Bool → ℝ),
      d0 ≤ d → (T ≤ 1 ∨ (more = true ∧ T ≤ d)) →
      (∀ i ∈ B.places, PauliNoise (π i) ∧ π i (true, false) + π i (true, true) ≤ p ∧ π i (false, true) + π i (true, true) ≤ p) →
      B.rate π none ≤ ε := by
  have hp36 : p ≤ 1 / 36 := by
    cases more
    · exact hp
    · exact le_trans hp (by norm_num)
  obtain ⟨d0, h⟩ := peierls_small p h0 more hp ε hε
  refine ⟨d0, fun d cls key T B π hd hT hπ => ?_⟩
  obtain ⟨h1, h2⟩ := h d key T hd hT
  exact (C91_rate B π p h0 (by linarith) hπ h1).trans h2

/-- The benchmarks exist: for every surface code with distance at least 3 and any number of time steps, with preparation or, for XXZZ and Z,
without. -/
theorem C91_exists (cls : QClass) (hcls : cls ≠ .rep) (key : Key) (H : OddPos dh dw) (h3 : 3 ≤ distance key dh dw)
    (hc : CanRead cls dh dw key) (prep : Bool) (hprep : prep = false → cls = .xxzz ∧ key = .Z) :
    ∃ B : Bench cls dh dw key T, B.pre.length = if prep then 1 else 0 := by
  obtain ⟨q, w, A, hname⟩ := afterAlone_exists cls "a".toList H (fun h => absurd h hcls) []
  obtain ⟨m, hm⟩ := contract_exists
  obtain ⟨D, sx, sz, h1, h2, h4, h5, h6, h7⟩ := C21_surface_built (sliceSize dh dw + 1)
    { d := some (.tup [.int dh, .int dw]), T := some (T : Int) } dh dw T H (Or.inl rfl) rfl (by omega)
  have hg : ∃ g, D.S key = some g := by
    cases key
    · exact ⟨_, h6⟩
    · exact ⟨_, h7⟩
  obtain ⟨g, hg⟩ := hg
  refine ⟨{
    q := q, ops := [], w := w, D := D, g := g, m := m, s := ⟨ground, fun _ => false⟩, sz := fun _ => 0,
    pre := if prep then [(prepOp key, noErrs)] else [], e0 := noErrs, other := fun _ => noErrs, last := noErrs, after := A,
    quiet := fun o h => absurd h List.not_mem_nil, fresh := rfl, long := h3, canRead := hc, made := Or.inl ⟨_, _, h1⟩, height := h2,
    width := h4, graph := hg, steps := h5, contract := hm, nonzero := ground_ne_zero, zeros := ground_synZero, start := ?_ }, ?_⟩
  · cases prep
    · obtain ⟨rfl, rfl⟩ := hprep rfl
      exact Or.inr ⟨rfl, by decide, rfl, fun i _ => ground_isZero _⟩
    · exact Or.inl rfl
  · cases prep <;> rfl

/-- For repetition codes as well. -/
theorem C91_exists_rep (n : Nat) (hn : 0 < n) : Nonempty (Bench .rep (2 * n + 1 : Nat) 1 .Z T) := by
  obtain ⟨q, w, A, hname⟩ := afterAlone_exists (dh := ((2 * n + 1 : Nat) : Int)) (dw := 1) .rep "a".toList
    (by unfold OddPos; omega) (fun _ => rfl) []
  obtain ⟨m, hm⟩ := contract_exists
  obtain ⟨D, g, h1, h2, h3⟩ := C21_repetition_built (2 * n + 3) { d := some (.num (.int ((2 * n + 1 : Nat) : Int))), T := some (T : Int) }
    ((2 * n + 1 : Nat) : Int) T (by omega) (by omega) (Or.inl rfl) rfl (by omega)
  rw [if_neg (by simp)] at h3
  exact ⟨{
    q := q, ops := [], w := w, D := D, g := g, m := m, s := ⟨ground, fun _ => false⟩, sz := fun _ => 0, pre := [(prepOp .Z, noErrs)],
    e0 := noErrs, other := fun _ => noErrs, last := noErrs, after := A, quiet := fun o h => absurd h List.not_mem_nil, fresh := rfl,
    long := by simp only [distance]; omega, canRead := Or.inl (by decide), made := Or.inr ⟨_, _, h1⟩, height := h3.1, width := h3.2.1,
    graph := h3.2.2.1, steps := h2, contract := hm, nonzero := ground_ne_zero, zeros := ground_synZero, start := Or.inl rfl }⟩

/-- All errors can occur: the circuit has an execution with them. -/
theorem C91_executions (B : Bench cls dh dw key T) (X Z : Finset (Nat × Qubit)) : ∃ s', B.Ends X Z s' :=
  noisy_exists B.after.after B.s B.nonzero

theorem bitNoise_pauli {p : ℝ} (h0 : 0 ≤ p) (h1 : p ≤ 1) : PauliNoise (bitNoise p) := by
  constructor
  · rintro ⟨_ | _, _ | _⟩ <;> simp [bitNoise] <;> linarith
  · simp [bitNoise]

theorem xzNoise_pauli {p : ℝ} (h0 : 0 ≤ p) (h1 : p ≤ 1 / 2) : PauliNoise (xzNoise p) := by
  constructor
  · rintro ⟨_ | _, _ | _⟩ <;> simp [xzNoise] <;> linarith
  · simp only [xzNoise]
    ring

/-- The circuit, the decoder and the noise of `data/xxzz_threshold/20210601/simulation.py` at distance 11 with `p = 0.5 %`. -/
example : ∃ B : Bench .xxzz 11 11 .Z 1, B.pre = [] ∧ B.rate (fun _ => bitNoise 0.005) none ≤ 0.001 := by
  obtain ⟨B, hB⟩ := C91_exists (dh := 11) (dw := 11) (T := 1) .xxzz (by decide) .Z (by unfold OddPos; omega) (by decide) (Or.inl (by decide)) false
    (fun _ => ⟨rfl, rfl⟩)
  refine ⟨B, List.length_eq_zero_iff.1 hB, ?_⟩
  have hs : √((0.005 : ℝ) * (1 - 0.005)) ≤ 0.0706 := by
    rw [Real.sqrt_le_left (by norm_num)]
    norm_num
  have e : branching ((1 : Nat) : Int) = 3 := by decide
  refine le_trans (C91_bit_flips B (by decide) _ 0.005 (by norm_num) (by norm_num)
    (fun i _ => ⟨bitNoise_pauli (by norm_num) (by norm_num), by simp [bitNoise]⟩) (by rw [e]; push_cast; linarith)) ?_
  unfold peierlsBound
  rw [e, show breadth .Z 11 11 = 11 from rfl, show (distance .Z 11 11).toNat = 11 from rfl]
  push_cast
  have h0 : 0 ≤ √((0.005 : ℝ) * (1 - 0.005)) := Real.sqrt_nonneg _
  calc (11 / 3 * ((3 * (2 * √((0.005 : ℝ) * (1 - 0.005)))) ^ 11 / (1 - 3 * (2 * √((0.005 : ℝ) * (1 - 0.005))))) : ℝ)
      ≤ 11 / 3 * ((3 * (2 * 0.0706)) ^ 11 / (1 - 3 * (2 * 0.0706))) := by gcongr
    _ ≤ 0.001 := by norm_num

/-- The circuit, the decoder and the noise of `data/xzzx_threshold/20210611/simulation.py`, of every sufficiently large distance, with
`p = 2 %`. -/
example : ∃ d0 : Nat, ∀ n : Nat, d0 ≤ n → ∃ B : Bench .xzzx (2 * n + 1 : Nat) (2 * n + 1 : Nat) .Z 1,
    B.rate (fun _ => xzNoise 0.02) none ≤ 0.000001 := by
  obtain ⟨d0, h⟩ := C91_vanishes 0.02 (by norm_num) false (by norm_num) 0.000001 (by norm_num)
  refine ⟨d0 + 1, fun n hn => ?_⟩
  obtain ⟨B, -⟩ := C91_exists (dh := (2 * n + 1 : Nat)) (dw := (2 * n + 1 : Nat)) (T := 1) .xzzx (by decide) .Z (by unfold OddPos; omega)
    (by simp only [distance]; omega) (Or.inr (by omega)) true (fun h => by cases h)
  exact ⟨B, h _ _ _ _ B _ (by omega) (Or.inl le_rfl)
    fun i _ => ⟨xzNoise_pauli (by norm_num) (by norm_num), by simp [xzNoise], by simp [xzNoise]⟩⟩

end Qtc
