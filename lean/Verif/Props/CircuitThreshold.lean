import Verif.Proof.Culprits
import Verif.Props.CircuitNoise
import Verif.Props.SurfaceThreshold
/-!
C103: if errors anywhere in the circuits are rare, the logical error rate falls exponentially with the distance.
-/
namespace Qtc
open Spec Function

variable {cls : QClass} {dh dw : Int} {key : Key}

/-- A quantum memory on a lattice of the given class and size. After a preparation and operations without errors that contain at least one
round of stabilization come the operations `l`, in which there are errors. Then all data qubits are measured, or, after two more rounds of
stabilization without errors, the logical operator. -/
structure Trial (cls : QClass) (dh dw : Int) (key : Key) where
  (q : TQubit) (ops : List QOp) (w : World) (D : Decoder) (g : SGraph) (m : Matcher) (s : QState) (sz : Str → Nat)
  (l0 l l1 : List QOp) (last : QOp)
  after : AfterAlone cls q dh dw ops w
  quiet : ∀ o ∈ ops, o.quiet = true
  fresh : ops.count .stabilize = 0
  long : 3 ≤ distance key dh dw
  canRead : CanRead cls dh dw key
  made : Made D
  height : D.dh = dh
  width : D.dw = dw
  graph : D.S key = some g
  contract : Contract m
  nonzero : s.psi ≠ 0
  zeros : SynZero q.lat.name dh dw s.psi
  memory0 : ∀ o ∈ l0, MemoryOp o
  memory : ∀ o ∈ l, MemoryOp o
  memory1 : ∀ o ∈ l1, MemoryOp o
  first : 1 ≤ l0.count .stabilize
  ending : (last = readOp key ∧ 2 ≤ l1.count .stabilize ∧ ((l0 ++ l ++ l1).count .stabilize : Int) ≤ D.T + 1) ∨
    (last = .latticeReadoutZ ∧ key = .Z ∧ l1 = [] ∧ ((l0 ++ l).count .stabilize : Int) ≤ D.T)

namespace Trial

variable (B : Trial cls dh dw key)

/-- `s'` is a possible end of an execution with the errors `E`. -/
def Ends (E : Nat → List Slip) (s' : QState) : Prop :=
  Run B.sz (slippedAll B.q ((prepOp key :: B.l0).map (fun o => (o, [])) ++ withSlips B.l E ++ (B.l1 ++ [B.last]).map (fun o => (o, []))) B.w) B.s s'

/-- What the decoder makes of the outcomes. -/
noncomputable def decoded (s' : QState) : Py (Option Int) :=
  correctString B.D B.m (joinSp (groups s'.mem (B.q.ops (prepOp key :: (B.l0 ++ B.l ++ B.l1) ++ [B.last]) B.w).circ.cregs)) (rtypeOf key) none

/-- The value without errors: 1 if an odd number of the logical gates flip it. -/
def right : Int := if (B.l0 ++ B.l ++ B.l1).count (flipGate key) % 2 = 1 then 1 else 0

/-- The probability that there are errors at places for which the decoded value may be wrong: for some errors at these places, some outcomes of
the measurements, and the given matching. -/
noncomputable def rate (S : Finset (Nat × Qubit)) (P : Finset (Nat × Qubit) → ℝ) : ℝ :=
  chance S P fun F => ∃ E, Within F E ∧ ∃ s', B.Ends E s' ∧ B.decoded s' ≠ .ok (some B.right)

include B in
theorem odd : OddPos dh dw := B.after.after.own.2.placed.odd

include B in
theorem isLong : Long key dh dw := ⟨B.odd, by have := B.long; cases key <;> exact this⟩

include B in
theorem big : 1 < dh * dw := by
  have h := B.odd
  have h3 := B.long
  unfold OddPos at h
  cases key
  · simp only [distance] at h3; nlinarith
  · simp only [distance] at h3; nlinarith

end Trial

theorem withSlips_fst (l : List QOp) (E : Nat → List Slip) : (withSlips l E).map Prod.fst = l := by
  unfold withSlips
  rw [List.map_map]
  refine List.ext_getElem? fun i => ?_
  rw [List.getElem?_map, List.getElem?_zipIdx]
  cases l[i]? <;> rfl

theorem blamed_culprit {name : Str} {n : Nat} {l : List QOp} {E : Nat → List Slip} {F : Finset (Nat × Qubit)} (hE : Within F E) {f : Fault}
    (h : Blamed key name dh dw n (withSlips l E) f) : ∃ i ∈ F, Culprit key name dh dw n l i f := by
  obtain ⟨a, o, E', s, h1, h2, h3⟩ := h
  unfold withSlips at h1
  rw [List.getElem?_map, List.getElem?_zipIdx, Option.map_map, Option.map_eq_some_iff] at h1
  obtain ⟨o', ho, e⟩ := h1
  simp only [comp, Nat.zero_add, Prod.mk.injEq] at e
  obtain ⟨-, rfl⟩ := e
  refine ⟨(a, s.qubit), hE a s h2, (List.getElem?_eq_some_iff.1 ho).1, ?_⟩
  rw [List.map_take, withSlips_fst] at h3
  exact h3

/-- If the decoded value is wrong, there are errors at many of the places near a chain. -/
theorem wrong_culprits (B : Trial cls dh dw key) {S F : Finset (Nat × Qubit)} (hF : F ⊆ S) {E : Nat → List Slip} (hE : Within F E) {s' : QState}
    (hR : B.Ends E s') (hne : B.decoded s' ≠ .ok (some B.right)) :
    ∃ k, (distance key dh dw).toNat ≤ k + 1 ∧ ∃ c ∈ chainList key dh dw B.D.T k, c.length = k + 1 ∧
      c.length ≤ 20 * (F ∩ culprits key B.q.lat.name dh dw (B.l0.count .stabilize) B.l S c).card := by
  have hl : ∀ a ∈ withSlips B.l E, MemoryOp a.1 := by
    intro a ha
    refine B.memory a.1 ?_
    have := List.mem_map_of_mem (f := Prod.fst) ha
    rwa [withSlips_fst] at this
  have main : ∃ gs : List Fault, (∀ f ∈ gs, f.Fits key dh dw B.D.T ∧ Blamed key B.q.lat.name dh dw (B.l0.count .stabilize) (withSlips B.l E) f) ∧
      (Decided key dh dw B.D.T gs false → B.decoded s' = .ok (some B.right)) := by
    unfold Trial.Ends at hR
    unfold Trial.decoded Trial.right
    rcases B.ending with ⟨h, h2, h3⟩ | ⟨h, rfl, h2, h3⟩
    · rw [h] at hR ⊢
      obtain ⟨T, hT⟩ : ∃ T, (B.l0 ++ B.l ++ B.l1).count QOp.stabilize = T + 1 := ⟨_, (Nat.succ_pred_eq_of_pos (by
        rw [List.count_append, List.count_append]; have := B.first; omega)).symm⟩
      obtain ⟨gs, -, g2, g3⟩ := logical_amounts B.after B.quiet B.fresh B.big B.canRead B.memory0 B.first hl B.memory1 h2
        (T := T) (by rw [withSlips_fst]; exact hT) B.made B.height B.width B.graph (by rw [hT] at h3; push_cast at h3; omega) B.contract B.nonzero B.zeros hR
      refine ⟨gs, fun f hf => ⟨fits_mono (by rw [hT] at h3; push_cast at h3; omega) (g2 f hf).1, (g2 f hf).2⟩, fun hd => ?_⟩
      have := g3 hd
      rw [withSlips_fst] at this
      rw [this]
      simp [bit]
    · rw [h, h2] at hR ⊢
      obtain ⟨T, hT⟩ : ∃ T, (B.l0 ++ B.l).count QOp.stabilize = T + 1 := ⟨_, (Nat.succ_pred_eq_of_pos (by
        rw [List.count_append]; have := B.first; omega)).symm⟩
      obtain ⟨gs, -, g2, g3⟩ := lattice_amounts B.after B.quiet B.fresh B.big B.memory0 B.first hl
        (T := T) (by rw [withSlips_fst]; exact hT) B.made B.height B.width B.graph (by rw [hT] at h3; push_cast at h3; omega) B.contract B.nonzero B.zeros hR
      refine ⟨gs, fun f hf => ⟨fits_mono (by rw [hT] at h3; push_cast at h3; omega) (g2 f hf).1, (g2 f hf).2⟩, fun hd => ?_⟩
      have := g3 hd
      rw [withSlips_fst] at this
      rw [List.append_nil]
      exact this
  obtain ⟨gs, g1, g2⟩ := main
  obtain ⟨k, k1, c, k2, k3, k4, k5, k6⟩ := not_decided_chain B.isLong (fun f hf => (g1 f hf).1) fun hd => hne (g2 hd)
  exact ⟨k, k1, c, k2, k3, half_culprits hF k4 k5 (fun f hf => blamed_culprit hE (g1 f hf).2) k6⟩

/-- The bound of C103. -/
noncomputable def circuitBound (key : Key) (dh dw T : Int) (u : ℝ) : ℝ :=
  ((T.toNat * breadth key dh dw : Nat) : ℝ) / 5 * ((15 * u) ^ (distance key dh dw).toNat / (1 - 15 * u))

/-- C103: during each operation, each qubit may suffer errors: any Pauli errors between any of the instructions. Which qubits do need not be
independent, but any `k` given pairs of an operation and a qubit are all affected with probability at most `p ^ k`. If there are at most `G`
operations per round and `10 G p ≤ u ^ 20` with `15 u < 1`, then the probability that the decoded value may be wrong is at most
`T · breadth / 5 · (15 u) ^ distance / (1 - 15 u)`, for every outcome of the measurements and every matching the library may find. -/
theorem C103_rate (B : Trial cls dh dw key) {G : Nat} (hG0 : 0 < G) (hG : Paced G B.l) {S : Finset (Nat × Qubit)}
    {P : Finset (Nat × Qubit) → ℝ} {p : ℝ} (h0 : 0 < p) (hP : LocalNoise S P p) {u : ℝ} (hu : 0 < u) (hu1 : 15 * u < 1) (hp : 10 * G * p ≤ u ^ 20) :
    B.rate S P ≤ circuitBound key dh dw B.D.T u := by
  have e : (5 : Nat) * (3 * u) = 15 * u := by push_cast; ring
  have := near_chains_prob hP h0 (C := chainList key dh dw B.D.T) (near := culprits key B.q.lat.name dh dw (B.l0.count .stabilize) B.l S)
    (A := B.D.T.toNat * breadth key dh dw) (m := 5) (d := (distance key dh dw).toNat) (M := 10 * G) (r := 20) (by decide) (by omega)
    (fun k => (chainList_length k).trans (Nat.mul_le_mul_left _ (Nat.pow_le_pow_left (by unfold branching; split <;> omega) k)))
    (fun c => culprits_length hG S c) hu (by push_cast; exact hp) (by rw [e]; exact hu1)
    (bad := fun F => ∃ E, Within F E ∧ ∃ s', B.Ends E s' ∧ B.decoded s' ≠ .ok (some B.right)) (by
      rintro F hF ⟨E, hE, s', hR, hne⟩
      exact wrong_culprits B hF hE hR hne)
  rw [e] at this
  exact this

/-- C103, threshold: if the probability is at most `1 / (10 G 30 ^ 20)`, the probability that the decoded value may be wrong is as small as
desired on all sufficiently large square lattices, even if the number of rounds grows like some power of the distance. -/
theorem C103_vanishes {G : Nat} (hG0 : 0 < G) {p : ℝ} (h0 : 0 < p) (hp : p ≤ 1 / (10 * G * 30 ^ 20)) (k : Nat) (ε : ℝ) (hε : 0 < ε) :
    ∃ d0 : Nat, ∀ (d : Nat) (cls : QClass) (key : Key) (B : Trial cls d d key) (S : Finset (Nat × Qubit)) (P : Finset (Nat × Qubit) → ℝ),
      d0 ≤ d → Paced G B.l → B.D.T ≤ (d : Int) ^ k → LocalNoise S P p → B.rate S P ≤ ε := by
  have hG1 : (0 : ℝ) < G := by exact_mod_cast hG0
  obtain ⟨d0, g⟩ := small_eventually (k + 1) (b := 5) (x := 15 * (1 / 30)) (by norm_num) (by norm_num) hε
  refine ⟨d0, fun d cls key B S P hd hG hT hP => ?_⟩
  have hb : breadth key d d = d := by cases key <;> simp [breadth]
  have hdist : (distance key d d).toNat = d := by cases key <;> simp [distance]
  refine (C103_rate B hG0 hG h0 hP (u := 1 / 30) (by norm_num) (by norm_num) ?_).trans (le_trans ?_ (g d hd))
  · calc (10 : ℝ) * G * p ≤ 10 * G * (1 / (10 * G * 30 ^ 20)) := mul_le_mul_of_nonneg_left hp (by positivity)
      _ = (1 / 30) ^ 20 := by field_simp
  · unfold circuitBound
    rw [hb, hdist]
    have hT' : (B.D.T.toNat : ℝ) ≤ (d : ℝ) ^ k := by
      have h1 : B.D.T.toNat ≤ d ^ k := by
        have : ((d ^ k : Nat) : Int) = (d : Int) ^ k := by push_cast; rfl
        omega
      exact_mod_cast h1
    push_cast
    refine mul_le_mul_of_nonneg_right ?_ (by norm_num; positivity)
    rw [pow_succ]
    exact div_le_div_of_nonneg_right (mul_le_mul_of_nonneg_right hT' (Nat.cast_nonneg d)) (by norm_num)

/-- All errors can occur: the circuit has an execution with them. -/
theorem C103_executions (B : Trial cls dh dw key) (E : Nat → List Slip) : ∃ s', B.Ends E s' :=
  slipped_exists B.after.after B.s B.nonzero

/-- Independent errors, each with probability at most `p`, are of this kind. -/
theorem C103_independent {ι : Type} [DecidableEq ι] (S : Finset ι) {r : ι → ℝ} {p : ℝ} (hr : ∀ i ∈ S, 0 ≤ r i ∧ r i ≤ p) (h1 : p ≤ 1) :
    ∃ P, LocalNoise S P p ∧ ∀ bad, chance S P bad = independent S r bad :=
  ⟨_, independent_local hr h1, fun bad => (independent_chance bad).symm⟩

/-- Identity gates and a round of stabilization, `t` times. -/
def idRounds : Nat → List QOp
  | 0 => []
  | t + 1 => .id :: .stabilize :: idRounds t

theorem idRounds_memory : ∀ t, ∀ o ∈ idRounds t, MemoryOp o
  | 0, o, h => absurd h List.not_mem_nil
  | t + 1, o, h => by
    rcases List.mem_cons.1 h with rfl | h
    · trivial
    rcases List.mem_cons.1 h with rfl | h
    · trivial
    · exact idRounds_memory t o h

theorem idRounds_count : ∀ t, (idRounds t).count .stabilize = t
  | 0 => rfl
  | t + 1 => by
    show (QOp.id :: QOp.stabilize :: idRounds t).count QOp.stabilize = t + 1
    rw [List.count_cons, List.count_cons, idRounds_count t]
    rfl

theorem idRounds_flip : ∀ t, (idRounds t).count (flipGate key) = 0
  | 0 => rfl
  | t + 1 => by
    show (QOp.id :: QOp.stabilize :: idRounds t).count (flipGate key) = 0
    rw [List.count_cons, List.count_cons, idRounds_flip t]
    cases key <;> rfl

theorem idRounds_before : ∀ t a, a < (idRounds t).length → ((idRounds t).take a).count .stabilize = a / 2
  | 0, a, h => by simp [idRounds] at h
  | t + 1, 0, h => by simp
  | t + 1, 1, h => rfl
  | t + 1, a + 2, h => by
    show (QOp.id :: QOp.stabilize :: (idRounds t).take a).count QOp.stabilize = _
    have h' : a < (idRounds t).length := by
      have : (idRounds (t + 1)).length = (idRounds t).length + 2 := rfl
      omega
    rw [List.count_cons, List.count_cons, idRounds_before t a h', Nat.add_div_right _ (by decide)]
    rfl

theorem idRounds_paced (t : Nat) : Paced 2 (idRounds t) := by
  intro n
  have hsub : ((List.range (idRounds t).length).filter fun a => decide (((idRounds t).take a).count .stabilize = n)) ⊆ [2 * n, 2 * n + 1] := by
    intro a ha
    rw [List.mem_filter, List.mem_range, decide_eq_true_eq] at ha
    have := idRounds_before t a ha.1
    rw [ha.2] at this
    simp only [List.mem_cons, List.not_mem_nil, or_false]
    omega
  exact ((List.nodup_range.filter _).subperm hsub).length_le

/-- Such memories exist: for every surface code with distance at least 3, and any number of rounds with errors. -/
theorem C103_exists (cls : QClass) (hcls : cls ≠ .rep) (key : Key) (H : OddPos dh dw) (h3 : 3 ≤ distance key dh dw) (hc : CanRead cls dh dw key)
    (t : Nat) : ∃ B : Trial cls dh dw key, B.l = idRounds t ∧ B.last = readOp key ∧ B.D.T = t + 2 ∧ B.right = 0 := by
  obtain ⟨q, w, A, hname⟩ := afterAlone_exists cls "a".toList H (fun h => absurd h hcls) []
  obtain ⟨m, hm⟩ := contract_exists
  obtain ⟨D, sx, sz, h1, h2, h4, h5, h6, h7⟩ := C21_surface_built (sliceSize dh dw + 1)
    { d := some (.tup [.int dh, .int dw]), T := some ((t + 2 : Nat) : Int) } dh dw (t + 2 : Nat) H (Or.inl rfl) rfl (by omega)
  have hg : ∃ g, D.S key = some g := by
    cases key
    · exact ⟨_, h6⟩
    · exact ⟨_, h7⟩
  obtain ⟨g, hg⟩ := hg
  refine ⟨{
    q := q, ops := [], w := w, D := D, g := g, m := m, s := ⟨ground, fun _ => false⟩, sz := fun _ => 0, l0 := [.stabilize], l := idRounds t,
    l1 := [.stabilize, .stabilize], last := readOp key, after := A, quiet := fun o h => absurd h List.not_mem_nil, fresh := rfl, long := h3,
    canRead := hc, made := Or.inl ⟨_, _, h1⟩, height := h2, width := h4, graph := hg, contract := hm, nonzero := ground_ne_zero,
    zeros := ground_synZero, memory0 := ?_, memory := idRounds_memory t, memory1 := ?_, first := by decide, ending := Or.inl ⟨rfl, by decide, ?_⟩ },
    rfl, rfl, ?_, ?_⟩
  · intro o ho
    rw [List.mem_singleton.1 ho]; trivial
  · intro o ho
    simp only [List.mem_cons, List.not_mem_nil, or_false] at ho
    rcases ho with rfl | rfl <;> trivial
  · rw [List.count_append, List.count_append, idRounds_count, h5]
    simp only [List.count_cons_self, List.count_nil]
    push_cast
    omega
  · rw [h5]
    push_cast
    rfl
  · unfold Trial.right
    simp only [List.count_append, idRounds_flip]
    cases key <;> rfl

/-- The same for a memory that ends with the measurement of all data qubits. -/
theorem C103_exists_lattice (cls : QClass) (hcls : cls ≠ .rep) (H : OddPos dh dw) (h3 : 3 ≤ dh) (hc : CanRead cls dh dw .Z)
    (t : Nat) : ∃ B : Trial cls dh dw .Z, B.l = idRounds t ∧ B.last = .latticeReadoutZ ∧ B.D.T = t + 1 ∧ B.right = 0 := by
  obtain ⟨q, w, A, hname⟩ := afterAlone_exists cls "a".toList H (fun h => absurd h hcls) []
  obtain ⟨m, hm⟩ := contract_exists
  obtain ⟨D, sx, sz, h1, h2, h4, h5, h6, h7⟩ := C21_surface_built (sliceSize dh dw + 1)
    { d := some (.tup [.int dh, .int dw]), T := some ((t + 1 : Nat) : Int) } dh dw (t + 1 : Nat) H (Or.inl rfl) rfl (by omega)
  refine ⟨{
    q := q, ops := [], w := w, D := D, g := _, m := m, s := ⟨ground, fun _ => false⟩, sz := fun _ => 0, l0 := [.stabilize], l := idRounds t,
    l1 := [], last := .latticeReadoutZ, after := A, quiet := fun o h => absurd h List.not_mem_nil, fresh := rfl, long := h3,
    canRead := hc, made := Or.inl ⟨_, _, h1⟩, height := h2, width := h4, graph := h7, contract := hm, nonzero := ground_ne_zero,
    zeros := ground_synZero, memory0 := ?_, memory := idRounds_memory t, memory1 := fun o h => absurd h List.not_mem_nil, first := by decide,
    ending := Or.inr ⟨rfl, rfl, rfl, ?_⟩ }, rfl, rfl, ?_, ?_⟩
  · intro o ho
    rw [List.mem_singleton.1 ho]; trivial
  · rw [List.count_append, idRounds_count, h5]
    simp only [List.count_cons_self, List.count_nil]
    push_cast
    omega
  · rw [h5]
    push_cast
    rfl
  · unfold Trial.right
    simp only [List.count_append, idRounds_flip]
    rfl

/-- Independent errors with probability `10 ^ -31` of each qubit in each operation, on all large lattices of the XZZX code, with as many
rounds as the distance. -/
example : ∃ d0 : Nat, ∀ n : Nat, d0 ≤ n → ∃ B : Trial .xzzx (2 * n + 1 : Nat) (2 * n + 1 : Nat) .X, B.l = idRounds (2 * n - 1) ∧
    ∀ S : Finset (Nat × Qubit), independent S (fun _ => 10 ^ (-31 : Int))
      (fun F => ∃ E, Within F E ∧ ∃ s', B.Ends E s' ∧ B.decoded s' ≠ .ok (some 0)) ≤ 0.000001 := by
  obtain ⟨d0, h⟩ := C103_vanishes (G := 2) (by decide) (p := 10 ^ (-31 : Int)) (by positivity) (by norm_num) 1 0.000001 (by norm_num)
  refine ⟨d0 + 1, fun n hn => ?_⟩
  obtain ⟨B, b1, b2, b3, b4⟩ := C103_exists (dh := (2 * n + 1 : Nat)) (dw := (2 * n + 1 : Nat)) .xzzx (by decide) .X (by unfold OddPos; omega)
    (by simp only [distance]; omega) (Or.inr (by omega)) (2 * n - 1)
  refine ⟨B, b1, fun S => ?_⟩
  obtain ⟨P, hP, hc⟩ := C103_independent S (r := fun _ => (10 : ℝ) ^ (-31 : Int)) (p := 10 ^ (-31 : Int)) (fun i _ => ⟨by positivity, le_rfl⟩)
    (by norm_num)
  rw [← hc]
  have := h _ _ _ B S P (by omega) (by rw [b1]; exact idRounds_paced _) (by rw [b3, pow_one]; push_cast; omega) hP
  unfold Trial.rate at this
  rw [b4] at this
  exact this

end Qtc
