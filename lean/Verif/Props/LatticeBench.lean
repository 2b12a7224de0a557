import Verif.Spec.LatticeBench
import Verif.Props.FirstRound
import Verif.Props.RateSymmetry
/-!
C134: a threshold with readouts of all data qubits.
-/
namespace Qtc
open Spec Function

variable {cls : QClass} {dh dw : Int} {key : Key} {T n : Nat}

namespace Bench

/-- `s'` is a possible end of an execution, in which the last round of stabilization is left out and all data qubits are read out instead. -/
def latticeEnds (B : Bench cls dh dw .Z T) (X Z : Finset (Nat × Qubit)) (s' : QState) : Prop :=
  Run B.sz (noisyAll B.q ((.resetZ, B.e0) :: latticeOps T (placedErrs X Z) B.other ++ [(.latticeReadoutZ, B.last)]) B.w) B.s s'

/-- What the decoder makes of the readout of such an execution. -/
noncomputable def latticeDecoded (B : Bench cls dh dw .Z T) (s' : QState) : Py (Option Int) :=
  correctString B.D B.m (joinSp (groups s'.mem
    (B.q.ops (.resetZ :: (latticeOps T (fun _ => noErrs) B.other).map Prod.fst ++ [.latticeReadoutZ]) B.w).circ.cregs)) .Z none

/-- The probability, with independent Pauli errors of the identity gates, that errors occur for which the decoded value may be wrong. -/
noncomputable def latticeRate (B : Bench cls dh dw .Z T) (π : Nat × Qubit → Bool × Bool → ℝ) : ℝ :=
  pauliProb B.places π fun X Z => ∃ s', B.latticeEnds X Z s' ∧ B.latticeDecoded s' ≠ .ok (some 0)

end Bench

theorem interleave {α : Type} (a b : Nat → α) (l : Nat) :
    a 0 :: (List.range l).flatMap (fun t => [b t, a (t + 1)]) = (List.range l).flatMap (fun t => [a t, b t]) ++ [a l] := by
  induction l with
  | zero => rfl
  | succ l ih =>
    rw [List.range_succ, List.flatMap_append, List.flatMap_append, ← List.cons_append, ih]
    simp

theorem memoryOps_lattice {e e' : Nat → Errs} : memoryOps T e e' = latticeOps T e e' ++ [(.stabilize, e' T)] :=
  interleave (fun t => (QOp.stabilize, e' t)) (fun t => (if t + 1 < T then QOp.id else .idData, e t)) T

theorem latticeOps_kinds {e e1 e' : Nat → Errs} : (latticeOps T e e').map Prod.fst = (latticeOps T e1 e').map Prod.fst := by
  unfold latticeOps
  rw [List.map_flatMap, List.map_flatMap]
  rfl

/-- The faults are those of the memory with a last round. -/
theorem latticeOps_faults {code : Code} {name : Str} {e e' : Nat → Errs} :
    faultsOf code key name dh dw 0 (latticeOps T e e') = faultsOf code key name dh dw 0 (memoryOps T e e') := by
  rw [memoryOps_lattice, faultsOf_append]
  exact (List.append_nil _).symm

/-- Unless half of a chain of faults between the boundaries has occurred, every smallest explanation of the hits flips the readout like the
faults themselves. -/
theorem decided_of_chains (B : Bench cls dh dw key T) {X Z : Finset (Nat × Qubit)}
    (hno : ¬ ∃ k, (distance key dh dw).toNat ≤ k + 1 ∧ ∃ l ∈ chainList key dh dw T k, l.length = k + 1 ∧ l.Nodup ∧ (∀ f ∈ l, f.Fits key dh dw T) ∧
      l.length ≤ 2 * (l.filter (· ∈ B.faults X Z)).length) : Decided key dh dw T (B.faults X Z) false := by
  have hnd : (B.faults X Z).Nodup := memory_nodup (by have := B.odd; unfold OddPos at this; exact this.2.2.1)
  have hperm : (B.faults X Z).toFinset.toList.Perm (B.faults X Z) := List.toFinset_toList hnd
  intro gs g1 g2 g3
  rw [Bool.xor_false]
  by_contra hdiff
  have hro : readoutFlipped key (B.faults X Z).toFinset.toList = readoutFlipped key (B.faults X Z) := xorAll_perm (hperm.map _)
  have hhits : ∀ n, IsHit key dh dw T (B.faults X Z).toFinset.toList n ↔ IsHit key dh dw T (B.faults X Z) n := by
    intro n
    unfold IsHit
    rw [hperm.countP_eq]
  obtain ⟨a, c, l, c1, c2, -, c4, c5, c6⟩ := half_chain (T := T) B.isLong (E := (B.faults X Z).toFinset)
    (fun f hf => B.faults_fits (List.mem_toFinset.1 hf)) g1 (fun n => by rw [hhits, g2])
    (fun fs h1 h2 => g3 fs h1 fun n => by rw [h2, g2]) (by rw [hro]; exact fun h => hdiff h.symm)
  obtain ⟨k, k1, k2, k3⟩ := c4.listed B.isLong c1 c2 c5
  refine hno ⟨k, by omega, l, k3, k1, c5, c4.all fun _ _ _ h => h.fits, ?_⟩
  simpa only [List.mem_toFinset] using c6

/-- C134: the decoded value is right, for every outcome of the measurements, unless half of a chain of faults has occurred. -/
theorem C134_decoded (B : Bench cls dh dw .Z (n + 1)) {X Z : Finset (Nat × Qubit)} (hd : Decided .Z dh dw (n + 1 : Nat) (B.faults X Z) false)
    {s' : QState} (hR : B.latticeEnds X Z s') : B.latticeDecoded s' = .ok (some 0) := by
  let l := latticeOps (n + 1) (placedErrs X Z) B.other
  have hm : memoryOps (n + 1) (placedErrs X Z) B.other = l ++ [(.stabilize, B.other (n + 1))] := memoryOps_lattice
  have hl : ∀ a ∈ l, MemoryOp a.1 := fun a ha => memoryOps_memory (T := n + 1) (e := placedErrs X Z) (e' := B.other) a (by
    rw [hm]; exact List.mem_append_left _ ha)
  have hT : (l.map Prod.fst).count .stabilize = n + 1 := by
    have := memoryOps_count (T := n + 1) (e := placedErrs X Z) (e' := B.other)
    rw [hm, List.map_append, List.count_append] at this
    exact Nat.add_right_cancel this
  have hx : (l.map Prod.fst).count (flipGate .Z) = 0 := by
    have := memoryOps_flip (key := .Z) (T := n + 1) (e := placedErrs X Z) (e' := B.other)
    rw [hm, List.map_append, List.count_append] at this
    omega
  have hfs : faultsOf cls.code .Z B.q.lat.name dh dw 0 l = B.faults X Z := latticeOps_faults
  replace hR : Run B.sz (noisyAll B.q (((.resetZ, B.e0) :: l) ++ [(.latticeReadoutZ, B.last)]) B.w) B.s s' := hR
  rw [noisyAll_append, Run.append] at hR
  obtain ⟨u, h2, h3⟩ := hR
  have hH := held_run (key := .Z) B.after.after B.big B.fresh hl B.nonzero B.zeros h2
  rw [hT, hx, hfs] at hH
  have A' := B.after.all_next (.resetZ :: l.map Prod.fst)
  have hq' : ∀ o ∈ B.ops ++ .resetZ :: l.map Prod.fst, o.quiet = true := by
    intro o ho
    rcases List.mem_append.1 ho with h | h
    · exact B.quiet o h
    rcases List.mem_cons.1 h with rfl | h
    · rfl
    · obtain ⟨a, ha, rfl⟩ := List.mem_map.1 h
      exact memoryOp_quiet (hl a ha)
  have hcount : (B.ops ++ .resetZ :: l.map Prod.fst).count .stabilize = n + 1 := by
    rw [List.count_append, B.fresh, List.count_cons_of_ne (by decide), hT, Nat.zero_add]
  have h3' : Run B.sz (withErrors B.last (added B.q .latticeReadoutZ (B.q.ops (.resetZ :: l.map Prod.fst) B.w)) ++ []) u s' := h3
  rw [List.append_nil, noErr_lattice A'.after] at h3'
  have hfits : ∀ f ∈ B.faults X Z, f.Fits .Z dh dw ((n : Int) + 1) := fun f hf => by
    have := B.faults_fits hf
    push_cast at this
    exact this
  have htp : takePlace n (B.faults X Z) = B.faults X Z := by
    unfold takePlace
    rw [List.filter_eq_self]
    intro f hf
    have := hfits f hf
    cases f with
    | data t r c => rfl
    | meas t r c =>
      obtain ⟨_, h2, _⟩ := this
      exact decide_eq_true (by omega)
  have := lattice_reads A' hq' B.big hcount B.made B.height B.width B.graph (by have := B.steps; push_cast at this; omega) B.contract
    (ref := fun _ => false) (v' := false) (fs' := B.faults X Z) (by
      intro t ht p _
      rw [Bool.false_xor]) (by
      intro p _
      have e := reading_takePlace_end hH.time p
      push_cast at e
      rw [show (n : Int) + 1 - 1 = n by omega, htp] at e
      push_cast
      rw [Bool.false_xor, e]) (by rfl) hfits (wrong := false) (by rw [B.steps]; exact hd) hH h3'
  rw [← ops_snoc] at this
  unfold Bench.latticeDecoded
  rw [latticeOps_kinds (e := fun _ => noErrs) (e1 := placedErrs X Z)]
  exact this

/-- C134: the bound of C91. -/
theorem C134_rate (B : Bench cls dh dw .Z (n + 1)) (π : Nat × Qubit → Bool × Bool → ℝ) (p : ℝ) (h0 : 0 < p) (h1 : p ≤ 1 / 2)
    (hπ : ∀ i ∈ B.places, PauliNoise (π i) ∧ π i (true, false) + π i (true, true) ≤ p ∧ π i (false, true) + π i (true, true) ≤ p)
    (hx : branching (n + 1 : Nat) * (2 * √(p * (1 - p))) < 1) : B.latticeRate π ≤ peierlsBound .Z dh dw (n + 1) p :=
  chains_core B (fun X Z ⟨s', h1, h2⟩ => by
    by_contra hno
    exact h2 (C134_decoded B (decided_of_chains B hno) h1)) π (fun i hi => (hπ i hi).1) p h0 h1
    (fun i hi => turnProb_le (hπ i hi).2.1 (hπ i hi).2.2) hx

/-- C134, threshold: if the probability of an error is at most 1/36 (1/100 with more than one round), the probability that the decoded value
may be wrong is as small as desired on all sufficiently large square lattices, if there are at most as many rounds as the distance. -/
theorem C134_vanishes (p : ℝ) (h0 : 0 < p) (more : Bool) (hp : p ≤ if more then 1 / 100 else 1 / 36) (ε : ℝ) (hε : 0 < ε) :
    ∃ d0 : Nat, ∀ (d : Nat) (cls : QClass) (n : Nat) (B : Bench cls d d .Z (n + 1)) (π : Nat × Qubit → Bool × Bool → ℝ),
      d0 ≤ d → (n = 0 ∨ (more = true ∧ n + 1 ≤ d)) →
      (∀ i ∈ B.places, PauliNoise (π i) ∧ π i (true, false) + π i (true, true) ≤ p ∧ π i (false, true) + π i (true, true) ≤ p) →
      B.latticeRate π ≤ ε := by
  have hp36 : p ≤ 1 / 36 := by
    cases more
    · exact hp
    · exact le_trans hp (by norm_num)
  obtain ⟨d0, h⟩ := peierls_small p h0 more hp ε hε
  refine ⟨d0, fun d cls n B π hd hT hπ => ?_⟩
  obtain ⟨h1, h2⟩ := h d .Z (n + 1) hd (hT.imp_left fun h => by omega)
  exact (C134_rate B π p h0 (by linarith) hπ h1).trans h2

/-- All errors can occur: the circuit has an execution with them. -/
theorem C134_executions (B : Bench cls dh dw .Z T) (X Z : Finset (Nat × Qubit)) : ∃ s', B.latticeEnds X Z s' :=
  noisy_exists B.after.after B.s B.nonzero

/-- The 11×11 lattice with one round of stabilization, errors of probability 0.1 % after it and a readout of all data qubits. Without the
readout of the other data qubits the errors would not be noticed (C133). -/
example : ∃ B : Bench .xzzx 11 11 .Z 1, B.latticeRate (fun _ => xzNoise 0.001) ≤ 0.000001 := by
  obtain ⟨B, -⟩ := C91_exists (dh := 11) (dw := 11) (T := 1) .xzzx (by decide) .Z (by unfold OddPos; omega) (by decide) (Or.inr (by decide)) true
    (fun h => by cases h)
  refine ⟨B, ?_⟩
  have hs : √((0.001 : ℝ) * (1 - 0.001)) ≤ 0.0317 := by
    rw [Real.sqrt_le_left (by norm_num)]
    norm_num
  have e : branching ((0 + 1 : Nat) : Int) = 3 := by decide
  refine le_trans (C134_rate (n := 0) B _ 0.001 (by norm_num) (by norm_num)
    (fun i _ => ⟨xzNoise_pauli (by norm_num) (by norm_num), by simp [xzNoise], by simp [xzNoise]⟩) (by rw [e]; push_cast; linarith)) ?_
  unfold peierlsBound
  rw [e, show breadth .Z 11 11 = 11 from rfl, show (distance .Z 11 11).toNat = 11 from rfl]
  push_cast
  have h0 : 0 ≤ √((0.001 : ℝ) * (1 - 0.001)) := Real.sqrt_nonneg _
  calc (11 / 3 * ((3 * (2 * √((0.001 : ℝ) * (1 - 0.001)))) ^ 11 / (1 - 3 * (2 * √((0.001 : ℝ) * (1 - 0.001))))) : ℝ)
      ≤ 11 / 3 * ((3 * (2 * 0.0317)) ^ 11 / (1 - 3 * (2 * 0.0317))) := by gcongr
    _ ≤ 0.000001 := by norm_num

end Qtc
