import Verif.Proof.StairRun
import Verif.Props.EndToEnd
/-!
C99, C100: Pauli errors anywhere in the circuits, also in the middle of a round of stabilizer measurements.
-/
namespace Qtc
open Spec Function

variable {cls : QClass} {q : TQubit} {dh dw : Int} {ops : List QOp} {w : World} {sz : Str → Nat} {key : Key}

theorem parity_sum (a b : Nat) : (decide (a % 2 = 1) ^^ decide (b % 2 = 1)) = decide ((a + b) % 2 = 1) := by
  by_cases h1 : a % 2 = 1 <;> by_cases h2 : b % 2 = 1 <;> simp [h1, h2] <;> omega

/-- A circuit with errors has an execution from every state. -/
theorem slipped_exists {l : List (QOp × List Slip)} (A : After cls q dh dw ops w) (s : QState) (h0 : s.psi ≠ 0) :
    ∃ s', Run sz (slippedAll q l w) s s' := by
  refine run_exists ?_ s h0
  clear h0 s
  induction l generalizing ops w with
  | nil => exact fun i hi => absurd hi List.not_mem_nil
  | cons a l ih =>
    intro i hi
    rcases List.mem_append.1 (show i ∈ slipped a.2 0 (added q a.1 w) ++ slippedAll q l (q.op a.1 w).2 from hi) with h | h
    · exact slipped_proper (fun j hj => A.proper _ _ hj) 0 i h
    · exact ih (A.next _) i h

/-- An error that a fault can come from: one of the operation before or after the `n`-th stabilization. -/
def Blamed (key : Key) (name : Str) (dh dw : Int) (n : Nat) (l : List (QOp × List Slip)) (f : Fault) : Prop :=
  ∃ a o E s, l[a]? = some (o, E) ∧ s ∈ E ∧ Near key name dh dw (n + ((l.take a).map Prod.fst).count .stabilize) s.qubit f

/-- What a memory has become after a preparation and at least one round without errors, and then operations with errors anywhere. -/
theorem kept_slips (A : AfterAlone cls q dh dw ops w) (hn : ops.count .stabilize = 0) (hbig : 1 < dh * dw)
    {l0 : List QOp} (hl0 : ∀ o ∈ l0, MemoryOp o) (h1 : 1 ≤ l0.count .stabilize) {l : List (QOp × List Slip)} (hl : ∀ a ∈ l, MemoryOp a.1)
    {s t : QState} (h0 : s.psi ≠ 0) (hs : SynZero q.lat.name dh dw s.psi)
    (hR : Run sz (slippedAll q ((prepOp key :: l0).map (fun o => (o, [])) ++ l) w) s t) :
    ∃ gs, Keeps cls.code key q.lat.name dh dw (decide ((l0 ++ l.map Prod.fst).count (flipGate key) % 2 = 1))
      ((l0 ++ l.map Prod.fst).count .stabilize) gs t ∧ costOf key dh dw gs ≤ slipCost cls.code key * slipCount l ∧
      ∀ f ∈ gs, InTime key dh dw ((l0 ++ l.map Prod.fst).count .stabilize) f ∧ Blamed key q.lat.name dh dw (l0.count .stabilize) l f := by
  rw [slippedAll_append, Run.append] at hR
  obtain ⟨u, r1, r2⟩ := hR
  rw [slippedAll_none] at r1
  have hH := held_run (key := key) A.after hbig hn (e0 := noErrs) (l := l0.map fun o => (o, noErrs)) (by
    intro a ha
    obtain ⟨o, ho, rfl⟩ := List.mem_map.1 ha
    exact hl0 o ho) h0 hs r1
  have em : (l0.map fun o => (o, noErrs)).map Prod.fst = l0 := by rw [List.map_map]; exact List.map_id _
  have em' : ((prepOp key :: l0).map fun o => (o, ([] : List Slip))).map Prod.fst = prepOp key :: l0 := by rw [List.map_map]; exact List.map_id _
  rw [faultsOf_none, em] at hH
  rw [em'] at r2
  obtain ⟨gs, k1, k2, k3⟩ := hH.slipsAll (A.all_next (prepOp key :: l0)).after hl (by
    rw [List.count_append, hn, List.count_cons, Nat.zero_add]
    cases key <;> simp [prepOp]) h1 r2
  refine ⟨gs, ?_, k2, ?_⟩
  · rw [List.nil_append] at k1
    rw [List.count_append, List.count_append]
    have : (decide (l0.count (flipGate key) % 2 = 1) ^^ decide ((l.map Prod.fst).count (flipGate key) % 2 = 1)) =
        decide ((l0.count (flipGate key) + (l.map Prod.fst).count (flipGate key)) % 2 = 1) := by
      exact parity_sum _ _
    rwa [this] at k1
  · rw [List.count_append]
    exact k3

/-- Errors in the circuits before all data qubits are measured: what faults they amount to. -/
theorem lattice_amounts (A : AfterAlone cls q dh dw ops w) (hq : ∀ o ∈ ops, o.quiet = true) (hn : ops.count .stabilize = 0) (hbig : 1 < dh * dw)
    {l0 : List QOp} (hl0 : ∀ o ∈ l0, MemoryOp o) (h1 : 1 ≤ l0.count .stabilize) {l : List (QOp × List Slip)}
    (hl : ∀ a ∈ l, MemoryOp a.1) {T : Nat} (hT : (l0 ++ l.map Prod.fst).count .stabilize = T + 1)
    {D : Decoder} (hD : Made D) (hdh : D.dh = dh) (hdw : D.dw = dw) {g : SGraph} (hg : D.S .Z = some g) (hDT : (T : Int) + 1 ≤ D.T)
    {m : Matcher} (hm : Contract m) {s s' : QState} (h0 : s.psi ≠ 0) (hs : SynZero q.lat.name dh dw s.psi)
    (hR : Run sz (slippedAll q ((.resetZ :: l0).map (fun o => (o, [])) ++ l ++ [(.latticeReadoutZ, [])]) w) s s') :
    ∃ gs, costOf .Z dh dw gs ≤ slipCost cls.code .Z * slipCount l ∧
      (∀ f ∈ gs, f.Fits .Z dh dw (T + 1) ∧ Blamed .Z q.lat.name dh dw (l0.count .stabilize) l f) ∧
      (Decided .Z dh dw D.T gs false →
        correctString D m (joinSp (groups s'.mem (q.ops (.resetZ :: (l0 ++ l.map Prod.fst) ++ [.latticeReadoutZ]) w).circ.cregs)) .Z none =
          .ok (some (if (l0 ++ l.map Prod.fst).count .x % 2 = 1 then 1 else 0))) := by
  rw [slippedAll_append, Run.append] at hR
  obtain ⟨t, r1, r2⟩ := hR
  obtain ⟨gs, hK, hcost, hin⟩ := kept_slips (key := .Z) A hn hbig hl0 h1 hl h0 hs r1
  rw [hT] at hK hin
  have em : (((.resetZ :: l0).map (fun o => (o, ([] : List Slip))) ++ l).map Prod.fst) = .resetZ :: (l0 ++ l.map Prod.fst) := by
    rw [List.map_append, List.map_map]
    show List.map id (.resetZ :: l0) ++ _ = _
    rw [List.map_id]
    rfl
  rw [em] at r2
  have r2' : Run sz (slipped [] 0 (added q .latticeReadoutZ (q.ops (.resetZ :: (l0 ++ l.map Prod.fst)) w)) ++ []) t s' := r2
  rw [List.append_nil, slipped_none] at r2'
  have hcount : (ops ++ .resetZ :: (l0 ++ l.map Prod.fst)).count .stabilize = T + 1 := by
    rw [List.count_append, hn, List.count_cons, hT]
    simp
  have hfit : ∀ f ∈ takePlace T gs, f.Fits .Z dh dw (T + 1) := by
    intro f hf
    obtain ⟨h2, h3⟩ := List.mem_filter.1 hf
    have := (hin f h2).1
    cases f with
    | data t r c => obtain ⟨a1, a2, a3⟩ := this; exact ⟨a1, by push_cast at a2; omega, a3⟩
    | meas t r c =>
      obtain ⟨a1, a2, a3⟩ := this
      have a4 : t + 1 ≤ (T : Int) := by simpa using h3
      exact ⟨a1, by omega, a3⟩
  refine ⟨takePlace T gs, (costOf_takePlace _ gs).trans hcost, fun f hf => ⟨hfit f hf, (hin f (List.mem_filter.1 hf).1).2⟩, fun hd => ?_⟩
  have := lattice_decided (A.all_next (.resetZ :: (l0 ++ l.map Prod.fst))) (by
    intro o ho
    rcases List.mem_append.1 ho with h | h
    · exact hq o h
    rcases List.mem_cons.1 h with rfl | h
    · rfl
    rcases List.mem_append.1 h with h | h
    · exact memoryOp_quiet (hl0 o h)
    · obtain ⟨a, ha, rfl⟩ := List.mem_map.1 h
      exact memoryOp_quiet (hl a ha)) hbig hcount hD hdh hdw hg hDT hm hfit hd hK r2'
  rw [Bool.xor_false, ← ops_snoc] at this
  refine Eq.trans this ?_
  unfold bit
  simp only [decide_eq_true_eq]
  rfl

theorem tolerable_cost {gs : List Fault} {c k : Nat} (hk : costOf key dh dw gs ≤ c * k) (hd : (c : Int) * (k : Int) < distance key dh dw)
    {T' : Int} (hf : ∀ f ∈ gs, f.Fits key dh dw T') : Tolerable key dh dw T' gs := by
  refine ⟨hf, ?_⟩
  rw [← Int.natCast_mul] at hd
  unfold costOf at *
  omega

/-- Errors in the circuits before all data qubits are measured. -/
theorem lattice_slips (A : AfterAlone cls q dh dw ops w) (hq : ∀ o ∈ ops, o.quiet = true) (hn : ops.count .stabilize = 0) (hbig : 1 < dh * dw)
    {l0 : List QOp} (hl0 : ∀ o ∈ l0, MemoryOp o) (h1 : 1 ≤ l0.count .stabilize) {l : List (QOp × List Slip)}
    (hl : ∀ a ∈ l, MemoryOp a.1) {T : Nat} (hT : (l0 ++ l.map Prod.fst).count .stabilize = T + 1)
    {D : Decoder} (hD : Made D) (hdh : D.dh = dh) (hdw : D.dw = dw) {g : SGraph} (hg : D.S .Z = some g) (hDT : (T : Int) + 1 ≤ D.T)
    {m : Matcher} (hm : Contract m) (hf : (slipCost cls.code .Z : Int) * (slipCount l : Int) < dh) {s s' : QState} (h0 : s.psi ≠ 0) (hs : SynZero q.lat.name dh dw s.psi)
    (hR : Run sz (slippedAll q ((.resetZ :: l0).map (fun o => (o, [])) ++ l ++ [(.latticeReadoutZ, [])]) w) s s') :
    correctString D m (joinSp (groups s'.mem (q.ops (.resetZ :: (l0 ++ l.map Prod.fst) ++ [.latticeReadoutZ]) w).circ.cregs)) .Z none =
      .ok (some (if (l0 ++ l.map Prod.fst).count .x % 2 = 1 then 1 else 0)) := by
  obtain ⟨gs, h2, h3, h4⟩ := lattice_amounts A hq hn hbig hl0 h1 hl hT hD hdh hdw hg hDT hm h0 hs hR
  refine h4 ?_
  have := A.after.own.2.placed.odd
  subst hdh hdw
  exact tolerable_decided this hDT (tolerable_cost h2 hf fun f hf => (h3 f hf).1)

/-- Errors in the circuits before the readout of a logical operator: what faults they amount to. -/
theorem logical_amounts (A : AfterAlone cls q dh dw ops w) (hq : ∀ o ∈ ops, o.quiet = true) (hn : ops.count .stabilize = 0) (hbig : 1 < dh * dw)
    (hcan : CanRead cls dh dw key) {l0 l1 : List QOp} (hl0 : ∀ o ∈ l0, MemoryOp o) (h1 : 1 ≤ l0.count .stabilize) {l : List (QOp × List Slip)}
    (hl : ∀ a ∈ l, MemoryOp a.1) (hl1 : ∀ o ∈ l1, MemoryOp o) (h2 : 2 ≤ l1.count .stabilize) {T : Nat}
    (hT : (l0 ++ l.map Prod.fst ++ l1).count .stabilize = T + 1)
    {D : Decoder} (hD : Made D) (hdh : D.dh = dh) (hdw : D.dw = dw) {g : SGraph} (hg : D.S key = some g) (hDT : (T : Int) ≤ D.T)
    {m : Matcher} (hm : Contract m) {s s' : QState} (h0 : s.psi ≠ 0)
    (hs : SynZero q.lat.name dh dw s.psi)
    (hR : Run sz (slippedAll q ((prepOp key :: l0).map (fun o => (o, [])) ++ l ++ (l1 ++ [readOp key]).map (fun o => (o, []))) w) s s') :
    ∃ gs, costOf key dh dw gs ≤ slipCost cls.code key * slipCount l ∧
      (∀ f ∈ gs, f.Fits key dh dw T ∧ Blamed key q.lat.name dh dw (l0.count .stabilize) l f) ∧
      (Decided key dh dw D.T gs false →
        correctString D m (joinSp (groups s'.mem (q.ops (prepOp key :: (l0 ++ l.map Prod.fst ++ l1) ++ [readOp key]) w).circ.cregs)) (rtypeOf key)
          none = .ok (some (bit (decide ((l0 ++ l.map Prod.fst ++ l1).count (flipGate key) % 2 = 1))))) := by
  rw [slippedAll_append, Run.append] at hR
  obtain ⟨t, r1, r2⟩ := hR
  obtain ⟨gs, hK, hcost, hin⟩ := kept_slips (key := key) A hn hbig hl0 h1 hl h0 hs r1
  have em : (((prepOp key :: l0).map (fun o => (o, ([] : List Slip))) ++ l).map Prod.fst) = prepOp key :: (l0 ++ l.map Prod.fst) := by
    rw [List.map_append, List.map_map]
    show List.map id (prepOp key :: l0) ++ _ = _
    rw [List.map_id]
    rfl
  rw [em, slippedAll_none, List.map_append, noisyAll_append, Run.append] at r2
  obtain ⟨u, r2, r3⟩ := r2
  have hpn : (ops ++ prepOp key :: (l0 ++ l.map Prod.fst)).count .stabilize = (l0 ++ l.map Prod.fst).count .stabilize := by
    rw [List.count_append, hn, List.count_cons, Nat.zero_add]
    cases key <;> simp [prepOp]
  have hK' := hK.all (A.all_next (prepOp key :: (l0 ++ l.map Prod.fst))).after (l := l1.map fun o => (o, noErrs)) (by
    intro a ha
    obtain ⟨o, ho, rfl⟩ := List.mem_map.1 ha
    exact hl1 o ho) hpn r2
  have em1 : (l1.map fun o => (o, noErrs)).map Prod.fst = l1 := by rw [List.map_map]; exact List.map_id _
  rw [faultsOf_none, em1, List.append_nil, ← List.count_append, hT] at hK'
  rw [em1] at r3
  have r3' : Run sz (withErrors noErrs (added q (readOp key) (q.ops l1 (q.ops (prepOp key :: (l0 ++ l.map Prod.fst)) w))) ++ []) u s' := r3
  rw [List.append_nil, ← ops_append] at r3'
  have hcount : (ops ++ (prepOp key :: (l0 ++ l.map Prod.fst) ++ l1)).count .stabilize = T + 1 := by
    rw [← List.append_assoc, List.count_append, hpn, ← List.count_append, hT]
  obtain ⟨rounds, hlen, hrr, hgr⟩ := strings_keeps (A.all_next (prepOp key :: (l0 ++ l.map Prod.fst) ++ l1)) (by
    intro o ho
    rcases List.mem_append.1 ho with h | h
    · exact hq o h
    rcases List.mem_append.1 h with h | h
    · rcases List.mem_cons.1 h with rfl | h
      · cases key <;> rfl
      rcases List.mem_append.1 h with h | h
      · exact memoryOp_quiet (hl0 o h)
      · obtain ⟨a, ha, rfl⟩ := List.mem_map.1 h
        exact memoryOp_quiet (hl a ha)
    · exact memoryOp_quiet (hl1 o h)) hbig hcan hcount hK' r3'
  have hb : (decide ((l0 ++ l.map Prod.fst).count (flipGate key) % 2 = 1) ^^ decide (l1.count (flipGate key) % 2 = 1)) =
      decide ((l0 ++ l.map Prod.fst ++ l1).count (flipGate key) % 2 = 1) := by
    rw [List.count_append (l₂ := l1)]
    exact parity_sum _ _
  rw [hb, ← ops_snoc] at hgr
  have H := A.after.own.2.placed.odd
  subst hdh hdw
  have e : prepOp key :: (l0 ++ l.map Prod.fst ++ l1) ++ [readOp key] = prepOp key :: (l0 ++ l.map Prod.fst) ++ l1 ++ [readOp key] := rfl
  have hfit : ∀ f ∈ takePlace T gs, f.Fits key D.dh D.dw T := by
    intro f hf
    obtain ⟨h3, -⟩ := List.mem_filter.1 hf
    have := (hin f h3).1
    rw [List.count_append] at hT
    cases f with
    | data t r c => obtain ⟨a1, a2, a3⟩ := this; exact ⟨a1, by omega, a3⟩
    | meas t r c => obtain ⟨a1, a2, a3⟩ := this; exact ⟨a1, by omega, a3⟩
  refine ⟨takePlace T gs, (costOf_takePlace _ gs).trans hcost, fun f hf => ⟨hfit f hf, (hin f (List.mem_filter.1 hf).1).2⟩, fun hd => ?_⟩
  rw [e, hgr]
  have := decided_single D hD key g hg H hbig m hm T hDT _ hfit hd _ _ hlen hrr (decide ((l0 ++ l.map Prod.fst ++ l1).count (flipGate key) % 2 = 1))
  rwa [Bool.xor_false] at this

/-- Errors in the circuits before the readout of a logical operator. -/
theorem logical_slips (A : AfterAlone cls q dh dw ops w) (hq : ∀ o ∈ ops, o.quiet = true) (hn : ops.count .stabilize = 0) (hbig : 1 < dh * dw)
    (hcan : CanRead cls dh dw key) {l0 l1 : List QOp} (hl0 : ∀ o ∈ l0, MemoryOp o) (h1 : 1 ≤ l0.count .stabilize) {l : List (QOp × List Slip)}
    (hl : ∀ a ∈ l, MemoryOp a.1) (hl1 : ∀ o ∈ l1, MemoryOp o) (h2 : 2 ≤ l1.count .stabilize) {T : Nat}
    (hT : (l0 ++ l.map Prod.fst ++ l1).count .stabilize = T + 1)
    {D : Decoder} (hD : Made D) (hdh : D.dh = dh) (hdw : D.dw = dw) {g : SGraph} (hg : D.S key = some g) (hDT : (T : Int) ≤ D.T)
    {m : Matcher} (hm : Contract m) (hf : (slipCost cls.code key : Int) * (slipCount l : Int) < distance key dh dw) {s s' : QState} (h0 : s.psi ≠ 0)
    (hs : SynZero q.lat.name dh dw s.psi)
    (hR : Run sz (slippedAll q ((prepOp key :: l0).map (fun o => (o, [])) ++ l ++ (l1 ++ [readOp key]).map (fun o => (o, []))) w) s s') :
    correctString D m (joinSp (groups s'.mem (q.ops (prepOp key :: (l0 ++ l.map Prod.fst ++ l1) ++ [readOp key]) w).circ.cregs)) (rtypeOf key) none =
      .ok (some (bit (decide ((l0 ++ l.map Prod.fst ++ l1).count (flipGate key) % 2 = 1)))) := by
  obtain ⟨gs, g1, g2, g3⟩ := logical_amounts A hq hn hbig hcan hl0 h1 hl hl1 h2 hT hD hdh hdw hg hDT hm h0 hs hR
  refine g3 ?_
  have := A.after.own.2.placed.odd
  subst hdh hdw
  exact tolerable_decided this hDT (tolerable_cost g1 hf fun f hf => (g2 f hf).1)

/-- C99: the logical qubit of an XXZZ or repetition code is prepared in |0⟩, and after at least one round of stabilization without errors
there are stabilizations, identity gates and logical gates with Pauli errors on any qubits between any instructions: in particular between
the entangling gates of a round, between them and the measurements, and between the measurements and the resets. All data qubits are then
measured. If there are fewer than a third of the height errors, the decoded value is the one that would be measured without errors: for
every outcome of the measurements and every optimal matching. -/
theorem C99_lattice_z (A : AfterAlone cls q dh dw ops w) (hq : ∀ o ∈ ops, o.quiet = true) (hn : ops.count .stabilize = 0) (hbig : 1 < dh * dw)
    (hx : cls ≠ .xzzx) {l0 : List QOp} (hl0 : ∀ o ∈ l0, MemoryOp o) (h1 : 1 ≤ l0.count .stabilize) {l : List (QOp × List Slip)}
    (hl : ∀ a ∈ l, MemoryOp a.1) {T : Nat} (hT : (l0 ++ l.map Prod.fst).count .stabilize = T + 1)
    {D : Decoder} (hD : Made D) (hdh : D.dh = dh) (hdw : D.dw = dw) {g : SGraph} (hg : D.S .Z = some g) (hDT : (T : Int) + 1 ≤ D.T)
    {m : Matcher} (hm : Contract m) (hf : 3 * (slipCount l : Int) < dh) {s s' : QState} (h0 : s.psi ≠ 0) (hs : SynZero q.lat.name dh dw s.psi)
    (hR : Run sz (slippedAll q ((.resetZ :: l0).map (fun o => (o, [])) ++ l ++ [(.latticeReadoutZ, [])]) w) s s') :
    correctString D m (joinSp (groups s'.mem (q.ops (.resetZ :: (l0 ++ l.map Prod.fst) ++ [.latticeReadoutZ]) w).circ.cregs)) .Z none =
      .ok (some (if (l0 ++ l.map Prod.fst).count .x % 2 = 1 then 1 else 0)) := by
  refine lattice_slips A hq hn hbig hl0 h1 hl hT hD hdh hdw hg hDT hm ?_ h0 hs hR
  rw [xzzx_code hx]
  exact hf

/-- C99: the same with a readout of the logical operator of either type after two more rounds without errors. -/
theorem C99_logical (A : AfterAlone cls q dh dw ops w) (hq : ∀ o ∈ ops, o.quiet = true) (hn : ops.count .stabilize = 0) (hbig : 1 < dh * dw)
    (hx : cls ≠ .xzzx) {l0 l1 : List QOp} (hl0 : ∀ o ∈ l0, MemoryOp o) (h1 : 1 ≤ l0.count .stabilize) {l : List (QOp × List Slip)}
    (hl : ∀ a ∈ l, MemoryOp a.1) (hl1 : ∀ o ∈ l1, MemoryOp o) (h2 : 2 ≤ l1.count .stabilize) {T : Nat}
    (hT : (l0 ++ l.map Prod.fst ++ l1).count .stabilize = T + 1)
    {D : Decoder} (hD : Made D) (hdh : D.dh = dh) (hdw : D.dw = dw) {g : SGraph} (hg : D.S key = some g) (hDT : (T : Int) ≤ D.T)
    {m : Matcher} (hm : Contract m) (hf : 3 * (slipCount l : Int) < distance key dh dw) {s s' : QState} (h0 : s.psi ≠ 0)
    (hs : SynZero q.lat.name dh dw s.psi)
    (hR : Run sz (slippedAll q ((prepOp key :: l0).map (fun o => (o, [])) ++ l ++ (l1 ++ [readOp key]).map (fun o => (o, []))) w) s s') :
    correctString D m (joinSp (groups s'.mem (q.ops (prepOp key :: (l0 ++ l.map Prod.fst ++ l1) ++ [readOp key]) w).circ.cregs)) (rtypeOf key) none =
      .ok (some (bit (decide ((l0 ++ l.map Prod.fst ++ l1).count (flipGate key) % 2 = 1)))) := by
  refine logical_slips A hq hn hbig (by cases key <;> exact Or.inl hx) hl0 h1 hl hl1 h2 hT hD hdh hdw hg hDT hm ?_ h0 hs hR
  rw [xzzx_code hx]
  cases key <;> exact hf

/-- A Y error on a syndrome qubit in the middle of the entangling gates of the second round, on a 5 × 3 lattice. -/
example : ∃ q w, AfterAlone .xxzz q 5 3 [] w ∧ ∃ D m s',
    Run (fun _ => 0) (slippedAll q [(.resetZ, []), (.stabilize, []), (.stabilize, [⟨8, mxQ "a".toList 1, true, true⟩]), (.x, []),
      (.latticeReadoutZ, [])] w) ⟨ground, fun _ => false⟩ s' ∧
    correctString D m (joinSp (groups s'.mem (q.ops [.resetZ, .stabilize, .stabilize, .x, .latticeReadoutZ] w).circ.cregs)) .Z none =
      .ok (some 1) := by
  obtain ⟨q, w, A, hn⟩ := afterAlone_exists (dh := 5) (dw := 3) .xxzz "a".toList (by unfold OddPos; decide) (by simp) []
  obtain ⟨D, sx, sz, h, h1, h2, h3, h4, h5⟩ := C21_surface_built 900 { d := some (.tup [.int 5, .int 3]), T := some 2 } 5 3 2
    (by unfold OddPos; decide) (Or.inl rfl) rfl (by decide)
  obtain ⟨m, hm⟩ := contract_exists
  obtain ⟨s', hs'⟩ := slipped_exists (sz := fun _ => 0) A.after ⟨ground, fun _ => false⟩ ground_ne_zero
    (l := [(.resetZ, []), (.stabilize, []), (.stabilize, [⟨8, mxQ "a".toList 1, true, true⟩]), (.x, []), (.latticeReadoutZ, [])])
  refine ⟨q, w, A, D, m, s', hs', C99_lattice_z (T := 1) (l0 := [.stabilize])
    (l := [(.stabilize, [⟨8, mxQ "a".toList 1, true, true⟩]), (.x, [])]) A
    (fun o h => absurd h List.not_mem_nil) rfl (by decide) (by decide) ?_ (by decide) ?_ rfl (Or.inl ⟨_, _, h⟩) h1 h2 h5 (by rw [h3]; decide) hm
    (by decide) (s := ⟨ground, fun _ => false⟩) ground_ne_zero ground_synZero hs'⟩
  · intro o ho
    rw [List.mem_singleton.1 ho]; trivial
  · intro a ha
    simp only [List.mem_cons, List.not_mem_nil, or_false] at ha
    rcases ha with rfl | rfl <;> trivial

/-- The error of the example is in the middle of the gates of a plaquette: after two of its four gates. -/
example : ((roundInstrs .xxzz "a".toList 5 3 "c".toList).drop 6).take 4 =
    [.gate2 .cx (mxQ "a".toList 1) (dataQ "a".toList 2), .gate2 .cx (mxQ "a".toList 1) (dataQ "a".toList 1),
     .gate2 .cx (mxQ "a".toList 1) (dataQ "a".toList 5), .gate2 .cx (mxQ "a".toList 1) (dataQ "a".toList 4)] := by decide +kernel

/-- A Z error on a data qubit in the middle of one round and a Y error on a syndrome qubit in the middle of another, on a 3 × 7 lattice that
is prepared and read in the X basis. -/
example : ∃ q w, AfterAlone .xxzz q 3 7 [] w ∧ ∃ D m s',
    Run (fun _ => 0) (slippedAll q [(.resetX, []), (.stabilize, []), (.stabilize, [⟨12, dataQ "a".toList 9, false, true⟩]), (.z, []),
      (.stabilize, [⟨50, mzQ "a".toList 3, true, true⟩]), (.stabilize, []), (.stabilize, []), (.readoutX none, [])] w)
      ⟨ground, fun _ => false⟩ s' ∧
    correctString D m (joinSp (groups s'.mem (q.ops [.resetX, .stabilize, .stabilize, .z, .stabilize, .stabilize, .stabilize, .readoutX none] w).circ.cregs))
      .X none = .ok (some 1) := by
  obtain ⟨q, w, A, hn⟩ := afterAlone_exists (dh := 3) (dw := 7) .xxzz "a".toList (by unfold OddPos; decide) (by simp) []
  obtain ⟨D, sx, sz, h, h1, h2, h3, h4, h5⟩ := C21_surface_built 900 { d := some (.tup [.int 3, .int 7]), T := some 4 } 3 7 4
    (by unfold OddPos; decide) (Or.inl rfl) rfl (by decide)
  obtain ⟨m, hm⟩ := contract_exists
  obtain ⟨s', hs'⟩ := slipped_exists (sz := fun _ => 0) A.after ⟨ground, fun _ => false⟩ ground_ne_zero
    (l := [(.resetX, []), (.stabilize, []), (.stabilize, [⟨12, dataQ "a".toList 9, false, true⟩]), (.z, []),
      (.stabilize, [⟨50, mzQ "a".toList 3, true, true⟩]), (.stabilize, []), (.stabilize, []), (.readoutX none, [])])
  refine ⟨q, w, A, D, m, s', hs', C99_logical (key := .X) (T := 4) (l0 := [.stabilize])
    (l := [(.stabilize, [⟨12, dataQ "a".toList 9, false, true⟩]), (.z, []), (.stabilize, [⟨50, mzQ "a".toList 3, true, true⟩])])
    (l1 := [.stabilize, .stabilize]) A
    (fun o h => absurd h List.not_mem_nil) rfl (by decide) (by decide) ?_ (by decide) ?_ ?_ (by decide) rfl (Or.inl ⟨_, _, h⟩) h1 h2 h4
    (by rw [h3]; decide) hm (by decide) (s := ⟨ground, fun _ => false⟩) ground_ne_zero ground_synZero hs'⟩
  · intro o ho
    rw [List.mem_singleton.1 ho]; trivial
  · intro a ha
    simp only [List.mem_cons, List.not_mem_nil, or_false] at ha
    rcases ha with rfl | rfl | rfl <;> trivial
  · intro o ho
    simp only [List.mem_cons, List.not_mem_nil, or_false] at ho
    rcases ho with rfl | rfl <;> trivial

/-! ### C100 -/

theorem takePlace_stairs (f : Nat) : takePlace f (stairs f) = stairs f := by
  refine List.filter_eq_self.2 fun x hx => ?_
  obtain ⟨j, hj, hx⟩ := List.mem_flatMap.1 hx
  rw [List.mem_range] at hj
  simp only [List.mem_cons, List.not_mem_nil, or_false] at hx
  rcases hx with rfl | rfl
  · rfl
  · simp only [stairCut, stairTime]
    rw [decide_eq_true_eq]
    omega

/-- C100: the bound of C99 is the best possible, for every code. For every number `f` of errors with `height / 3 < f < height / 2` there are
`f` rounds, each with a single Pauli error, such that the logical qubit, prepared in |0⟩ and stabilized once without errors before these
rounds, is decoded to 1: for every outcome of the measurements and every optimal matching. -/
theorem C100_more_than_a_third (A : AfterAlone cls q dh dw ops w) (hq : ∀ o ∈ ops, o.quiet = true) (hn : ops.count .stabilize = 0)
    {f : Nat} (h2 : 2 * (f : Int) < dh) (h3 : dh < 3 * (f : Int)) :
    ∃ E : List Slip, E.length = f ∧ ∀ (D : Decoder), Made D → D.dh = dh → D.dw = dw → ∀ g, D.S .Z = some g → (f : Int) + 1 ≤ D.T →
      ∀ m, Contract m → ∀ s s' : QState, s.psi ≠ 0 → SynZero q.lat.name dh dw s.psi →
      Run sz (slippedAll q ([(.resetZ, []), (.stabilize, [])] ++ E.map (fun e => (.stabilize, [e])) ++ [(.latticeReadoutZ, [])]) w) s s' →
      correctString D m (joinSp (groups s'.mem (q.ops ([QOp.resetZ, QOp.stabilize] ++ E.map (fun _ => .stabilize) ++ [.latticeReadoutZ]) w).circ.cregs))
        .Z none = .ok (some 1) := by
  have H := A.after.own.2.placed.odd
  have hbig : 1 < dh * dw := by
    have := H.2.2.1
    calc (1 : Int) < dh := by omega
      _ = dh * 1 := (Int.mul_one _).symm
      _ ≤ dh * dw := Int.mul_le_mul_of_nonneg_left (by omega) (by omega)
  choose slip hslip using fun j : Fin f => stair_slip H cls.code q.lat.name (r := 2 * j.1 + 1) (by have := j.2; omega)
  let E : Nat → Slip := fun j => if hj : j < f then slip ⟨j, hj⟩ else ⟨0, dataQ [] 0, false, false⟩
  refine ⟨(List.range f).reverse.map E, by simp, ?_⟩
  intro D hD hdh hdw g hg hDT m hm s s' h0 hs hR
  have em : ((List.range f).reverse.map E).map (fun e => (QOp.stabilize, [e])) = (List.range f).reverse.map fun j => (QOp.stabilize, [E j]) := by
    rw [List.map_map]; rfl
  have eo : ((List.range f).reverse.map E).map (fun _ => QOp.stabilize) = ((List.range f).reverse.map fun j => (QOp.stabilize, [E j])).map Prod.fst := by
    rw [List.map_map, List.map_map]; rfl
  rw [em] at hR
  rw [eo]
  generalize hl : ((List.range f).reverse.map fun j => (QOp.stabilize, [E j])) = l at hR
  have hlst : ∀ o ∈ l.map Prod.fst, o = .stabilize := by
    intro o ho
    rw [← hl, List.map_map] at ho
    obtain ⟨j, -, rfl⟩ := List.mem_map.1 ho
    rfl
  have hllen : l.length = f := by rw [← hl]; simp
  rw [slippedAll_append, Run.append] at hR
  obtain ⟨t, r12, r3⟩ := hR
  rw [slippedAll_append, Run.append] at r12
  obtain ⟨u, r1, r2⟩ := r12
  have r1' : Run sz (noisyAll q ((prepOp .Z, noErrs) :: [(.stabilize, noErrs)]) w) s u := by
    rw [show ([(QOp.resetZ, []), (QOp.stabilize, [])] : List (QOp × List Slip)) = [QOp.resetZ, QOp.stabilize].map fun o => (o, []) from rfl, slippedAll_none] at r1
    exact r1
  have hH := held_run (key := .Z) A.after hbig hn (l := [(.stabilize, noErrs)]) (by
    intro a ha
    rw [List.mem_singleton.1 ha]; trivial) h0 hs r1'
  have hH' : Keeps cls.code .Z q.lat.name dh dw false 1 [] u := by
    have e : faultsOf cls.code .Z q.lat.name dh dw 0 [(.stabilize, noErrs)] = [] := by
      have := faultsOf_none (code := cls.code) (key := .Z) (name := q.lat.name) (dh := dh) (dw := dw) (n := 0) [.stabilize]
      exact this
    rw [e] at hH
    exact hH
  have A1 := A.all_next [QOp.resetZ, QOp.stabilize]
  have hn1 : (ops ++ [QOp.resetZ, QOp.stabilize]).count QOp.stabilize = 1 := by
    rw [List.count_append, hn]; rfl
  have hK := stairs_run (E := E) (js := (List.range f).reverse) A1.after (by
    intro j hj n
    have hjf : j < f := List.mem_range.1 (List.mem_reverse.1 hj)
    have := hslip ⟨j, hjf⟩ n
    have ep : E j = slip ⟨j, hjf⟩ := dif_pos hjf
    rw [ep]
    exact this) hn1 hH' (by rw [hl]; exact r2)
  rw [List.nil_append, List.length_reverse, List.length_range] at hK
  have hfit := stairs_fits (T := (f : Int) + 1) h2 H.2.2.1 (by omega)
  have hK' : Keeps cls.code .Z q.lat.name dh dw false (f + 1) (stairs f) t := by
    rw [Nat.add_comm f 1]
    refine hK.like ?_ (Amounts.perm (stairsFrom_stairs f))
    intro x hx
    have := hfit x hx
    cases x with
    | data t r c => obtain ⟨-, a2, -⟩ := this; show t < _; push_cast; omega
    | meas t r c => obtain ⟨-, a2, -⟩ := this; show t < _; push_cast; omega
  have hmap : ([(QOp.resetZ, []), (QOp.stabilize, [])] ++ l).map Prod.fst = [QOp.resetZ, QOp.stabilize] ++ l.map Prod.fst := rfl
  rw [hmap] at r3
  have r3' : Run sz (slipped [] 0 (added q .latticeReadoutZ (q.ops ([QOp.resetZ, QOp.stabilize] ++ l.map Prod.fst) w)) ++ []) t s' := r3
  rw [List.append_nil, slipped_none] at r3'
  have hcount : (ops ++ ([QOp.resetZ, QOp.stabilize] ++ l.map Prod.fst)).count QOp.stabilize = f + 1 := by
    rw [← List.append_assoc, List.count_append, hn1, List.eq_replicate_of_mem hlst, List.count_replicate_self, List.length_map, hllen, Nat.add_comm]
  have hd : Decided .Z dh dw D.T (takePlace f (stairs f)) true := by
    rw [takePlace_stairs]
    exact stairs_decided H h2 h3 (by omega)
  have := lattice_decided (A.all_next ([QOp.resetZ, QOp.stabilize] ++ l.map Prod.fst)) (by
    intro o ho
    rcases List.mem_append.1 ho with h | h
    · exact hq o h
    rcases List.mem_append.1 h with h | h
    · simp only [List.mem_cons, List.not_mem_nil, or_false] at h
      rcases h with rfl | rfl <;> rfl
    · rw [hlst o h]; rfl) hbig hcount hD hdh hdw hg hDT hm (by rw [takePlace_stairs]; exact hfit) hd hK' r3'
  rw [← ops_snoc] at this
  exact this

/-- Two errors in a lattice of height 5, whose shortest logical X has 5 qubits: this has executions, and all of them are decoded to the wrong value. -/
example : ∃ q w, AfterAlone .xxzz q 5 3 [] w ∧ ∃ D m, ∃ e e' : Slip,
    (∃ s', Run (fun _ => 0) (slippedAll q [(QOp.resetZ, []), (.stabilize, []), (.stabilize, [e]), (.stabilize, [e']), (.latticeReadoutZ, [])] w)
      ⟨ground, fun _ => false⟩ s') ∧
    ∀ s', Run (fun _ => 0) (slippedAll q [(.resetZ, []), (.stabilize, []), (.stabilize, [e]), (.stabilize, [e']), (.latticeReadoutZ, [])] w)
      ⟨ground, fun _ => false⟩ s' →
    correctString D m (joinSp (groups s'.mem (q.ops [.resetZ, .stabilize, .stabilize, .stabilize, .latticeReadoutZ] w).circ.cregs)) .Z none =
      .ok (some 1) := by
  obtain ⟨q, w, A, hn⟩ := afterAlone_exists (dh := 5) (dw := 3) .xxzz "a".toList (by unfold OddPos; decide) (by simp) []
  obtain ⟨D, sx, sz, h, h1, h2, h3, h4, h5⟩ := C21_surface_built 900 { d := some (.tup [.int 5, .int 3]), T := some 3 } 5 3 3
    (by unfold OddPos; decide) (Or.inl rfl) rfl (by decide)
  obtain ⟨m, hm⟩ := contract_exists
  obtain ⟨E, hE, hw⟩ := C100_more_than_a_third (sz := fun _ => 0) A (fun o h => absurd h List.not_mem_nil) rfl (f := 2) (by decide) (by decide)
  match E, hE with
  | [e, e'], _ =>
    refine ⟨q, w, A, D, m, e, e', slipped_exists A.after ⟨ground, fun _ => false⟩ ground_ne_zero, fun s' hR => ?_⟩
    exact hw D (Or.inl ⟨_, _, h⟩) h1 h2 _ h5 (by rw [h3]; decide) m hm _ s' ground_ne_zero ground_synZero hR

end Qtc
