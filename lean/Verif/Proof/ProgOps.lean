import Verif.Spec.Programs
import Verif.Proof.QCnotRun
import Verif.Proof.Partial
import Verif.Proof.QFault
/-!
What the operations of a logical qubit do, given that they succeed.
-/
namespace Qtc
open Spec

variable {q : TQubit} {dh dw : Int} {w w' : World}

/-- What an operation does to states; `new` lists the registers it adds. -/
def Eff (q : TQubit) (dh dw : Int) (new : List Reg) (φ φ' : QState) : QOp → Prop
  | .x => φ' = ⟨logX q.lat.code q.lat.name dh dw φ.psi, φ.mem⟩ ∧ new = []
  | .z => φ' = ⟨logZ q.lat.code q.lat.name dw φ.psi, φ.mem⟩ ∧ new = []
  | .id => φ' = φ ∧ new = []
  | .idData => φ' = φ ∧ new = []
  | .resetX => Prepares q.lat.code q.lat.name dh dw .X φ φ' ∧ new = []
  | .resetZ => Prepares q.lat.code q.lat.name dh dw .Z φ φ' ∧ new = []
  | .stabilize => ∃ r m, φ'.psi = jointProj (checks q.lat.code q.lat.name dh dw) m φ.psi ∧
      φ'.mem = writeReg φ.mem r.name ((xSites dh dw).length + (zSites dh dw).length) m ∧ new = [r]
  | .readoutX none => ∃ r, Reads q.lat.name (logX q.lat.code q.lat.name dh dw) r 1 φ φ' ∧ new = [⟨r, 1⟩]
  | .readoutZ none => ∃ r, Reads q.lat.name (logZ q.lat.code q.lat.name dw) r 1 φ φ' ∧ new = [⟨r, 1⟩]
  | _ => False

/-- What an operation does to the circuit and to states. -/
structure Did (q : TQubit) (dh dw : Int) (o : QOp) (w w' : World) (is : List Instr) (new : List Reg) : Prop where
  instrs : w'.circ.instrs = w.circ.instrs ++ is
  cregs : w'.circ.cregs = w.circ.cregs ++ new
  fresh : ∀ r ∈ new, r.name ∉ w.circ.names ∧ ∃ x, r.name = q.lat.name ++ '_' :: x
  eff : ∀ sz φ φ', (∀ i ∈ is, i.Proper) → φ.psi ≠ 0 → SynZero q.lat.name dh dw φ.psi → Run sz is φ φ' → Eff q dh dw new φ φ' o

theorem Emits.did {x : WM Unit} {is : List Instr} (h : Emits w x () is) {o : QOp} (ho : q.op o = x) (hr : q.op o w = (.ok (), w'))
    (he : ∀ sz φ φ', (∀ i ∈ is, i.Proper) → φ.psi ≠ 0 → SynZero q.lat.name dh dw φ.psi → Run sz is φ φ' → Eff q dh dw [] φ φ' o) :
    Did q dh dw o w w' is [] := by
  rw [ho, h.run] at hr
  cases hr
  exact ⟨rfl, (List.append_nil _).symm, (fun r hr => by cases hr), he⟩

theorem did_x (P : Placed q.lat dh dw w) (h : q.op .x w = (.ok (), w')) : ∃ is new, Did q dh dw .x w w' is new :=
  ⟨_, _, P.emits_x.did rfl h fun sz φ φ' _ _ _ hr => ⟨by
    rw [run_gates logical_gates, circOp_logical (fun i => gateX_op _ _ i Option.none) (fun i hi => (col_range P.odd i hi).1), ← logX_eq] at hr
    exact hr, rfl⟩⟩

theorem did_z (P : Placed q.lat dh dw w) (h : q.op .z w = (.ok (), w')) : ∃ is new, Did q dh dw .z w w' is new :=
  ⟨_, _, P.emits_z.did rfl h fun sz φ φ' _ _ _ hr => ⟨by
    rw [run_gates logical_gates, circOp_logical (fun i => gateZ_op _ _ i Option.none) row_nonneg, ← logZ_eq] at hr
    exact hr, rfl⟩⟩

theorem did_id (P : Placed q.lat dh dw w) (h : q.op .id w = (.ok (), w')) : ∃ is new, Did q dh dw .id w w' is new :=
  ⟨_, _, P.emits_id.did rfl h fun sz φ φ' _ _ _ hr => ⟨by
    unfold idInstrs at hr
    exact run_ids.1 hr, rfl⟩⟩

theorem did_idData (P : Placed q.lat dh dw w) (h : q.op .idData w = (.ok (), w')) : ∃ is new, Did q dh dw .idData w w' is new :=
  ⟨_, _, P.emits_idData.did rfl h fun _ _ _ _ _ _ hr => ⟨run_ids.1 hr, rfl⟩⟩

theorem did_resetZ (P : Placed q.lat dh dw w) (h : q.op .resetZ w = (.ok (), w')) : ∃ is new, Did q dh dw .resetZ w w' is new :=
  ⟨_, _, P.emits_resetZ.did rfl h fun _ _ _ hp h0 _ hr => ⟨(run_reset .Z hp h0).1 hr, rfl⟩⟩

theorem did_resetX (P : Placed q.lat dh dw w) (h : q.op .resetX w = (.ok (), w')) : ∃ is new, Did q dh dw .resetX w w' is new := by
  have hd : 1 < dh * dw ∨ q.lat.code = .xxzz := by
    by_contra hc
    rw [not_or] at hc
    have h0 := P.size_pos
    have h1 : dh * dw = 1 := by omega
    have hx : q.lat.code = .xzzx := by
      cases e : q.lat.code
      · exact absurd e hc.2
      · rfl
    have h : q.lat.resetX w = (.ok (), w') := h
    unfold Lattice.resetX at h
    rw [hx, P.data_qubits] at h
    simp only at h
    rw [CM.bind_ok (emits_reset (mem_dataQs P)).run] at h
    unfold dataQs allQubits at h
    rw [h1] at h
    cases h
  exact ⟨_, _, (P.emits_resetX hd).did rfl h fun _ _ _ hp h0 _ hr => ⟨(run_reset .X hp h0).1 hr, rfl⟩⟩

theorem did_stabilize (P : Placed q.lat dh dw w) (h : q.op .stabilize w = (.ok (), w')) : ∃ is new, Did q dh dw .stabilize w w' is new := by
  have h : q.stabilize w = (.ok (), w') := h
  have hs : ∃ k, (w.heap q.lat.pref).T = some k ∧ roundName q.lat.name (k + 1) ∉ w.circ.names := by
    have h' := h
    unfold TQubit.stabilize at h'
    rw [CM.bind_ok (s' := w) (by have := P.numSyn.run; rwa [World.emit_nil] at this),
      CM.bind_ok (x := q.lat.params) (a := w.heap q.lat.pref) (s' := w) rfl] at h'
    obtain ⟨k, hk, h'⟩ := CM.lift_eq_ok h'
    have hT : (w.heap q.lat.pref).T = some k := by
      cases e : (w.heap q.lat.pref).T with
      | none => rw [e] at hk; cases hk
      | some a => rw [e] at hk; cases hk; rfl
    refine ⟨k, hT, fun hm => ?_⟩
    obtain ⟨hp, hx, hz⟩ := numSyn_pos P.odd
    rw [CM.bind_ok (setParams_run _ _ w), CM.bind_lift (newReg_ok (by simp only; omega) _), CM.bind_error (addCreg_taken (show _ from hm))] at h'
    cases h'
  obtain ⟨k, hk, hf⟩ := hs
  rw [P.stabilize_run hk hf] at h
  cases h
  refine ⟨_, [⟨roundName q.lat.name (k + 1), (numSynX dh dw + numSynZ dh dw).toNat⟩], rfl, rfl, ?_, ?_⟩
  · intro r hr
    rw [List.mem_singleton] at hr
    subst hr
    exact ⟨hf, 'c' :: strInt (k + 1), by unfold roundName; rw [List.append_assoc]; rfl⟩
  · intro sz φ φ' hp h0 hs hr
    rw [stabInstrs_eq P.odd] at hp hr
    obtain ⟨m, e, -, e'⟩ := (run_round P.odd hp h0 hs).1 hr
    exact ⟨_, m, e, e', rfl⟩

theorem readoutReg_fresh {L : Lattice} {r : Reg} (h : L.readoutReg none w = (.ok r, w')) :
    ∃ k, (w.heap L.pref).numReadout = some k ∧ readoutName L.name (k + 1) ∉ w.circ.names := by
  have h' := h
  unfold Lattice.readoutReg at h'
  simp only at h'
  rw [CM.bind_ok (x := L.params) (a := w.heap L.pref) (s' := w) rfl] at h'
  obtain ⟨k, hk, h'⟩ := CM.lift_eq_ok h'
  have hT : (w.heap L.pref).numReadout = some k := by
    cases e : (w.heap L.pref).numReadout with
    | none => rw [e] at hk; cases hk
    | some a => rw [e] at hk; cases hk; rfl
  refine ⟨k, hT, fun hm => ?_⟩
  rw [CM.bind_ok (setParams_run _ _ w), CM.bind_lift (newReg_ok (by decide) _), CM.bind_error (addCreg_taken (show _ from hm))] at h'
  cases h'

theorem readoutName_of (n : Str) (k : Int) : readoutName n k = n ++ '_' :: ("readout_".toList ++ strInt k) := by
  unfold readoutName
  rw [List.append_assoc]
  rfl

theorem did_readoutX (P : Placed q.lat dh dw w) (h : q.op (.readoutX none) w = (.ok (), w')) :
    ∃ is r, Did q dh dw (.readoutX none) w w' is [r] := by
  have h : q.lat.readoutX none w = (.ok (), w') := h
  have h' := h
  unfold Lattice.readoutX at h'
  obtain ⟨r, w1, h1, h2⟩ := CM.bind_eq_ok h'
  obtain ⟨k, hk, hf⟩ := readoutReg_fresh h1
  have hd : 1 < dh ∨ q.lat.code = .xxzz := by
    by_contra hc
    rw [not_or] at hc
    have hx : q.lat.code = .xzzx := by
      cases e : q.lat.code
      · exact absurd e hc.2
      · rfl
    rw [readoutReg_run hk hf] at h1
    cases h1
    have P' := (P.setP (p := ((w.heap q.lat.pref).withReadout (k + 1))) ⟨rfl, rfl, rfl⟩).addC ⟨readoutName q.lat.name (k + 1), 1⟩
    have := P.odd
    unfold OddPos at this
    rw [CM.bind_error (P'.fails_readoutXIntoAncilla hx (by omega)).run] at h2
    cases h2
  rw [P.readoutX_run hd hk hf] at h
  cases h
  refine ⟨_, ⟨readoutName q.lat.name (k + 1), 1⟩, rfl, rfl, ?_, ?_⟩
  · intro r hr
    rw [List.mem_singleton] at hr
    subst hr
    exact ⟨hf, _, readoutName_of _ _⟩
  · intro sz φ φ' hp h0 hs hr
    obtain ⟨l, hl, hC⟩ := into_copiesX (code := q.lat.code) (name := q.lat.name) P.odd
    exact ⟨_, (run_read hl hC (logX_comm_letter dataQ_ne_ancQ .Z) Nat.one_pos hp h0).1 hr, rfl⟩

theorem did_readoutZ (P : Placed q.lat dh dw w) (h : q.op (.readoutZ none) w = (.ok (), w')) :
    ∃ is r, Did q dh dw (.readoutZ none) w w' is [r] := by
  have h : q.lat.readoutZ none w = (.ok (), w') := h
  have h' := h
  unfold Lattice.readoutZ at h'
  obtain ⟨r, w1, h1, h2⟩ := CM.bind_eq_ok h'
  obtain ⟨k, hk, hf⟩ := readoutReg_fresh h1
  have hd : 1 < dw ∨ q.lat.code = .xxzz := by
    by_contra hc
    rw [not_or] at hc
    have hx : q.lat.code = .xzzx := by
      cases e : q.lat.code
      · exact absurd e hc.2
      · rfl
    rw [readoutReg_run hk hf] at h1
    cases h1
    have P' := (P.setP (p := ((w.heap q.lat.pref).withReadout (k + 1))) ⟨rfl, rfl, rfl⟩).addC ⟨readoutName q.lat.name (k + 1), 1⟩
    have := P.odd
    unfold OddPos at this
    rw [CM.bind_error (P'.fails_readoutZIntoAncilla hx (by omega)).run] at h2
    cases h2
  rw [P.readoutZ_run hd hk hf] at h
  cases h
  refine ⟨_, ⟨readoutName q.lat.name (k + 1), 1⟩, rfl, rfl, ?_, ?_⟩
  · intro r hr
    rw [List.mem_singleton] at hr
    subst hr
    exact ⟨hf, _, readoutName_of _ _⟩
  · intro sz φ φ' hp h0 hs hr
    obtain ⟨l, hl, hC⟩ := into_copiesZ (code := q.lat.code) (name := q.lat.name) (dh := dh) (dw := dw)
    exact ⟨_, (run_read hl hC (logZ_comm_letter dataQ_ne_ancQ .Z) Nat.one_pos hp h0).1 hr, rfl⟩

/-! ### What stays -/

/-- The operator has nothing to do with the data qubits and the ancilla of the lattice called `n`. -/
def Away (n : Str) (B : Op) : Prop := (∀ i (l : Letter), Commute B (l.op (dataQ n i))) ∧ ∀ l : Letter, Commute B (l.op (ancQ n))

theorem Away.X {n : Str} {B : Op} (h : Away n B) {code : Code} : Commute B (logX code n dh dw) := by
  rw [logX_eq]; exact fstr_comm fun i _ => h.1 i _

theorem Away.Z {n : Str} {B : Op} (h : Away n B) {code : Code} : Commute B (logZ code n dw) := by
  rw [logZ_eq]; exact fstr_comm fun i _ => h.1 i _

theorem Away.checks {n : Str} {B : Op} (h : Away n B) (H : OddPos dh dw) {code : Code} {A : Op} (hA : A ∈ checks code n dh dw) : Commute B A := by
  obtain ⟨key, p, hp, rfl⟩ := mem_checks hA
  rw [checkOp_eq H code n hp]
  exact fstr_comm fun i _ => h.1 i _

theorem Spec.Reads.keeps {n r : Str} {L B : Op} {k : Nat} {φ φ' : QState} (h : Reads n L r k φ φ') (hB : ∀ l : Letter, Commute B (l.op (ancQ n)))
    (hL : Commute B L) {v : Bool} (hv : HasValue B v φ.psi) : HasValue B v φ'.psi := by
  obtain ⟨c, m, e, -, -⟩ := h
  rw [e, ← Module.End.mul_apply (clear c _)]
  exact ((hv.of_comm (clear_opP_comm hB c)).of_comm (Commute.proj hL m)).of_comm (clear_comm (hB .X) m)

/-- What is away from the lattice keeps its value. -/
theorem Eff.away {new : List Reg} {φ φ' : QState} {o : QOp} (E : Eff q dh dw new φ φ' o) (H : OddPos dh dw) {B : Op} (hB : Away q.lat.name B) {v : Bool}
    (hv : HasValue B v φ.psi) : HasValue B v φ'.psi := by
  cases o with
  | x => obtain ⟨rfl, -⟩ := E; exact hv.of_comm hB.X
  | z => obtain ⟨rfl, -⟩ := E; exact hv.of_comm hB.Z
  | id => obtain ⟨rfl, -⟩ := E; exact hv
  | idData => obtain ⟨rfl, -⟩ := E; exact hv
  | resetX => exact prepares_comm (p := ⟨q.lat.code, q.lat.name, dh, dw⟩) E.1 hB.1 hv
  | resetZ => exact prepares_comm (p := ⟨q.lat.code, q.lat.name, dh, dw⟩) E.1 hB.1 hv
  | stabilize =>
    obtain ⟨r, m, e, -, -⟩ := E
    rw [e]
    exact hv.of_comm (jointProj_comm (fun A hA => hB.checks H hA) m)
  | readoutX r =>
    cases r with
    | none => obtain ⟨r, E, -⟩ := E; exact E.keeps hB.2 hB.X hv
    | some r => exact E.elim
  | readoutZ r =>
    cases r with
    | none => obtain ⟨r, E, -⟩ := E; exact E.keeps hB.2 hB.Z hv
    | some r => exact E.elim
  | _ => exact E.elim

/-- Old registers keep their contents. -/
theorem Eff.mem {new : List Reg} {φ φ' : QState} {o : QOp} (E : Eff q dh dw new φ φ' o) {c : Clbit} (hc : ∀ r ∈ new, c.reg ≠ r.name) : φ'.mem c = φ.mem c := by
  cases o with
  | x => obtain ⟨rfl, -⟩ := E; rfl
  | z => obtain ⟨rfl, -⟩ := E; rfl
  | id => obtain ⟨rfl, -⟩ := E; rfl
  | idData => obtain ⟨rfl, -⟩ := E; rfl
  | resetX => obtain ⟨⟨o, -, -, e⟩, -⟩ := E; rw [e]
  | resetZ => obtain ⟨⟨o, -, -, e⟩, -⟩ := E; rw [e]
  | stabilize =>
    obtain ⟨r, m, -, e, rfl⟩ := E
    rw [e]
    exact writeReg_other (hc r (by simp))
  | readoutX r =>
    cases r with
    | none => obtain ⟨r, ⟨_, m, -, -, e⟩, rfl⟩ := E; rw [e]; exact writeReg_other (hc ⟨r, 1⟩ (by simp))
    | some r => exact E.elim
  | readoutZ r =>
    cases r with
    | none => obtain ⟨r, ⟨_, m, -, -, e⟩, rfl⟩ := E; rw [e]; exact writeReg_other (hc ⟨r, 1⟩ (by simp))
    | some r => exact E.elim
  | _ => exact E.elim

end Qtc
