import Verif.Proof.QFrame
/-!
C61: the XZZX code is the XXZZ code seen through Hadamard gates on every second data qubit.
-/
namespace Qtc
open Spec Function

variable {cls : QClass} {q q' : TQubit} {dh dw : Int} {ops ops' : List QOp} {w w' : World} {sz : Str → Nat} {name : Str}

/-- C61: Hadamard gates on the even data qubits turn each check and each logical operator of one code into that of the other;
doing it twice changes nothing. -/
theorem C61_operators (H : OddPos dh dw) :
    halfTurn name dh dw * halfTurn name dh dw = 1 ∧
    (∀ key p, SiteOf dh dw key p →
      checkOp .xzzx name dh dw key p = halfTurn name dh dw * checkOp .xxzz name dh dw key p * halfTurn name dh dw) ∧
    logX .xzzx name dh dw = halfTurn name dh dw * logX .xxzz name dh dw * halfTurn name dh dw ∧
    logZ .xzzx name dw = halfTurn name dh dw * logZ .xxzz name dw * halfTurn name dh dw :=
  ⟨halfTurn_sq, fun _ _ hp => conj_of_swap halfTurn_sq (halfTurn_check H hp), conj_of_swap halfTurn_sq (halfTurn_logX H),
    conj_of_swap halfTurn_sq (halfTurn_logZ H)⟩

/-- C61: the same operations (stabilizations, identities, logical gates, also conditioned ones, logical readouts) on an XZZX qubit
and on its XXZZ twin have the same executions: same classical memory, states that differ by the Hadamard gates. -/
theorem C61_executions {l : List QOp} (A : After .xzzx q dh dw ops w) (A' : After cls q' dh dw ops' w') (hc : cls ≠ .xzzx)
    (T : Twins q w q' w') (hg : ∀ o ∈ l, Gentle .xzzx dh dw o) {s s' : QState} (h0 : s.psi ≠ 0) (hs : SynZero q.lat.name dh dw s.psi) :
    Run sz (addedAll q l w) s s' ↔ Run sz (addedAll q' l w')
      ⟨halfTurn q.lat.name dh dw s.psi, s.mem⟩ ⟨halfTurn q.lat.name dh dw s'.psi, s'.mem⟩ := by
  induction l generalizing ops ops' w w' s with
  | nil =>
    rw [addedAll_nil, addedAll_nil]
    obtain ⟨p, m⟩ := s
    obtain ⟨p', m'⟩ := s'
    show QState.mk _ _ = _ ↔ QState.mk _ _ = _
    rw [QState.mk.injEq, QState.mk.injEq]
    exact and_congr ⟨fun e => by rw [e], fun e => halfTurn_inj e⟩ Iff.rfl
  | cons o l ih =>
    have hgo := hg o (by simp)
    have step := fun t => halfTurn_op (sz := sz) A A' hc T hgo (s' := t) h0 hs
    have rest : ∀ t, Run sz (added q o w) s t → _ := fun t ht =>
      ih (A.next o) (A'.next o) (twins_next A A' T hgo) (fun o ho => hg o (by simp [ho])) (A.ne_zero h0 ht) (gentle_synZero A hgo h0 ht hs)
    rw [A.run_cons, A'.run_cons]
    constructor
    · rintro ⟨t, h1, h2⟩
      exact ⟨_, (step t).1 h1, (rest t h1).1 h2⟩
    · rintro ⟨t, h1, h2⟩
      have e : t = ⟨halfTurn q.lat.name dh dw (halfTurn q.lat.name dh dw t.psi), t.mem⟩ := by
        rw [← Module.End.mul_apply, halfTurn_sq]
        rfl
      have h3 := (step ⟨halfTurn q.lat.name dh dw t.psi, t.mem⟩).2 (by simp only; rw [← e]; exact h1)
      refine ⟨_, h3, (rest _ h3).2 ?_⟩
      simp only
      rw [← e]
      exact h2

/-- C61: also from preparation to logical readout and to the readout of all data qubits. -/
theorem C61_prepare (A : After .xzzx q dh dw ops w) (A' : After cls q' dh dw ops' w') (hc : cls ≠ .xzzx) (T : Twins q w q' w')
    (h1 : 1 < dh * dw) {s s' : QState} (h0 : s.psi ≠ 0) {o : QOp} (ho : o = .resetX ∨ o = .resetZ) :
    Run sz (added q o w) s s' ↔ Run sz (added q' o w') s ⟨halfTurn q.lat.name dh dw s'.psi, s'.mem⟩ := by
  rcases ho with rfl | rfl
  · rw [run_resetX A (Or.inr h1) h0, run_resetX A' (Or.inl hc) h0, xzzx_code hc, ← T.1]
    exact halfTurn_prepares
  · rw [run_resetZ A h0, run_resetZ A' h0, xzzx_code hc, ← T.1]
    exact halfTurn_prepares

/-- See `C61_prepare`. -/
theorem C61_lattice (A : After .xzzx q dh dw ops w) (A' : After cls q' dh dw ops' w') (hc : cls ≠ .xzzx) (T : Twins q w q' w')
    (h1 : 1 < dh * dw) {s s' : QState} (h0 : s.psi ≠ 0) {o : QOp} (ho : o = .latticeReadoutX ∨ o = .latticeReadoutZ) :
    Run sz (added q o w) s s' ↔ Run sz (added q' o w') ⟨halfTurn q.lat.name dh dw s.psi, s.mem⟩ s' := by
  have h0' : halfTurn q.lat.name dh dw s.psi ≠ 0 := halfTurn_ne.2 h0
  rcases ho with rfl | rfl
  · rw [run_latticeX A (Or.inr h1) h0, run_latticeX A' (Or.inl hc) h0', xzzx_code hc, ← T.1, ← twins_lattice T]
    exact halfTurn_readsAll
  · rw [run_latticeZ A h0, run_latticeZ A' h0', xzzx_code hc, ← T.1, ← twins_lattice T]
    exact halfTurn_readsAll

/-- C61: fresh qubits of the same name are twins, and twins stay twins. -/
theorem C61_twins (A : AfterAlone .xzzx q dh dw [] w) (A' : AfterAlone cls q' dh dw [] w') (hn : q.lat.name = q'.lat.name) :
    Twins q w q' w' := by
  obtain ⟨-, h1, h2⟩ := A.cregs (by simp)
  obtain ⟨-, h3, h4⟩ := A'.cregs (by simp)
  have t1 := A.after.own.2.T
  have t2 := A'.after.own.2.T
  exact ⟨hn, t1.trans t2.symm, h1.trans h3.symm, h2.trans h4.symm⟩

/-- C61: from preparation to the readout of all data qubits nobody can tell the two codes apart: the executions are the same. -/
theorem C61_indistinguishable {l : List QOp} (A : AfterAlone .xzzx q dh dw [] w) (A' : AfterAlone cls q' dh dw [] w') (hc : cls ≠ .xzzx)
    (hn : q.lat.name = q'.lat.name) (h1 : 1 < dh * dw) {o o' : QOp} (ho : o = .resetX ∨ o = .resetZ)
    (ho' : o' = .latticeReadoutX ∨ o' = .latticeReadoutZ) (hg : ∀ o ∈ l, Gentle .xzzx dh dw o) {s s' : QState} (h0 : s.psi ≠ 0)
    (hs : SynZero q.lat.name dh dw s.psi) :
    Run sz (addedAll q (o :: l ++ [o']) w) s s' ↔ Run sz (addedAll q' (o :: l ++ [o']) w') s s' := by
  have T := C61_twins A A' hn
  have A := A.after
  have A' := A'.after
  have T1 := twins_reset A A' T ho
  have T2 := twins_all (A.next o) (A'.next o) T1 hg
  have hz : ∀ t, Run sz (added q o w) s t → SynZero q.lat.name dh dw t.psi := fun t ht => by
    rcases ho with rfl | rfl
    · exact ((run_resetX A (Or.inr h1) h0).1 ht).synZero hs
    · exact ((run_resetZ A h0).1 ht).synZero hs
  have back : ∀ t : QState, t = ⟨halfTurn q.lat.name dh dw (halfTurn q.lat.name dh dw t.psi), t.mem⟩ := fun t => by
    rw [← Module.End.mul_apply, halfTurn_sq]
    rfl
  have a1 := fun t => C61_prepare (sz := sz) A A' hc T h1 (s' := t) h0 ho
  have a2 := fun t (ht : Run sz (added q o w) s t) t' => C61_executions (sz := sz) (A.next o) (A'.next o) hc T1 hg (s' := t') (A.ne_zero h0 ht) (hz t ht)
  have a3 := fun (t : QState) (ht : t.psi ≠ 0) => C61_lattice (sz := sz) ((A.next o).all_next l) ((A'.next o).all_next l) hc T2 h1 (s' := s') ht ho'
  rw [A.run_append, A'.run_append]
  constructor
  · rintro ⟨t', h, h3⟩
    obtain ⟨t, h4, h5⟩ := A.run_cons.1 h
    have n1 := A.ne_zero h0 h4
    have n2 := ne_zero_all (A.next o) n1 h5
    have h3 := ((A.next o).all_next l).all_single o' ▸ h3
    refine ⟨_, A'.run_cons.2 ⟨_, (a1 t).1 h4, (a2 t h4 t').1 h5⟩, ?_⟩
    exact ((A'.next o).all_next l).all_single o' ▸ (a3 t' n2).1 h3
  · rintro ⟨t', h, h3⟩
    obtain ⟨t, h4, h5⟩ := A'.run_cons.1 h
    have b1 := (a1 ⟨halfTurn q.lat.name dh dw t.psi, t.mem⟩).2 (by simp only; rw [← back]; exact h4)
    have b2 := (a2 _ b1 ⟨halfTurn q.lat.name dh dw t'.psi, t'.mem⟩).2 (by simp only; rw [← back, ← back]; exact h5)
    have n1 := A.ne_zero h0 b1
    have n2 := ne_zero_all (A.next o) n1 b2
    have h3 := ((A'.next o).all_next l).all_single o' ▸ h3
    refine ⟨_, A.run_cons.2 ⟨_, b1, b2⟩, ?_⟩
    have b3 := (a3 _ n2).2 (by simp only; rw [← back]; exact h3)
    exact ((A.next o).all_next l).all_single o' ▸ b3

/-- Five data qubits of the 3 × 3 lattice are turned, so XXXX on the qubits 1, 2, 4, 5 becomes XZZX. -/
example : (allQubits 3 3).filter (fun i => i % 2 = 0) = [0, 2, 4, 6, 8] ∧ cornersOf 3 3 1 3 = [some 1, some 2, some 4, some 5] ∧
    checkLetters .xxzz .X = [.X, .X, .X, .X] ∧ checkLetters .xzzx .X = [.X, .Z, .Z, .X] := by
  decide

/-- Two circuits that give the same results. -/
example : ∃ q w q' w', AfterAlone .xzzx q 3 3 [] w ∧ AfterAlone .xxzz q' 3 3 [] w' ∧
    (∃ s', Run (fun _ => 0) (addedAll q [.resetZ, .stabilize, .x, .stabilize, .latticeReadoutZ] w) ⟨ground, fun _ => false⟩ s') ∧
    ∀ s', Run (fun _ => 0) (addedAll q [.resetZ, .stabilize, .x, .stabilize, .latticeReadoutZ] w) ⟨ground, fun _ => false⟩ s' ↔
      Run (fun _ => 0) (addedAll q' [.resetZ, .stabilize, .x, .stabilize, .latticeReadoutZ] w') ⟨ground, fun _ => false⟩ s' := by
  obtain ⟨q, w, A, hn⟩ := afterAlone_exists (dh := 3) (dw := 3) .xzzx "a".toList (by unfold OddPos; decide) (by simp) []
  obtain ⟨q', w', A', hn'⟩ := afterAlone_exists (dh := 3) (dw := 3) .xxzz "a".toList (by unfold OddPos; decide) (by simp) []
  exact ⟨q, w, q', w', A, A', run_all_exists (sz := fun _ => 0) A.after ⟨ground, fun _ => false⟩ ground_ne_zero, fun s' =>
    C61_indistinguishable (l := [.stabilize, .x, .stabilize]) A A' (by decide) (hn.trans hn'.symm) (by decide) (Or.inr rfl) (Or.inr rfl) (by
      intro o ho
      simp only [List.mem_cons, List.not_mem_nil, or_false] at ho
      rcases ho with rfl | rfl | rfl <;> exact trivial) ground_ne_zero ground_synZero⟩

end Qtc
