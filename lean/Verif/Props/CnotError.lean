import Verif.Proof.CnotError
import Verif.Spec.CnotError
import Verif.Props.QuantumCnot
/-!
C129: a single error in a logical CNOT.
-/
namespace Qtc
open Spec Function

variable {s s' : TState} {i j : Int} {c t : TQubit} {φ φ' : QState} {ch cw th tw : Int}

/-- C129: whatever a logical CNOT with this one error does is what one without errors may do, followed by a logical X of the target; of the classical
bits only the first helper bit differs. -/
theorem C129_flip (R : CxStruck s i j c t s' φ φ') (hc : HasSize s c ch cw) (ht : HasSize s t th tw) :
    ∃ φ'', CxRun s i j c t s' φ φ'' ∧ φ'.psi = logX t.cls.code t.lat.name th tw φ''.psi ∧
      φ'.mem = update φ''.mem ⟨"m1".toList, 0⟩ (!φ''.mem ⟨"m1".toList, 0⟩) := by
  have et : t.lat.code = t.cls.code := by
    obtain ⟨ca, ta, ctype, p, pc, pt, -, -⟩ := R.call
    exact (R.fair.inv.held _ _ pt.1).code
  obtain ⟨a, Ht, hC, -, hi⟩ := cx_closed R.fair R.call hc ht
  obtain ⟨sz, before, after, hsz, hl, hr⟩ := R.run
  rw [hi, List.drop_left, cnot_split] at hl
  obtain ⟨rfl, rfl⟩ := split_unique (before_free _ _ _ _ _) (after_free _ _ _ _ _) hl
  obtain ⟨φ'', r, e1, e2⟩ := run_cnot_struck (sz := sz) (x := ⟨helperQ, 0⟩) Ht (hsz _ (hC _ (by decide))) (hsz _ (hC _ (by decide))) hr
  refine ⟨φ'', ⟨R.fair, R.call, R.ne, R.ancilla, R.possible, sz, hsz, ?_⟩, ?_, e2⟩
  · rw [hi, List.drop_left]; exact r
  · rw [e1, patch_X et]

/-- C129: so the target gets the wrong value. -/
theorem C129_truth (R : CxStruck s i j c t s' φ φ') (hc : HasSize s c ch cw) (ht : HasSize s t th tw) {x y : Bool}
    (hx : HasValue (logZ c.cls.code c.lat.name cw) x φ.psi) (hy : HasValue (logZ t.cls.code t.lat.name tw) y φ.psi) :
    HasValue (logZ c.cls.code c.lat.name cw) x φ'.psi ∧ HasValue (logZ t.cls.code t.lat.name tw) (!(x ^^ y)) φ'.psi := by
  obtain ⟨φ'', R', e, -⟩ := C129_flip R hc ht
  obtain ⟨ec, et⟩ := R'.codes
  obtain ⟨a, W⟩ := R'.worked hc ht
  obtain ⟨h1, h2⟩ := C65_truth R' hc ht hx hy
  rw [e]
  constructor
  · have : Commute (logZ c.cls.code c.lat.name cw) (logX t.cls.code t.lat.name th tw) := by
      rw [← patch_Z (dh := ch) ec, ← patch_X et]
      exact (patchOf c ch cw).Z_onData.X_comm W.sep.ct
    exact h1.of_comm this
  · have := h2.passes (logX_logZ (code := t.cls.code) (name := t.lat.name) W.sep.Ht).symm
    rw [Bool.xor_true] at this
    exact this

/-- C129: and every plaquette of control and target that has a certain value before has the same value afterwards: nothing is there to be detected. -/
theorem C129_unnoticed (R : CxStruck s i j c t s' φ φ') (hc : HasSize s c ch cw) (ht : HasSize s t th tw) {v : Bool} {B : Op}
    (hB : B ∈ checks c.cls.code c.lat.name ch cw ∨ B ∈ checks t.cls.code t.lat.name th tw) (hv : HasValue B v φ.psi) : HasValue B v φ'.psi := by
  obtain ⟨φ'', R', e, -⟩ := C129_flip R hc ht
  obtain ⟨ec, et⟩ := R'.codes
  obtain ⟨a, W⟩ := R'.worked hc ht
  rw [e]
  refine (C81_checks R' hc ht hB hv).of_comm ?_
  rcases hB with hB | hB
  · rw [← patch_X et]
    exact (checks_onData W.Hc hB).X_comm W.sep.ct
  · exact (logX_checks W.sep.Ht hB).symm

/-- C129: this can happen to every call of `cx` that succeeds, for all sizes and all states. -/
theorem C129_possible (R : CxRun s i j c t s' φ φ') (hc : HasSize s c ch cw) (ht : HasSize s t th tw) : ∃ φ', CxStruck s i j c t s' φ φ' := by
  obtain ⟨a, Ht, hC, wf, hi⟩ := cx_closed R.fair R.call hc ht
  obtain ⟨sz, hsz, -⟩ := R.run
  have proper : ∀ x ∈ cnotInstrs (patchOf c ch cw) (patchOf t th tw) a ⟨helperQ, 0⟩, x.Proper := by
    intro x hx
    refine proper_of_fits (wf.fits x ?_)
    rw [hi]
    exact List.mem_append_right _ hx
  rw [cnot_split] at proper
  obtain ⟨φ', h⟩ := run_exists (sz := sz) (l := cnotBefore (patchOf c ch cw) a ⟨helperQ, 0⟩ ++ .gate1 .x ⟨helperQ, 0⟩ none ::
    .measure ⟨helperQ, 0⟩ ⟨"m1".toList, 0⟩ :: (cnotMiddle (patchOf c ch cw) (patchOf t th tw) a ⟨helperQ, 0⟩ ++ cnotLast (patchOf t th tw)))
    (fun x hx => by
      rcases List.mem_append.1 hx with hx | hx
      · exact proper x (List.mem_append_left _ hx)
      · rcases List.mem_cons.1 hx with rfl | hx
        · trivial
        · exact proper x (List.mem_append_right _ hx)) φ R.possible
  exact ⟨φ', R.fair, R.call, R.ne, R.ancilla, R.possible, sz, _, _, hsz, by rw [hi, List.drop_left, cnot_split]; rfl, h⟩

/-- A control with value 1 leaves the target at 0, if the error happens. -/
example : ∃ s' c t φ φ', CxStruck cxPair 0 1 c t s' φ φ' ∧ HasValue (logZ .xxzz "r_1".toList 1) false φ.psi ∧
    HasValue (logZ .xxzz "r_0".toList 1) true φ'.psi ∧ HasValue (logZ .xxzz "r_1".toList 1) false φ'.psi := by
  obtain ⟨c, t, hc, ht, sc, st, nc, nt, kc, kt⟩ := cxPair_qubits
  have far : Far "r_1".toList "r_0".toList := fun x y e => absurd (qname_inj (R := "r".toList) (i := 1) (j := 0) e).1 (by decide)
  have v0 : HasValue (logZ .xxzz "r_0".toList 1) true (logX .xxzz "r_0".toList 3 1 ground) :=
    ground_Z.passes (logX_logZ (by unfold OddPos; decide)).symm
  have v1 : HasValue (logZ .xxzz "r_1".toList 1) false (logX .xxzz "r_0".toList 3 1 ground) :=
    ground_Z.of_comm (logZ_onData.X_comm (p := ⟨.xxzz, "r_0".toList, 3, 1⟩) far)
  have h0 : logX .xxzz "r_0".toList 3 1 ground ≠ 0 := by
    intro e
    have := congrArg (logX .xxzz "r_0".toList 3 1) e
    rw [← Module.End.mul_apply, logX_sq (by unfold OddPos; decide), map_zero] at this
    exact ground_ne_zero this
  obtain ⟨s', φ1, R⟩ := cxPair_run (φ := ⟨_, fun _ => false⟩) h0 hc ht
  obtain ⟨φ', R⟩ := C129_possible R sc st
  have := C129_truth R sc st (x := true) (y := false) (by rw [kc, nc]; exact v0) (by rw [kt, nt]; exact v1)
  rw [kc, nc, kt, nt] at this
  exact ⟨s', c, t, _, φ', R, v1, this⟩

end Qtc
