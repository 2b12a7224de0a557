import Verif.Props.CnotError
/-!
C130: errors before a logical CNOT.
-/
namespace Qtc
open Spec Function

variable {s s' : TState} {i j : Int} {c t : TQubit} {φ φ' : QState} {ch cw th tw : Int}

theorem valueFlip_eq (code : Code) (name : Str) (k : Int) : valueFlip code name k = fop code .X name k := by
  unfold valueFlip fop
  cases code
  · rfl
  · by_cases h : k % 2 = 0
    · rw [if_pos ⟨rfl, h⟩]; simp only [kind, if_pos h]; rfl
    · rw [if_neg (fun e => h e.2)]; simp only [kind, if_neg h]; rfl

/-- C130: an operator that struck before the call, and that flips logical Z of the control (`u`) and of the target (`w`) or not, flips the control
afterwards by `u` and the target by both. -/
theorem C130_spreads {E : Op} (R : CxRun s i j c t s' ⟨E φ.psi, φ.mem⟩ φ') (hc : HasSize s c ch cw) (ht : HasSize s t th tw) {x y u w : Bool}
    (hx : HasValue (logZ c.cls.code c.lat.name cw) x φ.psi) (hy : HasValue (logZ t.cls.code t.lat.name tw) y φ.psi)
    (hu : logZ c.cls.code c.lat.name cw * E = sg u • (E * logZ c.cls.code c.lat.name cw))
    (hw : logZ t.cls.code t.lat.name tw * E = sg w • (E * logZ t.cls.code t.lat.name tw)) :
    HasValue (logZ c.cls.code c.lat.name cw) (x ^^ u) φ'.psi ∧ HasValue (logZ t.cls.code t.lat.name tw) ((x ^^ u) ^^ (y ^^ w)) φ'.psi :=
  C65_truth R hc ht (hx.passes hu) (hy.passes hw)

/-- C130: the plaquettes of control and target show what they would show without the call. -/
theorem C130_checks {E : Op} (R : CxRun s i j c t s' ⟨E φ.psi, φ.mem⟩ φ') (hc : HasSize s c ch cw) (ht : HasSize s t th tw) {v u : Bool} {B : Op}
    (hB : B ∈ checks c.cls.code c.lat.name ch cw ∨ B ∈ checks t.cls.code t.lat.name th tw) (hv : HasValue B v φ.psi)
    (hu : B * E = sg u • (E * B)) : HasValue B (v ^^ u) φ'.psi :=
  C81_checks R hc ht hB (hv.passes hu)

/-- C130: an error on one data qubit in the top row of the control, before the call, flips control and target. Every plaquette of the target keeps
its value; one of the control, if it has more than one row, does not. -/
theorem C130_single {k : Int} (R : CxRun s i j c t s' ⟨valueFlip c.cls.code c.lat.name k φ.psi, φ.mem⟩ φ') (hc : HasSize s c ch cw)
    (ht : HasSize s t th tw) (hk : 0 ≤ k ∧ k < cw) {x y : Bool}
    (hx : HasValue (logZ c.cls.code c.lat.name cw) x φ.psi) (hy : HasValue (logZ t.cls.code t.lat.name tw) y φ.psi) :
    HasValue (logZ c.cls.code c.lat.name cw) (!x) φ'.psi ∧ HasValue (logZ t.cls.code t.lat.name tw) (!(x ^^ y)) φ'.psi ∧
    (∀ B ∈ checks t.cls.code t.lat.name th tw, ∀ v, HasValue B v φ.psi → HasValue B v φ'.psi) ∧
    (1 < ch → ∃ B ∈ checks c.cls.code c.lat.name ch cw, ∀ v, HasValue B v φ.psi → HasValue B (!v) φ'.psi) := by
  obtain ⟨ec, et⟩ := R.codes
  obtain ⟨a, W⟩ := R.worked hc ht
  have Hc : OddPos ch cw := W.Hc
  have Ht : OddPos th tw := W.sep.Ht
  have far : ∀ n, dataQ t.lat.name n ≠ dataQ c.lat.name k := fun n => (W.sep.ct.symm).data n k
  have out : ∀ B : Op, OnData t.lat.name B → B * valueFlip c.cls.code c.lat.name k = sg false • (valueFlip c.cls.code c.lat.name k * B) := by
    intro B hB
    rw [valueFlip_eq]
    exact passes_false.2 (hB _ far _)
  have hZ : logZ c.cls.code c.lat.name cw * valueFlip c.cls.code c.lat.name k =
      sg true • (valueFlip c.cls.code c.lat.name k * logZ c.cls.code c.lat.name cw) := by
    have h := (fop_fstr_passes (code := c.cls.code) (name := c.lat.name) hk.1 (row_nonneg (dw := cw)) (row_nodup (dw := cw))).symm
    have hk' : k ∈ rowQubits cw 0 := List.mem_map.2 ⟨k.toNat, List.mem_range.2 (by omega), by omega⟩
    rw [decide_eq_true hk'] at h
    rw [valueFlip_eq, logZ_eq]
    exact h
  obtain ⟨h1, h2⟩ := C130_spreads R hc ht hx hy hZ (out _ logZ_onData)
  refine ⟨by simpa using h1, by simpa using h2, ?_, ?_⟩
  · intro B hB v hv
    have := C130_checks R hc ht (.inr hB) hv (out B (checks_onData Ht hB))
    rwa [Bool.xor_false] at this
  · intro hh
    let p : Int × Int := (1, if k % 2 = 0 then 2 * k + 1 else 2 * k - 1)
    have hp : ZSite ch cw p.1 p.2 := by
      have := Hc.2.1; have := Hc.2.2.2
      unfold ZSite
      by_cases e : k % 2 = 0
      · simp only [p, if_pos e]; omega
      · simp only [p, if_neg e]; omega
    have hm : k ∈ around ch cw p := by
      rw [mem_around]
      unfold cornersOf dataAt
      by_cases e : k % 2 = 0
      · simp only [p, if_pos e]
        rw [show (2 * k + 1 - 1) / 2 = k by omega]
        simp [hk.1, hk.2, Hc.1]
      · simp only [p, if_neg e]
        rw [show (2 * k - 1 + 1) / 2 = k by omega]
        simp [hk.1, hk.2, Hc.1]
    have hc' : checkOp c.cls.code c.lat.name ch cw .Z p ∈ checks c.cls.code c.lat.name ch cw :=
      List.mem_append_left _ (List.mem_map_of_mem (mem_zSites.2 hp))
    refine ⟨_, hc', fun v hv => ?_⟩
    have := C130_checks R hc ht (.inl hc') hv (u := true) (by
      rw [valueFlip_eq, checkOp_eq Hc _ _ (key := .Z) hp]
      have h := (fop_fstr_passes (code := c.cls.code) (name := c.lat.name) hk.1 around_nonneg (around_nodup Hc (key := .Z) hp)).symm
      rw [decide_eq_true hm] at h
      exact h)
    rwa [Bool.xor_true] at this

/-- Both qubits have value 0, and control and target are 3 × 1: an error on the first data qubit of the control makes the target 1. -/
example : ∃ s' c t φ', CxRun cxPair 0 1 c t s' ⟨valueFlip .xxzz "r_0".toList 0 ground, fun _ => false⟩ φ' ∧
    HasValue (logZ .xxzz "r_1".toList 1) false ground ∧ HasValue (logZ .xxzz "r_1".toList 1) true φ'.psi := by
  obtain ⟨c, t, hc, ht, sc, st, nc, nt, kc, kt⟩ := cxPair_qubits
  have h0 : valueFlip .xxzz "r_0".toList 0 ground ≠ 0 := by
    intro e
    have := congrArg (valueFlip .xxzz "r_0".toList 0) e
    rw [valueFlip_eq, ← Module.End.mul_apply, fop, letter_sq, map_zero] at this
    exact ground_ne_zero this
  obtain ⟨s', φ', R⟩ := cxPair_run (φ := ⟨_, fun _ => false⟩) h0 hc ht
  refine ⟨s', c, t, φ', R, ground_Z, ?_⟩
  have := (C130_single (φ := ⟨ground, fun _ => false⟩) (k := 0) (x := false) (y := false) (by rw [kc, nc]; exact R) sc st (by decide)
    (by rw [kc, nc]; exact ground_Z) (by rw [kt, nt]; exact ground_Z)).2.1
  rw [kt, nt] at this
  exact this

end Qtc
