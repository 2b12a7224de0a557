import Mathlib.Algebra.BigOperators.Group.List.Basic
import Mathlib.Algebra.Algebra.Basic
import Mathlib.Algebra.Ring.Commute
import Mathlib.Tactic.Module
import Mathlib.Tactic.NoncommRing
import Mathlib.Tactic.FieldSimp
import Verif.Spec.Quantum
/-!
The algebra of the operators: Pauli operators, projectors, and the gadget that copies the value of an observable to a qubit.
-/
namespace Qtc
open Spec Function

/-! ### Pauli operators -/

@[simp] theorem sg_mul_self (b : Bool) : sg b * sg b = 1 := by cases b <;> simp [sg]
@[simp] theorem sg_false : sg false = 1 := rfl
@[simp] theorem sg_true : sg true = -1 := rfl
theorem neg_one_smul_op (A : Op) : (-1 : ℂ) • A = -A := by
  refine LinearMap.ext fun ψ => funext fun c => ?_
  show (-1 : ℂ) * A ψ c = -(A ψ c)
  ring

theorem sg_not (b : Bool) : sg (!b) = -sg b := by cases b <;> simp [sg]
theorem sg_xor (a b : Bool) : sg (a ^^ b) = sg a * sg b := by cases a <;> cases b <;> simp [sg]

@[simp] theorem opX_apply (q : Qubit) (ψ : Psi) (c : Config) : opX q ψ c = ψ (update c q (!c q)) := rfl
@[simp] theorem opZ_apply (q : Qubit) (ψ : Psi) (c : Config) : opZ q ψ c = sg (c q) * ψ c := rfl
@[simp] theorem opP_apply (v : Bool) (q : Qubit) (ψ : Psi) (c : Config) : opP v q ψ c = if c q = v then ψ c else 0 := rfl

@[simp] theorem opX_sq (q : Qubit) : opX q * opX q = 1 := by
  refine LinearMap.ext fun ψ => funext fun c => ?_
  simp

@[simp] theorem opZ_sq (q : Qubit) : opZ q * opZ q = 1 := by
  refine LinearMap.ext fun ψ => funext fun c => ?_
  simp [← mul_assoc]

theorem opX_comm (p q : Qubit) : Commute (opX p) (opX q) := by
  refine LinearMap.ext fun ψ => funext fun c => ?_
  by_cases h : p = q
  · subst h; rfl
  · simp only [Module.End.mul_apply, opX_apply]
    rw [update_of_ne (Ne.symm h), update_of_ne h, update_comm h]

theorem opZ_comm (p q : Qubit) : Commute (opZ p) (opZ q) := by
  refine LinearMap.ext fun ψ => funext fun c => ?_
  simp only [Module.End.mul_apply, opZ_apply]
  ring

theorem opX_opZ_comm {p q : Qubit} (h : p ≠ q) : Commute (opX p) (opZ q) := by
  refine LinearMap.ext fun ψ => funext fun c => ?_
  simp only [Module.End.mul_apply, opX_apply, opZ_apply]
  rw [update_of_ne (Ne.symm h)]

theorem opX_opZ_anti (q : Qubit) : opX q * opZ q = -(opZ q * opX q) := by
  refine LinearMap.ext fun ψ => funext fun c => ?_
  simp only [Module.End.mul_apply, LinearMap.neg_apply, Pi.neg_apply, opX_apply, opZ_apply, update_self]
  rw [sg_not]
  ring

/-- The factor of the Hadamard gate. -/
noncomputable def hc : ℂ := ((Real.sqrt 2 : ℝ) : ℂ)⁻¹

theorem hc_sq : hc * hc = 1 / 2 := by
  unfold hc
  rw [← mul_inv, ← Complex.ofReal_mul, Real.mul_self_sqrt (by norm_num)]
  norm_num

theorem opH_eq (q : Qubit) : opH q = hc • (opX q + opZ q) := by
  refine LinearMap.ext fun ψ => funext fun c => ?_
  show hc * (ψ (update c q false) + sg (c q) * ψ (update c q true)) = hc * (ψ (update c q (!c q)) + sg (c q) * ψ c)
  cases h : c q
  · rw [← h, update_eq_self, h]; simp [add_comm]
  · have : update c q true = c := by rw [← h, update_eq_self]
    rw [this]; rfl

theorem opP_eq (v : Bool) (q : Qubit) : opP v q = (1 / 2 : ℂ) • (1 + sg v • opZ q) := by
  refine LinearMap.ext fun ψ => funext fun c => ?_
  show (if c q = v then ψ c else 0) = (1 / 2 : ℂ) * (ψ c + sg v * (sg (c q) * ψ c))
  cases v <;> cases h : c q <;> simp <;> ring

theorem opP_projOf (v : Bool) (q : Qubit) : opP v q = projOf (opZ q) v := opP_eq v q

theorem opCX_eq (a b : Qubit) : opCX a b = opP false a + opP true a * opX b := by
  refine LinearMap.ext fun ψ => funext fun c => ?_
  show (if c a then ψ (update c b (!c b)) else ψ c) = (if c a = false then ψ c else 0) + (if c a = true then ψ (update c b (!c b)) else 0)
  cases c a <;> simp

theorem opCZ_eq (a b : Qubit) : opCZ a b = opP false a + opP true a * opZ b := by
  refine LinearMap.ext fun ψ => funext fun c => ?_
  show (if c a && c b then -ψ c else ψ c) = (if c a = false then ψ c else 0) + (if c a = true then sg (c b) * ψ c else 0)
  cases c a <;> cases c b <;> simp

theorem opH_sq (q : Qubit) : opH q * opH q = 1 := by
  rw [opH_eq, smul_mul_smul_comm, hc_sq, add_mul, mul_add, mul_add, opX_sq, opZ_sq, opX_opZ_anti]
  module

theorem opH_opX (q : Qubit) : opH q * opX q = opZ q * opH q := by
  rw [opH_eq, smul_mul_assoc, mul_smul_comm, add_mul, mul_add, opX_sq, opZ_sq, add_comm]

theorem opH_opZ (q : Qubit) : opH q * opZ q = opX q * opH q := by
  rw [opH_eq, smul_mul_assoc, mul_smul_comm, add_mul, mul_add, opX_sq, opZ_sq, add_comm]

theorem Commute.hadamard {A : Op} {q : Qubit} (h1 : Commute A (opX q)) (h2 : Commute A (opZ q)) : Commute A (opH q) := by
  rw [opH_eq]
  exact (h1.add_right h2).smul_right _

theorem Commute.proj {A B : Op} (h : Commute A B) (v : Bool) : Commute A (projOf B v) :=
  ((Commute.one_right A).add_right (h.smul_right _)).smul_right _

theorem Commute.opP {A : Op} {q : Qubit} (h : Commute A (opZ q)) (v : Bool) : Commute A (opP v q) := by
  rw [opP_projOf]; exact Commute.proj h v

/-! ### Projectors -/

theorem projOf_sq {A : Op} (h : A * A = 1) (v : Bool) : projOf A v * projOf A v = projOf A v := by
  unfold projOf
  rw [smul_mul_smul_comm, add_mul, mul_add, mul_add, smul_mul_smul_comm, h, sg_mul_self, one_mul, one_mul, mul_one]
  module

theorem projOf_mul {A : Op} (h : A * A = 1) {v v' : Bool} (hv : v ≠ v') : projOf A v * projOf A v' = 0 := by
  unfold projOf
  have e : sg v' = -sg v := by cases v <;> cases v' <;> simp_all
  rw [smul_mul_smul_comm, add_mul, mul_add, mul_add, smul_mul_smul_comm, h, e, one_mul, one_mul, mul_one, mul_neg, sg_mul_self]
  module

theorem projOf_add (A : Op) : projOf A false + projOf A true = 1 := by
  unfold projOf
  simp only [sg_false, sg_true]
  module

theorem mul_projOf {A : Op} (h : A * A = 1) (v : Bool) : A * projOf A v = sg v • projOf A v := by
  unfold projOf
  rw [mul_smul_comm, mul_add, mul_smul_comm, h, mul_one, smul_comm (sg v), smul_add (sg v), smul_smul (sg v), sg_mul_self]
  module

/-- `A` passes `B` up to the sign `v`. -/
def Passes (v : Bool) (A B : Op) : Prop := A * B = sg v • (B * A)

theorem passes_false {A B : Op} : Passes false A B ↔ Commute A B := by
  unfold Passes
  rw [sg_false, one_smul]
  exact Iff.rfl

theorem Passes.mul_right {v w : Bool} {A B C : Op} (h : Passes v A B) (h' : Passes w A C) : Passes (v ^^ w) A (B * C) := by
  unfold Passes at *
  rw [← mul_assoc, h, smul_mul_assoc, mul_assoc, h', mul_smul_comm, smul_smul, sg_xor, mul_assoc]

theorem Passes.mul_left {v w : Bool} {A B C : Op} (h : Passes v A C) (h' : Passes w B C) : Passes (v ^^ w) (A * B) C := by
  unfold Passes at *
  rw [mul_assoc, h', mul_smul_comm, ← mul_assoc, h, smul_mul_assoc, smul_smul, sg_xor, mul_assoc, mul_comm (sg w)]

theorem Passes.symm {v : Bool} {A B : Op} (h : Passes v A B) : Passes v B A := by
  unfold Passes at *
  rw [h, smul_smul, sg_mul_self, one_smul]

theorem Passes.one_right (A : Op) : Passes false A 1 := passes_false.2 (Commute.one_right A)

theorem Passes.proj {v : Bool} {A B : Op} (h : Passes v A B) (m : Bool) : A * projOf B m = projOf B (m ^^ v) * A := by
  unfold Passes at h
  unfold projOf
  rw [mul_smul_comm, mul_add, mul_smul_comm, h, smul_mul_assoc, add_mul, smul_mul_assoc, sg_xor, smul_smul, one_mul, mul_one]

theorem passes_XZ (q : Qubit) : Passes true (opX q) (opZ q) := by
  unfold Passes
  rw [opX_opZ_anti, sg_true, neg_one_smul_op]

/-! ### The copying gadget -/

/-- Flip the qubit `s` if the observable `A` has value 1. -/
noncomputable def copy (s : Qubit) (A : Op) : Op := projOf A false + projOf A true * opX s

theorem copy_mul {s : Qubit} {A B : Op} (hB : Commute B (opX s)) : copy s A * copy s B = copy s (A * B) := by
  have h : opX s * B = B * opX s := hB.symm
  have e1 : opX s * (B * opX s) = B := by rw [← mul_assoc, h, mul_assoc, opX_sq, mul_one]
  unfold copy projOf
  simp only [sg_false, sg_true, one_smul, smul_mul_assoc, mul_smul_comm, add_mul, mul_add, one_mul, mul_one,
    mul_assoc, opX_sq, h, e1]
  module

theorem copy_one (s : Qubit) : copy s 1 = 1 := by
  unfold copy projOf
  have e : (1 : Op) + (-1 : ℂ) • 1 = 0 := by module
  rw [sg_false, sg_true, e, smul_zero, zero_mul]
  module

theorem opCX_copy (a s : Qubit) : opCX a s = copy s (opZ a) := by
  rw [opCX_eq, opP_projOf, opP_projOf]; rfl

theorem opH_mul_opH (q : Qubit) (A : Op) : opH q * (opH q * A) = A := by rw [← mul_assoc, opH_sq, one_mul]

theorem opH_conj_copy {s q : Qubit} (h : s ≠ q) : opH s * opCX s q * opH s = copy s (opX q) := by
  have c : opX q * opH s = opH s * opX q := Commute.hadamard (opX_comm q s) (opX_opZ_comm (Ne.symm h))
  have z : opZ s * opH s = opH s * opX s := (opH_opX s).symm
  have x : opX q * opX s = opX s * opX q := opX_comm q s
  rw [opCX_eq, opP_projOf, opP_projOf]
  unfold copy projOf
  simp only [sg_false, sg_true, one_smul, smul_mul_assoc, mul_smul_comm, add_mul, mul_add, one_mul, mul_one,
    mul_assoc, c, z, x, opH_mul_opH, opH_sq]
  rw [← mul_assoc (opZ s), z, mul_assoc, opH_mul_opH]
  module

theorem Commute.copy {s : Qubit} {A B : Op} (h1 : Commute B A) (h2 : Commute B (opX s)) : Commute B (copy s A) :=
  (Commute.proj h1 _).add_right ((Commute.proj h1 _).mul_right h2)

theorem opP_sq (v : Bool) (q : Qubit) : opP v q * opP v q = opP v q := by
  rw [opP_projOf]; exact projOf_sq (opZ_sq q) v

theorem opP_mul {v v' : Bool} (q : Qubit) (h : v ≠ v') : opP v q * opP v' q = 0 := by
  rw [opP_projOf, opP_projOf]; exact projOf_mul (opZ_sq q) h

theorem opX_opP (v : Bool) (q : Qubit) : opX q * opP v q = opP (!v) q * opX q := by
  rw [opP_projOf, opP_projOf, (passes_XZ q).proj]
  cases v <;> rfl

theorem clear_opP (v : Bool) (q : Qubit) : clear v q * opP v q = opP false q * clear v q := by
  unfold clear
  cases v
  · simp
  · simp [opX_opP]

theorem clear_sq (v : Bool) (q : Qubit) : clear v q * clear v q = 1 := by
  unfold clear
  cases v <;> simp

/-- Copying an observable to a qubit in state 0 and measuring that qubit is measuring the observable. -/
theorem measure_copy {s : Qubit} {A : Op} (hx : Commute A (opX s)) (hz : Commute A (opZ s)) (m : Bool) :
    opP m s * copy s A * opP false s = clear m s * projOf A m * opP false s := by
  have hP : ∀ v u, opP v s * projOf A u = projOf A u * opP v s := fun v u => (Commute.proj (Commute.opP hz v).symm u)
  have e : opX s * opP false s = opP true s * opX s := opX_opP false s
  unfold copy
  cases m
  · simp only [clear, Bool.false_eq_true, if_false, one_mul, mul_add, add_mul]
    rw [hP, mul_assoc, opP_sq, ← mul_assoc (opP false s), hP, mul_assoc, mul_assoc, e, ← mul_assoc (opP false s), opP_mul s (by decide)]
    simp
  · simp only [clear, if_true, mul_add, add_mul]
    rw [hP, mul_assoc, opP_mul s (by decide), ← mul_assoc (opP true s), hP, mul_assoc, mul_assoc, e, ← mul_assoc (opP true s), opP_sq]
    rw [mul_zero, zero_add]
    rw [← e, ← mul_assoc]
    congr 1
    exact (Commute.proj hx.symm true).symm

end Qtc
