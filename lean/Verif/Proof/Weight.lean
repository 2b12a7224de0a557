import Verif.Spec.Chance
import Verif.Proof.QRun
/-!
The norm of states: gates keep it, measurements split it.
-/
namespace Qtc
open Spec Function

variable {ψ φ : Psi} {q : Qubit}

theorem Spec.Bounded.normSq (h : Bounded ψ) : (Function.support fun c => Complex.normSq (ψ c)).Finite :=
  h.subset fun c hc hz => hc (by simp [hz])

theorem Spec.Bounded.add (h : Bounded ψ) (h' : Bounded φ) : Bounded (ψ + φ) := (Set.Finite.union h h').subset (Function.support_add ψ φ)

theorem Spec.Bounded.smul (h : Bounded ψ) (a : ℂ) : Bounded (a • ψ) := h.subset fun c hc hz => hc (by simp [hz])

theorem Spec.Bounded.neg (h : Bounded ψ) : Bounded (-ψ) := h.subset fun c hc hz => hc (by simp [hz])

theorem Spec.Bounded.sub (h : Bounded ψ) (h' : Bounded φ) : Bounded (ψ - φ) := by rw [sub_eq_add_neg]; exact h.add h'.neg

theorem Spec.Bounded.zero : Bounded 0 := by unfold Bounded; simp

theorem norm2_nonneg (ψ : Psi) : 0 ≤ norm2 ψ := finsum_nonneg fun _ => Complex.normSq_nonneg _

theorem norm2_zero : norm2 0 = 0 := by unfold norm2; simp

theorem norm2_pos (h : Bounded ψ) (h0 : ψ ≠ 0) : 0 < norm2 ψ := by
  obtain ⟨c, hc⟩ := Function.ne_iff.1 h0
  unfold norm2
  exact finsum_pos (fun c => Complex.normSq_nonneg _) ⟨c, Complex.normSq_pos.2 hc⟩ h.normSq

theorem norm2_smul (a : ℂ) (ψ : Psi) : norm2 (a • ψ) = Complex.normSq a * norm2 ψ := by
  unfold norm2
  rw [mul_finsum]
  exact finsum_congr fun c => by rw [Pi.smul_apply, smul_eq_mul, Complex.normSq_mul]

theorem norm2_neg (ψ : Psi) : norm2 (-ψ) = norm2 ψ := by
  unfold norm2
  exact finsum_congr fun c => by rw [Pi.neg_apply, Complex.normSq_neg]

/-- The parallelogram law. -/
theorem norm2_parallel (h : Bounded ψ) (h' : Bounded φ) : norm2 (ψ + φ) + norm2 (ψ - φ) = 2 * norm2 ψ + 2 * norm2 φ := by
  unfold norm2
  rw [← finsum_add_distrib (h.add h').normSq (h.sub h').normSq, mul_finsum, mul_finsum, ← finsum_add_distrib]
  · refine finsum_congr fun c => ?_
    simp only [Pi.add_apply, Pi.sub_apply, Complex.normSq_apply, Complex.add_re, Complex.add_im, Complex.sub_re, Complex.sub_im]
    ring
  · exact h.normSq.subset fun c hc hz => hc (by simp only [hz, mul_zero])
  · exact h'.normSq.subset fun c hc hz => hc (by simp only [hz, mul_zero])

/-- Operators that keep the norm. -/
structure Keeping (A : Op) : Prop where
  bounded : ∀ ψ, Bounded ψ → Bounded (A ψ)
  norm2 : ∀ ψ, Bounded ψ → norm2 (A ψ) = norm2 ψ

theorem Keeping.one : Keeping 1 := ⟨fun _ h => h, fun _ _ => rfl⟩

theorem Keeping.mul {A B : Op} (hA : Keeping A) (hB : Keeping B) : Keeping (A * B) :=
  ⟨fun ψ h => hA.bounded _ (hB.bounded ψ h), fun ψ h => (hA.norm2 _ (hB.bounded ψ h)).trans (hB.norm2 ψ h)⟩

/-- Flipping a qubit, as a bijection of the assignments. -/
def flipQ (q : Qubit) : Config ≃ Config where
  toFun c := update c q (!c q)
  invFun c := update c q (!c q)
  left_inv c := by simp
  right_inv c := by simp

theorem keeping_X (q : Qubit) : Keeping (opX q) := by
  refine ⟨fun ψ h => ?_, fun ψ _ => ?_⟩
  · have : Function.support (opX q ψ) = flipQ q ⁻¹' Function.support ψ := rfl
    unfold Bounded
    rw [this]
    exact Set.Finite.preimage (flipQ q).injective.injOn h
  · exact finsum_comp_equiv (f := fun c => Complex.normSq (ψ c)) (flipQ q)

theorem normSq_sg (b : Bool) : Complex.normSq (sg b) = 1 := by cases b <;> simp [sg]

theorem keeping_Z (q : Qubit) : Keeping (opZ q) := by
  refine ⟨fun ψ h => h.subset fun c hc hz => hc (by simp [hz]), fun ψ _ => finsum_congr fun c => ?_⟩
  rw [opZ_apply, Complex.normSq_mul, normSq_sg, one_mul]

theorem keeping_letter (x : Letter) (q : Qubit) : Keeping (x.op q) := by
  cases x
  · exact keeping_X q
  · exact keeping_Z q

theorem keeping_pstr (l : List (Letter × Qubit)) : Keeping (pstr l) := by
  unfold pstr
  induction l with
  | nil => exact Keeping.one
  | cons a l ih => rw [List.map_cons, List.prod_cons]; exact (keeping_letter _ _).mul ih

theorem bounded_proj {A : Op} (hA : Keeping A) (h : Bounded ψ) (v : Bool) : Bounded (projOf A v ψ) := by
  have e : projOf A v ψ = (1 / 2 : ℂ) • (ψ + sg v • A ψ) := rfl
  rw [e]
  exact (h.add ((hA.bounded ψ h).smul _)).smul _

/-- A measurement splits the norm. -/
theorem norm2_split {A : Op} (hA : Keeping A) (h : Bounded ψ) : norm2 (projOf A false ψ) + norm2 (projOf A true ψ) = norm2 ψ := by
  have e : ∀ v, projOf A v ψ = (1 / 2 : ℂ) • (ψ + sg v • A ψ) := fun v => rfl
  rw [e, e, norm2_smul, norm2_smul, ← mul_add]
  have h1 := norm2_parallel h (hA.bounded ψ h)
  rw [hA.norm2 ψ h] at h1
  have h2 : sg false • A ψ = A ψ := by simp [sg]
  have h3 : ψ + sg true • A ψ = ψ - A ψ := by simp [sg, sub_eq_add_neg]
  rw [h2, h3, h1]
  have h4 : Complex.normSq (1 / 2 : ℂ) = 1 / 4 := by
    rw [show (1 / 2 : ℂ) = ((1 / 2 : ℝ) : ℂ) by push_cast; rfl, Complex.normSq_ofReal]
    norm_num
  rw [h4]
  ring

theorem bounded_P (h : Bounded ψ) (v : Bool) (q : Qubit) : Bounded (opP v q ψ) := by
  rw [opP_projOf]
  exact bounded_proj (keeping_Z q) h v

theorem norm2_splitP (h : Bounded ψ) (q : Qubit) : norm2 (opP false q ψ) + norm2 (opP true q ψ) = norm2 ψ := by
  rw [opP_projOf, opP_projOf]
  exact norm2_split (keeping_Z q) h

theorem keeping_clear (v : Bool) (q : Qubit) : Keeping (clear v q) := by
  unfold clear
  split
  · exact keeping_X q
  · exact Keeping.one

theorem keeping_H (q : Qubit) : Keeping (opH q) := by
  have hb : ∀ ψ, Bounded ψ → Bounded (opH q ψ) := by
    intro ψ h
    rw [opH_eq]
    exact (((keeping_X q).bounded ψ h).add ((keeping_Z q).bounded ψ h)).smul _
  refine ⟨hb, fun ψ h => ?_⟩
  have hX := (keeping_X q).bounded ψ h
  have hZ := (keeping_Z q).bounded ψ h
  have e1 : opX q (opX q ψ + opZ q ψ) = -(opZ q (opX q ψ - opZ q ψ)) := by
    have a1 : opX q (opX q ψ) = ψ := congrArg (fun A : Op => A ψ) (opX_sq q)
    have a2 : opZ q (opZ q ψ) = ψ := congrArg (fun A : Op => A ψ) (opZ_sq q)
    have a3 : opX q (opZ q ψ) = -(opZ q (opX q ψ)) := congrArg (fun A : Op => A ψ) (opX_opZ_anti q)
    rw [map_add, map_sub, a1, a2, a3]
    abel
  have e2 : norm2 (opX q ψ + opZ q ψ) = norm2 (opX q ψ - opZ q ψ) := by
    rw [← (keeping_X q).norm2 _ (hX.add hZ), e1, norm2_neg, (keeping_Z q).norm2 _ (hX.sub hZ)]
  have e3 := norm2_parallel hX hZ
  rw [← e2, (keeping_X q).norm2 ψ h, (keeping_Z q).norm2 ψ h] at e3
  have e4 : opH q ψ = hc • (opX q ψ + opZ q ψ) := by rw [opH_eq]; rfl
  have e5 : Complex.normSq hc = 1 / 2 := by
    have h1 : Complex.normSq hc * Complex.normSq hc = (1 / 2) * (1 / 2) := by
      rw [← Complex.normSq_mul, hc_sq, show (1 / 2 : ℂ) = ((1 / 2 : ℝ) : ℂ) by push_cast; rfl, Complex.normSq_ofReal]
    nlinarith [Complex.normSq_nonneg hc]
  rw [e4, norm2_smul, e5]
  linarith

/-- A gate on `b` controlled by `a`. -/
theorem keeping_controlled {a : Qubit} {B : Op} (hB : Keeping B) (hc : Commute B (opZ a)) : Keeping (opP false a + opP true a * B) := by
  have hb : ∀ ψ, Bounded ψ → Bounded ((opP false a + opP true a * B) ψ) := fun ψ h =>
    (bounded_P h _ _).add (bounded_P (hB.bounded ψ h) _ _)
  refine ⟨hb, fun ψ h => ?_⟩
  rw [← norm2_splitP (hb ψ h) a, ← norm2_splitP h a]
  have h1 : opP false a * (opP false a + opP true a * B) = opP false a := by
    rw [mul_add, opP_sq, ← mul_assoc, opP_mul a (by decide), zero_mul, add_zero]
  have h2 : opP true a * (opP false a + opP true a * B) = B * opP true a := by
    rw [mul_add, opP_mul a (by decide), zero_add, ← mul_assoc, opP_sq, (Commute.opP hc true).eq]
  have h1' : opP false a ((opP false a + opP true a * B) ψ) = opP false a ψ := congrArg (fun A : Op => A ψ) h1
  have h2' : opP true a ((opP false a + opP true a * B) ψ) = B (opP true a ψ) := congrArg (fun A : Op => A ψ) h2
  rw [h1', h2', hB.norm2 _ (bounded_P h _ _)]

theorem keeping_gate1 (g : G1) (q : Qubit) : Keeping (gate1Op g q) := by
  cases g
  · exact keeping_X q
  · exact keeping_Z q
  · exact keeping_H q
  · exact Keeping.one

theorem keeping_gate2 (g : G2) {a b : Qubit} (h : a ≠ b) : Keeping (gate2Op g a b) := by
  cases g
  · show Keeping (opCX a b)
    rw [opCX_eq]
    exact keeping_controlled (keeping_X b) (opX_opZ_comm (Ne.symm h))
  · show Keeping (opCZ a b)
    rw [opCZ_eq]
    exact keeping_controlled (keeping_Z b) (opZ_comm _ _)

end Qtc
