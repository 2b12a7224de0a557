import Mathlib.Algebra.BigOperators.Finprod
import Verif.Proof.WeakErrors
/-!
Inner products of states and adjoint operators.
-/
namespace Qtc
open Spec Function

variable {φ ψ χ : Psi}

noncomputable def dot (φ ψ : Psi) : ℂ := ∑ᶠ c, (starRingEnd ℂ) (φ c) * ψ c

theorem dot_left (h : Bounded φ) : (Function.support fun c => (starRingEnd ℂ) (φ c) * ψ c).Finite :=
  h.subset fun c hc hz => hc (by simp [hz])

theorem dot_right (h : Bounded ψ) : (Function.support fun c => (starRingEnd ℂ) (φ c) * ψ c).Finite :=
  h.subset fun c hc hz => hc (by simp [hz])

theorem dot_add_left (h : Bounded ψ) : dot (φ + χ) ψ = dot φ ψ + dot χ ψ := by
  unfold dot
  rw [← finsum_add_distrib (dot_right h) (dot_right h)]
  exact finsum_congr fun c => by rw [Pi.add_apply, map_add, add_mul]

theorem dot_add_right (h : Bounded φ) : dot φ (ψ + χ) = dot φ ψ + dot φ χ := by
  unfold dot
  rw [← finsum_add_distrib (dot_left h) (dot_left h)]
  exact finsum_congr fun c => by rw [Pi.add_apply, mul_add]

theorem dot_smul_right (a : ℂ) : dot φ (a • ψ) = a * dot φ ψ := by
  unfold dot
  rw [← smul_eq_mul a, smul_finsum]
  exact finsum_congr fun c => by rw [Pi.smul_apply, smul_eq_mul, smul_eq_mul]; ring

theorem dot_smul_left (a : ℂ) : dot ((starRingEnd ℂ) a • φ) ψ = a * dot φ ψ := by
  unfold dot
  rw [← smul_eq_mul a, smul_finsum]
  exact finsum_congr fun c => by rw [Pi.smul_apply, smul_eq_mul, smul_eq_mul, map_mul, Complex.conj_conj]; ring

theorem norm2_dot (h : Bounded ψ) : ((norm2 ψ : ℝ) : ℂ) = dot ψ ψ := by
  unfold norm2 dot
  have hf : (Function.support fun c => Complex.normSq (ψ c)).Finite := h.subset fun c hc hz => hc (by simp [hz])
  have := AddMonoidHom.map_finsum (Complex.ofRealHom : ℝ →+ ℂ) hf
  refine this.trans (finsum_congr fun c => ?_)
  exact Complex.normSq_eq_conj_mul_self

/-- `B` is the adjoint of `A`. -/
structure Adj (A B : Op) : Prop where
  left : ∀ ψ, Bounded ψ → Bounded (A ψ)
  right : ∀ ψ, Bounded ψ → Bounded (B ψ)
  swap : ∀ φ ψ, Bounded φ → Bounded ψ → dot (A φ) ψ = dot φ (B ψ)

theorem adj_Z (x : Qubit) : Adj (opZ x) (opZ x) where
  left := (keeping_Z x).bounded
  right := (keeping_Z x).bounded
  swap φ ψ _ _ := finsum_congr fun c => by
    rw [opZ_apply, opZ_apply, map_mul]
    cases c x <;> simp [sg]

theorem adj_X (x : Qubit) : Adj (opX x) (opX x) where
  left := (keeping_X x).bounded
  right := (keeping_X x).bounded
  swap φ ψ _ _ := by
    have hi : Function.Involutive fun c : Config => update c x (!c x) := fun c => by
      simp only [update_self, update_idem, Bool.not_not, update_eq_self]
    have := finsum_comp_equiv (hi.toPerm _) (f := fun c => (starRingEnd ℂ) (φ c) * (opX x ψ) c)
    unfold dot
    rw [← this]
    refine finsum_congr fun c => ?_
    rw [Function.Involutive.coe_toPerm, opX_apply, opX_apply]
    simp only [update_self, update_idem, Bool.not_not, update_eq_self]

theorem Adj.mul {A B A' B' : Op} (h : Adj A B) (h' : Adj A' B') : Adj (A * A') (B' * B) where
  left ψ hψ := h.left _ (h'.left ψ hψ)
  right ψ hψ := h'.right _ (h.right ψ hψ)
  swap φ ψ hφ hψ := by
    rw [Module.End.mul_apply, Module.End.mul_apply, h.swap _ _ (h'.left φ hφ) hψ, h'.swap _ _ hφ (h.right ψ hψ)]

theorem Adj.add {A B A' B' : Op} (h : Adj A B) (h' : Adj A' B') : Adj (A + A') (B + B') where
  left ψ hψ := (h.left ψ hψ).add (h'.left ψ hψ)
  right ψ hψ := (h.right ψ hψ).add (h'.right ψ hψ)
  swap φ ψ hφ hψ := by
    rw [LinearMap.add_apply, LinearMap.add_apply, dot_add_left hψ, dot_add_right hφ, h.swap _ _ hφ hψ, h'.swap _ _ hφ hψ]

theorem adj_one : Adj 1 1 := ⟨fun _ h => h, fun _ h => h, fun _ _ _ _ => rfl⟩

theorem Adj.smul {A B : Op} (h : Adj A B) (a : ℂ) : Adj ((starRingEnd ℂ) a • A) (a • B) where
  left ψ hψ := (h.left ψ hψ).smul _
  right ψ hψ := (h.right ψ hψ).smul _
  swap φ ψ hφ hψ := by
    rw [LinearMap.smul_apply, LinearMap.smul_apply, dot_smul_left, dot_smul_right, h.swap _ _ hφ hψ]

theorem Adj.proj {A : Op} (h : Adj A A) (v : Bool) : Adj (projOf A v) (projOf A v) := by
  have h1 := (adj_one.add (h.smul (sg v))).smul (1 / 2)
  have e1 : (starRingEnd ℂ) (sg v) = sg v := by cases v <;> simp [sg]
  have e2 : (starRingEnd ℂ) (1 / 2 : ℂ) = 1 / 2 := by rw [map_div₀, map_one, Complex.conj_ofNat]
  rw [e1, e2] at h1
  exact h1

theorem Adj.joint : ∀ (l : List Op) (m : Nat → Bool), (∀ A ∈ l, ∀ B ∈ l, Commute A B) → (∀ A ∈ l, Adj A A) → Adj (jointProj l m) (jointProj l m)
  | [], _, _, _ => adj_one
  | A :: l, m, hc, h => by
    have ih := Adj.joint l (fun k => m (k + 1)) (fun A hA B hB => hc A (by simp [hA]) B (by simp [hB])) fun A hA => h A (by simp [hA])
    have h1 := ((h A (by simp)).proj (m 0)).mul ih
    have h2 : Commute (projOf A (m 0)) (jointProj l fun k => m (k + 1)) :=
      jointProj_comm (fun B hB => (Commute.proj (hc B (by simp [hB]) A (by simp)) _).symm) _
    rw [← h2.eq] at h1
    exact h1

theorem Adj.prod : ∀ (l : List Op), (∀ A ∈ l, ∀ B ∈ l, Commute A B) → (∀ A ∈ l, Adj A A) → Adj l.prod l.prod
  | [], _, _ => adj_one
  | A :: l, hc, h => by
    have ih := Adj.prod l (fun A hA B hB => hc A (by simp [hA]) B (by simp [hB])) fun A hA => h A (by simp [hA])
    have h1 := (h A (by simp)).mul ih
    have h2 : Commute A l.prod := Commute.list_prod_right _ _ fun B hB => hc A (by simp) B (by simp [hB])
    rw [← h2.eq] at h1
    rw [List.prod_cons]
    exact h1

/-- The adjoint of an operator on some qubits is one on the same qubits. -/
theorem onQubits_adj {xs : List Qubit} {A : Op} (hA : OnQubits xs A) : ∃ B, OnQubits xs B ∧ Adj A B := by
  refine Algebra.adjoin_induction (p := fun A _ => ∃ B, OnQubits xs B ∧ Adj A B) ?_ ?_ ?_ ?_ hA
  · rintro B ⟨x, hx, hB⟩
    refine ⟨B, Algebra.subset_adjoin ⟨x, hx, hB⟩, ?_⟩
    rcases hB with rfl | rfl
    · exact adj_X x
    · exact adj_Z x
  · intro c
    refine ⟨(starRingEnd ℂ) c • 1, Subalgebra.smul_mem _ (Subalgebra.one_mem _) _, ?_⟩
    have := adj_one.smul ((starRingEnd ℂ) c)
    rw [Complex.conj_conj] at this
    rw [Algebra.algebraMap_eq_smul_one]
    exact this
  · rintro A A' _ _ ⟨B, hB, h⟩ ⟨B', hB', h'⟩
    exact ⟨B + B', Subalgebra.add_mem _ hB hB', h.add h'⟩
  · rintro A A' _ _ ⟨B, hB, h⟩ ⟨B', hB', h'⟩
    exact ⟨B' * B, Subalgebra.mul_mem _ hB' hB, h.mul h'⟩

end Qtc
