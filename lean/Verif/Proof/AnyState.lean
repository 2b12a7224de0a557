import Verif.Proof.AnyError
/-!
Helpers for C125: executions with arbitrary operators as operators.
-/
namespace Qtc
open Spec Function

variable {sz : Str → Nat}

theorem kraus_gatesOf (e : Slip) {l : List Instr} {m m' : Mem} {C : Op} (h : Kraus sz l m C m') : Kraus sz (e.gates ++ l) m (C * kick e) m' := by
  obtain ⟨k, q, x, z⟩ := e
  cases x <;> cases z
  · simpa [Slip.gates, kick] using h
  · exact ⟨_, _, _, ⟨rfl, rfl⟩, h, by simp [kick, gate1Op]⟩
  · exact ⟨_, _, _, ⟨rfl, rfl⟩, h, by simp [kick, gate1Op]⟩
  · exact ⟨_, _, _, ⟨rfl, rfl⟩, ⟨_, _, _, ⟨rfl, rfl⟩, h, rfl⟩, by simp [kick, gate1Op, mul_assoc]⟩

theorem kraus_kicks (p : List Slip) {l : List Instr} {m m' : Mem} {C : Op} (h : Kraus sz l m C m') :
    Kraus sz (p.flatMap Slip.gates ++ l) m (C * kicks p) m' := by
  induction p with
  | nil => simpa [kicks] using h
  | cons e p ih =>
    rw [List.flatMap_cons, List.append_assoc]
    show Kraus sz _ m (C * (kicks p * kick e)) m'
    rw [← mul_assoc]
    exact kraus_gatesOf e ih

theorem step_kraus {i : Instr} {ψ : Psi} {m : Mem} {t : QState} (h : Spec.Step sz i ⟨ψ, m⟩ t) :
    ∃ A : Op, Kraus1 sz i m A t.mem ∧ t.psi = A ψ ∧ ∀ φ : Psi, A φ ≠ 0 → Spec.Step sz i ⟨φ, m⟩ ⟨A φ, t.mem⟩ := by
  cases h with
  | gate1 g q => exact ⟨_, ⟨rfl, rfl⟩, rfl, fun φ _ => .gate1 g q ⟨φ, m⟩⟩
  | taken g q r v _ h => exact ⟨_, ⟨(if_pos h).symm, rfl⟩, rfl, fun φ _ => .taken g q r v ⟨φ, m⟩ h⟩
  | skipped g q r v _ h => exact ⟨1, ⟨(if_neg h).symm, rfl⟩, rfl, fun φ _ => .skipped g q r v ⟨φ, m⟩ h⟩
  | gate2 g a b => exact ⟨_, ⟨rfl, rfl⟩, rfl, fun φ _ => .gate2 g a b ⟨φ, m⟩⟩
  | measure q b v _ h => exact ⟨_, ⟨v, rfl, rfl⟩, rfl, fun φ h => .measure q b v ⟨φ, m⟩ h⟩
  | reset q v _ h =>
    exact ⟨clear v q * opP v q, ⟨⟨v, rfl⟩, rfl⟩, rfl, fun φ h => .reset q v ⟨φ, m⟩ fun h' => h (by
      show clear v q (opP v q φ) = 0
      rw [show opP v q φ = 0 from h', map_zero])⟩
  | barrier => exact ⟨1, ⟨rfl, rfl⟩, rfl, fun φ _ => .barrier ⟨φ, m⟩⟩

theorem span_mul {S T U : Set Op} {A B : Op} (hA : A ∈ Submodule.span ℂ S) (hB : B ∈ Submodule.span ℂ T)
    (h : ∀ A ∈ S, ∀ B ∈ T, A * B ∈ U) : A * B ∈ Submodule.span ℂ U := by
  induction hA using Submodule.span_induction with
  | mem A hA =>
    induction hB using Submodule.span_induction with
    | mem B hB => exact Submodule.subset_span (h A hA B hB)
    | zero => rw [mul_zero]; exact Submodule.zero_mem _
    | add _ _ _ _ h h' => rw [mul_add]; exact Submodule.add_mem _ h h'
    | smul c _ _ h => rw [mul_smul_comm]; exact Submodule.smul_mem _ c h
  | zero => rw [zero_mul]; exact Submodule.zero_mem _
  | add _ _ _ _ h h' => rw [add_mul]; exact Submodule.add_mem _ h h'
  | smul c _ _ h => rw [smul_mul_assoc]; exact Submodule.smul_mem _ c h

/-- The operators of the circuits with Pauli errors in place of the operators. -/
def picked (sz : Str → Nat) (L : List (Instr ⊕ Blow)) (m m' : Mem) : Set Op := {K | ∃ l', Pick L l' ∧ Kraus sz l' m K m'}

/-- An execution with arbitrary operators applies a combination of the operators of executions with Pauli errors that have the same results. -/
theorem happens_kraus {L : List (Instr ⊕ Blow)} (hL : ∀ b, .inr b ∈ L → OnQubits b.qubits b.op) {ψ : Psi} {m : Mem} {s' : QState}
    (h : Happens sz (L.map eventOf) ⟨ψ, m⟩ s') :
    ∃ K : Op, s'.psi = K ψ ∧ Effects sz (L.map eventOf) m s'.mem K ∧ K ∈ Submodule.span ℂ (picked sz L m s'.mem) := by
  induction L generalizing ψ m with
  | nil =>
    obtain rfl : s' = ⟨ψ, m⟩ := h
    exact ⟨1, rfl, fun φ _ => rfl, Submodule.subset_span ⟨[], rfl, rfl, rfl⟩⟩
  | cons a L ih =>
    have hL' : ∀ b, .inr b ∈ L → OnQubits b.qubits b.op := fun b hb => hL b (List.mem_cons_of_mem _ hb)
    cases a with
    | inl i =>
      obtain ⟨t, h1, h2⟩ := h
      obtain ⟨A, hA, e, hstep⟩ := step_kraus h1
      obtain ⟨ξ, μ⟩ := t
      obtain rfl : ξ = A ψ := e
      obtain ⟨K, k1, k2, k3⟩ := ih hL' h2
      refine ⟨K * A, k1, fun φ hφ => ?_, ?_⟩
      · exact ⟨⟨A φ, μ⟩, hstep φ fun hz => hφ (by rw [Module.End.mul_apply, hz, map_zero]), k2 (A φ) hφ⟩
      · refine span_mul k3 (Submodule.subset_span (Set.mem_singleton A)) ?_
        rintro K ⟨l', p1, p2⟩ _ rfl
        exact ⟨i :: l', ⟨l', rfl, p1⟩, _, μ, K, hA, p2, rfl⟩
    | inr b =>
      have hb := onQubits_span (hL b List.mem_cons_self) b.pos
      have h2 : Happens sz (L.map eventOf) ⟨b.op ψ, m⟩ s' := h
      obtain ⟨K, k1, k2, k3⟩ := ih hL' h2
      refine ⟨K * b.op, k1, fun φ hφ => k2 (b.op φ) hφ, ?_⟩
      refine span_mul k3 hb ?_
      rintro K ⟨l', p1, p2⟩ _ ⟨p, hp1, hp2, rfl⟩
      exact ⟨p.flatMap Slip.gates ++ l', ⟨p, hp1, hp2, l', rfl, p1⟩, kraus_kicks p p2⟩

end Qtc
