import Verif.Proof.WeakErrors
import Verif.Spec.Environment
/-!
Helpers for C127: what happens to the environment does not show in the circuit.
-/
namespace Qtc
open Spec Function

variable {sz : Str → Nat} {c : Circ}

/-- Operators that leave the qubits of a circuit alone. -/
def OutsideOps (c : Circ) : Set Op := {C | ∀ x, HasQubit c x → Commute C (opX x) ∧ Commute C (opZ x)}

theorem OutsideOps.one : (1 : Op) ∈ OutsideOps c := fun _ _ => ⟨Commute.one_left _, Commute.one_left _⟩

theorem OutsideOps.mul {A B : Op} (hA : A ∈ OutsideOps c) (hB : B ∈ OutsideOps c) : A * B ∈ OutsideOps c := fun x hx =>
  ⟨(hA x hx).1.mul_left (hB x hx).1, (hA x hx).2.mul_left (hB x hx).2⟩

theorem apart_kick {e : Slip} (he : ¬HasQubit c e.qubit) : kick e ∈ OutsideOps c := by
  intro x hx
  have hne : e.qubit ≠ x := fun h => he (h ▸ hx)
  exact ⟨kick_comm e hne (Or.inl rfl), kick_comm e hne (Or.inr rfl)⟩

theorem apart_kicks {p : List Slip} (hp : ∀ e ∈ p, ¬HasQubit c e.qubit) : kicks p ∈ OutsideOps c := by
  induction p with
  | nil => exact OutsideOps.one
  | cons e p ih => exact OutsideOps.mul (ih fun f hf => hp f (List.mem_cons_of_mem _ hf)) (apart_kick (hp e List.mem_cons_self))

theorem kicks_append (a b : List Slip) : kicks (a ++ b) = kicks b * kicks a := by
  induction a with
  | nil => exact (mul_one _).symm
  | cons e a ih =>
    show kicks (a ++ b) * kick e = kicks b * (kicks a * kick e)
    rw [ih, mul_assoc]

theorem kick_apart {e : Slip} (he : HasQubit c e.qubit) {C : Op} (hC : C ∈ OutsideOps c) : Commute C (kick e) := by
  unfold kick
  refine Commute.mul_right ?_ ?_
  · split
    · exact (hC _ he).2
    · exact Commute.one_right _
  · split
    · exact (hC _ he).1
    · exact Commute.one_right _

theorem kicks_apart {p : List Slip} (hp : ∀ e ∈ p, HasQubit c e.qubit) {C : Op} (hC : C ∈ OutsideOps c) : Commute C (kicks p) := by
  induction p with
  | nil => exact Commute.one_right _
  | cons e p ih => exact Commute.mul_right (ih fun f hf => hp f (List.mem_cons_of_mem _ hf)) (kick_apart (hp e List.mem_cons_self) hC)

/-- An operator on qubits and an environment is a combination of Pauli errors after something happened to the environment. -/
theorem withEnv_span {xs : List Qubit} {A : Op} (hA : WithEnv c xs A) (k : Nat) :
    A ∈ Submodule.span ℂ {B | ∃ K ∈ kickSet k xs, ∃ C ∈ OutsideOps c, B = K * C} := by
  obtain ⟨hxs, es, hes, h⟩ := hA
  refine Submodule.span_mono ?_ (onQubits_span h k)
  rintro _ ⟨p, hp1, hp2, rfl⟩
  have h1 : (p.take xs.length).map Slip.qubit = xs := by rw [List.map_take, hp1, List.take_left]
  have h2 : (p.drop xs.length).map Slip.qubit = es := by rw [List.map_drop, hp1, List.drop_left]
  have hC : kicks (p.drop xs.length) ∈ OutsideOps c := apart_kicks fun e he => hes _ (h2 ▸ List.mem_map_of_mem he)
  refine ⟨kicks (p.take xs.length), ⟨_, h1, fun e he => hp2 e (List.mem_of_mem_take he), rfl⟩, _, hC, ?_⟩
  have hc := kicks_apart (p := p.take xs.length) (fun e he => hxs _ (h1 ▸ List.mem_map_of_mem he)) hC
  conv_lhs => rw [← List.take_append_drop xs.length p, kicks_append]
  exact hc.eq

/-- Instructions on qubits of a circuit act linearly, and leave alone what is not in it. -/
theorem step_apart {i : Instr} (hi : ∀ x ∈ i.qargs, HasQubit c x) {ψ : Psi} {m : Mem} {t : QState} (h : Spec.Step sz i ⟨ψ, m⟩ t) :
    ∃ A : Op, t.psi = A ψ ∧ (∀ C ∈ OutsideOps c, Commute C A) ∧ ∀ φ : Psi, A φ ≠ 0 → Spec.Step sz i ⟨φ, m⟩ ⟨A φ, t.mem⟩ := by
  have g1 : ∀ (g : G1) (q : Qubit), HasQubit c q → ∀ C ∈ OutsideOps c, Commute C (gate1Op g q) := by
    intro g q hq C hC
    cases g
    · exact (hC q hq).1
    · exact (hC q hq).2
    · exact Commute.hadamard (hC q hq).1 (hC q hq).2
    · exact Commute.one_right _
  cases h with
  | gate1 g q => exact ⟨_, rfl, g1 g q (hi q List.mem_cons_self), fun φ _ => .gate1 g q ⟨φ, m⟩⟩
  | taken g q r v _ h => exact ⟨_, rfl, g1 g q (hi q List.mem_cons_self), fun φ _ => .taken g q r v ⟨φ, m⟩ h⟩
  | skipped g q r v _ h => exact ⟨1, rfl, fun C _ => Commute.one_right _, fun φ _ => .skipped g q r v ⟨φ, m⟩ h⟩
  | gate2 g a b =>
    have ha := hi a List.mem_cons_self
    have hb := hi b (List.mem_cons_of_mem _ List.mem_cons_self)
    refine ⟨_, rfl, fun C hC => ?_, fun φ _ => .gate2 g a b ⟨φ, m⟩⟩
    cases g
    · exact (opCX_comm (hC a ha).2 (hC b hb).1).symm
    · exact (opCZ_comm (hC a ha).2 (hC b hb).2).symm
  | measure q b v _ h =>
    exact ⟨_, rfl, fun C hC => Commute.opP (hC q (hi q List.mem_cons_self)).2 v, fun φ h => .measure q b v ⟨φ, m⟩ h⟩
  | reset q v _ h =>
    have hq := hi q List.mem_cons_self
    exact ⟨clear v q * opP v q, rfl, fun C hC => Commute.mul_right (clear_comm (hC q hq).1 v) (Commute.opP (hC q hq).2 v),
      fun φ h => .reset q v ⟨φ, m⟩ fun h' => h (by
        show clear v q (opP v q φ) = 0
        rw [show opP v q φ = 0 from h', map_zero])⟩
  | barrier => exact ⟨1, rfl, fun C _ => Commute.one_right _, fun φ _ => .barrier ⟨φ, m⟩⟩

/-- As `happens_pick`, with an environment: the superposed states may be changed by what leaves the circuit alone. -/
theorem happens_apart {L : List (Instr ⊕ Blow)} (hi : ∀ i, .inl i ∈ L → ∀ x ∈ i.qargs, HasQubit c x) (hL : ∀ b, .inr b ∈ L → WithEnv c b.qubits b.op)
    {S : Set Psi} (hS : ∀ C ∈ OutsideOps c, ∀ φ ∈ S, C φ ∈ S) {ψ : Psi} {m : Mem} {s' : QState}
    (hψ : ψ ∈ Submodule.span ℂ S) (h : Happens sz (L.map eventOf) ⟨ψ, m⟩ s') (h0 : s'.psi ≠ 0) :
    ∃ φ ∈ S, ∃ l', Pick L l' ∧ ∃ t', Run sz l' ⟨φ, m⟩ t' ∧ t'.mem = s'.mem ∧ t'.psi ≠ 0 := by
  induction L generalizing S ψ m with
  | nil =>
    obtain rfl : s' = ⟨ψ, m⟩ := h
    by_contra hn
    refine h0 ?_
    have : Submodule.span ℂ S = ⊥ := by
      rw [Submodule.span_eq_bot]
      intro φ hφ
      by_contra hne
      exact hn ⟨φ, hφ, [], rfl, ⟨φ, m⟩, rfl, rfl, hne⟩
    rw [this] at hψ
    exact (Submodule.mem_bot ℂ).1 hψ
  | cons a L ih =>
    have hL' : ∀ b, .inr b ∈ L → WithEnv c b.qubits b.op := fun b hb => hL b (List.mem_cons_of_mem _ hb)
    have hi' : ∀ i, .inl i ∈ L → ∀ x ∈ i.qargs, HasQubit c x := fun i hj => hi i (List.mem_cons_of_mem _ hj)
    cases a with
    | inl i =>
      obtain ⟨t, h1, h2⟩ := h
      obtain ⟨A, hA, hcomm, hstep⟩ := step_apart (hi i List.mem_cons_self) h1
      obtain ⟨ξ, μ⟩ := t
      obtain rfl : ξ = A ψ := hA
      have hψ' : A ψ ∈ Submodule.span ℂ (A '' S) := by
        rw [← Submodule.map_span]
        exact Submodule.mem_map_of_mem hψ
      obtain ⟨-, ⟨φ, hφ, rfl⟩, l', hp, t', r1, r2, r3⟩ := ih hi' hL' (S := A '' S) (by
        rintro C hC _ ⟨φ, hφ, rfl⟩
        exact ⟨C φ, hS C hC φ hφ, (congrArg (fun B : Op => B φ) (hcomm C hC).eq).symm⟩) hψ' h2
      have hne : A φ ≠ 0 := fun hz => r3 (run_zero r1 hz)
      exact ⟨φ, hφ, i :: l', ⟨l', rfl, hp⟩, t', ⟨_, hstep φ hne, r1⟩, r2, r3⟩
    | inr b =>
      have hb := withEnv_span (hL b List.mem_cons_self) b.pos
      have hxs := (hL b List.mem_cons_self).1
      have h2 : Happens sz (L.map eventOf) ⟨b.op ψ, m⟩ s' := h
      let S' : Set Psi := {χ | ∃ A ∈ kickSet b.pos b.qubits, ∃ φ ∈ S, χ = A φ}
      have hψ' : b.op ψ ∈ Submodule.span ℂ S' := by
        generalize b.op = B at hb
        induction hb using Submodule.span_induction with
        | mem A hA =>
          obtain ⟨K, hK, C, hC, rfl⟩ := hA
          have : (K * C) ψ ∈ Submodule.span ℂ ((K * C) '' S) := by
            rw [← Submodule.map_span]
            exact Submodule.mem_map_of_mem hψ
          refine Submodule.span_mono ?_ this
          rintro _ ⟨φ, hφ, rfl⟩
          exact ⟨K, hK, C φ, hS C hC φ hφ, rfl⟩
        | zero => exact Submodule.zero_mem _
        | add _ _ _ _ h h' => exact Submodule.add_mem _ h h'
        | smul c _ _ h => exact Submodule.smul_mem _ c h
      obtain ⟨-, ⟨-, ⟨p, hp1, hp2, rfl⟩, φ, hφ, rfl⟩, l', hp, t', r1, r2, r3⟩ := ih hi' hL' (S := S') (by
        rintro C hC _ ⟨_, ⟨p, hp1, hp2, rfl⟩, φ, hφ, rfl⟩
        have := kicks_apart (p := p) (fun e he => hxs _ (hp1 ▸ List.mem_map_of_mem he)) hC
        exact ⟨kicks p, ⟨p, hp1, hp2, rfl⟩, C φ, hS C hC φ hφ, congrArg (fun B : Op => B φ) this.eq⟩) hψ' h2
      exact ⟨φ, hφ, p.flatMap Slip.gates ++ l', ⟨p, hp1, hp2, l', rfl, hp⟩, t', (run_kicks p).2 r1, r2, r3⟩

variable {cls : QClass} {q : TQubit} {dh dw : Int} {ops : List QOp} {w : World}

theorem qargs_fits {i : Instr} (h : InstrFits c i) : ∀ x ∈ i.qargs, HasQubit c x := by
  cases i with
  | gate1 g q o => intro x hx; rw [List.mem_singleton.1 hx]; exact h
  | gate2 g a b =>
    intro x hx
    rcases List.mem_cons.1 hx with rfl | hx
    · exact h.1
    · rw [List.mem_singleton.1 hx]; exact h.2.1
  | measure q b => intro x hx; rw [List.mem_singleton.1 hx]; exact h.1
  | reset q => intro x hx; rw [List.mem_singleton.1 hx]; exact h
  | barrier => intro x hx; cases hx

theorem Spec.After.qregs (A : After cls q dh dw ops w) (o : QOp) : (q.op o w).2.circ.qregs = w.circ.qregs := by
  obtain ⟨W, O⟩ := A.own
  exact (fine o W O).steps.qregs

theorem hasQubit_congr {c c' : Circ} (h : c'.qregs = c.qregs) (x : Qubit) : HasQubit c' x ↔ HasQubit c x := by
  unfold HasQubit
  rw [h]

theorem struckByAll_inside {l : List (QOp × List Blow)} (A : After cls q dh dw ops w) :
    ∀ i, .inl i ∈ struckByAll q l w → ∀ x ∈ i.qargs, HasQubit w.circ x := by
  induction l generalizing ops w with
  | nil => exact fun i hi => absurd hi List.not_mem_nil
  | cons a l ih =>
    intro i hi x hx
    rw [← hasQubit_congr (A.qregs a.1)]
    rcases List.mem_append.1 (show .inl i ∈ struckBy a.2 0 (added q a.1 w) ++ struckByAll q l (q.op a.1 w).2 from hi) with h | h
    · refine qargs_fits ((A.next a.1).own.1.fits i ?_) x hx
      rw [A.instrs a.1]
      exact List.mem_append_right _ (struckBy_instr h)
    · exact ih (A.next a.1) i h x hx

theorem apart_synZero (A : After cls q dh dw ops w) {C : Op} (hC : C ∈ OutsideOps w.circ) {ψ : Psi} (h : SynZero q.lat.name dh dw ψ) :
    SynZero q.lat.name dh dw (C ψ) := by
  have P := A.own.2.placed
  refine ⟨fun k hk => IsZero.of_comm (h.1 k hk) (hC _ (mem_circ_qubits.1 ?_)).2, fun k hk => IsZero.of_comm (h.2 k hk) (hC _ (mem_circ_qubits.1 ?_)).2⟩
  · rw [zSites_length P.odd] at hk
    exact P.mzQ_mem (by omega) (by omega)
  · rw [xSites_length P.odd] at hk
    exact P.mxQ_mem (by omega) (by omega)

/-- Whatever a circuit with errors through an environment may give is given by the circuit with Pauli errors in the same operations, as many as
qubits of the circuit are acted on, after something happened to the environment. -/
theorem happens_outside {l : List (QOp × List Blow)} (A : After cls q dh dw ops w) (hl : ∀ a ∈ l, ∀ b ∈ a.2, WithEnv w.circ b.qubits b.op)
    {s s' : QState} (h : Happens sz (struckAll q l w) s s') (h0 : s'.psi ≠ 0) :
    ∃ L, SameShape l L ∧ ∃ C ∈ OutsideOps w.circ, C s.psi ≠ 0 ∧ ∃ t', Run sz (slippedAll q L w) ⟨C s.psi, s.mem⟩ t' ∧ t'.mem = s'.mem := by
  rw [← struckByAll_events] at h
  obtain ⟨φ, hφ, l', hp, t', r1, r2, r3⟩ := happens_apart (c := w.circ) (L := struckByAll q l w) (S := {φ | ∃ C ∈ OutsideOps w.circ, φ = C s.psi})
    (struckByAll_inside A) (fun b hb => by
      obtain ⟨a, ha, hb⟩ := struckByAll_mem hb
      exact hl a ha b hb) (by
      rintro B hB _ ⟨C, hC, rfl⟩
      exact ⟨B * C, OutsideOps.mul hB hC, rfl⟩) (Submodule.subset_span ⟨1, OutsideOps.one, rfl⟩) h h0
  obtain ⟨C, hC, rfl⟩ := hφ
  obtain ⟨L, hL, rfl⟩ := pick_all hp
  exact ⟨L, hL, C, hC, fun hz => r3 (run_zero r1 hz), t', r1, r2⟩

theorem withEnv_one : WithEnv c [] 1 := ⟨fun _ hx => (List.not_mem_nil hx).elim, [], fun _ hx => (List.not_mem_nil hx).elim, Subalgebra.one_mem _⟩

theorem withEnv_sub_one {xs : List Qubit} {A : Op} (h : WithEnv c xs A) : WithEnv c xs (A - 1) := by
  obtain ⟨h1, es, h2, h3⟩ := h
  exact ⟨h1, es, h2, Subalgebra.sub_mem _ h3 (Subalgebra.one_mem _)⟩

theorem withEnv_bounded {xs : List Qubit} {A : Op} (h : WithEnv c xs A) : ∀ ψ, Bounded ψ → Bounded (A ψ) := by
  obtain ⟨-, es, -, h3⟩ := h
  exact onQubits_bounded h3

theorem Like.env {l l' : List (QOp × List Blow)} (h : Like l l') (hl : ∀ a ∈ l, ∀ b ∈ a.2, WithEnv c b.qubits b.op) :
    ∀ a ∈ l', ∀ b ∈ a.2, WithEnv c b.qubits b.op := by
  intro a ha b hb
  obtain ⟨a', ha', -, h⟩ := Forall2_right h a ha
  obtain ⟨b', hb', rfl | rfl⟩ := h b hb
  · exact withEnv_one
  · exact withEnv_sub_one (hl a' ha' b' hb')

end Qtc
