import Mathlib.LinearAlgebra.Span.Basic
import Verif.Proof.QSlipRun
import Verif.Spec.AnyError
/-!
Helpers for C124: an operator on some qubits is a sum of Pauli strings on them, and an execution with a sum of operators is possible
only if one with one of the summands is.
-/
namespace Qtc
open Spec Function

variable {sz : Str → Nat}

/-! ### Operators on some qubits are sums of Pauli strings -/

/-- The operator of a Pauli error. -/
def kick (e : Slip) : Op := (if e.z then opZ e.qubit else 1) * if e.x then opX e.qubit else 1

/-- The operator of Pauli errors one after another. -/
def kicks : List Slip → Op
  | [] => 1
  | e :: l => kicks l * kick e

/-- Pauli errors on given qubits at a given place. -/
def kickSet (k : Nat) (xs : List Qubit) : Set Op := {A | ∃ l : List Slip, l.map Slip.qubit = xs ∧ (∀ e ∈ l, e.pos = k) ∧ A = kicks l}

theorem kick_letter (e : Slip) {B : Op} (hB : B = opX e.qubit ∨ B = opZ e.qubit) :
    ∃ e' : Slip, e'.qubit = e.qubit ∧ e'.pos = e.pos ∧ ∃ c : ℂ, kick e * B = c • kick e' := by
  obtain ⟨k, q, x, z⟩ := e
  have a := opX_opZ_anti q
  rcases hB with rfl | rfl
  · refine ⟨⟨k, q, !x, z⟩, rfl, rfl, 1, ?_⟩
    cases x <;> simp [kick, mul_assoc]
  · refine ⟨⟨k, q, x, !z⟩, rfl, rfl, if x then -1 else 1, ?_⟩
    cases x <;> cases z
    · simp [kick]
    · simp [kick]
    · simp only [kick, Bool.false_eq_true, if_true, if_false, one_mul, Bool.not_false]
      rw [a, neg_one_smul_op]
    · simp only [kick, Bool.false_eq_true, if_true, if_false, one_mul, Bool.not_true]
      rw [mul_assoc, a, ← neg_one_smul_op, mul_smul_comm, ← mul_assoc, opZ_sq, one_mul]

theorem kick_comm (e : Slip) {x : Qubit} (hx : e.qubit ≠ x) {B : Op} (hB : B = opX x ∨ B = opZ x) : kick e * B = B * kick e := by
  obtain ⟨k, q, a, b⟩ := e
  have hx : q ≠ x := hx
  have h1 : Commute (opX q) B := by
    rcases hB with rfl | rfl
    · exact opX_comm _ _
    · exact opX_opZ_comm hx
  have h2 : Commute (opZ q) B := by
    rcases hB with rfl | rfl
    · exact (opX_opZ_comm (Ne.symm hx)).symm
    · exact opZ_comm _ _
  have : Commute (kick ⟨k, q, a, b⟩) B := by
    refine Commute.mul_left ?_ ?_
    · split
      · exact h2
      · exact Commute.one_left _
    · split
      · exact h1
      · exact Commute.one_left _
  exact this.eq

theorem kicks_letter (l : List Slip) {x : Qubit} (hx : x ∈ l.map Slip.qubit) {B : Op} (hB : B = opX x ∨ B = opZ x) {k : Nat}
    (hk : ∀ e ∈ l, e.pos = k) :
    ∃ l' : List Slip, l'.map Slip.qubit = l.map Slip.qubit ∧ (∀ e ∈ l', e.pos = k) ∧ ∃ c : ℂ, kicks l * B = c • kicks l' := by
  induction l with
  | nil => cases hx
  | cons e l ih =>
    by_cases h : e.qubit = x
    · subst h
      obtain ⟨e', h1, h2, c, h3⟩ := kick_letter e hB
      refine ⟨e' :: l, by rw [List.map_cons, List.map_cons, h1], ?_, c, ?_⟩
      · intro f hf
        rcases List.mem_cons.1 hf with rfl | hf
        · rw [h2]; exact hk e List.mem_cons_self
        · exact hk f (List.mem_cons_of_mem _ hf)
      · show kicks l * kick e * B = c • (kicks l * kick e')
        rw [mul_assoc, h3, mul_smul_comm]
    · rw [List.map_cons] at hx
      obtain ⟨l', h1, h2, c, h3⟩ := ih (by
        rcases List.mem_cons.1 hx with h' | h'
        · exact absurd h'.symm h
        · exact h') (fun f hf => hk f (List.mem_cons_of_mem _ hf))
      refine ⟨e :: l', by rw [List.map_cons, List.map_cons, h1], ?_, c, ?_⟩
      · intro f hf
        rcases List.mem_cons.1 hf with rfl | hf
        · exact hk _ List.mem_cons_self
        · exact h2 f hf
      · show kicks l * kick e * B = c • (kicks l' * kick e)
        rw [mul_assoc, kick_comm e h hB, ← mul_assoc, h3, smul_mul_assoc]

/-- Every operator on some qubits is a combination of Pauli errors on them. -/
theorem onQubits_span {xs : List Qubit} {A : Op} (hA : OnQubits xs A) (k : Nat) : A ∈ Submodule.span ℂ (kickSet k xs) := by
  have key : ∀ V ∈ Submodule.span ℂ (kickSet k xs), V * A ∈ Submodule.span ℂ (kickSet k xs) := by
    refine Algebra.adjoin_induction (p := fun A _ => ∀ V ∈ Submodule.span ℂ (kickSet k xs), V * A ∈ Submodule.span ℂ (kickSet k xs))
      ?_ ?_ ?_ ?_ hA
    · rintro B ⟨x, hx, hB⟩ V hV
      induction hV using Submodule.span_induction with
      | mem V h =>
        obtain ⟨l, rfl, h2, rfl⟩ := h
        obtain ⟨l', h1', h2', c, h3⟩ := kicks_letter l hx hB h2
        rw [h3]
        exact Submodule.smul_mem _ _ (Submodule.subset_span ⟨l', h1', h2', rfl⟩)
      | zero => rw [zero_mul]; exact Submodule.zero_mem _
      | add U V _ _ hU hV => rw [add_mul]; exact Submodule.add_mem _ hU hV
      | smul c V _ hV => rw [smul_mul_assoc]; exact Submodule.smul_mem _ _ hV
    · intro c V hV
      rw [Algebra.algebraMap_eq_smul_one, mul_smul_comm, mul_one]
      exact Submodule.smul_mem _ _ hV
    · intro A B _ _ hA hB V hV
      rw [mul_add]
      exact Submodule.add_mem _ (hA V hV) (hB V hV)
    · intro A B _ _ hA hB V hV
      rw [← mul_assoc]
      exact hB _ (hA V hV)
  have h1 : (1 : Op) ∈ Submodule.span ℂ (kickSet k xs) := by
    refine Submodule.subset_span ⟨xs.map fun x => ⟨k, x, false, false⟩, ?_, ?_, ?_⟩
    · rw [List.map_map]
      exact List.map_id _
    · intro e he
      obtain ⟨x, -, rfl⟩ := List.mem_map.1 he
      rfl
    · induction xs with
      | nil => rfl
      | cons x xs ih =>
        have : (1 : Op) = kicks (xs.map fun x => ⟨k, x, false, false⟩) := by
          clear * -
          induction xs with
          | nil => rfl
          | cons x xs ih =>
            show (1 : Op) = kicks (xs.map fun x => ⟨k, x, false, false⟩) * kick ⟨k, x, false, false⟩
            rw [← ih]; simp [kick]
        show (1 : Op) = kicks (xs.map fun x => ⟨k, x, false, false⟩) * kick ⟨k, x, false, false⟩
        rw [← this]; simp [kick]
  have := key 1 h1
  rwa [one_mul] at this

/-! ### Executions -/

theorem run_gatesOf (e : Slip) {l : List Instr} {s s' : QState} : Run sz (e.gates ++ l) s s' ↔ Run sz l ⟨kick e s.psi, s.mem⟩ s' := by
  obtain ⟨k, q, x, z⟩ := e
  have g : ∀ (g : G1) (t t' : QState), Spec.Step sz (.gate1 g q none) t t' ↔ t' = ⟨gate1Op g q t.psi, t.mem⟩ := by
    intro g t t'
    constructor
    · rintro ⟨⟩; rfl
    · rintro rfl; exact .gate1 ..
  cases x <;> cases z <;> simp [Slip.gates, kick, Run, g, gate1Op]

theorem run_kicks (l' : List Slip) {l : List Instr} {s s' : QState} :
    Run sz (l'.flatMap Slip.gates ++ l) s s' ↔ Run sz l ⟨kicks l' s.psi, s.mem⟩ s' := by
  induction l' generalizing s with
  | nil => rfl
  | cons e l' ih =>
    rw [List.flatMap_cons, List.append_assoc, run_gatesOf, ih]
    rfl

/-- A circuit with Pauli errors in place of the operators. -/
def Pick : List (Instr ⊕ Blow) → List Instr → Prop
  | [], l' => l' = []
  | .inl i :: L, l' => ∃ l'', l' = i :: l'' ∧ Pick L l''
  | .inr b :: L, l' => ∃ p : List Slip, p.map Slip.qubit = b.qubits ∧ (∀ e ∈ p, e.pos = b.pos) ∧ ∃ l'', l' = p.flatMap Slip.gates ++ l'' ∧ Pick L l''

/-- The event of an entry. -/
def eventOf : Instr ⊕ Blow → Event
  | .inl i => .instr i
  | .inr b => .blow b.op

theorem step_zero {i : Instr} {m : Mem} {t : QState} (h : Spec.Step sz i ⟨0, m⟩ t) : t.psi = 0 := by
  cases h with
  | gate1 => exact map_zero _
  | taken => exact map_zero _
  | skipped => rfl
  | gate2 => exact map_zero _
  | measure _ _ _ _ h => exact absurd (map_zero _) h
  | reset _ _ _ h => exact absurd (map_zero _) h
  | barrier => rfl

theorem run_zero {l : List Instr} {s t : QState} (h : Run sz l s t) (h0 : s.psi = 0) : t.psi = 0 := by
  induction l generalizing s with
  | nil => rw [show t = s from h]; exact h0
  | cons i l ih =>
    obtain ⟨u, h1, h2⟩ := h
    obtain ⟨ψ, m⟩ := s
    obtain rfl : ψ = 0 := h0
    exact ih h2 (step_zero h1)

/-- An instruction acts linearly once its result is known. -/
theorem step_linear {i : Instr} {ψ : Psi} {m : Mem} {t : QState} (h : Spec.Step sz i ⟨ψ, m⟩ t) :
    ∃ A : Op, t.psi = A ψ ∧ ∀ φ : Psi, A φ ≠ 0 → Spec.Step sz i ⟨φ, m⟩ ⟨A φ, t.mem⟩ := by
  cases h with
  | gate1 g q => exact ⟨_, rfl, fun φ _ => .gate1 g q ⟨φ, m⟩⟩
  | taken g q r v _ h => exact ⟨_, rfl, fun φ _ => .taken g q r v ⟨φ, m⟩ h⟩
  | skipped g q r v _ h => exact ⟨1, rfl, fun φ _ => .skipped g q r v ⟨φ, m⟩ h⟩
  | gate2 g a b => exact ⟨_, rfl, fun φ _ => .gate2 g a b ⟨φ, m⟩⟩
  | measure q b v _ h => exact ⟨_, rfl, fun φ h => .measure q b v ⟨φ, m⟩ h⟩
  | reset q v _ h =>
    exact ⟨clear v q * opP v q, rfl, fun φ h => .reset q v ⟨φ, m⟩ fun h' => h (by
      show clear v q (opP v q φ) = 0
      rw [show opP v q φ = 0 from h', map_zero])⟩
  | barrier => exact ⟨1, rfl, fun φ _ => .barrier ⟨φ, m⟩⟩

/-- If a superposition can be led to some readouts by a circuit with arbitrary operators in it, one of the superposed states can be led to
the same readouts by the circuit with Pauli errors in place of the operators. -/
theorem happens_pick {L : List (Instr ⊕ Blow)} (hL : ∀ b, .inr b ∈ L → OnQubits b.qubits b.op) {S : Set Psi} {ψ : Psi} {m : Mem} {s' : QState}
    (hψ : ψ ∈ Submodule.span ℂ S) (h : Happens sz (L.map eventOf) ⟨ψ, m⟩ s') (h0 : s'.psi ≠ 0) :
    ∃ φ ∈ S, ∃ l', Pick L l' ∧ ∃ t', Run sz l' ⟨φ, m⟩ t' ∧ t'.mem = s'.mem ∧ t'.psi ≠ 0 := by
  induction L generalizing S ψ m with
  | nil =>
    obtain rfl : s' = ⟨ψ, m⟩ := h
    by_contra hn
    refine h0 ?_
    have : Submodule.span ℂ S = ⊥ := by
      rw [Submodule.span_eq_bot]
      intro φ hφ
      by_contra hne
      exact hn ⟨φ, hφ, [], rfl, ⟨φ, m⟩, rfl, rfl, hne⟩
    rw [this] at hψ
    exact (Submodule.mem_bot ℂ).1 hψ
  | cons a L ih =>
    have hL' : ∀ b, .inr b ∈ L → OnQubits b.qubits b.op := fun b hb => hL b (List.mem_cons_of_mem _ hb)
    cases a with
    | inl i =>
      obtain ⟨t, h1, h2⟩ := h
      obtain ⟨A, hA, hstep⟩ := step_linear h1
      obtain ⟨ξ, μ⟩ := t
      obtain rfl : ξ = A ψ := hA
      have hψ' : A ψ ∈ Submodule.span ℂ (A '' S) := by
        rw [← Submodule.map_span]
        exact Submodule.mem_map_of_mem hψ
      obtain ⟨-, ⟨φ, hφ, rfl⟩, l', hp, t', r1, r2, r3⟩ := ih hL' hψ' h2
      have hne : A φ ≠ 0 := fun hz => r3 (run_zero r1 hz)
      exact ⟨φ, hφ, i :: l', ⟨l', rfl, hp⟩, t', ⟨_, hstep φ hne, r1⟩, r2, r3⟩
    | inr b =>
      have hb := onQubits_span (hL b List.mem_cons_self) b.pos
      have h2 : Happens sz (L.map eventOf) ⟨b.op ψ, m⟩ s' := h
      let S' : Set Psi := {χ | ∃ A ∈ kickSet b.pos b.qubits, ∃ φ ∈ S, χ = A φ}
      have hψ' : b.op ψ ∈ Submodule.span ℂ S' := by
        generalize b.op = B at hb
        induction hb using Submodule.span_induction with
        | mem A hA =>
          have : A ψ ∈ Submodule.span ℂ (A '' S) := by
            rw [← Submodule.map_span]
            exact Submodule.mem_map_of_mem hψ
          refine Submodule.span_mono ?_ this
          rintro _ ⟨φ, hφ, rfl⟩
          exact ⟨A, hA, φ, hφ, rfl⟩
        | zero => exact Submodule.zero_mem _
        | add _ _ _ _ h h' => exact Submodule.add_mem _ h h'
        | smul c _ _ h => exact Submodule.smul_mem _ c h
      obtain ⟨-, ⟨-, ⟨p, hp1, hp2, rfl⟩, φ, hφ, rfl⟩, l', hp, t', r1, r2, r3⟩ := ih hL' hψ' h2
      exact ⟨φ, hφ, p.flatMap Slip.gates ++ l', ⟨p, hp1, hp2, l', rfl, hp⟩, t', (run_kicks p).2 r1, r2, r3⟩

/-! ### Circuits with errors -/

/-- The instructions of a circuit with the errors in between. -/
def struckBy (E : List Blow) : Nat → List Instr → List (Instr ⊕ Blow)
  | k, [] => (E.filter fun b => k ≤ b.pos).map .inr
  | k, i :: l => (E.filter fun b => b.pos = k).map .inr ++ .inl i :: struckBy E (k + 1) l

theorem struckBy_events (E : List Blow) (k : Nat) (l : List Instr) : (struckBy E k l).map eventOf = struck E k l := by
  induction l generalizing k with
  | nil =>
    rw [struckBy, struck, List.map_map]
    rfl
  | cons i l ih =>
    rw [struckBy, struck, List.map_append, List.map_map, List.map_cons, ih]
    rfl

theorem struckBy_mem {E : List Blow} {k : Nat} {l : List Instr} {b : Blow} (h : .inr b ∈ struckBy E k l) : b ∈ E := by
  induction l generalizing k with
  | nil =>
    obtain ⟨c, hc, h⟩ := List.mem_map.1 h
    cases h
    exact (List.mem_filter.1 hc).1
  | cons i l ih =>
    rcases List.mem_append.1 h with h | h
    · obtain ⟨c, hc, h⟩ := List.mem_map.1 h
      cases h
      exact (List.mem_filter.1 hc).1
    · rcases List.mem_cons.1 h with h | h
      · cases h
      · exact ih h

theorem Pick.append {L1 L2 : List (Instr ⊕ Blow)} {l : List Instr} : Pick (L1 ++ L2) l ↔ ∃ a b, Pick L1 a ∧ Pick L2 b ∧ l = a ++ b := by
  induction L1 generalizing l with
  | nil =>
    constructor
    · intro h
      exact ⟨[], l, rfl, h, rfl⟩
    · rintro ⟨a, b, rfl, h, rfl⟩
      exact h
  | cons c L1 ih =>
    cases c with
    | inl i =>
      constructor
      · rintro ⟨l'', rfl, h⟩
        obtain ⟨a, b, h1, h2, rfl⟩ := ih.1 h
        exact ⟨i :: a, b, ⟨a, rfl, h1⟩, h2, rfl⟩
      · rintro ⟨_, b, ⟨a, rfl, h1⟩, h2, rfl⟩
        exact ⟨a ++ b, rfl, ih.2 ⟨a, b, h1, h2, rfl⟩⟩
    | inr c =>
      constructor
      · rintro ⟨p, hp, hp', l'', rfl, h⟩
        obtain ⟨a, b, h1, h2, rfl⟩ := ih.1 h
        exact ⟨p.flatMap Slip.gates ++ a, b, ⟨p, hp, hp', a, rfl, h1⟩, h2, (List.append_assoc ..).symm⟩
      · rintro ⟨_, b, ⟨p, hp, hp', a, rfl, h1⟩, h2, rfl⟩
        exact ⟨p, hp, hp', a ++ b, List.append_assoc .., ih.2 ⟨a, b, h1, h2, rfl⟩⟩

theorem pick_blows {E : List Blow} {l : List Instr} (h : Pick (E.map .inr) l) :
    ∃ E' : List Slip, l = E'.flatMap Slip.gates ∧ (∀ e ∈ E', ∃ b ∈ E, e.pos = b.pos) ∧ E'.length = (E.map fun b => b.qubits.length).sum := by
  induction E generalizing l with
  | nil => exact ⟨[], h, fun e he => absurd he List.not_mem_nil, rfl⟩
  | cons b E ih =>
    obtain ⟨p, hp, hp', l'', rfl, h⟩ := h
    obtain ⟨E', rfl, h2, h3⟩ := ih h
    refine ⟨p ++ E', (List.flatMap_append ..).symm, ?_, ?_⟩
    · intro e he
      rcases List.mem_append.1 he with he | he
      · exact ⟨b, List.mem_cons_self, hp' e he⟩
      · obtain ⟨c, hc, h⟩ := h2 e he
        exact ⟨c, List.mem_cons_of_mem _ hc, h⟩
    · rw [List.length_append, h3, List.map_cons, List.sum_cons, ← hp, List.length_map]

theorem slipped_late {F E : List Slip} {k : Nat} (hF : ∀ e ∈ F, e.pos < k) (l : List Instr) : slipped (F ++ E) k l = slipped E k l := by
  induction l generalizing k with
  | nil =>
    have : (F.filter fun s => k ≤ s.pos) = [] := List.filter_eq_nil_iff.2 fun e he h => by
      have := hF e he
      rw [decide_eq_true_eq] at h
      omega
    rw [slipped, slipped, List.filter_append, this, List.nil_append]
  | cons i l ih =>
    have : (F.filter fun s => s.pos = k) = [] := List.filter_eq_nil_iff.2 fun e he h => by
      have := hF e he
      rw [decide_eq_true_eq] at h
      omega
    rw [slipped, slipped, List.filter_append, this, List.nil_append, ih fun e he => Nat.lt_succ_of_lt (hF e he)]

theorem pick_slipped {E : List Blow} {k : Nat} {l l' : List Instr} (h : Pick (struckBy E k l) l') :
    ∃ E' : List Slip, (∀ e ∈ E', k ≤ e.pos) ∧ slipped E' k l = l' ∧
      E'.length = ((E.filter fun b => k ≤ b.pos).map fun b => b.qubits.length).sum := by
  induction l generalizing k l' with
  | nil =>
    obtain ⟨E', rfl, h2, h3⟩ := pick_blows h
    have hk : ∀ e ∈ E', k ≤ e.pos := by
      intro e he
      obtain ⟨b, hb, hp⟩ := h2 e he
      have := (List.mem_filter.1 hb).2
      rw [decide_eq_true_eq] at this
      omega
    refine ⟨E', hk, ?_, h3⟩
    rw [slipped, List.filter_eq_self.2 fun e he => decide_eq_true (hk e he)]
  | cons i l ih =>
    obtain ⟨a, _, h1, ⟨b, rfl, h2⟩, rfl⟩ := Pick.append.1 h
    obtain ⟨E1, rfl, hE1, hn1⟩ := pick_blows h1
    obtain ⟨E2, hE2, rfl, hn2⟩ := ih h2
    have hk : ∀ e ∈ E1, e.pos = k := by
      intro e he
      obtain ⟨b, hb, hp⟩ := hE1 e he
      have := (List.mem_filter.1 hb).2
      rw [decide_eq_true_eq] at this
      omega
    refine ⟨E1 ++ E2, ?_, ?_, ?_⟩
    · intro e he
      rcases List.mem_append.1 he with he | he
      · exact (hk e he).ge
      · have := hE2 e he
        omega
    · have e2 : (E2.filter fun s => s.pos = k) = [] := List.filter_eq_nil_iff.2 fun e he h => by
        have := hE2 e he
        rw [decide_eq_true_eq] at h
        omega
      rw [slipped, List.filter_append, List.filter_eq_self.2 fun e he => decide_eq_true (hk e he), e2, List.append_nil,
        slipped_late fun e he => by rw [hk e he]; exact Nat.lt_succ_self k]
    · rw [List.length_append, hn1, hn2]
      clear * -
      induction E with
      | nil => rfl
      | cons b E ih =>
        simp only [List.filter_cons, decide_eq_true_eq]
        by_cases h1 : b.pos = k
        · rw [if_pos h1, if_neg (by omega), if_pos (by omega), List.map_cons, List.map_cons, List.sum_cons, List.sum_cons, ← ih]
          omega
        · rw [if_neg h1]
          by_cases h2 : k ≤ b.pos
          · rw [if_pos (by omega), if_pos h2, List.map_cons, List.map_cons, List.sum_cons, List.sum_cons, ← ih]
            omega
          · rw [if_neg (by omega), if_neg h2, ih]

/-- The instructions of a sequence of operations with the errors in between. -/
def struckByAll (q : TQubit) : List (QOp × List Blow) → World → List (Instr ⊕ Blow)
  | [], _ => []
  | (o, E) :: l, w => struckBy E 0 (added q o w) ++ struckByAll q l (q.op o w).2

theorem struckByAll_events (q : TQubit) (l : List (QOp × List Blow)) (w : World) : (struckByAll q l w).map eventOf = struckAll q l w := by
  induction l generalizing w with
  | nil => rfl
  | cons a l ih =>
    obtain ⟨o, E⟩ := a
    rw [struckByAll, struckAll, List.map_append, struckBy_events, ih]

theorem struckByAll_mem {q : TQubit} {l : List (QOp × List Blow)} {w : World} {b : Blow} (h : .inr b ∈ struckByAll q l w) :
    ∃ a ∈ l, b ∈ a.2 := by
  induction l generalizing w with
  | nil => cases h
  | cons a l ih =>
    obtain ⟨o, E⟩ := a
    rcases List.mem_append.1 h with h | h
    · exact ⟨_, List.mem_cons_self, struckBy_mem h⟩
    · obtain ⟨a, ha, h⟩ := ih h
      exact ⟨a, List.mem_cons_of_mem _ ha, h⟩

/-- Pauli errors in place of operators: the same operations with as many errors in each. -/
def SameShape (l : List (QOp × List Blow)) (l' : List (QOp × List Slip)) : Prop :=
  List.Forall₂ (fun a a' => a'.1 = a.1 ∧ a'.2.length = (a.2.map fun b => b.qubits.length).sum) l l'

theorem pick_all {q : TQubit} {l : List (QOp × List Blow)} {w : World} {l' : List Instr} (h : Pick (struckByAll q l w) l') :
    ∃ L : List (QOp × List Slip), SameShape l L ∧ slippedAll q L w = l' := by
  induction l generalizing w l' with
  | nil => exact ⟨[], .nil, Eq.symm h⟩
  | cons a l ih =>
    obtain ⟨o, E⟩ := a
    obtain ⟨x, y, h1, h2, rfl⟩ := Pick.append.1 h
    obtain ⟨E', -, rfl, hn⟩ := pick_slipped h1
    obtain ⟨L, hL, rfl⟩ := ih h2
    refine ⟨(o, E') :: L, .cons ⟨rfl, ?_⟩ hL, rfl⟩
    rw [hn, List.filter_eq_self.2 fun b _ => decide_eq_true (Nat.zero_le _)]

theorem SameShape.fst {l : List (QOp × List Blow)} {L : List (QOp × List Slip)} (h : SameShape l L) : L.map Prod.fst = l.map Prod.fst := by
  induction h with
  | nil => rfl
  | cons h _ ih => rw [List.map_cons, List.map_cons, h.1, ih]

theorem SameShape.len {l : List (QOp × List Blow)} {L : List (QOp × List Slip)} (h : SameShape l L) :
    L.map (fun a => a.2.length) = l.map (fun a => (a.2.map fun b => b.qubits.length).sum) := by
  induction h with
  | nil => rfl
  | cons h _ ih => rw [List.map_cons, List.map_cons, h.2, ih]

theorem SameShape.count {l : List (QOp × List Blow)} {L : List (QOp × List Slip)} (h : SameShape l L) : slipCount L = blowCount l := by
  show (L.map fun a => a.2.length).sum = (l.map fun a => (a.2.map fun b => b.qubits.length).sum).sum
  rw [h.len]

theorem SameShape.memory {l : List (QOp × List Blow)} {L : List (QOp × List Slip)} (h : SameShape l L) (hl : ∀ a ∈ l, MemoryOp a.1) :
    ∀ a ∈ L, MemoryOp a.1 := by
  intro a ha
  have : a.1 ∈ l.map Prod.fst := h.fst ▸ List.mem_map_of_mem ha
  obtain ⟨b, hb, e⟩ := List.mem_map.1 this
  rw [← e]
  exact hl b hb

theorem SameShape.split {l1 l2 : List (QOp × List Blow)} {L : List (QOp × List Slip)} (h : SameShape (l1 ++ l2) L) :
    ∃ L1 L2, L = L1 ++ L2 ∧ SameShape l1 L1 ∧ SameShape l2 L2 := by
  induction l1 generalizing L with
  | nil => exact ⟨[], L, rfl, .nil, h⟩
  | cons a l1 ih =>
    cases h with
    | cons h1 h2 =>
      obtain ⟨L1, L2, rfl, h3, h4⟩ := ih h2
      exact ⟨_ :: L1, L2, rfl, .cons h1 h3, h4⟩

theorem SameShape.clean {os : List QOp} {L : List (QOp × List Slip)} (h : SameShape (os.map fun o => (o, [])) L) : L = os.map fun o => (o, []) := by
  induction os generalizing L with
  | nil => cases h; rfl
  | cons o os ih =>
    cases h with
    | cons h1 h2 =>
      rename_i a L
      rw [ih h2, List.map_cons]
      refine congrArg (· :: _) ?_
      exact Prod.ext h1.1 (List.eq_nil_of_length_eq_zero h1.2)

theorem SameShape.middle {os os' : List QOp} {l : List (QOp × List Blow)} {L : List (QOp × List Slip)}
    (h : SameShape (os.map (fun o => (o, [])) ++ l ++ os'.map fun o => (o, [])) L) :
    ∃ L', SameShape l L' ∧ L = os.map (fun o => (o, [])) ++ L' ++ os'.map fun o => (o, []) := by
  obtain ⟨L1, L2, rfl, h1, h2⟩ := h.split
  obtain ⟨L0, L1, rfl, h0, h1⟩ := h1.split
  rw [h0.clean, h2.clean]
  exact ⟨L1, h1, rfl⟩

theorem on_clean {l : List (QOp × List Blow)} (hl : ∀ a ∈ l, ∀ b ∈ a.2, OnQubits b.qubits b.op) (os os' : List QOp) :
    ∀ a ∈ os.map (fun o => (o, [])) ++ l ++ os'.map fun o => (o, []), ∀ b ∈ a.2, OnQubits b.qubits b.op := by
  intro a ha b hb
  rcases List.mem_append.1 ha with ha | ha
  · rcases List.mem_append.1 ha with ha | ha
    · obtain ⟨o, -, rfl⟩ := List.mem_map.1 ha
      cases hb
    · exact hl a ha b hb
  · obtain ⟨o, -, rfl⟩ := List.mem_map.1 ha
    cases hb

/-- Whatever a circuit with arbitrary operators in it may give is given by the circuit with Pauli errors in the same operations, as many as
qubits are acted on. -/
theorem happens_slipped {q : TQubit} {l : List (QOp × List Blow)} {w : World} (hl : ∀ a ∈ l, ∀ b ∈ a.2, OnQubits b.qubits b.op) {s s' : QState}
    (h : Happens sz (struckAll q l w) s s') (h0 : s'.psi ≠ 0) :
    ∃ L, SameShape l L ∧ ∃ t', Run sz (slippedAll q L w) s t' ∧ t'.mem = s'.mem := by
  rw [← struckByAll_events] at h
  obtain ⟨φ, hφ, l', hp, t', r1, r2, r3⟩ := happens_pick (L := struckByAll q l w) (S := {s.psi}) (fun b hb => by
    obtain ⟨a, ha, hb⟩ := struckByAll_mem hb
    exact hl a ha b hb) (Submodule.subset_span rfl) h h0
  obtain rfl : φ = s.psi := hφ
  obtain ⟨L, hL, rfl⟩ := pick_all hp
  exact ⟨L, hL, t', r1, r2⟩

/-! ### There are executions -/

theorem happens_exists {L : List (Instr ⊕ Blow)} (hL : ∀ b, .inr b ∈ L → ∃ B : Op, B * b.op = 1) (hi : ∀ i, .inl i ∈ L → i.Proper) (s : QState)
    (h0 : s.psi ≠ 0) : ∃ s', Happens sz (L.map eventOf) s s' ∧ s'.psi ≠ 0 := by
  induction L generalizing s with
  | nil => exact ⟨s, rfl, h0⟩
  | cons a L ih =>
    have ih' := fun t ht => ih (fun b hb => hL b (List.mem_cons_of_mem _ hb)) (fun i h => hi i (List.mem_cons_of_mem _ h)) t ht
    cases a with
    | inl i =>
      obtain ⟨t, ht⟩ := run_exists (sz := sz) (l := [i]) (fun j hj => by rw [List.mem_singleton.1 hj]; exact hi i List.mem_cons_self) s h0
      have hne : t.psi ≠ 0 := by
        obtain ⟨A, -, -, h⟩ := (run_iff (fun j hj => by rw [List.mem_singleton.1 hj]; exact hi i List.mem_cons_self) h0).1 ht
        exact h
      obtain ⟨u, hu, hut⟩ := ht
      obtain rfl : t = u := hut
      obtain ⟨s', h1, h2⟩ := ih' t hne
      exact ⟨s', ⟨t, hu, h1⟩, h2⟩
    | inr b =>
      obtain ⟨B, hB⟩ := hL b List.mem_cons_self
      exact ih' ⟨b.op s.psi, s.mem⟩ fun h => h0 (by
        have : (B * b.op) s.psi = s.psi := by rw [hB]; rfl
        rw [← this]
        show B (b.op s.psi) = 0
        rw [show b.op s.psi = 0 from h, map_zero])

theorem struckBy_instr {E : List Blow} {k : Nat} {l : List Instr} {i : Instr} (h : .inl i ∈ struckBy E k l) : i ∈ l := by
  induction l generalizing k with
  | nil =>
    obtain ⟨c, hc, h⟩ := List.mem_map.1 h
    cases h
  | cons j l ih =>
    rcases List.mem_append.1 h with h | h
    · obtain ⟨c, hc, h⟩ := List.mem_map.1 h
      cases h
    · rcases List.mem_cons.1 h with h | h
      · cases h; exact List.mem_cons_self
      · exact List.mem_cons_of_mem _ (ih h)

/-- A circuit with invertible operators in it has an execution from every state. -/
theorem struck_exists {cls : QClass} {q : TQubit} {dh dw : Int} {ops : List QOp} {w : World} {l : List (QOp × List Blow)}
    (A : After cls q dh dw ops w) (hl : ∀ a ∈ l, ∀ b ∈ a.2, ∃ B : Op, B * b.op = 1) (s : QState) (h0 : s.psi ≠ 0) :
    ∃ s', Happens sz (struckAll q l w) s s' ∧ s'.psi ≠ 0 := by
  rw [← struckByAll_events]
  refine happens_exists (fun b hb => ?_) ?_ s h0
  · obtain ⟨a, ha, hb⟩ := struckByAll_mem hb
    exact hl a ha b hb
  · clear hl h0 s
    induction l generalizing ops w with
    | nil => exact fun i hi => absurd hi List.not_mem_nil
    | cons a l ih =>
      intro i hi
      rcases List.mem_append.1 (show .inl i ∈ struckBy a.2 0 (added q a.1 w) ++ struckByAll q l (q.op a.1 w).2 from hi) with h | h
      · exact A.proper _ _ (struckBy_instr h)
      · exact ih (A.next _) i h

end Qtc
