import Mathlib.Data.List.Nodup
import Mathlib.Algebra.BigOperators.Group.List.Lemmas
import Verif.Proof.QAlg
/-!
Executions as operators.
-/
namespace Qtc
open Spec Function

variable {sz : Str → Nat}

/-- The operator `A` is one of those an instruction may apply, taking the classical bits from `m` to `m'`. -/
def Kraus1 (sz : Str → Nat) : Instr → Mem → Op → Mem → Prop
  | .gate1 g q none, m, A, m' => A = gate1Op g q ∧ m' = m
  | .gate1 g q (some (r, v)), m, A, m' => A = (if (regValue m r (sz r) : Int) = v then gate1Op g q else 1) ∧ m' = m
  | .gate2 g a b, m, A, m' => A = gate2Op g a b ∧ m' = m
  | .measure q b, m, A, m' => ∃ v, A = opP v q ∧ m' = update m b v
  | .reset q, m, A, m' => (∃ v, A = clear v q * opP v q) ∧ m' = m
  | .barrier, m, A, m' => A = 1 ∧ m' = m

/-- The same for a list of instructions. -/
def Kraus (sz : Str → Nat) : List Instr → Mem → Op → Mem → Prop
  | [], m, A, m' => A = 1 ∧ m' = m
  | i :: l, m, A, m' => ∃ B m1 C, Kraus1 sz i m B m1 ∧ Kraus sz l m1 C m' ∧ A = C * B

theorem gate1Op_sq (g : G1) (q : Qubit) : gate1Op g q * gate1Op g q = 1 := by
  cases g
  · exact opX_sq q
  · exact opZ_sq q
  · exact opH_sq q
  · exact one_mul _

/-- The argument of a gate of two qubits are different. -/
def Instr.Proper : Instr → Prop
  | .gate2 _ a b => a ≠ b
  | _ => True

theorem opCX_sq {a b : Qubit} (h : a ≠ b) : opCX a b * opCX a b = 1 := by
  rw [opCX_copy, copy_mul (opX_opZ_comm (Ne.symm h)).symm, opZ_sq, copy_one]

theorem opCZ_sq (a b : Qubit) : opCZ a b * opCZ a b = 1 := by
  refine LinearMap.ext fun ψ => funext fun c => ?_
  show (if c a && c b then -(if c a && c b then -ψ c else ψ c) else (if c a && c b then -ψ c else ψ c)) = ψ c
  split <;> simp

theorem gate2Op_sq (g : G2) {a b : Qubit} (h : a ≠ b) : gate2Op g a b * gate2Op g a b = 1 := by
  cases g
  · exact opCX_sq h
  · exact opCZ_sq a b

theorem ne_zero_of_sq {A : Op} (h : A * A = 1) {ψ : Psi} (h0 : ψ ≠ 0) : A ψ ≠ 0 := by
  intro e
  refine h0 ?_
  have : A (A ψ) = ψ := by rw [← Module.End.mul_apply, h]; rfl
  rw [← this, e, map_zero]

theorem step_iff {i : Instr} (hi : i.Proper) {s s' : QState} (h0 : s.psi ≠ 0) :
    Step sz i s s' ↔ ∃ A, Kraus1 sz i s.mem A s'.mem ∧ s'.psi = A s.psi ∧ s'.psi ≠ 0 := by
  constructor
  · intro h
    cases h with
    | gate1 g q => exact ⟨_, ⟨rfl, rfl⟩, rfl, ne_zero_of_sq (gate1Op_sq g q) h0⟩
    | taken g q r v s hv =>
      refine ⟨_, ⟨rfl, rfl⟩, ?_, ne_zero_of_sq (gate1Op_sq g q) h0⟩
      rw [if_pos hv]
    | skipped g q r v s hv =>
      refine ⟨_, ⟨rfl, rfl⟩, ?_, h0⟩
      rw [if_neg hv]; rfl
    | gate2 g a b => exact ⟨_, ⟨rfl, rfl⟩, rfl, ne_zero_of_sq (gate2Op_sq g hi) h0⟩
    | measure q b v s hv => exact ⟨_, ⟨v, rfl, rfl⟩, rfl, hv⟩
    | reset q v s hv => exact ⟨_, ⟨⟨v, rfl⟩, rfl⟩, rfl, ne_zero_of_sq (clear_sq v q) hv⟩
    | barrier => exact ⟨_, ⟨rfl, rfl⟩, rfl, h0⟩
  · rintro ⟨A, hA, hp, hn⟩
    obtain ⟨ψ, m⟩ := s
    obtain ⟨ψ', m'⟩ := s'
    simp only at hA hp hn h0
    subst hp
    cases i with
    | gate1 g q c =>
      rcases c with _ | ⟨r, v⟩
      · obtain ⟨rfl, rfl⟩ := hA
        exact Step.gate1 g q _
      · obtain ⟨rfl, rfl⟩ := hA
        by_cases hv : (regValue m' r (sz r) : Int) = v
        · rw [if_pos hv]; exact Step.taken g q r v _ hv
        · rw [if_neg hv]; exact Step.skipped g q r v _ hv
    | gate2 g a b =>
      obtain ⟨rfl, rfl⟩ := hA
      exact Step.gate2 g a b _
    | measure q b =>
      obtain ⟨v, rfl, rfl⟩ := hA
      exact Step.measure q b v ⟨ψ, m⟩ hn
    | reset q =>
      obtain ⟨⟨v, rfl⟩, rfl⟩ := hA
      refine Step.reset q v ⟨ψ, m'⟩ ?_
      intro e
      refine hn ?_
      rw [Module.End.mul_apply]
      have e' : opP v q ψ = 0 := e
      rw [e', map_zero]
    | barrier =>
      obtain ⟨rfl, rfl⟩ := hA
      exact Step.barrier _

theorem run_iff {l : List Instr} (hl : ∀ i ∈ l, i.Proper) {s s' : QState} (h0 : s.psi ≠ 0) :
    Run sz l s s' ↔ ∃ A, Kraus sz l s.mem A s'.mem ∧ s'.psi = A s.psi ∧ s'.psi ≠ 0 := by
  induction l generalizing s with
  | nil =>
    constructor
    · rintro rfl
      exact ⟨1, ⟨rfl, rfl⟩, rfl, h0⟩
    · rintro ⟨A, ⟨rfl, h1⟩, h2, -⟩
      obtain ⟨ψ, m⟩ := s
      obtain ⟨ψ', m'⟩ := s'
      simp only [Module.End.one_apply] at h1 h2
      subst h1 h2
      rfl
  | cons i l ih =>
    constructor
    · rintro ⟨t, h1, h2⟩
      obtain ⟨B, b1, b2, b3⟩ := (step_iff (hl i (by simp)) h0).1 h1
      obtain ⟨C, c1, c2, c3⟩ := (ih (fun i hi => hl i (by simp [hi])) b3).1 h2
      exact ⟨C * B, ⟨B, _, C, b1, c1, rfl⟩, by rw [c2, b2]; rfl, c3⟩
    · rintro ⟨A, ⟨B, m1, C, h1, h2, rfl⟩, hp, hn⟩
      have hb : B s.psi ≠ 0 := by
        intro e
        refine hn ?_
        rw [hp, Module.End.mul_apply, e, map_zero]
      refine ⟨⟨B s.psi, m1⟩, (step_iff (hl i (by simp)) h0).2 ⟨B, h1, rfl, hb⟩, ?_⟩
      exact (ih (fun i hi => hl i (by simp [hi])) hb).2 ⟨C, h2, hp, hn⟩

theorem Run.append {l l' : List Instr} {s s' : QState} : Run sz (l ++ l') s s' ↔ ∃ t, Run sz l s t ∧ Run sz l' t s' := by
  induction l generalizing s with
  | nil =>
    constructor
    · intro h; exact ⟨s, rfl, h⟩
    · rintro ⟨t, rfl, h⟩; exact h
  | cons i l ih =>
    constructor
    · rintro ⟨u, h1, h2⟩
      obtain ⟨t, h3, h4⟩ := ih.1 h2
      exact ⟨t, ⟨u, h1, h3⟩, h4⟩
    · rintro ⟨t, ⟨u, h1, h2⟩, h3⟩
      exact ⟨u, h1, ih.2 ⟨t, h2, h3⟩⟩

theorem Run.ne_zero {l : List Instr} (hl : ∀ i ∈ l, i.Proper) {s s' : QState} (h0 : s.psi ≠ 0) (h : Run sz l s s') : s'.psi ≠ 0 := by
  obtain ⟨A, -, -, h⟩ := (run_iff hl h0).1 h
  exact h

theorem Kraus.append {l l' : List Instr} {m m' : Mem} {A : Op} :
    Kraus sz (l ++ l') m A m' ↔ ∃ B m1 C, Kraus sz l m B m1 ∧ Kraus sz l' m1 C m' ∧ A = C * B := by
  induction l generalizing m A with
  | nil =>
    constructor
    · intro h; exact ⟨1, m, A, ⟨rfl, rfl⟩, h, (mul_one A).symm⟩
    · rintro ⟨B, m1, C, ⟨rfl, rfl⟩, h, rfl⟩
      rw [mul_one]; exact h
  | cons i l ih =>
    constructor
    · rintro ⟨B, m1, C, h1, h2, rfl⟩
      obtain ⟨D, m2, E, h3, h4, rfl⟩ := ih.1 h2
      exact ⟨D * B, m2, E, ⟨B, m1, D, h1, h3, rfl⟩, h4, mul_assoc _ _ _⟩
    · rintro ⟨B, m1, C, ⟨D, m2, E, h1, h2, rfl⟩, h3, rfl⟩
      exact ⟨D, m2, C * E, h1, ih.2 ⟨E, m1, C, h2, h3, rfl⟩, (mul_assoc _ _ _).symm⟩

theorem Kraus.comp {l l' : List Instr} {m m1 m' : Mem} {B C : Op} (h : Kraus sz l m B m1) (h' : Kraus sz l' m1 C m') :
    Kraus sz (l ++ l') m (C * B) m' := Kraus.append.2 ⟨B, m1, C, h, h', rfl⟩

/-! ### Gates -/

/-- The operator of an unconditional gate. -/
noncomputable def gateOp : Instr → Op
  | .gate1 g q _ => gate1Op g q
  | .gate2 g a b => gate2Op g a b
  | _ => 1

/-- Unconditional gates and barriers. -/
def Instr.IsGate : Instr → Prop
  | .gate1 _ _ none => True
  | .gate2 _ _ _ => True
  | .barrier => True
  | _ => False

/-- The operator of a list of gates: the last one is the leftmost. -/
noncomputable def circOp (l : List Instr) : Op := (l.reverse.map gateOp).prod

@[simp] theorem circOp_nil : circOp [] = 1 := rfl

@[simp] theorem circOp_cons (i : Instr) (l : List Instr) : circOp (i :: l) = circOp l * gateOp i := by
  unfold circOp
  rw [List.reverse_cons, List.map_append, List.prod_append]
  simp

theorem circOp_append (l l' : List Instr) : circOp (l ++ l') = circOp l' * circOp l := by
  unfold circOp
  rw [List.reverse_append, List.map_append, List.prod_append]

theorem kraus_gates {l : List Instr} (hl : ∀ i ∈ l, i.IsGate) {m m' : Mem} {A : Op} : Kraus sz l m A m' ↔ A = circOp l ∧ m' = m := by
  induction l generalizing m A with
  | nil => exact Iff.rfl
  | cons i l ih =>
    have h1 : ∀ B m1, Kraus1 sz i m B m1 ↔ B = gateOp i ∧ m1 = m := by
      intro B m1
      have := hl i (by simp)
      cases i with
      | gate1 g q c =>
        cases c
        · exact Iff.rfl
        · exact absurd this id
      | gate2 g a b => exact Iff.rfl
      | measure q b => exact absurd this id
      | reset q => exact absurd this id
      | barrier => exact Iff.rfl
    constructor
    · rintro ⟨B, m1, C, h2, h3, rfl⟩
      obtain ⟨rfl, rfl⟩ := (h1 _ _).1 h2
      obtain ⟨rfl, rfl⟩ := (ih fun i hi => hl i (by simp [hi])).1 h3
      exact ⟨(circOp_cons i l).symm, rfl⟩
    · rintro ⟨rfl, rfl⟩
      exact ⟨_, _, _, (h1 _ _).2 ⟨rfl, rfl⟩, (ih fun i hi => hl i (by simp [hi])).2 ⟨rfl, rfl⟩, circOp_cons i l⟩

/-! ### Measurements and resets of several qubits -/

/-- The operator of measuring qubits with given outcomes. -/
noncomputable def projs (o : Qubit → Bool) (l : List Qubit) : Op := (l.map fun q => opP (o q) q).prod

/-- The operator of resetting qubits with given outcomes. -/
noncomputable def clears (o : Qubit → Bool) (l : List Qubit) : Op := (l.map fun q => clear (o q) q * opP (o q) q).prod

theorem opP_comm (v w : Bool) (p q : Qubit) : Commute (opP v p) (opP w q) :=
  Commute.opP (Commute.opP (opZ_comm q p) v).symm w

theorem clear_comm {A : Op} {q : Qubit} (h : Commute A (opX q)) (v : Bool) : Commute A (clear v q) := by
  unfold clear
  cases v
  · exact Commute.one_right A
  · exact h

theorem clears_comm1 {p q : Qubit} (h : p ≠ q) (v w : Bool) : Commute (clear v p * opP v p) (clear w q * opP w q) := by
  have h1 : Commute (clear v p) (clear w q) := clear_comm (clear_comm (opX_comm q p) v).symm w
  have h2 : Commute (clear v p) (opP w q) := (clear_comm (Commute.opP (opX_opZ_comm h) w).symm v).symm
  have h3 : Commute (opP v p) (clear w q) := clear_comm (Commute.opP (opX_opZ_comm (Ne.symm h)) v).symm w
  exact ((h1.mul_left h3).mul_right (h2.mul_left (opP_comm v w p q)))

theorem projs_cons (o : Qubit → Bool) (q : Qubit) (l : List Qubit) : projs o (q :: l) = opP (o q) q * projs o l := by
  simp [projs]

theorem clears_cons (o : Qubit → Bool) (q : Qubit) (l : List Qubit) : clears o (q :: l) = clear (o q) q * opP (o q) q * clears o l := by
  simp [clears]

theorem projs_comm {A : Op} {o : Qubit → Bool} {l : List Qubit} (h : ∀ q ∈ l, Commute A (opZ q)) : Commute A (projs o l) := by
  refine Commute.list_prod_right _ _ fun B hB => ?_
  obtain ⟨q, hq, rfl⟩ := List.mem_map.1 hB
  exact Commute.opP (h q hq) _

theorem clears_comm {A : Op} {o : Qubit → Bool} {l : List Qubit} (h : ∀ q ∈ l, Commute A (opX q) ∧ Commute A (opZ q)) :
    Commute A (clears o l) := by
  refine Commute.list_prod_right _ _ fun B hB => ?_
  obtain ⟨q, hq, rfl⟩ := List.mem_map.1 hB
  exact (clear_comm (h q hq).1 _).mul_right (Commute.opP (h q hq).2 _)

theorem projs_congr {o o' : Qubit → Bool} {l : List Qubit} (h : ∀ q ∈ l, o q = o' q) : projs o l = projs o' l := by
  unfold projs
  congr 1
  exact List.map_congr_left fun q hq => by rw [h q hq]

theorem clears_congr {o o' : Qubit → Bool} {l : List Qubit} (h : ∀ q ∈ l, o q = o' q) : clears o l = clears o' l := by
  unfold clears
  congr 1
  exact List.map_congr_left fun q hq => by rw [h q hq]

theorem projs_perm {o : Qubit → Bool} {l l' : List Qubit} (h : l.Perm l') : projs o l = projs o l' := by
  refine (h.map _).prod_eq' (List.pairwise_map.2 ?_)
  exact List.pairwise_iff_forall_sublist.2 fun _ => opP_comm _ _ _ _

theorem clears_perm {o : Qubit → Bool} {l l' : List Qubit} (h : l.Perm l') (hn : l.Nodup) : clears o l = clears o l' := by
  refine (h.map _).prod_eq' (List.pairwise_map.2 ?_)
  exact List.Pairwise.imp (fun {a b} hab => clears_comm1 hab _ _) hn

/-- Write the outcomes to the classical bits. -/
def writes (o : Qubit → Bool) : List (Qubit × Clbit) → Mem → Mem
  | [], m => m
  | (q, b) :: l, m => writes o l (update m b (o q))

theorem writes_congr {o o' : Qubit → Bool} {l : List (Qubit × Clbit)} {m : Mem} (h : ∀ p ∈ l, o p.1 = o' p.1) :
    writes o l m = writes o' l m := by
  induction l generalizing m with
  | nil => rfl
  | cons p l ih =>
    obtain ⟨q, b⟩ := p
    simp only [writes]
    rw [h (q, b) (by simp)]
    exact ih fun p hp => h p (by simp [hp])

theorem writes_other {o : Qubit → Bool} {l : List (Qubit × Clbit)} {m : Mem} {b : Clbit} (h : b ∉ l.map Prod.snd) :
    writes o l m b = m b := by
  induction l generalizing m with
  | nil => rfl
  | cons p l ih =>
    obtain ⟨q, b'⟩ := p
    simp only [List.map_cons, List.mem_cons, not_or] at h
    simp only [writes]
    rw [ih h.2, update_of_ne h.1]

theorem writes_mem {o : Qubit → Bool} {l : List (Qubit × Clbit)} (hl : (l.map Prod.snd).Nodup) {m : Mem} {q : Qubit} {b : Clbit}
    (h : (q, b) ∈ l) : writes o l m b = o q := by
  induction l generalizing m with
  | nil => cases h
  | cons p l ih =>
    obtain ⟨q', b'⟩ := p
    rw [List.map_cons, List.nodup_cons] at hl
    simp only [writes]
    rcases List.mem_cons.1 h with h | h
    · cases h
      rw [writes_other hl.1, update_self]
    · exact ih hl.2 h

theorem writes_append (o : Qubit → Bool) (l l' : List (Qubit × Clbit)) (m : Mem) : writes o (l ++ l') m = writes o l' (writes o l m) := by
  induction l generalizing m with
  | nil => rfl
  | cons p l ih => exact ih _

theorem kraus_measures {l : List (Qubit × Clbit)} (hl : (l.map Prod.fst).Nodup) {m m' : Mem} {A : Op} :
    Kraus sz (l.map fun p => .measure p.1 p.2) m A m' ↔ ∃ o, A = projs o (l.map Prod.fst) ∧ m' = writes o l m := by
  induction l generalizing m A with
  | nil =>
    constructor
    · rintro ⟨rfl, rfl⟩; exact ⟨fun _ => false, rfl, rfl⟩
    · rintro ⟨o, rfl, rfl⟩; exact ⟨rfl, rfl⟩
  | cons p l ih =>
    obtain ⟨q, b⟩ := p
    rw [List.map_cons, List.nodup_cons] at hl
    constructor
    · rintro ⟨B, m1, C, ⟨v, rfl, rfl⟩, h2, rfl⟩
      obtain ⟨o, rfl, rfl⟩ := (ih hl.2).1 h2
      refine ⟨update o q v, ?_, ?_⟩
      · rw [List.map_cons, projs_cons]
        have e : projs (update o q v) (l.map Prod.fst) = projs o (l.map Prod.fst) :=
          projs_congr fun p hp => update_of_ne (by rintro rfl; exact hl.1 hp) _ _
        simp only [e, update_self]
        exact (projs_comm fun p _ => (Commute.opP (opZ_comm p q) v).symm).symm
      · simp only [writes, update_self]
        exact writes_congr fun p hp => (update_of_ne (fun e => hl.1 (List.mem_map.2 ⟨p, hp, e⟩)) _ _).symm
    · rintro ⟨o, rfl, rfl⟩
      refine ⟨_, _, _, ⟨o q, rfl, rfl⟩, (ih hl.2).2 ⟨o, rfl, rfl⟩, ?_⟩
      rw [List.map_cons, projs_cons]
      exact projs_comm fun p _ => (Commute.opP (opZ_comm p q) _).symm

theorem kraus_resets {l : List Qubit} (hl : l.Nodup) {m m' : Mem} {A : Op} :
    Kraus sz (l.map .reset) m A m' ↔ (∃ o, A = clears o l) ∧ m' = m := by
  induction l generalizing m A with
  | nil =>
    constructor
    · rintro ⟨rfl, rfl⟩; exact ⟨⟨fun _ => false, rfl⟩, rfl⟩
    · rintro ⟨⟨o, rfl⟩, rfl⟩; exact ⟨rfl, rfl⟩
  | cons q l ih =>
    rw [List.nodup_cons] at hl
    have comm : ∀ v o, Commute (clear v q * opP v q) (clears o l) := by
      intro v o
      refine Commute.list_prod_right _ _ fun B hB => ?_
      obtain ⟨p, hp, rfl⟩ := List.mem_map.1 hB
      exact clears_comm1 (by rintro rfl; exact hl.1 hp) _ _
    constructor
    · rintro ⟨B, m1, C, ⟨⟨v, rfl⟩, rfl⟩, h2, rfl⟩
      obtain ⟨⟨o, rfl⟩, rfl⟩ := (ih hl.2).1 h2
      refine ⟨⟨update o q v, ?_⟩, rfl⟩
      rw [clears_cons]
      have e : clears (update o q v) l = clears o l :=
        clears_congr fun p hp => update_of_ne (by rintro rfl; exact hl.1 hp) _ _
      simp only [e, update_self]
      exact (comm v o).symm
    · rintro ⟨⟨o, rfl⟩, rfl⟩
      refine ⟨_, _, _, ⟨⟨o q, rfl⟩, rfl⟩, (ih hl.2).2 ⟨⟨o, rfl⟩, rfl⟩, ?_⟩
      rw [clears_cons]
      exact comm _ _

/-! ### Measuring observables through ancillas -/

theorem isZero_iff {q : Qubit} {ψ : Psi} : IsZero q ψ ↔ opP false q ψ = ψ := by
  have e : opP false q ψ + opP true q ψ = ψ := by
    rw [← LinearMap.add_apply, opP_projOf, opP_projOf, projOf_add]; rfl
  unfold IsZero
  constructor
  · intro h
    rw [h, add_zero] at e; exact e
  · intro h
    rw [h] at e
    exact add_eq_left.1 e

theorem IsZero.of_comm {q : Qubit} {ψ : Psi} {A : Op} (h : IsZero q ψ) (hA : Commute A (opZ q)) : IsZero q (A ψ) := by
  unfold IsZero at *
  rw [← Module.End.mul_apply, ← (Commute.opP hA true).eq, Module.End.mul_apply, h, map_zero]

/-- Copy observables to qubits, in order. -/
noncomputable def copies (g : List (Qubit × Op)) : Op := (g.reverse.map fun p => copy p.1 p.2).prod

/-- Measure observables, in order. -/
noncomputable def measures (o : Qubit → Bool) (g : List (Qubit × Op)) : Op := (g.reverse.map fun p => projOf p.2 (o p.1)).prod

theorem copies_cons (p : Qubit × Op) (g : List (Qubit × Op)) : copies (p :: g) = copies g * copy p.1 p.2 := by
  unfold copies
  rw [List.reverse_cons, List.map_append, List.prod_append]
  simp

theorem measures_cons (o : Qubit → Bool) (p : Qubit × Op) (g : List (Qubit × Op)) : measures o (p :: g) = measures o g * projOf p.2 (o p.1) := by
  unfold measures
  rw [List.reverse_cons, List.map_append, List.prod_append]
  simp

theorem copies_append (g g' : List (Qubit × Op)) : copies (g ++ g') = copies g' * copies g := by
  unfold copies
  rw [List.reverse_append, List.map_append, List.prod_append]

theorem copies_comm {A : Op} {g : List (Qubit × Op)} (h : ∀ p ∈ g, Commute A p.2 ∧ Commute A (opX p.1)) : Commute A (copies g) := by
  refine Commute.list_prod_right _ _ fun B hB => ?_
  obtain ⟨p, hp, rfl⟩ := List.mem_map.1 hB
  rw [List.mem_reverse] at hp
  exact Commute.copy (h p hp).1 (h p hp).2

/-- The qubits are distinct, and the observables do not touch them. -/
structure Apart (g : List (Qubit × Op)) : Prop where
  nodup : (g.map Prod.fst).Nodup
  x : ∀ p ∈ g, ∀ q ∈ g, Commute p.2 (opX q.1)
  z : ∀ p ∈ g, ∀ q ∈ g, Commute p.2 (opZ q.1)

theorem measure_copies {g : List (Qubit × Op)} (G : Apart g) (o r : Qubit → Bool) {ψ : Psi} (h0 : ∀ p ∈ g, IsZero p.1 ψ) :
    (clears r (g.map Prod.fst) * projs o (g.map Prod.fst) * copies g) ψ =
      if (∀ p ∈ g, r p.1 = o p.1) then measures o g ψ else 0 := by
  induction g generalizing ψ with
  | nil => rw [if_pos (by simp)]; rfl
  | cons p g ih =>
    obtain ⟨s, A⟩ := p
    have hn := G.nodup
    rw [List.map_cons, List.nodup_cons] at hn
    have hne : ∀ p ∈ g, s ≠ p.1 := by
      intro p hp e
      exact hn.1 (List.mem_map.2 ⟨p, hp, e.symm⟩)
    have G' : Apart g := ⟨hn.2, fun p hp q hq => G.x p (by simp [hp]) q (by simp [hq]),
      fun p hp q hq => G.z p (by simp [hp]) q (by simp [hq])⟩
    have hx : Commute A (opX s) := G.x (s, A) (by simp) (s, A) (by simp)
    have hz : Commute A (opZ s) := G.z (s, A) (by simp) (s, A) (by simp)
    have cP : Commute (opP (o s) s) (projs o (g.map Prod.fst) * copies g) := by
      refine Commute.mul_right (projs_comm fun q hq => (Commute.opP (opZ_comm q s) _).symm) (copies_comm fun p hp => ?_)
      exact ⟨(Commute.opP (G.z p (by simp [hp]) (s, A) (by simp)) _).symm, (Commute.opP (opX_opZ_comm (Ne.symm (hne p hp))) _).symm⟩
    have cR : Commute (clear (r s) s * opP (r s) s) (clears r (g.map Prod.fst) * (projs o (g.map Prod.fst) * copies g)) := by
      refine Commute.mul_right ?_ (Commute.mul_right ?_ ?_)
      · refine Commute.list_prod_right _ _ fun B hB => ?_
        obtain ⟨q, hq, rfl⟩ := List.mem_map.1 hB
        exact clears_comm1 (by rintro rfl; exact hn.1 hq) _ _
      · refine projs_comm fun q hq => ?_
        have : q ≠ s := by rintro rfl; exact hn.1 hq
        exact ((clear_comm (opX_opZ_comm (Ne.symm this)).symm _).symm).mul_left ((Commute.opP (opZ_comm q s) _).symm)
      · refine copies_comm fun p hp => ⟨?_, ?_⟩
        · exact ((clear_comm (G.x p (by simp [hp]) (s, A) (by simp)) _).symm).mul_left
            ((Commute.opP (G.z p (by simp [hp]) (s, A) (by simp)) _).symm)
        · exact ((clear_comm (opX_comm p.1 s) _).symm).mul_left ((Commute.opP (opX_opZ_comm (Ne.symm (hne p hp))) _).symm)
    have e : clears r ((s, A) :: g |>.map Prod.fst) * projs o ((s, A) :: g |>.map Prod.fst) * copies ((s, A) :: g) =
        clears r (g.map Prod.fst) * projs o (g.map Prod.fst) * copies g * (clear (r s) s * opP (r s) s * (opP (o s) s * copy s A)) := by
      rw [List.map_cons, clears_cons, projs_cons, copies_cons]
      have e1 := cP.eq
      have e2 := cR.eq
      generalize clear (r s) s * opP (r s) s = R at *
      generalize clears r (g.map Prod.fst) = CL at *
      generalize projs o (g.map Prod.fst) = PR at *
      generalize opP (o s) s = P at *
      generalize copies g = CO at *
      calc R * CL * (P * PR) * (CO * copy s A) = R * CL * (P * (PR * CO)) * copy s A := by simp only [mul_assoc]
        _ = R * (CL * (PR * CO)) * (P * copy s A) := by rw [e1]; simp only [mul_assoc]
        _ = CL * PR * CO * (R * (P * copy s A)) := by rw [e2]; simp only [mul_assoc]
    have hs := isZero_iff.1 (h0 (s, A) (by simp))
    have hk : (clear (r s) s * opP (r s) s * (opP (o s) s * copy s A)) ψ = if r s = o s then projOf A (o s) ψ else 0 := by
      rw [← hs]
      rw [← Module.End.mul_apply, ← Module.End.mul_apply]
      have h1 := measure_copy hx hz (o s)
      rw [mul_assoc, h1]
      by_cases h : r s = o s
      · rw [if_pos h, h]
        have h2 : opP (o s) s * (clear (o s) s * projOf A (o s) * opP false s) = clear (o s) s * projOf A (o s) * opP false s := by
          rw [← h1, ← mul_assoc, ← mul_assoc, opP_sq]
        rw [mul_assoc, h2, ← mul_assoc, ← mul_assoc, clear_sq, one_mul]
      · rw [if_neg h, ← h1, mul_assoc, ← mul_assoc (opP (r s) s), ← mul_assoc (opP (r s) s), opP_mul s h]
        simp
    rw [e, Module.End.mul_apply, hk]
    by_cases h : r s = o s
    · rw [if_pos h, ih G' fun p hp => IsZero.of_comm (h0 p (by simp [hp])) ?_]
      · rw [measures_cons]
        by_cases h' : ∀ p ∈ g, r p.1 = o p.1
        · rw [if_pos h', if_pos (by
            intro p hp
            rcases List.mem_cons.1 hp with rfl | hp
            · exact h
            · exact h' p hp)]
          rfl
        · rw [if_neg h', if_neg (fun h'' => h' fun p hp => h'' p (by simp [hp]))]
      · exact (Commute.proj (G.z (s, A) (by simp) p (by simp [hp])).symm _).symm
    · rw [if_neg h, if_neg (fun h'' => h (h'' (s, A) (by simp))), map_zero]

end Qtc
