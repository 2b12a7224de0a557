import Verif.Proof.QNoisy
import Verif.Spec.CircuitNoise
/-!
How Pauli errors spread through circuits.
-/
namespace Qtc
open Spec Function

variable {sz : Str → Nat}

/-! ### One error and one instruction -/

/-- The operator of something that is wrong. -/
def Mark.op : Mark → Op
  | .pauli a q => a.op q
  | .bit _ => 1

@[simp] theorem wrongOp_nil : wrongOp [] = 1 := rfl

theorem wrongOp_cons (k : Mark) (F : List Mark) : wrongOp (k :: F) = Mark.op k * wrongOp F := by
  unfold wrongOp
  cases k with
  | pauli a q => simp [Mark.letter?, pstr, Mark.op]
  | bit b => rw [List.filterMap_cons_none rfl]; exact (one_mul _).symm

theorem wrongOp_append (F G : List Mark) : wrongOp (F ++ G) = wrongOp F * wrongOp G := by
  induction F with
  | nil => simp
  | cons k F ih => rw [List.cons_append, wrongOp_cons, wrongOp_cons, ih, mul_assoc]

theorem wrongMem_nil (m : Mem) : wrongMem [] m = m := by
  funext b; simp [wrongMem]

theorem wrongMem_append (F G : List Mark) (m : Mem) : wrongMem (F ++ G) m = wrongMem F (wrongMem G m) := by
  funext b
  simp only [wrongMem, List.map_append, xorAll_append]
  generalize m b = a
  generalize xorAll _ = c
  generalize xorAll _ = d
  revert a c d; decide

theorem wrongMem_pauli (a : Letter) (q : Qubit) (m : Mem) : wrongMem [.pauli a q] m = m := by
  funext b; simp [wrongMem]

theorem wrongMem_pauli2 (a a' : Letter) (q q' : Qubit) (m : Mem) : wrongMem [.pauli a q, .pauli a' q'] m = m := by
  funext b; simp [wrongMem]

theorem opCX_X {a b : Qubit} (h : a ≠ b) : opCX a b * opX a = opX a * opX b * opCX a b := by
  refine LinearMap.ext fun ψ => funext fun c => ?_
  show (if c a then ψ (update (update c b (!c b)) a (!(update c b (!c b)) a)) else ψ (update c a (!c a))) =
    (if (update (update c a (!c a)) b (!(update c a (!c a)) b)) a then
      ψ (update (update (update c a (!c a)) b (!(update c a (!c a)) b)) b (!(update (update c a (!c a)) b (!(update c a (!c a)) b)) b)) else
      ψ (update (update c a (!c a)) b (!(update c a (!c a)) b)))
  simp only [update_of_ne h, update_of_ne (Ne.symm h), update_self, update_idem, Bool.not_not]
  have e : update (update c a (!c a)) b (c b) = update c a (!c a) := by
    rw [← update_of_ne (Ne.symm h) (!c a) c, update_eq_self]
  rw [e]
  cases c a
  · simp
  · simp only [Bool.not_true, if_true, Bool.false_eq_true, if_false]
    rw [update_comm h]

theorem opCX_Z (a b : Qubit) : opCX a b * opZ b = opZ b * opZ a * opCX a b := by
  refine LinearMap.ext fun ψ => funext fun c => ?_
  show (if c a then sg ((update c b (!c b)) b) * ψ (update c b (!c b)) else sg (c b) * ψ c) =
    sg (c b) * (sg (c a) * (if c a then ψ (update c b (!c b)) else ψ c))
  rw [update_self, sg_not]
  cases c a <;> simp

theorem opCX_comm {A : Op} {a b : Qubit} (h1 : Commute A (opZ a)) (h2 : Commute A (opX b)) : opCX a b * A = A * opCX a b := by
  rw [opCX_copy]
  exact (Commute.copy h1 h2).symm

theorem opCZ_X {a b : Qubit} (h : a ≠ b) : opCZ a b * opX a = opX a * opZ b * opCZ a b := by
  refine LinearMap.ext fun ψ => funext fun c => ?_
  show (if c a && c b then -ψ (update c a (!c a)) else ψ (update c a (!c a))) =
    sg ((update c a (!c a)) b) * (if (update c a (!c a)) a && (update c a (!c a)) b then -ψ (update c a (!c a)) else ψ (update c a (!c a)))
  rw [update_self, update_of_ne (Ne.symm h)]
  cases c a <;> cases c b <;> simp

theorem opCZ_swap (a b : Qubit) : opCZ a b = opCZ b a := by
  refine LinearMap.ext fun ψ => funext fun c => ?_
  show (if c a && c b then -ψ c else ψ c) = (if c b && c a then -ψ c else ψ c)
  rw [Bool.and_comm]

theorem opCZ_comm {A : Op} {a b : Qubit} (h1 : Commute A (opZ a)) (h2 : Commute A (opZ b)) : opCZ a b * A = A * opCZ a b := by
  rw [opCZ_eq]
  exact ((Commute.opP h1 _).add_right ((Commute.opP h1 _).mul_right h2)).symm

/-- The statement for one thing that is wrong. -/
def Spreads (sz : Str → Nat) (i : Instr) (k : Mark) : Prop :=
  ∀ m m' A, Kraus1 sz i (wrongMem [k] m) A m' → ∃ B m0 v, Kraus1 sz i m B m0 ∧ A * Mark.op k = sg v • (wrongOp (spread i k) * B) ∧
    m' = wrongMem (spread i k) m0

theorem spreads_gate {i : Instr} {C : Op} (hi : ∀ m A m', Kraus1 sz i m A m' ↔ A = C ∧ m' = m) {a : Letter} {q : Qubit} {k' : List Mark}
    (hs : spread i (.pauli a q) = k') (hm : ∀ m, wrongMem k' m = m) {v : Bool} (h : C * a.op q = sg v • (wrongOp k' * C)) :
    Spreads sz i (.pauli a q) := by
  intro m m' A hA
  rw [wrongMem_pauli, hi] at hA
  obtain ⟨rfl, rfl⟩ := hA
  refine ⟨_, _, v, (hi _ _ _).2 ⟨rfl, rfl⟩, ?_, ?_⟩
  · rw [hs]; exact h
  · rw [hs, hm]

theorem wrongOp_one (a : Letter) (q : Qubit) : wrongOp [.pauli a q] = a.op q := by
  rw [wrongOp_cons, wrongOp_nil, mul_one]; rfl

theorem wrongOp_two (a a' : Letter) (q q' : Qubit) : wrongOp [.pauli a q, .pauli a' q'] = a.op q * a'.op q' := by
  rw [wrongOp_cons, wrongOp_one]; rfl

theorem spreads_fixed {i : Instr} {C : Op} (hi : ∀ m A m', Kraus1 sz i m A m' ↔ A = C ∧ m' = m) {a : Letter} {q : Qubit}
    (hs : spread i (.pauli a q) = [.pauli a q]) {v : Bool} (h : Passes v C (a.op q)) : Spreads sz i (.pauli a q) :=
  spreads_gate hi hs (wrongMem_pauli _ _) (v := v) (by rw [wrongOp_one]; exact h)

theorem spreads_bit {i : Instr} {C : Op} (hi : ∀ m A m', Kraus1 sz i m A m' ↔ A = C ∧ m' = m) {b : Clbit}
    (hs : spread i (.bit b) = [.bit b]) : Spreads sz i (.bit b) := by
  intro m m' A hA
  rw [hi] at hA
  obtain ⟨rfl, rfl⟩ := hA
  refine ⟨_, _, false, (hi _ _ _).2 ⟨rfl, rfl⟩, ?_, ?_⟩
  · rw [hs]
    simp [wrongOp_cons, Mark.op]
  · rw [hs]

theorem letters_pass (a a' : Letter) (q q' : Qubit) : ∃ v, Passes v (a.op q) (a'.op q') := by
  by_cases h : q = q'
  · subst h
    cases a <;> cases a'
    · exact ⟨false, passes_false.2 (opX_comm q q)⟩
    · exact ⟨true, passes_XZ q⟩
    · exact ⟨true, (passes_XZ q).symm⟩
    · exact ⟨false, passes_false.2 (opZ_comm q q)⟩
  · exact ⟨false, passes_false.2 (letter_comm h a a')⟩

theorem spreads_gate1 (g : G1) (q : Qubit) (k : Mark) : Spreads sz (.gate1 g q none) k := by
  have hi : ∀ m A m', Kraus1 sz (.gate1 g q none) m A m' ↔ A = gate1Op g q ∧ m' = m := fun _ _ _ => Iff.rfl
  cases k with
  | bit b => exact spreads_bit hi (by cases g <;> rfl)
  | pauli a q' =>
    cases g with
    | x =>
      obtain ⟨v, hv⟩ := letters_pass .X a q q'
      exact spreads_fixed hi rfl hv
    | z =>
      obtain ⟨v, hv⟩ := letters_pass .Z a q q'
      exact spreads_fixed hi rfl hv
    | id => exact spreads_fixed hi rfl (passes_false.2 (Commute.one_left _))
    | h =>
      by_cases h : q' = q
      · subst h
        refine spreads_gate hi (k' := [.pauli a.other q']) (by simp [spread]) (wrongMem_pauli _ _) (v := false) ?_
        rw [wrongOp_one, sg_false, one_smul]
        cases a
        · exact opH_opX q'
        · exact opH_opZ q'
      · refine spreads_fixed hi (by simp [spread, h]) (v := false) (passes_false.2 ?_)
        exact (Commute.hadamard (letter_comm h a .X) (letter_comm h a .Z)).symm

theorem spreads_gate2 (g : G2) {a b : Qubit} (hab : a ≠ b) (k : Mark) : Spreads sz (.gate2 g a b) k := by
  have hi : ∀ m A m', Kraus1 sz (.gate2 g a b) m A m' ↔ A = gate2Op g a b ∧ m' = m := fun _ _ _ => Iff.rfl
  cases k with
  | bit b => exact spreads_bit hi (by cases g <;> rfl)
  | pauli l q =>
    cases g with
    | cx =>
      cases l with
      | X =>
        by_cases h : q = a
        · subst h
          refine spreads_gate hi (k' := [.pauli .X q, .pauli .X b]) (by simp [spread]) (wrongMem_pauli2 _ _ _ _) (v := false) ?_
          rw [wrongOp_two, sg_false, one_smul]
          exact opCX_X hab
        · refine spreads_fixed hi (by simp [spread, h]) (v := false) (passes_false.2 ?_)
          exact opCX_comm (opX_opZ_comm h) (opX_comm _ _)
      | Z =>
        by_cases h : q = b
        · subst h
          refine spreads_gate hi (k' := [.pauli .Z q, .pauli .Z a]) (by simp [spread]) (wrongMem_pauli2 _ _ _ _) (v := false) ?_
          rw [wrongOp_two, sg_false, one_smul]
          exact opCX_Z a q
        · refine spreads_fixed hi (by simp [spread, h]) (v := false) (passes_false.2 ?_)
          exact opCX_comm (opZ_comm _ _) (opX_opZ_comm (Ne.symm h)).symm
    | cz =>
      cases l with
      | X =>
        by_cases h : q = a
        · subst h
          refine spreads_gate hi (k' := [.pauli .X q, .pauli .Z b]) (by simp [spread]) (wrongMem_pauli2 _ _ _ _) (v := false) ?_
          rw [wrongOp_two, sg_false, one_smul]
          exact opCZ_X hab
        · by_cases h' : q = b
          · subst h'
            refine spreads_gate hi (k' := [.pauli .X q, .pauli .Z a]) (by simp [spread, h]) (wrongMem_pauli2 _ _ _ _) (v := false) ?_
            rw [wrongOp_two, sg_false, one_smul]
            show opCZ a q * opX q = opX q * opZ a * opCZ a q
            rw [opCZ_swap]
            exact opCZ_X (Ne.symm hab)
          · refine spreads_fixed hi (by simp [spread, h, h']) (v := false) (passes_false.2 ?_)
            exact opCZ_comm (opX_opZ_comm h) (opX_opZ_comm h')
      | Z =>
        refine spreads_fixed hi rfl (v := false) (passes_false.2 ?_)
        exact opCZ_comm (opZ_comm _ _) (opZ_comm _ _)

theorem wrongMem_bit_update (b : Clbit) (m : Mem) (v : Bool) : update (wrongMem [.bit b] m) b v = update m b v := by
  funext c
  by_cases h : c = b
  · subst h; rw [update_self, update_self]
  · rw [update_of_ne h, update_of_ne h]
    have : Mark.bit b ≠ Mark.bit c := fun e => h (by cases e; rfl)
    simp [wrongMem, this]

theorem wrongMem_bit_other {b b' : Clbit} (h : b' ≠ b) (m : Mem) (v : Bool) : update (wrongMem [.bit b'] m) b v = wrongMem [.bit b'] (update m b v) := by
  funext c
  by_cases hc : c = b
  · subst hc
    have : Mark.bit b' ≠ Mark.bit c := fun e => h (by cases e; rfl)
    simp [wrongMem, this]
  · rw [update_of_ne hc]
    simp only [wrongMem, update_of_ne hc]

theorem opP_X (v : Bool) (q : Qubit) : opP v q * opX q = opX q * opP (!v) q := by
  rw [opX_opP, Bool.not_not]

theorem spreads_measure (q : Qubit) (b : Clbit) (k : Mark) : Spreads sz (.measure q b) k := by
  intro m m' A hA
  obtain ⟨v, rfl, rfl⟩ := hA
  cases k with
  | bit b' =>
    refine ⟨_, _, false, ⟨v, rfl, rfl⟩, ?_, ?_⟩
    · have : wrongOp (spread (.measure q b) (.bit b')) = 1 := by
        simp only [spread]
        split
        · rfl
        · rw [wrongOp_cons]; exact mul_one _
      rw [this, sg_false, one_smul, one_mul]
      exact mul_one _
    · simp only [spread]
      split
      · next h => subst h; rw [wrongMem_bit_update, wrongMem_nil]
      · next h => exact wrongMem_bit_other h m v
  | pauli a q' =>
    rw [wrongMem_pauli]
    cases a with
    | Z =>
      refine ⟨_, _, false, ⟨v, rfl, rfl⟩, ?_, (wrongMem_pauli _ _ _).symm⟩
      rw [sg_false, one_smul]
      show opP v q * opZ q' = wrongOp [.pauli .Z q'] * opP v q
      rw [wrongOp_one]
      exact (Commute.opP (opZ_comm _ _) v).symm
    | X =>
      by_cases h : q' = q
      · subst h
        refine ⟨_, _, false, ⟨!v, rfl, rfl⟩, ?_, ?_⟩
        · simp only [spread, if_true, sg_false, one_smul, wrongOp_cons, wrongOp_nil, Mark.op, mul_one]
          exact opP_X v q'
        · simp only [spread, if_true]
          funext c
          by_cases hc : c = b
          · subst hc
            simp [wrongMem]
          · have : Mark.bit b ≠ Mark.bit c := fun e => hc (by cases e; rfl)
            simp [wrongMem, update_of_ne hc, this]
      · refine ⟨_, _, false, ⟨v, rfl, rfl⟩, ?_, ?_⟩
        · simp only [spread, if_neg h, sg_false, one_smul, wrongOp_one]
          exact (Commute.opP (opX_opZ_comm h) v).symm
        · simp only [spread, if_neg h, wrongMem_pauli]

theorem clear_X (v : Bool) (q : Qubit) : clear v q * opX q = clear (!v) q := by
  unfold clear
  cases v
  · simp
  · simp

theorem opP_Z (v : Bool) (q : Qubit) : opP v q * opZ q = sg v • opP v q := by
  rw [← (Commute.opP (Commute.refl (opZ q)) v).eq, opP_projOf, mul_projOf (opZ_sq q)]

theorem spreads_reset (q : Qubit) (k : Mark) : Spreads sz (.reset q) k := by
  intro m m' A hA
  obtain ⟨⟨v, rfl⟩, rfl⟩ := hA
  cases k with
  | bit b' =>
    refine ⟨_, _, false, ⟨⟨v, rfl⟩, rfl⟩, ?_, rfl⟩
    rw [sg_false, one_smul]
    show _ * 1 = wrongOp [.bit b'] * _
    rw [wrongOp_cons]
    show _ * 1 = (1 * 1) * _
    rw [mul_one, mul_one, one_mul]
  | pauli a q' =>
    rw [wrongMem_pauli]
    by_cases h : q' = q
    · subst h
      simp only [spread, if_true, wrongOp_nil, one_mul, wrongMem_nil]
      cases a with
      | X =>
        refine ⟨_, _, false, ⟨⟨!v, rfl⟩, rfl⟩, ?_, rfl⟩
        show clear v q' * opP v q' * opX q' = _
        rw [mul_assoc, opP_X, ← mul_assoc, clear_X, sg_false, one_smul]
      | Z =>
        refine ⟨_, _, v, ⟨⟨v, rfl⟩, rfl⟩, ?_, rfl⟩
        show clear v q' * opP v q' * opZ q' = _
        rw [mul_assoc, opP_Z, mul_smul_comm]
    · simp only [spread, if_neg h, wrongOp_one, wrongMem_pauli]
      refine ⟨_, _, false, ⟨⟨v, rfl⟩, rfl⟩, ?_, rfl⟩
      rw [sg_false, one_smul]
      exact ((clear_comm (letter_comm h a .X) v).mul_right (Commute.opP (letter_comm h a .Z) v)).symm

theorem spreads {i : Instr} (hp : i.Proper) (hi : i.Plain) (k : Mark) : Spreads sz i k := by
  cases i with
  | gate1 g q c =>
    cases c with
    | none => exact spreads_gate1 g q k
    | some c => exact absurd hi id
  | gate2 g a b => exact spreads_gate2 g hp k
  | measure q b => exact spreads_measure q b k
  | reset q => exact spreads_reset q k
  | barrier =>
    cases k with
    | bit b => exact spreads_bit (i := .barrier) (fun _ _ _ => Iff.rfl) rfl
    | pauli a q => exact spreads_fixed (i := .barrier) (fun _ _ _ => Iff.rfl) rfl (passes_false.2 (Commute.one_left _))

/-! ### Many errors and many instructions -/

theorem spreads_all {i : Instr} (hp : i.Proper) (hi : i.Plain) (F : List Mark) {m m' : Mem} {A : Op} (hA : Kraus1 sz i (wrongMem F m) A m') :
    ∃ B m0 v, Kraus1 sz i m B m0 ∧ A * wrongOp F = sg v • (wrongOp (F.flatMap (spread i)) * B) ∧ m' = wrongMem (F.flatMap (spread i)) m0 := by
  induction F generalizing m' A with
  | nil =>
    rw [wrongMem_nil] at hA
    refine ⟨A, m', false, hA, ?_, (wrongMem_nil _).symm⟩
    simp
  | cons k F ih =>
    rw [← List.singleton_append, wrongMem_append] at hA
    obtain ⟨B, m1, v, hB, e, rfl⟩ := spreads hp hi k _ _ _ hA
    obtain ⟨C, m2, u, hC, e', rfl⟩ := ih hB
    refine ⟨C, m2, v ^^ u, hC, ?_, ?_⟩
    · rw [wrongOp_cons, ← mul_assoc, e, smul_mul_assoc, mul_assoc, e', mul_smul_comm, smul_smul, ← sg_xor, List.flatMap_cons, wrongOp_append,
        mul_assoc]
    · rw [List.flatMap_cons, wrongMem_append]

theorem wrongMem_perm {F G : List Mark} (h : F.Perm G) (m : Mem) : wrongMem F m = wrongMem G m := by
  funext b
  simp only [wrongMem]
  rw [xorAll_perm (h.map _)]

theorem marks_pass (k k' : Mark) : ∃ v, Passes v (Mark.op k) (Mark.op k') := by
  cases k with
  | bit b => exact ⟨false, passes_false.2 (Commute.one_left _)⟩
  | pauli a q =>
    cases k' with
    | bit b => exact ⟨false, passes_false.2 (Commute.one_right _)⟩
    | pauli a' q' => exact letters_pass a a' q q'

theorem wrongOp_perm {F G : List Mark} (h : F.Perm G) : ∃ v, wrongOp F = sg v • wrongOp G := by
  induction h with
  | nil => exact ⟨false, by simp⟩
  | cons k _ ih =>
    obtain ⟨v, e⟩ := ih
    exact ⟨v, by rw [wrongOp_cons, wrongOp_cons, e, mul_smul_comm]⟩
  | swap k k' F =>
    obtain ⟨v, e⟩ := marks_pass k' k
    refine ⟨v, ?_⟩
    unfold Passes at e
    rw [wrongOp_cons, wrongOp_cons, wrongOp_cons, wrongOp_cons, ← mul_assoc, e, smul_mul_assoc, mul_assoc]
  | trans _ _ ih ih' =>
    obtain ⟨v, e⟩ := ih
    obtain ⟨u, e'⟩ := ih'
    exact ⟨v ^^ u, by rw [e, e', smul_smul, sg_xor]⟩

theorem travel_append (l l' : List Instr) (F : List Mark) : travel (l ++ l') F = travel l' (travel l F) := by
  induction l generalizing F with
  | nil => rfl
  | cons i l ih => exact ih _

theorem travel_hom (l : List Instr) (F G : List Mark) : travel l (F ++ G) = travel l F ++ travel l G := by
  induction l generalizing F G with
  | nil => rfl
  | cons i l ih =>
    simp only [travel, List.flatMap_append]
    exact ih _ _

theorem travel_nil (l : List Instr) : travel l [] = [] := by
  induction l with
  | nil => rfl
  | cons i l ih => exact ih

theorem travel_flatMap {α : Type} (l : List Instr) (f : α → List Mark) (as : List α) : travel l (as.flatMap f) = as.flatMap fun a => travel l (f a) := by
  induction as with
  | nil => exact travel_nil l
  | cons a as ih => rw [List.flatMap_cons, List.flatMap_cons, travel_hom, ih]

theorem travel_perm (l : List Instr) {F G : List Mark} (h : F.Perm G) : (travel l F).Perm (travel l G) := by
  induction l generalizing F G with
  | nil => exact h
  | cons i l ih => exact ih (h.flatMap_right _)

/-- What the errors from instruction `k` on, where `l` begins, leave behind. -/
def trail (E : List Slip) (k : Nat) (l : List Instr) : List Mark :=
  (E.filter fun s => k ≤ s.pos).flatMap fun s => travel (l.drop (s.pos - k)) s.marks

theorem trail_zero (E : List Slip) (l : List Instr) : trail E 0 l = wrongAfter E l := by
  unfold trail wrongAfter
  rw [List.filter_eq_self.2 (by simp)]
  rfl

theorem filter_split (E : List Slip) (k : Nat) :
    (E.filter fun s => k ≤ s.pos).Perm ((E.filter fun s => s.pos = k) ++ E.filter fun s => k + 1 ≤ s.pos) := by
  induction E with
  | nil => exact List.Perm.refl _
  | cons s E ih =>
    rcases Nat.lt_trichotomy s.pos k with h | h | h
    · rw [List.filter_cons_of_neg (by simp; omega), List.filter_cons_of_neg (by simp; omega), List.filter_cons_of_neg (by simp; omega)]
      exact ih
    · rw [List.filter_cons_of_pos (by simp; omega), List.filter_cons_of_pos (by simp; omega), List.filter_cons_of_neg (by simp; omega)]
      exact ih.cons _
    · rw [List.filter_cons_of_pos (by simp; omega), List.filter_cons_of_neg (by simp; omega), List.filter_cons_of_pos (by simp; omega)]
      exact (ih.cons _).trans List.perm_middle.symm

theorem trail_cons (E : List Slip) (k : Nat) (i : Instr) (l : List Instr) :
    (trail E k (i :: l)).Perm (travel (i :: l) ((E.filter fun s => s.pos = k).flatMap Slip.marks) ++ trail E (k + 1) l) := by
  unfold trail
  refine ((filter_split E k).flatMap_right _).trans ?_
  rw [List.flatMap_append, travel_flatMap]
  have e1 : ((E.filter fun s => s.pos = k).flatMap fun s => travel ((i :: l).drop (s.pos - k)) s.marks) =
      (E.filter fun s => s.pos = k).flatMap fun s => travel (i :: l) s.marks := by
    refine List.flatMap_congr fun s hs => ?_
    have := of_decide_eq_true (List.mem_filter.1 hs).2
    rw [this, Nat.sub_self, List.drop_zero]
  have e2 : ((E.filter fun s => k + 1 ≤ s.pos).flatMap fun s => travel ((i :: l).drop (s.pos - k)) s.marks) =
      (E.filter fun s => k + 1 ≤ s.pos).flatMap fun s => travel (l.drop (s.pos - (k + 1))) s.marks := by
    refine List.flatMap_congr fun s hs => ?_
    have := of_decide_eq_true (List.mem_filter.1 hs).2
    rw [show s.pos - k = (s.pos - (k + 1)) + 1 by omega, List.drop_succ_cons]
  rw [e1, e2]

/-- The gates of errors are the operators of what is wrong after them. -/
theorem kraus_slips (E : List Slip) {m m' : Mem} {A : Op} (hA : Kraus sz (E.flatMap Slip.gates) m A m') :
    m' = m ∧ ∃ v, A = sg v • wrongOp (E.flatMap Slip.marks) := by
  have hg : ∀ i ∈ E.flatMap Slip.gates, i.IsGate := by
    intro i hi
    obtain ⟨s, -, hi⟩ := List.mem_flatMap.1 hi
    unfold Slip.gates at hi
    rcases List.mem_append.1 hi with hi | hi
    · split at hi
      · rw [List.mem_singleton.1 hi]; trivial
      · cases hi
    · split at hi
      · rw [List.mem_singleton.1 hi]; trivial
      · cases hi
  obtain ⟨rfl, rfl⟩ := (kraus_gates hg).1 hA
  refine ⟨rfl, ?_⟩
  clear hA hg
  induction E with
  | nil => exact ⟨false, by simp⟩
  | cons s E ih =>
    obtain ⟨v, e⟩ := ih
    have h1 : ∃ u, circOp s.gates = sg u • wrongOp s.marks := by
      unfold Slip.gates Slip.marks
      cases s.x <;> cases s.z
      · exact ⟨false, by simp⟩
      · exact ⟨false, by simp [gateOp, gate1Op, wrongOp_one, Letter.op]⟩
      · exact ⟨false, by simp [gateOp, gate1Op, wrongOp_one, Letter.op]⟩
      · refine ⟨true, ?_⟩
        simp only [if_true, List.singleton_append, circOp_cons, circOp_nil, gateOp, gate1Op, one_mul, wrongOp_two, Letter.op]
        rw [opX_opZ_anti, sg_true, neg_one_smul_op, neg_neg]
    obtain ⟨u, eu⟩ := h1
    obtain ⟨t, et⟩ := wrongOp_perm (List.perm_append_comm (l₁ := E.flatMap Slip.marks) (l₂ := s.marks))
    refine ⟨(v ^^ u) ^^ t, ?_⟩
    rw [List.flatMap_cons, circOp_append, e, eu, smul_mul_smul_comm, ← sg_xor, ← wrongOp_append, et, smul_smul, ← sg_xor, List.flatMap_cons]

theorem smul_perm {F G : List Mark} (h : F.Perm G) (v : Bool) : ∃ u, sg v • wrongOp F = sg u • wrongOp G := by
  obtain ⟨t, e⟩ := wrongOp_perm h
  exact ⟨v ^^ t, by rw [e, smul_smul, sg_xor]⟩

/-- Errors in a circuit amount to what they leave behind, after the circuit without errors. -/
theorem kraus_slipped (E : List Slip) {l : List Instr} (hl : ∀ i ∈ l, i.Proper ∧ i.Plain) (k : Nat) (F : List Mark) {m m' : Mem} {A : Op}
    (hA : Kraus sz (slipped E k l) (wrongMem F m) A m') : ∃ B m0 v, Kraus sz l m B m0 ∧
      A * wrongOp F = sg v • (wrongOp (travel l F ++ trail E k l) * B) ∧ m' = wrongMem (travel l F ++ trail E k l) m0 := by
  induction l generalizing k F m m' A with
  | nil =>
    obtain ⟨rfl, v, rfl⟩ := kraus_slips _ hA
    have e : trail E k [] = (E.filter fun s => k ≤ s.pos).flatMap Slip.marks := by
      unfold trail
      exact List.flatMap_congr fun s _ => by rw [List.drop_nil]; rfl
    refine ⟨1, m, ?_⟩
    obtain ⟨u, eu⟩ := smul_perm (List.perm_append_comm (l₁ := (E.filter fun s => k ≤ s.pos).flatMap Slip.marks) (l₂ := F)) v
    refine ⟨u, ⟨rfl, rfl⟩, ?_, ?_⟩
    · rw [e, smul_mul_assoc, ← wrongOp_append, eu, mul_one]
      rfl
    · rw [e, wrongMem_append]
      show wrongMem F m = wrongMem F _
      congr 1
      funext b
      have : xorAll (((E.filter fun s => k ≤ s.pos).flatMap Slip.marks).map fun k => decide (k = .bit b)) = false := by
        refine xorAll_eq_false fun x hx => ?_
        obtain ⟨y, hy, rfl⟩ := List.mem_map.1 hx
        obtain ⟨s, -, hy⟩ := List.mem_flatMap.1 hy
        exact decide_eq_false fun e => by
          subst e
          unfold Slip.marks at hy
          rcases List.mem_append.1 hy with hy | hy
          · split at hy <;> simp at hy
          · split at hy <;> simp at hy
      simp [wrongMem, this]
  | cons i l ih =>
    obtain ⟨B, m1, C, h1, ⟨D, m2, D', h2, h3, rfl⟩, rfl⟩ := Kraus.append.1 hA
    obtain ⟨rfl, v, rfl⟩ := kraus_slips _ h1
    set M := (E.filter fun s => s.pos = k).flatMap Slip.marks with hM
    have eM : wrongMem F m = wrongMem (M ++ F) m := by
      rw [wrongMem_append]
      funext b
      have : xorAll (M.map fun k => decide (k = .bit b)) = false := by
        refine xorAll_eq_false fun x hx => ?_
        obtain ⟨y, hy, rfl⟩ := List.mem_map.1 hx
        obtain ⟨s, -, hy⟩ := List.mem_flatMap.1 hy
        exact decide_eq_false fun e => by
          subst e
          unfold Slip.marks at hy
          rcases List.mem_append.1 hy with hy | hy
          · split at hy <;> simp at hy
          · split at hy <;> simp at hy
      conv_rhs => rw [wrongMem, this, Bool.xor_false]
    rw [eM] at h2
    obtain ⟨B', m3, u, hB', e', rfl⟩ := spreads_all (hl i (by simp)).1 (hl i (by simp)).2 _ h2
    obtain ⟨B'', m4, t, hB'', e'', rfl⟩ := ih (fun i hi => hl i (by simp [hi])) (k + 1) _ h3
    have hperm : (travel l ((M ++ F).flatMap (spread i)) ++ trail E (k + 1) l).Perm (travel (i :: l) F ++ trail E k (i :: l)) := by
      have e1 : travel l ((M ++ F).flatMap (spread i)) = travel (i :: l) M ++ travel (i :: l) F := travel_hom (i :: l) M F
      rw [e1]
      refine List.Perm.trans ?_ ((trail_cons E k i l).symm.append_left _)
      rw [← List.append_assoc]
      exact List.perm_append_comm.append_right _
    obtain ⟨x, ex⟩ := smul_perm hperm (v ^^ (u ^^ t))
    refine ⟨B'' * B', m4, x, ⟨B', m3, B'', hB', hB'', rfl⟩, ?_, wrongMem_perm hperm _⟩
    rw [← smul_mul_assoc, ← ex]
    calc D' * D * (sg v • wrongOp M) * wrongOp F = sg v • (D' * (D * wrongOp (M ++ F))) := by
          rw [wrongOp_append]
          simp only [mul_smul_comm, smul_mul_assoc, mul_assoc]
      _ = sg v • sg u • (D' * wrongOp ((M ++ F).flatMap (spread i)) * B') := by
          rw [e', mul_smul_comm, mul_assoc]
      _ = sg v • sg u • sg t • (wrongOp (travel l ((M ++ F).flatMap (spread i)) ++ trail E (k + 1) l) * B'' * B') := by
          rw [e'', smul_mul_assoc]
      _ = _ := by
          rw [smul_smul, smul_smul, ← sg_xor, ← sg_xor, smul_mul_assoc, mul_assoc]
          rw [Bool.xor_assoc]

theorem Slip.gates_proper {E : List Slip} : ∀ i ∈ E.flatMap Slip.gates, i.Proper := by
  intro i hi
  obtain ⟨s, -, hi⟩ := List.mem_flatMap.1 hi
  unfold Slip.gates at hi
  rcases List.mem_append.1 hi with hi | hi
  · split at hi
    · rw [List.mem_singleton.1 hi]; trivial
    · cases hi
  · split at hi
    · rw [List.mem_singleton.1 hi]; trivial
    · cases hi

theorem slipped_proper {E : List Slip} {l : List Instr} (hl : ∀ i ∈ l, i.Proper) (k : Nat) : ∀ i ∈ slipped E k l, i.Proper := by
  induction l generalizing k with
  | nil => exact Slip.gates_proper
  | cons i l ih =>
    intro j hj
    rcases List.mem_append.1 hj with hj | hj
    · exact Slip.gates_proper j hj
    · rcases List.mem_cons.1 hj with rfl | hj
      · exact hl _ (by simp)
      · exact ih (fun i hi => hl i (by simp [hi])) _ j hj

/-- Every execution of a circuit with errors is an execution without errors followed by what the errors have become. -/
theorem run_slipped (E : List Slip) {l : List Instr} (hl : ∀ i ∈ l, i.Proper ∧ i.Plain) {s s' : QState} (h0 : s.psi ≠ 0)
    (h : Run sz (slipped E 0 l) s s') : ∃ t v, Run sz l s t ∧ t.psi ≠ 0 ∧ s'.psi = sg v • wrongOp (wrongAfter E l) t.psi ∧
      s'.mem = wrongMem (wrongAfter E l) t.mem := by
  obtain ⟨A, hA, e, hn⟩ := (run_iff (slipped_proper (fun i hi => (hl i hi).1) 0) h0).1 h
  have hA' : Kraus sz (slipped E 0 l) (wrongMem [] s.mem) A s'.mem := by rw [wrongMem_nil]; exact hA
  obtain ⟨B, m0, v, hB, eA, em⟩ := kraus_slipped E hl 0 [] hA'
  rw [travel_nil, List.nil_append, trail_zero] at eA em
  rw [wrongOp_nil, mul_one] at eA
  have e' : s'.psi = sg v • wrongOp (wrongAfter E l) (B s.psi) := by rw [e, eA]; rfl
  have hb : B s.psi ≠ 0 := by
    intro hb
    rw [e', hb, map_zero, smul_zero] at hn
    exact hn rfl
  exact ⟨⟨B s.psi, m0⟩, v, (run_iff (fun i hi => (hl i hi).1) h0).2 ⟨B, hB, rfl, hb⟩, hb, e', em⟩

end Qtc
