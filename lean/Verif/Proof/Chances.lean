import Mathlib.Algebra.Order.BigOperators.Group.List
import Mathlib.Algebra.Order.BigOperators.Group.Finset
import Verif.Proof.Weight
import Verif.Proof.QOps
/-!
Probabilities from the executions: the branches of an execution carry the whole norm.
-/
namespace Qtc
open Spec Function Classical

variable {sz : Str → Nat} {l : List Instr} {s t : QState}

/-- The norm of the branches with property `E`. -/
noncomputable def share (sz : Str → Nat) (l : List Instr) (s : QState) (E : QState → Prop) : ℝ :=
  (((branches sz l s).filter fun t => E t).map fun t => norm2 t.psi).sum

theorem forks_bounded {i : Instr} (hi : i.Proper) (h : Bounded s.psi) : ∀ t ∈ forks sz i s, Bounded t.psi := by
  intro t ht
  rcases i with ⟨g, q, _ | ⟨r, v⟩⟩ | ⟨g, a, b⟩ | ⟨q, b⟩ | q | _ <;> simp only [forks] at ht
  · rw [List.mem_singleton] at ht; subst ht; exact (keeping_gate1 g q).bounded _ h
  · split at ht <;> (rw [List.mem_singleton] at ht; subst ht)
    · exact (keeping_gate1 g q).bounded _ h
    · exact h
  · rw [List.mem_singleton] at ht; subst ht; exact (keeping_gate2 g hi).bounded _ h
  · simp only [List.mem_cons, List.not_mem_nil, or_false] at ht
    rcases ht with rfl | rfl <;> exact bounded_P h _ _
  · simp only [List.mem_cons, List.not_mem_nil, or_false] at ht
    rcases ht with rfl | rfl <;> exact (keeping_clear _ _).bounded _ (bounded_P h _ _)
  · rw [List.mem_singleton] at ht; subst ht; exact h

theorem forks_norm2 {i : Instr} (hi : i.Proper) (h : Bounded s.psi) :
    ((forks sz i s).map fun t => norm2 t.psi).sum = norm2 s.psi := by
  rcases i with ⟨g, q, _ | ⟨r, v⟩⟩ | ⟨g, a, b⟩ | ⟨q, b⟩ | q | _ <;> simp only [forks]
  · simpa using (keeping_gate1 g q).norm2 _ h
  · split
    · simpa using (keeping_gate1 g q).norm2 _ h
    · simp
  · simpa using (keeping_gate2 g hi).norm2 _ h
  · simpa using norm2_splitP h q
  · simpa [(keeping_clear false q).norm2 _ (bounded_P h false q), (keeping_clear true q).norm2 _ (bounded_P h true q)] using norm2_splitP h q
  · simp

theorem branches_bounded (hl : ∀ i ∈ l, i.Proper) (h : Bounded s.psi) : ∀ t ∈ branches sz l s, Bounded t.psi := by
  induction l generalizing s with
  | nil => intro t ht; rw [branches, List.mem_singleton] at ht; subst ht; exact h
  | cons i l ih =>
    intro t ht
    rw [branches, List.mem_flatMap] at ht
    obtain ⟨u, hu, ht⟩ := ht
    exact ih (fun j hj => hl j (List.mem_cons_of_mem _ hj)) (forks_bounded (hl i List.mem_cons_self) h u hu) t ht

theorem sum_flatMap {α β : Type} (L : List α) (f : α → List β) (g : β → ℝ) :
    ((L.flatMap f).map g).sum = (L.map fun a => ((f a).map g).sum).sum := by
  induction L with
  | nil => rfl
  | cons a L ih => simp [ih]

/-- The branches carry the whole norm. -/
theorem branches_norm2 (hl : ∀ i ∈ l, i.Proper) (h : Bounded s.psi) : ((branches sz l s).map fun t => norm2 t.psi).sum = norm2 s.psi := by
  induction l generalizing s with
  | nil => simp [branches]
  | cons i l ih =>
    rw [branches, sum_flatMap, ← forks_norm2 (sz := sz) (hl i List.mem_cons_self) h]
    refine congrArg List.sum (List.map_congr_left fun t ht => ?_)
    exact ih (fun j hj => hl j (List.mem_cons_of_mem _ hj)) (forks_bounded (hl i List.mem_cons_self) h t ht)

theorem share_cons (i : Instr) (E : QState → Prop) : share sz (i :: l) s E = ((forks sz i s).map fun t => share sz l t E).sum := by
  unfold share
  rw [branches, List.filter_flatMap, sum_flatMap]

theorem step_forks {i : Instr} (h : Step sz i s t) : t ∈ forks sz i s := by
  cases h with
  | gate1 g q s => exact List.mem_singleton.2 rfl
  | taken g q r v s h => rw [forks, if_pos h]; exact List.mem_singleton.2 rfl
  | skipped g q r v s h => rw [forks, if_neg h]; exact List.mem_singleton.2 rfl
  | gate2 g a b s => exact List.mem_singleton.2 rfl
  | measure q b v s h => cases v <;> simp [forks]
  | reset q v s h => cases v <;> simp [forks]
  | barrier s => exact List.mem_singleton.2 rfl

/-- Executions are branches. -/
theorem run_branches {s' : QState} (h : Run sz l s s') : s' ∈ branches sz l s := by
  induction l generalizing s with
  | nil => rw [branches, List.mem_singleton]; exact h
  | cons i l ih =>
    obtain ⟨t, h1, h2⟩ := h
    rw [branches, List.mem_flatMap]
    exact ⟨t, step_forks h1, ih h2⟩

theorem forks_step {i : Instr} (ht : t ∈ forks sz i s) (h0 : t.psi ≠ 0) : Step sz i s t := by
  rcases i with ⟨g, q, _ | ⟨r, v⟩⟩ | ⟨g, a, b⟩ | ⟨q, b⟩ | q | _ <;> simp only [forks] at ht
  · rw [List.mem_singleton] at ht; subst ht; exact .gate1 g q s
  · split at ht <;> (rw [List.mem_singleton] at ht; subst ht)
    · exact .taken g q r v s ‹_›
    · exact .skipped g q r v _ ‹_›
  · rw [List.mem_singleton] at ht; subst ht; exact .gate2 g a b s
  · simp only [List.mem_cons, List.not_mem_nil, or_false] at ht
    rcases ht with rfl | rfl <;> exact .measure q b _ s h0
  · simp only [List.mem_cons, List.not_mem_nil, or_false] at ht
    rcases ht with rfl | rfl <;> exact .reset q _ s fun hz => h0 (by show clear _ q (opP _ q s.psi) = 0; rw [hz, map_zero])
  · rw [List.mem_singleton] at ht; subst ht; exact .barrier _

theorem forks_zero {i : Instr} (h : s.psi = 0) : ∀ t ∈ forks sz i s, t.psi = 0 := by
  intro t ht
  rcases i with ⟨g, q, _ | ⟨r, v⟩⟩ | ⟨g, a, b⟩ | ⟨q, b⟩ | q | _ <;> simp only [forks, h, map_zero] at ht
  · rw [List.mem_singleton] at ht; subst ht; rfl
  · split at ht <;> (rw [List.mem_singleton] at ht; subst ht)
    · rfl
    · exact h
  · rw [List.mem_singleton] at ht; subst ht; rfl
  · simp only [List.mem_cons, List.not_mem_nil, or_false] at ht
    rcases ht with rfl | rfl <;> rfl
  · simp only [List.mem_cons, List.not_mem_nil, or_false] at ht
    rcases ht with rfl | rfl <;> rfl
  · rw [List.mem_singleton] at ht; subst ht; exact h

theorem branches_zero (h : s.psi = 0) : ∀ t ∈ branches sz l s, t.psi = 0 := by
  induction l generalizing s with
  | nil => intro t ht; rw [branches, List.mem_singleton] at ht; subst ht; exact h
  | cons i l ih =>
    intro t ht
    rw [branches, List.mem_flatMap] at ht
    obtain ⟨u, hu, ht⟩ := ht
    exact ih (forks_zero h u hu) t ht

/-- Branches that are not zero are executions. -/
theorem branches_run {s' : QState} (h : s' ∈ branches sz l s) (h0 : s'.psi ≠ 0) : Run sz l s s' := by
  induction l generalizing s with
  | nil => rw [branches, List.mem_singleton] at h; exact h
  | cons i l ih =>
    rw [branches, List.mem_flatMap] at h
    obtain ⟨t, h1, h2⟩ := h
    refine ⟨t, forks_step h1 fun hz => h0 (branches_zero hz s' h2), ih h2⟩

theorem share_nonneg (E : QState → Prop) : 0 ≤ share sz l s E :=
  List.sum_nonneg fun x hx => by
    obtain ⟨t, -, rfl⟩ := List.mem_map.1 hx
    exact norm2_nonneg _

theorem share_zero (h : s.psi = 0) (E : QState → Prop) : share sz l s E = 0 := by
  unfold share
  refine List.sum_eq_zero fun x hx => ?_
  obtain ⟨t, ht, rfl⟩ := List.mem_map.1 hx
  rw [branches_zero h t (List.mem_filter.1 ht).1, norm2_zero]

theorem share_add (hl : ∀ i ∈ l, i.Proper) (h : Bounded s.psi) (E : QState → Prop) : share sz l s E + share sz l s (fun t => ¬E t) = norm2 s.psi := by
  rw [← branches_norm2 (sz := sz) hl h]
  unfold share
  generalize branches sz l s = L
  induction L with
  | nil => simp
  | cons a L ih =>
    by_cases hE : E a
    · simp only [List.filter_cons, hE, decide_true, if_true, List.map_cons, List.sum_cons, not_true, decide_false] at ih ⊢
      simp only [Bool.false_eq_true, if_false]
      linarith
    · simp only [List.filter_cons, hE, decide_true, if_true, List.map_cons, List.sum_cons, not_false_eq_true, decide_false, Bool.false_eq_true, if_false] at ih ⊢
      linarith

/-- What all executions have is certain. -/
theorem share_certain (hl : ∀ i ∈ l, i.Proper) (h : Bounded s.psi) {E : QState → Prop} (hE : ∀ s', Run sz l s s' → E s') :
    share sz l s E = norm2 s.psi := by
  have h1 := share_add (sz := sz) hl h E
  have h2 : share sz l s (fun t => ¬E t) = 0 := by
    unfold share
    refine List.sum_eq_zero fun x hx => ?_
    obtain ⟨t, ht, rfl⟩ := List.mem_map.1 hx
    obtain ⟨ht, hn⟩ := List.mem_filter.1 ht
    by_cases hz : t.psi = 0
    · show norm2 t.psi = 0
      rw [hz, norm2_zero]
    · exact absurd (hE t (branches_run ht hz)) (by simpa using hn)
  linarith

theorem sum_le_list {α : Type} (T : Finset α) (L : List α) (f : α → ℝ) (hf : ∀ a, 0 ≤ f a) (hT : ∀ a ∈ T, a ∈ L) : ∑ a ∈ T, f a ≤ (L.map f).sum := by
  induction L generalizing T with
  | nil =>
    have : T = ∅ := Finset.eq_empty_of_forall_notMem fun a ha => by simpa using hT a ha
    simp [this]
  | cons b L ih =>
    rw [List.map_cons, List.sum_cons]
    have h1 := ih (T.erase b) fun a ha => ((List.mem_cons.1 (hT a (Finset.mem_of_mem_erase ha))).resolve_left (Finset.ne_of_mem_erase ha))
    by_cases hb : b ∈ T
    · rw [← Finset.add_sum_erase T f hb]
      linarith
    · rw [Finset.erase_eq_of_notMem hb] at h1
      linarith [hf b]

/-- A lower bound of a probability. -/
theorem share_ge {ι : Type} [Fintype ι] {F : ι → QState} (hF : Injective F) (hR : ∀ i, (F i).psi ≠ 0 → Run sz l s (F i)) (E : QState → Prop) :
    ∑ i, (if E (F i) then norm2 (F i).psi else 0) ≤ share sz l s E := by
  have h1 : ∑ i, (if E (F i) then norm2 (F i).psi else 0) = ∑ i with E (F i) ∧ (F i).psi ≠ 0, norm2 (F i).psi := by
    rw [Finset.sum_filter]
    refine Finset.sum_congr rfl fun i _ => ?_
    by_cases hz : (F i).psi = 0
    · simp [hz, norm2_zero]
    · simp [hz]
  rw [h1, ← Finset.sum_image (g := F) (f := fun t => norm2 t.psi) (fun a _ b _ h => hF h)]
  refine sum_le_list _ _ _ (fun _ => norm2_nonneg _) fun t ht => ?_
  obtain ⟨i, hi, rfl⟩ := Finset.mem_image.1 ht
  obtain ⟨-, h2, h3⟩ := Finset.mem_filter.1 hi
  exact List.mem_filter.2 ⟨run_branches (hR i h3), by simpa using h2⟩

/-- The probabilities of finitely many executions that are different and together carry the whole norm. -/
theorem share_eq {ι : Type} [Fintype ι] {F : ι → QState} (hl : ∀ i ∈ l, i.Proper) (h : Bounded s.psi) (hF : Injective F)
    (hR : ∀ i, (F i).psi ≠ 0 → Run sz l s (F i)) (hs : ∑ i, norm2 (F i).psi = norm2 s.psi) (E : QState → Prop) :
    share sz l s E = ∑ i, if E (F i) then norm2 (F i).psi else 0 := by
  have h1 := share_ge hF hR E
  have h2 : ∑ i, (if E (F i) then 0 else norm2 (F i).psi) ≤ share sz l s fun t => ¬E t := by
    refine le_trans (le_of_eq (Finset.sum_congr rfl fun i _ => ?_)) (share_ge hF hR fun t => ¬E t)
    by_cases hE : E (F i) <;> simp [hE]
  have h3 := share_add (sz := sz) hl h E
  have h4 : ∑ i, (if E (F i) then norm2 (F i).psi else 0) + ∑ i, (if E (F i) then 0 else norm2 (F i).psi) = ∑ i, norm2 (F i).psi := by
    rw [← Finset.sum_add_distrib]
    refine Finset.sum_congr rfl fun i _ => ?_
    by_cases hE : E (F i) <;> simp [hE]
  linarith

end Qtc
