import Mathlib.Data.List.Dedup
import Mathlib.Algebra.BigOperators.Group.List.Basic
import Mathlib.Data.List.Perm.Basic
import Verif.Spec.Matching
import Verif.Proof.Parity
/-!
Combinatorics of pairings: parity of degrees, and pairing up the odd nodes of a list of edges.
-/
namespace Qtc
open Spec

variable {α : Type}

@[simp] theorem ends_nil : ends ([] : List (α × α)) = [] := rfl
@[simp] theorem ends_cons (p : α × α) (M : List (α × α)) : ends (p :: M) = p.1 :: p.2 :: ends M := rfl
theorem ends_append (M N : List (α × α)) : ends (M ++ N) = ends M ++ ends N := by
  simp [ends]

theorem length_ends (M : List (α × α)) : (ends M).length = 2 * M.length := by
  induction M with
  | nil => rfl
  | cons p M ih => simp [ih]; omega

theorem mem_ends {M : List (α × α)} {a : α} : a ∈ ends M ↔ ∃ p ∈ M, a = p.1 ∨ a = p.2 := by
  simp [ends]

variable [DecidableEq α]

/-- A list in which every element occurs an even number of times has even length. -/
theorem even_length_of_counts (l : List α) (h : ∀ a, l.count a % 2 = 0) : l.length % 2 = 0 := by
  rw [← List.sum_map_count_dedup_eq_length l]
  generalize l.dedup = d
  induction d with
  | nil => rfl
  | cons a d ih =>
    rw [List.map_cons, List.sum_cons]
    have := h a
    omega

/-- Handshake lemma: if every node of a class has even degree, an even number of edges leave the class. -/
theorem handshake (P : α → Bool) (F : List (α × α)) (h : ∀ a, P a = true → (ends F).count a % 2 = 0) :
    xorAll (F.map fun e => (P e.1 ^^ P e.2)) = false := by
  have key : xorAll (F.map fun e => (P e.1 ^^ P e.2)) = xorAll ((ends F).map P) := by
    clear h
    induction F with
    | nil => rfl
    | cons e F ih => simp [ih]
  have h2 : ((ends F).filter P).length % 2 = 0 := by
    apply even_length_of_counts
    intro a
    by_cases hp : P a = true
    · rw [List.count_filter hp]
      exact h a hp
    · rw [List.count_eq_zero_of_not_mem]
      intro hm
      exact hp (List.mem_filter.1 hm).2
  rw [key, xorAll_eq_countP]
  have : ((ends F).map P).count true = ((ends F).filter P).length := by
    rw [← List.countP_eq_length_filter, List.count_eq_countP, List.countP_map]
    congr 1
    funext a
    simp
  rw [this]
  simp [h2]

/-- Pairing off one node: if `a` is an end, the pairs split into the one with `a` and the others. -/
theorem split_pair (d : α → α → Nat) (hs : ∀ a b, d a b = d b a) {a : α} : ∀ (M : List (α × α)), a ∈ ends M →
    ∃ x M', (ends M).Perm (a :: x :: ends M') ∧ (M.map fun p => d p.1 p.2).sum = d a x + (M'.map fun p => d p.1 p.2).sum
  | [], h => by simp at h
  | p :: M, h => by
    by_cases h1 : a = p.1
    · exact ⟨p.2, M, by rw [h1]; exact List.Perm.refl _, by rw [h1]; simp⟩
    · by_cases h2 : a = p.2
      · refine ⟨p.1, M, ?_, ?_⟩
        · rw [h2]; exact List.Perm.swap _ _ _
        · rw [h2, hs p.2 p.1]; simp
      · have : a ∈ ends M := by simpa [h1, h2] using h
        obtain ⟨x, M', hp, hc⟩ := split_pair d hs M this
        refine ⟨x, p :: M', ?_, ?_⟩
        · rw [ends_cons, ends_cons]
          have h3 : (p.1 :: p.2 :: ends M).Perm (p.1 :: p.2 :: a :: x :: ends M') := (hp.cons _).cons _
          refine h3.trans ?_
          have : (p.1 :: p.2 :: a :: x :: ends M') = [p.1, p.2] ++ ([a, x] ++ ends M') := rfl
          rw [this]
          have e2 : a :: x :: p.1 :: p.2 :: ends M' = [a, x] ++ ([p.1, p.2] ++ ends M') := rfl
          rw [e2]
          exact List.perm_append_comm_assoc _ _ _
        · simp only [List.map_cons, List.sum_cons, hc]
          omega

/-- Pairing lemma: the nodes of odd degree of a list of edges can be paired up at no larger total distance than the number
of edges. -/
theorem exists_pairing (d : α → α → Nat) (N : α → Prop) (hs : ∀ a b, d a b = d b a) (h0 : ∀ a, d a a = 0)
    (htri : ∀ a b c, N a → N b → N c → d a c ≤ d a b + d b c) :
    ∀ (E : List (α × α)), (∀ e ∈ E, N e.1 ∧ N e.2 ∧ d e.1 e.2 ≤ 1) →
    ∃ M : List (α × α), (ends M).Nodup ∧ (∀ n, n ∈ ends M ↔ (ends E).count n % 2 = 1) ∧
      (M.map fun p => d p.1 p.2).sum ≤ E.length
  | [], _ => ⟨[], by simp, by simp, by simp⟩
  | (a, b) :: E, h => by
    obtain ⟨M, hn, hm, hc⟩ := exists_pairing d N hs h0 htri E (fun e he => h e (List.mem_cons_of_mem _ he))
    obtain ⟨Na, Nb, hab⟩ := h (a, b) List.mem_cons_self
    simp only at Na Nb hab
    have hcount : ∀ n, (ends ((a, b) :: E)).count n = (if a = n then 1 else 0) + (if b = n then 1 else 0) + (ends E).count n := by
      intro n
      rw [ends_cons, List.count_cons, List.count_cons]
      simp only [beq_iff_eq]
      omega
    have hN : ∀ n, n ∈ ends M → N n := by
      intro n hn
      rw [hm] at hn
      have : n ∈ ends E := by
        rw [← List.count_pos_iff]; omega
      obtain ⟨e, he, h1⟩ := mem_ends.1 this
      obtain ⟨g1, g2, _⟩ := h e (List.mem_cons_of_mem _ he)
      rcases h1 with rfl | rfl
      · exact g1
      · exact g2
    by_cases hab' : a = b
    · subst hab'
      refine ⟨M, hn, ?_, ?_⟩
      · intro n
        rw [hm, hcount]
        split <;> omega
      · simp; omega
    by_cases ha : a ∈ ends M
    · obtain ⟨x, M1, hp1, hc1⟩ := split_pair d hs M ha
      have hn1 := hp1.nodup_iff.1 hn
      have hx : x ∈ ends M := hp1.mem_iff.2 (by simp)
      have Nx := hN x hx
      by_cases hbx : b = x
      · subst hbx
        refine ⟨M1, ?_, ?_, ?_⟩
        · exact (List.nodup_cons.1 (List.nodup_cons.1 hn1).2).2
        · intro n
          have := hm n
          rw [hp1.mem_iff] at this
          simp only [List.mem_cons] at this
          rw [hcount]
          have hn2 := List.nodup_cons.1 hn1
          have hn3 := List.nodup_cons.1 hn2.2
          by_cases e1 : a = n
          · subst e1
            have : a ∉ ends M1 := fun hh => hn2.1 (List.mem_cons_of_mem _ hh)
            rw [if_pos rfl, if_neg (Ne.symm hab')]
            simp only [this, false_iff]
            have := (hm a).1 ha
            omega
          · by_cases e2 : b = n
            · subst e2
              rw [if_pos rfl, if_neg e1]
              simp only [hn3.1, false_iff]
              have := (hm b).1 hx
              omega
            · rw [if_neg e1, if_neg e2]
              simp only [Ne.symm e1, Ne.symm e2, false_or] at this
              rw [this]
              omega
        · simp only [List.length_cons]; omega
      · by_cases hb : b ∈ ends M
        · -- different pairs
          have hb1 : b ∈ ends M1 := by
            have := hp1.mem_iff.1 hb
            simp only [List.mem_cons] at this
            rcases this with h | h | h
            · exact absurd h.symm hab'
            · exact absurd h hbx
            · exact h
          obtain ⟨y, M2, hp2, hc2⟩ := split_pair d hs M1 hb1
          have hpp : (ends M).Perm (a :: x :: b :: y :: ends M2) := hp1.trans ((hp2.cons _).cons _)
          have hnn := hpp.nodup_iff.1 hn
          have Ny := hN y (hpp.mem_iff.2 (by simp))
          have t1 := htri x a y Nx Na Ny
          have t2 := htri a b y Na Nb Ny
          have t3 := hs x a
          simp only [List.nodup_cons, List.mem_cons, not_or] at hnn
          refine ⟨(x, y) :: M2, ?_, ?_, ?_⟩
          · simp only [ends_cons, List.nodup_cons, List.mem_cons, not_or]
            tauto
          · intro n
            have := hm n
            rw [hpp.mem_iff] at this
            simp only [List.mem_cons] at this
            rw [hcount]
            simp only [ends_cons, List.mem_cons]
            by_cases e1 : a = n
            · subst e1
              have h1 := (hm a).1 ha
              rw [if_pos rfl, if_neg (Ne.symm hab')]
              have : ¬ (a = x ∨ a = y ∨ a ∈ ends M2) := by tauto
              simp only [this, false_iff]
              omega
            · by_cases e2 : b = n
              · subst e2
                have h1 := (hm b).1 hb
                rw [if_pos rfl, if_neg hab']
                have : ¬ (b = x ∨ b = y ∨ b ∈ ends M2) := by tauto
                simp only [this, false_iff]
                omega
              · rw [if_neg e1, if_neg e2]
                simp only [Ne.symm e1, Ne.symm e2, false_or] at this
                rw [this]
                omega
          · simp only [List.map_cons, List.sum_cons, List.length_cons]
            omega
        · -- only a
          have t1 := htri b a x Nb Na Nx
          have t2 := hs a b
          simp only [List.nodup_cons, List.mem_cons, not_or] at hn1
          have hb1 : b ∉ ends M1 := fun hh => hb (hp1.mem_iff.2 (by simp [hh]))
          refine ⟨(b, x) :: M1, ?_, ?_, ?_⟩
          · simp only [ends_cons, List.nodup_cons, List.mem_cons, not_or]
            tauto
          · intro n
            have := hm n
            rw [hp1.mem_iff] at this
            simp only [List.mem_cons] at this
            rw [hcount]
            simp only [ends_cons, List.mem_cons]
            by_cases e1 : a = n
            · subst e1
              have h1 := (hm a).1 ha
              rw [if_pos rfl, if_neg (Ne.symm hab')]
              have : ¬ (a = b ∨ a = x ∨ a ∈ ends M1) := by tauto
              simp only [this, false_iff]
              omega
            · by_cases e2 : b = n
              · subst e2
                have h1 := (hm b)
                simp only [hb, false_iff] at h1
                rw [if_pos rfl, if_neg hab']
                simp only [true_or, true_iff]
                omega
              · rw [if_neg e1, if_neg e2]
                simp only [Ne.symm e1, Ne.symm e2, false_or] at this ⊢
                rw [this]
                omega
          · simp only [List.map_cons, List.sum_cons, List.length_cons]
            omega
    · by_cases hb : b ∈ ends M
      · obtain ⟨x, M1, hp1, hc1⟩ := split_pair d hs M hb
        have hn1 := hp1.nodup_iff.1 hn
        have hx : x ∈ ends M := hp1.mem_iff.2 (by simp)
        have Nx := hN x hx
        have t1 := htri a b x Na Nb Nx
        simp only [List.nodup_cons, List.mem_cons, not_or] at hn1
        have hxa : a ≠ x := fun hh => ha (hh ▸ hx)
        have ha1 : a ∉ ends M1 := fun hh => ha (hp1.mem_iff.2 (by simp [hh]))
        refine ⟨(a, x) :: M1, ?_, ?_, ?_⟩
        · simp only [ends_cons, List.nodup_cons, List.mem_cons, not_or]
          tauto
        · intro n
          have := hm n
          rw [hp1.mem_iff] at this
          simp only [List.mem_cons] at this
          rw [hcount]
          simp only [ends_cons, List.mem_cons]
          by_cases e1 : a = n
          · subst e1
            have h1 := (hm a)
            simp only [ha, false_iff] at h1
            rw [if_pos rfl, if_neg (Ne.symm hab')]
            simp only [true_or, true_iff]
            omega
          · by_cases e2 : b = n
            · subst e2
              have h1 := (hm b).1 hb
              rw [if_pos rfl, if_neg hab']
              have : ¬ (b = a ∨ b = x ∨ b ∈ ends M1) := by tauto
              simp only [this, false_iff]
              omega
            · rw [if_neg e1, if_neg e2]
              simp only [Ne.symm e1, Ne.symm e2, false_or] at this ⊢
              rw [this]
              omega
        · simp only [List.map_cons, List.sum_cons, List.length_cons]
          omega
      · refine ⟨(a, b) :: M, ?_, ?_, ?_⟩
        · simp only [ends_cons, List.nodup_cons, List.mem_cons, not_or]
          tauto
        · intro n
          have := hm n
          rw [hcount]
          simp only [ends_cons, List.mem_cons]
          by_cases e1 : a = n
          · subst e1
            have h1 := (hm a)
            simp only [ha, false_iff] at h1
            rw [if_pos rfl, if_neg (Ne.symm hab')]
            simp only [true_or, true_iff]
            omega
          · by_cases e2 : b = n
            · subst e2
              have h1 := (hm b)
              simp only [hb, false_iff] at h1
              rw [if_pos rfl, if_neg hab']
              simp only [true_or, or_true, true_iff]
              omega
            · rw [if_neg e1, if_neg e2]
              simp only [Ne.symm e1, Ne.symm e2, false_or]
              rw [this]
              omega
        · simp only [List.map_cons, List.sum_cons, List.length_cons]
          omega

omit [DecidableEq α] in
/-- A list of even length can be paired up. -/
theorem exists_pairUp : ∀ (l : List α), l.length % 2 = 0 → ∃ M : List (α × α), ends M = l
  | [], _ => ⟨[], rfl⟩
  | [a], h => by simp at h
  | a :: b :: l, h => by
    obtain ⟨M, hM⟩ := exists_pairUp l (by simp only [List.length_cons] at h; omega)
    exact ⟨(a, b) :: M, by simp [hM]⟩

end Qtc
