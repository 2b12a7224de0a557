import Mathlib.Data.Finset.Card
import Mathlib.Data.Finset.SymmDiff
import Mathlib.Data.List.Nodup
import Verif.Proof.Joins
/-!
A set of edges with even degrees inside and an odd number of edges at one boundary contains a simple path to the other boundary.
-/
namespace Qtc
open Spec

variable {V F : Type}

/-- A chain of edges from `a` to `c`: all nodes between them are inner nodes (`real`), `c` is not. `J f x y`: the edge `f` joins `x`, `y`. -/
inductive Cross (J : F → V → V → Prop) (real : V → Prop) : V → List F → V → Prop where
  | last {f : F} {a b : V} : J f a b → ¬ real b → Cross J real a [f] b
  | step {f : F} {a b c : V} {l : List F} : J f a b → real b → Cross J real b l c → Cross J real a (f :: l) c

variable {J : F → V → V → Prop} {real : V → Prop}

theorem Cross.ne_nil {a c : V} {l : List F} (h : Cross J real a l c) : l ≠ [] := by
  cases h <;> simp

theorem Cross.end_not {a c : V} {l : List F} (h : Cross J real a l c) : ¬ real c := by
  induction h with
  | last _ h => exact h
  | step _ _ _ ih => exact ih

/-- The part of a chain from some edge on. -/
theorem Cross.split {a c : V} {u : List F} {f : F} {v : List F} (h : Cross J real a (u ++ f :: v) c) :
    ∃ x y, J f x y ∧ ((v = [] ∧ y = c) ∨ (real y ∧ Cross J real y v c)) := by
  induction u generalizing a with
  | nil =>
    cases h with
    | last h1 h2 => exact ⟨_, _, h1, Or.inl ⟨rfl, rfl⟩⟩
    | step h1 h2 h3 => exact ⟨_, _, h1, Or.inr ⟨h2, h3⟩⟩
  | cons g u ih =>
    rw [List.cons_append] at h
    generalize hl : u ++ f :: v = l at h
    cases h with
    | last h1 h2 => simp at hl
    | step h1 h2 h3 => exact ih (hl ▸ h3)

/-- A shortest chain uses no edge twice. -/
theorem Cross.shortest_nodup (hJ : ∀ f x y x' y', J f x y → J f x' y' → (x' = x ∧ y' = y) ∨ (x' = y ∧ y' = x)) {c : V} :
    ∀ (l : List F) (a : V), a ≠ c → Cross J real a l c → (∀ l', Cross J real a l' c → l.length ≤ l'.length) → l.Nodup := by
  intro l
  induction l with
  | nil => intro a _ h _; exact List.nodup_nil
  | cons f l ih =>
    intro a hac h hmin
    rw [List.nodup_cons]
    cases h with
    | last h1 h2 => simp
    | @step _ _ b _ _ h1 h2 h3 =>
      have hend := h3.end_not
      have hbc : b ≠ c := fun e => hend (e ▸ h2)
      refine ⟨?_, ih b hbc h3 fun l' hl' => ?_⟩
      · intro hf
        obtain ⟨u, w, rfl⟩ := List.append_of_mem hf
        obtain ⟨x, y, hxy, hy⟩ := h3.split
        rcases hJ f a b x y h1 hxy with ⟨rfl, rfl⟩ | ⟨rfl, rfl⟩
        · rcases hy with ⟨_, e⟩ | ⟨_, hw⟩
          · exact hbc e
          · have := hmin _ (Cross.step h1 h2 hw)
            simp only [List.length_cons, List.length_append] at this
            omega
        · rcases hy with ⟨_, e⟩ | ⟨_, hw⟩
          · exact hac e
          · have := hmin _ hw
            simp only [List.length_cons, List.length_append] at this
            omega
      · have := hmin _ (Cross.step h1 h2 hl')
        simp only [List.length_cons] at this
        omega

/-- If there is a chain, there is one that uses no edge twice. -/
theorem Cross.exists_nodup (hJ : ∀ f x y x' y', J f x y → J f x' y' → (x' = x ∧ y' = y) ∨ (x' = y ∧ y' = x)) {a c : V} (hac : a ≠ c)
    {l : List F} (h : Cross J real a l c) : ∃ l, Cross J real a l c ∧ l.Nodup := by
  classical
  have hex : ∃ n, ∃ l, Cross J real a l c ∧ l.length = n := ⟨_, l, h, rfl⟩
  obtain ⟨l0, h1, h2⟩ := Nat.find_spec hex
  exact ⟨l0, h1, Cross.shortest_nodup hJ l0 a hac h1 fun l' hl' => h2 ▸ Nat.find_min' hex ⟨l', hl', rfl⟩⟩

/-- Chains can be prolonged at their start. -/
theorem Cross.mono {J' : F → V → V → Prop} (hJ : ∀ f x y, J f x y → J' f x y) {a c : V} {l : List F} (h : Cross J real a l c) :
    Cross J' real a l c := by
  induction h with
  | last h1 h2 => exact .last (hJ _ _ _ h1) h2
  | step h1 h2 _ ih => exact .step (hJ _ _ _ h1) h2 ih

theorem Cross.all {P : F → Prop} (hP : ∀ f x y, J f x y → P f) {a c : V} {l : List F} (h : Cross J real a l c) : ∀ f ∈ l, P f := by
  induction h with
  | last h1 h2 => intro f hf; rw [List.mem_singleton] at hf; exact hf ▸ hP _ _ _ h1
  | step h1 h2 _ ih =>
    intro f hf
    rcases List.mem_cons.1 hf with rfl | hf
    · exact hP _ _ _ h1
    · exact ih f hf

theorem Cross.end_of {Q : V → Prop} (hQ : ∀ f x y, J f x y → Q y) {a c : V} {l : List F} (h : Cross J real a l c) : Q c := by
  induction h with
  | last h1 _ => exact hQ _ _ _ h1
  | step _ _ _ ih => exact ih

theorem Cross.start_of {Q : V → Prop} (hQ : ∀ f x y, J f x y → Q x) {a c : V} {l : List F} (h : Cross J real a l c) : Q a := by
  cases h with
  | last h1 _ => exact hQ _ _ _ h1
  | step h1 _ _ => exact hQ _ _ _ h1

/-- A chain passes through every inner node evenly. -/
theorem Cross.even [DecidableEq V] {t : V → F → Bool} {v : V} (hv : real v)
    (ht : ∀ f x y, J f x y → (if t v f = true then 1 else 0) = (if x = v then 1 else 0) + if y = v then 1 else 0) {a c : V} {l : List F}
    (h : Cross J real a l c) : l.countP (t v) % 2 = if a = v then 1 else 0 := by
  induction h with
  | @last f a b h1 h2 =>
    have hb : b ≠ v := fun e => h2 (e ▸ hv)
    have := ht f a b h1
    rw [if_neg hb] at this
    rw [List.countP_cons, List.countP_nil, this]
    split <;> rfl
  | @step f a b c l h1 h2 _ ih =>
    have := ht f a b h1
    rw [List.countP_cons, this]
    by_cases hb : b = v
    · rw [if_pos hb] at ih ⊢
      split <;> omega
    · rw [if_neg hb] at ih ⊢
      split <;> omega

/-- What is reached from a node of the class `top` through inner nodes. -/
inductive Reach (J : F → V → V → Prop) (real top : V → Prop) : V → Prop where
  | start {f : F} {a b : V} : top a → J f a b → Reach J real top b
  | step {f : F} {a b : V} : Reach J real top a → real a → J f a b → Reach J real top b

theorem Reach.chain {top : V → Prop} {b : V} (h : Reach J real top b) :
    ∃ a, top a ∧ (¬ real b → ∃ l, Cross J real a l b) ∧ (real b → ∀ l c, Cross J real b l c → ∃ l', Cross J real a l' c) := by
  induction h with
  | @start f a b h1 h2 => exact ⟨a, h1, fun h => ⟨_, .last h2 h⟩, fun h l c hl => ⟨_, .step h2 h hl⟩⟩
  | @step f a b h1 h2 h3 ih =>
    obtain ⟨x, g1, g2, g3⟩ := ih
    refine ⟨x, g1, fun h => g3 h2 _ _ (.last h3 h), fun h l c hl => g3 h2 _ _ (.step h3 h hl)⟩

/-- The crossing lemma. -/
theorem exists_crossing [DecidableEq V] (e : F → V × V) (real top : V → Prop) [DecidablePred top] (hdis : ∀ v, ¬ (real v ∧ top v)) (S : List F)
    (heven : ∀ v, real v → (ends (S.map e)).count v % 2 = 0)
    (hodd : xorAll (S.map fun f => (decide (top (e f).1) ^^ decide (top (e f).2))) = true) :
    ∃ a c l, top a ∧ ¬ top c ∧ Cross (fun f x y => f ∈ S ∧ (e f = (x, y) ∨ e f = (y, x))) real a l c := by
  classical
  by_contra hno
  let J : F → V → V → Prop := fun f x y => f ∈ S ∧ (e f = (x, y) ∨ e f = (y, x))
  have hsym : ∀ f x y, J f x y → J f y x := fun f x y h => ⟨h.1, h.2.symm⟩
  have hnone : ∀ b, Reach J real top b → ¬ real b → top b := by
    intro b hb hr
    by_contra ht
    obtain ⟨a, h1, h2, _⟩ := hb.chain
    obtain ⟨l, hl⟩ := h2 hr
    exact hno ⟨a, b, l, h1, ht, hl⟩
  let P : V → Bool := fun v => decide (real v ∧ Reach J real top v)
  have hh := handshake P (S.map e) (fun v hv => heven v (of_decide_eq_true hv).1)
  have key : ∀ f ∈ S, (P (e f).1 ^^ P (e f).2) = (decide (top (e f).1) ^^ decide (top (e f).2)) := by
    intro f hf
    have hJ : J f (e f).1 (e f).2 := ⟨hf, Or.inl rfl⟩
    have aux : ∀ x y, J f x y → top x → (P x ^^ P y) = (decide (top x) ^^ decide (top y)) := by
      intro x y hxy hx
      have hPx : P x = false := decide_eq_false fun h => hdis x ⟨h.1, hx⟩
      rw [hPx, decide_eq_true hx]
      by_cases hy : real y
      · rw [show P y = true from decide_eq_true ⟨hy, .start hx hxy⟩, decide_eq_false fun h => hdis y ⟨hy, h⟩]
        rfl
      · have := hnone y (.start hx hxy) hy
        rw [show P y = false from decide_eq_false fun h => hy h.1, decide_eq_true this]
        rfl
    by_cases h1 : top (e f).1
    · exact aux _ _ hJ h1
    by_cases h2 : top (e f).2
    · have := aux _ _ (hsym _ _ _ hJ) h2
      rw [Bool.xor_comm (P _), this, Bool.xor_comm]
    rw [decide_eq_false h1, decide_eq_false h2]
    have aux2 : ∀ x y, J f x y → ¬ top x → ¬ top y → P x = true → P y = true := by
      intro x y hxy hx hy hP
      obtain ⟨k1, k2⟩ := of_decide_eq_true hP
      have hr : Reach J real top y := .step k2 k1 hxy
      exact decide_eq_true ⟨by_contra fun h => hy (hnone y hr h), hr⟩
    have h3 : P (e f).1 = P (e f).2 := by
      rw [Bool.eq_iff_iff]
      exact ⟨aux2 _ _ hJ h1 h2, aux2 _ _ (hsym _ _ _ hJ) h2 h1⟩
    rw [h3, Bool.xor_self]
    rfl
  rw [List.map_map] at hh
  rw [← List.map_congr_left key] at hodd
  have : (S.map ((fun e => (P e.1 ^^ P e.2)) ∘ e)) = S.map fun f => (P (e f).1 ^^ P (e f).2) := rfl
  rw [this, hodd] at hh
  exact absurd hh (by decide)

end Qtc
