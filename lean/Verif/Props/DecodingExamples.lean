import Verif.Props.Decoding
/-!
Concrete cases of C29, C34 and C75.
-/
namespace Qtc
open Spec

theorem demo_hits {D : Decoder} (h1 : D.dh = 3) (h2 : D.dw = 5) (h3 : D.T = 2) :
    ∀ n ∈ [(⟨1, 1, 1⟩ : Node), ⟨0, 3, 3⟩], HitPlace .Z D n := by
  intro n hn
  unfold HitPlace
  rw [h1, h2, h3]
  simp only [List.mem_cons, List.not_mem_nil, or_false] at hn
  rcases hn with rfl | rfl <;> unfold Site ZSite <;> decide

/-- C75: two hits of the 3 × 5 lattice are explained by some faults, as few as possible, and the value is flipped accordingly. -/
example : ∃ D m gs syn', Made D ∧ Contract m ∧
    correctHits D m (fun _ => some [⟨1, 1, 1⟩, ⟨0, 3, 3⟩]) .Z (some 0) none = .ok (some (bit (readoutFlipped .Z gs)), syn') ∧
    (∀ n, IsHit .Z 3 5 2 gs n ↔ n ∈ [(⟨1, 1, 1⟩ : Node), ⟨0, 3, 3⟩]) ∧ gs ≠ [] := by
  obtain ⟨D, sx, sz, h, h1, h2, h3, h4, h5, h6, h7⟩ := demo_decoder
  obtain ⟨m, hm⟩ := contract_exists
  obtain ⟨gs, syn', e1, e2, e3, e4⟩ := C75_minimum_explanation D h .Z sz h5 h6.1 m hm [⟨1, 1, 1⟩, ⟨0, 3, 3⟩] (by decide) (demo_hits h1 h2 h3)
    (fun _ => some [⟨1, 1, 1⟩, ⟨0, 3, 3⟩]) rfl false
  rw [h1, h2, h3] at e3
  rw [Bool.false_xor] at e1
  refine ⟨D, m, gs, syn', h, hm, e1, e3, ?_⟩
  rintro rfl
  have := (e3 ⟨1, 1, 1⟩).2 (by simp)
  simp [IsHit] at this

/-- C34: a call with these two hits appends the boundary nodes to the caller's list. C29: had the other value been measured, the other value would
be returned. -/
example : ∃ D m b syn', Made D ∧ Contract m ∧
    correctHits D m (fun _ => some [⟨1, 1, 1⟩, ⟨0, 3, 3⟩]) .Z (some 0) none = .ok (some (bit b), syn') ∧
    correctHits D m (fun _ => some [⟨1, 1, 1⟩, ⟨0, 3, 3⟩]) .Z (some 1) none = .ok (some (bit !b), syn') ∧
    syn' .Z = some ([⟨1, 1, 1⟩, ⟨0, 3, 3⟩] ++ D.virt .Z) ∧ syn' .Z ≠ some [⟨1, 1, 1⟩, ⟨0, 3, 3⟩] ∧ syn' .X = some [⟨1, 1, 1⟩, ⟨0, 3, 3⟩] := by
  obtain ⟨D, sx, sz, h, h1, h2, h3, h4, h5, h6, h7⟩ := demo_decoder
  obtain ⟨m, hm⟩ := contract_exists
  obtain ⟨v, syn', L', e1, e2, e3, e4, -⟩ := C34_refuted D h .Z sz h5 h6.1 m hm [⟨1, 1, 1⟩, ⟨0, 3, 3⟩] (by simp) (by decide) (demo_hits h1 h2 h3)
    (fun _ => some [⟨1, 1, 1⟩, ⟨0, 3, 3⟩]) rfl false
  obtain ⟨b, rfl, e5⟩ := C29_bits_equivariant D m _ _ _ _ _ _ e1
  refine ⟨D, m, b, syn', h, hm, e1, e5, by rw [← e3]; exact e2, fun e => e4 ?_,
    C34_others_unchanged_partial D m _ _ _ .X _ _ _ e1 (by decide)⟩
  rw [show syn' .Z = some L' from e2] at e
  exact Option.some.inj e

/-- C34: calling again and again with the list that was extended still corrects a flipped data qubit. -/
example : ∃ D m, Made D ∧ Contract m ∧ ∀ k, ∃ syn', callAgain D (fun _ => m) .Z (some 0) k (fun _ => some [⟨0, 1, 1⟩]) = .ok (some 1, syn') := by
  obtain ⟨D, sx, sz, h, h1, h2, h3, h4, h5, h6, h7⟩ := demo_decoder
  obtain ⟨m, hm⟩ := contract_exists
  refine ⟨D, m, h, hm, fun k => ?_⟩
  refine C34_repeated_calls_partial D h .Z sz h5 h6.1 (fun _ => m) (fun _ => hm) [.data 0 0 1] ?_ [⟨0, 1, 1⟩] (by decide) ?_ _ rfl true k
  · rw [h1, h2, h3]
    refine ⟨?_, by decide⟩
    intro f hf
    rw [List.mem_singleton.1 hf]
    unfold Fault.Fits; decide
  · rw [h1, h2, h3]
    rintro ⟨t, r, c⟩
    unfold IsHit Site ZSite
    simp only [List.mem_singleton, Node.mk.injEq, List.countP_singleton]
    constructor
    · rintro ⟨rfl, rfl, rfl⟩; decide
    · rintro ⟨a1, a2, ⟨b1, b2, b3, b4, b5, b6, b7⟩, hc⟩
      by_cases e : Fault.changes ⟨t, r, c⟩ (.data 0 0 1) = true
      · simp only [Fault.changes, Bool.and_eq_true, Bool.or_eq_true, beq_iff_eq] at e
        omega
      · rw [if_neg e] at hc
        simp at hc

end Qtc
