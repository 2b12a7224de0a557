import Verif.Spec.OddLines
import Verif.Proof.MatchNodes
/-!
Correctness of decoding: the corrections of any optimal matching, together with few faults, cross every cut evenly.
-/
namespace Qtc
open Spec

/-! ### Levels -/

/-- Level of a node in the direction protected by the type: `0` and `distance` at the boundaries. -/
def lev (key : Key) (n : Node) : Int :=
  match key with
  | .X => (n.c2 + 1) / 2
  | .Z => (n.r2 + 1) / 2

theorem gnode_level {key : Key} {dh dw T : Int} (H : Long key dh dw) {n : Node} (h : GNode key dh dw T n) :
    (n.t = -1 ∧ (lev key n = 0 ∨ lev key n = distance key dh dw)) ∨
      (0 ≤ n.t ∧ 0 < lev key n ∧ lev key n < distance key dh dw) := by
  obtain ⟨HO, Hl⟩ := H
  unfold OddPos at HO
  rcases h with ⟨h1, h2, h3⟩ | ⟨h1, h2⟩
  · right
    cases key
    · simp only [Site, XSite, lev, distance] at *; omega
    · simp only [Site, ZSite, lev, distance] at *; omega
  · left
    cases key
    · simp only [Bdry, Pos, lev, distance] at *; omega
    · simp only [Bdry, Pos, lev, distance] at *; omega

theorem dataEdge_level {key : Key} {dh dw T t r c : Int} {a b : Node} (h : DataEdge key dh dw T t r c a b) :
    match key with
    | .X => (lev .X a = c ∧ lev .X b = c + 1) ∨ (lev .X a = c + 1 ∧ lev .X b = c)
    | .Z => (lev .Z a = r ∧ lev .Z b = r + 1) ∨ (lev .Z a = r + 1 ∧ lev .Z b = r) := by
  have := dataEdge_diag h
  cases key
  · simp only [lev]; omega
  · simp only [lev]; omega

theorem gadj_level {key : Key} {dh dw T : Int} {a b : Node} (h : GAdj key dh dw T a b) :
    lev key a ≤ lev key b + 1 ∧ lev key b ≤ lev key a + 1 := by
  rcases h with ⟨t, r, c, h⟩ | ⟨t, _, _, _, h1, h2, _⟩
  · have := dataEdge_level h
    cases key
    · simp only at this; omega
    · simp only at this; omega
  · cases key
    · simp only [lev, h2]; omega
    · simp only [lev, h1]; omega

theorem gadj_nodes {key : Key} {dh dw T : Int} {a b : Node} (h : GAdj key dh dw T a b) :
    GNode key dh dw T a ∧ GNode key dh dw T b := by
  rcases h with ⟨t, r, c, h1, h2, h3, h4, h5, h6, h7, ⟨_, _, h8⟩, ⟨_, _, h9⟩⟩ | ⟨t, h1, h2, h3, h4, h5, h6⟩
  · constructor
    · rcases h8 with ⟨rfl, h⟩ | h
      · exact Or.inl ⟨h1, h2, h⟩
      · exact Or.inr h
    · rcases h9 with ⟨rfl, h⟩ | h
      · exact Or.inl ⟨h1, h2, h⟩
      · exact Or.inr h
  · constructor
    · exact Or.inl ⟨by omega, by omega, h3⟩
    · exact Or.inl ⟨by omega, by omega, by rw [← h4, ← h5]; exact h3⟩

/-! ### Fault edges -/

/-- The faults as edges of the decoding graph; a cut is crossed by the flips of its line. -/
theorem fault_edges_lines {key : Key} {dh dw T : Int} (H : OddPos dh dw) : ∀ (fs : List Fault), (∀ f ∈ fs, f.Fits key dh dw T) →
    ∃ E : List (Node × Node), E.length = fs.length ∧ (∀ e ∈ E, GAdj key dh dw T e.1 e.2) ∧
      (∀ n : Node, n.t ≠ -1 → Site key dh dw n.r2 n.c2 → (ends E).count n = fs.countP (Fault.changes n)) ∧
      ∀ k : Int, cutPar (lev key) E k = xorAll (fs.map (Fault.inLine key k))
  | [], _ => ⟨[], rfl, by simp, by simp, fun _ => rfl⟩
  | f :: fs, h => by
    obtain ⟨E, h1, h2, h3, h4⟩ := fault_edges_lines H fs (fun g hg => h g (List.mem_cons_of_mem _ hg))
    have hf := h f List.mem_cons_self
    -- the edge of the first fault
    obtain ⟨a, b, hab, hcnt, hcut⟩ : ∃ a b, GAdj key dh dw T a b ∧
        (∀ n : Node, n.t ≠ -1 → Site key dh dw n.r2 n.c2 →
          (if a = n then 1 else 0) + (if b = n then 1 else 0) = if f.changes n = true then 1 else 0) ∧
        ∀ k : Int, (decide (lev key a ≤ k) ^^ decide (lev key b ≤ k)) = f.inLine key k := by
      cases f with
      | data t r c =>
        obtain ⟨g1, g2, g3, g4, g5, g6⟩ := hf
        obtain ⟨a, b, hne, ha, hb, hall⟩ := touches_two (key := key) (t := t) H g3 g4 g5 g6
        have hd : DataEdge key dh dw T t r c a b := ⟨g1, g2, g3, g4, g5, g6, hne, ha, hb⟩
        refine ⟨a, b, Or.inl ⟨t, r, c, hd⟩, ?_, ?_⟩
        · intro n hn hs
          have hiff : Fault.changes n (.data t r c) = true ↔ Touches key dh dw t r c n := by
            simp only [Fault.changes, Bool.and_eq_true, Bool.or_eq_true, beq_iff_eq]
            constructor
            · rintro ⟨⟨e1, e2⟩, e3⟩
              exact ⟨e2, e3, Or.inl ⟨e1, hs⟩⟩
            · rintro ⟨e2, e3, ⟨e1, _⟩ | ⟨e1, _⟩⟩
              · exact ⟨⟨e1, e2⟩, e3⟩
              · exact absurd e1 hn
          by_cases hc : Touches key dh dw t r c n
          · rw [if_pos (hiff.2 hc)]
            rcases hall n hc with rfl | rfl
            · rw [if_pos rfl, if_neg (Ne.symm hne)]
            · rw [if_pos rfl, if_neg hne]
          · rw [if_neg (fun h => hc (hiff.1 h)), if_neg, if_neg]
            · rintro rfl; exact hc hb
            · rintro rfl; exact hc ha
        · have hl := dataEdge_level hd
          cases key
          · simp only at hl
            intro k
            simp only [Fault.inLine]
            rw [Bool.eq_iff_iff, beq_iff_eq]
            rcases hl with ⟨e1, e2⟩ | ⟨e1, e2⟩ <;> rw [e1, e2] <;>
              simp only [bne_iff_ne, ne_eq, decide_eq_decide] <;> omega
          · simp only at hl
            intro k
            simp only [Fault.inLine]
            rw [Bool.eq_iff_iff, beq_iff_eq]
            rcases hl with ⟨e1, e2⟩ | ⟨e1, e2⟩ <;> rw [e1, e2] <;>
              simp only [bne_iff_ne, ne_eq, decide_eq_decide] <;> omega
      | meas t r2 c2 =>
        obtain ⟨g1, g2, g3⟩ := hf
        refine ⟨⟨t, r2, c2⟩, ⟨t + 1, r2, c2⟩, Or.inr ⟨t, g1, g2, g3, rfl, rfl, Or.inl ⟨rfl, rfl⟩⟩, ?_, ?_⟩
        · rintro ⟨nt, nr, nc⟩ _ _
          simp only [Fault.changes, Node.mk.injEq, Bool.and_eq_true, Bool.or_eq_true, beq_iff_eq]
          by_cases e1 : nr = r2
          · by_cases e2 : nc = c2
            · subst e1 e2
              simp only [and_true, true_and]
              by_cases e3 : nt = t
              · subst e3; simp
              · by_cases e4 : nt = t + 1
                · subst e4; simp
                · rw [if_neg (Ne.symm e3), if_neg (Ne.symm e4), if_neg (by omega)]
            · simp [e2, Ne.symm e2]
          · simp [e1, Ne.symm e1]
        · have : lev key ⟨t, r2, c2⟩ = lev key ⟨t + 1, r2, c2⟩ := by cases key <;> rfl
          intro k
          rw [this]
          simp [Fault.inLine]
    refine ⟨(a, b) :: E, by simp [h1], ?_, ?_, ?_⟩
    · intro e he
      rcases List.mem_cons.1 he with rfl | he
      · exact hab
      · exact h2 e he
    · intro n hn hs
      rw [ends_cons, List.count_cons, List.count_cons, List.countP_cons, h3 n hn hs, ← hcnt n hn hs]
      simp only [beq_iff_eq]
      omega
    · intro k
      have h4 := h4 k
      unfold cutPar at *
      rw [List.map_cons, List.map_cons, xorAll_cons, xorAll_cons, h4, ← hcut]

theorem readoutFlipped_line (key : Key) (fs : List Fault) : xorAll (fs.map (Fault.inLine key 0)) = readoutFlipped key fs := by
  refine xorAll_congr fun f _ => ?_
  cases f <;> cases key <;> rfl

/-- The faults as edges of the decoding graph. -/
theorem fault_edges {key : Key} {dh dw T : Int} (H : OddPos dh dw) (fs : List Fault) (hf : ∀ f ∈ fs, f.Fits key dh dw T) :
    ∃ E : List (Node × Node), E.length = fs.length ∧ (∀ e ∈ E, GAdj key dh dw T e.1 e.2) ∧
      (∀ n : Node, n.t ≠ -1 → Site key dh dw n.r2 n.c2 → (ends E).count n = fs.countP (Fault.changes n)) ∧
      cutPar (lev key) E 0 = readoutFlipped key fs := by
  obtain ⟨E, h1, h2, h3, h4⟩ := fault_edges_lines H fs hf
  exact ⟨E, h1, h2, h3, by rw [h4, readoutFlipped_line]⟩

end Qtc
