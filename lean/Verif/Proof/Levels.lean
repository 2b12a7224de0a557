import Verif.Proof.Joins
/-!
Cut argument: a set of edges in which every inner node has even degree either crosses every cut of the lattice evenly, or has
at least as many edges as there are cuts.
-/
namespace Qtc
open Spec

/-- Parity of the number of edges that cross the cut between levels `k` and `k + 1`. -/
def cutPar {α : Type} (lev : α → Int) (F : List (α × α)) (k : Int) : Bool :=
  xorAll (F.map fun e => (decide (lev e.1 ≤ k) ^^ decide (lev e.2 ≤ k)))

theorem cutPar_succ {α : Type} [DecidableEq α] (lev : α → Int) (F : List (α × α)) (k : Int)
    (h : ∀ a, lev a = k + 1 → (ends F).count a % 2 = 0) : cutPar lev F (k + 1) = cutPar lev F k := by
  have h1 := handshake (fun a => decide (lev a = k + 1)) F (fun a ha => h a (by simpa using ha))
  have h2 : xorAll (F.map fun e => ((decide (lev e.1 ≤ k + 1) ^^ decide (lev e.2 ≤ k + 1)) ^^
      (decide (lev e.1 ≤ k) ^^ decide (lev e.2 ≤ k)))) = false := by
    rw [← h1]
    apply xorAll_congr
    intro e _
    have g : ∀ x : Int, decide (x = k + 1) = (decide (x ≤ k + 1) ^^ decide (x ≤ k)) := by
      intro x
      by_cases h1 : x ≤ k
      · have h2 : x ≤ k + 1 := by omega
        have h3 : ¬ x = k + 1 := by omega
        simp [h1, h2, h3]
      · by_cases h2 : x ≤ k + 1
        · have h3 : x = k + 1 := by omega
          simp [h3]
        · have h3 : ¬ x = k + 1 := by omega
          simp [h1, h2, h3]
    rw [g, g]
    generalize decide (lev e.1 ≤ k + 1) = a
    generalize decide (lev e.2 ≤ k + 1) = b
    generalize decide (lev e.1 ≤ k) = c
    generalize decide (lev e.2 ≤ k) = d
    revert a b c d
    decide
  rw [xorAll_map_xor] at h2
  unfold cutPar
  revert h2
  generalize xorAll (F.map fun e => (decide (lev e.1 ≤ k + 1) ^^ decide (lev e.2 ≤ k + 1))) = x
  generalize xorAll (F.map fun e => (decide (lev e.1 ≤ k) ^^ decide (lev e.2 ≤ k))) = y
  revert x y
  decide

/-- Fewer edges than cuts: then every cut is crossed evenly. -/
theorem few_cross {α : Type} [DecidableEq α] (lev : α → Int) (D : Nat) (F : List (α × α))
    (hstep : ∀ e ∈ F, lev e.1 ≤ lev e.2 + 1 ∧ lev e.2 ≤ lev e.1 + 1)
    (heven : ∀ a, 0 < lev a → lev a < D → (ends F).count a % 2 = 0) (hlt : F.length < D) : cutPar lev F 0 = false := by
  have hall : ∀ k : Nat, k < D → cutPar lev F k = cutPar lev F 0 := by
    intro k
    induction k with
    | zero => intro _; rfl
    | succ k ih =>
      intro hk
      rw [← ih (by omega)]
      push_cast
      apply cutPar_succ
      intro a ha
      exact heven a (by omega) (by omega)
  cases hc : cutPar lev F 0 with
  | false => rfl
  | true =>
    exfalso
    have hsub : (List.range D) ⊆ F.map fun e => (min (lev e.1) (lev e.2)).toNat := by
      intro k hk
      rw [List.mem_range] at hk
      have h := hall k hk
      rw [hc] at h
      obtain ⟨e, he, hx⟩ := xorAll_true_exists h
      refine List.mem_map.2 ⟨e, he, ?_⟩
      have := hstep e he
      simp only [bne_iff_ne, ne_eq, decide_eq_decide] at hx
      omega
    have := (List.subperm_of_subset List.nodup_range hsub).length_le
    rw [List.length_range, List.length_map] at this
    omega

end Qtc
