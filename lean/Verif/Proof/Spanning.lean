import Verif.Proof.Segments
import Verif.Proof.Symmetric
import Mathlib.Data.Fintype.Pi
import Mathlib.Data.Fintype.Prod
import Mathlib.Data.Fintype.EquivFin
import Mathlib.Data.Fintype.BigOperators

/-! # Counting sets of flips: plaquettes, a line and strings generate all of them -/

namespace Qtc
open Spec

variable {dh dw : Int}

/-- The sum (mod 2) of the sets `g p` over the members `p` of `l` chosen by `S`. -/
def chosenSum (l : List (Int × Int)) (S : Int × Int → Bool) (g : Int × Int → Int → Bool) (q : Int) : Bool := xorAll (l.map fun p => S p && g p q)

/-- Sums may be taken in either order. -/
theorem sums_swap {α : Type} (l : List α) (S : α → Bool) (g : α → Int → Bool) : ∀ qs : List Int,
    xorAll (qs.map fun q => xorAll (l.map fun p => S p && g p q)) = xorAll (l.map fun p => S p && xorAll (qs.map (g p)))
  | [] => by
    simp only [List.map_nil, xorAll_nil, Bool.and_false]
    exact (xorAll_map_false l).symm
  | q :: qs => by
    rw [List.map_cons, xorAll_cons, sums_swap l S g qs, ← xorAll_map_xor]
    refine xorAll_congr fun p _ => ?_
    rw [List.map_cons, xorAll_cons]
    cases S p <;> simp

theorem chosenSum_over (l : List (Int × Int)) (S : Int × Int → Bool) (g : Int × Int → Int → Bool) (qs : List Int) :
    xorAll (qs.map (chosenSum l S g)) = xorAll (l.map fun p => S p && xorAll (qs.map (g p))) := sums_swap l S g qs

theorem chosenSum_xor (l : List (Int × Int)) (S T : Int × Int → Bool) (g : Int × Int → Int → Bool) (q : Int) :
    chosenSum l (fun p => (S p ^^ T p)) g q = (chosenSum l S g q ^^ chosenSum l T g q) := by
  unfold chosenSum
  rw [← xorAll_map_xor]
  refine xorAll_congr fun p _ => ?_
  show ((S p ^^ T p) && g p q) = ((S p && g p q) ^^ (T p && g p q))
  cases S p <;> cases T p <;> simp

/-- A choice among the members of a list, as a function of all positions. -/
def chosen {l : List (Int × Int)} (S : {p // p ∈ l.toFinset} → Bool) (p : Int × Int) : Bool := if h : p ∈ l.toFinset then S ⟨p, h⟩ else false

/-- Independent sets `Z`, a line they do not see, and strings that are each seen by one check generate all sets of flips,
if there are enough of them. -/
theorem sets_generated {n : Nat} {zs xs : List (Int × Int)} (hzs : zs.Nodup) (hxs : xs.Nodup) (hn : n = zs.length + 1 + xs.length)
    {Z str : Int × Int → Int → Bool} {line : Int → Bool} {ar : Int × Int → List Int} {cross : List Int}
    (har : ∀ b ∈ xs, ∀ i ∈ ar b, 0 ≤ i ∧ i < n) (hcr : ∀ i ∈ cross, 0 ≤ i ∧ i < n)
    (hZ : ∀ b ∈ xs, ∀ a ∈ zs, xorAll ((ar b).map (Z a)) = false)
    (hL : ∀ b ∈ xs, xorAll ((ar b).map line) = false)
    (hs : ∀ b ∈ xs, ∀ b' ∈ xs, xorAll ((ar b).map (str b')) = decide (b = b'))
    (hcZ : ∀ a ∈ zs, xorAll (cross.map (Z a)) = false) (hcL : xorAll (cross.map line) = true)
    (hind : ∀ S : Int × Int → Bool, (∀ q : Int, 0 ≤ q → q < n → chosenSum zs S Z q = false) → ∀ a ∈ zs, S a = false)
    (f : Int → Bool) :
    ∃ (S : Int × Int → Bool) (b : Bool) (T : Int × Int → Bool), (∀ q : Int, 0 ≤ q → q < n →
      f q = ((chosenSum zs S Z q ^^ (b && line q)) ^^ chosenSum xs T str q)) ∧ (∀ p ∈ xs, xorAll ((ar p).map f) = T p) ∧
      ((∀ p ∈ xs, T p = false) → xorAll (cross.map f) = b) := by
  have hline : ∀ (b : Bool) (qs : List Int), xorAll (qs.map fun q => (b && line q)) = (b && xorAll (qs.map line)) := fun b qs => xorAll_map_and b line qs
  -- what a check sees
  have hsee : ∀ (S : Int × Int → Bool) (b : Bool) (T : Int × Int → Bool), ∀ p ∈ xs,
      xorAll ((ar p).map fun q => ((chosenSum zs S Z q ^^ (b && line q)) ^^ chosenSum xs T str q)) = T p := by
    intro S b T p hp
    rw [xorAll_map_xor, xorAll_map_xor, hline, hL p hp, chosenSum_over, chosenSum_over,
      xorAll_congr (g := fun _ => false) (fun a ha => by rw [hZ p hp a ha, Bool.and_false]), xorAll_map_false,
      xorAll_single hxs hp _ (fun a ha hne => by rw [hs p hp a ha, decide_eq_false (fun e => hne e.symm), Bool.and_false]), hs p hp p hp]
    simp
  have hcross : ∀ (S : Int × Int → Bool) (b : Bool), xorAll (cross.map fun q => (chosenSum zs S Z q ^^ (b && line q))) = b := by
    intro S b
    rw [xorAll_map_xor, hline, hcL, chosenSum_over, xorAll_congr (g := fun _ => false) (fun a ha => by rw [hcZ a ha, Bool.and_false]), xorAll_map_false]
    simp
  let Φ : (({p // p ∈ zs.toFinset} → Bool) × Bool) × ({p // p ∈ xs.toFinset} → Bool) → (Fin n → Bool) :=
    fun a q => ((chosenSum zs (chosen a.1.1) Z q ^^ (a.1.2 && line q)) ^^ chosenSum xs (chosen a.2) str q)
  have hinj : Function.Injective Φ := by
    rintro ⟨⟨S, b⟩, T⟩ ⟨⟨S', b'⟩, T'⟩ e
    have e' : ∀ q : Int, 0 ≤ q → q < n → ((chosenSum zs (chosen S) Z q ^^ (b && line q)) ^^ chosenSum xs (chosen T) str q) =
        ((chosenSum zs (chosen S') Z q ^^ (b' && line q)) ^^ chosenSum xs (chosen T') str q) := by
      intro q h0 h1
      have := congrFun e ⟨q.toNat, by omega⟩
      simp only [Φ, Int.toNat_of_nonneg h0] at this
      exact this
    have hT : T = T' := by
      funext ⟨p, hp⟩
      have hp' := List.mem_toFinset.1 hp
      have h := hsee (chosen S) b (chosen T) p hp'
      rw [xorAll_congr (fun q hq => e' q (har p hp' q hq).1 (har p hp' q hq).2), hsee (chosen S') b' (chosen T') p hp'] at h
      unfold chosen at h
      rw [dif_pos hp, dif_pos hp] at h
      exact h.symm
    subst hT
    have e2 : ∀ q : Int, 0 ≤ q → q < n → (chosenSum zs (chosen S) Z q ^^ (b && line q)) = (chosenSum zs (chosen S') Z q ^^ (b' && line q)) :=
      fun q h0 h1 => (Bool.xor_left_inj (z := chosenSum xs (chosen T) str q)).1 (e' q h0 h1)
    have hb : b = b' := by
      have h1 := hcross (chosen S) b
      rw [xorAll_congr (fun q hq => e2 q (hcr q hq).1 (hcr q hq).2), hcross (chosen S') b'] at h1
      exact h1.symm
    subst hb
    have hS : S = S' := by
      have h := hind (fun p => (chosen S p ^^ chosen S' p)) (fun q h0 h1 => by
        rw [chosenSum_xor]
        have := e2 q h0 h1
        simpa using this)
      funext ⟨p, hp⟩
      have h' := h p (List.mem_toFinset.1 hp)
      unfold chosen at h'
      rw [dif_pos hp, dif_pos hp] at h'
      simpa using h'
    subst hS
    rfl
  have hcard : Fintype.card ((({p // p ∈ zs.toFinset} → Bool) × Bool) × ({p // p ∈ xs.toFinset} → Bool)) = Fintype.card (Fin n → Bool) := by
    rw [Fintype.card_prod, Fintype.card_prod, Fintype.card_fun, Fintype.card_fun, Fintype.card_fun, Fintype.card_bool, Fintype.card_coe, Fintype.card_coe,
      Fintype.card_fin, List.toFinset_card_of_nodup hzs, List.toFinset_card_of_nodup hxs, hn, pow_add, pow_add, pow_one]
  obtain ⟨⟨⟨S, b⟩, T⟩, e⟩ := ((Fintype.bijective_iff_injective_and_card Φ).2 ⟨hinj, hcard⟩).2 (fun q => f q)
  have main : ∀ q : Int, 0 ≤ q → q < n → f q = ((chosenSum zs (chosen S) Z q ^^ (b && line q)) ^^ chosenSum xs (chosen T) str q) := by
    intro q h0 h1
    have := congrFun e ⟨q.toNat, by omega⟩
    simp only [Φ, Int.toNat_of_nonneg h0] at this
    exact this.symm
  refine ⟨chosen S, b, chosen T, main, fun p hp => ?_, fun h => ?_⟩
  · rw [xorAll_congr (fun q hq => main q (har p hp q hq).1 (har p hp q hq).2)]
    exact hsee _ _ _ p hp
  · rw [← hcross (chosen S) b]
    refine xorAll_congr fun q hq => ?_
    rw [main q (hcr q hq).1 (hcr q hq).2]
    have h0 : chosenSum xs (chosen T) str q = false := by
      unfold chosenSum
      rw [xorAll_congr (g := fun _ => false) (fun a ha => by rw [h a ha, Bool.false_and]), xorAll_map_false]
    rw [h0, Bool.xor_false]

end Qtc
