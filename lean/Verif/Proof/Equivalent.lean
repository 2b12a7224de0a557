import Verif.Spec.Equivalent
import Verif.Proof.QNoisy
/-!
Helpers for C83 and C84.
-/
namespace Qtc
open Spec

variable {key : Key} {dh dw : Int}

theorem sitesOf_site {p : Int × Int} (h : p ∈ sitesOf key dh dw) : Site key dh dw p.1 p.2 := by
  cases key
  · exact mem_xSites.1 h
  · exact mem_zSites.1 h

theorem sameReadings_rounds {fs gs : List Fault} (h : SameReadings key dh dw fs gs) {ref : Int → Int → Bool} {rounds : List Str}
    (hr : RoundsRead key dh dw ref fs rounds) : RoundsRead key dh dw ref gs rounds := by
  refine ⟨hr.1, fun t k s p hs hp => ?_⟩
  rw [hr.2 t k s p hs hp]
  unfold readBit
  rw [h t p.1 p.2 (sitesOf_site (List.mem_of_getElem? hp))]

theorem xorAll_range_pair {n i : Nat} (h : i + 1 < n) (b : Bool) :
    xorAll ((List.range n).map fun j => b && (decide (j = i) ^^ decide (j = i + 1))) = false := by
  have e : (fun j => b && (decide (j = i) ^^ decide (j = i + 1))) = fun j => ((b && decide (j = i)) ^^ (b && decide (j = i + 1))) := by
    funext j; cases b <;> simp
  rw [e, xorAll_map_xor, xorAll_single List.nodup_range (a := i) (List.mem_range.2 (by omega)),
    xorAll_single List.nodup_range (a := i + 1) (List.mem_range.2 (by omega))]
  · simp
  · intro j _ hj; simp [hj]
  · intro j _ hj; simp [hj]

/-- A whole line changes no stabilizer. -/
theorem line_silent {t N r2 c2 : Int} (hs : Site key dh dw r2 c2) {n : Nat} (hn : (n : Int) = distance key dh dw) :
    xorAll ((lineFlips key t n).map (Fault.affects N r2 c2)) = false := by
  unfold lineFlips
  rw [List.map_map]
  cases key
  · change (n : Int) = dw at hn
    change XSite dh dw r2 c2 at hs
    unfold XSite at hs
    rw [← xorAll_range_pair (n := n) (i := ((c2 - 1) / 2).toNat) (by omega) (decide (t < N) && (r2 == -1 || r2 == 1))]
    refine xorAll_congr fun j _ => ?_
    simp only [Function.comp, lineFault, Fault.affects]
    rw [Bool.eq_iff_iff]
    simp only [Bool.and_eq_true, Bool.or_eq_true, beq_iff_eq, decide_eq_true_eq, bne_iff_ne, ne_eq, decide_eq_decide]
    omega
  · change (n : Int) = dh at hn
    change ZSite dh dw r2 c2 at hs
    unfold ZSite at hs
    rw [← xorAll_range_pair (n := n) (i := ((r2 - 1) / 2).toNat) (by omega) (decide (t < N) && (c2 == -1 || c2 == 1))]
    refine xorAll_congr fun j _ => ?_
    simp only [Function.comp, lineFault, Fault.affects]
    rw [Bool.eq_iff_iff]
    simp only [Bool.and_eq_true, Bool.or_eq_true, beq_iff_eq, decide_eq_true_eq, bne_iff_ne, ne_eq, decide_eq_decide]
    omega

/-- The rest of the line. -/
def lineRest (key : Key) (t : Int) (n m : Nat) : List Fault :=
  (List.range' n m).map (lineFault key t)

theorem line_append (t : Int) (n m : Nat) : lineFlips key t (n + m) = lineFlips key t n ++ lineRest key t n m := by
  have : List.range (n + m) = List.range n ++ List.range' n m := by
    rw [List.range_eq_range', List.range_eq_range', ← List.range'_append_1, Nat.zero_add]
  simp only [lineFlips, lineRest, this, List.map_append]

theorem line_same {t : Int} {n m : Nat} (h : ((n + m : Nat) : Int) = distance key dh dw) :
    SameReadings key dh dw (lineFlips key t n) (lineRest key t n m) := by
  intro N r2 c2 hs
  have := line_silent (t := t) (N := N) hs h
  rw [line_append, List.map_append, xorAll_append] at this
  exact (by decide : ∀ a b : Bool, (a ^^ b) = false → a = b) _ _ this

theorem lineRest_readout {t : Int} {n m : Nat} (h : 0 < n) : readoutFlipped key (lineRest key t n m) = false := by
  unfold readoutFlipped lineRest
  refine xorAll_eq_false fun b hb => ?_
  obtain ⟨f, hf, rfl⟩ := List.mem_map.1 hb
  obtain ⟨i, hi, rfl⟩ := List.mem_map.1 hf
  have := (List.mem_range'_1.1 hi).1
  cases key <;> simp only [lineFault, Fault.flipsReadout, beq_eq_false_iff_ne] <;> omega

theorem lineFlips_readout {t : Int} {n : Nat} (h : 0 < n) : readoutFlipped key (lineFlips key t n) = true := by
  unfold readoutFlipped lineFlips
  rw [List.map_map, xorAll_single List.nodup_range (a := 0) (List.mem_range.2 h)]
  · cases key <;> rfl
  · intro i _ hi
    cases key <;> simp only [Function.comp, lineFault, Fault.flipsReadout, beq_eq_false_iff_ne] <;> omega

theorem flips_map (dh dw t r2 c2 : Int) (f : Fault → Bool) : xorAll ((plaquetteFlips dh dw t r2 c2).map f) =
    ((decide (0 ≤ (r2 - 1) / 2 ∧ (r2 - 1) / 2 < dh ∧ 0 ≤ (c2 - 1) / 2 ∧ (c2 - 1) / 2 < dw) && f (.data t ((r2 - 1) / 2) ((c2 - 1) / 2))) ^^
      ((decide (0 ≤ (r2 - 1) / 2 ∧ (r2 - 1) / 2 < dh ∧ 0 ≤ (c2 + 1) / 2 ∧ (c2 + 1) / 2 < dw) && f (.data t ((r2 - 1) / 2) ((c2 + 1) / 2))) ^^
      ((decide (0 ≤ (r2 + 1) / 2 ∧ (r2 + 1) / 2 < dh ∧ 0 ≤ (c2 - 1) / 2 ∧ (c2 - 1) / 2 < dw) && f (.data t ((r2 + 1) / 2) ((c2 - 1) / 2))) ^^
      (decide (0 ≤ (r2 + 1) / 2 ∧ (r2 + 1) / 2 < dh ∧ 0 ≤ (c2 + 1) / 2 ∧ (c2 + 1) / 2 < dw) && f (.data t ((r2 + 1) / 2) ((c2 + 1) / 2)))))) := by
  unfold plaquetteFlips
  rw [List.map_map]
  rw [xorAll_filter]
  simp only [List.map_cons, List.map_nil, xorAll_cons, xorAll_nil, Bool.xor_false, Function.comp]

/-- Flips around a plaquette of the other type change no stabilizer. -/
theorem plaquette_silent (H : OddPos dh dw) {t N r2 c2 s2 d2 : Int} (hp : Site (otherKey key) dh dw r2 c2) (hs : Site key dh dw s2 d2) :
    xorAll ((plaquetteFlips dh dw t r2 c2).map (Fault.affects N s2 d2)) = false := by
  rw [flips_map]
  unfold OddPos at H
  have e : ∀ r c : Int, (decide (0 ≤ r ∧ r < dh ∧ 0 ≤ c ∧ c < dw) && Fault.affects N s2 d2 (.data t r c)) =
      (decide (t < N) && decide ((0 ≤ r ∧ r < dh ∧ 0 ≤ c ∧ c < dw) ∧ (s2 = 2*r-1 ∨ s2 = 2*r+1) ∧ (d2 = 2*c-1 ∨ d2 = 2*c+1))) := by
    intro r c
    simp only [Fault.affects]
    rw [Bool.eq_iff_iff]
    simp only [Bool.and_eq_true, Bool.or_eq_true, beq_iff_eq, decide_eq_true_eq]
    tauto
  rw [e, e, e, e]
  clear e
  generalize decide (t < N) = b
  clear t N
  have hodd : r2 % 2 = 1 ∧ c2 % 2 = 1 ∧ s2 % 2 = 1 ∧ d2 % 2 = 1 ∧ (r2 + c2 + s2 + d2) % 4 = 2 := by
    cases key
    · change ZSite dh dw r2 c2 at hp; change XSite dh dw s2 d2 at hs
      unfold ZSite at hp; unfold XSite at hs; omega
    · change XSite dh dw r2 c2 at hp; change ZSite dh dw s2 d2 at hs
      unfold XSite at hp; unfold ZSite at hs; omega
  have cases : (s2 = r2 ∧ d2 = c2 + 2) ∨ (s2 = r2 ∧ d2 = c2 - 2) ∨ (s2 = r2+2 ∧ d2 = c2) ∨ (s2 = r2-2 ∧ d2 = c2) ∨
      (s2 < r2 - 2 ∨ r2 + 2 < s2 ∨ d2 < c2 - 2 ∨ c2 + 2 < d2) := by omega
  have t : ∀ {p : Prop} [Decidable p], p → decide p = true := fun h => decide_eq_true h
  have f : ∀ {p : Prop} [Decidable p], ¬ p → decide p = false := fun h => decide_eq_false h
  have hh : ∀ b : Bool, ((b && true) ^^ ((b && true) ^^ ((b && false) ^^ (b && false)))) = false ∧
      ((b && false) ^^ ((b && false) ^^ ((b && true) ^^ (b && true)))) = false ∧
      ((b && true) ^^ ((b && false) ^^ ((b && true) ^^ (b && false)))) = false ∧
      ((b && false) ^^ ((b && true) ^^ ((b && false) ^^ (b && true)))) = false ∧
      ((b && false) ^^ ((b && false) ^^ ((b && false) ^^ (b && false)))) = false := by decide
  cases key
  · change ZSite dh dw r2 c2 at hp; change XSite dh dw s2 d2 at hs
    unfold ZSite at hp; unfold XSite at hs
    rcases cases with ⟨rfl, rfl⟩ | ⟨rfl, rfl⟩ | ⟨rfl, rfl⟩ | ⟨rfl, rfl⟩ | h
    · rw [f (by omega), t (by omega), f (by omega), t (by omega)]; exact (hh _).2.2.2.1
    · rw [t (by omega), f (by omega), t (by omega), f (by omega)]; exact (hh _).2.2.1
    · rw [f (by omega), f (by omega), t (by omega), t (by omega)]; exact (hh _).2.1
    · rw [t (by omega), t (by omega), f (by omega), f (by omega)]; exact (hh _).1
    · rw [f (by omega), f (by omega), f (by omega), f (by omega)]; exact (hh _).2.2.2.2
  · change XSite dh dw r2 c2 at hp; change ZSite dh dw s2 d2 at hs
    unfold XSite at hp; unfold ZSite at hs
    rcases cases with ⟨rfl, rfl⟩ | ⟨rfl, rfl⟩ | ⟨rfl, rfl⟩ | ⟨rfl, rfl⟩ | h
    · rw [f (by omega), t (by omega), f (by omega), t (by omega)]; exact (hh _).2.2.2.1
    · rw [t (by omega), f (by omega), t (by omega), f (by omega)]; exact (hh _).2.2.1
    · rw [f (by omega), f (by omega), t (by omega), t (by omega)]; exact (hh _).2.1
    · rw [t (by omega), t (by omega), f (by omega), f (by omega)]; exact (hh _).1
    · rw [f (by omega), f (by omega), f (by omega), f (by omega)]; exact (hh _).2.2.2.2

/-- They do not change the measured logical value either. -/
theorem plaquette_readout (H : OddPos dh dw) {t r2 c2 : Int} (hp : Site (otherKey key) dh dw r2 c2) :
    readoutFlipped key (plaquetteFlips dh dw t r2 c2) = false := by
  unfold readoutFlipped
  rw [flips_map]
  unfold OddPos at H
  have t : ∀ {p : Prop} [Decidable p], p → decide p = true := fun h => decide_eq_true h
  have f : ∀ {p : Prop} [Decidable p], ¬ p → decide p = false := fun h => decide_eq_false h
  cases key
  · change ZSite dh dw r2 c2 at hp
    unfold ZSite at hp
    simp only [Fault.flipsReadout]
    by_cases h1 : c2 = -1
    · subst h1
      rw [f (by omega), t (by omega), f (by omega), t (by omega)]; rfl
    · by_cases h2 : c2 = 2 * dw - 1
      · rw [t (by omega), f (by omega), t (by omega), f (by omega)]
        cases ((c2 - 1) / 2 == 0) <;> rfl
      · rw [t (by omega), t (by omega), t (by omega), t (by omega)]
        cases ((c2 - 1) / 2 == 0) <;> cases ((c2 + 1) / 2 == 0) <;> rfl
  · change XSite dh dw r2 c2 at hp
    unfold XSite at hp
    simp only [Fault.flipsReadout]
    by_cases h1 : r2 = -1
    · subst h1
      rw [f (by omega), f (by omega), t (by omega), t (by omega)]; rfl
    · by_cases h2 : r2 = 2 * dh - 1
      · rw [t (by omega), t (by omega), f (by omega), f (by omega)]
        cases ((r2 - 1) / 2 == 0) <;> rfl
      · rw [t (by omega), t (by omega), t (by omega), t (by omega)]
        cases ((r2 - 1) / 2 == 0) <;> cases ((r2 + 1) / 2 == 0) <;> rfl

end Qtc
