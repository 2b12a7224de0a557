import Mathlib.Data.List.Sort
import Mathlib.Data.Prod.Lex
import Mathlib.Data.List.NodupEquivFin
import Verif.Proof.Geometry
namespace Qtc
open Spec

/-- Reading order on doubled positions. -/
def rlt (a b : Int × Int) : Prop := a.1 < b.1 ∨ (a.1 = b.1 ∧ a.2 < b.2)

theorem rlt_irrefl (a : Int × Int) : ¬ rlt a a := by unfold rlt; omega
theorem rlt_asymm {a b : Int × Int} : rlt a b → ¬ rlt b a := by unfold rlt; omega

theorem eq_of_pairwise_rlt : ∀ {l l' : List (Int × Int)}, l.Pairwise rlt → l'.Pairwise rlt →
    (∀ a, a ∈ l ↔ a ∈ l') → l = l'
  | [], [], _, _, _ => rfl
  | [], b :: l', _, _, h => by simpa using (h b).2 (by simp)
  | a :: l, [], _, _, h => by simpa using (h a).1 (by simp)
  | a :: l, b :: l', h1, h2, h => by
    rw [List.pairwise_cons] at h1 h2
    have hab : a = b := by
      have ha := (h a).1 (by simp)
      have hb := (h b).2 (by simp)
      rcases List.mem_cons.1 ha with e | ha
      · exact e
      rcases List.mem_cons.1 hb with e | hb
      · exact e.symm
      exact absurd (h1.1 _ hb) (rlt_asymm (h2.1 _ ha))
    subst hab
    congr 1
    refine eq_of_pairwise_rlt h1.2 h2.2 fun x => ?_
    constructor
    · intro hx
      rcases List.mem_cons.1 ((h x).1 (by simp [hx])) with e | hx'
      · subst e; exact absurd (h1.1 _ hx) (rlt_irrefl _)
      · exact hx'
    · intro hx
      rcases List.mem_cons.1 ((h x).2 (by simp [hx])) with e | hx'
      · subst e; exact absurd (h2.1 _ hx) (rlt_irrefl _)
      · exact hx'

theorem allPos_pairwise (dh dw : Int) : (allPos dh dw).Pairwise rlt := by
  unfold allPos
  rw [List.pairwise_flatMap]
  refine ⟨fun i _ => ?_, ?_⟩
  · rw [List.pairwise_map]
    refine List.pairwise_lt_range.imp ?_
    intro a b h
    right
    exact ⟨rfl, by simp only; omega⟩
  · refine List.pairwise_lt_range.imp ?_
    intro a b h x hx y hy
    simp only [List.mem_map, List.mem_range] at hx hy
    obtain ⟨_, _, rfl⟩ := hx
    obtain ⟨_, _, rfl⟩ := hy
    unfold rlt
    simp only
    omega

theorem mem_allPos {dh dw : Int} {p : Int × Int} :
    p ∈ allPos dh dw ↔ -1 ≤ p.1 ∧ p.1 < 2*dh ∧ -1 ≤ p.2 ∧ p.2 < 2*dw := by
  unfold allPos
  simp only [List.mem_flatMap, List.mem_map, List.mem_range]
  constructor
  · rintro ⟨i, hi, j, hj, rfl⟩
    simp only
    omega
  · rintro ⟨h1, h2, h3, h4⟩
    refine ⟨(p.1+1).toNat, by omega, (p.2+1).toNat, by omega, ?_⟩
    ext <;> simp only <;> omega

theorem mem_xSites {dh dw : Int} {p : Int × Int} : p ∈ xSites dh dw ↔ XSite dh dw p.1 p.2 := by
  unfold xSites
  rw [List.mem_filter, mem_allPos, decide_eq_true_iff]
  unfold XSite
  omega

theorem mem_zSites {dh dw : Int} {p : Int × Int} : p ∈ zSites dh dw ↔ ZSite dh dw p.1 p.2 := by
  unfold zSites
  rw [List.mem_filter, mem_allPos, decide_eq_true_iff]
  unfold ZSite
  omega

theorem coordX_mono {w : Int} (hw : 0 < w) {s s' : Int} (hs : s < s') :
    rlt (coordX (2*w+1) s) (coordX (2*w+1) s') := by
  rw [coordX_eq _ _ (by omega), coordX_eq _ _ (by omega)]
  have h1 : s / w ≤ s' / w := Int.ediv_le_ediv hw (by omega)
  have e1 := Int.ediv_mul_add_emod s w
  have e2 := Int.ediv_mul_add_emod s' w
  unfold rlt
  simp only
  rcases Int.lt_or_eq_of_le h1 with h | h
  · left; omega
  · right
    rw [h] at e1 ⊢
    omega

theorem coordZ_mono {w : Int} (hw : 0 ≤ w) {s s' : Int} (hs : s < s') :
    rlt (coordZ (2*w+1) s) (coordZ (2*w+1) s') := by
  rw [coordZ_eq _ _ (by omega), coordZ_eq _ _ (by omega)]
  have h1 : s / (w+1) ≤ s' / (w+1) := Int.ediv_le_ediv (by omega) (by omega)
  have e1 := Int.ediv_mul_add_emod s (w+1)
  have e2 := Int.ediv_mul_add_emod s' (w+1)
  unfold rlt
  simp only
  rcases Int.lt_or_eq_of_le h1 with h | h
  · left; omega
  · right
    rw [h] at e1 ⊢
    omega

theorem mem_pyRange {n k : Int} : k ∈ pyRange n ↔ 0 ≤ k ∧ k < n := by
  unfold pyRange
  simp only [List.mem_map, List.mem_range]
  constructor
  · rintro ⟨a, ha, rfl⟩
    simp only [Int.ofNat_eq_natCast]; omega
  · rintro ⟨h1, h2⟩
    exact ⟨k.toNat, by omega, by simp only [Int.ofNat_eq_natCast]; omega⟩

theorem pyRange_pairwise (n : Int) : (pyRange n).Pairwise (· < ·) := by
  unfold pyRange
  rw [List.pairwise_map]
  refine List.pairwise_lt_range.imp ?_
  intro a b h
  simp only [Int.ofNat_eq_natCast]; omega

theorem xSites_eq {h w : Int} (hw : 0 ≤ w) :
    xSites (2*h+1) (2*w+1) = (pyRange (numSynX (2*h+1) (2*w+1))).map (coordX (2*w+1)) := by
  refine eq_of_pairwise_rlt ((allPos_pairwise _ _).filter _) ?_ ?_
  · rw [List.pairwise_map]
    refine (pyRange_pairwise _).imp_of_mem ?_
    intro a b ha _ hab
    rw [mem_pyRange] at ha
    exact coordX_mono (rowX_facts hw ha.1 ha.2).1 hab
  · intro a
    rw [mem_xSites, List.mem_map]
    constructor
    · intro ha
      obtain ⟨h1, h2, h3⟩ := site_coordX ha
      exact ⟨_, mem_pyRange.2 ⟨h1, h2⟩, h3⟩
    · rintro ⟨k, hk, rfl⟩
      rw [mem_pyRange] at hk
      exact coordX_site hw k hk.1 hk.2

theorem zSites_eq {h w : Int} (hw : 0 ≤ w) :
    zSites (2*h+1) (2*w+1) = (pyRange (numSynZ (2*h+1) (2*w+1))).map (coordZ (2*w+1)) := by
  refine eq_of_pairwise_rlt ((allPos_pairwise _ _).filter _) ?_ ?_
  · rw [List.pairwise_map]
    refine (pyRange_pairwise _).imp ?_
    intro a b hab
    exact coordZ_mono hw hab
  · intro a
    rw [mem_zSites, List.mem_map]
    constructor
    · intro ha
      obtain ⟨h1, h2, h3⟩ := site_coordZ hw ha
      exact ⟨_, mem_pyRange.2 ⟨h1, h2⟩, h3⟩
    · rintro ⟨k, hk, rfl⟩
      rw [mem_pyRange] at hk
      exact coordZ_site hw k hk.1 hk.2

theorem oddPos_cases {dh dw : Int} (H : OddPos dh dw) : ∃ h w : Int, 0 ≤ h ∧ 0 ≤ w ∧ dh = 2*h+1 ∧ dw = 2*w+1 := by
  obtain ⟨h1, h2, h3, h4⟩ := H
  exact ⟨dh/2, dw/2, by omega, by omega, by omega, by omega⟩

theorem geometryX_corners {dh dw : Int} (H : OddPos dh dw) :
    (geometryX dh dw).map Plaq.corners = (xSites dh dw).map fun p => cornersOf dh dw p.1 p.2 := by
  obtain ⟨h, w, hh, hw, rfl, rfl⟩ := oddPos_cases H
  rw [xSites_eq hw, geometryX, List.map_map, List.map_map]
  refine List.map_congr_left fun k hk => ?_
  rw [mem_pyRange] at hk
  exact geomX_corners hw k hk.1 hk.2

theorem geometryZ_corners {dh dw : Int} (H : OddPos dh dw) :
    (geometryZ dh dw).map Plaq.corners = (zSites dh dw).map fun p => cornersOf dh dw p.1 p.2 := by
  obtain ⟨h, w, hh, hw, rfl, rfl⟩ := oddPos_cases H
  rw [zSites_eq hw, geometryZ, List.map_map, List.map_map]
  refine List.map_congr_left fun k hk => ?_
  rw [mem_pyRange] at hk
  exact geomZ_corners hw k hk.1 hk.2

theorem geomX_syn (dh dw s : Int) : (geomX dh dw s).syn = s := by
  unfold geomX; simp only; split <;> [rfl; split <;> rfl]

theorem geomZ_syn (dh dw s : Int) : (geomZ dh dw s).syn = s := by
  unfold geomZ; simp only; split <;> [rfl; split <;> rfl]

end Qtc
