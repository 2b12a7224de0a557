import Verif.Model.Readout
import Verif.Spec.Lattice
namespace Qtc
open Spec

theorem fdiv_pos_eq (a : Int) {b : Int} (hb : 0 ≤ b) : a.fdiv b = a / b := Int.fdiv_eq_ediv_of_nonneg a hb
theorem fmod_pos_eq (a : Int) {b : Int} (hb : 0 ≤ b) : a.fmod b = a % b := Int.fmod_eq_emod_of_nonneg a hb

theorem numSynX_odd (h w : Int) : numSynX (2*h+1) (2*w+1) = (h+1) * (2*w) := by
  unfold numSynX
  rw [fdiv_pos_eq _ (by omega)]
  have : (2*h+1+1)/2 = h+1 := by omega
  rw [this]; congr 1; omega

theorem numSynZ_odd (h w : Int) : numSynZ (2*h+1) (2*w+1) = (w+1) * (2*h) := by
  unfold numSynZ
  rw [fdiv_pos_eq _ (by omega)]
  have : (2*w+1+1)/2 = w+1 := by omega
  rw [this]; congr 1; omega

theorem perRowX_odd (w : Int) : perRowX (2*w+1) = w := by
  unfold perRowX; rw [fdiv_pos_eq _ (by omega)]; omega

theorem perRowZ_odd (w : Int) : perRowZ (2*w+1) = w+1 := by
  unfold perRowZ; rw [fdiv_pos_eq _ (by omega)]; omega

theorem dataAt_some {dh dw r c k : Int} (h : 0 ≤ r ∧ r < dh ∧ 0 ≤ c ∧ c < dw) (hk : k = r * dw + c) :
    some k = dataAt dh dw r c := by
  rw [dataAt, if_pos h, hk]

theorem dataAt_none {dh dw r c : Int} (h : ¬ (0 ≤ r ∧ r < dh ∧ 0 ≤ c ∧ c < dw)) :
    none = dataAt dh dw r c := by
  rw [dataAt, if_neg h]

/-- Arithmetic facts about the row and offset of an X syndrome index. -/
theorem rowX_facts {h w s : Int} (hw : 0 ≤ w) (hs0 : 0 ≤ s) (hs : s < numSynX (2*h+1) (2*w+1)) :
    0 < w ∧ s / w * w + s % w = s ∧ 0 ≤ s % w ∧ s % w < w ∧ 0 ≤ s / w ∧ s / w < 2*h+2 := by
  rw [numSynX_odd] at hs
  have hw1 : 0 < w := by
    rcases Int.lt_or_eq_of_le hw with h1 | h1
    · exact h1
    · subst h1; simp at hs; omega
  refine ⟨hw1, Int.ediv_mul_add_emod s w, Int.emod_nonneg s (by omega), Int.emod_lt_of_pos s hw1,
    Int.ediv_nonneg hs0 hw, ?_⟩
  apply Int.ediv_lt_of_lt_mul hw1
  calc s < (h+1)*(2*w) := hs
      _ = (2*h+2)*w := by rw [show (2*h+2) = (h+1)*2 by omega, Int.mul_assoc]

/-- Arithmetic facts about the row and offset of a Z syndrome index. -/
theorem rowZ_facts {h w s : Int} (hw : 0 ≤ w) (hs0 : 0 ≤ s) (hs : s < numSynZ (2*h+1) (2*w+1)) :
    s / (w+1) * (w+1) + s % (w+1) = s ∧ 0 ≤ s % (w+1) ∧ s % (w+1) < w+1 ∧ 0 ≤ s / (w+1) ∧
      s / (w+1) < 2*h := by
  rw [numSynZ_odd] at hs
  refine ⟨Int.ediv_mul_add_emod s _, Int.emod_nonneg s (by omega), Int.emod_lt_of_pos s (by omega),
    Int.ediv_nonneg hs0 (by omega), ?_⟩
  apply Int.ediv_lt_of_lt_mul (by omega)
  rw [Int.mul_comm]; exact hs

theorem geomX_corners {h w : Int} (hw : 0 ≤ w) (s : Int) (hs0 : 0 ≤ s)
    (hs : s < numSynX (2*h+1) (2*w+1)) :
    (geomX (2*h+1) (2*w+1) s).corners =
      cornersOf (2*h+1) (2*w+1) (coordX (2*w+1) s).1 (coordX (2*w+1) s).2 := by
  obtain ⟨hw1, hq, ho0, ho1, hr0, hr1⟩ := rowX_facts hw hs0 hs
  have e1 : (2*w+1).fdiv 2 = w := by rw [fdiv_pos_eq _ (by omega)]; omega
  unfold geomX coordX
  simp only [perRowX_odd, e1]
  rw [fdiv_pos_eq _ hw, fmod_pos_eq _ hw]
  generalize s / w = q at *
  generalize s % w = o at *
  rw [fmod_pos_eq _ (by omega)]
  simp only [cornersOf]
  rw [show (-1 + 2*q - 1)/2 = q - 1 by omega, show (-1 + 2*q + 1)/2 = q by omega,
    show (1 + 2*(q%2) + o*4 - 1)/2 = o*2 + q%2 by omega, show (1 + 2*(q%2) + o*4 + 1)/2 = o*2 + q%2 + 1 by omega]
  split
  · rename_i h0
    subst h0
    simp at hq
    subst hq
    simp only [Plaq.corners, List.cons.injEq, and_true]
    exact ⟨dataAt_none (by omega), dataAt_none (by omega), dataAt_some (by omega) (by omega),
      dataAt_some (by omega) (by omega)⟩
  · split
    · rename_i h0 h1
      subst h1
      simp only [Plaq.corners, List.cons.injEq, and_true]
      exact ⟨dataAt_some (by omega) (by omega), dataAt_some (by omega) (by omega), dataAt_none (by omega),
        dataAt_none (by omega)⟩
    · rename_i h0 h1
      simp only [Plaq.corners, List.cons.injEq, and_true]
      have e : (q-1)*(2*w+1) + (2*w+1) = q*(2*w+1) := by rw [Int.sub_mul]; omega
      exact ⟨dataAt_some (by omega) (by omega), dataAt_some (by omega) (by omega),
        dataAt_some (by omega) (by omega), dataAt_some (by omega) (by omega)⟩

theorem geomZ_corners {h w : Int} (hw : 0 ≤ w) (s : Int) (hs0 : 0 ≤ s)
    (hs : s < numSynZ (2*h+1) (2*w+1)) :
    (geomZ (2*h+1) (2*w+1) s).corners =
      cornersOf (2*h+1) (2*w+1) (coordZ (2*w+1) s).1 (coordZ (2*w+1) s).2 := by
  obtain ⟨hq, ho0, ho1, hr0, hr1⟩ := rowZ_facts hw hs0 hs
  have e1 : (2*w+1).fdiv 2 = w := by rw [fdiv_pos_eq _ (by omega)]; omega
  unfold geomZ coordZ
  simp only [perRowZ_odd, e1]
  rw [fdiv_pos_eq s (by omega), fmod_pos_eq s (by omega)]
  generalize s / (w+1) = q at *
  generalize s % (w+1) = o at *
  rw [fmod_pos_eq _ (by omega)]
  simp only [cornersOf]
  have e : (q+1)*(2*w+1) = q*(2*w+1) + (2*w+1) := by rw [Int.add_mul]; omega
  rw [show (1 + 2*q - 1)/2 = q by omega, show (1 + 2*q + 1)/2 = q + 1 by omega,
    show (1 - 2*(q%2) + o*4 - 1)/2 = o*2 - q%2 by omega, show (1 - 2*(q%2) + o*4 + 1)/2 = o*2 - q%2 + 1 by omega]
  split
  · simp only [Plaq.corners, List.cons.injEq, and_true]
    exact ⟨dataAt_some (by omega) (by omega), dataAt_none (by omega), dataAt_some (by omega) (by omega),
      dataAt_none (by omega)⟩
  · split
    · simp only [Plaq.corners, List.cons.injEq, and_true]
      exact ⟨dataAt_none (by omega), dataAt_some (by omega) (by omega), dataAt_none (by omega),
        dataAt_some (by omega) (by omega)⟩
    · simp only [Plaq.corners, List.cons.injEq, and_true]
      exact ⟨dataAt_some (by omega) (by omega), dataAt_some (by omega) (by omega),
        dataAt_some (by omega) (by omega), dataAt_some (by omega) (by omega)⟩

/-- Inverse of `coordX` on X sites. -/
def invX (w r2 c2 : Int) : Int := ((r2 + 1) / 2) * w + (c2 - 1) / 4

/-- Inverse of `coordZ` on Z sites. -/
def invZ (w r2 c2 : Int) : Int := ((r2 - 1) / 2) * (w + 1) + (c2 + 1) / 4

theorem coordX_eq (w s : Int) (hw : 0 ≤ w) :
    coordX (2*w+1) s = (-1 + 2*(s/w), 1 + 2*(s/w%2) + s%w*4) := by
  have e1 : (2*w+1).fdiv 2 = w := by rw [fdiv_pos_eq _ (by omega)]; omega
  simp only [coordX, e1]
  rw [fdiv_pos_eq _ hw, fmod_pos_eq _ hw, fmod_pos_eq _ (by omega)]

theorem coordZ_eq (w s : Int) (hw : 0 ≤ w) :
    coordZ (2*w+1) s = (1 + 2*(s/(w+1)), 1 - 2*(s/(w+1)%2) + s%(w+1)*4) := by
  have e1 : (2*w+1).fdiv 2 = w := by rw [fdiv_pos_eq _ (by omega)]; omega
  simp only [coordZ, e1]
  rw [fdiv_pos_eq _ (by omega), fmod_pos_eq _ (by omega), fmod_pos_eq _ (by omega)]

theorem coordX_site {h w : Int} (hw : 0 ≤ w) (s : Int) (hs0 : 0 ≤ s)
    (hs : s < numSynX (2*h+1) (2*w+1)) :
    XSite (2*h+1) (2*w+1) (coordX (2*w+1) s).1 (coordX (2*w+1) s).2 := by
  obtain ⟨hw1, hq, ho0, ho1, hr0, hr1⟩ := rowX_facts hw hs0 hs
  rw [coordX_eq _ _ hw]
  generalize s / w = q at *
  generalize s % w = o at *
  unfold XSite
  simp only
  omega

theorem coordZ_site {h w : Int} (hw : 0 ≤ w) (s : Int) (hs0 : 0 ≤ s)
    (hs : s < numSynZ (2*h+1) (2*w+1)) :
    ZSite (2*h+1) (2*w+1) (coordZ (2*w+1) s).1 (coordZ (2*w+1) s).2 := by
  obtain ⟨hq, ho0, ho1, hr0, hr1⟩ := rowZ_facts hw hs0 hs
  rw [coordZ_eq _ _ hw]
  generalize s / (w+1) = q at *
  generalize s % (w+1) = o at *
  unfold ZSite
  simp only
  omega

theorem invX_coordX {h w : Int} (hw : 0 ≤ w) (s : Int) (hs0 : 0 ≤ s)
    (hs : s < numSynX (2*h+1) (2*w+1)) :
    invX w (coordX (2*w+1) s).1 (coordX (2*w+1) s).2 = s := by
  obtain ⟨hw1, hq, ho0, ho1, hr0, hr1⟩ := rowX_facts hw hs0 hs
  rw [coordX_eq _ _ hw]
  unfold invX
  simp only
  rw [show (-1 + 2 * (s/w) + 1)/2 = s/w by omega, show (1 + 2 * (s / w % 2) + s % w * 4 - 1) / 4 = s % w by omega]
  exact hq

theorem invZ_coordZ {h w : Int} (hw : 0 ≤ w) (s : Int) (hs0 : 0 ≤ s)
    (hs : s < numSynZ (2*h+1) (2*w+1)) :
    invZ w (coordZ (2*w+1) s).1 (coordZ (2*w+1) s).2 = s := by
  obtain ⟨hq, ho0, ho1, hr0, hr1⟩ := rowZ_facts hw hs0 hs
  rw [coordZ_eq _ _ hw]
  unfold invZ
  simp only
  rw [show (1 + 2 * (s/(w+1)) - 1)/2 = s/(w+1) by omega,
    show (1 - 2 * (s / (w+1) % 2) + s % (w+1) * 4 + 1) / 4 = s % (w+1) by omega]
  exact hq

theorem site_coordX {h w r2 c2 : Int} (hs : XSite (2*h+1) (2*w+1) r2 c2) :
    0 ≤ invX w r2 c2 ∧ invX w r2 c2 < numSynX (2*h+1) (2*w+1) ∧ coordX (2*w+1) (invX w r2 c2) = (r2, c2) := by
  obtain ⟨h1, h2, h3, h4, h5, h6, h7⟩ := hs
  have hw : 0 < w := by omega
  have hq0 : 0 ≤ (r2+1)/2 := by omega
  have hq1 : (r2+1)/2 < 2*h+2 := by omega
  have ho0 : 0 ≤ (c2-1)/4 := by omega
  have ho1 : (c2-1)/4 < w := by omega
  have ediv : invX w r2 c2 / w = (r2+1)/2 := by
    unfold invX
    rw [Int.add_comm, Int.add_mul_ediv_right _ _ (by omega), Int.ediv_eq_zero_of_lt ho0 ho1]; omega
  have emod : invX w r2 c2 % w = (c2-1)/4 := by
    unfold invX
    rw [Int.add_comm, Int.add_mul_emod_self_right, Int.emod_eq_of_lt ho0 ho1]
  refine ⟨?_, ?_, ?_⟩
  · unfold invX
    have := Int.mul_nonneg hq0 (Int.le_of_lt hw)
    omega
  · rw [numSynX_odd]
    unfold invX
    have e : (h+1)*(2*w) = (2*h+2)*w := by rw [show (2*h+2) = (h+1)*2 by omega, Int.mul_assoc]
    have e2 : ((r2+1)/2 + 1) * w ≤ (2*h+2)*w := Int.mul_le_mul_of_nonneg_right (by omega) (by omega)
    rw [Int.add_mul] at e2
    omega
  · rw [coordX_eq _ _ (by omega), ediv, emod]
    ext <;> simp only <;> omega

theorem site_coordZ {h w r2 c2 : Int} (hw : 0 ≤ w) (hs : ZSite (2*h+1) (2*w+1) r2 c2) :
    0 ≤ invZ w r2 c2 ∧ invZ w r2 c2 < numSynZ (2*h+1) (2*w+1) ∧ coordZ (2*w+1) (invZ w r2 c2) = (r2, c2) := by
  obtain ⟨h1, h2, h3, h4, h5, h6, h7⟩ := hs
  have hq0 : 0 ≤ (r2-1)/2 := by omega
  have hq1 : (r2-1)/2 < 2*h := by omega
  have ho0 : 0 ≤ (c2+1)/4 := by omega
  have ho1 : (c2+1)/4 < w+1 := by omega
  have ediv : invZ w r2 c2 / (w+1) = (r2-1)/2 := by
    unfold invZ
    rw [Int.add_comm, Int.add_mul_ediv_right _ _ (by omega), Int.ediv_eq_zero_of_lt ho0 ho1]; omega
  have emod : invZ w r2 c2 % (w+1) = (c2+1)/4 := by
    unfold invZ
    rw [Int.add_comm, Int.add_mul_emod_self_right, Int.emod_eq_of_lt ho0 ho1]
  refine ⟨?_, ?_, ?_⟩
  · unfold invZ
    have := Int.mul_nonneg hq0 (show 0 ≤ w+1 by omega)
    omega
  · rw [numSynZ_odd]
    unfold invZ
    have e2 : ((r2-1)/2 + 1) * (w+1) ≤ (2*h)*(w+1) := Int.mul_le_mul_of_nonneg_right (by omega) (by omega)
    rw [Int.add_mul] at e2
    rw [Int.mul_comm (w+1)]
    omega
  · rw [coordZ_eq _ _ (by omega), ediv, emod]
    ext <;> simp only <;> omega

end Qtc
