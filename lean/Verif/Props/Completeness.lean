import Verif.Proof.Spanning
import Verif.Props.Quantum
/-!
Property C135: the stabilizers are complete.  A set of flips of data qubits that every plaquette of one type meets evenly is a
sum of plaquettes of the other type, plus the logical operator if and only if it flips the measured logical operator.
The vocabulary is that of `C08_logical_operators` and `C10_z_independent`.
-/
namespace Qtc
open Spec

variable {dh dw : Int}

theorem siteCount (H : OddPos dh dw) : (dh * dw).toNat = (zSites dh dw).length + 1 + (xSites dh dw).length ∧ ((dh * dw).toNat : Int) = dh * dw := by
  have h := numSyn_pos H
  rw [zSites_length H, xSites_length H]
  unfold OddPos at H
  have : 0 < dh * dw := Int.mul_pos (by omega) (by omega)
  omega

theorem around_within (H : OddPos dh dw) {p : Int × Int} : ∀ i ∈ around dh dw p, 0 ≤ i ∧ i < ((dh * dw).toNat : Int) := fun i hi => by
  rw [(siteCount H).2]
  exact mem_allQubits.1 (around_all i hi)

theorem plaq_swap (H : OddPos dh dw) {a b : Int × Int} (ha : XSite dh dw a.1 a.2) (hb : ZSite dh dw b.1 b.2) :
    parityOn (fun q => decide (some q ∈ cornersOf dh dw a.1 a.2)) (cornersOf dh dw b.1 b.2) = false := by
  have h := plaq_commute H ha hb
  have e : ∀ p : Int × Int, (fun q => decide (some q ∈ cornersOf dh dw p.1 p.2)) = fun q => decide (q ∈ around dh dw p) :=
    fun p => funext fun q => decide_eq_decide.2 mem_around.symm
  rw [e b, parityOn_around, xorAll_decide_comm (around_nodup H (key := .X) ha) (around_nodup H (key := .Z) hb)] at h
  rw [e a, parityOn_around]
  exact h

/-- Z plaquettes, a logical operator, and strings that end at the X plaquettes generate all sets of flips. -/
theorem generated_z (H : OddPos dh dw) (f : Int → Bool) : ∃ (S : Int × Int → Bool) (b : Bool) (T : Int × Int → Bool),
    (∀ q : Int, 0 ≤ q → q < dh * dw → f q = ((chosenSum (zSites dh dw) S (fun p q => decide (some q ∈ cornersOf dh dw p.1 p.2)) q ^^ (b && topRow dw q)) ^^
      chosenSum (xSites dh dw) T (fun p q => decide (q ∈ rowPart dw (max ((p.1 - 1) / 2) 0) ((p.2 - 1) / 2))) q)) ∧
    (∀ p ∈ xSites dh dw, xorAll ((around dh dw p).map f) = T p) ∧
    ((∀ p ∈ xSites dh dw, T p = false) → xorAll ((colQubits dh dw 0).map f) = b) := by
  have h9 := C09_attained dh dw H
  have hn := siteCount H
  have := sets_generated (zSites_nodup dh dw) (xSites_nodup dh dw) (n := (dh * dw).toNat) hn.1 (Z := fun p q => decide (some q ∈ cornersOf dh dw p.1 p.2))
    (str := fun p q => decide (q ∈ rowPart dw (max ((p.1 - 1) / 2) 0) ((p.2 - 1) / 2))) (line := topRow dw) (ar := around dh dw)
    (cross := colQubits dh dw 0) (fun b _ => around_within H) ?_ ?_ ?_ ?_ ?_ ?_ ?_ f
  · rw [hn.2] at this; exact this
  · intro i hi
    rw [hn.2]
    exact mem_allQubits.1 (col_all H i hi)
  · intro b hb a ha
    rw [mem_xSites] at hb
    rw [mem_zSites] at ha
    rw [← parityOn_around]
    exact plaq_commute H hb ha
  · intro b hb
    rw [mem_xSites] at hb
    rw [← parityOn_around]
    exact row_commutes H hb
  · intro b hb b' hb'
    exact row_seen H (mem_xSites.1 hb') (mem_xSites.1 hb)
  · intro a ha
    have ha' := mem_zSites.1 ha
    rw [xorAll_congr (g := fun q => decide (q ∈ around dh dw a)) (fun q _ => by rw [decide_eq_decide]; exact mem_around.symm),
      xorAll_decide_comm (colQubits_nodup dh dw 0 (by unfold OddPos at H; omega)) (around_nodup H (key := .Z) ha'), ← parityOn_around]
    exact column_commutes H ha'
  · exact h9.2.2.1
  · intro S hS a ha
    rw [hn.2] at hS
    have ha' := mem_zSites.1 ha
    have hpos : 0 ≤ a.1 + 1 ∧ 0 ≤ a.2 + 1 := by
      unfold ZSite at ha'
      omega
    exact z_independent H S hS a.1.toNat a.1 a.2 ha' (by omega)

/-- The plaquettes chosen by position, in terms of the geometry. -/
theorem chosen_geometry_z (H : OddPos dh dw) (S : Int × Int → Bool) (q : Int) :
    xorAll ((geometryZ dh dw).map fun p => S (coordZ dw p.syn) && decide (some q ∈ p.corners)) =
      chosenSum (zSites dh dw) S (fun p q => decide (some q ∈ cornersOf dh dw p.1 p.2)) q := by
  obtain ⟨h, w, hh, hw, rfl, rfl⟩ := oddPos_cases H
  unfold chosenSum
  rw [zSites_eq hw, geometryZ, List.map_map, List.map_map]
  refine xorAll_congr fun k hk => ?_
  rw [mem_pyRange] at hk
  simp only [Function.comp, geomZ_syn, geomZ_corners hw k hk.1 hk.2]

/-- Every X position is that of a plaquette. -/
theorem site_plaqX (H : OddPos dh dw) {p : Int × Int} (hp : p ∈ xSites dh dw) : ∃ P ∈ geometryX dh dw, P.corners = cornersOf dh dw p.1 p.2 ∧ p = coordX dw P.syn := by
  obtain ⟨h, w, hh, hw, rfl, rfl⟩ := oddPos_cases H
  rw [xSites_eq hw] at hp
  obtain ⟨k, hk, rfl⟩ := List.mem_map.1 hp
  have hk' := hk
  rw [mem_pyRange] at hk'
  exact ⟨geomX _ _ k, List.mem_map.2 ⟨k, hk, rfl⟩, geomX_corners hw k hk'.1 hk'.2, by rw [geomX_syn]⟩

/-- X plaquettes, a logical operator, and strings that end at the Z plaquettes generate all sets of flips. -/
theorem generated_x (H : OddPos dh dw) (f : Int → Bool) : ∃ (S : Int × Int → Bool) (b : Bool) (T : Int × Int → Bool),
    (∀ q : Int, 0 ≤ q → q < dh * dw → f q = ((chosenSum (xSites dh dw) S (fun p q => decide (some q ∈ cornersOf dh dw p.1 p.2)) q ^^ (b && leftColumn dh dw q)) ^^
      chosenSum (zSites dh dw) T (fun p q => decide (q ∈ colPart dw ((p.1 - 1) / 2) (max ((p.2 - 1) / 2) 0))) q)) ∧
    (∀ p ∈ zSites dh dw, xorAll ((around dh dw p).map f) = T p) ∧
    ((∀ p ∈ zSites dh dw, T p = false) → xorAll ((rowQubits dw 0).map f) = b) := by
  have h9 := C09_attained dh dw H
  have hn := siteCount H
  have := sets_generated (xSites_nodup dh dw) (zSites_nodup dh dw) (n := (dh * dw).toNat) (by omega) (Z := fun p q => decide (some q ∈ cornersOf dh dw p.1 p.2))
    (str := fun p q => decide (q ∈ colPart dw ((p.1 - 1) / 2) (max ((p.2 - 1) / 2) 0))) (line := leftColumn dh dw) (ar := around dh dw)
    (cross := rowQubits dw 0) (fun b _ => around_within H) ?_ ?_ ?_ ?_ ?_ ?_ ?_ f
  · rw [hn.2] at this; exact this
  · intro i hi
    rw [hn.2]
    exact mem_allQubits.1 (row_all H i hi)
  · intro b hb a ha
    rw [mem_zSites] at hb
    rw [mem_xSites] at ha
    rw [← parityOn_around]
    exact plaq_swap H ha hb
  · intro b hb
    rw [mem_zSites] at hb
    rw [← parityOn_around]
    exact column_commutes H hb
  · intro b hb b' hb'
    exact col_seen H (mem_zSites.1 hb') (mem_zSites.1 hb)
  · intro a ha
    have ha' := mem_xSites.1 ha
    rw [xorAll_congr (g := fun q => decide (q ∈ around dh dw a)) (fun q _ => by rw [decide_eq_decide]; exact mem_around.symm),
      xorAll_decide_comm (rowQubits_nodup dw 0) (around_nodup H (key := .X) ha'), ← parityOn_around]
    exact row_commutes H ha'
  · exact h9.1.2.1
  · intro S hS a ha
    rw [hn.2] at hS
    have ha' := mem_xSites.1 ha
    have hpos : 0 ≤ a.1 + 1 ∧ 0 ≤ a.2 + 1 := by
      unfold XSite at ha'
      omega
    exact x_independent H S hS a.2.toNat a.1 a.2 ha' (by omega)

/-- The plaquettes chosen by position, in terms of the geometry. -/
theorem chosen_geometry_x (H : OddPos dh dw) (S : Int × Int → Bool) (q : Int) :
    xorAll ((geometryX dh dw).map fun p => S (coordX dw p.syn) && decide (some q ∈ p.corners)) =
      chosenSum (xSites dh dw) S (fun p q => decide (some q ∈ cornersOf dh dw p.1 p.2)) q := by
  obtain ⟨h, w, hh, hw, rfl, rfl⟩ := oddPos_cases H
  unfold chosenSum
  rw [xSites_eq hw, geometryX, List.map_map, List.map_map]
  refine xorAll_congr fun k hk => ?_
  rw [mem_pyRange] at hk
  simp only [Function.comp, geomX_syn, geomX_corners hw k hk.1 hk.2]

/-- Every Z position is that of a plaquette. -/
theorem site_plaqZ (H : OddPos dh dw) {p : Int × Int} (hp : p ∈ zSites dh dw) : ∃ P ∈ geometryZ dh dw, P.corners = cornersOf dh dw p.1 p.2 ∧ p = coordZ dw P.syn := by
  obtain ⟨h, w, hh, hw, rfl, rfl⟩ := oddPos_cases H
  rw [zSites_eq hw] at hp
  obtain ⟨k, hk, rfl⟩ := List.mem_map.1 hp
  have hk' := hk
  rw [mem_pyRange] at hk'
  exact ⟨geomZ _ _ k, List.mem_map.2 ⟨k, hk, rfl⟩, geomZ_corners hw k hk'.1 hk'.2, by rw [geomZ_syn]⟩

/-- The number of the X plaquette at a position. -/
def invXAt (dw : Int) (p : Int × Int) : Int := invX ((dw - 1) / 2) p.1 p.2

theorem plaqX_site (H : OddPos dh dw) {P : Plaq} (hP : P ∈ geometryX dh dw) : ∃ p ∈ xSites dh dw, P.corners = cornersOf dh dw p.1 p.2 ∧ invXAt dw p = P.syn := by
  obtain ⟨h, w, hh, hw, rfl, rfl⟩ := oddPos_cases H
  unfold geometryX at hP
  obtain ⟨k, hk, rfl⟩ := List.mem_map.1 hP
  have hk' := hk
  rw [mem_pyRange] at hk'
  refine ⟨coordX (2 * w + 1) k, ?_, geomX_corners hw k hk'.1 hk'.2, ?_⟩
  · rw [xSites_eq hw]
    exact List.mem_map.2 ⟨k, hk, rfl⟩
  · rw [geomX_syn]
    unfold invXAt
    rw [show (2 * w + 1 - 1) / 2 = w by omega]
    exact invX_coordX hw k hk'.1 hk'.2

/-- The number of the Z plaquette at a position. -/
def invZAt (dw : Int) (p : Int × Int) : Int := invZ ((dw - 1) / 2) p.1 p.2

theorem plaqZ_site (H : OddPos dh dw) {P : Plaq} (hP : P ∈ geometryZ dh dw) : ∃ p ∈ zSites dh dw, P.corners = cornersOf dh dw p.1 p.2 ∧ invZAt dw p = P.syn := by
  obtain ⟨h, w, hh, hw, rfl, rfl⟩ := oddPos_cases H
  unfold geometryZ at hP
  obtain ⟨k, hk, rfl⟩ := List.mem_map.1 hP
  have hk' := hk
  rw [mem_pyRange] at hk'
  refine ⟨coordZ (2 * w + 1) k, ?_, geomZ_corners hw k hk'.1 hk'.2, ?_⟩
  · rw [zSites_eq hw]
    exact List.mem_map.2 ⟨k, hk, rfl⟩
  · rw [geomZ_syn]
    unfold invZAt
    rw [show (2 * w + 1 - 1) / 2 = w by omega]
    exact invZ_coordZ hw k hk'.1 hk'.2

/-- C135 for the X plaquettes: a set of data qubits `f` meets all X plaquettes evenly if and only if it is a sum (mod 2) of Z
plaquettes, plus the top row if `f` meets the left column oddly. -/
theorem C135_z (dh dw : Int) (H : OddPos dh dw) (f : Int → Bool) :
    (∀ p ∈ geometryX dh dw, parityOn f p.corners = false) ↔
    ∃ S : Int → Bool, ∀ q, 0 ≤ q → q < dh * dw →
      f q = (xorAll ((geometryZ dh dw).map fun p => S p.syn && decide (some q ∈ p.corners)) ^^
        (xorAll ((colQubits dh dw 0).map f) && topRow dw q)) := by
  constructor
  · intro hf
    obtain ⟨S, b, T, h1, h2, h3⟩ := generated_z H f
    have hT : ∀ p ∈ xSites dh dw, T p = false := by
      intro p hp
      obtain ⟨P, hP, e, -⟩ := site_plaqX H hp
      rw [← h2 p hp, ← parityOn_around, ← e]
      exact hf P hP
    refine ⟨fun k => S (coordZ dw k), fun q q0 q1 => ?_⟩
    rw [chosen_geometry_z H S q, h1 q q0 q1, h3 hT]
    have h0 : chosenSum (xSites dh dw) T (fun p q => decide (q ∈ rowPart dw (max ((p.1 - 1) / 2) 0) ((p.2 - 1) / 2))) q = false := by
      unfold chosenSum
      rw [xorAll_congr (g := fun _ => false) (fun a ha => by rw [hT a ha, Bool.false_and]), xorAll_map_false]
    rw [h0, Bool.xor_false]
  · rintro ⟨S, hS⟩ P hP
    obtain ⟨s, hs, e⟩ := plaqX_mem H hP
    rw [e, parityOn_around, xorAll_congr (fun q hq => hS q (mem_allQubits.1 (around_all q hq)).1 (mem_allQubits.1 (around_all q hq)).2),
      xorAll_map_xor, xorAll_map_and, ← parityOn_around (topRow dw) s,
      show parityOn (topRow dw) (cornersOf dh dw s.1 s.2) = false from row_commutes H hs, Bool.and_false, Bool.xor_false, sums_swap]
    rw [xorAll_congr (g := fun _ => false), xorAll_map_false]
    intro p hp
    obtain ⟨a, ha, e'⟩ := plaqZ_mem H hp
    rw [← parityOn_around, e', plaq_commute H hs ha, Bool.and_false]

/-- C135 for the Z plaquettes: a set of data qubits `f` meets all Z plaquettes evenly if and only if it is a sum (mod 2) of X
plaquettes, plus the left column if `f` meets the top row oddly. -/
theorem C135_x (dh dw : Int) (H : OddPos dh dw) (f : Int → Bool) :
    (∀ p ∈ geometryZ dh dw, parityOn f p.corners = false) ↔
    ∃ S : Int → Bool, ∀ q, 0 ≤ q → q < dh * dw →
      f q = (xorAll ((geometryX dh dw).map fun p => S p.syn && decide (some q ∈ p.corners)) ^^
        (xorAll ((rowQubits dw 0).map f) && leftColumn dh dw q)) := by
  constructor
  · intro hf
    obtain ⟨S, b, T, h1, h2, h3⟩ := generated_x H f
    have hT : ∀ p ∈ zSites dh dw, T p = false := by
      intro p hp
      obtain ⟨P, hP, e, -⟩ := site_plaqZ H hp
      rw [← h2 p hp, ← parityOn_around, ← e]
      exact hf P hP
    refine ⟨fun k => S (coordX dw k), fun q q0 q1 => ?_⟩
    rw [chosen_geometry_x H S q, h1 q q0 q1, h3 hT]
    have h0 : chosenSum (zSites dh dw) T (fun p q => decide (q ∈ colPart dw ((p.1 - 1) / 2) (max ((p.2 - 1) / 2) 0))) q = false := by
      unfold chosenSum
      rw [xorAll_congr (g := fun _ => false) (fun a ha => by rw [hT a ha, Bool.false_and]), xorAll_map_false]
    rw [h0, Bool.xor_false]
  · rintro ⟨S, hS⟩ P hP
    obtain ⟨s, hs, e⟩ := plaqZ_mem H hP
    rw [e, parityOn_around, xorAll_congr (fun q hq => hS q (mem_allQubits.1 (around_all q hq)).1 (mem_allQubits.1 (around_all q hq)).2),
      xorAll_map_xor, xorAll_map_and, ← parityOn_around (leftColumn dh dw) s,
      show parityOn (leftColumn dh dw) (cornersOf dh dw s.1 s.2) = false from column_commutes H hs, Bool.and_false, Bool.xor_false, sums_swap]
    rw [xorAll_congr (g := fun _ => false), xorAll_map_false]
    intro p hp
    obtain ⟨a, ha, e'⟩ := plaqX_mem H hp
    rw [← parityOn_around, e', plaq_swap H ha hs, Bool.and_false]


/-- C135: two sets of flips with the same X syndromes differ by Z plaquettes and, if they differ on the
left column, the top row. -/
theorem C135_same_z (dh dw : Int) (H : OddPos dh dw) (f g : Int → Bool)
    (h : ∀ p ∈ geometryX dh dw, parityOn f p.corners = parityOn g p.corners) :
    ∃ S : Int → Bool, ∀ q, 0 ≤ q → q < dh * dw →
      (f q ^^ g q) = (xorAll ((geometryZ dh dw).map fun p => S p.syn && decide (some q ∈ p.corners)) ^^
        ((xorAll ((colQubits dh dw 0).map f) ^^ xorAll ((colQubits dh dw 0).map g)) && topRow dw q)) := by
  obtain ⟨S, hS⟩ := (C135_z dh dw H fun q => (f q ^^ g q)).1 fun p hp => by
    obtain ⟨s, hs, e⟩ := plaqX_mem H hp
    have := h p hp
    rw [e, parityOn_around, parityOn_around] at this
    rw [e, parityOn_around, xorAll_map_xor, this, Bool.xor_self]
  refine ⟨S, fun q h0 h1 => ?_⟩
  rw [hS q h0 h1, xorAll_map_xor]

/-- C135: every pattern of X syndromes is that of a set of flips, which may be taken to flip the left column or not. -/
theorem C135_every_z (dh dw : Int) (H : OddPos dh dw) (s : Int → Bool) (b : Bool) :
    ∃ f : Int → Bool, (∀ p ∈ geometryX dh dw, parityOn f p.corners = s p.syn) ∧ xorAll ((colQubits dh dw 0).map f) = b := by
  let g : Int → Bool := chosenSum (xSites dh dw) (fun p => s (invXAt dw p)) (fun p q => decide (q ∈ rowPart dw (max ((p.1 - 1) / 2) 0) ((p.2 - 1) / 2)))
  have hg : ∀ P ∈ geometryX dh dw, parityOn g P.corners = s P.syn := by
    intro P hP
    obtain ⟨p, hp, e, e'⟩ := plaqX_site H hP
    rw [e, parityOn_around, chosenSum_over, xorAll_single (xSites_nodup dh dw) hp _ (fun a ha hne => by
      rw [row_seen H (mem_xSites.1 ha) (mem_xSites.1 hp), decide_eq_false (fun e => hne e.symm), Bool.and_false]),
      row_seen H (mem_xSites.1 hp) (mem_xSites.1 hp), decide_eq_true rfl, Bool.and_true, e']
  refine ⟨fun q => (g q ^^ ((b ^^ xorAll ((colQubits dh dw 0).map g)) && topRow dw q)), fun P hP => ?_, ?_⟩
  · rw [← hg P hP]
    obtain ⟨p, hp, e⟩ := plaqX_mem H hP
    rw [e, parityOn_around, parityOn_around, xorAll_map_xor, xorAll_map_and, ← parityOn_around (topRow dw) p,
      show parityOn (topRow dw) (cornersOf dh dw p.1 p.2) = false from row_commutes H hp, Bool.and_false, Bool.xor_false]
  · rw [xorAll_map_xor, xorAll_map_and, (C09_attained dh dw H).2.2.1, Bool.and_true]
    cases b <;> simp

/-- C135: two sets of flips with the same Z syndromes differ by X plaquettes and, if they differ on the
top row, the left column. -/
theorem C135_same_x (dh dw : Int) (H : OddPos dh dw) (f g : Int → Bool)
    (h : ∀ p ∈ geometryZ dh dw, parityOn f p.corners = parityOn g p.corners) :
    ∃ S : Int → Bool, ∀ q, 0 ≤ q → q < dh * dw →
      (f q ^^ g q) = (xorAll ((geometryX dh dw).map fun p => S p.syn && decide (some q ∈ p.corners)) ^^
        ((xorAll ((rowQubits dw 0).map f) ^^ xorAll ((rowQubits dw 0).map g)) && leftColumn dh dw q)) := by
  obtain ⟨S, hS⟩ := (C135_x dh dw H fun q => (f q ^^ g q)).1 fun p hp => by
    obtain ⟨s, hs, e⟩ := plaqZ_mem H hp
    have := h p hp
    rw [e, parityOn_around, parityOn_around] at this
    rw [e, parityOn_around, xorAll_map_xor, this, Bool.xor_self]
  refine ⟨S, fun q h0 h1 => ?_⟩
  rw [hS q h0 h1, xorAll_map_xor]

/-- C135: every pattern of Z syndromes is that of a set of flips, which may be taken to flip the top row or not. -/
theorem C135_every_x (dh dw : Int) (H : OddPos dh dw) (s : Int → Bool) (b : Bool) :
    ∃ f : Int → Bool, (∀ p ∈ geometryZ dh dw, parityOn f p.corners = s p.syn) ∧ xorAll ((rowQubits dw 0).map f) = b := by
  let g : Int → Bool := chosenSum (zSites dh dw) (fun p => s (invZAt dw p)) (fun p q => decide (q ∈ colPart dw ((p.1 - 1) / 2) (max ((p.2 - 1) / 2) 0)))
  have hg : ∀ P ∈ geometryZ dh dw, parityOn g P.corners = s P.syn := by
    intro P hP
    obtain ⟨p, hp, e, e'⟩ := plaqZ_site H hP
    rw [e, parityOn_around, chosenSum_over, xorAll_single (zSites_nodup dh dw) hp _ (fun a ha hne => by
      rw [col_seen H (mem_zSites.1 ha) (mem_zSites.1 hp), decide_eq_false (fun e => hne e.symm), Bool.and_false]),
      col_seen H (mem_zSites.1 hp) (mem_zSites.1 hp), decide_eq_true rfl, Bool.and_true, e']
  refine ⟨fun q => (g q ^^ ((b ^^ xorAll ((rowQubits dw 0).map g)) && leftColumn dh dw q)), fun P hP => ?_, ?_⟩
  · rw [← hg P hP]
    obtain ⟨p, hp, e⟩ := plaqZ_mem H hP
    rw [e, parityOn_around, parityOn_around, xorAll_map_xor, xorAll_map_and, ← parityOn_around (leftColumn dh dw) p,
      show parityOn (leftColumn dh dw) (cornersOf dh dw p.1 p.2) = false from column_commutes H hp, Bool.and_false, Bool.xor_false]
  · rw [xorAll_map_xor, xorAll_map_and, (C09_attained dh dw H).1.2.1, Bool.and_true]
    cases b <;> simp

/-- On the 3 by 3 code the middle row meets all X plaquettes evenly; it is the sum of the top row and Z plaquettes. -/
example : (∀ p ∈ geometryX 3 3, parityOn (fun q => decide (q ∈ rowQubits 3 1)) p.corners = false) ∧
    xorAll ((colQubits 3 3 0).map fun q => decide (q ∈ rowQubits 3 1)) = true ∧
    ∀ q ∈ allQubits 3 3, decide (q ∈ rowQubits 3 1) =
      (xorAll ((geometryZ 3 3).map fun p => decide (p.syn = 0 ∨ p.syn = 1) && decide (some q ∈ p.corners)) ^^ topRow 3 q) := by decide

/-- A single flip meets a plaquette oddly. -/
example : ¬ ∀ p ∈ geometryX 3 3, parityOn (fun q => decide (q = 4)) p.corners = false := by decide

example : OddPos 3 5 ∧ ∃ f : Int → Bool, (∀ p ∈ geometryX 3 5, parityOn f p.corners = true) ∧ xorAll ((colQubits 3 5 0).map f) = true :=
  ⟨by unfold OddPos; decide, C135_every_z 3 5 (by unfold OddPos; decide) (fun _ => true) true⟩

end Qtc
