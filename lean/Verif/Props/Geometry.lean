import Verif.Proof.Corners
/-!
Properties C04-C10 and C14: the stabilizer layout of a rotated lattice.
`geometryX dh dw` and `geometryZ dh dw` are the lists of plaquettes the constructor builds (the data handed to the
circuit builder); everything else in the statements is from `Verif.Spec.Lattice`.
-/
namespace Qtc
open Spec

theorem getElem?_pyRange {n : Int} {k : Nat} {a : Int} (h : (pyRange n)[k]? = some a) : a = k ∧ a < n := by
  unfold pyRange at h
  rw [List.getElem?_map, Option.map_eq_some_iff] at h
  obtain ⟨b, hb, rfl⟩ := h
  obtain ⟨hlt, e⟩ := List.getElem?_eq_some_iff.1 hb
  rw [List.getElem_range] at e
  rw [List.length_range] at hlt
  subst e
  exact ⟨rfl, by simp only [Int.ofNat_eq_natCast]; omega⟩

theorem getElem?_geometryX {dh dw : Int} {k : Nat} {p : Plaq} (h : (geometryX dh dw)[k]? = some p) :
    p = geomX dh dw k ∧ (k : Int) < numSynX dh dw := by
  unfold geometryX at h
  rw [List.getElem?_map, Option.map_eq_some_iff] at h
  obtain ⟨a, ha, rfl⟩ := h
  obtain ⟨rfl, h2⟩ := getElem?_pyRange ha
  exact ⟨rfl, h2⟩

theorem getElem?_geometryZ {dh dw : Int} {k : Nat} {p : Plaq} (h : (geometryZ dh dw)[k]? = some p) :
    p = geomZ dh dw k ∧ (k : Int) < numSynZ dh dw := by
  unfold geometryZ at h
  rw [List.getElem?_map, Option.map_eq_some_iff] at h
  obtain ⟨a, ha, rfl⟩ := h
  obtain ⟨rfl, h2⟩ := getElem?_pyRange ha
  exact ⟨rfl, h2⟩

/-- The `k`-th X plaquette has the corners of the `k`-th X position. -/
theorem plaqX_at {dh dw : Int} (H : OddPos dh dw) {k : Nat} {p : Plaq} (h : (geometryX dh dw)[k]? = some p) :
    ∃ s, (xSites dh dw)[k]? = some s ∧ XSite dh dw s.1 s.2 ∧ p.corners = cornersOf dh dw s.1 s.2 := by
  have e := congrArg (fun l => l[k]?) (geometryX_corners H)
  simp only [List.getElem?_map, h, Option.map_some] at e
  obtain ⟨s, hs, e'⟩ := Option.map_eq_some_iff.1 e.symm
  exact ⟨s, hs, mem_xSites.1 (List.mem_of_getElem? hs), e'.symm⟩

theorem plaqZ_at {dh dw : Int} (H : OddPos dh dw) {k : Nat} {p : Plaq} (h : (geometryZ dh dw)[k]? = some p) :
    ∃ s, (zSites dh dw)[k]? = some s ∧ ZSite dh dw s.1 s.2 ∧ p.corners = cornersOf dh dw s.1 s.2 := by
  have e := congrArg (fun l => l[k]?) (geometryZ_corners H)
  simp only [List.getElem?_map, h, Option.map_some] at e
  obtain ⟨s, hs, e'⟩ := Option.map_eq_some_iff.1 e.symm
  exact ⟨s, hs, mem_zSites.1 (List.mem_of_getElem? hs), e'.symm⟩

theorem plaqX_mem {dh dw : Int} (H : OddPos dh dw) {p : Plaq} (h : p ∈ geometryX dh dw) :
    ∃ s : Int × Int, XSite dh dw s.1 s.2 ∧ p.corners = cornersOf dh dw s.1 s.2 := by
  obtain ⟨k, hk⟩ := List.getElem?_of_mem h
  obtain ⟨s, -, h2⟩ := plaqX_at H hk
  exact ⟨s, h2⟩

theorem plaqZ_mem {dh dw : Int} (H : OddPos dh dw) {p : Plaq} (h : p ∈ geometryZ dh dw) :
    ∃ s : Int × Int, ZSite dh dw s.1 s.2 ∧ p.corners = cornersOf dh dw s.1 s.2 := by
  obtain ⟨k, hk⟩ := List.getElem?_of_mem h
  obtain ⟨s, -, h2⟩ := plaqZ_at H hk
  exact ⟨s, h2⟩

theorem siteX_mem {dh dw : Int} (H : OddPos dh dw) {r2 c2 : Int} (h : XSite dh dw r2 c2) :
    ∃ p ∈ geometryX dh dw, p.corners = cornersOf dh dw r2 c2 := by
  have : cornersOf dh dw r2 c2 ∈ (geometryX dh dw).map Plaq.corners := by
    rw [geometryX_corners H]
    exact List.mem_map.2 ⟨(r2, c2), mem_xSites.2 h, rfl⟩
  obtain ⟨p, hp, e⟩ := List.mem_map.1 this
  exact ⟨p, hp, e⟩

theorem siteZ_mem {dh dw : Int} (H : OddPos dh dw) {r2 c2 : Int} (h : ZSite dh dw r2 c2) :
    ∃ p ∈ geometryZ dh dw, p.corners = cornersOf dh dw r2 c2 := by
  have : cornersOf dh dw r2 c2 ∈ (geometryZ dh dw).map Plaq.corners := by
    rw [geometryZ_corners H]
    exact List.mem_map.2 ⟨(r2, c2), mem_zSites.2 h, rfl⟩
  obtain ⟨p, hp, e⟩ := List.mem_map.1 this
  exact ⟨p, hp, e⟩

/-- The data qubits a plaquette uses. -/
def Plaq.qubits (p : Plaq) : List Int := p.corners.filterMap id

/-- C04 for X plaquettes: the `k`-th one names syndrome qubit `k` and two or four distinct existing data qubits. -/
theorem C04_x_plaquettes_in_range (dh dw : Int) (H : OddPos dh dw) (k : Nat) (p : Plaq)
    (hp : (geometryX dh dw)[k]? = some p) :
    p.syn = k ∧ (p.qubits.length = 2 ∨ p.qubits.length = 4) ∧ p.qubits.Nodup ∧
      ∀ q ∈ p.qubits, 0 ≤ q ∧ q < dh * dw := by
  obtain ⟨s, -, hs, e⟩ := plaqX_at H hp
  obtain ⟨rfl, -⟩ := getElem?_geometryX hp
  unfold Plaq.qubits
  rw [e]
  exact ⟨geomX_syn _ _ _, corners_good _ _ _ _ H (Or.inl hs)⟩

/-- C04 for Z plaquettes. -/
theorem C04_z_plaquettes_in_range (dh dw : Int) (H : OddPos dh dw) (k : Nat) (p : Plaq)
    (hp : (geometryZ dh dw)[k]? = some p) :
    p.syn = k ∧ (p.qubits.length = 2 ∨ p.qubits.length = 4) ∧ p.qubits.Nodup ∧
      ∀ q ∈ p.qubits, 0 ≤ q ∧ q < dh * dw := by
  obtain ⟨s, -, hs, e⟩ := plaqZ_at H hp
  obtain ⟨rfl, -⟩ := getElem?_geometryZ hp
  unfold Plaq.qubits
  rw [e]
  exact ⟨geomZ_syn _ _ _, corners_good _ _ _ _ H (Or.inr hs)⟩

example : OddPos 3 5 ∧ ((geometryX 3 5)[3]?).map Plaq.qubits = some [3, 4, 8, 9] ∧
    ((geometryZ 3 5)[3]?).map Plaq.qubits = some [5, 10] := by unfold OddPos; decide

/-- C05 for X: reading the X positions in reading order, the `k`-th X plaquette consists of the data qubits around the
`k`-th position, there are as many plaquettes as positions, and the `k`-th position is the coordinate `parse_readout`
computes for syndrome bit `k`. -/
theorem C05_x_coordinates (dh dw : Int) (H : OddPos dh dw) :
    (geometryX dh dw).map Plaq.corners = (xSites dh dw).map (fun s => cornersOf dh dw s.1 s.2) ∧
    xSites dh dw = (List.range (numSynX dh dw).toNat).map (fun (k : Nat) => coordX dw k) := by
  refine ⟨geometryX_corners H, ?_⟩
  obtain ⟨h, w, hh, hw, rfl, rfl⟩ := oddPos_cases H
  rw [xSites_eq hw]; unfold pyRange; rw [List.map_map]; rfl

/-- C05 for Z. -/
theorem C05_z_coordinates (dh dw : Int) (H : OddPos dh dw) :
    (geometryZ dh dw).map Plaq.corners = (zSites dh dw).map (fun s => cornersOf dh dw s.1 s.2) ∧
    zSites dh dw = (List.range (numSynZ dh dw).toNat).map (fun (k : Nat) => coordZ dw k) := by
  refine ⟨geometryZ_corners H, ?_⟩
  obtain ⟨h, w, hh, hw, rfl, rfl⟩ := oddPos_cases H
  rw [zSites_eq hw]; unfold pyRange; rw [List.map_map]; rfl

example : OddPos 3 3 ∧ xSites 3 3 = [(-1, 1), (1, 3), (3, 1), (5, 3)] ∧
    zSites 3 3 = [(1, 1), (1, 5), (3, -1), (3, 3)] := by unfold OddPos; decide

/-- The two neighbouring positions of Z colour of the data qubit at `(r, c)`. -/
def zNbrs (r c : Int) : List (Int × Int) :=
  if (r + c) % 2 = 0 then [(2*r-1, 2*c-1), (2*r+1, 2*c+1)] else [(2*r-1, 2*c+1), (2*r+1, 2*c-1)]

/-- The two neighbouring positions of X colour of the data qubit at `(r, c)`. -/
def xNbrs (r c : Int) : List (Int × Int) :=
  if (r + c) % 2 = 0 then [(2*r-1, 2*c+1), (2*r+1, 2*c-1)] else [(2*r-1, 2*c-1), (2*r+1, 2*c+1)]

theorem filter_len_le_two {l : List (Int × Int)} (hl : l.Nodup) (a b : Int × Int) (P : Int × Int → Bool)
    (h : ∀ x ∈ l, P x = true → x = a ∨ x = b) : (l.filter P).length ≤ 2 := by
  have hs : l.filter P ⊆ [a, b] := by
    intro x hx
    rw [List.mem_filter] at hx
    have := h x hx.1 hx.2
    simpa using this
  simpa using (List.subperm_of_subset (hl.filter _) hs).length_le

theorem cover_count_Z {dh dw : Int} (H : OddPos dh dw) (q : Int) :
    ((geometryZ dh dw).filter fun p => decide (some q ∈ p.corners)).length =
      ((zSites dh dw).filter fun s => decide (some q ∈ cornersOf dh dw s.1 s.2)).length := by
  have e := congrArg (fun l => (l.filter fun (c : List (Option Int)) => decide (some q ∈ c)).length) (geometryZ_corners H)
  simpa [List.filter_map, Function.comp_def] using e

theorem cover_count_X {dh dw : Int} (H : OddPos dh dw) (q : Int) :
    ((geometryX dh dw).filter fun p => decide (some q ∈ p.corners)).length =
      ((xSites dh dw).filter fun s => decide (some q ∈ cornersOf dh dw s.1 s.2)).length := by
  have e := congrArg (fun l => (l.filter fun (c : List (Option Int)) => decide (some q ∈ c)).length) (geometryX_corners H)
  simpa [List.filter_map, Function.comp_def] using e

/-- C06 for Z: among the Z positions exactly the (at most two) diagonal neighbours of a data qubit contain it; each of
the two neighbours is a Z plaquette or sticks out over the top or bottom edge; so at most two Z plaquettes of the code
cover the qubit, and at least one if there are any Z plaquettes. -/
theorem C06_z_coverage (dh dw r c : Int) (H : OddPos dh dw) (hin : 0 ≤ r ∧ r < dh ∧ 0 ≤ c ∧ c < dw) :
    (∀ s ∈ zSites dh dw, some (r * dw + c) ∈ cornersOf dh dw s.1 s.2 ↔ s ∈ zNbrs r c) ∧
    (∀ s ∈ zNbrs r c, ZSite dh dw s.1 s.2 ∨ s.1 = -1 ∨ s.1 = 2 * dh - 1) ∧
    ((geometryZ dh dw).filter fun p => decide (some (r * dw + c) ∈ p.corners)).length ≤ 2 ∧
    (1 < dh → 1 ≤ ((geometryZ dh dw).filter fun p => decide (some (r * dw + c) ∈ p.corners)).length) := by
  have h1 : ∀ s ∈ zSites dh dw, some (r * dw + c) ∈ cornersOf dh dw s.1 s.2 ↔ s ∈ zNbrs r c := by
    rintro ⟨r2, c2⟩ hs
    rw [mem_zSites] at hs
    simp only at hs ⊢
    rw [mem_cornersOf hin hs.1 hs.2.1]
    unfold ZSite at hs
    unfold zNbrs
    split <;> simp only [List.mem_cons, Prod.mk.injEq, List.not_mem_nil, or_false] <;> omega
  have h2 : ∀ s ∈ zNbrs r c, ZSite dh dw s.1 s.2 ∨ s.1 = -1 ∨ s.1 = 2 * dh - 1 := by
    rintro ⟨r2, c2⟩ hs
    unfold OddPos at H
    unfold zNbrs at hs
    unfold ZSite
    split at hs <;> simp only [List.mem_cons, Prod.mk.injEq, List.not_mem_nil, or_false] at hs ⊢ <;> omega
  refine ⟨h1, h2, ?_, ?_⟩
  · rw [cover_count_Z H]
    by_cases e : (r + c) % 2 = 0
    · refine filter_len_le_two (zSites_nodup _ _) (2*r-1, 2*c-1) (2*r+1, 2*c+1) _ fun x hx hP => ?_
      have := (h1 x hx).1 (by simpa using hP)
      simpa [zNbrs, e] using this
    · refine filter_len_le_two (zSites_nodup _ _) (2*r-1, 2*c+1) (2*r+1, 2*c-1) _ fun x hx hP => ?_
      have := (h1 x hx).1 (by simpa using hP)
      simpa [zNbrs, e] using this
  · intro hdh
    rw [cover_count_Z H]
    have hex : ∃ s ∈ zNbrs r c, ZSite dh dw s.1 s.2 := by
      unfold OddPos at H
      unfold zNbrs ZSite
      split
      · by_cases hr : r = 0
        · exact ⟨(2*r+1, 2*c+1), by simp, by simp only; omega⟩
        · exact ⟨(2*r-1, 2*c-1), by simp, by simp only; omega⟩
      · by_cases hr : r = 0
        · exact ⟨(2*r+1, 2*c-1), by simp, by simp only; omega⟩
        · exact ⟨(2*r-1, 2*c+1), by simp, by simp only; omega⟩
    obtain ⟨s, hs, hsite⟩ := hex
    have hm := mem_zSites.2 hsite
    exact List.length_pos_of_mem (List.mem_filter.2 ⟨hm, decide_eq_true ((h1 s hm).2 hs)⟩)

/-- C06 for X: the same with the two neighbours of X colour and the left and right edges. -/
theorem C06_x_coverage (dh dw r c : Int) (H : OddPos dh dw) (hin : 0 ≤ r ∧ r < dh ∧ 0 ≤ c ∧ c < dw) :
    (∀ s ∈ xSites dh dw, some (r * dw + c) ∈ cornersOf dh dw s.1 s.2 ↔ s ∈ xNbrs r c) ∧
    (∀ s ∈ xNbrs r c, XSite dh dw s.1 s.2 ∨ s.2 = -1 ∨ s.2 = 2 * dw - 1) ∧
    ((geometryX dh dw).filter fun p => decide (some (r * dw + c) ∈ p.corners)).length ≤ 2 ∧
    (1 < dw → 1 ≤ ((geometryX dh dw).filter fun p => decide (some (r * dw + c) ∈ p.corners)).length) := by
  have h1 : ∀ s ∈ xSites dh dw, some (r * dw + c) ∈ cornersOf dh dw s.1 s.2 ↔ s ∈ xNbrs r c := by
    rintro ⟨r2, c2⟩ hs
    rw [mem_xSites] at hs
    simp only at hs ⊢
    rw [mem_cornersOf hin hs.1 hs.2.1]
    unfold XSite at hs
    unfold xNbrs
    split <;> simp only [List.mem_cons, Prod.mk.injEq, List.not_mem_nil, or_false] <;> omega
  have h2 : ∀ s ∈ xNbrs r c, XSite dh dw s.1 s.2 ∨ s.2 = -1 ∨ s.2 = 2 * dw - 1 := by
    rintro ⟨r2, c2⟩ hs
    unfold OddPos at H
    unfold xNbrs at hs
    unfold XSite
    split at hs <;> simp only [List.mem_cons, Prod.mk.injEq, List.not_mem_nil, or_false] at hs ⊢ <;> omega
  refine ⟨h1, h2, ?_, ?_⟩
  · rw [cover_count_X H]
    by_cases e : (r + c) % 2 = 0
    · refine filter_len_le_two (xSites_nodup _ _) (2*r-1, 2*c+1) (2*r+1, 2*c-1) _ fun x hx hP => ?_
      have := (h1 x hx).1 (by simpa using hP)
      simpa [xNbrs, e] using this
    · refine filter_len_le_two (xSites_nodup _ _) (2*r-1, 2*c-1) (2*r+1, 2*c+1) _ fun x hx hP => ?_
      have := (h1 x hx).1 (by simpa using hP)
      simpa [xNbrs, e] using this
  · intro hdw
    rw [cover_count_X H]
    have hex : ∃ s ∈ xNbrs r c, XSite dh dw s.1 s.2 := by
      unfold OddPos at H
      unfold xNbrs XSite
      split
      · by_cases hr : c = 0
        · exact ⟨(2*r-1, 2*c+1), by simp, by simp only; omega⟩
        · exact ⟨(2*r+1, 2*c-1), by simp, by simp only; omega⟩
      · by_cases hr : c = 0
        · exact ⟨(2*r+1, 2*c+1), by simp, by simp only; omega⟩
        · exact ⟨(2*r-1, 2*c-1), by simp, by simp only; omega⟩
    obtain ⟨s, hs, hsite⟩ := hex
    have hm := mem_xSites.2 hsite
    exact List.length_pos_of_mem (List.mem_filter.2 ⟨hm, decide_eq_true ((h1 s hm).2 hs)⟩)

example : OddPos 3 3 ∧ ((geometryZ 3 3).filter fun p => decide (some 4 ∈ p.corners)).map Plaq.syn = [0, 3] ∧
    ((geometryZ 3 3).filter fun p => decide (some 1 ∈ p.corners)).map Plaq.syn = [0] := by unfold OddPos; decide

/-- C07: an X plaquette and a Z plaquette share an even number of data qubits. -/
theorem C07_stabilizers_commute (dh dw : Int) (H : OddPos dh dw) (p p' : Plaq)
    (hp : p ∈ geometryX dh dw) (hp' : p' ∈ geometryZ dh dw) :
    (p.qubits.filter (fun q => decide (q ∈ p'.qubits))).length % 2 = 0 := by
  obtain ⟨s, hs, e⟩ := plaqX_mem H hp
  obtain ⟨s', hs', e'⟩ := plaqZ_mem H hp'
  have := plaq_commute H hs hs'
  rw [parityOn_countP, decide_eq_false_iff_not] at this
  unfold Plaq.qubits
  rw [e, e']
  have hmem : ∀ q, q ∈ (cornersOf dh dw s'.1 s'.2).filterMap id ↔ some q ∈ cornersOf dh dw s'.1 s'.2 := by
    intro q; simp [List.mem_filterMap]
  simp only [hmem]
  omega

example : ∃ p ∈ geometryX 3 3, ∃ p' ∈ geometryZ 3 3,
    (p.qubits.filter (fun q => decide (q ∈ p'.qubits))).length = 2 := by decide

/-- The set of flips consisting of the left column, the logical X operator of the code. -/
def leftColumn (dh dw : Int) : Int → Bool := fun q => decide (q ∈ colQubits dh dw 0)

/-- The set of flips consisting of the top row, the logical Z operator of the code. -/
def topRow (dw : Int) : Int → Bool := fun q => decide (q ∈ rowQubits dw 0)

/-- C08: the left column overlaps every Z plaquette evenly, the top row overlaps every X plaquette evenly, and the two
have exactly data qubit `0` in common. -/
theorem C08_logical_operators (dh dw : Int) (H : OddPos dh dw) :
    (∀ p ∈ geometryZ dh dw, parityOn (leftColumn dh dw) p.corners = false) ∧
    (∀ p ∈ geometryX dh dw, parityOn (topRow dw) p.corners = false) ∧
    (∀ q, q ∈ colQubits dh dw 0 ∧ q ∈ rowQubits dw 0 ↔ q = 0) := by
  refine ⟨?_, ?_, ?_⟩
  · intro p hp
    obtain ⟨s, hs, e⟩ := plaqZ_mem H hp
    rw [e]; exact column_commutes H hs
  · intro p hp
    obtain ⟨s, hs, e⟩ := plaqX_mem H hp
    rw [e]; exact row_commutes H hs
  · intro q
    unfold OddPos at H
    have hz : (0:Int) = 0 * dw + 0 := by omega
    constructor
    · rintro ⟨h1, h2⟩
      have h1' := h1
      unfold colQubits at h1'
      obtain ⟨r, hr, rfl⟩ := List.mem_map.1 h1'
      rw [List.mem_range] at hr
      rw [mem_rowQubits (dh := dh) (by omega)] at h2
      rw [h2]; omega
    · rintro rfl
      have a := (mem_colQubits (dh := dh) (dw := dw) (r := 0) (c := 0) (k := 0) (by omega) (by omega)).2 rfl
      have b := (mem_rowQubits (dh := dh) (dw := dw) (r := 0) (c := 0) (k := 0) (by omega)).2 rfl
      rw [← hz] at a b
      exact ⟨a, b⟩

example : OddPos 3 5 ∧ colQubits 3 5 0 = [0, 5, 10] ∧ rowQubits 5 0 = [0, 1, 2, 3, 4] := by unfold OddPos; decide

/-- C09, Z side: flips that no Z plaquette sees but that change the parity of the top row are at least `dh` many. -/
theorem C09_x_distance (dh dw : Int) (H : OddPos dh dw) (f : Int → Bool)
    (hs : ∀ p ∈ geometryZ dh dw, parityOn f p.corners = false)
    (hl : xorAll ((rowQubits dw 0).map f) = true) :
    dh ≤ (support dh dw f).length := by
  obtain ⟨h, w, hh, hw, rfl, rfl⟩ := oddPos_cases H
  obtain ⟨h, rfl⟩ := Int.eq_ofNat_of_zero_le hh
  obtain ⟨w, rfl⟩ := Int.eq_ofNat_of_zero_le hw
  have hsite : ∀ r2 c2, ZSite (2*h+1) (2*w+1) r2 c2 → parityOn f (cornersOf (2*h+1) (2*w+1) r2 c2) = false := by
    intro r2 c2 hz
    obtain ⟨p, hp, e⟩ := siteZ_mem H hz
    rw [← e]; exact hs p hp
  have := support_ge_rows (2*h+1) (2*w+1) f ?_
  · push_cast at this
    have e : ((2*h+1 : Nat) : Int) ≤ ((support (2*h+1) (2*w+1) f).length : Int) := by exact_mod_cast this
    push_cast at e
    exact e
  · intro r hr
    have e1 := rowPar_const h w f hsite r hr
    rw [rowPar_eq h w f 0 (by omega), hl, rowPar_eq h w f r (by omega)] at e1
    obtain ⟨q, hq, hfq⟩ := xorAll_true_exists e1
    unfold rowQubits at hq
    obtain ⟨c, hc, rfl⟩ := List.mem_map.1 hq
    rw [List.mem_range] at hc
    refine ⟨c, by omega, ?_⟩
    push_cast
    exact hfq

/-- C09, X side: dually with columns and the width. -/
theorem C09_z_distance (dh dw : Int) (H : OddPos dh dw) (f : Int → Bool)
    (hs : ∀ p ∈ geometryX dh dw, parityOn f p.corners = false)
    (hl : xorAll ((colQubits dh dw 0).map f) = true) :
    dw ≤ (support dh dw f).length := by
  obtain ⟨h, w, hh, hw, rfl, rfl⟩ := oddPos_cases H
  obtain ⟨h, rfl⟩ := Int.eq_ofNat_of_zero_le hh
  obtain ⟨w, rfl⟩ := Int.eq_ofNat_of_zero_le hw
  have hsite : ∀ r2 c2, XSite (2*h+1) (2*w+1) r2 c2 → parityOn f (cornersOf (2*h+1) (2*w+1) r2 c2) = false := by
    intro r2 c2 hz
    obtain ⟨p, hp, e⟩ := siteX_mem H hz
    rw [← e]; exact hs p hp
  have := support_ge_cols (2*h+1) (2*w+1) f ?_
  · push_cast at this
    have e : ((2*w+1 : Nat) : Int) ≤ ((support (2*h+1) (2*w+1) f).length : Int) := by exact_mod_cast this
    push_cast at e
    exact e
  · intro c hc
    have e1 := colPar_const h w f hsite c hc
    rw [colPar_eq h w f 0 (by omega), hl, colPar_eq h w f c (by omega)] at e1
    obtain ⟨q, hq, hfq⟩ := xorAll_true_exists e1
    unfold colQubits at hq
    obtain ⟨r, hr, rfl⟩ := List.mem_map.1 hq
    rw [List.mem_range] at hr
    refine ⟨r, by omega, ?_⟩
    push_cast
    exact hfq

theorem xorAll_mem_single (l : List Int) (hl : l.Nodup) (a : Int) (ha : a ∈ l) (f : Int → Bool)
    (hf : ∀ q ∈ l, f q = true ↔ q = a) : xorAll (l.map f) = true := by
  rw [xorAll_single hl ha f]
  · exact (hf a ha).2 rfl
  · intro b hb hne
    cases h : f b
    · rfl
    · exact absurd ((hf b hb).1 h) hne

theorem rowQubits_nodup (dw r : Int) : (rowQubits dw r).Nodup := by
  unfold rowQubits
  refine (List.nodup_map_iff_inj_on List.nodup_range).2 fun a _ b _ h => ?_
  omega

theorem colQubits_nodup (dh dw c : Int) (hw : 0 < dw) : (colQubits dh dw c).Nodup := by
  unfold colQubits
  refine (List.nodup_map_iff_inj_on List.nodup_range).2 fun a _ b _ h => ?_
  have : (a:Int) * dw = b * dw := by omega
  have := Int.eq_of_mul_eq_mul_right (by omega) this
  omega

/-- C09, attained: the left column (the flips of logical `x()`) triggers no Z syndrome, flips the parity of the top row
and has exactly `dh` elements; the top row triggers no X syndrome, flips the parity of the left column and has exactly
`dw` elements. -/
theorem C09_attained (dh dw : Int) (H : OddPos dh dw) :
    ((∀ p ∈ geometryZ dh dw, parityOn (leftColumn dh dw) p.corners = false) ∧
      xorAll ((rowQubits dw 0).map (leftColumn dh dw)) = true ∧
      ((colQubits dh dw 0).length : Int) = dh ∧ (colQubits dh dw 0).Nodup) ∧
    ((∀ p ∈ geometryX dh dw, parityOn (topRow dw) p.corners = false) ∧
      xorAll ((colQubits dh dw 0).map (topRow dw)) = true ∧
      ((rowQubits dw 0).length : Int) = dw ∧ (rowQubits dw 0).Nodup) := by
  have h8 := C08_logical_operators dh dw H
  have h0 := (h8.2.2 0).2 rfl
  have hH := H
  unfold OddPos at hH
  refine ⟨⟨h8.1, ?_, ?_, colQubits_nodup _ _ _ (by omega)⟩, h8.2.1, ?_, ?_, rowQubits_nodup _ _⟩
  · refine xorAll_mem_single _ (rowQubits_nodup _ _) 0 h0.2 _ fun q hq => ?_
    unfold leftColumn
    rw [decide_eq_true_iff]
    constructor
    · exact fun h => (h8.2.2 q).1 ⟨h, hq⟩
    · rintro rfl; exact h0.1
  · unfold colQubits; rw [List.length_map, List.length_range]; omega
  · refine xorAll_mem_single _ (colQubits_nodup _ _ _ (by omega)) 0 h0.1 _ fun q hq => ?_
    unfold topRow
    rw [decide_eq_true_iff]
    constructor
    · exact fun h => (h8.2.2 q).1 ⟨hq, h⟩
    · rintro rfl; exact h0.2
  · unfold rowQubits; rw [List.length_map, List.length_range]; omega

example : OddPos 3 3 ∧ (∀ p ∈ geometryZ 3 3, parityOn (leftColumn 3 3) p.corners = false) ∧
    xorAll ((rowQubits 3 0).map (leftColumn 3 3)) = true := by unfold OddPos; decide

/-- C10 for Z: a set `S` of Z plaquettes (given by syndrome indices) that covers every data qubit evenly is empty. -/
theorem C10_z_independent (dh dw : Int) (H : OddPos dh dw) (S : Int → Bool)
    (hS : ∀ q, 0 ≤ q → q < dh * dw →
      xorAll ((geometryZ dh dw).map fun p => S p.syn && decide (some q ∈ p.corners)) = false) :
    ∀ p ∈ geometryZ dh dw, S p.syn = false := by
  obtain ⟨h, w, hh, hw, rfl, rfl⟩ := oddPos_cases H
  have hind := z_independent H (fun s => S (invZ w s.1 s.2)) (by
    intro q h0 h1
    rw [← hS q h0 h1, zSites_eq hw, geometryZ, List.map_map, List.map_map]
    refine xorAll_congr fun k hk => ?_
    rw [mem_pyRange] at hk
    simp only [Function.comp, geomZ_syn, invZ_coordZ hw k hk.1 hk.2, geomZ_corners hw k hk.1 hk.2])
  intro p hp
  unfold geometryZ at hp
  obtain ⟨k, hk, rfl⟩ := List.mem_map.1 hp
  rw [mem_pyRange] at hk
  rw [geomZ_syn]
  have hsite := coordZ_site hw k hk.1 hk.2
  have := hind ((coordZ (2*w+1) k).1.toNat) _ _ hsite (by omega)
  simpa [invZ_coordZ hw k hk.1 hk.2] using this

/-- C10 for X. -/
theorem C10_x_independent (dh dw : Int) (H : OddPos dh dw) (S : Int → Bool)
    (hS : ∀ q, 0 ≤ q → q < dh * dw →
      xorAll ((geometryX dh dw).map fun p => S p.syn && decide (some q ∈ p.corners)) = false) :
    ∀ p ∈ geometryX dh dw, S p.syn = false := by
  obtain ⟨h, w, hh, hw, rfl, rfl⟩ := oddPos_cases H
  have hind := x_independent H (fun s => S (invX w s.1 s.2)) (by
    intro q h0 h1
    rw [← hS q h0 h1, xSites_eq hw, geometryX, List.map_map, List.map_map]
    refine xorAll_congr fun k hk => ?_
    rw [mem_pyRange] at hk
    simp only [Function.comp, geomX_syn, invX_coordX hw k hk.1 hk.2, geomX_corners hw k hk.1 hk.2])
  intro p hp
  unfold geometryX at hp
  obtain ⟨k, hk, rfl⟩ := List.mem_map.1 hp
  rw [mem_pyRange] at hk
  rw [geomX_syn]
  have hsite := coordX_site hw k hk.1 hk.2
  have := hind ((coordX (2*w+1) k).2.toNat) _ _ hsite (by omega)
  simpa [invX_coordX hw k hk.1 hk.2] using this

/-- The hypothesis of C10 is not vacuous: a non-empty set of plaquettes covers some qubit oddly. -/
example : OddPos 3 3 ∧ xorAll ((geometryZ 3 3).map fun p => (p.syn == 0) && decide (some 0 ∈ p.corners)) = true := by
  unfold OddPos; decide

/-- C14, bit-flip code: a `(d, 1)` lattice has no X plaquette, and its `k`-th Z plaquette compares qubits `k` and
`k+1`, for `k < d-1`. -/
theorem C14_bit_flip (d : Int) (hd : 0 < d) (hodd : d % 2 = 1) :
    geometryX d 1 = [] ∧
    (geometryZ d 1).map Plaq.qubits = (List.range (d-1).toNat).map (fun (k : Nat) => [(k:Int), (k:Int)+1]) := by
  have H : OddPos d 1 := by unfold OddPos; omega
  constructor
  · unfold geometryX
    have : numSynX d 1 = 0 := by unfold numSynX; omega
    rw [this]; rfl
  · have hn : numSynZ d 1 = d - 1 := by
      unfold numSynZ
      rw [Int.fdiv_eq_ediv_of_nonneg _ (by omega)]; omega
    unfold geometryZ pyRange
    rw [hn, List.map_map, List.map_map]
    refine List.map_congr_left fun k hk => ?_
    rw [List.mem_range] at hk
    have hg := geomZ_corners (h := d/2) (w := 0) (by omega) (k:Int) (by omega)
      (by rw [show 2*(d/2)+1 = d by omega, show 2*(0:Int)+1 = 1 by omega, hn]; omega)
    rw [show 2*(d/2)+1 = d by omega, show 2*(0:Int)+1 = 1 by omega] at hg
    simp only [Function.comp, Plaq.qubits, Int.ofNat_eq_natCast]
    rw [hg]
    have hc := coordZ_eq 0 k (by omega)
    rw [show 2*(0:Int)+1 = 1 by omega] at hc
    simp only [Int.zero_add, Int.ediv_one, Int.emod_one] at hc
    rw [hc]
    unfold cornersOf
    simp only
    rcases (by omega : (k:Int) % 2 = 0 ∨ (k:Int) % 2 = 1) with e | e
    · rw [e, dataAt_pos (by omega), dataAt_neg (by omega), dataAt_pos (by omega), dataAt_neg (by omega)]
      simp only [List.filterMap_cons, id, List.filterMap_nil, List.cons.injEq, and_true]
      omega
    · rw [e, dataAt_neg (by omega), dataAt_pos (by omega), dataAt_neg (by omega), dataAt_pos (by omega)]
      simp only [List.filterMap_cons, id, List.filterMap_nil, List.cons.injEq, and_true]
      omega

/-- C14, phase-flip code: a `(1, d)` lattice has no Z plaquette, it has `d-1` X plaquettes, each comparing two
neighbouring qubits, and every neighbouring pair is compared by one of them.
(The code numbers them by row: first the pairs `(0,1), (2,3), …`, then `(1,2), (3,4), …`.) -/
theorem C14_phase_flip (d : Int) (hd : 0 < d) (hodd : d % 2 = 1) :
    geometryZ 1 d = [] ∧ ((geometryX 1 d).length : Int) = d - 1 ∧
    (∀ p ∈ geometryX 1 d, ∃ q, 0 ≤ q ∧ q < d - 1 ∧ p.qubits = [q, q+1]) ∧
    (∀ q, 0 ≤ q → q < d - 1 → ∃ p ∈ geometryX 1 d, p.qubits = [q, q+1]) := by
  have H : OddPos 1 d := by unfold OddPos; omega
  have hn : numSynX 1 d = d - 1 := by
    unfold numSynX
    rw [show (1:Int)+1 = 2 by rfl, show Int.fdiv 2 2 = 1 by rfl]; omega
  refine ⟨?_, ?_, ?_, ?_⟩
  · unfold geometryZ
    have : numSynZ 1 d = 0 := by unfold numSynZ; omega
    rw [this]; rfl
  · unfold geometryX pyRange
    rw [hn, List.length_map, List.length_map, List.length_range]; omega
  · intro p hp
    obtain ⟨s, hs, e⟩ := plaqX_mem H hp
    unfold Plaq.qubits
    rw [e]
    rcases xsite_corners (by omega) hs with ⟨a, e⟩ | ⟨a, e⟩ | ⟨a, b, e⟩
    · rw [e]
      refine ⟨(s.2-1)/2, ?_, ?_, rfl⟩ <;> unfold XSite at hs <;> omega
    · rw [e]
      refine ⟨(s.1-1)/2*d + (s.2-1)/2, ?_, ?_, rfl⟩ <;> unfold XSite at hs <;>
        rw [show (s.1-1)/2 = 0 by omega] <;> omega
    · unfold XSite at hs; omega
  · intro q h0 h1
    by_cases hq : q % 2 = 0
    · obtain ⟨p, hp, e⟩ := siteX_mem (r2 := -1) (c2 := 2*q+1) H (by unfold XSite; omega)
      refine ⟨p, hp, ?_⟩
      unfold Plaq.qubits
      rw [e]
      rcases xsite_corners (dh := 1) (dw := d) (r2 := -1) (c2 := 2*q+1) (by omega) (by unfold XSite; omega) with
        ⟨a, e⟩ | ⟨a, e⟩ | ⟨a, b, e⟩
      · rw [e, show (2*q+1-1)/2 = q by omega]; rfl
      · omega
      · omega
    · obtain ⟨p, hp, e⟩ := siteX_mem (r2 := 1) (c2 := 2*q+1) H (by unfold XSite; omega)
      refine ⟨p, hp, ?_⟩
      unfold Plaq.qubits
      rw [e]
      rcases xsite_corners (dh := 1) (dw := d) (r2 := 1) (c2 := 2*q+1) (by omega) (by unfold XSite; omega) with
        ⟨a, e⟩ | ⟨a, e⟩ | ⟨a, b, e⟩
      · omega
      · rw [e, show (2*q+1-1)/2 = q by omega]; simp
      · omega

example : (geometryX 1 5).map Plaq.qubits = [[0, 1], [2, 3], [1, 2], [3, 4]] ∧
    (geometryZ 5 1).map Plaq.qubits = [[0, 1], [1, 2], [2, 3], [3, 4]] := by decide

end Qtc
