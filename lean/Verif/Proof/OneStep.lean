import Verif.Proof.Rules
import Verif.Proof.Ties
import Verif.Props.RateSymmetry
/-!
Benchmarks with one time step: the flips of data qubits and what is seen of them.
-/
namespace Qtc
open Spec Function

variable {cls : QClass} {dh dw : Int} {key : Key}

/-- The flip of data qubit `i`. -/
def flipFault (dw : Int) (i : Nat) : Fault := .data 0 (i / dw) (i % dw)

/-- Which flips the stabilizers notice. -/
def siteChecks (key : Key) (dh dw : Int) : List (Nat → Bool) := (sitesOf key dh dw).map fun p i => (flipFault dw i).changes ⟨0, p.1, p.2⟩

/-- Which flips change the measured value. -/
def valueCheck (key : Key) (dw : Int) (i : Nat) : Bool := (flipFault dw i).flipsReadout key

/-- The number of data qubits. -/
def numData (dh dw : Int) : Nat := (dh * dw).toNat

/-- The flips of the data qubits in `F`. -/
def flipsOf (dh dw : Int) (F : Finset Nat) : List Fault := ((List.range (numData dh dw)).filter (· ∈ F)).map (flipFault dw)

/-- The identity gate of data qubit `i`. -/
def placeOf (name : Str) (i : Nat) : Nat × Qubit := (0, dataQ name i)

theorem placeOf_inj {name : Str} : Injective (placeOf name) := by
  intro i j h
  have := dataQ_inj (name := name) (i := i) (j := j) (by omega) (by omega) (Prod.ext_iff.1 h).2
  omega

theorem flipFault_inj {dw : Int} : Injective (flipFault dw) := by
  intro i j h
  simp only [flipFault, Fault.data.injEq, true_and] at h
  have h1 := Int.mul_ediv_add_emod (i : Int) dw
  have h2 := Int.mul_ediv_add_emod (j : Int) dw
  rw [h.1, h.2] at h1
  omega

theorem flipsOf_nodup {F : Finset Nat} : (flipsOf dh dw F).Nodup := (List.nodup_range.filter _).map flipFault_inj

theorem mem_flipsOf {F : Finset Nat} (hF : F ⊆ Finset.range (numData dh dw)) {f : Fault} : f ∈ flipsOf dh dw F ↔ ∃ i ∈ F, f = flipFault dw i := by
  unfold flipsOf
  rw [List.mem_map]
  constructor
  · rintro ⟨i, hi, rfl⟩
    exact ⟨i, by simpa using (List.mem_filter.1 hi).2, rfl⟩
  · rintro ⟨i, hi, rfl⟩
    exact ⟨i, List.mem_filter.2 ⟨List.mem_range.2 (Finset.mem_range.1 (hF hi)), by simpa using hi⟩, rfl⟩

theorem flips_toFinset {n : Nat} {F : Finset Nat} (hF : F ⊆ Finset.range n) : ((List.range n).filter (· ∈ F)).toFinset = F := by
  ext i
  rw [List.mem_toFinset, List.mem_filter, List.mem_range]
  simp only [decide_eq_true_eq]
  exact ⟨fun h => h.2, fun h => ⟨Finset.mem_range.1 (hF h), h⟩⟩

theorem flipsOf_length {F : Finset Nat} (hF : F ⊆ Finset.range (numData dh dw)) : (flipsOf dh dw F).length = F.card := by
  unfold flipsOf
  rw [List.length_map, ← List.toFinset_card_of_nodup (List.nodup_range.filter _), flips_toFinset hF]

theorem xorAll_flips {F : Finset Nat} (hF : F ⊆ Finset.range (numData dh dw)) (f : Fault → Bool) :
    xorAll ((flipsOf dh dw F).map f) = parity F fun i => f (flipFault dw i) := by
  unfold flipsOf parity
  rw [xorAll_eq_countP, List.map_map, List.count_eq_countP, List.countP_map, List.countP_eq_length_filter]
  have : F.filter (fun i => f (flipFault dw i) = true) =
      (((List.range (numData dh dw)).filter (· ∈ F)).filter fun i => f (flipFault dw i)).toFinset := by
    rw [List.toFinset_filter, flips_toFinset hF]
  rw [this, List.toFinset_card_of_nodup ((List.nodup_range.filter _).filter _)]
  congr 4
  refine List.filter_congr fun i _ => ?_
  cases h : f (flipFault dw i) <;> simp [h]

theorem flipFault_fits (H : OddPos dh dw) {i : Nat} (hi : i < numData dh dw) : (flipFault dw i).Fits key dh dw 1 := by
  unfold OddPos at H
  have hw : 0 < dw := by omega
  have h0 : (i : Int) < dh * dw := by unfold numData at hi; omega
  refine ⟨le_rfl, by decide, Int.ediv_nonneg (by omega) hw.le, ?_, Int.emod_nonneg _ hw.ne', Int.emod_lt_of_pos _ hw⟩
  exact Int.ediv_lt_of_lt_mul hw h0

theorem fits_one {f : Fault} (hf : f.Fits key dh dw 1) : ∃ i, i < numData dh dw ∧ f = flipFault dw i := by
  cases f with
  | data t r c =>
    obtain ⟨h1, h2, h3, h4, h5, h6⟩ := hf
    have h := mem_allQubits.1 (site_mem ⟨h3, h4, h5, h6⟩)
    refine ⟨(r * dw + c).toNat, by unfold numData; omega, ?_⟩
    unfold flipFault
    rw [Int.toNat_of_nonneg h.1]
    have e1 : (r * dw + c) / dw = r := by
      rw [add_comm, Int.add_mul_ediv_right _ _ (by omega), Int.ediv_eq_zero_of_lt h5 h6, zero_add]
    have e2 : (r * dw + c) % dw = c := by
      rw [add_comm, Int.add_mul_emod_self_right, Int.emod_eq_of_lt h5 h6]
    rw [e1, e2, show t = 0 by omega]
  | meas t r c =>
    obtain ⟨h1, h2, -⟩ := hf
    omega

theorem faultPlace_flip {name : Str} {i : Nat} : faultPlace key name dh dw (flipFault dw i) = placeOf name i := by
  unfold flipFault placeOf
  simp only [faultPlace]
  rw [mul_comm, Int.mul_ediv_add_emod]
  rfl

/-- What is observed of the flips in `F`. -/
theorem observed_flips {name : Str} (H : OddPos dh dw) {F : Finset Nat} (hF : F ⊆ Finset.range (numData dh dw)) {L : List Node} {v : Bool}
    (h : Observed key name dh dw (1 : Nat) (F.image (placeOf name)) L v) :
    (∃ rounds : List Str, rounds.length = 2 ∧ RoundsRead key dh dw (fun _ _ => false) (flipsOf dh dw F) rounds ∧
      L = changes (sitesOf key dh dw) (rounds.map (keyBits key dh dw))) ∧ v = parity F (valueCheck key dw) := by
  obtain ⟨fs, rounds, h1, h2, h3, h4, h5, h6⟩ := h
  have hp : fs.Perm (flipsOf dh dw F) := (List.perm_ext_iff_of_nodup h1 flipsOf_nodup).2 fun f => by
    rw [h2, mem_flipsOf hF, Finset.mem_image]
    constructor
    · rintro ⟨hf, i, hi, he⟩
      obtain ⟨j, hj, rfl⟩ := fits_one hf
      rw [faultPlace_flip] at he
      exact ⟨i, hi, by rw [placeOf_inj he]⟩
    · rintro ⟨i, hi, rfl⟩
      exact ⟨flipFault_fits H (Finset.mem_range.1 (hF hi)), i, hi, faultPlace_flip.symm⟩
  refine ⟨⟨rounds, by omega, ⟨h4.1, fun t k s p hs hk => ?_⟩, h5⟩, ?_⟩
  · rw [h4.2 t k s p hs hk]
    unfold readBit
    rw [xorAll_perm (hp.map _)]
  · rw [h6]
    unfold readoutFlipped
    rw [xorAll_perm (hp.map _), xorAll_flips hF]
    rfl

theorem affects_flipFault (t : Nat) (r c : Int) (i : Nat) :
    Fault.affects t r c (flipFault dw i) = (decide (0 < t) && (flipFault dw i).changes ⟨0, r, c⟩) := by
  unfold flipFault
  simp [Fault.affects, Fault.changes, Bool.and_assoc]

theorem isHit_flips {F : Finset Nat} (hF : F ⊆ Finset.range (numData dh dw)) (n : Node) :
    IsHit key dh dw 1 (flipsOf dh dw F) n ↔ n.t = 0 ∧ (n.r2, n.c2) ∈ sitesOf key dh dw ∧
      parity F (fun i => (flipFault dw i).changes ⟨0, n.r2, n.c2⟩) = true := by
  unfold IsHit
  rw [← xorAll_flips hF, xorAll_eq_countP, List.count_eq_countP, List.countP_map, mem_sitesOf, decide_eq_true_eq]
  have e : ((fun x => x == true) ∘ (Fault.changes ⟨0, n.r2, n.c2⟩)) = Fault.changes ⟨0, n.r2, n.c2⟩ := by
    ext f
    simp
  rw [e]
  constructor
  · rintro ⟨h1, h2, h3, h4⟩
    have h0 : n.t = 0 := by omega
    refine ⟨h0, h3, ?_⟩
    rw [← h0]
    exact h4
  · rintro ⟨h0, h3, h4⟩
    refine ⟨by omega, by omega, h3, ?_⟩
    rw [← h0] at h4
    exact h4

theorem sig_sites {F F' : Finset Nat} : sig (siteChecks key dh dw) F = sig (siteChecks key dh dw) F' ↔
    ∀ p ∈ sitesOf key dh dw, parity F (fun i => (flipFault dw i).changes ⟨0, p.1, p.2⟩) =
      parity F' (fun i => (flipFault dw i).changes ⟨0, p.1, p.2⟩) := by
  unfold sig siteChecks
  rw [mask_inj]
  simp only [List.mem_map, forall_exists_index, and_imp, forall_apply_eq_imp_iff₂]

theorem observed_isHit {name : Str} (H : OddPos dh dw) {F : Finset Nat} (hF : F ⊆ Finset.range (numData dh dw)) {L : List Node} {v : Bool}
    (h : Observed key name dh dw (1 : Nat) (F.image (placeOf name)) L v) (n : Node) : n ∈ L ↔ IsHit key dh dw 1 (flipsOf dh dw F) n := by
  obtain ⟨⟨rounds, h1, h2, rfl⟩, -⟩ := observed_flips H hF h
  refine changes_isHit (ref := fun _ _ => false) (T := 1) (by rw [List.length_map, h1]; rfl) ?_ n
  intro t k a p ha hp
  rw [List.getElem?_map, Option.map_eq_some_iff] at ha
  obtain ⟨s, hs, rfl⟩ := ha
  exact h2.2 t k s p hs hp

/-- The hits are the same if the stabilizers notice the same. -/
theorem observed_same {name : Str} (H : OddPos dh dw) {F F' : Finset Nat} (hF : F ⊆ Finset.range (numData dh dw))
    (hF' : F' ⊆ Finset.range (numData dh dw)) {L L' : List Node} {v v' : Bool}
    (h : Observed key name dh dw (1 : Nat) (F.image (placeOf name)) L v) (h' : Observed key name dh dw (1 : Nat) (F'.image (placeOf name)) L' v') :
    L = L' ↔ sig (siteChecks key dh dw) F = sig (siteChecks key dh dw) F' := by
  rw [sig_sites]
  constructor
  · rintro rfl p hp
    have h1 := (observed_isHit H hF h ⟨0, p.1, p.2⟩).symm.trans (observed_isHit H hF' h' ⟨0, p.1, p.2⟩)
    rw [isHit_flips hF, isHit_flips hF'] at h1
    rw [Bool.eq_iff_iff]
    simpa [hp] using h1
  · intro hs
    obtain ⟨⟨rs, h1, h2, rfl⟩, -⟩ := observed_flips H hF h
    obtain ⟨⟨rs', h1', h2', rfl⟩, -⟩ := observed_flips H hF' h'
    refine rounds_changes (by omega) h2 h2' fun t p hp => ?_
    unfold readBit
    rw [xorAll_flips hF, xorAll_flips hF']
    simp only [affects_flipFault]
    by_cases ht : 0 < t
    · simp only [ht, decide_true, Bool.true_and]
      rw [hs p hp]
    · simp only [ht, decide_false, Bool.false_and]
      simp [parity]

/-- Every list of flips can be replaced by a set. -/
theorem flips_of_list {gs : List Fault} (hg : ∀ f ∈ gs, f.Fits key dh dw 1) :
    ∃ F ⊆ Finset.range (numData dh dw), F.card ≤ gs.length ∧ ∀ f : Fault → Bool, xorAll (gs.map f) = xorAll ((flipsOf dh dw F).map f) := by
  have hF : (Finset.range (numData dh dw)).filter (fun i => gs.count (flipFault dw i) % 2 = 1) ⊆ Finset.range (numData dh dw) := Finset.filter_subset _ _
  refine ⟨(Finset.range (numData dh dw)).filter fun i => gs.count (flipFault dw i) % 2 = 1, hF, ?_, fun f => ?_⟩
  · rw [← flipsOf_length hF]
    refine (flipsOf_nodup.subperm fun f hf => ?_).length_le
    obtain ⟨i, hi, rfl⟩ := (mem_flipsOf hF).1 hf
    have := (Finset.mem_filter.1 hi).2
    exact List.count_pos_iff.1 (by omega)
  · refine xorAll_counts f fun a => ?_
    by_cases ha : a ∈ gs
    · obtain ⟨i, hi, rfl⟩ := fits_one (hg a ha)
      rw [flipsOf_nodup.count]
      by_cases h1 : gs.count (flipFault dw i) % 2 = 1
      · rw [if_pos ((mem_flipsOf hF).2 ⟨i, Finset.mem_filter.2 ⟨Finset.mem_range.2 hi, h1⟩, rfl⟩), h1]
      · rw [if_neg]
        · omega
        · intro hm
          obtain ⟨j, hj, he⟩ := (mem_flipsOf hF).1 hm
          rw [flipFault_inj he] at h1
          exact h1 (Finset.mem_filter.1 hj).2
    · have hn : a ∉ flipsOf dh dw ((Finset.range (numData dh dw)).filter fun i => gs.count (flipFault dw i) % 2 = 1) := by
        intro hm
        obtain ⟨j, hj, rfl⟩ := (mem_flipsOf hF).1 hm
        have := (Finset.mem_filter.1 hj).2
        rw [List.count_eq_zero_of_not_mem ha] at this
        omega
      rw [List.count_eq_zero_of_not_mem ha, List.count_eq_zero_of_not_mem hn]

/-- The decoder of the repository answers as if a smallest set of flips with these hits had occurred. -/
theorem least_flips (B : Bench cls dh dw key 1) {F : Finset Nat} (hF : F ⊆ Finset.range (numData dh dw)) {L : List Node} {v : Bool}
    (h : Observed key B.q.lat.name dh dw (1 : Nat) (F.image (placeOf B.q.lat.name)) L v) :
    ∃ F1 ⊆ Finset.range (numData dh dw), sig (siteChecks key dh dw) F1 = sig (siteChecks key dh dw) F ∧
      (∀ w, verdictOf B.D B.m key none L w = .ok (some (bit (w ^^ parity F1 (valueCheck key dw))))) ∧
      ∀ F2 ⊆ Finset.range (numData dh dw), sig (siteChecks key dh dw) F2 = sig (siteChecks key dh dw) F → F1.card ≤ F2.card := by
  have H := B.odd
  have hit := observed_isHit H hF h
  have hn : L.Nodup := by
    obtain ⟨⟨rounds, -, -, rfl⟩, -⟩ := observed_flips H hF h
    exact changes_nodup' _ _ _ _
  have hT : (B.D.T : Int) = 1 := by rw [B.steps]; rfl
  obtain ⟨gs, syn', g1, g2, g3, g4⟩ := C75_minimum_explanation B.D B.made key B.g B.graph (by rw [B.height, B.width]; exact H) B.m B.contract L hn
    (fun n hL => by
      have := (hit n).1 hL
      unfold HitPlace
      rw [hT, B.height, B.width]
      exact ⟨this.1, this.2.1, this.2.2.1⟩) (fun _ => some L) rfl false
  rw [hT, B.height, B.width] at g2 g3 g4
  obtain ⟨F1, f1, f2, f3⟩ := flips_of_list g2
  have same : ∀ n, IsHit key dh dw 1 (flipsOf dh dw F1) n ↔ IsHit key dh dw 1 gs n := by
    intro n
    have := f3 (Fault.changes n)
    rw [xorAll_eq_countP, xorAll_eq_countP, List.count_eq_countP, List.countP_map, List.count_eq_countP, List.countP_map, decide_eq_decide] at this
    have e : ((fun x => x == true) ∘ Fault.changes n) = Fault.changes n := by
      ext f
      simp
    rw [e] at this
    unfold IsHit
    rw [this]
  have eq_of : ∀ F2 ⊆ Finset.range (numData dh dw), (∀ n, IsHit key dh dw 1 (flipsOf dh dw F2) n ↔ n ∈ L) ↔
      sig (siteChecks key dh dw) F2 = sig (siteChecks key dh dw) F := by
    intro F2 h2
    rw [sig_sites]
    constructor
    · intro hh p hp
      have h1 := (hh ⟨0, p.1, p.2⟩).trans (hit ⟨0, p.1, p.2⟩)
      rw [isHit_flips hF, isHit_flips h2] at h1
      rw [Bool.eq_iff_iff]
      simpa [hp] using h1
    · intro hh n
      rw [hit n, isHit_flips hF, isHit_flips h2]
      constructor
      · rintro ⟨a, b, c⟩
        exact ⟨a, b, (hh _ b) ▸ c⟩
      · rintro ⟨a, b, c⟩
        exact ⟨a, b, (hh _ b).symm ▸ c⟩
  refine ⟨F1, f1, (eq_of F1 f1).1 fun n => (same n).trans (g3 n), ?_, ?_⟩
  · obtain ⟨r, hr⟩ := corrections_usable B (Or.inl rfl) h
    obtain ⟨x, hx⟩ := verdict_flip hr
    have h0 := hx false
    unfold verdictOf at h0
    rw [g1] at h0
    have h2 : readoutFlipped key gs = parity F1 (valueCheck key dw) := by
      unfold readoutFlipped
      rw [f3, xorAll_flips f1]
      rfl
    have h3 : x = parity F1 (valueCheck key dw) := by
      rw [← h2]
      have := Option.some.inj (Except.ok.inj h0)
      revert this
      generalize readoutFlipped key gs = y
      cases x <;> cases y <;> simp [bit]
    intro w
    rw [← h3]
    exact hx w
  · intro F2 h2 hs
    have := g4 (flipsOf dh dw F2) (fun f hf => by
      obtain ⟨i, hi, rfl⟩ := (mem_flipsOf h2).1 hf
      exact flipFault_fits H (Finset.mem_range.1 (h2 hi))) ((eq_of F2 h2).2 hs)
    rw [flipsOf_length h2] at this
    omega

end Qtc
