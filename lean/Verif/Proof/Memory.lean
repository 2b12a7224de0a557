import Verif.Proof.Peierls
import Verif.Proof.QNoisy
import Verif.Spec.Threshold
/-!
The faults of a quantum memory.
-/
namespace Qtc
open Spec

variable {code : Code} {key : Key} {name : Str} {dh dw : Int} {T : Nat} {e e' : Nat → Errs}

/-- The identity gates after round `t`. -/
def gapOp (T t : Nat) : QOp := if t + 1 < T then .id else .idData

theorem gapOp_stabilize (t : Nat) : gapOp T t ≠ .stabilize := by
  unfold gapOp
  split <;> simp

theorem faults_gaps (e e' : Nat → Errs) : ∀ (n k : Nat), faultsOf code key name dh dw (k + 1) ((List.range' k n).flatMap fun t => [(gapOp T t, e t), (.stabilize, e' (t + 1))]) =
    (List.range' k n).flatMap fun (t : Nat) => faultsIn code key name dh dw t (gapOp T t) (e t)
  | 0, k => rfl
  | n + 1, k => by
    rw [List.range'_succ, List.flatMap_cons, List.flatMap_cons, ← faults_gaps e e' n (k + 1)]
    show faultsIn code key name dh dw (((k + 1 : Nat) : Int) - 1) (gapOp T k) (e k) ++ faultsOf code key name dh dw
      (if gapOp T k = .stabilize then k + 1 + 1 else k + 1) ((.stabilize, e' (k + 1)) :: _) = _
    rw [if_neg (gapOp_stabilize k)]
    congr 1
    congr 1
    push_cast
    ring

theorem faults_memory : faultsOf code key name dh dw 0 (memoryOps T e e') =
    (List.range T).flatMap fun (t : Nat) => faultsIn code key name dh dw t (gapOp T t) (e t) := by
  rw [List.range_eq_range', ← faults_gaps e e', ← List.range_eq_range']
  rfl

theorem memoryOps_memory : ∀ a ∈ memoryOps T e e', MemoryOp a.1 := by
  intro a ha
  rcases List.mem_cons.1 ha with rfl | ha
  · trivial
  · obtain ⟨t, -, ha⟩ := List.mem_flatMap.1 ha
    simp only [List.mem_cons, List.not_mem_nil, or_false] at ha
    rcases ha with rfl | rfl
    · simp only
      split <;> trivial
    · trivial

theorem memoryOps_count : ((memoryOps T e e').map Prod.fst).count .stabilize = T + 1 := by
  have : ∀ l : List Nat, (((l.flatMap fun t => [((if t + 1 < T then QOp.id else .idData), e t), (.stabilize, e' (t + 1))]).map Prod.fst).count .stabilize) =
      l.length := by
    intro l
    induction l with
    | nil => rfl
    | cons t l ih =>
      rw [List.flatMap_cons, List.map_append, List.count_append, ih, List.length_cons]
      by_cases h : t + 1 < T
      · simp [h]; omega
      · simp [h]; omega
  unfold memoryOps
  rw [List.map_cons, List.count_cons, this, List.length_range]
  simp

theorem memoryOps_flip : ((memoryOps T e e').map Prod.fst).count (flipGate key) = 0 := by
  rw [List.count_eq_zero]
  intro h
  obtain ⟨a, ha, h⟩ := List.mem_map.1 h
  rcases List.mem_cons.1 ha with rfl | ha
  · cases key <;> simp [flipGate] at h
  · obtain ⟨t, -, ha⟩ := List.mem_flatMap.1 ha
    simp only [List.mem_cons, List.not_mem_nil, or_false] at ha
    rcases ha with rfl | rfl
    · simp only at h
      split at h <;> cases key <;> simp [flipGate] at h
    · cases key <;> simp [flipGate] at h

theorem mem_dataFaults (hw : 0 < dw) {t : Int} {e : Errs} {f : Fault} : f ∈ faultsIn.dataFaults code key name dh dw t e ↔
    ∃ r c, f = .data t r c ∧ 0 ≤ r ∧ r < dh ∧ 0 ≤ c ∧ c < dw ∧ turnedBy code key (r * dw + c) (e (dataQ name (r * dw + c))) = true := by
  unfold faultsIn.dataFaults
  rw [List.mem_filterMap]
  constructor
  · rintro ⟨i, hi, h⟩
    obtain ⟨h1, h2⟩ := mem_allQubits.1 hi
    have he : i / dw * dw + i % dw = i := Int.ediv_mul_add_emod i dw
    by_cases ht : turnedBy code key i (e (dataQ name i)) = true
    · rw [if_pos ht, Option.some.injEq] at h
      refine ⟨i / dw, i % dw, h.symm, Int.ediv_nonneg h1 hw.le, Int.ediv_lt_of_lt_mul hw h2, Int.emod_nonneg _ hw.ne', Int.emod_lt_of_pos _ hw, ?_⟩
      rw [he]
      exact ht
    · rw [if_neg ht] at h
      cases h
  · rintro ⟨r, c, rfl, h1, h2, h3, h4, h5⟩
    refine ⟨r * dw + c, site_mem ⟨h1, h2, h3, h4⟩, ?_⟩
    rw [if_pos h5]
    have e1 : (r * dw + c) / dw = r := by
      rw [Int.add_comm, Int.add_mul_ediv_right _ _ hw.ne', Int.ediv_eq_zero_of_lt h3 h4, zero_add]
    have e2 : (r * dw + c) % dw = c := by
      rw [Int.add_comm, Int.add_mul_emod_self_right, Int.emod_eq_of_lt h3 h4]
    rw [e1, e2]

/-- The number of a plaquette. -/
def siteIndex (key : Key) (dh dw r2 c2 : Int) : Nat := (sitesOf key dh dw).idxOf (r2, c2)

theorem mem_measFaults {t : Int} {e : Errs} {f : Fault} : f ∈ faultsIn.measFaults key name dh dw t e ↔
    ∃ r2 c2, f = .meas t r2 c2 ∧ Site key dh dw r2 c2 ∧ (e (synQ key name (siteIndex key dh dw r2 c2))).1 = true := by
  unfold faultsIn.measFaults
  rw [List.mem_filterMap]
  constructor
  · rintro ⟨⟨⟨r2, c2⟩, k⟩, hk, h⟩
    rw [List.mem_zipIdx_iff_getElem?] at hk
    simp only at hk h
    have hmem := List.mem_of_getElem? hk
    have hidx : siteIndex key dh dw r2 c2 = k := by
      obtain ⟨h1, h2⟩ := List.getElem?_eq_some_iff.1 hk
      unfold siteIndex
      rw [← h2]
      exact (sitesOf_nodup key dh dw).idxOf_getElem k h1
    by_cases ht : (e (synQ key name k)).1 = true
    · rw [if_pos ht, Option.some.injEq] at h
      exact ⟨r2, c2, h.symm, mem_sitesOf.1 hmem, hidx ▸ ht⟩
    · rw [if_neg ht] at h
      cases h
  · rintro ⟨r2, c2, rfl, h1, h2⟩
    have hmem : (r2, c2) ∈ sitesOf key dh dw := mem_sitesOf.2 h1
    refine ⟨((r2, c2), siteIndex key dh dw r2 c2), ?_, ?_⟩
    · rw [List.mem_zipIdx_iff_getElem?]
      exact List.getElem?_eq_some_iff.2 ⟨List.idxOf_lt_length_iff.2 hmem, List.getElem_idxOf _⟩
    · rw [if_pos h2]

theorem mem_faultsIn_gap (hw : 0 < dw) {t : Nat} {e : Errs} {f : Fault} : f ∈ faultsIn code key name dh dw t (gapOp T t) e ↔
    (∃ r c, f = .data t r c ∧ 0 ≤ r ∧ r < dh ∧ 0 ≤ c ∧ c < dw ∧ turnedBy code key (r * dw + c) (e (dataQ name (r * dw + c))) = true) ∨
    (t + 1 < T ∧ ∃ r2 c2, f = .meas t r2 c2 ∧ Site key dh dw r2 c2 ∧ (e (synQ key name (siteIndex key dh dw r2 c2))).1 = true) := by
  unfold gapOp
  by_cases h : t + 1 < T
  · rw [if_pos h]
    show f ∈ faultsIn.dataFaults code key name dh dw t e ++ faultsIn.measFaults key name dh dw t e ↔ _
    rw [List.mem_append, mem_dataFaults hw, mem_measFaults]
    simp [h]
  · rw [if_neg h]
    show f ∈ faultsIn.dataFaults code key name dh dw t e ↔ _
    rw [mem_dataFaults hw]
    simp [h]

/-- Does an error on a qubit matter for the operators of a type? -/
def turnedAt (code : Code) (key : Key) (name : Str) (i : Nat × Qubit) (v : Bool × Bool) : Bool :=
  if i.2.reg = name ++ "_data".toList then turnedBy code key i.2.idx v else v.1

/-- The identity gate whose error is the fault. -/
def faultPlace (key : Key) (name : Str) (dh dw : Int) : Fault → Nat × Qubit
  | .data t r c => (t.toNat, dataQ name (r * dw + c))
  | .meas t r2 c2 => (t.toNat, synQ key name (siteIndex key dh dw r2 c2))

theorem synQ_reg {k : Nat} : (synQ key name k).reg ≠ name ++ "_data".toList := by
  cases key
  · intro h
    exact absurd (List.append_cancel_left h) (by decide)
  · intro h
    exact absurd (List.append_cancel_left h) (by decide)

theorem turnedAt_data {t : Nat} {i : Int} (hi : 0 ≤ i) (v : Bool × Bool) : turnedAt code key name (t, dataQ name i) v = turnedBy code key i v := by
  unfold turnedAt
  rw [if_pos (show (t, dataQ name i).2.reg = name ++ "_data".toList from rfl), show (((t, dataQ name i).2.idx : Nat) : Int) = i from Int.toNat_of_nonneg hi]

theorem turnedAt_syn {t k : Nat} (v : Bool × Bool) : turnedAt code key name (t, synQ key name k) v = v.1 := by
  unfold turnedAt
  rw [if_neg synQ_reg]

theorem synQ_inj {k k' : Nat} (h : synQ key name k = synQ key name k') : k = k' := by
  cases key
  · simpa [synQ, mxQ] using h
  · simpa [synQ, mzQ] using h

theorem mem_idPlaces {i : Nat × Qubit} : i ∈ idPlaces name dh dw T ↔
    i.1 < T ∧ (i.2 ∈ (allQubits dh dw).map (dataQ name) ∨ (i.1 + 1 < T ∧ i.2 ∈ synQubits name dh dw)) := by
  obtain ⟨t, x⟩ := i
  unfold idPlaces
  rw [List.mem_toFinset, List.mem_flatMap]
  constructor
  · rintro ⟨t', ht, h⟩
    obtain ⟨x', hx, h⟩ := List.mem_map.1 h
    simp only [Prod.mk.injEq] at h
    obtain ⟨rfl, rfl⟩ := h
    refine ⟨List.mem_range.1 ht, ?_⟩
    rcases List.mem_append.1 hx with h | h
    · exact Or.inl h
    · split at h
      · rename_i h1; exact Or.inr ⟨h1, h⟩
      · cases h
  · rintro ⟨ht, h⟩
    refine ⟨t, List.mem_range.2 ht, List.mem_map.2 ⟨x, List.mem_append.2 ?_, rfl⟩⟩
    rcases h with h | h
    · exact Or.inl h
    · rw [if_pos h.1]; exact Or.inr h.2

theorem siteIndex_lt {r2 c2 : Int} (h : Site key dh dw r2 c2) : siteIndex key dh dw r2 c2 < (sitesOf key dh dw).length :=
  List.idxOf_lt_length_iff.2 (mem_sitesOf.2 h)

theorem faultPlace_mem {f : Fault} (h : f.Fits key dh dw T) : faultPlace key name dh dw f ∈ idPlaces name dh dw T := by
  rw [mem_idPlaces]
  cases f with
  | data t r c =>
    obtain ⟨h1, h2, h3, h4, h5, h6⟩ := h
    refine ⟨by simp only [faultPlace]; omega, Or.inl (List.mem_map.2 ⟨_, site_mem ⟨h3, h4, h5, h6⟩, rfl⟩)⟩
  | meas t r c =>
    obtain ⟨h1, h2, h3⟩ := h
    refine ⟨by simp only [faultPlace]; omega, Or.inr ⟨by simp only [faultPlace]; omega, ?_⟩⟩
    have := siteIndex_lt h3
    unfold synQubits faultPlace
    rw [List.mem_append]
    cases key
    · exact Or.inr (List.mem_map.2 ⟨_, List.mem_range.2 this, rfl⟩)
    · exact Or.inl (List.mem_map.2 ⟨_, List.mem_range.2 this, rfl⟩)

theorem faultPlace_inj (hw : 0 < dw) {f g : Fault} (hf : f.Fits key dh dw T) (hg : g.Fits key dh dw T)
    (h : faultPlace key name dh dw f = faultPlace key name dh dw g) : f = g := by
  cases f with
  | data t r c =>
    obtain ⟨h1, h2, h3, h4, h5, h6⟩ := hf
    cases g with
    | data t' r' c' =>
      obtain ⟨g1, g2, g3, g4, g5, g6⟩ := hg
      simp only [faultPlace, Prod.mk.injEq] at h
      have e1 : (0 : Int) ≤ r * dw := mul_nonneg h3 hw.le
      have e2 : (0 : Int) ≤ r' * dw := mul_nonneg g3 hw.le
      have hi := dataQ_inj (by omega) (by omega) h.2
      have q1 : (r * dw + c) / dw = r := by
        rw [Int.add_comm, Int.add_mul_ediv_right _ _ hw.ne', Int.ediv_eq_zero_of_lt h5 h6, zero_add]
      have q2 : (r' * dw + c') / dw = r' := by
        rw [Int.add_comm, Int.add_mul_ediv_right _ _ hw.ne', Int.ediv_eq_zero_of_lt g5 g6, zero_add]
      have hr : r = r' := by rw [← q1, ← q2, hi]
      subst hr
      have hc : c = c' := by omega
      subst hc
      have ht : t = t' := by omega
      rw [ht]
    | meas t' r' c' =>
      simp only [faultPlace, Prod.mk.injEq] at h
      exact absurd (congrArg Qubit.reg h.2).symm synQ_reg
  | meas t r c =>
    obtain ⟨h1, h2, h3⟩ := hf
    cases g with
    | data t' r' c' =>
      simp only [faultPlace, Prod.mk.injEq] at h
      exact absurd (congrArg Qubit.reg h.2) synQ_reg
    | meas t' r' c' =>
      obtain ⟨g1, g2, g3⟩ := hg
      simp only [faultPlace, Prod.mk.injEq] at h
      have hi := synQ_inj h.2
      have : (r, c) = (r', c') := (List.idxOf_inj (mem_sitesOf.2 h3)).1 hi
      simp only [Prod.mk.injEq] at this
      have ht : t = t' := by omega
      rw [ht, this.1, this.2]

/-- The faults of the memory are those whose places have errors that matter. -/
theorem mem_memory (hw : 0 < dw) {A B : Finset (Nat × Qubit)} {f : Fault} :
    f ∈ faultsOf code key name dh dw 0 (memoryOps T (placedErrs A B) e') ↔ f.Fits key dh dw T ∧
      faultPlace key name dh dw f ∈ (idPlaces name dh dw T).filter fun i => turnedAt code key name i (decide (i ∈ A), decide (i ∈ B)) = true := by
  rw [faults_memory, List.mem_flatMap, Finset.mem_filter]
  constructor
  · rintro ⟨t, ht, h⟩
    rw [List.mem_range] at ht
    rw [mem_faultsIn_gap hw] at h
    rcases h with ⟨r, c, rfl, h1, h2, h3, h4, h5⟩ | ⟨h0, r, c, rfl, h1, h2⟩
    · have hf : (Fault.data t r c).Fits key dh dw T := ⟨by omega, by omega, h1, h2, h3, h4⟩
      refine ⟨hf, faultPlace_mem hf, ?_⟩
      have e1 : (0 : Int) ≤ r * dw := mul_nonneg h1 hw.le
      show turnedAt code key name ((t : Int).toNat, dataQ name (r * dw + c)) _ = true
      rw [turnedAt_data (by omega)]
      exact h5
    · have hf : (Fault.meas t r c).Fits key dh dw T := ⟨by omega, by omega, h1⟩
      refine ⟨hf, faultPlace_mem hf, ?_⟩
      show turnedAt code key name ((t : Int).toNat, synQ key name (siteIndex key dh dw r c)) _ = true
      rw [turnedAt_syn]
      exact h2
  · rintro ⟨hf, -, h⟩
    cases f with
    | data t r c =>
      obtain ⟨h1, h2, h3, h4, h5, h6⟩ := hf
      refine ⟨t.toNat, List.mem_range.2 (by omega), (mem_faultsIn_gap hw).2 (Or.inl ⟨r, c, by rw [Int.toNat_of_nonneg h1], h3, h4, h5, h6, ?_⟩)⟩
      have e1 : (0 : Int) ≤ r * dw := mul_nonneg h3 hw.le
      rw [show faultPlace key name dh dw (.data t r c) = (t.toNat, dataQ name (r * dw + c)) from rfl, turnedAt_data (by omega)] at h
      exact h
    | meas t r c =>
      obtain ⟨h1, h2, h3⟩ := hf
      refine ⟨t.toNat, List.mem_range.2 (by omega), (mem_faultsIn_gap hw).2 (Or.inr ⟨by omega, r, c, by rw [Int.toNat_of_nonneg h1], h3, ?_⟩)⟩
      rw [show faultPlace key name dh dw (.meas t r c) = (t.toNat, synQ key name (siteIndex key dh dw r c)) from rfl, turnedAt_syn] at h
      exact h

theorem filterMap_sublist {α β : Type} {f : α → Option β} {g : α → β} (h : ∀ a, f a = none ∨ f a = some (g a)) (l : List α) :
    (l.filterMap f).Sublist (l.map g) := by
  induction l with
  | nil => exact List.Sublist.refl _
  | cons a l ih =>
    rw [List.map_cons]
    rcases h a with h | h
    · rw [List.filterMap_cons_none h]
      exact ih.cons _
    · rw [List.filterMap_cons_some h]
      exact ih.cons_cons _

theorem faultsIn_nodup (hw : 0 < dw) {t : Int} {o : QOp} {e : Errs} : (faultsIn code key name dh dw t o e).Nodup := by
  have hd : (faultsIn.dataFaults code key name dh dw t e).Nodup := by
    unfold faultsIn.dataFaults
    refine List.Nodup.filterMap ?_ all_nodup
    intro a a' b h h'
    simp only [Option.mem_def] at h h'
    split at h <;> split at h'
    · rw [Option.some.injEq] at h h'
      rw [← h'] at h
      simp only [Fault.data.injEq, true_and] at h
      rw [← Int.ediv_mul_add_emod a dw, ← Int.ediv_mul_add_emod a' dw, h.1, h.2]
    all_goals simp_all
  have hm : (faultsIn.measFaults key name dh dw t e).Nodup := by
    unfold faultsIn.measFaults
    refine (filterMap_sublist (g := fun p : (Int × Int) × Nat => Fault.meas t p.1.1 p.1.2) ?_ _).nodup ?_
    · intro p
      split
      · exact Or.inr rfl
      · exact Or.inl rfl
    · have : (sitesOf key dh dw).zipIdx.map (fun p : (Int × Int) × Nat => Fault.meas t p.1.1 p.1.2) =
          (sitesOf key dh dw).map fun p => Fault.meas t p.1 p.2 := by
        conv_rhs => rw [← List.zipIdx_map_fst 0 (sitesOf key dh dw), List.map_map]
        rfl
      rw [this]
      refine List.Nodup.map ?_ (sitesOf_nodup key dh dw)
      rintro ⟨a, b⟩ ⟨c, d⟩ h
      simpa using h
  cases o with
  | id =>
    show (faultsIn.dataFaults code key name dh dw t e ++ faultsIn.measFaults key name dh dw t e).Nodup
    rw [List.nodup_append]
    refine ⟨hd, hm, ?_⟩
    intro a ha b hb hab
    rw [mem_dataFaults hw] at ha
    rw [mem_measFaults] at hb
    obtain ⟨_, _, rfl, _⟩ := ha
    obtain ⟨_, _, rfl, _⟩ := hb
    cases hab
  | idData => exact hd
  | _ => exact List.nodup_nil

theorem memory_nodup (hw : 0 < dw) : (faultsOf code key name dh dw 0 (memoryOps T e e')).Nodup := by
  rw [faults_memory, List.nodup_flatMap]
  refine ⟨fun t _ => faultsIn_nodup hw, List.nodup_range.imp ?_⟩
  intro a b hab f h1 h2
  have := faultsIn_time f h1
  have := faultsIn_time f h2
  omega

end Qtc
