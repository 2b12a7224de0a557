import Verif.Proof.QNoise
/-!
Values of the observables of a type through stabilizations, logical gates and errors.
-/
namespace Qtc
open Spec Function

variable {cls : QClass} {q : TQubit} {dh dw : Int} {ops : List QOp} {w : World} {sz : Str → Nat} {code : Code} {name : Str} {key : Key}

/-! ### Faults -/

/-- When a fault happens. -/
def Fault.time : Fault → Int
  | .data t _ _ => t
  | .meas t _ _ => t

/-- What the faults do to a reading. -/
def reading (fs : List Fault) (t : Int) (p : Int × Int) : Bool := xorAll (fs.map (Fault.affects t p.1 p.2))

theorem reading_append (fs fs' : List Fault) (t : Int) (p : Int × Int) : reading (fs ++ fs') t p = (reading fs t p ^^ reading fs' t p) := by
  unfold reading
  rw [List.map_append, xorAll_append]

theorem reading_late {fs : List Fault} {n N M : Int} (h : ∀ f ∈ fs, Fault.time f < n) (hN : n < N) (hM : n < M) (p : Int × Int) :
    reading fs N p = reading fs M p := by
  refine xorAll_congr fun f hf => ?_
  have := h f hf
  cases f with
  | data t r c =>
    replace this : t < n := this
    simp only [Fault.affects, decide_eq_true (show t < N by omega), decide_eq_true (show t < M by omega)]
  | meas t r c =>
    replace this : t < n := this
    simp only [Fault.affects]
    rw [beq_eq_false_iff_ne.2 (show N ≠ t + 1 by omega), beq_eq_false_iff_ne.2 (show M ≠ t + 1 by omega)]

theorem reading_early {fs : List Fault} {t : Int} (h : ∀ f ∈ fs, t ≤ Fault.time f) (p : Int × Int) : reading fs t p = false := by
  refine xorAll_eq_false fun b hb => ?_
  obtain ⟨f, hf, rfl⟩ := List.mem_map.1 hb
  have := h f hf
  cases f with
  | data t' r c =>
    replace this : t ≤ t' := this
    simp only [Fault.affects, decide_eq_false (show ¬ t' < t by omega), Bool.false_and]
  | meas t' r c =>
    replace this : t ≤ t' := this
    simp only [Fault.affects]
    rw [beq_eq_false_iff_ne.2 (show t ≠ t' + 1 by omega), Bool.and_false]

theorem xorAll_filterMap {α β : Type} (c : α → Bool) (g : α → β) (f : β → Bool) (l : List α) :
    xorAll ((l.filterMap fun a => if c a then some (g a) else none).map f) = xorAll (l.map fun a => c a && f (g a)) := by
  induction l with
  | nil => rfl
  | cons a l ih =>
    rw [List.map_cons, xorAll_cons, ← ih]
    by_cases h : c a
    · rw [List.filterMap_cons_some (b := g a) (by rw [if_pos h]), List.map_cons, xorAll_cons, h, Bool.true_and]
    · rw [List.filterMap_cons_none (by rw [if_neg h]), (by simpa using h : c a = false), Bool.false_and, Bool.false_xor]

theorem xorAll_mem {l : List Int} (h : l.Nodup) (i : Int) : xorAll (l.map fun j => i == j) = decide (i ∈ l) := by
  by_cases hi : i ∈ l
  · rw [xorAll_single h hi _ fun b _ hb => by simpa using Ne.symm hb, decide_eq_true hi]
    simp
  · rw [decide_eq_false hi]
    refine xorAll_eq_false fun b hb => ?_
    obtain ⟨j, hj, rfl⟩ := List.mem_map.1 hb
    rw [beq_eq_false_iff_ne]
    rintro rfl
    exact hi hj

theorem place (H : OddPos dh dw) {i : Int} (hi : i ∈ allQubits dh dw) : 0 ≤ i / dw ∧ i / dw < dh ∧ 0 ≤ i % dw ∧ i % dw < dw := by
  obtain ⟨h1, h2⟩ := mem_allQubits.1 hi
  unfold OddPos at H
  refine ⟨Int.ediv_nonneg h1 (by omega), Int.ediv_lt_of_lt_mul (by omega) h2, Int.emod_nonneg _ (by omega), Int.emod_lt_of_pos _ (by omega)⟩

theorem affects_data (H : OddPos dh dw) {p : Int × Int} (hp : SiteOf dh dw key p) {i t N : Int} (hi : i ∈ allQubits dh dw) (ht : t < N) :
    Fault.affects N p.1 p.2 (.data t (i / dw) (i % dw)) = decide (i ∈ around dh dw p) := by
  have hodd : p.1 % 2 = 1 ∧ p.2 % 2 = 1 := by
    cases key
    · exact ⟨hp.1, hp.2.1⟩
    · exact ⟨hp.1, hp.2.1⟩
  rw [← parityOn_single (place H hi) ht hodd.1 hodd.2, parityOn_filterMap]
  have : (fun j => Fault.flipsData dw j (.data t (i / dw) (i % dw))) = fun j => i == j := by
    funext j
    simp only [Fault.flipsData]
    rw [Int.mul_comm, Int.mul_ediv_add_emod]
  rw [this]
  exact xorAll_mem (around_nodup H hp) i

/-- The qubits of the logical operator of a type. -/
def lineOf : Key → Int → Int → List Int
  | .X, dh, dw => colQubits dh dw 0
  | .Z, _, dw => rowQubits dw 0

theorem line_nodup (H : OddPos dh dw) : (lineOf key dh dw).Nodup := by
  cases key
  · exact col_nodup H
  · exact row_nodup

theorem line_all (H : OddPos dh dw) : ∀ i ∈ lineOf key dh dw, i ∈ allQubits dh dw := by
  cases key
  · exact col_all H
  · exact row_all H

theorem line_nonneg (H : OddPos dh dw) : ∀ i ∈ lineOf key dh dw, 0 ≤ i := fun i hi => (mem_allQubits.1 (line_all H i hi)).1

theorem flips_data (H : OddPos dh dw) {i t : Int} (hi : i ∈ allQubits dh dw) :
    Fault.flipsReadout key (.data t (i / dw) (i % dw)) = decide (i ∈ lineOf key dh dw) := by
  obtain ⟨h1, h2, h3, h4⟩ := place H hi
  have e := Int.mul_ediv_add_emod i dw
  cases key
  · show (i % dw == 0) = _
    rw [Bool.eq_iff_iff, beq_iff_eq, decide_eq_true_eq]
    unfold lineOf colQubits
    rw [List.mem_map]
    constructor
    · intro h
      refine ⟨(i / dw).toNat, List.mem_range.2 (by omega), ?_⟩
      rw [h, Int.mul_comm] at e
      rw [Int.toNat_of_nonneg h1]
      exact e
    · rintro ⟨k, -, rfl⟩
      simp
  · show (i / dw == 0) = _
    rw [Bool.eq_iff_iff, beq_iff_eq, decide_eq_true_eq]
    unfold lineOf rowQubits
    rw [List.mem_map]
    constructor
    · intro h
      refine ⟨i.toNat, List.mem_range.2 ?_, ?_⟩
      · rw [h, Int.mul_zero] at e; omega
      · have := (mem_allQubits.1 hi).1; omega
    · rintro ⟨k, hk, rfl⟩
      rw [List.mem_range] at hk
      exact Int.ediv_eq_zero_of_lt (by omega) (by omega)

theorem dataFaults_sum (f : Fault → Bool) {g : Int → Bool} {t : Int} {e : Errs} (h : ∀ i ∈ allQubits dh dw, f (.data t (i / dw) (i % dw)) = g i) :
    xorAll ((faultsIn.dataFaults code key name dh dw t e).map f) =
      xorAll ((allQubits dh dw).map fun i => turnedBy code key i (e (dataQ name i)) && g i) := by
  unfold faultsIn.dataFaults
  rw [xorAll_filterMap]
  exact xorAll_congr fun i hi => by rw [h i hi]

theorem measFaults_sum {t : Int} {e : Errs} {k : Nat} {p : Int × Int} (hp : (sitesOf key dh dw)[k]? = some p) (N : Int) :
    reading (faultsIn.measFaults key name dh dw t e) N p = ((e (synQ key name k)).1 && N == t + 1) := by
  unfold reading faultsIn.measFaults
  rw [xorAll_filterMap]
  have hm : (p, k) ∈ (sitesOf key dh dw).zipIdx := List.mem_zipIdx_iff_getElem?.2 hp
  rw [xorAll_single (List.Nodup.of_map Prod.snd (by rw [List.zipIdx_map_snd]; exact List.nodup_range')) hm]
  · simp [Fault.affects]
  · rintro ⟨p', k'⟩ hb hne
    have hb' := List.mem_zipIdx_iff_getElem?.1 hb
    simp only at hb'
    have : p' ≠ p := by
      rintro rfl
      apply hne
      obtain ⟨hlt, -⟩ := List.getElem?_eq_some_iff.1 hb'
      rw [(List.getElem?_inj hlt (sitesOf_nodup key dh dw)).1 (hb'.trans hp.symm)]
    simp only [Fault.affects]
    rw [Bool.eq_false_iff]
    intro h
    simp only [Bool.and_eq_true, beq_iff_eq] at h
    exact this (Prod.ext h.2.1.1.symm h.2.1.2.symm)

theorem faultsIn_time {t : Int} {o : QOp} {e : Errs} : ∀ f ∈ faultsIn code key name dh dw t o e, Fault.time f = t := by
  have hd : ∀ f ∈ faultsIn.dataFaults code key name dh dw t e, Fault.time f = t := by
    intro f hf
    unfold faultsIn.dataFaults at hf
    obtain ⟨i, -, h⟩ := List.mem_filterMap.1 hf
    split at h
    · cases h; rfl
    · cases h
  have hm : ∀ f ∈ faultsIn.measFaults key name dh dw t e, Fault.time f = t := by
    intro f hf
    unfold faultsIn.measFaults at hf
    obtain ⟨i, -, h⟩ := List.mem_filterMap.1 hf
    split at h
    · cases h; rfl
    · cases h
  intro f hf
  cases o with
  | id =>
    rcases List.mem_append.1 hf with hf | hf
    · exact hd f hf
    · exact hm f hf
  | idData => exact hd f hf
  | _ => cases hf

theorem site_mem_iff {p : Int × Int} : SiteOf dh dw key p ↔ p ∈ sitesOf key dh dw := by
  cases key
  · exact mem_xSites.symm
  · exact mem_zSites.symm

/-! ### The invariant -/

/-- Where the bits of a type begin in a syndrome register. -/
def offsetOf : Key → Int → Int → Nat
  | .X, dh, dw => (zSites dh dw).length
  | .Z, _, _ => 0

/-- The logical operator of a type. -/
def logOp (code : Code) (key : Key) (name : Str) (dh dw : Int) : Op := fstr code key name (lineOf key dh dw)

/-- After `n` stabilizations and faults `fs`, when the logical operator would have value `v` without faults. -/
structure Keeps (code : Code) (key : Key) (name : Str) (dh dw : Int) (v : Bool) (n : Nat) (fs : List Fault) (s : QState) : Prop where
  ne : s.psi ≠ 0
  time : ∀ f ∈ fs, Fault.time f < n
  check : ∀ p, SiteOf dh dw key p → HasValue (checkOp code name dh dw key p) (reading fs (n + 1) p) s.psi
  syn : ∃ e : Qubit → Bool, (∀ x ∈ synQs name (xSites dh dw).length (zSites dh dw).length, HasValue (opZ x) (e x) s.psi) ∧
    ∀ (k : Nat) p, (sitesOf key dh dw)[k]? = some p → e (synQ key name k) = (reading fs n p ^^ reading fs (n + 1) p)
  log : HasValue (logOp code key name dh dw) (v ^^ readoutFlipped key fs) s.psi
  mem : ∀ t : Nat, t < n → ∀ (k : Nat) p, (sitesOf key dh dw)[k]? = some p →
    s.mem ⟨roundName name t, offsetOf key dh dw + k⟩ = reading fs t p

theorem synQ_mem {k : Nat} {p : Int × Int} (hp : (sitesOf key dh dw)[k]? = some p) :
    synQ key name k ∈ synQs name (xSites dh dw).length (zSites dh dw).length := by
  obtain ⟨hk, -⟩ := List.getElem?_eq_some_iff.1 hp
  cases key
  · exact List.mem_append_right _ (List.mem_map.2 ⟨k, List.mem_range.2 hk, rfl⟩)
  · exact List.mem_append_left _ (List.mem_map.2 ⟨k, List.mem_range.2 hk, rfl⟩)

theorem check_index {k : Nat} {p : Int × Int} (hp : (sitesOf key dh dw)[k]? = some p) :
    (checks code name dh dw)[offsetOf key dh dw + k]? = some (checkOp code name dh dw key p) := by
  obtain ⟨hk, e⟩ := List.getElem?_eq_some_iff.1 hp
  unfold checks
  cases key
  · have hk' : k < (xSites dh dw).length := hk
    rw [List.getElem?_append_right (by rw [List.length_map]; exact Nat.le_add_right _ _), List.length_map, List.getElem?_map]
    show Option.map _ (xSites dh dw)[(zSites dh dw).length + k - (zSites dh dw).length]? = _
    rw [Nat.add_sub_cancel_left, show (xSites dh dw)[k]? = some p from hp]
    rfl
  · have hk' : k < (zSites dh dw).length := hk
    show (_ ++ _)[0 + k]? = _
    rw [Nat.zero_add, List.getElem?_append_left (by rw [List.length_map]; exact hk'), List.getElem?_map, show (zSites dh dw)[k]? = some p from hp]
    rfl

theorem index_lt {k : Nat} {p : Int × Int} (hp : (sitesOf key dh dw)[k]? = some p) :
    offsetOf key dh dw + k < (xSites dh dw).length + (zSites dh dw).length := by
  obtain ⟨hk, -⟩ := List.getElem?_eq_some_iff.1 hp
  cases key
  · have hk' : k < (xSites dh dw).length := hk
    show (zSites dh dw).length + k < _
    omega
  · have hk' : k < (zSites dh dw).length := hk
    show 0 + k < _
    omega

theorem bitsOf_index {k : Nat} {p : Int × Int} (hp : (sitesOf key dh dw)[k]? = some p) (e : Qubit → Bool) :
    bitsOf name (zSites dh dw).length e (offsetOf key dh dw + k) = e (synQ key name k) := by
  obtain ⟨hk, -⟩ := List.getElem?_eq_some_iff.1 hp
  unfold bitsOf
  cases key
  · show (if (zSites dh dw).length + k < (zSites dh dw).length then _ else e (mxQ name (((zSites dh dw).length + k - (zSites dh dw).length : Nat) : Int))) = _
    rw [if_neg (by omega), Nat.add_sub_cancel_left]
    rfl
  · have hk' : k < (zSites dh dw).length := hk
    show (if 0 + k < (zSites dh dw).length then e (mzQ name ((0 + k : Nat) : Int)) else _) = _
    rw [Nat.zero_add, if_pos hk']
    rfl

theorem logOp_onData : OnData name (logOp code key name dh dw) := fun _ hx a => fstr_comm_letter key _ hx a

theorem logOp_checks (H : OddPos dh dw) {A : Op} (h : A ∈ checks code name dh dw) : Commute (logOp code key name dh dw) A := by
  cases key
  · have := logX_checks H h
    rwa [logX_eq] at this
  · have := logZ_checks H h
    rwa [logZ_eq] at this

theorem OnData.flipAll {B : Op} (hB : OnData name B) (e : Qubit → Bool) (nx nz : Nat) : Commute B (flipAll e (synQs name nx nz)) :=
  flipAll_comm fun x hx => hB x (synQs_ne_data hx) .X

theorem synZero_values {ψ : Psi} (h : SynZero name dh dw ψ) :
    ∀ x ∈ synQs name (xSites dh dw).length (zSites dh dw).length, HasValue (opZ x) false ψ := by
  intro x hx
  rw [← isZero_value]
  unfold synQs at hx
  rcases List.mem_append.1 hx with hx | hx
  · obtain ⟨k, hk, rfl⟩ := List.mem_map.1 hx
    exact h.1 k (List.mem_range.1 hk)
  · obtain ⟨k, hk, rfl⟩ := List.mem_map.1 hx
    exact h.2 k (List.mem_range.1 hk)

/-- A stabilization. -/
theorem Keeps.stabilize (A : After cls q dh dw ops w) {v : Bool} {n : Nat} {fs : List Fault} {s s' : QState} (hn : ops.count .stabilize = n)
    (h : Keeps cls.code key q.lat.name dh dw v n fs s) (hR : Run sz (added q .stabilize w) s s') :
    Keeps cls.code key q.lat.name dh dw v (n + 1) fs s' := by
  have H := A.own.2.placed.odd
  have hp := A.proper .stabilize
  rw [added_stabilize A, hn] at hp hR
  obtain ⟨e, he, he'⟩ := h.syn
  obtain ⟨m, hpsi, hne, hz, hmem⟩ := run_round_values H hp h.ne he hR
  have keep : ∀ B : Op, OnData q.lat.name B → (∀ C ∈ checks cls.code q.lat.name dh dw, Commute B C) → ∀ u, HasValue B u s.psi → HasValue B u s'.psi := by
    intro B hB hc u hu
    rw [hpsi]
    exact (hu.of_comm (hB.flipAll e _ _)).of_comm (jointProj_comm hc _)
  have hlate : ∀ p, reading fs ((n + 1 : Nat) + 1) p = reading fs (n + 1) p := fun p =>
    reading_late h.time (by push_cast; omega) (by omega) p
  have hcheck : ∀ p, SiteOf dh dw key p → HasValue (checkOp cls.code q.lat.name dh dw key p) (reading fs (n + 1) p) s'.psi := by
    intro p hp
    refine keep _ (check_onData H hp) (fun C hC => ?_) _ (h.check p hp)
    obtain ⟨key', p', hp', rfl⟩ := mem_checks hC
    exact check_comm H hp hp'
  refine ⟨hne, fun f hf => lt_trans (h.time f hf) (by push_cast; omega), fun p hp => ?_, ⟨fun _ => false, synZero_values hz, fun k p hk => ?_⟩, ?_, ?_⟩
  · rw [hlate]; exact hcheck p hp
  · rw [hlate, show ((n + 1 : Nat) : Int) = n + 1 by push_cast; rfl, Bool.xor_self]
  · exact keep _ logOp_onData (fun C hC => logOp_checks H hC) _ h.log
  · intro t ht k p hk
    rw [hmem]
    by_cases e : t = n
    · subst e
      rw [writeReg_mem (index_lt hk)]
      have hs := syndrome_joint (code := cls.code) (name := q.lat.name) H
        (fun k => m k ^^ bitsOf q.lat.name (zSites dh dw).length e k) (flipAll e (synQs q.lat.name (xSites dh dw).length (zSites dh dw).length) s.psi)
        _ _ (check_index hk)
      rw [← hpsi] at hs
      have hu := hs.unique (hcheck p (site_mem_iff.2 (List.mem_of_getElem? hk))) hne
      simp only at hu
      rw [bitsOf_index hk, he' k p hk] at hu
      revert hu
      generalize reading fs (t + 1) p = a
      generalize reading fs t p = b
      generalize m _ = c
      revert a b c
      decide
    · rw [writeReg_other (fun h' => e (by exact_mod_cast roundName_inj h')), h.mem t (by omega) k p hk]

/-- All qubits of a lattice. -/
def latQs (name : Str) (dh dw : Int) : List Qubit :=
  (allQubits dh dw).map (dataQ name) ++ (List.range (zSites dh dw).length).map (fun (k : Nat) => mzQ name k) ++
    (List.range (xSites dh dw).length).map (fun (k : Nat) => mxQ name k) ++ [ancQ name]

theorem latQs_eq : latQs name dh dw =
    (allQubits dh dw).map (dataQ name) ++ (synQs name (xSites dh dw).length (zSites dh dw).length ++ [ancQ name]) := by
  unfold latQs synQs
  simp only [List.append_assoc]

theorem added_id (A : After cls q dh dw ops w) : added q .id w =
    (latQs q.lat.name dh dw).map (fun x => Instr.gate1 .id x none) ++ [.barrier] := by
  rw [Emits.added (o := .id) A.own.2.placed.emits_id]
  unfold idInstrs latQs
  rw [A.own.2.placed.all_qubits]

theorem added_idData (A : After cls q dh dw ops w) : added q .idData w =
    ((allQubits dh dw).map (dataQ q.lat.name)).map (fun x => Instr.gate1 .id x none) ++ [.barrier] := by
  rw [Emits.added (o := .idData) A.own.2.placed.emits_idData]
  rfl

/-- How often errors flip a string. -/
def strFlip (code : Code) (key : Key) (name : Str) (dh dw : Int) (e : Errs) (m : List Int) : Bool :=
  xorAll ((allQubits dh dw).map fun i => turnedBy code key i (e (dataQ name i)) && decide (i ∈ m))

theorem errs_string {e : Errs} {m : List Int} (hm : ∀ j ∈ m, 0 ≤ j) (hn : m.Nodup) {rest : List Qubit} (hr : ∀ x ∈ rest, ∀ i, dataQ name i ≠ x)
    {v : Bool} {ψ : Psi} (h : HasValue (fstr code key name m) v ψ) :
    HasValue (fstr code key name m) (v ^^ strFlip code key name dh dw e m) (errOp e ((allQubits dh dw).map (dataQ name) ++ rest) ψ) := by
  rw [errOp_append]
  have h1 : Passes (strFlip code key name dh dw e m) (errOp e ((allQubits dh dw).map (dataQ name))) (fstr code key name m) :=
    errOp_passes fun i hi => turned_passes (all_nonneg i hi) hm hn
  have h2 : Commute (errOp e rest) (fstr code key name m) :=
    errOp_comm fun x hx => ⟨(fstr_comm_X key m (hr x hx)).symm, (fstr_comm_Z key m (hr x hx)).symm⟩
  exact (h.passes h1.symm).of_comm h2.symm

theorem reading_data (H : OddPos dh dw) {p : Int × Int} (hp : SiteOf dh dw key p) {t N : Int} (ht : t < N) {e : Errs} :
    reading (faultsIn.dataFaults code key name dh dw t e) N p = strFlip code key name dh dw e (around dh dw p) :=
  dataFaults_sum _ fun _ hi => affects_data H hp hi ht

theorem readout_data (H : OddPos dh dw) {t : Int} {e : Errs} :
    readoutFlipped key (faultsIn.dataFaults code key name dh dw t e) = strFlip code key name dh dw e (lineOf key dh dw) :=
  dataFaults_sum _ fun _ hi => flips_data H hi

theorem readout_meas {t : Int} {e : Errs} : readoutFlipped key (faultsIn.measFaults key name dh dw t e) = false := by
  refine xorAll_eq_false fun b hb => ?_
  obtain ⟨f, hf, rfl⟩ := List.mem_map.1 hb
  unfold faultsIn.measFaults at hf
  obtain ⟨i, -, h⟩ := List.mem_filterMap.1 hf
  split at h
  · cases h; rfl
  · cases h

theorem readoutFlipped_append (fs fs' : List Fault) : readoutFlipped key (fs ++ fs') = (readoutFlipped key fs ^^ readoutFlipped key fs') := by
  unfold readoutFlipped
  rw [List.map_append, xorAll_append]

/-- What errors after `n` rounds do; `rest` are the qubits other than the data qubits that get errors. -/
theorem Keeps.errors (H : OddPos dh dw) {v : Bool} {n : Nat} {fs new : List Fault} {s : QState} (h : Keeps code key name dh dw v n fs s) {e : Errs}
    {rest : List Qubit} (hr : ∀ x ∈ rest, ∀ i, dataQ name i ≠ x) (d : Qubit → Bool)
    (hd : ∀ x ∈ synQs name (xSites dh dw).length (zSites dh dw).length, Passes (d x) (errOp e rest) (opZ x))
    (htime : ∀ f ∈ new, Fault.time f = (n : Int) - 1)
    (hlate : ∀ p, SiteOf dh dw key p → reading new (n + 1) p = strFlip code key name dh dw e (around dh dw p))
    (hnow : ∀ (k : Nat) p, (sitesOf key dh dw)[k]? = some p → (reading new n p ^^ reading new (n + 1) p) = d (synQ key name k))
    (hflip : readoutFlipped key new = strFlip code key name dh dw e (lineOf key dh dw)) :
    Keeps code key name dh dw v n (fs ++ new) ⟨errOp e ((allQubits dh dw).map (dataQ name) ++ rest) s.psi, s.mem⟩ := by
  obtain ⟨e0, h0, h0'⟩ := h.syn
  refine ⟨errOp_ne h.ne, fun f hf => ?_, fun p hp => ?_, ⟨fun x => e0 x ^^ d x, fun x hx => ?_, fun k p hk => ?_⟩, ?_, fun t ht k p hk => ?_⟩
  · rcases List.mem_append.1 hf with hf | hf
    · exact h.time f hf
    · rw [htime f hf]; omega
  · have := h.check p hp
    rw [checkOp_eq H code name hp] at this ⊢
    rw [reading_append, hlate p hp]
    exact errs_string around_nonneg (around_nodup H hp) hr this
  · rw [errOp_append]
    have h1 : Commute (opZ x) (errOp e ((allQubits dh dw).map (dataQ name))) := by
      refine (errOp_comm fun y hy => ?_).symm
      obtain ⟨i, -, rfl⟩ := List.mem_map.1 hy
      exact ⟨letter_comm (synQs_ne_data hx i) .X .Z, opZ_comm _ _⟩
    exact ((h0 x hx).of_comm h1).passes (hd x hx).symm
  · show (e0 (synQ key name k) ^^ d (synQ key name k)) = _
    rw [reading_append, reading_append, h0' k p hk, ← hnow k p hk]
    generalize reading fs n p = a
    generalize reading fs (n + 1) p = b
    generalize reading new n p = c
    generalize reading new (n + 1) p = d
    revert a b c d
    decide
  · rw [readoutFlipped_append, hflip, ← Bool.xor_assoc]
    exact errs_string (line_nonneg H) (line_nodup H) hr h.log
  · rw [reading_append, reading_early (fs := new) (fun f hf => by rw [htime f hf]; omega), Bool.xor_false]
    exact h.mem t ht k p hk

theorem Keeps.idData (A : After cls q dh dw ops w) {v : Bool} {n : Nat} {fs : List Fault} {s s' : QState} {e : Errs}
    (h : Keeps cls.code key q.lat.name dh dw v n fs s) (hR : Run sz (withErrors e (added q .idData w)) s s') :
    Keeps cls.code key q.lat.name dh dw v n (fs ++ faultsIn cls.code key q.lat.name dh dw (n - 1) .idData e) s' := by
  have H := A.own.2.placed.odd
  rw [added_idData A, run_errOp] at hR
  subst hR
  have := h.errors H (e := e) (rest := []) (new := faultsIn cls.code key q.lat.name dh dw (n - 1) .idData e) (by simp) (fun _ => false)
    (fun x _ => passes_false.2 (Commute.one_left _)) faultsIn_time (fun p hp => reading_data H hp (by omega)) (fun k p hk => by
      have hp := site_mem_iff.2 (List.mem_of_getElem? hk)
      show (reading (faultsIn.dataFaults _ _ _ _ _ _ _) _ _ ^^ reading (faultsIn.dataFaults _ _ _ _ _ _ _) _ _) = false
      rw [reading_data H hp (by omega), reading_data H hp (by omega), Bool.xor_self]) (readout_data H)
  rwa [List.append_nil] at this

theorem anc_ne_syn {nx nz : Nat} {x : Qubit} (hx : x ∈ synQs name nx nz) : ancQ name ≠ x := by
  have h := C53_once_each name 0 0 nz nx
  rw [List.nodup_append] at h
  refine fun e => h.2.2 x ?_ (ancQ name) (List.mem_singleton.2 rfl) e.symm
  unfold synQs at hx
  rcases List.mem_append.1 hx with hx | hx
  · exact List.mem_append_left _ (List.mem_append_right _ hx)
  · exact List.mem_append_right _ hx

theorem Keeps.id (A : After cls q dh dw ops w) {v : Bool} {n : Nat} {fs : List Fault} {s s' : QState} {e : Errs}
    (h : Keeps cls.code key q.lat.name dh dw v n fs s) (hR : Run sz (withErrors e (added q .id w)) s s') :
    Keeps cls.code key q.lat.name dh dw v n (fs ++ faultsIn cls.code key q.lat.name dh dw (n - 1) .id e) s' := by
  have H := A.own.2.placed.odd
  rw [added_id A, run_errOp, latQs_eq] at hR
  subst hR
  refine h.errors H ?_ (fun x => (e x).1) (fun x hx => ?_) faultsIn_time (fun p hp => ?_) (fun k p hk => ?_) ?_
  · intro x hx
    rcases List.mem_append.1 hx with hx | hx
    · exact synQs_ne_data hx
    · rw [List.mem_singleton] at hx
      subst hx
      exact dataQ_ne_ancQ
  · have hanc := anc_ne_syn hx
    rw [errOp_append]
    have h1 := errOp_passes (B := opZ x) (e := e) (l := synQs q.lat.name (xSites dh dw).length (zSites dh dw).length) (g := _root_.id)
      (f := fun y => decide (y = x) && (e y).1) fun y hy => by
        by_cases hyx : y = x
        · subst hyx
          have := err1_passes (e := e y) (passes_XZ y) (passes_false.2 (Commute.refl (opZ y)))
          simpa using this
        · have := err1_passes (e := e y) (passes_false.2 (opX_opZ_comm hyx)) (passes_false.2 (opZ_comm y x))
          simpa [hyx] using this
    rw [List.map_id, xorAll_single (synQs_nodup _ _) hx _ (fun b _ hb => by simp [hb]), decide_eq_true rfl, Bool.true_and] at h1
    have h2 : Commute (errOp e [ancQ q.lat.name]) (opZ x) := errOp_comm fun y hy => by
      rw [List.mem_singleton] at hy
      subst hy
      exact ⟨opX_opZ_comm hanc, opZ_comm _ _⟩
    have := (passes_false.2 h2).mul_left h1
    rwa [Bool.false_xor] at this
  · show reading (faultsIn.dataFaults _ _ _ _ _ _ _ ++ faultsIn.measFaults _ _ _ _ _ _) _ _ = _
    obtain ⟨k, hk⟩ := List.getElem?_of_mem (site_mem_iff.1 hp)
    rw [reading_append, reading_data H hp (by omega), measFaults_sum hk, beq_eq_false_iff_ne.2 (by omega), Bool.and_false, Bool.xor_false]
  · have hp := site_mem_iff.2 (List.mem_of_getElem? hk)
    show (reading (faultsIn.dataFaults _ _ _ _ _ _ _ ++ faultsIn.measFaults _ _ _ _ _ _) _ _ ^^
      reading (faultsIn.dataFaults _ _ _ _ _ _ _ ++ faultsIn.measFaults _ _ _ _ _ _) _ _) = _
    rw [reading_append, reading_append, reading_data H hp (by omega), reading_data H hp (by omega), measFaults_sum hk, measFaults_sum hk,
      beq_eq_false_iff_ne.2 (show (n : Int) + 1 ≠ n - 1 + 1 by omega), beq_iff_eq.2 (show (n : Int) = n - 1 + 1 by omega), Bool.and_false,
      Bool.and_true, Bool.xor_false]
    generalize strFlip _ _ _ _ _ _ _ = a
    generalize (e _).1 = b
    revert a b
    decide
  · show readoutFlipped key (faultsIn.dataFaults _ _ _ _ _ _ _ ++ faultsIn.measFaults _ _ _ _ _ _) = _
    rw [readoutFlipped_append, readout_data H, readout_meas, Bool.xor_false]

end Qtc
