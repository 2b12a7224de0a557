import Verif.Proof.QSpread
import Verif.Proof.Equivalent
/-!
What errors in the circuits of a memory amount to.
-/
namespace Qtc
open Spec Function

variable {cls : QClass} {q : TQubit} {dh dw : Int} {ops : List QOp} {w : World} {sz : Str → Nat} {code : Code} {name : Str} {key : Key}

/-! ### Something wrong after `n` rounds -/

/-- The letter as an error. -/
def Letter.err : Letter → Bool × Bool
  | .X => (true, false)
  | .Z => (false, true)

/-- The flips of data qubits that a Pauli operator after `n` rounds is. -/
def dataOf (code : Code) (key : Key) (name : Str) (dh dw : Int) (n : Nat) (a : Letter) (x : Qubit) : List Fault :=
  (allQubits dh dw).filterMap fun i =>
    if decide (x = dataQ name i) && turnedBy code key i (Letter.err a) then some (.data ((n : Int) - 1) (i / dw) (i % dw)) else none

/-- The misreadings in the next round that a Pauli operator after `n` rounds leads to. -/
def measOf (key : Key) (name : Str) (dh dw : Int) (n : Nat) (a : Letter) (x : Qubit) : List Fault :=
  (sitesOf key dh dw).zipIdx.filterMap fun p =>
    if decide (x = synQ key name p.2) && decide (a = .X) then some (.meas ((n : Int) - 1) p.1.1 p.1.2) else none

/-- The misreading in the last round that a flipped bit after `n` rounds is. -/
def bitFaults (key : Key) (name : Str) (dh dw : Int) (n : Nat) (b : Clbit) : List Fault :=
  (sitesOf key dh dw).zipIdx.filterMap fun p =>
    if decide (b = ⟨roundName name ((n : Int) - 1), offsetOf key dh dw + p.2⟩) then some (.meas ((n : Int) - 2) p.1.1 p.1.2) else none

/-- The faults that something wrong after `n` rounds is. -/
def markFaults (code : Code) (key : Key) (name : Str) (dh dw : Int) (n : Nat) : Mark → List Fault
  | .pauli a x => dataOf code key name dh dw n a x ++ measOf key name dh dw n a x
  | .bit b => bitFaults key name dh dw n b

theorem dataQ_cases (name : Str) (x : Qubit) : (∀ i, dataQ name i ≠ x) ∨ ∃ i, 0 ≤ i ∧ x = dataQ name i := by
  by_cases h : ∃ i, dataQ name i = x
  · obtain ⟨i, rfl⟩ := h
    right
    refine ⟨(i.toNat : Int), by omega, ?_⟩
    unfold dataQ
    simp only [Int.toNat_natCast]
  · left
    intro i hi
    exact h ⟨i, hi⟩

theorem dataOf_sum {n : Nat} {a : Letter} {i : Int} (hi : 0 ≤ i) (f : Fault → Bool) :
    xorAll ((dataOf code key name dh dw n a (dataQ name i)).map f) =
      (decide (i ∈ allQubits dh dw) && (turnedBy code key i (Letter.err a) && f (.data ((n : Int) - 1) (i / dw) (i % dw)))) := by
  unfold dataOf
  rw [xorAll_filterMap]
  by_cases h : i ∈ allQubits dh dw
  · rw [xorAll_single all_nodup h, decide_eq_true h, decide_eq_true rfl, Bool.true_and, Bool.true_and]
    intro j hj hne
    rw [decide_eq_false (fun e => hne (dataQ_inj (all_nonneg j hj) hi e.symm)), Bool.false_and, Bool.false_and]
  · rw [decide_eq_false h, Bool.false_and]
    refine xorAll_eq_false fun b hb => ?_
    obtain ⟨j, hj, rfl⟩ := List.mem_map.1 hb
    rw [decide_eq_false, Bool.false_and, Bool.false_and]
    intro e
    rw [dataQ_inj hi (all_nonneg j hj) e] at h
    exact h hj

theorem dataOf_other {n : Nat} {a : Letter} {x : Qubit} (h : ∀ i, dataQ name i ≠ x) : dataOf code key name dh dw n a x = [] := by
  unfold dataOf
  rw [List.filterMap_eq_nil_iff]
  intro i _
  rw [decide_eq_false (Ne.symm (h i))]
  rfl

theorem err1_letter (a : Letter) (x : Qubit) : err1 (Letter.err a) x = a.op x := by
  cases a <;> simp [err1, Letter.err, Letter.op]

theorem dataOf_reading (H : OddPos dh dw) {n : Nat} {a : Letter} {x : Qubit} {p : Int × Int} (hp : SiteOf dh dw key p) {N : Int} (hN : (n : Int) ≤ N) :
    Passes (reading (dataOf code key name dh dw n a x) N p) (a.op x) (fstr code key name (around dh dw p)) := by
  rcases dataQ_cases name x with h | ⟨i, hi, rfl⟩
  · rw [dataOf_other h]
    exact passes_false.2 (fstr_comm_letter key _ h a).symm
  · have := turned_passes (code := code) (key := key) (name := name) (e := Letter.err a) hi (around_nonneg (dh := dh) (dw := dw) (p := p)) (around_nodup H hp)
    rw [err1_letter] at this
    unfold reading
    rw [dataOf_sum hi]
    by_cases h : i ∈ allQubits dh dw
    · rwa [affects_data H hp h (by omega), decide_eq_true h, Bool.true_and]
    · rw [decide_eq_false h, Bool.false_and]
      rwa [decide_eq_false (fun h' => h (around_all i h')), Bool.and_false] at this

theorem dataOf_readout (H : OddPos dh dw) {n : Nat} {a : Letter} {x : Qubit} :
    Passes (readoutFlipped key (dataOf code key name dh dw n a x)) (a.op x) (logOp code key name dh dw) := by
  rcases dataQ_cases name x with h | ⟨i, hi, rfl⟩
  · rw [dataOf_other h]
    exact passes_false.2 (fstr_comm_letter key _ h a).symm
  · have := turned_passes (code := code) (key := key) (name := name) (e := Letter.err a) hi (line_nonneg H (key := key)) (line_nodup H)
    rw [err1_letter] at this
    unfold readoutFlipped
    rw [dataOf_sum hi]
    by_cases h : i ∈ allQubits dh dw
    · rwa [flips_data H h, decide_eq_true h, Bool.true_and]
    · rw [decide_eq_false h, Bool.false_and]
      rwa [decide_eq_false (fun h' => h (line_all H i h')), Bool.and_false] at this

theorem synQ_index {i j : Nat} (h : synQ key name i = synQ key name j) : i = j := by
  cases key
  · exact mxQ_inj h
  · exact mzQ_inj h

theorem zipIdx_sum {α : Type} {l : List α} {k : Nat} {p : α} (hp : l[k]? = some p) (f : α × Nat → Bool)
    (h : ∀ b ∈ l.zipIdx, b.2 ≠ k → f b = false) : xorAll (l.zipIdx.map f) = f (p, k) := by
  have hm : (p, k) ∈ l.zipIdx := List.mem_zipIdx_iff_getElem?.2 hp
  refine xorAll_single (List.Nodup.of_map Prod.snd (by rw [List.zipIdx_map_snd]; exact List.nodup_range')) hm _ ?_
  rintro ⟨p', k'⟩ hb hne
  refine h _ hb fun e => hne ?_
  simp only at e
  subst e
  have := (List.mem_zipIdx_iff_getElem?.1 hb).symm.trans hp
  rw [Option.some.injEq] at this
  rw [show p' = p from this]

theorem measOf_reading {n : Nat} {a : Letter} {x : Qubit} {k : Nat} {p : Int × Int} (hp : (sitesOf key dh dw)[k]? = some p) (N : Int) :
    reading (measOf key name dh dw n a x) N p = (decide (x = synQ key name k) && decide (a = .X) && decide (N = n)) := by
  unfold reading measOf
  rw [xorAll_filterMap, zipIdx_sum hp]
  · simp only [Fault.affects, beq_self_eq_true, Bool.true_and]
    congr 1
    rw [Bool.eq_iff_iff, beq_iff_eq, decide_eq_true_eq]
    omega
  · rintro ⟨p', k'⟩ hb hne
    have hb' := List.mem_zipIdx_iff_getElem?.1 hb
    simp only at hb' hne ⊢
    have : p' ≠ p := by
      rintro rfl
      obtain ⟨hlt, -⟩ := List.getElem?_eq_some_iff.1 hb'
      exact hne ((List.getElem?_inj hlt (sitesOf_nodup key dh dw)).1 (hb'.trans hp.symm))
    simp only [Fault.affects]
    rw [Bool.eq_false_iff]
    intro h
    simp only [Bool.and_eq_true, beq_iff_eq] at h
    exact this (Prod.ext h.2.1.1.symm h.2.1.2.symm)

theorem bitFaults_reading {n : Nat} {b : Clbit} {k : Nat} {p : Int × Int} (hp : (sitesOf key dh dw)[k]? = some p) (N : Int) :
    reading (bitFaults key name dh dw n b) N p =
      (decide (b = ⟨roundName name ((n : Int) - 1), offsetOf key dh dw + k⟩) && decide (N = (n : Int) - 1)) := by
  unfold reading bitFaults
  rw [xorAll_filterMap, zipIdx_sum hp]
  · simp only [Fault.affects, beq_self_eq_true, Bool.true_and]
    congr 1
    rw [Bool.eq_iff_iff, beq_iff_eq, decide_eq_true_eq]
    omega
  · rintro ⟨p', k'⟩ hb hne
    have hb' := List.mem_zipIdx_iff_getElem?.1 hb
    simp only at hb' hne ⊢
    have : p' ≠ p := by
      rintro rfl
      obtain ⟨hlt, -⟩ := List.getElem?_eq_some_iff.1 hb'
      exact hne ((List.getElem?_inj hlt (sitesOf_nodup key dh dw)).1 (hb'.trans hp.symm))
    simp only [Fault.affects]
    rw [Bool.eq_false_iff]
    intro h
    simp only [Bool.and_eq_true, beq_iff_eq] at h
    exact this (Prod.ext h.2.1.1.symm h.2.1.2.symm)

theorem mem_dataOf {n : Nat} {a : Letter} {x : Qubit} {f : Fault} (h : f ∈ dataOf code key name dh dw n a x) :
    ∃ i ∈ allQubits dh dw, x = dataQ name i ∧ f = .data ((n : Int) - 1) (i / dw) (i % dw) := by
  unfold dataOf at h
  obtain ⟨i, hi, h⟩ := List.mem_filterMap.1 h
  split at h
  · next hc =>
    cases h
    simp only [Bool.and_eq_true, decide_eq_true_eq] at hc
    exact ⟨i, hi, hc.1, rfl⟩
  · cases h

theorem mem_measOf {n : Nat} {a : Letter} {x : Qubit} {f : Fault} (h : f ∈ measOf key name dh dw n a x) :
    ∃ (k : Nat) (p : Int × Int), (sitesOf key dh dw)[k]? = some p ∧ x = synQ key name k ∧ f = .meas ((n : Int) - 1) p.1 p.2 := by
  unfold measOf at h
  obtain ⟨⟨p, k⟩, hp, h⟩ := List.mem_filterMap.1 h
  split at h
  · next hc =>
    cases h
    simp only [Bool.and_eq_true, decide_eq_true_eq] at hc
    exact ⟨k, p, List.mem_zipIdx_iff_getElem?.1 hp, hc.1, rfl⟩
  · cases h

theorem mem_bitFaults {n : Nat} {b : Clbit} {f : Fault} (h : f ∈ bitFaults key name dh dw n b) :
    ∃ (k : Nat) (p : Int × Int), (sitesOf key dh dw)[k]? = some p ∧ b = ⟨roundName name ((n : Int) - 1), offsetOf key dh dw + k⟩ ∧
      f = .meas ((n : Int) - 2) p.1 p.2 := by
  unfold bitFaults at h
  obtain ⟨⟨p, k⟩, hp, h⟩ := List.mem_filterMap.1 h
  split at h
  · next hc =>
    cases h
    exact ⟨k, p, List.mem_zipIdx_iff_getElem?.1 hp, of_decide_eq_true hc, rfl⟩
  · cases h

theorem readoutFlipped_eq_false {fs : List Fault} (h : ∀ f ∈ fs, ∃ t r c, f = .meas t r c) : readoutFlipped key fs = false := by
  refine xorAll_eq_false fun b hb => ?_
  obtain ⟨f, hf, rfl⟩ := List.mem_map.1 hb
  obtain ⟨t, r, c, rfl⟩ := h f hf
  rfl

theorem measOf_readout {n : Nat} {a : Letter} {x : Qubit} : readoutFlipped key (measOf key name dh dw n a x) = false :=
  readoutFlipped_eq_false fun _ hf => by
    obtain ⟨k, p, -, -, rfl⟩ := mem_measOf hf
    exact ⟨_, _, _, rfl⟩

theorem bitFaults_readout {n : Nat} {b : Clbit} : readoutFlipped key (bitFaults key name dh dw n b) = false :=
  readoutFlipped_eq_false fun _ hf => by
    obtain ⟨k, p, -, -, rfl⟩ := mem_bitFaults hf
    exact ⟨_, _, _, rfl⟩

/-- A Pauli operator. -/
theorem Keeps.pauli (H : OddPos dh dw) {v : Bool} {n : Nat} {fs : List Fault} {s : QState} (h : Keeps code key name dh dw v n fs s)
    (a : Letter) (x : Qubit) :
    Keeps code key name dh dw v n (fs ++ (dataOf code key name dh dw n a x ++ measOf key name dh dw n a x)) ⟨a.op x s.psi, s.mem⟩ := by
  obtain ⟨e0, h0, h0'⟩ := h.syn
  have hsq : a.op x * a.op x = 1 := by
    cases a
    · exact opX_sq x
    · exact opZ_sq x
  refine ⟨ne_zero_of_sq hsq h.ne, fun f hf => ?_, fun p hp => ?_, ⟨fun y => e0 y ^^ (decide (x = y) && decide (a = .X)), fun y hy => ?_, fun k p hk => ?_⟩, ?_,
    fun t ht k p hk => ?_⟩
  · rcases List.mem_append.1 hf with hf | hf
    · exact h.time f hf
    · rcases List.mem_append.1 hf with hf | hf
      · obtain ⟨i, -, -, rfl⟩ := mem_dataOf hf
        simp only [Fault.time]; omega
      · obtain ⟨k, p, -, -, rfl⟩ := mem_measOf hf
        simp only [Fault.time]; omega
  · obtain ⟨k, hk⟩ := List.getElem?_of_mem (site_mem_iff.1 hp)
    have := h.check p hp
    rw [checkOp_eq H code name hp] at this ⊢
    rw [reading_append, reading_append, measOf_reading hk, decide_eq_false (show ¬ ((n : Int) + 1 = n) by omega), Bool.and_false, Bool.xor_false]
    exact this.passes (dataOf_reading H hp (by omega)).symm
  · refine (h0 y hy).passes ?_
    by_cases hxy : x = y
    · subst hxy
      cases a
      · rw [decide_eq_true rfl, decide_eq_true rfl]
        exact (passes_XZ x).symm
      · rw [decide_eq_false (show ¬ Letter.Z = Letter.X by decide), Bool.and_false]
        exact passes_false.2 (opZ_comm x x)
    · rw [decide_eq_false hxy, Bool.false_and]
      exact passes_false.2 (letter_comm (Ne.symm hxy) .Z a)
  · have hp := site_mem_iff.2 (List.mem_of_getElem? hk)
    show (e0 (synQ key name k) ^^ _) = _
    rw [h0' k p hk]
    rw [reading_append, reading_append, reading_append, reading_append, measOf_reading hk, measOf_reading hk,
      decide_eq_false (show ¬ ((n : Int) + 1 = n) by omega), decide_eq_true (rfl : (n : Int) = n), Bool.and_true, Bool.and_false, Bool.xor_false]
    have e : reading (dataOf code key name dh dw n a x) n p = reading (dataOf code key name dh dw n a x) (n + 1) p := by
      refine xorAll_congr fun f hf => ?_
      obtain ⟨i, -, -, rfl⟩ := mem_dataOf hf
      simp only [Fault.affects]
      rw [decide_eq_true (by omega), decide_eq_true (by omega)]
    rw [e]
    generalize reading fs n p = a1
    generalize reading fs (n + 1) p = a2
    generalize reading (dataOf code key name dh dw n a x) (n + 1) p = a3
    generalize (decide (x = synQ key name k) && decide (a = .X)) = a4
    revert a1 a2 a3 a4
    decide
  · rw [readoutFlipped_append, readoutFlipped_append, measOf_readout, Bool.xor_false, ← Bool.xor_assoc]
    exact h.log.passes (dataOf_readout H).symm
  · rw [reading_append, reading_append, measOf_reading hk, decide_eq_false (show ¬ ((t : Int) = n) by omega), Bool.and_false, Bool.xor_false,
      reading_early (fs := dataOf code key name dh dw n a x), Bool.xor_false]
    · exact h.mem t ht k p hk
    · intro f hf
      obtain ⟨i, -, -, rfl⟩ := mem_dataOf hf
      simp only [Fault.time]; omega

/-- A flipped bit of the last round. -/
theorem Keeps.bit {v : Bool} {n : Nat} {fs : List Fault} {s : QState} (h : Keeps code key name dh dw v n fs s)
    {b : Clbit} (hb : b.reg = roundName name ((n : Int) - 1)) :
    Keeps code key name dh dw v n (fs ++ bitFaults key name dh dw n b) ⟨s.psi, wrongMem [.bit b] s.mem⟩ := by
  obtain ⟨e0, h0, h0'⟩ := h.syn
  refine ⟨h.ne, fun f hf => ?_, fun p hp => ?_, ⟨e0, h0, fun k p hk => ?_⟩, ?_, fun t ht k p hk => ?_⟩
  · rcases List.mem_append.1 hf with hf | hf
    · exact h.time f hf
    · obtain ⟨k, p, -, -, rfl⟩ := mem_bitFaults hf
      simp only [Fault.time]; omega
  · obtain ⟨k, hk⟩ := List.getElem?_of_mem (site_mem_iff.1 hp)
    rw [reading_append, bitFaults_reading hk, decide_eq_false (show ¬ ((n : Int) + 1 = n - 1) by omega), Bool.and_false, Bool.xor_false]
    exact h.check p hp
  · rw [reading_append, reading_append, bitFaults_reading hk, bitFaults_reading hk, decide_eq_false (show ¬ ((n : Int) + 1 = n - 1) by omega),
      decide_eq_false (show ¬ ((n : Int) = n - 1) by omega), Bool.and_false, Bool.xor_false, Bool.xor_false]
    exact h0' k p hk
  · rw [readoutFlipped_append, bitFaults_readout, Bool.xor_false]
    exact h.log
  · rw [reading_append, bitFaults_reading hk, ← h.mem t ht k p hk]
    show (s.mem _ ^^ xorAll [decide (Mark.bit b = Mark.bit _)]) = _
    congr 1
    rw [xorAll_cons, xorAll_nil, Bool.xor_false, ← Bool.decide_and, decide_eq_decide]
    constructor
    · intro e
      cases e
      have ht' : (t : Int) = n - 1 := roundName_inj hb
      exact ⟨by rw [ht'], ht'⟩
    · rintro ⟨rfl, e⟩
      rw [e]

/-- All that is wrong after `n` rounds. -/
theorem Keeps.marks (H : OddPos dh dw) {v : Bool} {n : Nat} {fs : List Fault} {s : QState} (h : Keeps code key name dh dw v n fs s)
    {F : List Mark} (hF : ∀ b, Mark.bit b ∈ F → b.reg = roundName name ((n : Int) - 1)) :
    ∃ gs, Keeps code key name dh dw v n (fs ++ gs) ⟨wrongOp F s.psi, wrongMem F s.mem⟩ ∧
      gs.Perm (F.flatMap (markFaults code key name dh dw n)) := by
  induction F with
  | nil =>
    refine ⟨[], ?_, List.Perm.refl _⟩
    rw [List.append_nil, wrongMem_nil]
    exact h
  | cons k F ih =>
    obtain ⟨gs, hK, hp⟩ := ih fun b hb => hF b (List.mem_cons_of_mem _ hb)
    refine ⟨gs ++ markFaults code key name dh dw n k, ?_, ?_⟩
    · rw [← List.append_assoc]
      cases k with
      | pauli a x =>
        have := hK.pauli H a x
        rw [wrongOp_cons, ← List.singleton_append, wrongMem_append, wrongMem_pauli]
        exact this
      | bit b =>
        have := hK.bit (b := b) (hF b (by simp))
        rw [wrongOp_cons, ← List.singleton_append, wrongMem_append]
        show Keeps _ _ _ _ _ _ _ _ ⟨(1 * wrongOp F) s.psi, _⟩
        rw [one_mul]
        exact this
    · rw [List.flatMap_cons]
      exact (hp.append_right _).trans List.perm_append_comm

theorem hasValue_scale {A : Op} {v : Bool} {ψ : Psi} (h : HasValue A v ψ) (u : Bool) : HasValue A v (sg u • ψ) := by
  unfold HasValue at *
  rw [map_smul, h, smul_comm]

theorem sg_ne_zero (v : Bool) : sg v ≠ 0 := by cases v <;> simp

theorem Keeps.scale {v : Bool} {n : Nat} {fs : List Fault} {s : QState} (h : Keeps code key name dh dw v n fs s) (u : Bool) :
    Keeps code key name dh dw v n fs ⟨sg u • s.psi, s.mem⟩ := by
  obtain ⟨e0, h0, h0'⟩ := h.syn
  exact ⟨smul_ne_zero (sg_ne_zero u) h.ne, h.time, fun p hp => hasValue_scale (h.check p hp) u,
    ⟨e0, fun y hy => hasValue_scale (h0 y hy) u, h0'⟩, hasValue_scale h.log u, h.mem⟩

/-! ### Fault sets that amount to the same -/

/-- Two fault sets that nothing tells apart. -/
def Amounts (key : Key) (dh dw : Int) (fs gs : List Fault) : Prop :=
  (∀ t p, SiteOf dh dw key p → reading fs t p = reading gs t p) ∧ readoutFlipped key fs = readoutFlipped key gs

theorem Amounts.refl (fs : List Fault) : Amounts key dh dw fs fs := ⟨fun _ _ _ => rfl, rfl⟩

theorem Amounts.symm {fs gs : List Fault} (h : Amounts key dh dw fs gs) : Amounts key dh dw gs fs := ⟨fun t p hp => (h.1 t p hp).symm, h.2.symm⟩

theorem Amounts.trans {fs gs hs : List Fault} (h : Amounts key dh dw fs gs) (h' : Amounts key dh dw gs hs) : Amounts key dh dw fs hs :=
  ⟨fun t p hp => (h.1 t p hp).trans (h'.1 t p hp), h.2.trans h'.2⟩

theorem Amounts.append {fs gs fs' gs' : List Fault} (h : Amounts key dh dw fs gs) (h' : Amounts key dh dw fs' gs') :
    Amounts key dh dw (fs ++ fs') (gs ++ gs') :=
  ⟨fun t p hp => by rw [reading_append, reading_append, h.1 t p hp, h'.1 t p hp], by rw [readoutFlipped_append, readoutFlipped_append, h.2, h'.2]⟩

theorem Amounts.perm {fs gs : List Fault} (h : fs.Perm gs) : Amounts key dh dw fs gs :=
  ⟨fun _ _ _ => xorAll_perm (h.map _), xorAll_perm (h.map _)⟩

theorem Amounts.flatMap {α : Type} {l : List α} {f g : α → List Fault} (h : ∀ a ∈ l, Amounts key dh dw (f a) (g a)) :
    Amounts key dh dw (l.flatMap f) (l.flatMap g) := by
  induction l with
  | nil => exact Amounts.refl _
  | cons a l ih => exact (h a (by simp)).append (ih fun b hb => h b (by simp [hb]))

/-- Doubled faults cancel. -/
theorem Amounts.double (fs : List Fault) : Amounts key dh dw (fs ++ fs) [] :=
  ⟨fun t p _ => by rw [reading_append, Bool.xor_self]; rfl, by rw [readoutFlipped_append, Bool.xor_self]; rfl⟩

theorem Keeps.like {v : Bool} {n : Nat} {fs gs : List Fault} {s : QState} (h : Keeps code key name dh dw v n fs s) (hg : ∀ f ∈ gs, Fault.time f < n)
    (ha : Amounts key dh dw fs gs) : Keeps code key name dh dw v n gs s := by
  obtain ⟨e0, h0, h0'⟩ := h.syn
  refine ⟨h.ne, hg, fun p hp => ?_, ⟨e0, h0, fun k p hk => ?_⟩, ?_, fun t ht k p hk => ?_⟩
  · rw [← ha.1 _ p hp]; exact h.check p hp
  · have hp := site_mem_iff.2 (List.mem_of_getElem? hk)
    rw [← ha.1 _ p hp, ← ha.1 _ p hp]; exact h0' k p hk
  · rw [← ha.2]; exact h.log
  · have hp := site_mem_iff.2 (List.mem_of_getElem? hk)
    rw [← ha.1 _ p hp]; exact h.mem t ht k p hk

/-! ### An operation with errors -/

theorem withErrors_noErrs (l : List Instr) : withErrors noErrs l = l := by
  induction l with
  | nil => rfl
  | cons i l ih =>
    rw [withErrors_cons, ih]
    have : errorsAfter noErrs i = [] := by
      unfold errorsAfter
      split <;> rfl
    rw [this, List.nil_append]

theorem faultsIn_noErrs (t : Int) (o : QOp) : faultsIn code key name dh dw t o noErrs = [] := by
  have h1 : faultsIn.dataFaults code key name dh dw t noErrs = [] := by
    unfold faultsIn.dataFaults
    rw [List.filterMap_eq_nil_iff]
    intro i _
    have : turnedBy code key i (noErrs (dataQ name i)) = false := by
      unfold turnedBy noErrs
      split <;> cases key <;> rfl
    rw [this]; rfl
  have h2 : faultsIn.measFaults key name dh dw t noErrs = [] := by
    unfold faultsIn.measFaults
    rw [List.filterMap_eq_nil_iff]
    intro i _
    rfl
  unfold faultsIn
  cases o <;> simp only [h1, h2, List.append_nil]

/-- A memory operation with errors in its circuit. -/
theorem Keeps.slipped (A : After cls q dh dw ops w) {o : QOp} (ho : MemoryOp o) (hpl : ∀ i ∈ added q o w, i.Plain) {v : Bool} {n n' : Nat}
    {fs : List Fault} {s s' : QState} {E : List Slip} (hn : ops.count .stabilize = n) (hn' : n' = if o = .stabilize then n + 1 else n)
    (hF : ∀ b, Mark.bit b ∈ wrongAfter E (added q o w) → b.reg = roundName q.lat.name ((n' : Int) - 1))
    (h : Keeps cls.code key q.lat.name dh dw v n fs s) (hR : Run sz (slipped E 0 (added q o w)) s s') :
    ∃ gs, Keeps cls.code key q.lat.name dh dw (v ^^ decide (o = flipGate key)) n' (fs ++ gs) s' ∧
      gs.Perm ((wrongAfter E (added q o w)).flatMap (markFaults cls.code key q.lat.name dh dw n')) := by
  obtain ⟨t, u, hRt, -, hpsi, hmem⟩ := run_slipped E (fun i hi => ⟨A.proper o i hi, hpl i hi⟩) h.ne hR
  have hK := h.op A ho hn (e := noErrs) (by rw [withErrors_noErrs]; exact hRt)
  rw [faultsIn_noErrs, List.append_nil, ← hn'] at hK
  obtain ⟨gs, hG, hp⟩ := hK.marks A.own.2.placed.odd hF
  refine ⟨gs, ?_, hp⟩
  have := hG.scale u
  simp only at this
  rw [← hpsi, ← hmem] at this
  exact this

end Qtc
