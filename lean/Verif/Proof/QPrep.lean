import Verif.Proof.QRead
/-!
Preparations and readouts of all data qubits as quantum operations.
-/
namespace Qtc
open Spec Function

variable {cls : QClass} {q : TQubit} {dh dw : Int} {ops : List QOp} {w : World} {sz : Str → Nat} {code : Code} {name : Str}

/-! ### Turning data qubits -/

/-- Hadamard gates. -/
def turns (l : List Qubit) : List Instr := l.map fun x => .gate1 .h x none

theorem turns_gates (l : List Qubit) : ∀ i ∈ turns l, i.IsGate := by
  intro i hi
  obtain ⟨x, -, rfl⟩ := List.mem_map.1 hi
  trivial

theorem turns_cons (x : Qubit) (l : List Qubit) : circOp (turns (x :: l)) = circOp (turns l) * opH x := circOp_cons _ _

theorem turns_comm {A : Op} {l : List Qubit} (h : ∀ x ∈ l, Commute A (opX x) ∧ Commute A (opZ x)) : Commute A (circOp (turns l)) := by
  induction l with
  | nil => exact Commute.one_right A
  | cons x l ih =>
    rw [turns_cons]
    exact (ih fun y hy => h y (by simp [hy])).mul_right (Commute.hadamard (h x (by simp)).1 (h x (by simp)).2)

theorem turns_letter {l : List Qubit} {x : Qubit} (h : x ∉ l) (a : Letter) : Commute (a.op x) (circOp (turns l)) :=
  turns_comm fun y hy => ⟨letter_comm (by rintro rfl; exact h hy) a .X, letter_comm (by rintro rfl; exact h hy) a .Z⟩

/-- The other letter. -/
def Spec.Letter.swap : Letter → Letter
  | .X => .Z
  | .Z => .X

theorem opH_letter (x : Qubit) (a : Letter) : opH x * a.op x = a.swap.op x * opH x := by
  cases a
  · exact opH_opX x
  · exact opH_opZ x

theorem turns_swap {l : List Qubit} (hn : l.Nodup) {x : Qubit} (h : x ∈ l) (a : Letter) :
    circOp (turns l) * a.op x = a.swap.op x * circOp (turns l) := by
  induction l with
  | nil => cases h
  | cons y l ih =>
    rw [List.nodup_cons] at hn
    rw [turns_cons]
    by_cases e : x = y
    · subst e
      rw [mul_assoc, opH_letter, ← mul_assoc, ← (turns_letter hn.1 a.swap).eq, mul_assoc]
    · have hx : x ∈ l := (List.mem_cons.1 h).resolve_left e
      have c : Commute (a.op x) (opH y) := Commute.hadamard (letter_comm e a .X) (letter_comm e a .Z)
      rw [mul_assoc, ← c.eq, ← mul_assoc, ih hn.2 hx, mul_assoc]

theorem turns_sq {l : List Qubit} (hn : l.Nodup) : circOp (turns l) * circOp (turns l) = 1 := by
  induction l with
  | nil => exact one_mul 1
  | cons x l ih =>
    rw [List.nodup_cons] at hn
    have c : Commute (opH x) (circOp (turns l)) := turns_comm fun y hy =>
      ⟨(Commute.hadamard (letter_comm (by rintro rfl; exact hn.1 hy) .X .X) (letter_comm (by rintro rfl; exact hn.1 hy) .X .Z)).symm,
       (Commute.hadamard (letter_comm (by rintro rfl; exact hn.1 hy) .Z .X) (letter_comm (by rintro rfl; exact hn.1 hy) .Z .Z)).symm⟩
    rw [turns_cons, mul_assoc, ← mul_assoc (opH x), c.eq, mul_assoc, opH_sq, mul_one, ih hn.2]

/-! ### The frames -/

/-- The data qubits turned in preparations and readouts. -/
def turned (code : Code) (name : Str) (dh dw : Int) : Key → List Qubit
  | .X => turnedX code name dh dw
  | .Z => turnedZ code name dh dw

/-- Their Hadamard gates. -/
noncomputable def frame (code : Code) (name : Str) (dh dw : Int) (key : Key) : Op := circOp (turns (turned code name dh dw key))

theorem dataQ_nodup {l : List Int} (hn : l.Nodup) (h : ∀ i ∈ l, 0 ≤ i) : (l.map (dataQ name)).Nodup :=
  List.Nodup.map_on (fun i hi j hj e => dataQ_inj (h i hi) (h j hj) e) hn

theorem all_nodup : (allQubits dh dw).Nodup := by
  unfold allQubits
  exact List.nodup_range.map fun _ _ h => by simpa using h

theorem all_nonneg : ∀ i ∈ allQubits dh dw, 0 ≤ i := fun _ hi => (mem_allQubits.1 hi).1

theorem dataQs_nodup : (dataQs name dh dw).Nodup := dataQ_nodup all_nodup all_nonneg

theorem turned_nodup (key : Key) : (turned code name dh dw key).Nodup := by
  cases key <;> cases code
  · exact dataQs_nodup
  · exact dataQ_nodup (all_nodup.filter _) fun i hi => all_nonneg i (List.mem_of_mem_filter hi)
  · exact List.nodup_nil
  · exact dataQ_nodup (all_nodup.filter _) fun i hi => all_nonneg i (List.mem_of_mem_filter hi)

theorem turned_sub (key : Key) : ∀ x ∈ turned code name dh dw key, ∃ i, x = dataQ name i := by
  intro x hx
  cases key <;> cases code
  all_goals first
    | (obtain ⟨i, -, rfl⟩ := List.mem_map.1 hx; exact ⟨i, rfl⟩)
    | cases hx

theorem mem_filter_data {l : List Int} {f : Int → Bool} (hl : ∀ i ∈ l, 0 ≤ i) {i : Int} (hi : i ∈ l) :
    dataQ name i ∈ (l.filter f).map (dataQ name) ↔ f i = true := by
  constructor
  · intro h
    obtain ⟨j, hj, e⟩ := List.mem_map.1 h
    have := dataQ_inj (hl j (List.mem_of_mem_filter hj)) (hl i hi) e
    subst this
    exact (List.mem_filter.1 hj).2
  · intro h
    exact List.mem_map_of_mem (List.mem_filter.2 ⟨hi, h⟩)

/-- The frame turns the letter of a data qubit into Z. -/
theorem frame_fop (key : Key) {i : Int} (hi : i ∈ allQubits dh dw) :
    frame code name dh dw key * fop code key name i = opZ (dataQ name i) * frame code name dh dw key := by
  unfold frame
  have hin : dataQ name i ∈ turned code name dh dw key → kind code key i = .X → circOp (turns (turned code name dh dw key)) * fop code key name i =
      opZ (dataQ name i) * circOp (turns (turned code name dh dw key)) := by
    intro h e
    unfold fop
    rw [e]
    exact turns_swap (turned_nodup key) h .X
  have hout : dataQ name i ∉ turned code name dh dw key → kind code key i = .Z → circOp (turns (turned code name dh dw key)) * fop code key name i =
      opZ (dataQ name i) * circOp (turns (turned code name dh dw key)) := by
    intro h e
    unfold fop
    rw [e]
    exact (turns_letter h .Z).symm
  cases key <;> cases code
  · exact hin (List.mem_map_of_mem hi) rfl
  · have hm := mem_filter_data (name := name) (f := fun i => decide (i % 2 = 1)) all_nonneg hi
    by_cases h : i % 2 = 1
    · exact hin (hm.2 (by simpa using h)) (kind_xz_X.2 h)
    · exact hout (fun h' => h (by simpa using hm.1 h')) (kind_xz_X.1 (by omega))
  · exact hout (by simp [turned, turnedZ]) rfl
  · have hm := mem_filter_data (name := name) (f := fun i => decide (i % 2 = 0)) all_nonneg hi
    by_cases h : i % 2 = 0
    · exact hin (hm.2 (by simpa using h)) (kind_xz_Z.1 h)
    · exact hout (fun h' => h (by simpa using hm.1 h')) (kind_xz_Z.2 (by omega))

theorem frame_sq (key : Key) : frame code name dh dw key * frame code name dh dw key = 1 := turns_sq (turned_nodup key)

/-- The other way. -/
theorem fop_frame (key : Key) {i : Int} (hi : i ∈ allQubits dh dw) :
    fop code key name i * frame code name dh dw key = frame code name dh dw key * opZ (dataQ name i) := by
  have h := frame_fop (code := code) (name := name) key hi
  have h2 := frame_sq (code := code) (name := name) (dh := dh) (dw := dw) key
  calc fop code key name i * frame code name dh dw key
      = (frame code name dh dw key * frame code name dh dw key) * fop code key name i * frame code name dh dw key := by rw [h2, one_mul]
    _ = frame code name dh dw key * (frame code name dh dw key * fop code key name i) * frame code name dh dw key := by simp only [mul_assoc]
    _ = frame code name dh dw key * opZ (dataQ name i) * (frame code name dh dw key * frame code name dh dw key) := by rw [h]; simp only [mul_assoc]
    _ = _ := by rw [h2, mul_one]

theorem frame_comm_letter (key : Key) {x : Qubit} (h : ∀ i, dataQ name i ≠ x) (a : Letter) : Commute (a.op x) (frame code name dh dw key) := by
  refine turns_letter ?_ a
  intro hx
  obtain ⟨i, e⟩ := turned_sub key x hx
  exact h i e.symm

/-! ### Preparation -/

theorem clears_value {l : List Qubit} (hn : l.Nodup) {x : Qubit} (hx : x ∈ l) (o : Qubit → Bool) (ψ : Psi) :
    HasValue (opZ x) false (clears o l ψ) := by
  unfold HasValue
  rw [sg_false, one_smul, ← Module.End.mul_apply]
  congr 1
  rw [clears_perm (List.perm_cons_erase hx) hn, clears_cons, ← mul_assoc, clear_opP, ← mul_assoc, opP_projOf, mul_projOf (opZ_sq x), sg_false, one_smul]

/-- The end of a preparation. -/
def resetEnd : Code → List Instr
  | .xxzz => [.barrier]
  | .xzzx => []

/-- Instructions of the preparations. -/
def resetInstrs (code : Code) (name : Str) (dh dw : Int) (key : Key) : List Instr :=
  (dataQs name dh dw).map .reset ++ turns (turned code name dh dw key) ++ resetEnd code

/-- A preparation: all data qubits are reset, then some of them turned. -/
def Prepares (code : Code) (name : Str) (dh dw : Int) (key : Key) (s s' : QState) : Prop :=
  ∃ o, s'.psi = frame code name dh dw key (clears o (dataQs name dh dw) s.psi) ∧ s'.psi ≠ 0 ∧ s'.mem = s.mem

theorem run_reset (key : Key) (hp : ∀ i ∈ resetInstrs code name dh dw key, i.Proper) {s s' : QState} (h0 : s.psi ≠ 0) :
    Run sz (resetInstrs code name dh dw key) s s' ↔ Prepares code name dh dw key s s' := by
  have hg : ∀ i ∈ turns (turned code name dh dw key) ++ resetEnd code, i.IsGate := by
    intro i hi
    rcases List.mem_append.1 hi with hi | hi
    · exact turns_gates _ i hi
    · cases code
      · rw [show resetEnd .xxzz = [.barrier] from rfl, List.mem_singleton] at hi; subst hi; trivial
      · cases hi
  have hc : circOp (turns (turned code name dh dw key) ++ resetEnd code) = frame code name dh dw key := by
    rw [circOp_append]
    cases code
    · rw [show resetEnd .xxzz = [.barrier] from rfl, circOp_cons, circOp_nil, one_mul]; exact one_mul _
    · exact one_mul _
  unfold Prepares
  rw [run_iff hp h0]
  unfold resetInstrs
  rw [List.append_assoc]
  constructor
  · rintro ⟨A, hA, e, hne⟩
    obtain ⟨B, m1, C, h1, h2, rfl⟩ := Kraus.append.1 hA
    obtain ⟨⟨o, rfl⟩, rfl⟩ := (kraus_resets dataQs_nodup).1 h1
    obtain ⟨rfl, h3⟩ := (kraus_gates hg).1 h2
    refine ⟨o, ?_, hne, h3⟩
    rw [e, hc]; rfl
  · rintro ⟨o, e, hne, hm⟩
    refine ⟨frame code name dh dw key * clears o (dataQs name dh dw), ?_, e, hne⟩
    rw [hm]
    exact Kraus.comp ((kraus_resets dataQs_nodup).2 ⟨⟨o, rfl⟩, rfl⟩) ((kraus_gates hg).2 ⟨hc.symm, rfl⟩)

theorem Prepares.value {key : Key} {s s' : QState} (h : Prepares code name dh dw key s s') {i : Int} (hi : i ∈ allQubits dh dw) :
    HasValue (fop code key name i) false s'.psi := by
  obtain ⟨o, e, -, -⟩ := h
  rw [e]
  unfold HasValue
  rw [← Module.End.mul_apply, fop_frame key hi, Module.End.mul_apply,
    clears_value dataQs_nodup (List.mem_map_of_mem hi) o s.psi, map_smul]

theorem Prepares.string {key : Key} {s s' : QState} (h : Prepares code name dh dw key s s') {l : List Int} (hl : ∀ i ∈ l, i ∈ allQubits dh dw) :
    HasValue (fstr code key name l) false s'.psi := by
  induction l with
  | nil => exact hasValue_one _
  | cons i l ih =>
    rw [fstr_cons]
    exact (h.value (hl i (by simp))).mul (ih fun j hj => hl j (by simp [hj]))

theorem run_resetX (A : After cls q dh dw ops w) (h : cls ≠ .xzzx ∨ 1 < dh * dw) {s s' : QState} (h0 : s.psi ≠ 0) :
    Run sz (added q .resetX w) s s' ↔ Prepares cls.code q.lat.name dh dw .X s s' := by
  have hp := A.proper .resetX
  rw [Emits.added (o := .resetX) (A.own.2.placed.emits_resetX (h.symm.imp id fun h => by rw [A.code]; exact xzzx_code h)), A.code] at hp ⊢
  exact run_reset .X hp h0

theorem run_resetZ (A : After cls q dh dw ops w) {s s' : QState} (h0 : s.psi ≠ 0) :
    Run sz (added q .resetZ w) s s' ↔ Prepares cls.code q.lat.name dh dw .Z s s' := by
  have hp := A.proper .resetZ
  rw [Emits.added (o := .resetZ) A.own.2.placed.emits_resetZ, A.code] at hp ⊢
  exact run_reset .Z hp h0

/-! ### Readout of all data qubits -/

/-- A readout of all data qubits: the letters of the data qubits are measured, then some qubits turned. -/
def ReadsAll (code : Code) (name : Str) (dh dw : Int) (key : Key) (r : Str) (s s' : QState) : Prop :=
  ∃ m : Nat → Bool, s'.psi = frame code name dh dw key (((allQubits dh dw).map fun i => projOf (fop code key name i) (m i.toNat)).prod s.psi) ∧
    s'.psi ≠ 0 ∧ s'.mem = writeReg s.mem r (dh * dw).toNat m

theorem frame_projs (key : Key) (o : Qubit → Bool) {l : List Int} (hl : ∀ i ∈ l, i ∈ allQubits dh dw) :
    projs o (l.map (dataQ name)) * frame code name dh dw key =
      frame code name dh dw key * (l.map fun i => projOf (fop code key name i) (o (dataQ name i))).prod := by
  induction l with
  | nil => rw [List.map_nil, List.map_nil, List.prod_nil, mul_one]; exact one_mul _
  | cons i l ih =>
    have e : opP (o (dataQ name i)) (dataQ name i) * frame code name dh dw key =
        frame code name dh dw key * projOf (fop code key name i) (o (dataQ name i)) := by
      rw [opP_projOf]
      unfold projOf
      rw [smul_mul_assoc, mul_smul_comm, add_mul, mul_add, smul_mul_assoc, mul_smul_comm, frame_fop key (hl i (by simp)), one_mul, mul_one]
    rw [List.map_cons, projs_cons, List.map_cons, List.prod_cons, mul_assoc, ih fun j hj => hl j (by simp [hj]), ← mul_assoc, e, mul_assoc]

theorem writes_data (o : Qubit → Bool) (r : Str) (m : Mem) :
    writes o ((allQubits dh dw).map fun i => (dataQ name i, (⟨r, i.toNat⟩ : Clbit))) m =
      writeReg m r (dh * dw).toNat fun k => o (dataQ name k) := by
  have hn : (((allQubits dh dw).map fun i => (dataQ name i, (⟨r, i.toNat⟩ : Clbit))).map Prod.snd).Nodup := by
    rw [List.map_map]
    refine List.Nodup.map_on ?_ all_nodup
    intro i hi j hj e
    have := congrArg Clbit.idx e
    have h1 := all_nonneg i hi
    have h2 := all_nonneg j hj
    simp only [comp] at this
    omega
  funext b
  obtain ⟨t, k⟩ := b
  unfold writeReg
  by_cases h : t = r ∧ k < (dh * dw).toNat
  · obtain ⟨rfl, h2⟩ := h
    rw [if_pos ⟨rfl, h2⟩]
    refine writes_mem hn (q := dataQ name k) (List.mem_map.2 ⟨(k : Int), mem_allQubits.2 (by omega), ?_⟩)
    simp
  · rw [if_neg h]
    refine writes_other fun hb => h ?_
    rw [List.map_map] at hb
    obtain ⟨i, hi, e⟩ := List.mem_map.1 hb
    simp only [comp, Clbit.mk.injEq] at e
    rw [mem_allQubits] at hi
    exact ⟨e.1.symm, by omega⟩

theorem run_lattice (key : Key) {r : Str} (hp : ∀ i ∈ latticeInstrs (turned code name dh dw key) name dh dw r, i.Proper)
    {s s' : QState} (h0 : s.psi ≠ 0) :
    Run sz (latticeInstrs (turned code name dh dw key) name dh dw r) s s' ↔ ReadsAll code name dh dw key r s s' := by
  have hb : ∀ m (A : Op) m', Kraus sz [.barrier] m A m' ↔ A = 1 ∧ m' = m := by
    intro m A m'
    rw [kraus_gates (by intro i hi; rw [List.mem_singleton] at hi; subst hi; trivial)]
    rw [show circOp [.barrier] = 1 from one_mul _]
  have hl : (((allQubits dh dw).map fun i => (dataQ name i, (⟨r, i.toNat⟩ : Clbit))).map Prod.fst) = dataQs name dh dw := by
    rw [List.map_map]; rfl
  have hm : measureData name dh dw r = ((allQubits dh dw).map fun i => (dataQ name i, (⟨r, i.toNat⟩ : Clbit))).map fun p => .measure p.1 p.2 := by
    rw [List.map_map]; rfl
  have ho : ∀ (o : Qubit → Bool), projs o (dataQs name dh dw) * frame code name dh dw key = frame code name dh dw key *
      ((allQubits dh dw).map fun i => projOf (fop code key name i) (o (dataQ name (i.toNat : Nat)))).prod := by
    intro o
    rw [show dataQs name dh dw = (allQubits dh dw).map (dataQ name) from rfl, frame_projs key o fun i hi => hi]
    congr 2
  rw [run_iff hp h0]
  unfold latticeInstrs ReadsAll
  constructor
  · rintro ⟨A, hA, e, hne⟩
    obtain ⟨B, m1, C, g1, h1, rfl⟩ := Kraus.append.1 hA
    obtain ⟨D, m2, E, g2, h2, rfl⟩ := Kraus.append.1 g1
    obtain ⟨rfl, hm2⟩ := (kraus_gates (turns_gates _)).1 g2
    subst hm2
    rw [hm] at h2
    obtain ⟨o, rfl, rfl⟩ := (kraus_measures (by rw [hl]; exact dataQs_nodup)).1 h2
    obtain ⟨rfl, h3⟩ := (hb _ _ _).1 h1
    refine ⟨fun k => o (dataQ name k), ?_, hne, ?_⟩
    · rw [e, one_mul, hl]
      have := ho o
      unfold frame at this ⊢
      rw [this]; rfl
    · rw [h3, writes_data]
  · rintro ⟨m, e, hne, hmm⟩
    let o : Qubit → Bool := fun x => m x.idx
    have ho' := ho o
    have eo : ((allQubits dh dw).map fun i => projOf (fop code key name i) (o (dataQ name (i.toNat : Nat)))) =
        (allQubits dh dw).map fun i => projOf (fop code key name i) (m i.toNat) := by
      refine List.map_congr_left fun i _ => ?_
      simp only [o, dataQ, Int.toNat_natCast]
    rw [eo] at ho'
    refine ⟨frame code name dh dw key * ((allQubits dh dw).map fun i => projOf (fop code key name i) (m i.toNat)).prod, ?_, e, hne⟩
    rw [← ho']
    have k1 : Kraus sz (turns (turned code name dh dw key)) s.mem (frame code name dh dw key) s.mem :=
      (kraus_gates (turns_gates _)).2 ⟨rfl, rfl⟩
    have k2 : Kraus sz (measureData name dh dw r) s.mem (projs o (dataQs name dh dw)) s'.mem := by
      rw [hm, ← hl]
      refine (kraus_measures (by rw [hl]; exact dataQs_nodup)).2 ⟨o, rfl, ?_⟩
      rw [writes_data, hmm]
      rfl
    have := (k1.comp k2).comp ((hb _ _ _).2 ⟨rfl, rfl⟩)
    rw [one_mul] at this
    exact this

/-- The next register for a readout of all data qubits. -/
def nextLattice (q : TQubit) (w : World) : Str := latticeName q.lat.name ((w.heap q.lat.pref).numLatticeReadout.getD 0 + 1)

theorem run_latticeX (A : After cls q dh dw ops w) (h : cls ≠ .xzzx ∨ 1 < dh * dw) {s s' : QState} (h0 : s.psi ≠ 0) :
    Run sz (added q .latticeReadoutX w) s s' ↔ ReadsAll cls.code q.lat.name dh dw .X (nextLattice q w) s s' := by
  obtain ⟨W, O⟩ := A.own
  obtain ⟨a, ha, h1, hf⟩ := O.lattice
  have e : nextLattice q w = latticeName q.lat.name (a + 1) := by unfold nextLattice; rw [ha]; rfl
  have hadd : added q .latticeReadoutX w = latticeInstrs (turned cls.code q.lat.name dh dw .X) q.lat.name dh dw (nextLattice q w) := by
    refine added_eq ?_
    show (q.lat.latticeReadoutX w).2.circ.instrs = _
    rw [O.placed.latticeReadoutX_run (h.symm.imp id fun h => by rw [A.code]; exact xzzx_code h) ha (hf _ (by omega)), e, A.code]
    rfl
  have hp := A.proper .latticeReadoutX
  rw [hadd] at hp ⊢
  exact run_lattice .X hp h0

theorem run_latticeZ (A : After cls q dh dw ops w) {s s' : QState} (h0 : s.psi ≠ 0) :
    Run sz (added q .latticeReadoutZ w) s s' ↔ ReadsAll cls.code q.lat.name dh dw .Z (nextLattice q w) s s' := by
  obtain ⟨W, O⟩ := A.own
  obtain ⟨a, ha, h1, hf⟩ := O.lattice
  have e : nextLattice q w = latticeName q.lat.name (a + 1) := by unfold nextLattice; rw [ha]; rfl
  have hadd : added q .latticeReadoutZ w = latticeInstrs (turned cls.code q.lat.name dh dw .Z) q.lat.name dh dw (nextLattice q w) := by
    refine added_eq ?_
    show (q.lat.latticeReadoutZ w).2.circ.instrs = _
    rw [O.placed.latticeReadoutZ_run ha (hf _ (by omega)), e, A.code]
    rfl
  have hp := A.proper .latticeReadoutZ
  rw [hadd] at hp ⊢
  exact run_lattice .Z hp h0

end Qtc
