import Verif.Proof.Lattice
import Mathlib.Tactic.Ring
/-!
Closed forms of the operations: the instructions each of them appends on a lattice that sits on the circuit.
-/
namespace Qtc
open Spec

variable {L : Lattice} {dh dw : Int} {w : World}

/-! ### Worlds -/

/-- The world after writing a dictionary. -/
def World.setP (w : World) (r : Nat) (p : Params) : World := { w with heap := fun k => if k = r then p else w.heap k }

/-- The world after adding a classical register. -/
def World.addC (w : World) (r : Reg) : World := { w with circ := { w.circ with cregs := w.circ.cregs ++ [r] } }

@[simp] theorem World.setP_circ (w : World) (r : Nat) (p : Params) : (w.setP r p).circ = w.circ := rfl
@[simp] theorem World.setP_heap_self (w : World) (r : Nat) (p : Params) : (w.setP r p).heap r = p := if_pos rfl
theorem World.setP_heap_ne (w : World) {r k : Nat} (p : Params) (h : k ≠ r) : (w.setP r p).heap k = w.heap k := if_neg h
@[simp] theorem World.addC_heap (w : World) (r : Reg) : (w.addC r).heap = w.heap := rfl
@[simp] theorem World.addC_qregs (w : World) (r : Reg) : (w.addC r).circ.qregs = w.circ.qregs := rfl
@[simp] theorem World.addC_cregs (w : World) (r : Reg) : (w.addC r).circ.cregs = w.circ.cregs ++ [r] := rfl
@[simp] theorem World.addC_instrs (w : World) (r : Reg) : (w.addC r).circ.instrs = w.circ.instrs := rfl
@[simp] theorem World.addC_next (w : World) (r : Reg) : (w.addC r).next = w.next := rfl
@[simp] theorem World.setP_next (w : World) (r : Nat) (p : Params) : (w.setP r p).next = w.next := rfl

theorem addCreg_ok {r : Reg} (h : r.name ∉ w.circ.names) : addCreg r w = (.ok (), w.addC r) := by
  unfold addCreg
  rw [if_neg (by simpa using h)]
  rfl

theorem addCreg_taken {r : Reg} (h : r.name ∈ w.circ.names) : addCreg r w = (.error .nameTaken, w) := by
  unfold addCreg
  rw [if_pos (by simpa using h)]

theorem Placed.emit (P : Placed L dh dw w) (is : List Instr) : Placed L dh dw (w.emit is) := ⟨P.eq, P.odd, P.qregs, P.d, P.nd, P.ns⟩

theorem Placed.addC (P : Placed L dh dw w) (r : Reg) : Placed L dh dw (w.addC r) := ⟨P.eq, P.odd, P.qregs, P.d, P.nd, P.ns⟩

/-- The dictionaries agree except for the counters. -/
def SameDims (p p' : Params) : Prop := p'.d = p.d ∧ p'.numData = p.numData ∧ p'.numSyn = p.numSyn

theorem Placed.setP (P : Placed L dh dw w) {p : Params} (h : SameDims (w.heap L.pref) p) : Placed L dh dw (w.setP L.pref p) := by
  obtain ⟨h1, h2, h3⟩ := h
  refine ⟨P.eq, P.odd, P.qregs, ?_, ?_, ?_⟩
  · rw [World.setP_heap_self, h1]; exact P.d
  · rw [World.setP_heap_self, h2]; exact P.nd
  · rw [World.setP_heap_self, h3]; exact P.ns

theorem emits_params : Emits w L.params (w.heap L.pref) [] := by
  intro js
  rw [List.append_nil]
  rfl

theorem Placed.numData (P : Placed L dh dw w) : Emits w L.numData (dh * dw) [] :=
  emits_params.bind0 (Emits.lift (by rw [P.nd]; rfl))

theorem Placed.numSyn (P : Placed L dh dw w) : Emits w L.numSyn (numSynX dh dw, numSynZ dh dw) [] :=
  emits_params.bind0 (Emits.lift (by rw [P.ns]; rfl))

theorem dim_one {p : Params} {a b : Int} {rest : List Num} (h : p.d = some (.tup (.int a :: .int b :: rest))) : p.dim 1 = .ok b := by
  unfold Params.dim
  rw [h]
  rfl

theorem dim_zero {p : Params} {a b : Int} {rest : List Num} (h : p.d = some (.tup (.int a :: .int b :: rest))) : p.dim 0 = .ok a := by
  unfold Params.dim
  rw [h]
  rfl

theorem Placed.width (P : Placed L dh dw w) : Emits w L.width dw [] := by
  obtain ⟨rest, h⟩ := P.d
  exact emits_params.bind0 (Emits.lift (dim_one h))

theorem pyRange_row (n : Int) : pyRange n = rowQubits n 0 := by
  unfold pyRange rowQubits
  refine List.map_congr_left fun k _ => ?_
  simp

theorem pyRangeStep_col (H : OddPos dh dw) : pyRangeStep (dh * dw) dw = colQubits dh dw 0 := by
  unfold OddPos at H
  unfold pyRangeStep colQubits
  have e : (dh * dw + dw - 1).fdiv dw = dh := by
    rw [fdiv_pos_eq _ (by omega)]
    have : dh * dw + dw - 1 = (dw - 1) + dw * dh := by ring
    rw [this, Int.add_mul_ediv_left _ _ (by omega), Int.ediv_eq_zero_of_lt (by omega) (by omega)]
    omega
  rw [e]
  refine List.map_congr_left fun k _ => ?_
  simp

theorem Placed.columnIdx (P : Placed L dh dw w) : Emits w L.columnIdx (colQubits dh dw 0) [] := by
  unfold Lattice.columnIdx
  refine P.numData.bind0 (P.width.bind0 ?_)
  have := P.odd
  rw [if_neg (by unfold OddPos at this; omega), pyRangeStep_col this]
  exact Emits.pure _

theorem Placed.rowIdx (P : Placed L dh dw w) : Emits w L.rowIdx (rowQubits dw 0) [] := by
  unfold Lattice.rowIdx
  refine P.width.bind0 ?_
  rw [pyRange_row]
  exact Emits.pure _

theorem col_range (H : OddPos dh dw) : ∀ i ∈ colQubits dh dw 0, 0 ≤ i ∧ i < dh * dw := by
  intro i hi
  unfold colQubits at hi
  obtain ⟨r, hr, rfl⟩ := List.mem_map.1 hi
  rw [List.mem_range] at hr
  unfold OddPos at H
  exact mem_allQubits.1 (site_mem (dh := dh) (dw := dw) (r := r) (c := 0) (by omega))

theorem row_range (H : OddPos dh dw) : ∀ i ∈ rowQubits dw 0, 0 ≤ i ∧ i < dh * dw := by
  rw [← pyRange_row]
  exact top_row_range H

theorem Placed.size_pos (P : Placed L dh dw w) : 0 < dh * dw := by
  have := P.odd
  unfold OddPos at this
  exact Int.mul_pos (by omega) (by omega)

theorem Placed.dataAt (P : Placed L dh dw w) {i : Int} (h : 0 ≤ i ∧ i < dh * dw) : L.data.at i = .ok (dataQ L.name i) := by
  rw [P.code_data]
  exact Reg.at_ok h.1 (by show i < ((dh * dw).toNat : Int); omega)

theorem Placed.emits_dataAt (P : Placed L dh dw w) {i : Int} (h : 0 ≤ i ∧ i < dh * dw) :
    Emits w (L.dataAt i) (dataQ L.name i) [] := Emits.lift (P.dataAt h)

/-! ### Data qubits -/

/-- All data qubits. -/
def dataQs (name : Str) (dh dw : Int) : List Qubit := (allQubits dh dw).map (dataQ name)

/-- Data qubits with odd index. -/
def dataOdd (name : Str) (dh dw : Int) : List Qubit := ((allQubits dh dw).filter fun i => i % 2 = 1).map (dataQ name)

/-- Data qubits with even index. -/
def dataEven (name : Str) (dh dw : Int) : List Qubit := ((allQubits dh dw).filter fun i => i % 2 = 0).map (dataQ name)

theorem Placed.data_qubits (P : Placed L dh dw w) : L.data.qubits = dataQs L.name dh dw := by
  rw [P.code_data]
  unfold Reg.qubits dataQs allQubits
  rw [List.map_map]
  rfl

theorem everySecond_range (f : Nat → Qubit) (n k : Nat) : everySecond ((List.range' k n).map f) =
    ((List.range' k n).filter fun i => (i + k) % 2 = 0).map f := by
  induction n using Nat.strong_induction_on generalizing k with
  | _ n ih =>
    match n with
    | 0 => rfl
    | 1 =>
      simp [List.range'_succ, everySecond, show (k + k) % 2 = 0 by omega]
    | n + 2 =>
      have := ih n (by omega) (k + 2)
      rw [List.range'_succ, List.range'_succ]
      simp only [List.map_cons, everySecond]
      rw [List.filter_cons_of_pos (by simp; omega), List.filter_cons_of_neg (by simp; omega), List.map_cons]
      congr 1
      refine this.trans ?_
      congr 1
      refine List.filter_congr fun i _ => ?_
      rw [decide_eq_decide]
      omega

theorem everySecond_even (name : Str) : everySecond (dataQs name dh dw) = dataEven name dh dw := by
  unfold dataQs dataEven allQubits
  rw [List.map_map, List.range_eq_range', everySecond_range, List.filter_map, List.map_map]
  congr 1
  refine List.filter_congr fun i _ => ?_
  simp only [Function.comp, Int.ofNat_eq_natCast]
  rw [decide_eq_decide]
  omega

theorem everySecond_odd (name : Str) (H : OddPos dh dw) : everySecond ((dataQs name dh dw).drop 1) = dataOdd name dh dw := by
  unfold dataQs dataOdd allQubits
  rw [List.map_map, List.range_eq_range', ← List.map_drop, List.drop_range', everySecond_range, List.filter_map, List.map_map]
  have h0 : 0 < dh * dw := by
    unfold OddPos at H
    exact Int.mul_pos (by omega) (by omega)
  obtain ⟨n, hn⟩ : ∃ n, (dh * dw).toNat = n + 1 := ⟨(dh * dw).toNat - 1, by omega⟩
  rw [hn, List.range'_succ, List.filter_cons_of_neg (by simp)]
  simp only [Nat.add_sub_cancel, Nat.zero_add, Nat.mul_one]
  congr 1
  refine List.filter_congr fun i _ => ?_
  simp only [Function.comp, Int.ofNat_eq_natCast]
  rw [decide_eq_decide]
  omega

theorem mem_dataQs (P : Placed L dh dw w) : ∀ q ∈ dataQs L.name dh dw, q ∈ w.circ.qubits := by
  intro q hq
  obtain ⟨i, hi, rfl⟩ := List.mem_map.1 hq
  rw [mem_allQubits] at hi
  exact P.dataQ_mem hi.1 hi.2

theorem mem_dataOdd (P : Placed L dh dw w) : ∀ q ∈ dataOdd L.name dh dw, q ∈ w.circ.qubits := by
  intro q hq
  obtain ⟨i, hi, rfl⟩ := List.mem_map.1 hq
  exact mem_dataQs P _ (List.mem_map_of_mem (List.mem_of_mem_filter hi))

theorem mem_dataEven (P : Placed L dh dw w) : ∀ q ∈ dataEven L.name dh dw, q ∈ w.circ.qubits := by
  intro q hq
  obtain ⟨i, hi, rfl⟩ := List.mem_map.1 hq
  exact mem_dataQs P _ (List.mem_map_of_mem (List.mem_of_mem_filter hi))

theorem dataQs_ne_nil (P : Placed L dh dw w) : dataQs L.name dh dw ≠ [] := by
  have := P.size_pos
  exact List.ne_nil_of_mem (List.mem_map_of_mem (mem_allQubits.2 ⟨le_refl 0, this⟩))

theorem dataEven_ne_nil (P : Placed L dh dw w) : dataEven L.name dh dw ≠ [] := by
  have := P.size_pos
  exact List.ne_nil_of_mem (List.mem_map_of_mem (List.mem_filter.2 ⟨mem_allQubits.2 ⟨le_refl 0, this⟩, by decide⟩))

theorem dataOdd_ne_nil (h : 1 < dh * dw) : dataOdd L.name dh dw ≠ [] := by
  exact List.ne_nil_of_mem (List.mem_map_of_mem (List.mem_filter.2 ⟨mem_allQubits.2 ⟨by omega, h⟩, by decide⟩))

/-! ### Preparations and logical gates -/

/-- The data qubits turned by a Hadamard at the start of `reset_x` and of the X lattice readout. -/
def turnedX (code : Code) (name : Str) (dh dw : Int) : List Qubit :=
  match code with
  | .xxzz => dataQs name dh dw
  | .xzzx => dataOdd name dh dw

/-- The data qubits turned by a Hadamard in `reset_z` and in the Z lattice readout. -/
def turnedZ (code : Code) (name : Str) (dh dw : Int) : List Qubit :=
  match code with
  | .xxzz => []
  | .xzzx => dataEven name dh dw

/-- Instructions of `reset_x`. -/
def resetXInstrs (code : Code) (name : Str) (dh dw : Int) : List Instr :=
  (dataQs name dh dw).map .reset ++ (turnedX code name dh dw).map (fun q => .gate1 .h q none) ++
    (match code with
    | .xxzz => [.barrier]
    | .xzzx => [])

/-- Instructions of `reset_z`. -/
def resetZInstrs (code : Code) (name : Str) (dh dw : Int) : List Instr :=
  (dataQs name dh dw).map .reset ++ (turnedZ code name dh dw).map (fun q => .gate1 .h q none) ++
    (match code with
    | .xxzz => [.barrier]
    | .xzzx => [])

theorem Placed.emits_resetX (P : Placed L dh dw w) (h : 1 < dh * dw ∨ L.code = .xxzz) :
    Emits w L.resetX () (resetXInstrs L.code L.name dh dw) := by
  unfold Lattice.resetX resetXInstrs turnedX
  rw [P.data_qubits]
  cases hc : L.code
  · simp only [List.append_assoc]
    exact (emits_reset (mem_dataQs P)).bind ((emits_gate1 (dataQs_ne_nil P) (mem_dataQs P)).bind Emits.barrier)
  · simp only [List.append_nil]
    rw [everySecond_odd _ P.odd]
    refine (emits_reset (mem_dataQs P)).bind (emits_gate1 (dataOdd_ne_nil ?_) (mem_dataOdd P))
    rcases h with h | h
    · exact h
    · rw [hc] at h; cases h

theorem Placed.emits_resetZ (P : Placed L dh dw w) : Emits w L.resetZ () (resetZInstrs L.code L.name dh dw) := by
  unfold Lattice.resetZ resetZInstrs turnedZ
  rw [P.data_qubits]
  cases hc : L.code
  · simp only [List.append_assoc]
    exact (emits_reset (mem_dataQs P)).bind Emits.barrier
  · simp only [List.append_nil]
    rw [everySecond_even]
    exact (emits_reset (mem_dataQs P)).bind (emits_gate1 (dataEven_ne_nil P) (mem_dataEven P))

/-- Instructions of a logical gate. -/
def logicalInstrs (g : Int → G1) (name : Str) (c : Option (Str × Int)) (is : List Int) : List Instr :=
  is.map (fun i => .gate1 (g i) (dataQ name i) c) ++ [.barrier]

theorem Placed.emits_x (P : Placed L dh dw w) : Emits w L.x () (logicalInstrs L.code.gateX L.name none (colQubits dh dw 0)) := by
  unfold Lattice.x logicalInstrs
  refine P.columnIdx.bind0 (Emits.bind (a := ()) ?_ Emits.barrier)
  rw [← flatMap_single]
  refine Emits.forEach fun i hi => ?_
  have hr := col_range P.odd i hi
  exact (P.emits_dataAt hr).bind0 (emits_gate1_one (P.dataQ_mem hr.1 hr.2))

theorem Placed.emits_z (P : Placed L dh dw w) : Emits w L.z () (logicalInstrs L.code.gateZ L.name none (rowQubits dw 0)) := by
  unfold Lattice.z logicalInstrs
  refine P.rowIdx.bind0 (Emits.bind (a := ()) ?_ Emits.barrier)
  rw [← flatMap_single]
  refine Emits.forEach fun i hi => ?_
  have hr := row_range P.odd i hi
  exact (P.emits_dataAt hr).bind0 (emits_gate1_one (P.dataQ_mem hr.1 hr.2))

theorem Placed.emits_xCIf (P : Placed L dh dw w) (c : Str) {v : Int} (hv : 0 ≤ v) :
    Emits w (L.xCIf c v) () (logicalInstrs L.code.gateX L.name (some (c, v)) (colQubits dh dw 0)) := by
  unfold Lattice.xCIf logicalInstrs
  refine P.columnIdx.bind0 (Emits.bind (a := ()) ?_ Emits.barrier)
  rw [← flatMap_single]
  refine Emits.forEach fun i hi => ?_
  have hr := col_range P.odd i hi
  exact (P.emits_dataAt hr).bind0 (emits_gate1If hv (P.dataQ_mem hr.1 hr.2))

theorem Placed.emits_zCIf (P : Placed L dh dw w) (c : Str) {v : Int} (hv : 0 ≤ v) :
    Emits w (L.zCIf c v) () (logicalInstrs L.code.gateZ L.name (some (c, v)) (rowQubits dw 0)) := by
  unfold Lattice.zCIf logicalInstrs
  refine P.rowIdx.bind0 (Emits.bind (a := ()) ?_ Emits.barrier)
  rw [← flatMap_single]
  refine Emits.forEach fun i hi => ?_
  have hr := row_range P.odd i hi
  exact (P.emits_dataAt hr).bind0 (emits_gate1If hv (P.dataQ_mem hr.1 hr.2))

/-! ### Logical readout -/

/-- The gate between ancilla `a` and data qubits that copies a Pauli X parity to the ancilla (between Hadamards), or a Z
parity. -/
def cxFrom (a : Qubit) (qs : List Qubit) : List Instr := qs.map fun q => .gate2 .cx a q

/-- See `cxFrom`. -/
def cxTo (a : Qubit) (qs : List Qubit) : List Instr := qs.map fun q => .gate2 .cx q a

/-- Instructions of `_readout_x_into_ancilla`. -/
def intoAncillaX (code : Code) (name : Str) (dh dw : Int) : List Instr :=
  match code with
  | .xxzz => [.reset (ancQ name), .gate1 .h (ancQ name) none] ++
      cxFrom (ancQ name) ((colQubits dh dw 0).map (dataQ name)) ++ [.gate1 .h (ancQ name) none]
  | .xzzx => [.reset (ancQ name), .gate1 .h (ancQ name) none] ++
      cxFrom (ancQ name) (((colQubits dh dw 0).filter fun i => i % 2 = 1).map (dataQ name)) ++
      [.gate1 .h (ancQ name) none] ++ cxTo (ancQ name) (((colQubits dh dw 0).filter fun i => i % 2 = 0).map (dataQ name))

/-- Instructions of `_readout_z_into_ancilla`. -/
def intoAncillaZ (code : Code) (name : Str) (_dh dw : Int) : List Instr :=
  match code with
  | .xxzz => [.reset (ancQ name)] ++ cxTo (ancQ name) ((rowQubits dw 0).map (dataQ name))
  | .xzzx => [.reset (ancQ name), .gate1 .h (ancQ name) none] ++
      cxFrom (ancQ name) (((rowQubits dw 0).filter fun i => i % 2 = 0).map (dataQ name)) ++
      [.gate1 .h (ancQ name) none] ++ cxTo (ancQ name) (((rowQubits dw 0).filter fun i => i % 2 = 1).map (dataQ name))

theorem Placed.anc_qubits (P : Placed L dh dw w) : L.ancilla.qubits = [ancQ L.name] := by
  rw [P.code_anc]
  rfl

theorem Placed.atList (P : Placed L dh dw w) {l : List Int} (hne : l ≠ []) (h : ∀ i ∈ l, 0 ≤ i ∧ i < dh * dw) :
    L.data.atList l = .ok (l.map (dataQ L.name)) := by
  unfold Reg.atList
  rw [if_neg (by simpa using hne), if_pos]
  · clear hne
    induction l with
    | nil => rfl
    | cons i l ih =>
      rw [List.mapM_cons, P.dataAt (h i (by simp)), ih fun j hj => h j (by simp [hj])]
      rfl
  · rw [List.all_eq_true]
    intro i hi
    have := h i hi
    rw [P.code_data]
    simp only [decide_eq_true_eq]
    omega

theorem Placed.data_ne_anc {l : List Int} : ancQ L.name ∉ l.map (dataQ L.name) := by
  intro h
  obtain ⟨j, -, e⟩ := List.mem_map.1 h
  exact dataQ_ne_anc _ _ e

theorem filter_odd_congr (l : List Int) : (l.filter fun i => decide (i.fmod 2 = 1)) = l.filter fun i => decide (i % 2 = 1) := by
  refine List.filter_congr fun i _ => ?_
  rw [fmod_pos_eq _ (by decide)]

theorem filter_even_congr (l : List Int) : (l.filter fun i => decide (i.fmod 2 = 0)) = l.filter fun i => decide (i % 2 = 0) := by
  refine List.filter_congr fun i _ => ?_
  rw [fmod_pos_eq _ (by decide)]

theorem Placed.mapQ_mem (P : Placed L dh dw w) {l : List Int} (h : ∀ i ∈ l, 0 ≤ i ∧ i < dh * dw) :
    ∀ q ∈ l.map (dataQ L.name), q ∈ w.circ.qubits := by
  intro q hq
  obtain ⟨i, hi, rfl⟩ := List.mem_map.1 hq
  exact P.dataQ_mem (h i hi).1 (h i hi).2

theorem Placed.emits_cxFrom (P : Placed L dh dw w) {l : List Int} (hne : l ≠ []) (h : ∀ i ∈ l, 0 ≤ i ∧ i < dh * dw) :
    Emits w (gate2 .cx [ancQ L.name] (l.map (dataQ L.name))) () (cxFrom (ancQ L.name) (l.map (dataQ L.name))) :=
  emits_gate2_left (by simpa using hne) P.ancQ_mem (P.mapQ_mem h) Placed.data_ne_anc

theorem Placed.emits_cxTo (P : Placed L dh dw w) {l : List Int} (hne : l ≠ []) (h : ∀ i ∈ l, 0 ≤ i ∧ i < dh * dw) :
    Emits w (gate2 .cx (l.map (dataQ L.name)) [ancQ L.name]) () (cxTo (ancQ L.name) (l.map (dataQ L.name))) :=
  emits_gate2_right (by simpa using hne) P.ancQ_mem (P.mapQ_mem h) Placed.data_ne_anc

theorem col_even_ne (H : OddPos dh dw) : ((colQubits dh dw 0).filter fun i => decide (i % 2 = 0)) ≠ [] := by
  unfold OddPos at H
  refine List.ne_nil_of_mem (a := 0) (List.mem_filter.2 ⟨?_, by decide⟩)
  unfold colQubits
  refine List.mem_map.2 ⟨0, List.mem_range.2 (by omega), ?_⟩
  simp

theorem col_odd_ne (H : OddPos dh dw) (h : 1 < dh) : ((colQubits dh dw 0).filter fun i => decide (i % 2 = 1)) ≠ [] := by
  unfold OddPos at H
  refine List.ne_nil_of_mem (a := dw) (List.mem_filter.2 ⟨?_, by simp; omega⟩)
  unfold colQubits
  refine List.mem_map.2 ⟨1, List.mem_range.2 (by omega), ?_⟩
  simp

theorem row_even_ne (H : OddPos dh dw) : ((rowQubits dw 0).filter fun i => decide (i % 2 = 0)) ≠ [] := by
  unfold OddPos at H
  refine List.ne_nil_of_mem (a := 0) (List.mem_filter.2 ⟨?_, by decide⟩)
  unfold rowQubits
  refine List.mem_map.2 ⟨0, List.mem_range.2 (by omega), ?_⟩
  simp

theorem row_odd_ne (H : OddPos dh dw) (h : 1 < dw) : ((rowQubits dw 0).filter fun i => decide (i % 2 = 1)) ≠ [] := by
  unfold OddPos at H
  refine List.ne_nil_of_mem (a := 1) (List.mem_filter.2 ⟨?_, by decide⟩)
  unfold rowQubits
  refine List.mem_map.2 ⟨1, List.mem_range.2 (by omega), ?_⟩
  simp

theorem mem_filter_range {l : List Int} {f : Int → Bool} {n : Int} (h : ∀ i ∈ l, 0 ≤ i ∧ i < n) :
    ∀ i ∈ l.filter f, 0 ≤ i ∧ i < n := fun i hi => h i (List.mem_of_mem_filter hi)

theorem Placed.emits_readoutXIntoAncilla (P : Placed L dh dw w) (h : 1 < dh ∨ L.code = .xxzz) :
    Emits w L.readoutXIntoAncilla () (intoAncillaX L.code L.name dh dw) := by
  unfold Lattice.readoutXIntoAncilla intoAncillaX
  rw [P.anc_qubits]
  cases hc : L.code
  · simp only [List.append_assoc]
    refine Emits.congr ((emits_reset (by simpa using P.ancQ_mem)).bind ((emits_gate1_one P.ancQ_mem).bind
      (P.columnIdx.bind0 (Emits.bind (a := ()) (Emits.forEach (g := fun i => [.gate2 .cx (ancQ L.name) (dataQ L.name i)]) ?_)
        (emits_gate1_one P.ancQ_mem))))) ?_
    · intro i hi
      have hr := col_range P.odd i hi
      exact (P.emits_dataAt hr).bind0 (emits_gate2_one P.ancQ_mem (P.dataQ_mem hr.1 hr.2) (Ne.symm (dataQ_ne_anc _ _)))
    · rw [flatMap_single, cxFrom, List.map_map]
      rfl
  · simp only [List.append_assoc]
    simp only [filter_odd_congr, filter_even_congr]
    have hd : 1 < dh := by
      rcases h with h | h
      · exact h
      · rw [hc] at h; cases h
    exact (emits_reset (by simpa using P.ancQ_mem)).bind (P.columnIdx.bind0 ((emits_gate1_one P.ancQ_mem).bind
      ((Emits.lift (P.atList (col_odd_ne P.odd hd) (mem_filter_range (col_range P.odd)))).bind0
        ((P.emits_cxFrom (col_odd_ne P.odd hd) (mem_filter_range (col_range P.odd))).bind
          ((emits_gate1_one P.ancQ_mem).bind
            ((Emits.lift (P.atList (col_even_ne P.odd) (mem_filter_range (col_range P.odd)))).bind0
              (P.emits_cxTo (col_even_ne P.odd) (mem_filter_range (col_range P.odd)))))))))

theorem Placed.emits_readoutZIntoAncilla (P : Placed L dh dw w) (h : 1 < dw ∨ L.code = .xxzz) :
    Emits w L.readoutZIntoAncilla () (intoAncillaZ L.code L.name dh dw) := by
  unfold Lattice.readoutZIntoAncilla intoAncillaZ
  rw [P.anc_qubits]
  cases hc : L.code
  · simp only
    refine Emits.congr ((emits_reset (by simpa using P.ancQ_mem)).bind
      (P.rowIdx.bind0 (Emits.forEach (g := fun i => [.gate2 .cx (dataQ L.name i) (ancQ L.name)]) ?_))) ?_
    · intro i hi
      have hr := row_range P.odd i hi
      exact (P.emits_dataAt hr).bind0 (emits_gate2_one (P.dataQ_mem hr.1 hr.2) P.ancQ_mem (dataQ_ne_anc _ _))
    · rw [flatMap_single, cxTo, List.map_map]
      rfl
  · simp only [List.append_assoc]
    simp only [filter_odd_congr, filter_even_congr]
    have hd : 1 < dw := by
      rcases h with h | h
      · exact h
      · rw [hc] at h; cases h
    exact (emits_reset (by simpa using P.ancQ_mem)).bind (P.rowIdx.bind0 ((emits_gate1_one P.ancQ_mem).bind
      ((Emits.lift (P.atList (row_even_ne P.odd) (mem_filter_range (row_range P.odd)))).bind0
        ((P.emits_cxFrom (row_even_ne P.odd) (mem_filter_range (row_range P.odd))).bind
          ((emits_gate1_one P.ancQ_mem).bind
            ((Emits.lift (P.atList (row_odd_ne P.odd hd) (mem_filter_range (row_range P.odd)))).bind0
              (P.emits_cxTo (row_odd_ne P.odd hd) (mem_filter_range (row_range P.odd)))))))))

/-- The dictionary with another readout counter. -/
def Params.withReadout (p : Params) (k : Int) : Params := { p with numReadout := some k }

/-- The dictionary with another lattice readout counter. -/
def Params.withLattice (p : Params) (k : Int) : Params := { p with numLatticeReadout := some k }

/-- The dictionary with another round counter. -/
def Params.withT (p : Params) (k : Int) : Params := { p with T := some k }

theorem CM.bind_lift {σ α β : Type} {x : Py α} {f : α → CM σ β} {s : σ} {a : α} (h : x = .ok a) :
    (CM.lift x >>= f) s = f a s := by
  rw [CM.bind_run, CM.lift_run, h]

theorem newReg_ok {n : Int} (h : 0 ≤ n) (name : Str) : newReg n name = .ok ⟨name, n.toNat⟩ := if_neg (by omega)

theorem key_ok {α : Type} {v : Option α} {a : α} (h : v = some a) : key v = .ok a := by rw [h]; rfl

theorem getParams_run (r : Nat) (w : World) : getParams r w = (.ok (w.heap r), w) := rfl

theorem setParams_run (r : Nat) (p : Params) (w : World) : setParams r p w = (.ok (), w.setP r p) := rfl

theorem readoutReg_run {k : Int} (hk : (w.heap L.pref).numReadout = some k)
    (hf : readoutName L.name (k + 1) ∉ w.circ.names) :
    L.readoutReg none w = (.ok ⟨readoutName L.name (k + 1), 1⟩,
      (w.setP L.pref ((w.heap L.pref).withReadout (k + 1))).addC ⟨readoutName L.name (k + 1), 1⟩) := by
  unfold Lattice.readoutReg
  simp only
  rw [CM.bind_ok (x := L.params) (a := w.heap L.pref) (s' := w) rfl, CM.bind_lift (key_ok hk),
    CM.bind_ok (setParams_run _ _ w), CM.bind_lift (newReg_ok (by decide) _), CM.bind_ok (addCreg_ok (show _ from hf))]
  rfl

theorem latticeReg_run {k : Int} (P : Placed L dh dw w) (hk : (w.heap L.pref).numLatticeReadout = some k)
    (hf : latticeName L.name (k + 1) ∉ w.circ.names) :
    L.latticeReg w = (.ok ⟨latticeName L.name (k + 1), (dh * dw).toNat⟩,
      (w.setP L.pref ((w.heap L.pref).withLattice (k + 1))).addC
        ⟨latticeName L.name (k + 1), (dh * dw).toNat⟩) := by
  unfold Lattice.latticeReg
  have h0 := P.size_pos
  rw [CM.bind_ok (x := L.params) (a := w.heap L.pref) (s' := w) rfl, CM.bind_lift (key_ok hk),
    CM.bind_ok (setParams_run _ _ w), CM.bind_lift (key_ok P.nd), CM.bind_lift (newReg_ok (by omega) _),
    CM.bind_ok (addCreg_ok (show _ from hf))]
  rfl

/-- Bits of a register of the circuit. -/
theorem mem_clbits_of_reg {r : Reg} {c : Clbit} (hr : r ∈ w.circ.cregs) (hc : c ∈ r.clbits) : c ∈ w.circ.clbits :=
  List.mem_flatMap.2 ⟨r, hr, hc⟩

/-- The readout into a register that is in the circuit. -/
def readInstrs (into : List Instr) (name : Str) (r : Reg) : List Instr :=
  into ++ r.clbits.map (fun c => .measure (ancQ name) c) ++ [.barrier]

theorem Placed.emits_read (P : Placed L dh dw w) {r : Reg} (hr : r ∈ w.circ.cregs) (hs : 0 < r.size) {x : WM Unit}
    {into : List Instr} (hx : Emits w x () into) :
    Emits w (do x; measure L.ancilla.qubits r.clbits; barrier) () (readInstrs into L.name r) := by
  unfold readInstrs
  rw [P.anc_qubits, List.append_assoc]
  refine hx.bind ((emits_measure_one ?_ P.ancQ_mem fun c hc => mem_clbits_of_reg hr hc).bind Emits.barrier)
  exact List.ne_nil_of_mem (a := ⟨r.name, 0⟩) (Reg.mem_clbits.2 ⟨rfl, hs⟩)

/-- `readout_x()`. -/
theorem Placed.readoutX_run (P : Placed L dh dw w) (h : 1 < dh ∨ L.code = .xxzz) {k : Int}
    (hk : (w.heap L.pref).numReadout = some k) (hf : readoutName L.name (k + 1) ∉ w.circ.names) :
    L.readoutX none w = (.ok (), ((w.setP L.pref ((w.heap L.pref).withReadout (k + 1))).addC
      ⟨readoutName L.name (k + 1), 1⟩).emit
        (readInstrs (intoAncillaX L.code L.name dh dw) L.name ⟨readoutName L.name (k + 1), 1⟩)) := by
  unfold Lattice.readoutX
  rw [CM.bind_ok (readoutReg_run hk hf)]
  have P' := (P.setP (p := ((w.heap L.pref).withReadout (k + 1))) ⟨rfl, rfl, rfl⟩).addC
    ⟨readoutName L.name (k + 1), 1⟩
  exact (P'.emits_read (by simp) Nat.zero_lt_one (P'.emits_readoutXIntoAncilla h)).run

/-- `readout_z()`. -/
theorem Placed.readoutZ_run (P : Placed L dh dw w) (h : 1 < dw ∨ L.code = .xxzz) {k : Int}
    (hk : (w.heap L.pref).numReadout = some k) (hf : readoutName L.name (k + 1) ∉ w.circ.names) :
    L.readoutZ none w = (.ok (), ((w.setP L.pref ((w.heap L.pref).withReadout (k + 1))).addC
      ⟨readoutName L.name (k + 1), 1⟩).emit
        (readInstrs (intoAncillaZ L.code L.name dh dw) L.name ⟨readoutName L.name (k + 1), 1⟩)) := by
  unfold Lattice.readoutZ
  rw [CM.bind_ok (readoutReg_run hk hf)]
  have P' := (P.setP (p := ((w.heap L.pref).withReadout (k + 1))) ⟨rfl, rfl, rfl⟩).addC
    ⟨readoutName L.name (k + 1), 1⟩
  exact (P'.emits_read (by simp) Nat.zero_lt_one (P'.emits_readoutZIntoAncilla h)).run

theorem readoutReg_given {r : Reg} (hs : 0 < r.size) : Emits w (L.readoutReg (some r)) r [] := by
  obtain ⟨n, _ | k⟩ := r
  · simp at hs
  · exact Emits.pure _

/-- `readout_x(creg)`. -/
theorem Placed.emits_readoutX (P : Placed L dh dw w) (h : 1 < dh ∨ L.code = .xxzz) {r : Reg} (hr : r ∈ w.circ.cregs)
    (hs : 0 < r.size) : Emits w (L.readoutX (some r)) () (readInstrs (intoAncillaX L.code L.name dh dw) L.name r) :=
  (readoutReg_given hs).bind0 (P.emits_read hr hs (P.emits_readoutXIntoAncilla h))

/-- `readout_z(creg)`. -/
theorem Placed.emits_readoutZ (P : Placed L dh dw w) (h : 1 < dw ∨ L.code = .xxzz) {r : Reg} (hr : r ∈ w.circ.cregs)
    (hs : 0 < r.size) : Emits w (L.readoutZ (some r)) () (readInstrs (intoAncillaZ L.code L.name dh dw) L.name r) :=
  (readoutReg_given hs).bind0 (P.emits_read hr hs (P.emits_readoutZIntoAncilla h))

/-- Measurement of all data qubits into a register, the `i`-th into bit `i`. -/
def measureData (name : Str) (dh dw : Int) (creg : Str) : List Instr :=
  (allQubits dh dw).map fun i => .measure (dataQ name i) ⟨creg, i.toNat⟩

/-- The instructions of a lattice readout. -/
def latticeInstrs (turned : List Qubit) (name : Str) (dh dw : Int) (creg : Str) : List Instr :=
  turned.map (fun q => .gate1 .h q none) ++ measureData name dh dw creg ++ [.barrier]

theorem zip_measureData (name : Str) (dh dw : Int) (creg : Str) :
    ((dataQs name dh dw).zip (Reg.clbits ⟨creg, (dh * dw).toNat⟩)).map (fun p => Instr.measure p.1 p.2) =
      measureData name dh dw creg := by
  unfold dataQs Reg.clbits allQubits measureData allQubits
  rw [List.map_map, zip_map_map, List.map_map, List.map_map]
  rfl

theorem Placed.emits_measureData (P : Placed L dh dw w) {creg : Str} (hr : (⟨creg, (dh * dw).toNat⟩ : Reg) ∈ w.circ.cregs) :
    Emits w (measure L.data.qubits (Reg.clbits ⟨creg, (dh * dw).toNat⟩)) () (measureData L.name dh dw creg) := by
  rw [P.data_qubits, ← zip_measureData]
  refine emits_measure ?_ (mem_dataQs P) fun c hc => mem_clbits_of_reg hr hc
  simp [Reg.clbits, dataQs, allQubits]

theorem Placed.emits_turnX (P : Placed L dh dw w) (h : 1 < dh * dw ∨ L.code = .xxzz) :
    Emits w L.turnX () ((turnedX L.code L.name dh dw).map fun q => .gate1 .h q none) := by
  unfold Lattice.turnX turnedX
  rw [P.data_qubits]
  cases hc : L.code
  · exact emits_gate1 (dataQs_ne_nil P) (mem_dataQs P)
  · simp only
    rw [everySecond_odd _ P.odd]
    refine emits_gate1 (dataOdd_ne_nil ?_) (mem_dataOdd P)
    rcases h with h | h
    · exact h
    · rw [hc] at h; cases h

theorem Placed.emits_turnZ (P : Placed L dh dw w) :
    Emits w L.turnZ () ((turnedZ L.code L.name dh dw).map fun q => .gate1 .h q none) := by
  unfold Lattice.turnZ turnedZ
  rw [P.data_qubits]
  cases hc : L.code
  · exact Emits.pure ()
  · simp only
    rw [everySecond_even]
    exact emits_gate1 (dataEven_ne_nil P) (mem_dataEven P)

/-- `lattice_readout_x()`. -/
theorem Placed.latticeReadoutX_run (P : Placed L dh dw w) (h : 1 < dh * dw ∨ L.code = .xxzz) {k : Int}
    (hk : (w.heap L.pref).numLatticeReadout = some k) (hf : latticeName L.name (k + 1) ∉ w.circ.names) :
    L.latticeReadoutX w = (.ok (), ((w.setP L.pref ((w.heap L.pref).withLattice (k + 1))).addC
      ⟨latticeName L.name (k + 1), (dh * dw).toNat⟩).emit
        (latticeInstrs (turnedX L.code L.name dh dw) L.name dh dw (latticeName L.name (k + 1)))) := by
  unfold Lattice.latticeReadoutX
  rw [CM.bind_ok (latticeReg_run P hk hf)]
  have P' := (P.setP (p := ((w.heap L.pref).withLattice (k + 1))) ⟨rfl, rfl, rfl⟩).addC
    ⟨latticeName L.name (k + 1), (dh * dw).toNat⟩
  refine Emits.run ?_
  unfold latticeInstrs
  rw [List.append_assoc]
  exact (P'.emits_turnX h).bind ((P'.emits_measureData (by simp)).bind Emits.barrier)

/-- `lattice_readout_z()`. -/
theorem Placed.latticeReadoutZ_run (P : Placed L dh dw w) {k : Int}
    (hk : (w.heap L.pref).numLatticeReadout = some k) (hf : latticeName L.name (k + 1) ∉ w.circ.names) :
    L.latticeReadoutZ w = (.ok (), ((w.setP L.pref ((w.heap L.pref).withLattice (k + 1))).addC
      ⟨latticeName L.name (k + 1), (dh * dw).toNat⟩).emit
        (latticeInstrs (turnedZ L.code L.name dh dw) L.name dh dw (latticeName L.name (k + 1)))) := by
  unfold Lattice.latticeReadoutZ
  rw [CM.bind_ok (latticeReg_run P hk hf)]
  have P' := (P.setP (p := ((w.heap L.pref).withLattice (k + 1))) ⟨rfl, rfl, rfl⟩).addC
    ⟨latticeName L.name (k + 1), (dh * dw).toNat⟩
  refine Emits.run ?_
  unfold latticeInstrs
  rw [List.append_assoc]
  exact P'.emits_turnZ.bind ((P'.emits_measureData (by simp)).bind Emits.barrier)

/-! ### Stabilization -/

/-- The instructions of one round. -/
def stabInstrs (code : Code) (name : Str) (dh dw : Int) (creg : Str) : List Instr :=
  instrsChecks (xChecks code name dh dw ++ zChecks code name dh dw) ++
    measureSyn name (numSynX dh dw).toNat (numSynZ dh dw).toNat creg ++
    resetSyn name (numSynX dh dw).toNat (numSynZ dh dw).toNat ++ [.barrier]

theorem mzReg_qubits (name : Str) (n : Nat) : Reg.qubits ⟨name ++ "_mz".toList, n⟩ = (List.range n).map fun (k : Nat) => mzQ name k := rfl

theorem mxReg_qubits (name : Str) (n : Nat) : Reg.qubits ⟨name ++ "_mx".toList, n⟩ = (List.range n).map fun (k : Nat) => mxQ name k := rfl

theorem clbits_low (creg : Str) (nx nz : Nat) : (Reg.clbits ⟨creg, nx + nz⟩).take nz = (List.range nz).map fun k => ⟨creg, k⟩ := by
  unfold Reg.clbits
  rw [← List.map_take, List.take_range]
  simp

theorem clbits_high (creg : Str) (nx nz : Nat) : ((Reg.clbits ⟨creg, nx + nz⟩).take (nz + nx)).drop nz =
    (List.range nx).map fun k => ⟨creg, nz + k⟩ := by
  unfold Reg.clbits
  rw [List.take_of_length_le (by simp; omega), ← List.map_drop, Nat.add_comm nx nz, List.range_add,
    List.drop_left' (by simp), List.map_map]
  rfl

theorem zip_measures (l : List Nat) (f : Nat → Qubit) (g : Nat → Clbit) :
    ((l.map f).zip (l.map g)).map (fun p => Instr.measure p.1 p.2) = l.map fun k => .measure (f k) (g k) := by
  rw [zip_map_map, List.map_map]
  rfl

/-- `stabilize()`. -/
theorem Placed.stabilize_run {q : TQubit} (P : Placed q.lat dh dw w) {k : Int} (hk : (w.heap q.lat.pref).T = some k)
    (hf : roundName q.lat.name (k + 1) ∉ w.circ.names) :
    q.stabilize w = (.ok (), ((w.setP q.lat.pref ((w.heap q.lat.pref).withT (k + 1))).addC
      ⟨roundName q.lat.name (k + 1), (numSynX dh dw + numSynZ dh dw).toNat⟩).emit
        (stabInstrs q.lat.code q.lat.name dh dw (roundName q.lat.name (k + 1)))) := by
  obtain ⟨hs, hx, hz⟩ := numSyn_pos P.odd
  obtain ⟨nx, ex⟩ := Int.eq_ofNat_of_zero_le hx
  obtain ⟨nz, ez⟩ := Int.eq_ofNat_of_zero_le hz
  have et : (numSynX dh dw + numSynZ dh dw).toNat = nx + nz := by rw [ex, ez]; omega
  unfold TQubit.stabilize
  rw [CM.bind_ok (s' := w) (by have := P.numSyn.run; rwa [World.emit_nil] at this),
    CM.bind_ok (x := q.lat.params) (a := w.heap q.lat.pref) (s' := w) rfl,
    CM.bind_lift (key_ok hk), CM.bind_ok (setParams_run _ _ w), CM.bind_lift (newReg_ok (by simp only; omega) _),
    CM.bind_ok (addCreg_ok (show _ from hf)),
    show q.lat.name ++ "_c".toList ++ strInt (k + 1) = roundName q.lat.name (k + 1) from rfl]
  have P' := (P.setP (p := (w.heap q.lat.pref).withT (k + 1)) ⟨rfl, rfl, rfl⟩).addC
    ⟨roundName q.lat.name (k + 1), (numSynX dh dw + numSynZ dh dw).toNat⟩
  refine Emits.run (w := (w.setP q.lat.pref ((w.heap q.lat.pref).withT (k + 1))).addC
    ⟨roundName q.lat.name (k + 1), (numSynX dh dw + numSynZ dh dw).toNat⟩) ?_
  have hc : ∀ c ∈ (Reg.clbits ⟨roundName q.lat.name (k + 1), (numSynX dh dw + numSynZ dh dw).toNat⟩),
      c ∈ ((w.setP q.lat.pref ((w.heap q.lat.pref).withT (k + 1))).addC
        ⟨roundName q.lat.name (k + 1), (numSynX dh dw + numSynZ dh dw).toNat⟩).circ.clbits :=
    fun c hc => mem_clbits_of_reg (by simp) hc
  have hmz : 0 < numSynZ dh dw → key q.lat.mz = .ok ⟨q.lat.name ++ "_mz".toList, nz⟩ := by
    intro h
    rw [P.code_mz]; unfold optReg; rw [if_pos h, ez]; rfl
  have hmx : 0 < numSynX dh dw → key q.lat.mx = .ok ⟨q.lat.name ++ "_mx".toList, nx⟩ := by
    intro h
    rw [P.code_mx]; unfold optReg; rw [if_pos h, ex]; rfl
  have hzq : ∀ x ∈ (List.range nz).map (fun (k : Nat) => mzQ q.lat.name k), x ∈ ((w.setP q.lat.pref ((w.heap q.lat.pref).withT (k + 1))).addC
      ⟨roundName q.lat.name (k + 1), (numSynX dh dw + numSynZ dh dw).toNat⟩).circ.qubits := by
    intro x hx
    obtain ⟨j, hj, rfl⟩ := List.mem_map.1 hx
    rw [List.mem_range] at hj
    exact P'.mzQ_mem (by omega) (by omega)
  have hxq : ∀ x ∈ (List.range nx).map (fun (k : Nat) => mxQ q.lat.name k), x ∈ ((w.setP q.lat.pref ((w.heap q.lat.pref).withT (k + 1))).addC
      ⟨roundName q.lat.name (k + 1), (numSynX dh dw + numSynZ dh dw).toNat⟩).circ.qubits := by
    intro x hx
    obtain ⟨j, hj, rfl⟩ := List.mem_map.1 hx
    rw [List.mem_range] at hj
    exact P'.mxQ_mem (by omega) (by omega)
  rw [et] at hc hzq hxq ⊢
  have hW : ∀ {α : Type} (n : Nat) (f : Nat → α), (if decide (0 < (n : Int)) then (List.range n).map f else []) = (List.range n).map f := by
    intro α n f
    cases n with
    | zero => rfl
    | succ n => rw [if_pos (by simp)]
  unfold stabInstrs
  rw [ex, ez]
  simp only [measureSyn, resetSyn, List.append_assoc, Int.toNat_natCast]
  rw [et] at P'
  refine P'.emits_entangle.bind (Emits.bind (a := ()) ?_ (Emits.bind (a := ()) ?_ (Emits.bind (a := ()) ?_ (Emits.bind (a := ()) ?_ Emits.barrier))))
  · rw [← hW nz]
    refine Emits.when fun h => (Emits.lift (hmz (by rw [ez]; simpa using h))).bind0 ?_
    rw [mzReg_qubits, clbits_low, ← zip_measures]
    refine emits_measure ?_ hzq fun c h' => hc c ?_
    · simp
    · rw [← clbits_low _ nx] at h'
      exact List.mem_of_mem_take h'
  · rw [← hW nx]
    refine Emits.when fun h => (Emits.lift (hmx (by rw [ex]; simpa using h))).bind0 ?_
    rw [mxReg_qubits, show ((nz : Int) + (nx : Int)).toNat = nz + nx by omega, clbits_high, ← zip_measures]
    refine emits_measure ?_ hxq fun c h' => hc c ?_
    · simp
    · rw [← clbits_high] at h'
      exact List.mem_of_mem_take (List.mem_of_mem_drop h')
  · rw [← hW nz]
    refine Emits.when fun h => (Emits.lift (hmz (by rw [ez]; simpa using h))).bind0 ?_
    have := emits_reset (w := (w.setP q.lat.pref ((w.heap q.lat.pref).withT (k + 1))).addC
      ⟨roundName q.lat.name (k + 1), nx + nz⟩) hzq
    rw [List.map_map] at this
    exact this
  · rw [← hW nx]
    refine Emits.when fun h => (Emits.lift (hmx (by rw [ex]; simpa using h))).bind0 ?_
    have := emits_reset (w := (w.setP q.lat.pref ((w.heap q.lat.pref).withT (k + 1))).addC
      ⟨roundName q.lat.name (k + 1), nx + nz⟩) hxq
    rw [List.map_map] at this
    exact this

end Qtc
