import Verif.Proof.Born
/-!
Circuits stay well formed whatever is done with them, also with qubits that share a dictionary.
-/
namespace Qtc
open Spec

variable {α β : Type} {L : Lattice} {w : World}

/-- The method keeps circuits well formed. -/
def KeepsWF (x : WM α) : Prop := ∀ w, WellFormed w.circ → WellFormed (x w).2.circ

theorem KeepsWF.pure {a : α} : KeepsWF (pure a) := fun _ h => h

theorem KeepsWF.throw {e : PyErr} : KeepsWF (CM.throw e : WM α) := fun _ h => h

theorem KeepsWF.lift {x : Py α} : KeepsWF (CM.lift x) := fun _ h => h

theorem KeepsWF.bind {x : WM α} {f : α → WM β} (hx : KeepsWF x) (hf : ∀ a, KeepsWF (f a)) : KeepsWF (x >>= f) := by
  intro w W
  have h := hx w W
  rw [CM.bind_run]
  rcases hr : x w with ⟨e | a, w1⟩
  · rw [hr] at h; exact h
  · rw [hr] at h; exact hf a w1 h

theorem KeepsWF.forEach {l : List α} {f : α → WM Unit} (h : ∀ a, KeepsWF (f a)) : KeepsWF (CM.forEach l f) := by
  induction l with
  | nil => exact KeepsWF.pure
  | cons a l ih => exact (h a).bind fun _ => ih

theorem KeepsWF.when {b : Bool} {x : WM Unit} (h : KeepsWF x) : KeepsWF (CM.when b x) := by
  unfold CM.when
  split
  · exact h
  · exact KeepsWF.pure

theorem KeepsWF.ite {c : Prop} [Decidable c] {x y : WM α} (hx : KeepsWF x) (hy : KeepsWF y) : KeepsWF (if c then x else y) := by
  split
  · exact hx
  · exact hy

theorem keepsWF_append {i : Instr} : KeepsWF (append i) := by
  intro w W
  by_cases hf : Fits w i
  · rw [append_fits hf]
    refine WellFormed.emit W ?_
    intro j hj
    rw [List.mem_singleton.1 hj]
    exact fits_iff.1 hf
  · rw [append_not_fits hf]
    exact W

theorem keepsWF_addQreg {r : Reg} : KeepsWF (addQreg r) := by
  intro w W
  by_cases h : r.name ∈ w.circ.names
  · rw [addQreg_taken h]; exact W
  · rw [addQreg_ok h]
    exact WellFormed.addQs W (by simpa using h) (by simp)

theorem keepsWF_addCreg {r : Reg} : KeepsWF (addCreg r) := by
  intro w W
  unfold addCreg
  split
  · exact W
  · rename_i h
    exact WellFormed.addC W (by simpa using h)

theorem keepsWF_getParams {r : Nat} : KeepsWF (getParams r) := fun _ h => h
theorem keepsWF_params : KeepsWF L.params := fun _ h => h
theorem keepsWF_setParams {r : Nat} {p : Params} : KeepsWF (setParams r p) := fun _ h => h

theorem keepsWF_dictOrNew {p : Option Nat} : KeepsWF (dictOrNew p) := by
  intro w W
  obtain ⟨r, w1, h, hc, -⟩ := dictOrNew_run p w
  rw [h]
  show WellFormed w1.circ
  rw [hc]; exact W

theorem keepsWF_gate1 {g : G1} {qs : List Qubit} : KeepsWF (gate1 g qs) := by
  unfold gate1
  split
  · exact KeepsWF.throw
  · exact KeepsWF.forEach fun _ => keepsWF_append

theorem keepsWF_gate1If {g : G1} {q : Qubit} {c : Str} {v : Int} : KeepsWF (gate1If g q c v) := by
  unfold gate1If
  split
  · exact keepsWF_append.bind fun _ => KeepsWF.throw
  · exact keepsWF_append

theorem keepsWF_gate2 {g : G2} {as bs : List Qubit} : KeepsWF (gate2 g as bs) := by
  unfold gate2
  split
  · exact KeepsWF.throw
  · split
    · exact KeepsWF.forEach fun _ => keepsWF_append
    · split
      · exact KeepsWF.forEach fun _ => keepsWF_append
      · exact KeepsWF.forEach fun _ => keepsWF_append
      · exact KeepsWF.throw

theorem keepsWF_measure {qs : List Qubit} {cs : List Clbit} : KeepsWF (measure qs cs) := by
  unfold measure
  split
  · exact KeepsWF.forEach fun _ => keepsWF_append
  · split
    · split
      · exact KeepsWF.throw
      · exact KeepsWF.forEach fun _ => keepsWF_append
    · exact KeepsWF.throw

theorem keepsWF_reset {qs : List Qubit} : KeepsWF (reset qs) := KeepsWF.forEach fun _ => keepsWF_append

theorem keepsWF_barrier : KeepsWF barrier := keepsWF_append

/-- Take a method apart. -/
macro "keep_step" : tactic => `(tactic| first
  | exact KeepsWF.pure
  | exact KeepsWF.throw
  | exact KeepsWF.lift
  | exact keepsWF_append
  | exact keepsWF_addQreg
  | exact keepsWF_addCreg
  | exact keepsWF_getParams
  | exact keepsWF_params
  | exact keepsWF_setParams
  | exact keepsWF_dictOrNew
  | exact keepsWF_gate1
  | exact keepsWF_gate1If
  | exact keepsWF_gate2
  | exact keepsWF_measure
  | exact keepsWF_reset
  | exact keepsWF_barrier
  | refine KeepsWF.when ?_
  | refine KeepsWF.forEach fun _ => ?_
  | refine KeepsWF.bind ?_ fun _ => ?_
  | refine KeepsWF.ite ?_ ?_
  | split)

theorem keepsWF_numData : KeepsWF L.numData := by unfold Lattice.numData; repeat' keep_step
theorem keepsWF_numSyn : KeepsWF L.numSyn := by unfold Lattice.numSyn; repeat' keep_step
theorem keepsWF_width : KeepsWF L.width := by unfold Lattice.width; repeat' keep_step
theorem keepsWF_dataAt {i : Int} : KeepsWF (L.dataAt i) := KeepsWF.lift
theorem keepsWF_columnIdx : KeepsWF L.columnIdx := by
  unfold Lattice.columnIdx
  refine keepsWF_numData.bind fun _ => keepsWF_width.bind fun _ => ?_
  repeat' keep_step
theorem keepsWF_rowIdx : KeepsWF L.rowIdx := keepsWF_width.bind fun _ => KeepsWF.pure

theorem keepsWF_entangleOne {s : Stab} {p : QPlaq} : KeepsWF (entangleOne s p) := by
  have hx : ∀ s a b, KeepsWF (entangleRowX s a b) := by
    intro s a b; unfold entangleRowX; repeat' keep_step
  have hz : ∀ s a b, KeepsWF (entangleColZ s a b) := by
    intro s a b; unfold entangleColZ; repeat' keep_step
  have cx : ∀ s a, KeepsWF (entangleCornerX s a) := by
    intro s a; unfold entangleCornerX; repeat' keep_step
  have cz : ∀ s a, KeepsWF (entangleCornerZ s a) := by
    intro s a; unfold entangleCornerZ; repeat' keep_step
  cases s
  · unfold entangleOne entangleXXXX
    repeat' first | exact hx _ _ _ | keep_step
  · unfold entangleOne entangleZZZZ
    repeat' first | exact hz _ _ _ | keep_step
  · unfold entangleOne entangleXZZX
    repeat' first | exact cx _ _ | exact cz _ _ | keep_step

theorem keepsWF_entangle {qi : Option (List QPlaq)} {st : Option (List Stab)} : KeepsWF (L.entangle qi st) := by
  unfold Lattice.entangle
  exact KeepsWF.forEach fun _ => KeepsWF.lift.bind fun _ => keepsWF_entangleOne.bind fun _ => keepsWF_barrier

theorem keepsWF_resetX : KeepsWF L.resetX := by unfold Lattice.resetX; repeat' keep_step
theorem keepsWF_resetZ : KeepsWF L.resetZ := by unfold Lattice.resetZ; repeat' keep_step
theorem keepsWF_x : KeepsWF L.x := by
  unfold Lattice.x; repeat' first | exact keepsWF_columnIdx | exact keepsWF_dataAt | keep_step
theorem keepsWF_z : KeepsWF L.z := by
  unfold Lattice.z; repeat' first | exact keepsWF_rowIdx | exact keepsWF_dataAt | keep_step
theorem keepsWF_xCIf {c : Str} {v : Int} : KeepsWF (L.xCIf c v) := by
  unfold Lattice.xCIf; repeat' first | exact keepsWF_columnIdx | exact keepsWF_dataAt | keep_step
theorem keepsWF_zCIf {c : Str} {v : Int} : KeepsWF (L.zCIf c v) := by
  unfold Lattice.zCIf; repeat' first | exact keepsWF_rowIdx | exact keepsWF_dataAt | keep_step
theorem keepsWF_intoX : KeepsWF L.readoutXIntoAncilla := by
  unfold Lattice.readoutXIntoAncilla
  repeat' first | exact keepsWF_columnIdx | exact keepsWF_dataAt | keep_step
theorem keepsWF_intoZ : KeepsWF L.readoutZIntoAncilla := by
  unfold Lattice.readoutZIntoAncilla
  repeat' first | exact keepsWF_rowIdx | exact keepsWF_dataAt | keep_step
theorem keepsWF_latCx {c t : Option Qubit} : KeepsWF (L.cx c t) := by
  unfold Lattice.cx
  repeat' first | exact keepsWF_columnIdx | exact keepsWF_dataAt | exact keepsWF_intoZ | keep_step
theorem keepsWF_readoutReg {r : Option Reg} : KeepsWF (L.readoutReg r) := by
  unfold Lattice.readoutReg; repeat' keep_step
theorem keepsWF_latticeReg : KeepsWF L.latticeReg := by
  unfold Lattice.latticeReg; repeat' keep_step
theorem keepsWF_turnX : KeepsWF L.turnX := by unfold Lattice.turnX; repeat' keep_step
theorem keepsWF_turnZ : KeepsWF L.turnZ := by unfold Lattice.turnZ; repeat' keep_step

/-- No operation of a qubit makes a circuit ill formed. -/
theorem keepsWF_op (q : TQubit) (o : QOp) : KeepsWF (q.op o) := by
  cases o with
  | stabilize =>
    unfold TQubit.op TQubit.stabilize
    repeat' first | exact keepsWF_numSyn | exact keepsWF_entangle | keep_step
  | entangleX => exact KeepsWF.lift.bind fun _ => keepsWF_entangle
  | entangleZ => exact KeepsWF.lift.bind fun _ => keepsWF_entangle
  | id => unfold TQubit.op TQubit.id; repeat' keep_step
  | idData => unfold TQubit.op TQubit.idData; repeat' keep_step
  | resetX => exact keepsWF_resetX
  | resetZ => exact keepsWF_resetZ
  | x => exact keepsWF_x
  | z => exact keepsWF_z
  | xCIf c v => exact keepsWF_xCIf
  | zCIf c v => exact keepsWF_zCIf
  | cx c t =>
    unfold TQubit.op TQubit.cx
    simp only
    split
    · exact KeepsWF.throw.bind fun _ => keepsWF_latCx
    · exact keepsWF_latCx
  | readoutX r => exact keepsWF_readoutReg.bind fun _ => keepsWF_intoX.bind fun _ => keepsWF_measure.bind fun _ => keepsWF_barrier
  | readoutZ r => exact keepsWF_readoutReg.bind fun _ => keepsWF_intoZ.bind fun _ => keepsWF_measure.bind fun _ => keepsWF_barrier
  | latticeReadoutX => exact keepsWF_latticeReg.bind fun _ => keepsWF_turnX.bind fun _ => keepsWF_measure.bind fun _ => keepsWF_barrier
  | latticeReadoutZ => exact keepsWF_latticeReg.bind fun _ => keepsWF_turnZ.bind fun _ => keepsWF_measure.bind fun _ => keepsWF_barrier

/-- Making a qubit does not make a circuit ill formed. -/
theorem keepsWF_newQubit {cls : QClass} {p : Option Nat} {name : Str} : KeepsWF (newQubit cls p name) := by
  have h1 : ∀ r, KeepsWF (checkRep cls r) := by
    intro r; unfold checkRep; repeat' keep_step
  have h2 : ∀ r, KeepsWF (newLattice cls.code name r) := by
    intro r; unfold newLattice; repeat' keep_step
  exact keepsWF_dictOrNew.bind fun r => (h1 r).bind fun _ => (h2 r).bind fun _ => KeepsWF.pure

end Qtc
