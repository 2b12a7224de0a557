import Verif.Model.DecoderObject
import Verif.Proof.Keep
import Verif.Proof.Made
/-!
What methods do to a parameter dictionary.
-/
namespace Qtc
open Spec

variable {α β : Type} {L : Lattice} {w : World} {r : Nat} {P : Params → Prop}

/-- The method keeps a property of the dictionary with reference `r`. -/
def KeepsP (r : Nat) (P : Params → Prop) (x : WM α) : Prop := ∀ w, P (w.heap r) ∧ r < w.next → P ((x w).2.heap r) ∧ r < (x w).2.next

theorem KeepsP.pure {a : α} : KeepsP r P (pure a) := fun _ h => h

theorem KeepsP.throw {e : PyErr} : KeepsP r P (CM.throw e : WM α) := fun _ h => h

theorem KeepsP.lift {x : Py α} : KeepsP r P (CM.lift x) := fun _ h => h

theorem KeepsP.bind {x : WM α} {f : α → WM β} (hx : KeepsP r P x) (hf : ∀ a, KeepsP r P (f a)) : KeepsP r P (x >>= f) := by
  intro w W
  have h := hx w W
  rw [CM.bind_run]
  rcases hr : x w with ⟨e | a, w1⟩
  · rw [hr] at h; exact h
  · rw [hr] at h; exact hf a w1 h

theorem KeepsP.lift_bind {x : Py α} {f : α → WM β} (hf : ∀ a, x = .ok a → KeepsP r P (f a)) : KeepsP r P (CM.lift x >>= f) := by
  intro w W
  rw [CM.bind_run, CM.lift_run]
  rcases x with e | a
  · exact W
  · exact hf a rfl w W

theorem KeepsP.forEach {l : List α} {f : α → WM Unit} (h : ∀ a, KeepsP r P (f a)) : KeepsP r P (CM.forEach l f) := by
  induction l with
  | nil => exact KeepsP.pure
  | cons a l ih => exact (h a).bind fun _ => ih

theorem KeepsP.when {b : Bool} {x : WM Unit} (h : KeepsP r P x) : KeepsP r P (CM.when b x) := by
  unfold CM.when
  split
  · exact h
  · exact KeepsP.pure

theorem KeepsP.ite {c : Prop} [Decidable c] {x y : WM α} (hx : KeepsP r P x) (hy : KeepsP r P y) : KeepsP r P (if c then x else y) := by
  split
  · exact hx
  · exact hy

theorem keepsP_append {i : Instr} : KeepsP r P (append i) := by
  intro w W
  unfold append
  split <;> exact W

theorem keepsP_addQreg {g : Reg} : KeepsP r P (addQreg g) := by
  intro w W
  unfold addQreg
  split <;> exact W

theorem keepsP_addCreg {g : Reg} : KeepsP r P (addCreg g) := by
  intro w W
  unfold addCreg
  split <;> exact W

theorem keepsP_getParams {r' : Nat} : KeepsP r P (getParams r') := fun _ h => h

theorem keepsP_getParams_bind {r' : Nat} {f : Params → WM β} (h : ∀ p, (r' = r → P p) → KeepsP r P (f p)) :
    KeepsP r P (getParams r' >>= f) := by
  intro w W
  rw [CM.bind_ok (getParams_run _ _)]
  exact h _ (fun e => e ▸ W.1) w W

theorem keepsP_setParams {r' : Nat} {p : Params} (h : r' = r → P p) : KeepsP r P (setParams r' p) := by
  intro w W
  unfold setParams
  refine ⟨?_, W.2⟩
  show P (if r = r' then p else w.heap r)
  split
  · rename_i e; exact h e.symm
  · exact W.1

theorem keepsP_dictOrNew {p : Option Nat} : KeepsP r P (dictOrNew p) := by
  intro w W
  have hne : r ≠ w.next := by omega
  unfold dictOrNew
  split
  · split
    · refine ⟨?_, by show r < w.next + 1; omega⟩
      show P (if r = w.next then _ else _)
      rw [if_neg hne]
      exact W.1
    · exact W
  · refine ⟨?_, by show r < w.next + 1; omega⟩
    show P (if r = w.next then _ else _)
    rw [if_neg hne]
    exact W.1

theorem keepsP_gate1 {g : G1} {qs : List Qubit} : KeepsP r P (gate1 g qs) := by
  unfold gate1
  split
  · exact KeepsP.throw
  · exact KeepsP.forEach fun _ => keepsP_append

theorem keepsP_gate1If {g : G1} {q : Qubit} {c : Str} {v : Int} : KeepsP r P (gate1If g q c v) := by
  unfold gate1If
  split
  · exact keepsP_append.bind fun _ => KeepsP.throw
  · exact keepsP_append

theorem keepsP_gate2 {g : G2} {as bs : List Qubit} : KeepsP r P (gate2 g as bs) := by
  unfold gate2
  split
  · exact KeepsP.throw
  · split
    · exact KeepsP.forEach fun _ => keepsP_append
    · split
      · exact KeepsP.forEach fun _ => keepsP_append
      · exact KeepsP.forEach fun _ => keepsP_append
      · exact KeepsP.throw

theorem keepsP_measure {qs : List Qubit} {cs : List Clbit} : KeepsP r P (measure qs cs) := by
  unfold measure
  split
  · exact KeepsP.forEach fun _ => keepsP_append
  · split
    · split
      · exact KeepsP.throw
      · exact KeepsP.forEach fun _ => keepsP_append
    · exact KeepsP.throw

theorem keepsP_reset {qs : List Qubit} : KeepsP r P (reset qs) := KeepsP.forEach fun _ => keepsP_append

theorem keepsP_barrier : KeepsP r P barrier := keepsP_append

/-- Take a method apart. -/
macro "keepP_step" : tactic => `(tactic| first
  | exact KeepsP.pure
  | exact KeepsP.throw
  | exact KeepsP.lift
  | exact keepsP_append
  | exact keepsP_addQreg
  | exact keepsP_addCreg
  | exact keepsP_getParams
  | exact keepsP_dictOrNew
  | exact keepsP_gate1
  | exact keepsP_gate1If
  | exact keepsP_gate2
  | exact keepsP_measure
  | exact keepsP_reset
  | exact keepsP_barrier
  | refine KeepsP.when ?_
  | refine KeepsP.forEach fun _ => ?_
  | refine KeepsP.bind ?_ fun _ => ?_
  | refine KeepsP.ite ?_ ?_
  | split)

theorem keepsP_params : KeepsP r P L.params := keepsP_getParams
theorem keepsP_numData : KeepsP r P L.numData := by unfold Lattice.numData Lattice.params; repeat' keepP_step
theorem keepsP_numSyn : KeepsP r P L.numSyn := by unfold Lattice.numSyn Lattice.params; repeat' keepP_step
theorem keepsP_width : KeepsP r P L.width := by unfold Lattice.width Lattice.params; repeat' keepP_step
theorem keepsP_dataAt {i : Int} : KeepsP r P (L.dataAt i) := KeepsP.lift
theorem keepsP_columnIdx : KeepsP r P L.columnIdx := by
  unfold Lattice.columnIdx
  refine keepsP_numData.bind fun _ => keepsP_width.bind fun _ => ?_
  repeat' keepP_step
theorem keepsP_rowIdx : KeepsP r P L.rowIdx := keepsP_width.bind fun _ => KeepsP.pure

theorem keepsP_entangleOne {s : Stab} {p : QPlaq} : KeepsP r P (entangleOne s p) := by
  have hx : ∀ s a b, KeepsP r P (entangleRowX s a b) := by
    intro s a b; unfold entangleRowX; repeat' keepP_step
  have hz : ∀ s a b, KeepsP r P (entangleColZ s a b) := by
    intro s a b; unfold entangleColZ; repeat' keepP_step
  have cx : ∀ s a, KeepsP r P (entangleCornerX s a) := by
    intro s a; unfold entangleCornerX; repeat' keepP_step
  have cz : ∀ s a, KeepsP r P (entangleCornerZ s a) := by
    intro s a; unfold entangleCornerZ; repeat' keepP_step
  cases s
  · unfold entangleOne entangleXXXX
    repeat' first | exact hx _ _ _ | keepP_step
  · unfold entangleOne entangleZZZZ
    repeat' first | exact hz _ _ _ | keepP_step
  · unfold entangleOne entangleXZZX
    repeat' first | exact cx _ _ | exact cz _ _ | keepP_step

theorem keepsP_entangle {qi : Option (List QPlaq)} {st : Option (List Stab)} : KeepsP r P (L.entangle qi st) := by
  unfold Lattice.entangle
  exact KeepsP.forEach fun _ => KeepsP.lift.bind fun _ => keepsP_entangleOne.bind fun _ => keepsP_barrier

theorem keepsP_resetX : KeepsP r P L.resetX := by unfold Lattice.resetX; repeat' keepP_step
theorem keepsP_resetZ : KeepsP r P L.resetZ := by unfold Lattice.resetZ; repeat' keepP_step
theorem keepsP_x : KeepsP r P L.x := by
  unfold Lattice.x; repeat' first | exact keepsP_columnIdx | exact keepsP_dataAt | keepP_step
theorem keepsP_z : KeepsP r P L.z := by
  unfold Lattice.z; repeat' first | exact keepsP_rowIdx | exact keepsP_dataAt | keepP_step
theorem keepsP_xCIf {c : Str} {v : Int} : KeepsP r P (L.xCIf c v) := by
  unfold Lattice.xCIf; repeat' first | exact keepsP_columnIdx | exact keepsP_dataAt | keepP_step
theorem keepsP_zCIf {c : Str} {v : Int} : KeepsP r P (L.zCIf c v) := by
  unfold Lattice.zCIf; repeat' first | exact keepsP_rowIdx | exact keepsP_dataAt | keepP_step
theorem keepsP_intoX : KeepsP r P L.readoutXIntoAncilla := by
  unfold Lattice.readoutXIntoAncilla
  repeat' first | exact keepsP_columnIdx | exact keepsP_dataAt | keepP_step
theorem keepsP_intoZ : KeepsP r P L.readoutZIntoAncilla := by
  unfold Lattice.readoutZIntoAncilla
  repeat' first | exact keepsP_rowIdx | exact keepsP_dataAt | keepP_step
theorem keepsP_latCx {c t : Option Qubit} : KeepsP r P (L.cx c t) := by
  unfold Lattice.cx
  repeat' first | exact keepsP_columnIdx | exact keepsP_dataAt | exact keepsP_intoZ | keepP_step
theorem keepsP_turnX : KeepsP r P L.turnX := by unfold Lattice.turnX; repeat' keepP_step
theorem keepsP_turnZ : KeepsP r P L.turnZ := by unfold Lattice.turnZ; repeat' keepP_step

/-- The property does not speak about the counters. -/
def CounterFree (P : Params → Prop) : Prop := ∀ p T a b, P p → P { p with T := T, numReadout := a, numLatticeReadout := b }

theorem keepsP_readoutReg (hP : CounterFree P) {g : Option Reg} : KeepsP r P (L.readoutReg g) := by
  unfold Lattice.readoutReg Lattice.params
  split
  · exact KeepsP.pure
  · refine keepsP_getParams_bind fun p hp => KeepsP.lift.bind fun n => ?_
    refine (keepsP_setParams fun e => ?_).bind fun _ => ?_
    · exact hP p p.T _ p.numLatticeReadout (hp e)
    · repeat' keepP_step

theorem keepsP_latticeReg (hP : CounterFree P) : KeepsP r P L.latticeReg := by
  unfold Lattice.latticeReg Lattice.params
  refine keepsP_getParams_bind fun p hp => KeepsP.lift.bind fun n => ?_
  refine (keepsP_setParams fun e => ?_).bind fun _ => ?_
  · exact hP p p.T p.numReadout _ (hp e)
  · repeat' first | exact keepsP_numData | keepP_step

/-- No operation of any qubit changes more than the counters. -/
theorem keepsP_op (hP : CounterFree P) (q : TQubit) (o : QOp) : KeepsP r P (q.op o) := by
  cases o with
  | stabilize =>
    unfold TQubit.op TQubit.stabilize
    refine keepsP_numSyn.bind fun ns => ?_
    unfold Lattice.params
    refine keepsP_getParams_bind fun p hp => KeepsP.lift.bind fun n => ?_
    refine (keepsP_setParams fun e => ?_).bind fun _ => ?_
    · exact hP p _ p.numReadout p.numLatticeReadout (hp e)
    · repeat' first | exact keepsP_numSyn | exact keepsP_entangle | keepP_step
  | entangleX => exact KeepsP.lift.bind fun _ => keepsP_entangle
  | entangleZ => exact KeepsP.lift.bind fun _ => keepsP_entangle
  | id => unfold TQubit.op TQubit.id; repeat' keepP_step
  | idData => unfold TQubit.op TQubit.idData; repeat' keepP_step
  | resetX => exact keepsP_resetX
  | resetZ => exact keepsP_resetZ
  | x => exact keepsP_x
  | z => exact keepsP_z
  | xCIf c v => exact keepsP_xCIf
  | zCIf c v => exact keepsP_zCIf
  | cx c t =>
    unfold TQubit.op TQubit.cx
    simp only
    split
    · exact KeepsP.throw.bind fun _ => keepsP_latCx
    · exact keepsP_latCx
  | readoutX g => exact (keepsP_readoutReg hP).bind fun _ => keepsP_intoX.bind fun _ => keepsP_measure.bind fun _ => keepsP_barrier
  | readoutZ g => exact (keepsP_readoutReg hP).bind fun _ => keepsP_intoZ.bind fun _ => keepsP_measure.bind fun _ => keepsP_barrier
  | latticeReadoutX => exact (keepsP_latticeReg hP).bind fun _ => keepsP_turnX.bind fun _ => keepsP_measure.bind fun _ => keepsP_barrier
  | latticeReadoutZ => exact (keepsP_latticeReg hP).bind fun _ => keepsP_turnZ.bind fun _ => keepsP_measure.bind fun _ => keepsP_barrier

/-- Making a qubit keeps what validation keeps. -/
theorem keepsP_newQubit (h1 : ∀ p p', P p → repValidate p = .ok p' → P p') (h2 : ∀ p p', P p → rotatedValidate p = .ok p' → P p')
    (h3 : ∀ p, P p → P (repTouched p)) (h4 : ∀ p, P p → P (rotatedTouched p))
    {cls : QClass} {d : Option Nat} {name : Str} : KeepsP r P (newQubit cls d name) := by
  have hc : ∀ k, KeepsP r P (checkRep cls k) := by
    intro k
    unfold checkRep
    split
    · refine keepsP_getParams_bind fun p hp => (keepsP_setParams fun e => h3 p (hp e)).bind fun _ => KeepsP.lift_bind fun p' hp' => ?_
      exact keepsP_setParams fun e => h1 p p' (hp e) hp'
    · exact KeepsP.pure
  have hl : ∀ k, KeepsP r P (newLattice cls.code name k) := by
    intro k
    unfold newLattice
    refine keepsP_getParams_bind fun p hp => (keepsP_setParams fun e => h4 p (hp e)).bind fun _ => KeepsP.lift_bind fun p' hp' => ?_
    refine (keepsP_setParams fun e => h2 p p' (hp e) hp').bind fun _ => ?_
    repeat' keepP_step
  exact keepsP_dictOrNew.bind fun k => (hc k).bind fun _ => (hl k).bind fun _ => KeepsP.pure

/-- Making a decoder as well. -/
theorem keepsP_newDecoder (h1 : ∀ p p', P p → repValidate p = .ok p' → P p') (h2 : ∀ p p', P p → rotatedDecoderValidate p = .ok p' → P p')
    (h3 : ∀ p, P p → P (repTouched p)) (h4 : ∀ p, P p → P (rotatedDecoderTouched p))
    {cls : DClass} {limit k : Nat} : KeepsP r P (newDecoder cls limit k) := by
  unfold newDecoder
  have ht : ∀ p, P p → P (cls.touched p) := by
    intro p hp
    cases cls
    · exact h4 p hp
    · show P (if p.isEmpty then p else rotatedDecoderTouched (repTouched p))
      split
      · exact hp
      · exact h4 _ (h3 p hp)
  refine keepsP_getParams_bind fun p hp => (keepsP_setParams fun e => ht p (hp e)).bind fun _ => KeepsP.lift_bind fun v hv => ?_
  refine (keepsP_setParams fun e => ?_).bind fun _ => ?_
  · cases cls
    · unfold DClass.validate at hv
      obtain ⟨p', h3, h4⟩ := except_bind_ok hv
      cases h4
      exact h2 p p' (hp e) h3
    · unfold DClass.validate repDecoderValidate at hv
      obtain ⟨p', h3, h4⟩ := except_bind_ok hv
      obtain ⟨p'', h5, h6⟩ := except_bind_ok h4
      cases h6
      exact h2 p' p'' (h1 p p' (hp e) h3) h5
  · repeat' keepP_step

end Qtc
