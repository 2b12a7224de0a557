import Verif.Proof.Emit
import Verif.Spec.Quantum
/-!
What the methods of a qubit do does not depend on the instructions that are already in the circuit.
-/
namespace Qtc
open Spec

/-- The world with other instructions. -/
def World.setI (w : World) (is : List Instr) : World := { w with circ := { w.circ with instrs := is } }

theorem World.setI_self (w : World) : w.setI w.circ.instrs = w := rfl

theorem World.setI_setI (w : World) (is js : List Instr) : (w.setI is).setI js = w.setI js := rfl

theorem World.emit_setI (w : World) (is : List Instr) : w.emit is = w.setI (w.circ.instrs ++ is) := rfl

theorem World.emit_eq (w : World) (is js : List Instr) : (w.setI is).emit js = w.setI (is ++ js) := rfl

/-- Whatever the instructions before, the method does the same and appends the same. -/
def Indiff {α : Type} (x : WM α) : Prop := ∀ w : World, ∃ (r : Py α) (u : World) (l : List Instr), ∀ is, x (w.setI is) = (r, u.setI (is ++ l))

variable {α β : Type}

theorem Indiff.pure (a : α) : Indiff (pure a : WM α) := fun w => ⟨.ok a, w, [], fun is => by rw [List.append_nil]; rfl⟩

theorem Indiff.throw (e : PyErr) : Indiff (CM.throw e : WM α) := fun w => ⟨.error e, w, [], fun is => by rw [List.append_nil]; rfl⟩

theorem Indiff.lift (x : Py α) : Indiff (CM.lift x : WM α) := fun w => ⟨x, w, [], fun is => by rw [List.append_nil]; rfl⟩

theorem Indiff.bind {x : WM α} {f : α → WM β} (hx : Indiff x) (hf : ∀ a, Indiff (f a)) : Indiff (x >>= f) := by
  intro w
  obtain ⟨r, u, l, h⟩ := hx w
  cases r with
  | error e => exact ⟨.error e, u, l, fun is => CM.bind_error (h is)⟩
  | ok a =>
    obtain ⟨r, v, l', h'⟩ := hf a u
    exact ⟨r, v, l ++ l', fun is => by rw [CM.bind_ok (h is), h', List.append_assoc]⟩

theorem Indiff.forEach {l : List α} {f : α → WM Unit} (h : ∀ a, Indiff (f a)) : Indiff (CM.forEach l f) := by
  induction l with
  | nil => exact Indiff.pure ()
  | cons a l ih => exact (h a).bind fun _ => ih

theorem Indiff.when {b : Bool} {x : WM Unit} (h : Indiff x) : Indiff (CM.when b x) := by
  unfold CM.when
  split
  · exact h
  · exact Indiff.pure ()

theorem Indiff.ite {c : Prop} [Decidable c] {x y : WM α} (hx : Indiff x) (hy : Indiff y) : Indiff (if c then x else y) := by
  split
  · exact hx
  · exact hy

theorem indiff_append (i : Instr) : Indiff (append i) := by
  intro w
  by_cases h : i.qargs.all (w.circ.qubits.contains ·) && i.cargs.all (w.circ.clbits.contains ·) && decide i.qargs.Nodup
  · exact ⟨.ok (), w, [i], fun is => if_pos h⟩
  · exact ⟨.error .circuitError, w, [], fun is => by rw [List.append_nil]; exact if_neg h⟩

theorem indiff_getParams (r : Nat) : Indiff (getParams r) := fun w => ⟨.ok (w.heap r), w, [], fun is => by rw [List.append_nil]; rfl⟩

theorem indiff_setParams (r : Nat) (p : Params) : Indiff (setParams r p) :=
  fun w => ⟨.ok (), (setParams r p w).2, [], fun is => by rw [List.append_nil]; rfl⟩

theorem indiff_addCreg (r : Reg) : Indiff (addCreg r) := by
  intro w
  by_cases h : w.circ.names.contains r.name = true
  · exact ⟨.error .nameTaken, w, [], fun is => by rw [List.append_nil]; exact if_pos h⟩
  · exact ⟨.ok (), (addCreg r w).2, [], fun is => by
      rw [List.append_nil]
      unfold addCreg
      rw [if_neg h]
      exact if_neg h⟩

theorem indiff_gate1 (g : G1) (qs : List Qubit) : Indiff (gate1 g qs) := by
  unfold gate1
  split
  · exact Indiff.throw _
  · exact Indiff.forEach fun _ => indiff_append _

theorem indiff_gate1If (g : G1) (q : Qubit) (c : Str) (v : Int) : Indiff (gate1If g q c v) :=
  Indiff.ite ((indiff_append _).bind fun _ => Indiff.throw _) (indiff_append _)

theorem indiff_gate2 (g : G2) (as bs : List Qubit) : Indiff (gate2 g as bs) := by
  unfold gate2
  refine Indiff.ite (Indiff.throw _) (Indiff.ite (Indiff.forEach fun _ => indiff_append _) ?_)
  split
  · exact Indiff.forEach fun _ => indiff_append _
  · exact Indiff.forEach fun _ => indiff_append _
  · exact Indiff.throw _

theorem indiff_measure (qs : List Qubit) (cs : List Clbit) : Indiff (measure qs cs) := by
  unfold measure
  refine Indiff.ite (Indiff.forEach fun _ => indiff_append _) ?_
  split
  · exact Indiff.ite (Indiff.throw _) (Indiff.forEach fun _ => indiff_append _)
  · exact Indiff.throw _

theorem indiff_reset (qs : List Qubit) : Indiff (reset qs) := Indiff.forEach fun _ => indiff_append _

theorem indiff_barrier : Indiff barrier := indiff_append _

/-- Take a method apart. -/
local macro "indiff" : tactic => `(tactic| repeat first
  | exact indiff_gate1 _ _ | exact indiff_gate1If _ _ _ _ | exact indiff_gate2 _ _ _ | exact indiff_measure _ _ | exact indiff_reset _
  | exact indiff_barrier | exact indiff_append _ | exact Indiff.lift _ | exact indiff_getParams _ | exact indiff_setParams _ _
  | exact indiff_addCreg _ | exact Indiff.throw _ | exact Indiff.pure _ | assumption
  | refine Indiff.bind ?_ fun _ => ?_ | refine Indiff.forEach fun _ => ?_ | refine Indiff.when ?_ | refine Indiff.ite ?_ ?_)

variable {L : Lattice}

theorem indiff_params : Indiff L.params := indiff_getParams _

theorem indiff_width : Indiff L.width := indiff_params.bind fun _ => Indiff.lift _

theorem indiff_numData : Indiff L.numData := indiff_params.bind fun _ => Indiff.lift _

theorem indiff_numSyn : Indiff L.numSyn := indiff_params.bind fun _ => Indiff.lift _

theorem indiff_dataAt (i : Int) : Indiff (L.dataAt i) := Indiff.lift _

theorem indiff_columnIdx : Indiff L.columnIdx :=
  indiff_numData.bind fun _ => indiff_width.bind fun _ => Indiff.ite (Indiff.throw _) (Indiff.pure _)

theorem indiff_rowIdx : Indiff L.rowIdx := indiff_width.bind fun _ => Indiff.pure _

theorem indiff_entangleOne (s : Stab) (p : QPlaq) : Indiff (entangleOne s p) := by
  cases s
  · show Indiff (entangleXXXX p)
    have hr : ∀ a b, Indiff (entangleRowX p.syn a b) := by
      intro a b
      unfold entangleRowX
      split <;> indiff
    have h1 := hr p.tr p.tl
    have h2 := hr p.br p.bl
    unfold entangleXXXX
    split <;> indiff
  · show Indiff (entangleZZZZ p)
    have hr : ∀ a b, Indiff (entangleColZ p.syn a b) := by
      intro a b
      unfold entangleColZ
      split <;> indiff
    have h1 := hr p.tr p.br
    have h2 := hr p.tl p.bl
    unfold entangleZZZZ
    split <;> indiff
  · have hx : ∀ a, Indiff (entangleCornerX p.syn a) := by
      intro a
      cases a <;> unfold entangleCornerX <;> indiff
    have hz : ∀ a, Indiff (entangleCornerZ p.syn a) := by
      intro a
      cases a <;> unfold entangleCornerZ <;> indiff
    exact (hx _).bind fun _ => (hz _).bind fun _ => (hz _).bind fun _ => hx _

theorem indiff_entangle (qi : Option (List QPlaq)) (st : Option (List Stab)) : Indiff (L.entangle qi st) :=
  Indiff.forEach fun _ => (Indiff.lift _).bind fun _ => (indiff_entangleOne _ _).bind fun _ => indiff_barrier

theorem indiff_onData {is : List Int} {f : Int → Qubit → WM Unit} (h : ∀ i q, Indiff (f i q)) :
    Indiff (CM.forEach is fun i => do
      let q ← L.dataAt i
      f i q) := Indiff.forEach fun _ => (indiff_dataAt _).bind fun _ => h _ _

theorem indiff_intoX : Indiff L.readoutXIntoAncilla := by
  have hc := indiff_columnIdx (L := L)
  have hd := indiff_dataAt (L := L)
  unfold Lattice.readoutXIntoAncilla
  split
  · refine (indiff_reset _).bind fun _ => (indiff_gate1 _ _).bind fun _ => hc.bind fun _ => Indiff.bind ?_ fun _ => indiff_gate1 _ _
    exact indiff_onData fun _ _ => indiff_gate2 _ _ _
  · indiff

theorem indiff_intoZ : Indiff L.readoutZIntoAncilla := by
  have hc := indiff_rowIdx (L := L)
  unfold Lattice.readoutZIntoAncilla
  split
  · refine (indiff_reset _).bind fun _ => hc.bind fun _ => ?_
    exact indiff_onData fun _ _ => indiff_gate2 _ _ _
  · indiff

theorem indiff_readoutReg (r : Option Reg) : Indiff (L.readoutReg r) := by
  have hp := indiff_params (L := L)
  unfold Lattice.readoutReg
  split <;> indiff

theorem indiff_latticeReg : Indiff L.latticeReg := by
  have hp := indiff_params (L := L)
  unfold Lattice.latticeReg
  indiff

variable (q : TQubit)

theorem indiff_stabilize : Indiff q.stabilize := by
  have hn := indiff_numSyn (L := q.lat)
  have hp := indiff_params (L := q.lat)
  have he := indiff_entangle (L := q.lat) none none
  unfold TQubit.stabilize
  indiff

/-- No method of a qubit looks at the instructions. -/
theorem indiff_op (o : QOp) : Indiff (q.op o) := by
  cases o with
  | stabilize => exact indiff_stabilize q
  | entangleX => exact (Indiff.lift _).bind fun _ => indiff_entangle _ _
  | entangleZ => exact (Indiff.lift _).bind fun _ => indiff_entangle _ _
  | id => exact (Indiff.forEach fun _ => indiff_gate1 _ _).bind fun _ => indiff_barrier
  | idData => exact (indiff_gate1 _ _).bind fun _ => indiff_barrier
  | resetX => show Indiff q.lat.resetX; unfold Lattice.resetX; split <;> indiff
  | resetZ => show Indiff q.lat.resetZ; unfold Lattice.resetZ; split <;> indiff
  | x => exact indiff_columnIdx.bind fun _ => (indiff_onData fun _ _ => indiff_gate1 _ _).bind fun _ => indiff_barrier
  | z => exact indiff_rowIdx.bind fun _ => (indiff_onData fun _ _ => indiff_gate1 _ _).bind fun _ => indiff_barrier
  | xCIf c v => exact indiff_columnIdx.bind fun _ => (indiff_onData fun _ _ => indiff_gate1If _ _ _ _).bind fun _ => indiff_barrier
  | zCIf c v => exact indiff_rowIdx.bind fun _ => (indiff_onData fun _ _ => indiff_gate1If _ _ _ _).bind fun _ => indiff_barrier
  | cx c t =>
    have hL : Indiff (q.lat.cx c t) := by
      unfold Lattice.cx
      split
      · exact indiff_columnIdx.bind fun _ => (indiff_onData fun _ _ => indiff_gate2 _ _ _).bind fun _ => indiff_barrier
      · exact indiff_intoZ.bind fun _ => indiff_gate2 _ _ _
      · exact Indiff.pure _
    show Indiff (q.cx c t)
    unfold TQubit.cx
    split <;> indiff
  | readoutX r => exact (indiff_readoutReg r).bind fun _ => indiff_intoX.bind fun _ => (indiff_measure _ _).bind fun _ => indiff_barrier
  | readoutZ r => exact (indiff_readoutReg r).bind fun _ => indiff_intoZ.bind fun _ => (indiff_measure _ _).bind fun _ => indiff_barrier
  | latticeReadoutX =>
    refine indiff_latticeReg.bind fun _ => Indiff.bind ?_ fun _ => (indiff_measure _ _).bind fun _ => indiff_barrier
    unfold Lattice.turnX; split <;> indiff
  | latticeReadoutZ =>
    refine indiff_latticeReg.bind fun _ => Indiff.bind ?_ fun _ => (indiff_measure _ _).bind fun _ => indiff_barrier
    unfold Lattice.turnZ; split <;> indiff

variable {q}

/-- The same operation after other instructions. -/
theorem op_setI (o : QOp) (w : World) (is : List Instr) :
    q.op o (w.setI is) = ((q.op o w).1, (q.op o w).2.setI (is ++ added q o w)) := by
  obtain ⟨r, u, l, h⟩ := indiff_op q o w
  have h0 := h w.circ.instrs
  rw [World.setI_self] at h0
  have ha : added q o w = l := by
    unfold added
    rw [h0]
    show (w.circ.instrs ++ l).drop _ = l
    exact List.drop_left
  rw [h is, h0, ha]
  rfl

theorem added_setI (o : QOp) (w : World) (is : List Instr) : added q o (w.setI is) = added q o w := by
  show (q.op o (w.setI is)).2.circ.instrs.drop is.length = _
  rw [op_setI]
  show (is ++ added q o w).drop is.length = _
  exact List.drop_left

end Qtc
