import Verif.Proof.Checks
/-!
Partial stabilization, identity gates, logical readouts of the XZZX code.
-/
namespace Qtc
open Spec

variable {L : Lattice} {q : TQubit} {dh dw : Int} {w w' : World}

theorem numSynX_pos (H : OddPos dh dw) : 0 < numSynX dh dw ↔ 1 < dw := by
  obtain ⟨h, v, hh, hv, rfl, rfl⟩ := oddPos_cases H
  rw [numSynX_odd]
  constructor
  · intro h0
    by_contra hc
    have : v = 0 := by omega
    subst this
    simp at h0
  · intro h0
    exact Int.mul_pos (by omega) (by omega)

theorem numSynZ_pos (H : OddPos dh dw) : 0 < numSynZ dh dw ↔ 1 < dh := by
  obtain ⟨h, v, hh, hv, rfl, rfl⟩ := oddPos_cases H
  rw [numSynZ_odd]
  constructor
  · intro h0
    by_contra hc
    have : h = 0 := by omega
    subst this
    simp at h0
  · intro h0
    exact Int.mul_pos (by omega) (by omega)

theorem Placed.numX_ok (P : Placed L dh dw w) (h : 1 < dw) : L.numX = .ok (geometryX dh dw).length := by
  unfold Lattice.numX
  rw [P.code_mx]
  unfold optReg
  rw [if_pos ((numSynX_pos P.odd).2 h), geometryX_length]
  rfl

theorem Placed.numX_err (P : Placed L dh dw w) (h : dw = 1) : L.numX = .error .keyError := by
  unfold Lattice.numX
  rw [P.code_mx]
  unfold optReg
  rw [if_neg (by rw [numSynX_pos P.odd]; omega)]
  rfl

theorem Placed.take_stabs (P : Placed L dh dw w) : L.qubitIndices.take (geometryX dh dw).length = (geometryX dh dw).map (plaqOf L.name mxQ) ∧
    L.stabilizers.take (geometryX dh dw).length = (geometryX dh dw).map (fun _ => L.code.stab .X) := by
  rw [P.code_plaqs, P.code_stabs]
  exact ⟨List.take_left' (by simp), List.take_left' (by simp)⟩

theorem Placed.drop_stabs (P : Placed L dh dw w) : L.qubitIndices.drop (geometryX dh dw).length = (geometryZ dh dw).map (plaqOf L.name mzQ) ∧
    L.stabilizers.drop (geometryX dh dw).length = (geometryZ dh dw).map (fun _ => L.code.stab .Z) := by
  rw [P.code_plaqs, P.code_stabs]
  exact ⟨List.drop_left' (by simp), List.drop_left' (by simp)⟩

/-- On a one-dimensional lattice `entangle_z` entangles the X plaquettes. -/
theorem Placed.emits_entangleZ_flat (P : Placed L dh dw w) (h : 1 < dw) (h' : dh = 1) :
    Emits w L.entangleZ () (entangleXGates L.code L.name dh dw) := by
  unfold Lattice.entangleZ
  refine (Emits.lift (P.numX_ok h)).bind0 ?_
  have h0 : geometryZ dh dw = [] := by
    refine List.length_eq_zero_iff.1 ?_
    rw [geometryZ_length]
    have := (numSynZ_pos P.odd).not.2 (by omega)
    omega
  rw [P.drop_stabs.1, P.drop_stabs.2, h0, ← instrsChecks_x P.odd]
  have := P.emits_entangle
  have e : zChecks L.code L.name dh dw = [] := by unfold zChecks; rw [h0]; rfl
  rw [e, List.append_nil] at this
  exact this

theorem entangleX_no (P : Placed L dh dw w) (h : dw = 1) : L.entangleX w = (.error .keyError, w) := by
  unfold Lattice.entangleX
  rw [P.numX_err h]
  rfl

theorem entangleZ_no (P : Placed L dh dw w) (h : dw = 1) : L.entangleZ w = (.error .keyError, w) := by
  unfold Lattice.entangleZ
  rw [P.numX_err h]
  rfl

/-! ### Identity gates -/

theorem flatMap_optReg (n : Int) (name : Str) (hn : 0 ≤ n) : (optReg n name).toList.flatMap Reg.qubits =
    (List.range n.toNat).map fun k => ⟨name, k⟩ := by
  unfold optReg
  split
  · simp [Reg.qubits]
  · have : n.toNat = 0 := by omega
    rw [this]; rfl

theorem Placed.all_qubits (P : Placed L dh dw w) : L.qregs.flatMap Reg.qubits = (allQubits dh dw).map (dataQ L.name) ++
    (List.range (zSites dh dw).length).map (fun (k : Nat) => mzQ L.name k) ++
    (List.range (xSites dh dw).length).map (fun (k : Nat) => mxQ L.name k) ++ [ancQ L.name] := by
  obtain ⟨-, hx, hz⟩ := numSyn_pos P.odd
  unfold Lattice.qregs
  rw [List.flatMap_append, List.flatMap_append, List.flatMap_append, List.flatMap_singleton, List.flatMap_singleton, P.data_qubits,
    P.anc_qubits, P.code_mz, P.code_mx, flatMap_optReg _ _ hz, flatMap_optReg _ _ hx, xSites_length P.odd, zSites_length P.odd]
  rfl

/-! ### Readouts of one-dimensional XZZX lattices -/

theorem atList_nil (r : Reg) : r.atList [] = .error .valueError := rfl

theorem col_odd_flat (H : OddPos dh dw) (h : dh = 1) : ((colQubits dh dw 0).filter fun i => decide (i % 2 = 1)) = [] := by
  subst h
  unfold colQubits
  simp [List.range_succ]

theorem row_odd_flat (h : dw = 1) : ((rowQubits dw 0).filter fun i => decide (i % 2 = 1)) = [] := by
  subst h
  unfold rowQubits
  simp [List.range_succ]

/-- In every world that differs from `w` by instructions, `x` raises `e` after adding `is`. -/
def Fails {α : Type} (w : World) (x : WM α) (e : PyErr) (is : List Instr) : Prop :=
  ∀ js, x (w.emit js) = (.error e, w.emit (js ++ is))

theorem Fails.run {α : Type} {x : WM α} {e : PyErr} {is : List Instr} (h : Fails w x e is) : x w = (.error e, w.emit is) := by
  have := h []
  rwa [World.emit_nil] at this

theorem Fails.lift {α : Type} {x : Py α} {e : PyErr} (h : x = .error e) : Fails w (CM.lift x) e [] := by
  intro js
  rw [CM.lift_run, h, List.append_nil]

theorem Fails.bind {α β : Type} {x : WM α} {f : α → WM β} {e : PyErr} {is : List Instr} (h : Fails w x e is) : Fails w (x >>= f) e is := by
  intro js
  rw [CM.bind_error (h js)]

theorem Emits.fails {α β : Type} {x : WM α} {f : α → WM β} {a : α} {e : PyErr} {is js : List Instr} (h : Emits w x a is)
    (h' : Fails w (f a) e js) : Fails w (x >>= f) e (is ++ js) := by
  intro ks
  rw [CM.bind_ok (h ks), h', List.append_assoc]

theorem Emits.fails0 {α β : Type} {x : WM α} {f : α → WM β} {a : α} {e : PyErr} {js : List Instr} (h : Emits w x a [])
    (h' : Fails w (f a) e js) : Fails w (x >>= f) e js := by
  have := h.fails h'
  rwa [List.nil_append] at this

theorem Placed.fails_readoutXIntoAncilla (P : Placed L dh dw w) (hc : L.code = .xzzx) (h : dh = 1) :
    Fails w L.readoutXIntoAncilla .valueError [.reset (ancQ L.name), .gate1 .h (ancQ L.name) none] := by
  unfold Lattice.readoutXIntoAncilla
  rw [P.anc_qubits, hc]
  simp only [filter_odd_congr]
  refine Emits.fails (is := [.reset (ancQ L.name)]) (js := [.gate1 .h (ancQ L.name) none]) (emits_reset (by simpa using P.ancQ_mem))
    (P.columnIdx.fails0 (Emits.fails (is := [.gate1 .h (ancQ L.name) none]) (js := []) (emits_gate1_one P.ancQ_mem) (Fails.bind (Fails.lift ?_))))
  rw [col_odd_flat P.odd h]
  exact atList_nil _

theorem Placed.fails_readoutZIntoAncilla (P : Placed L dh dw w) (hc : L.code = .xzzx) (h : dw = 1) :
    Fails w L.readoutZIntoAncilla .valueError
      [.reset (ancQ L.name), .gate1 .h (ancQ L.name) none, .gate2 .cx (ancQ L.name) (dataQ L.name 0), .gate1 .h (ancQ L.name) none] := by
  unfold Lattice.readoutZIntoAncilla
  rw [P.anc_qubits, hc]
  simp only [filter_odd_congr, filter_even_congr]
  have e : ((rowQubits dw 0).filter fun i => decide (i % 2 = 0)) = [0] := by
    subst h; rfl
  have h0 : ∀ i ∈ ([0] : List Int), 0 ≤ i ∧ i < dh * dw := by
    intro i hi
    rw [List.mem_singleton] at hi
    subst hi
    exact ⟨le_refl _, P.size_pos⟩
  exact Emits.fails (is := [.reset (ancQ L.name)]) (emits_reset (by simpa using P.ancQ_mem))
    (P.rowIdx.fails0 (by
      rw [e, row_odd_flat h]
      exact Emits.fails (is := [.gate1 .h (ancQ L.name) none]) (emits_gate1_one P.ancQ_mem)
        (Emits.fails0 (Emits.lift (P.atList (by simp) h0))
          (Emits.fails (is := [.gate2 .cx (ancQ L.name) (dataQ L.name 0)]) (P.emits_cxFrom (l := [0]) (by simp) h0)
            (Emits.fails (is := [.gate1 .h (ancQ L.name) none]) (js := []) (emits_gate1_one P.ancQ_mem) (Fails.bind (Fails.lift rfl)))))))

/-! ### Logical controlled-not -/

theorem qcx_one {c t : Option Qubit} (h : (c.isSome ^^ t.isSome) = true) : q.cx c t = q.lat.cx c t := by
  unfold TQubit.cx
  rw [h]
  rfl

end Qtc
