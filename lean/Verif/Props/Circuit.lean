import Verif.Proof.Partial
/-!
Properties C11, C49 to C54, C62 and C80: what the operations of a qubit add to its circuit.
-/
namespace Qtc
open Spec

variable {cls : QClass} {q : TQubit} {dh dw : Int} {ops : List QOp} {w : World}

theorem Spec.AfterAlone.after (A : AfterAlone cls q dh dw ops w) : After cls q dh dw ops w := by
  obtain ⟨w0, w1, h0, B, rfl⟩ := A
  exact ⟨w0, w1, by rw [h0]; exact wellFormed_empty, (by rw [h0]; exact fun s _ h => by cases h), B, rfl⟩

theorem Spec.After.own (A : After cls q dh dw ops w) : WellFormed w.circ ∧ Own q.lat dh dw ((ops.count .stabilize : Nat) - 1 : Int) w := by
  obtain ⟨w0, w1, W, hf, B, rfl⟩ := A
  obtain ⟨W1, O1⟩ := B.own W hf
  obtain ⟨W2, O2, -⟩ := fine_ops ops W1 O1
  rw [roundsOf_eq] at O2
  rw [show ((ops.count .stabilize : Nat) : Int) - 1 = -1 + (ops.count .stabilize : Nat) by omega]
  exact ⟨W2, O2⟩

theorem Spec.After.code (A : After cls q dh dw ops w) : q.lat.code = cls.code := by
  obtain ⟨w0, w1, -, -, B, -⟩ := A
  exact B.name_eq

/-- There are such states: every odd positive size, every history. -/
theorem afterAlone_exists (cls : QClass) (name : Str) (H : OddPos dh dw) (hrep : cls = .rep → dw = 1) (ops : List QOp) :
    ∃ q w, AfterAlone cls q dh dw ops w ∧ q.lat.name = name := by
  let w0 : World := ⟨fun _ => { d := some (.tup [.int dh, .int dw]) }, 1, {}⟩
  obtain ⟨q, w, -, B, hn⟩ := built_of_size cls name w0 0 H rfl (fun h => hrep h) (by intro g _ h; cases h)
  exact ⟨q, _, ⟨w0, w, rfl, B, rfl⟩, hn⟩

/-! ### C49 -/

/-- C49: after any history of operations (with any arguments, going on after exceptions) the circuit is well formed: register
names are distinct and every instruction refers to existing bits; and no operation fails because a name is taken. -/
theorem C49_well_formed (A : AfterAlone cls q dh dw ops w) :
    WellFormed w.circ ∧ ∀ o, (q.op o w).1 ≠ .error .nameTaken := by
  obtain ⟨W, O⟩ := A.after.own
  exact ⟨W, fun o => (fine o W O).name⟩

/-- C49, on a circuit that already holds other things. -/
theorem C49_with_others (A : After cls q dh dw ops w) : WellFormed w.circ ∧ ∀ o, (q.op o w).1 ≠ .error .nameTaken := by
  obtain ⟨W, O⟩ := A.own
  exact ⟨W, fun o => (fine o W O).name⟩

example : ∃ q w, AfterAlone .xxzz q 3 5 [.stabilize, .readoutX none, .stabilize, .latticeReadoutZ] w ∧
    w.circ.names.Nodup ∧ (q.op .stabilize w).1 ≠ .error .nameTaken := by
  obtain ⟨q, w, A, -⟩ := afterAlone_exists (dh := 3) (dw := 5) .xxzz "a".toList (by unfold OddPos; decide) (by simp)
    [.stabilize, .readoutX none, .stabilize, .latticeReadoutZ]
  obtain ⟨W, h⟩ := C49_well_formed A
  refine ⟨q, w, A, ?_, h _⟩
  unfold Circ.names
  refine List.nodup_append.2 ⟨W.qnames, W.cnames, ?_⟩
  intro a ha b hb
  obtain ⟨x, hx, rfl⟩ := List.mem_map.1 ha
  obtain ⟨y, hy, rfl⟩ := List.mem_map.1 hb
  exact W.disjoint x hx y hy

/-! ### C11, C50 -/

/-- C50: after any history with `k` stabilizations, `stabilize()` succeeds, and adds exactly one classical register named
after `k` with one bit per plaquette, and the following instructions: every X plaquette then every Z plaquette is entangled
with its syndrome qubit, Z syndromes are measured into the low bits and X syndromes into the high bits in order, every
syndrome qubit is reset. -/
theorem C50_stabilize (A : After cls q dh dw ops w) :
    ∃ w', q.op .stabilize w = (.ok (), w') ∧
      w'.circ.qregs = w.circ.qregs ∧
      w'.circ.cregs = w.circ.cregs ++
        [⟨q.lat.name ++ "_c".toList ++ strNat (ops.count .stabilize), (xSites dh dw).length + (zSites dh dw).length⟩] ∧
      w'.circ.instrs = w.circ.instrs ++ (entangleXGates cls.code q.lat.name dh dw ++ entangleZGates cls.code q.lat.name dh dw ++
        measureSyn q.lat.name (xSites dh dw).length (zSites dh dw).length
          (q.lat.name ++ "_c".toList ++ strNat (ops.count .stabilize)) ++
        resetSyn q.lat.name (xSites dh dw).length (zSites dh dw).length ++ [.barrier]) := by
  obtain ⟨W, O⟩ := A.own
  have hn : roundName q.lat.name ((ops.count .stabilize : Nat) - 1 + 1 : Int) = q.lat.name ++ "_c".toList ++ strNat (ops.count .stabilize) := by
    unfold roundName
    rw [show ((ops.count .stabilize : Nat) - 1 + 1 : Int) = ((ops.count .stabilize : Nat) : Int) by omega, strInt_nat]
  have hs : (numSynX dh dw + numSynZ dh dw).toNat = (xSites dh dw).length + (zSites dh dw).length := by
    obtain ⟨-, hx, hz⟩ := numSyn_pos O.placed.odd
    rw [xSites_length O.placed.odd, zSites_length O.placed.odd]
    omega
  have hr := O.stabilize_run
  rw [hn, hs, stabInstrs_eq O.placed.odd, A.code] at hr
  exact ⟨_, hr, rfl, rfl, rfl⟩

/-- C11: in particular stabilization never complains about an inconsistent lattice (nor about anything else). -/
theorem C11_no_lattice_error (A : After cls q dh dw ops w) : (q.op .stabilize w).1 ≠ .error .latticeError := by
  obtain ⟨w', h, -⟩ := C50_stabilize A
  rw [h]
  exact fun e => by cases e

/-- C11: every odd positive size can be built and then stabilized. -/
theorem C11_all_sizes (cls : QClass) (name : Str) (H : OddPos dh dw) (hrep : cls = .rep → dw = 1) :
    ∃ q w, AfterAlone cls q dh dw [] w ∧ q.lat.name = name ∧ (q.op .stabilize w).1 = .ok () := by
  obtain ⟨q, w, A, hn⟩ := afterAlone_exists cls name H hrep []
  obtain ⟨w', h, -⟩ := C50_stabilize A.after
  exact ⟨q, w, A, hn, by rw [h]⟩

/-- The guard of C11 is not idle: a plaquette with only its right corners is refused. -/
example (w : World) (s a b : Qubit) : (entangleXXXX ⟨s, none, some a, none, some b⟩ w).1 = .error .latticeError := rfl

/-- The first round of a repetition code with three qubits: two Z checks, between data qubits 0, 1 and 1, 2. -/
example : ∃ q w w', AfterAlone .rep q 3 1 [] w ∧ q.op .stabilize w = (.ok (), w') ∧ w.circ.instrs = [] ∧ w'.circ.instrs =
    [.gate2 .cx (dataQ "a".toList 0) (mzQ "a".toList 0), .gate2 .cx (dataQ "a".toList 1) (mzQ "a".toList 0), .barrier,
      .gate2 .cx (dataQ "a".toList 1) (mzQ "a".toList 1), .gate2 .cx (dataQ "a".toList 2) (mzQ "a".toList 1), .barrier,
      .measure (mzQ "a".toList 0) ⟨"a_c0".toList, 0⟩, .measure (mzQ "a".toList 1) ⟨"a_c0".toList, 1⟩,
      .reset (mzQ "a".toList 0), .reset (mzQ "a".toList 1), .barrier] := by
  obtain ⟨q, w, A, hn⟩ := afterAlone_exists (dh := 3) (dw := 1) .rep "a".toList (by unfold OddPos; decide) (fun _ => rfl) []
  obtain ⟨w', h1, -, -, h2⟩ := C50_stabilize A.after
  have h0 : w.circ.instrs = [] := by
    obtain ⟨w0, w1, h0, B, rfl⟩ := A
    obtain ⟨-, -, ⟨p, w2, hc, rfl, -⟩, -⟩ := B.inv
    show w2.circ.instrs = []
    rw [hc, h0]
  refine ⟨q, w, w', A, h1, h0, ?_⟩
  rw [h2, h0, hn]
  decide

/-! ### C51 -/

/-- Bit `k` of register `r`. -/
def bitOf (mem : Clbit → Bool) (r : Str) (k : Nat) : Bool := mem ⟨r, k⟩

theorem reverse_range_map {α : Type} (f : Nat → α) (n : Nat) : ((List.range n).map f).reverse = (List.range n).reverse.map f :=
  (List.map_reverse).symm

theorem Spec.AfterAlone.cregs (A : AfterAlone cls q dh dw ops w) (hq : ∀ o ∈ ops, o.quiet = true) :
    w.circ.cregs = (List.range (ops.count .stabilize)).map (fun (k : Nat) => roundReg q.lat.name dh dw k) ∧
    (w.heap q.lat.pref).numReadout = some (-1) ∧ (w.heap q.lat.pref).numLatticeReadout = some (-1) := by
  obtain ⟨w0, w1, h0, B, rfl⟩ := A
  obtain ⟨W, O⟩ := B.alone h0
  obtain ⟨H, hL, ⟨p, w2, hc, hw, V, -, -⟩, -⟩ := B.inv
  have hh : w1.heap q.lat.pref = p := by rw [hw, World.addQs_heap, World.setP_heap_self]
  have hcr : w1.circ.cregs = [] := by
    rw [hw]
    show w2.circ.cregs = []
    rw [hc, h0]
  obtain ⟨i1, i2⟩ := quiet_cregs ops hq W O (-1) (by rw [hh]; exact V.nr) (-1) (by rw [hh]; exact V.nl)
  refine ⟨?_, i2⟩
  rw [i1, hcr, List.nil_append]
  refine List.map_congr_left fun k _ => ?_
  congr 1
  omega

/-- The result string of a circuit: the groups of its classical registers. -/
theorem groups_append (mem : Clbit → Bool) (l : List Reg) (r : Reg) : groups mem (l ++ [r]) = groupString mem r :: groups mem l := by
  unfold groups
  rw [List.reverse_append]
  rfl

theorem groupString_one (mem : Clbit → Bool) (n : Str) : groupString mem ⟨n, 1⟩ = [if mem ⟨n, 0⟩ then '1' else '0'] := rfl

theorem roundBits (H : OddPos dh dw) (mem : Clbit → Bool) (name : Str) (n : Nat) :
    changes (xSites dh dw) ((List.range n).map fun (t : Nat) => xBits (zSites dh dw).length (groupString mem (roundReg name dh dw t))) =
      changes (xSites dh dw) ((List.range n).map fun (t : Nat) => fun k => mem ⟨roundName name t, (zSites dh dw).length + k⟩) ∧
    changes (zSites dh dw) ((List.range n).map fun (t : Nat) => zBits (groupString mem (roundReg name dh dw t))) =
      changes (zSites dh dw) ((List.range n).map fun (t : Nat) => fun k => mem ⟨roundName name t, k⟩) := by
  obtain ⟨-, hx, hz⟩ := numSyn_pos H
  have lx := xSites_length H
  have lz := zSites_length H
  constructor
  · refine changes_congr (by simp) ?_
    intro t k a a' ha ha' hk
    rw [List.getElem?_map] at ha ha'
    rcases ht : (List.range n)[t]? with _ | t'
    · rw [ht] at ha; cases ha
    · rw [ht] at ha ha'
      cases ha
      cases ha'
      exact groupString_bit mem _ (by unfold roundReg; simp only; omega)
  · refine changes_congr (by simp) ?_
    intro t k a a' ha ha' hk
    rw [List.getElem?_map] at ha ha'
    rcases ht : (List.range n)[t]? with _ | t'
    · rw [ht] at ha; cases ha
    · rw [ht] at ha ha'
      cases ha
      cases ha'
      exact groupString_bit mem _ (by unfold roundReg; simp only; omega)

/-- C51, logical readout: after any history without readouts, with `n` stabilizations, and then one logical readout, qiskit's
result string for any contents of the classical bits is the readout bit followed by the rounds, the last one first; and
`parse_readout` of that string gives the readout bit and the changes of the measured bits: of the high bits for the X
plaquettes and the low bits for the Z plaquettes, in the order of the rounds. -/
theorem C51_logical (A : AfterAlone cls q dh dw ops w) (hq : ∀ o ∈ ops, o.quiet = true) (hbig : 1 < dh * dw) (o : QOp)
    (ho : o = .readoutX none ∨ o = .readoutZ none) (mem : Clbit → Bool) (rt : RType) :
    groups mem (q.op o w).2.circ.cregs =
      [if mem ⟨q.lat.name ++ "_readout_0".toList, 0⟩ then '1' else '0'] ::
        (List.range (ops.count .stabilize)).reverse.map (fun t => groupString mem
          ⟨q.lat.name ++ "_c".toList ++ strNat t, (xSites dh dw).length + (zSites dh dw).length⟩) ∧
    parseReadout dh dw (joinSp (groups mem (q.op o w).2.circ.cregs)) rt = .ok
      (if mem ⟨q.lat.name ++ "_readout_0".toList, 0⟩ then 1 else 0,
        { X := changes (xSites dh dw) ((List.range (ops.count .stabilize)).map fun t k =>
            mem ⟨q.lat.name ++ "_c".toList ++ strNat t, (zSites dh dw).length + k⟩)
          Z := changes (zSites dh dw) ((List.range (ops.count .stabilize)).map fun t k =>
            mem ⟨q.lat.name ++ "_c".toList ++ strNat t, k⟩) }) := by
  obtain ⟨W, O⟩ := A.after.own
  have H := O.placed.odd
  obtain ⟨hcr, hr, -⟩ := A.cregs hq
  obtain ⟨hs, hx, hz⟩ := numSyn_pos H
  have hname : readoutName q.lat.name (-1 + 1) = q.lat.name ++ "_readout_0".toList := by
    unfold readoutName
    rw [List.append_assoc]
    rfl
  have e := readout_cregs ho O (-1) hr
  have hg : groups mem (q.op o w).2.circ.cregs = [if mem ⟨q.lat.name ++ "_readout_0".toList, 0⟩ then '1' else '0'] ::
      ((List.range (ops.count .stabilize)).map fun (t : Nat) => groupString mem (roundReg q.lat.name dh dw t)).reverse := by
    rw [e, groups_append, groupString_one, hname, hcr]
    unfold groups
    rw [← List.map_reverse, List.map_map, ← List.map_reverse]
    rfl
  constructor
  · rw [hg, ← List.map_reverse]
    congr 1
    refine List.map_congr_left fun t _ => ?_
    unfold roundReg roundName
    rw [strInt_nat, xSites_length H, zSites_length H]
    congr 2
    omega
  · rw [hg, C15_parse_is_changes dh dw H hbig rt _ (by split <;> decide) _ (by
      intro s hs'
      obtain ⟨t, -, rfl⟩ := List.mem_map.1 hs'
      exact groupString_isBits mem (by unfold roundReg; simp only; omega))]
    rw [List.map_map, List.map_map]
    have hb := roundBits H mem q.lat.name (ops.count .stabilize)
    unfold roundName at hb
    simp only [strInt_nat] at hb
    rw [← hb.1, ← hb.2]
    congr 2
    split <;> rfl

/-- C51, lattice readout: the same with a readout of all data qubits; `parse_readout` of the string as a Z readout gives the
parity of the top row and the changes, with one more round made of the parities of the data bits. -/
theorem C51_lattice (A : AfterAlone cls q dh dw ops w) (hq : ∀ o ∈ ops, o.quiet = true) (hbig : 1 < dh * dw) (n : Nat)
    (hn : ops.count .stabilize = n + 1) (o : QOp)
    (ho : o = .latticeReadoutX ∨ o = .latticeReadoutZ) (mem : Clbit → Bool) :
    groups mem (q.op o w).2.circ.cregs =
      groupString mem ⟨q.lat.name ++ "_lattice_readout_0".toList, (dh * dw).toNat⟩ ::
        (List.range (n + 1)).reverse.map (fun t => groupString mem
          ⟨q.lat.name ++ "_c".toList ++ strNat t, (xSites dh dw).length + (zSites dh dw).length⟩) ∧
    parseReadout dh dw (joinSp (groups mem (q.op o w).2.circ.cregs)) .Z = .ok
      (if xorAll ((rowQubits dw 0).map fun i => mem ⟨q.lat.name ++ "_lattice_readout_0".toList, i.toNat⟩) then 1 else 0,
        { X := changes (xSites dh dw) (((List.range (n + 1)) ++ [n]).map fun t k =>
            mem ⟨q.lat.name ++ "_c".toList ++ strNat t, (zSites dh dw).length + k⟩)
          Z := changes (zSites dh dw) ((List.range (n + 1)).map (fun t k => mem ⟨q.lat.name ++ "_c".toList ++ strNat t, k⟩) ++
            [fun k => match (zSites dh dw)[k]? with
              | some s => parityOn (fun i => mem ⟨q.lat.name ++ "_lattice_readout_0".toList, i.toNat⟩) (cornersOf dh dw s.1 s.2)
              | none => false]) }) := by
  obtain ⟨W, O⟩ := A.after.own
  have H := O.placed.odd
  obtain ⟨hcr, -, hr⟩ := A.cregs hq
  obtain ⟨hs, hx, hz⟩ := numSyn_pos H
  have lx := xSites_length H
  have lz := zSites_length H
  have hname : latticeName q.lat.name (-1 + 1) = q.lat.name ++ "_lattice_readout_0".toList := by
    unfold latticeName
    rw [List.append_assoc]
    rfl
  have e := lattice_cregs ho O (-1) hr
  have hg : groups mem (q.op o w).2.circ.cregs = groupString mem ⟨q.lat.name ++ "_lattice_readout_0".toList, (dh * dw).toNat⟩ ::
      ((List.range (n + 1)).map fun (t : Nat) => groupString mem (roundReg q.lat.name dh dw t)).reverse := by
    rw [e, groups_append, hname, hcr, hn]
    unfold groups
    rw [← List.map_reverse, List.map_map, ← List.map_reverse]
    rfl
  have hsz : ∀ t : Nat, (roundReg q.lat.name dh dw t).size = (xSites dh dw).length + (zSites dh dw).length := by
    intro t; unfold roundReg; simp only; omega
  constructor
  · rw [hg, ← List.map_reverse]
    congr 1
    refine List.map_congr_left fun t _ => ?_
    unfold roundReg roundName
    rw [strInt_nat, lx, lz]
    congr 2
    omega
  · have hdata : ∀ i, 0 ≤ i → i < dh * dw → dataBit (groupString mem ⟨q.lat.name ++ "_lattice_readout_0".toList, (dh * dw).toNat⟩) i =
        mem ⟨q.lat.name ++ "_lattice_readout_0".toList, i.toNat⟩ := by
      intro i h0 h1
      exact groupString_bit mem _ (by simp only; omega)
    have hb : ∀ s ∈ (List.range (n + 1)).map fun (t : Nat) => groupString mem (roundReg q.lat.name dh dw t), IsBits s := by
      intro s hs'
      obtain ⟨t, -, rfl⟩ := List.mem_map.1 hs'
      exact groupString_isBits mem (by rw [hsz]; omega)
    rw [List.range_succ, List.map_append, List.map_cons, List.map_nil] at hb
    rw [hg, List.range_succ, List.map_append, List.map_cons, List.map_nil,
      C19_z_lattice_readout dh dw H hbig _ (groupString_bits mem _) (by rw [groupString_length]; simp only; omega) _
        (fun s h => hb s (by simp only [List.mem_append]; exact Or.inl h)) _ (hb _ (by simp)) (by rw [groupString_length, hsz])]
    have e1 : (rowQubits dw 0).map (dataBit (groupString mem ⟨q.lat.name ++ "_lattice_readout_0".toList, (dh * dw).toNat⟩)) =
        (rowQubits dw 0).map fun i => mem ⟨q.lat.name ++ "_lattice_readout_0".toList, i.toNat⟩ := by
      refine List.map_congr_left fun i hi => ?_
      have := row_range H i hi
      exact hdata i this.1 this.2
    rw [e1]
    congr 2
    have hX : ∀ t : Nat, ∀ k, k < (xSites dh dw).length →
        xBits (zSites dh dw).length (groupString mem (roundReg q.lat.name dh dw t)) k =
          mem ⟨q.lat.name ++ "_c".toList ++ strNat t, (zSites dh dw).length + k⟩ := by
      intro t k hk
      have := groupString_bit mem (roundReg q.lat.name dh dw t) (i := (zSites dh dw).length + k) (by rw [hsz]; omega)
      unfold roundReg roundName at this
      simp only [strInt_nat] at this
      exact this
    have hZ : ∀ t : Nat, ∀ k, k < (zSites dh dw).length → zBits (groupString mem (roundReg q.lat.name dh dw t)) k =
          mem ⟨q.lat.name ++ "_c".toList ++ strNat t, k⟩ := by
      intro t k hk
      have := groupString_bit mem (roundReg q.lat.name dh dw t) (i := k) (by rw [hsz]; omega)
      unfold roundReg roundName at this
      simp only [strInt_nat] at this
      exact this
    congr 1
    · have el : (List.map (fun (t : Nat) => groupString mem (roundReg q.lat.name dh dw t)) (List.range n) ++
          [groupString mem (roundReg q.lat.name dh dw n), groupString mem (roundReg q.lat.name dh dw n)]) =
          (List.range n ++ [n] ++ [n]).map fun (t : Nat) => groupString mem (roundReg q.lat.name dh dw t) := by simp
      rw [el, List.map_map]
      refine changes_congr (by simp) ?_
      intro t k a a' ha ha' hk
      rw [List.getElem?_map] at ha ha'
      rcases ht : (List.range n ++ [n] ++ [n])[t]? with _ | t'
      · rw [ht] at ha; cases ha
      · rw [ht] at ha ha'
        cases ha
        cases ha'
        exact hX t' k hk
    · have el : (List.map (fun (t : Nat) => groupString mem (roundReg q.lat.name dh dw t)) (List.range n) ++
          [groupString mem (roundReg q.lat.name dh dw n)]) =
          (List.range n ++ [n]).map fun (t : Nat) => groupString mem (roundReg q.lat.name dh dw t) := by simp
      rw [el, List.map_map]
      refine changes_congr (by simp) ?_
      intro t k a a' ha ha' hk
      by_cases ht : t < (List.range n ++ [n]).length
      · rw [List.getElem?_append_left (by rw [List.length_map]; exact ht), List.getElem?_map, List.getElem?_eq_getElem ht] at ha ha'
        cases ha
        cases ha'
        exact hZ _ k hk
      · rw [List.getElem?_append_right (by rw [List.length_map]; omega)] at ha ha'
        rw [List.length_map] at ha ha'
        rcases hm : t - (List.range n ++ [n]).length with _ | j
        · rw [hm] at ha ha'
          cases ha
          cases ha'
          unfold zParities
          obtain ⟨s, hs'⟩ : ∃ s, (zSites dh dw)[k]? = some s := ⟨_, List.getElem?_eq_getElem hk⟩
          simp only [hs']
          unfold parityOn
          congr 1
          refine List.map_congr_left fun c hc => ?_
          rcases c with _ | i
          · rfl
          · obtain ⟨r, c, hrc, rfl⟩ := mem_cornersOf_inRange hc
            have := mem_allQubits.1 (site_mem hrc)
            exact hdata _ this.1 this.2
        · rw [hm] at ha
          cases ha

/-- Two rounds of a repetition code with three qubits; the second bit of the second round is set: an event at the second Z
plaquette between the two rounds. -/
example : ∃ q w, AfterAlone .rep q 3 1 [.stabilize, .idData, .stabilize] w ∧
    groups (fun c => c = ⟨"a_c1".toList, 1⟩) (q.op (.readoutZ none) w).2.circ.cregs = ["0".toList, "10".toList, "00".toList] ∧
    parseReadout 3 1 "0 10 00".toList .Z = .ok (0, { X := [], Z := [{ t := 0, r2 := 3, c2 := -1 }] }) := by
  obtain ⟨q, w, A, hn⟩ := afterAlone_exists (dh := 3) (dw := 1) .rep "a".toList (by unfold OddPos; decide) (fun _ => rfl)
    [.stabilize, .idData, .stabilize]
  have h := C51_logical A (by decide) (by decide) (.readoutZ none) (Or.inr rfl) (fun c => c = ⟨"a_c1".toList, 1⟩) .Z
  rw [hn] at h
  have h1 := h.1.trans (show _ = ["0".toList, "10".toList, "00".toList] by decide)
  refine ⟨q, w, A, h1, ?_⟩
  have h2 := h.2
  rw [h1] at h2
  exact h2.trans (by decide)

/-! ### C52 -/

/-- C52, partial: on lattices wider than 1 `entangle_x` adds exactly the gates of the X plaquettes; on two-dimensional lattices
`entangle_z` adds exactly those of the Z plaquettes. What is missing (and false, see below): one-dimensional lattices. -/
theorem C52_entangle_partial (A : After cls q dh dw ops w) (hw : 1 < dw) :
    q.op .entangleX w = (.ok (), { w with circ := { w.circ with instrs := w.circ.instrs ++ entangleXGates cls.code q.lat.name dh dw } }) ∧
    (1 < dh → q.op .entangleZ w =
      (.ok (), { w with circ := { w.circ with instrs := w.circ.instrs ++ entangleZGates cls.code q.lat.name dh dw } })) := by
  obtain ⟨W, O⟩ := A.own
  have P := O.placed
  rw [← A.code]
  constructor
  · have := (P.emits_entangleX ((numSynX_pos P.odd).2 hw)).run
    rw [instrsChecks_x P.odd] at this
    exact this
  · intro hh
    have := (P.emits_entangleZ ((numSynX_pos P.odd).2 hw) ((numSynZ_pos P.odd).2 hh)).run
    rw [instrsChecks_z P.odd] at this
    exact this

/-- C52 fails on lattices of height 1: `entangle_z` entangles all X plaquettes instead of doing nothing. -/
theorem C52_false_height_one (A : After cls q 1 dw ops w) (hw : 1 < dw) :
    entangleZGates cls.code q.lat.name 1 dw = [] ∧ entangleXGates cls.code q.lat.name 1 dw ≠ [] ∧
    q.op .entangleZ w = (.ok (), { w with circ := { w.circ with instrs := w.circ.instrs ++ entangleXGates cls.code q.lat.name 1 dw } }) := by
  obtain ⟨W, O⟩ := A.own
  have P := O.placed
  refine ⟨?_, ?_, ?_⟩
  · have : zSites 1 dw = [] := by
      refine List.length_eq_zero_iff.1 ?_
      rw [zSites_length P.odd]
      have := (numSynZ_pos P.odd).not.2 (by omega)
      omega
    unfold entangleZGates
    rw [this]; rfl
  · have hl : 0 < (xSites 1 dw).length := by
      rw [xSites_length P.odd]
      have := (numSynX_pos P.odd).2 hw
      omega
    unfold entangleXGates
    rcases hx : xSites 1 dw with _ | ⟨s, l⟩
    · rw [hx] at hl; simp at hl
    · simp [List.zipIdx_cons]
  · rw [← A.code]
    exact (P.emits_entangleZ_flat hw rfl).run

/-- C52 fails on lattices of width 1: both raise `KeyError`. -/
theorem C52_false_width_one (A : After cls q dh 1 ops w) :
    q.op .entangleX w = (.error .keyError, w) ∧ q.op .entangleZ w = (.error .keyError, w) := by
  obtain ⟨W, O⟩ := A.own
  exact ⟨entangleX_no O.placed rfl, entangleZ_no O.placed rfl⟩

/-- Such lattices exist: the repetition code with three qubits cannot entangle only its Z plaquettes. -/
example : ∃ q w, AfterAlone .rep q 3 1 [] w ∧ q.op .entangleZ w = (.error .keyError, w) := by
  obtain ⟨q, w, A, -⟩ := afterAlone_exists (dh := 3) (dw := 1) .rep "a".toList (by unfold OddPos; decide) (fun _ => rfl) []
  exact ⟨q, w, A, (C52_false_width_one A.after).2⟩

/-! ### C53 -/

/-- C53: `id_data()` adds exactly one identity gate per data qubit (and a barrier). -/
theorem C53_id_data (A : After cls q dh dw ops w) : q.op .idData w = (.ok (), { w with circ := { w.circ with instrs := w.circ.instrs ++
    ((allQubits dh dw).map (fun i => Instr.gate1 .id (dataQ q.lat.name i) none) ++ [.barrier]) } }) := by
  obtain ⟨W, O⟩ := A.own
  have := O.placed.emits_idData.run
  unfold dataQs at this
  rw [List.map_map] at this
  exact this

/-- C53: `id()` adds exactly one identity gate per physical qubit of the lattice: data, Z syndrome, X syndrome qubits and the
ancilla (and a barrier). -/
theorem C53_id (A : After cls q dh dw ops w) : q.op .id w = (.ok (), { w with circ := { w.circ with instrs := w.circ.instrs ++
    (((allQubits dh dw).map (dataQ q.lat.name) ++ (List.range (zSites dh dw).length).map (fun (k : Nat) => mzQ q.lat.name k) ++
      (List.range (xSites dh dw).length).map (fun (k : Nat) => mxQ q.lat.name k) ++ [ancQ q.lat.name]).map
        (fun x => Instr.gate1 .id x none) ++ [.barrier]) } }) := by
  obtain ⟨W, O⟩ := A.own
  have := O.placed.emits_id.run
  unfold idInstrs at this
  rw [O.placed.all_qubits] at this
  exact this

/-- C53: the qubits in that list are pairwise different. -/
theorem C53_once_each (name : Str) (dh dw : Int) (nz nx : Nat) : ((allQubits dh dw).map (dataQ name) ++
    (List.range nz).map (fun (k : Nat) => mzQ name k) ++ (List.range nx).map (fun (k : Nat) => mxQ name k) ++ [ancQ name]).Nodup := by
  have i1 : ((allQubits dh dw).map (dataQ name)).Nodup := by
    unfold allQubits
    rw [List.map_map]
    refine List.Nodup.map_on ?_ List.nodup_range
    intro a _ b _ e
    have := congrArg Qubit.idx e
    simpa [dataQ] using this
  have i2 : ((List.range nz).map (fun (k : Nat) => mzQ name k)).Nodup := by
    refine List.Nodup.map_on ?_ List.nodup_range
    intro a _ b _ e
    have := congrArg Qubit.idx e
    simpa [mzQ] using this
  have i3 : ((List.range nx).map (fun (k : Nat) => mxQ name k)).Nodup := by
    refine List.Nodup.map_on ?_ List.nodup_range
    intro a _ b _ e
    have := congrArg Qubit.idx e
    simpa [mxQ] using this
  refine List.nodup_append.2 ⟨List.nodup_append.2 ⟨List.nodup_append.2 ⟨i1, i2, ?_⟩, i3, ?_⟩, List.nodup_singleton _, ?_⟩
  · intro a ha b hb
    obtain ⟨x, -, rfl⟩ := List.mem_map.1 ha
    obtain ⟨y, -, rfl⟩ := List.mem_map.1 hb
    exact dataQ_ne_mz _ _ _
  · intro a ha b hb
    obtain ⟨y, -, rfl⟩ := List.mem_map.1 hb
    rcases List.mem_append.1 ha with ha | ha
    · obtain ⟨x, -, rfl⟩ := List.mem_map.1 ha
      exact dataQ_ne_mx _ _ _
    · obtain ⟨x, -, rfl⟩ := List.mem_map.1 ha
      exact (mxQ_ne_mz _ _ _).symm
  · intro a ha b hb
    rw [List.mem_singleton] at hb
    subst hb
    rcases List.mem_append.1 ha with ha | ha
    · rcases List.mem_append.1 ha with ha | ha
      · obtain ⟨x, -, rfl⟩ := List.mem_map.1 ha
        exact dataQ_ne_anc _ _
      · obtain ⟨x, -, rfl⟩ := List.mem_map.1 ha
        intro e
        exact name_ne (by decide) (congrArg Qubit.reg e)
    · obtain ⟨x, -, rfl⟩ := List.mem_map.1 ha
      intro e
      exact name_ne (by decide) (congrArg Qubit.reg e)

example : ∃ q w, AfterAlone .xxzz q 1 3 [.stabilize] w ∧ (q.op .idData w).2.circ.instrs = w.circ.instrs ++
    [.gate1 .id (dataQ "a".toList 0) none, .gate1 .id (dataQ "a".toList 1) none, .gate1 .id (dataQ "a".toList 2) none, .barrier] := by
  obtain ⟨q, w, A, hn⟩ := afterAlone_exists (dh := 1) (dw := 3) .xxzz "a".toList (by unfold OddPos; decide) (by simp) [.stabilize]
  refine ⟨q, w, A, ?_⟩
  rw [C53_id_data A.after, hn]
  rfl

/-! ### C54 -/

/-- C54: `cx` raises `ValueError` and changes nothing unless exactly one of control and target is given. -/
theorem C54_cx_arguments (q : TQubit) (w : World) (c t : Option Qubit) (h : c.isSome = t.isSome) :
    q.op (.cx c t) w = (.error .valueError, w) := by
  show q.cx c t w = _
  unfold TQubit.cx
  rw [h, if_pos (by simp)]
  rfl

/-- C54, converse: with exactly one of them, `ValueError` is not raised by that check; on an XXZZ or repetition qubit the call
succeeds for every qubit of the circuit that is not one of those it is combined with. -/
theorem C54_cx_accepted (A : After cls q dh dw ops w) (x : Qubit) (hx : HasQubit w.circ x) :
    (x.reg ≠ q.lat.name ++ "_data".toList → (q.op (.cx (some x) none) w).1 = .ok ()) ∧
    (x.reg ≠ q.lat.name ++ "_ancilla".toList → cls ≠ .xzzx ∨ 1 < dw → (q.op (.cx none (some x)) w).1 = .ok ()) := by
  obtain ⟨W, O⟩ := A.own
  have P := O.placed
  have hm : x ∈ w.circ.qubits := mem_circ_qubits.2 hx
  constructor
  · intro h
    show (q.cx (some x) none w).1 = _
    rw [qcx_one rfl, (P.emits_cx_control none hm (by
      intro h'
      obtain ⟨i, -, rfl⟩ := List.mem_map.1 h'
      exact h rfl)).run]
  · intro h h'
    show (q.cx none (some x) w).1 = _
    rw [qcx_one rfl, (P.emits_cx_target (by
      rcases h' with h' | h'
      · right
        rw [A.code]
        cases cls <;> first | rfl | exact absurd rfl h'
      · exact Or.inl h') hm (by rintro rfl; exact h rfl)).run]

example (q : TQubit) (w : World) (a b : Qubit) : q.op (.cx (some a) (some b)) w = (.error .valueError, w) :=
  C54_cx_arguments q w _ _ rfl

/-! ### C62 -/

/-- C62, partial: on XZZX lattices of height greater than 1 `readout_x` succeeds, and on those of width greater than 1
`readout_z` succeeds, after any history. What is missing (and false, see below): the other one-dimensional lattices. -/
theorem C62_readouts_partial (A : After .xzzx q dh dw ops w) :
    (1 < dh → (q.op (.readoutX none) w).1 = .ok ()) ∧ (1 < dw → (q.op (.readoutZ none) w).1 = .ok ()) := by
  obtain ⟨W, O⟩ := A.own
  obtain ⟨a, ha, h1, hf⟩ := O.readout
  refine ⟨fun h => ?_, fun h => ?_⟩
  · show (q.lat.readoutX none w).1 = _
    rw [O.placed.readoutX_run (Or.inl h) ha (hf _ (by omega))]
  · show (q.lat.readoutZ none w).1 = _
    rw [O.placed.readoutZ_run (Or.inl h) ha (hf _ (by omega))]

/-- C62 fails for `readout_x` on every XZZX lattice of height 1, after any history: `ValueError`, after a register and two
instructions have been added. -/
theorem C62_false_x (A : After .xzzx q 1 dw ops w) : ∃ w', q.op (.readoutX none) w = (.error .valueError, w') ∧
    w'.circ.cregs.length = w.circ.cregs.length + 1 ∧ w'.circ.instrs.length = w.circ.instrs.length + 2 := by
  obtain ⟨W, O⟩ := A.own
  obtain ⟨a, ha, h1, hf⟩ := O.readout
  have hf := hf (a + 1) (by omega)
  have P' := (O.placed.setP (p := ((w.heap q.lat.pref).withReadout (a + 1))) ⟨rfl, rfl, rfl⟩).addC
    ⟨readoutName q.lat.name (a + 1), 1⟩
  have e : q.op (.readoutX none) w = _ := (CM.bind_ok (f := fun (r : Reg) => do
      q.lat.readoutXIntoAncilla
      measure q.lat.ancilla.qubits r.clbits
      barrier) (readoutReg_run ha hf))
  rw [CM.bind_error (P'.fails_readoutXIntoAncilla A.code rfl).run] at e
  refine ⟨_, e, ?_, ?_⟩
  · simp
  · simp

/-- C62 fails for `readout_z` on every XZZX lattice of width 1, after any history. -/
theorem C62_false_z (A : After .xzzx q dh 1 ops w) : ∃ w', q.op (.readoutZ none) w = (.error .valueError, w') ∧
    w'.circ.cregs.length = w.circ.cregs.length + 1 ∧ w'.circ.instrs.length = w.circ.instrs.length + 4 := by
  obtain ⟨W, O⟩ := A.own
  obtain ⟨a, ha, h1, hf⟩ := O.readout
  have hf := hf (a + 1) (by omega)
  have P' := (O.placed.setP (p := ((w.heap q.lat.pref).withReadout (a + 1))) ⟨rfl, rfl, rfl⟩).addC
    ⟨readoutName q.lat.name (a + 1), 1⟩
  have e : q.op (.readoutZ none) w = _ := (CM.bind_ok (f := fun (r : Reg) => do
      q.lat.readoutZIntoAncilla
      measure q.lat.ancilla.qubits r.clbits
      barrier) (readoutReg_run ha hf))
  rw [CM.bind_error (P'.fails_readoutZIntoAncilla A.code rfl).run] at e
  refine ⟨_, e, ?_, ?_⟩
  · simp
  · simp

example : ∃ q w, AfterAlone .xzzx q 3 1 [] w ∧ (q.op (.readoutZ none) w).1 = .error .valueError := by
  obtain ⟨q, w, A, -⟩ := afterAlone_exists (dh := 3) (dw := 1) .xzzx "a".toList (by unfold OddPos; decide) (by simp) []
  obtain ⟨w', h, -⟩ := C62_false_z A.after
  exact ⟨q, w, A, by rw [h]⟩

/-! ### C80 -/

/-- C80: on a two-dimensional lattice no operation with sensible arguments ever raises, after any history. -/
theorem C80_never_raises (A : After cls q dh dw ops w) (hh : 1 < dh) (hw : 1 < dw) (o : QOp) (ho : ValidArgs q w o) :
    (q.op o w).1 = .ok () := by
  obtain ⟨W, O⟩ := A.own
  have P := O.placed
  have hm : 1 < dh * dw := by nlinarith
  obtain ⟨a, ha, -, hfa⟩ := O.readout
  obtain ⟨b, hb, -, hfb⟩ := O.lattice
  have okE : ∀ {x : WM Unit} {is : List Instr}, Emits w x () is → (x w).1 = .ok () := fun h => by rw [h.run]
  cases o with
  | stabilize => obtain ⟨w', h, -⟩ := C50_stabilize A; rw [h]
  | entangleX => exact okE (P.emits_entangleX ((numSynX_pos P.odd).2 hw))
  | entangleZ => exact okE (P.emits_entangleZ ((numSynX_pos P.odd).2 hw) ((numSynZ_pos P.odd).2 hh))
  | id => exact okE P.emits_id
  | idData => exact okE P.emits_idData
  | resetX => exact okE (P.emits_resetX (Or.inl hm))
  | resetZ => exact okE P.emits_resetZ
  | x => exact okE P.emits_x
  | z => exact okE P.emits_z
  | xCIf c v => exact okE (P.emits_xCIf c ho)
  | zCIf c v => exact okE (P.emits_zCIf c ho)
  | cx c t =>
    rcases c with _ | c <;> rcases t with _ | t
    · exact ho.elim
    · exact (C54_cx_accepted A t ho.1).2 ho.2 (Or.inr hw)
    · exact (C54_cx_accepted A c ho.1).1 ho.2
    · exact ho.elim
  | readoutX r =>
    rcases r with _ | r
    · show (q.lat.readoutX none w).1 = _
      rw [P.readoutX_run (Or.inl hh) ha (hfa _ (by omega))]
    · exact okE (P.emits_readoutX (Or.inl hh) ho.1 ho.2)
  | readoutZ r =>
    rcases r with _ | r
    · show (q.lat.readoutZ none w).1 = _
      rw [P.readoutZ_run (Or.inl hw) ha (hfa _ (by omega))]
    · exact okE (P.emits_readoutZ (Or.inl hw) ho.1 ho.2)
  | latticeReadoutX =>
    show (q.lat.latticeReadoutX w).1 = _
    rw [P.latticeReadoutX_run (Or.inl hm) hb (hfb _ (by omega))]
  | latticeReadoutZ =>
    show (q.lat.latticeReadoutZ w).1 = _
    rw [P.latticeReadoutZ_run hb (hfb _ (by omega))]

example : ∃ q w, AfterAlone .xzzx q 3 3 [.readoutX none, .stabilize, .stabilize] w ∧ (q.op .latticeReadoutX w).1 = .ok () := by
  obtain ⟨q, w, A, -⟩ := afterAlone_exists (dh := 3) (dw := 3) .xzzx "a".toList (by unfold OddPos; decide) (by simp) [.readoutX none, .stabilize, .stabilize]
  exact ⟨q, w, A, C80_never_raises A.after (by decide) (by decide) _ trivial⟩

/-- C80 needs two dimensions and more than that a single qubit: on the 1×1 XZZX lattice `reset_x` raises. -/
theorem C80_false_single (A : After .xzzx q 1 1 ops w) : (q.op .resetX w).1 = .error .circuitError := by
  obtain ⟨W, O⟩ := A.own
  have P := O.placed
  show (q.lat.resetX w).1 = _
  unfold Lattice.resetX
  rw [A.code, P.data_qubits]
  simp only [QClass.code]
  rw [CM.bind_ok (emits_reset (mem_dataQs P)).run]
  rfl

end Qtc
