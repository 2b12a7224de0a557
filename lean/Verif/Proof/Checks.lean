import Verif.Proof.Born
import Verif.Props.Readout
/-!
The instructions of the checks, in terms of the lattice.
-/
namespace Qtc
open Spec

variable {L : Lattice} {q : TQubit} {dh dw : Int} {w w' : World}

theorem zipIdx_range_map {α : Type} (f : Int → α) (n : Nat) :
    ((List.range n).map fun (k : Nat) => f k).zipIdx = (List.range n).map fun (k : Nat) => (f k, k) := by
  refine List.ext_getElem? fun i => ?_
  rw [List.getElem?_zipIdx, List.getElem?_map, List.getElem?_map]
  rcases Nat.lt_or_ge i n with h | h
  · rw [List.getElem?_range h]; simp
  · rw [List.getElem?_eq_none (by simpa using h)]; rfl

theorem pyRange_zipIdx {α : Type} (f : Int → α) (n : Int) :
    ((pyRange n).map f).zipIdx = (List.range n.toNat).map fun (k : Nat) => (f k, k) := by
  unfold pyRange
  rw [List.map_map]
  exact zipIdx_range_map f _

theorem instrs_xxxx {name : Str} {s : Str → Int → Qubit} {p : Plaq} (h : p.tl.isSome = p.tr.isSome ∧ p.bl.isSome = p.br.isSome) :
    instrsOne .xxxx (plaqOf name s p) = xxxxGates name (s name p.syn) p.corners := by
  obtain ⟨y, tl, tr, bl, br⟩ := p
  simp only at h
  rcases tl with _ | tl <;> rcases tr with _ | tr <;> rcases bl with _ | bl <;> rcases br with _ | br <;>
    simp_all [instrsOne, plaqOf, pairX, xxxxGates, Plaq.corners]

theorem instrs_zzzz {name : Str} {s : Str → Int → Qubit} {p : Plaq} (h : p.tl.isSome = p.bl.isSome ∧ p.tr.isSome = p.br.isSome) :
    instrsOne .zzzz (plaqOf name s p) = zzzzGates name (s name p.syn) p.corners := by
  obtain ⟨y, tl, tr, bl, br⟩ := p
  simp only at h
  rcases tl with _ | tl <;> rcases tr with _ | tr <;> rcases bl with _ | bl <;> rcases br with _ | br <;>
    simp_all [instrsOne, plaqOf, pairZ, zzzzGates, Plaq.corners]

theorem instrs_xzzx {name : Str} {s : Str → Int → Qubit} {p : Plaq} :
    instrsOne .xzzx (plaqOf name s p) = xzzxGates name (s name p.syn) p.corners := by
  obtain ⟨y, tl, tr, bl, br⟩ := p
  rcases tl with _ | tl <;> rcases tr with _ | tr <;> rcases bl with _ | bl <;> rcases br with _ | br <;> rfl

theorem instrs_x (H : OddPos dh dw) (code : Code) {name : Str} {p : Plaq} (hp : p ∈ geometryX dh dw) :
    instrsOne (code.stab .X) (plaqOf name mxQ p) = xGates code name (mxQ name p.syn) p.corners := by
  cases code
  · exact instrs_xxxx (plaqX_consistent H hp)
  · exact instrs_xzzx

theorem instrs_z (H : OddPos dh dw) (code : Code) {name : Str} {p : Plaq} (hp : p ∈ geometryZ dh dw) :
    instrsOne (code.stab .Z) (plaqOf name mzQ p) = zGates code name (mzQ name p.syn) p.corners := by
  cases code
  · exact instrs_zzzz (plaqZ_consistent H hp)
  · exact instrs_xzzx

theorem instrsChecks_x (H : OddPos dh dw) (code : Code) (name : Str) :
    instrsChecks (xChecks code name dh dw) = entangleXGates code name dh dw := by
  unfold instrsChecks xChecks entangleXGates
  rw [List.flatMap_map]
  have h1 : (geometryX dh dw).flatMap (fun p => instrsOne (code.stab .X) (plaqOf name mxQ p) ++ [Instr.barrier]) =
      (geometryX dh dw).flatMap (fun p => xGates code name (mxQ name p.syn) p.corners ++ [Instr.barrier]) := by
    rw [List.flatMap_def, List.flatMap_def]
    congr 1
    exact List.map_congr_left fun p hp => by rw [instrs_x H code hp]
  rw [h1]
  obtain ⟨h, v, hh, hv, rfl, rfl⟩ := oddPos_cases H
  rw [xSites_eq hv, pyRange_zipIdx, geometryX]
  unfold pyRange
  rw [List.flatMap_map, List.flatMap_map, List.flatMap_map, List.flatMap_def, List.flatMap_def]
  congr 1
  refine List.map_congr_left fun k hk => ?_
  rw [List.mem_range] at hk
  simp only [Int.ofNat_eq_natCast]
  rw [geomX_corners hv k (by omega) (by omega), geomX_syn]

theorem instrsChecks_z (H : OddPos dh dw) (code : Code) (name : Str) :
    instrsChecks (zChecks code name dh dw) = entangleZGates code name dh dw := by
  unfold instrsChecks zChecks entangleZGates
  rw [List.flatMap_map]
  have h1 : (geometryZ dh dw).flatMap (fun p => instrsOne (code.stab .Z) (plaqOf name mzQ p) ++ [Instr.barrier]) =
      (geometryZ dh dw).flatMap (fun p => zGates code name (mzQ name p.syn) p.corners ++ [Instr.barrier]) := by
    rw [List.flatMap_def, List.flatMap_def]
    congr 1
    exact List.map_congr_left fun p hp => by rw [instrs_z H code hp]
  rw [h1]
  obtain ⟨h, v, hh, hv, rfl, rfl⟩ := oddPos_cases H
  rw [zSites_eq hv, pyRange_zipIdx, geometryZ]
  unfold pyRange
  rw [List.flatMap_map, List.flatMap_map, List.flatMap_map, List.flatMap_def, List.flatMap_def]
  congr 1
  refine List.map_congr_left fun k hk => ?_
  rw [List.mem_range] at hk
  simp only [Int.ofNat_eq_natCast]
  rw [geomZ_corners hv k (by omega) (by omega), geomZ_syn]

theorem instrsChecks_append (l m : List (Stab × QPlaq)) : instrsChecks (l ++ m) = instrsChecks l ++ instrsChecks m := by
  unfold instrsChecks
  exact List.flatMap_append

theorem xSites_length (H : OddPos dh dw) : (xSites dh dw).length = (numSynX dh dw).toNat := by
  obtain ⟨h, v, hh, hv, rfl, rfl⟩ := oddPos_cases H
  rw [xSites_eq hv]; simp [pyRange]

theorem zSites_length (H : OddPos dh dw) : (zSites dh dw).length = (numSynZ dh dw).toNat := by
  obtain ⟨h, v, hh, hv, rfl, rfl⟩ := oddPos_cases H
  rw [zSites_eq hv]; simp [pyRange]

/-- The instructions of a round, in terms of the lattice. -/
theorem stabInstrs_eq (H : OddPos dh dw) (code : Code) (name creg : Str) : stabInstrs code name dh dw creg =
    entangleXGates code name dh dw ++ entangleZGates code name dh dw ++
      measureSyn name (xSites dh dw).length (zSites dh dw).length creg ++
      resetSyn name (xSites dh dw).length (zSites dh dw).length ++ [.barrier] := by
  unfold stabInstrs
  rw [instrsChecks_append, instrsChecks_x H, instrsChecks_z H, xSites_length H, zSites_length H]

/-- The number of `stabilize` in a sequence of operations. -/
theorem roundsOf_eq (l : List QOp) : roundsOf l = l.count .stabilize := by
  unfold roundsOf
  induction l with
  | nil => rfl
  | cons o l ih =>
    rw [List.map_cons, List.sum_cons, ih, List.count_cons]
    by_cases h : o = .stabilize
    · subst h
      simp [QOp.rounds]; omega
    · have e : o.rounds = 0 := by cases o <;> simp_all [QOp.rounds]
      rw [e]
      simp [h]

theorem strInt_nat (n : Nat) : strInt n = strNat n := by
  unfold strInt
  rw [if_neg (by omega)]
  rfl

theorem good_quiet {o : QOp} (S : Shaped q.lat) (h : o.quiet = true) (h' : o ≠ .stabilize) :
    Good (q.mayAdd o) (q.op o) fun _ => True := by
  cases o with
  | stabilize => exact absurd rfl h'
  | entangleX => exact S.good_entangleX
  | entangleZ => exact S.good_entangleZ
  | id => exact S.good_id
  | idData => exact S.good_idData
  | resetX => exact S.good_resetX
  | resetZ => exact S.good_resetZ
  | x => exact S.good_x
  | z => exact S.good_z
  | xCIf c v => exact S.good_xCIf ⟨rfl, rfl⟩
  | zCIf c v => exact S.good_zCIf ⟨rfl, rfl⟩
  | cx c t => exact S.good_qcx (fun _ h => Or.inl h) fun _ h => Or.inr h
  | readoutX r => cases h
  | readoutZ r => cases h
  | latticeReadoutX => cases h
  | latticeReadoutZ => cases h

/-- `stabilize()` on a qubit that owns its registers. -/
theorem Own.stabilize_run {t : Int} (O : Own q.lat dh dw t w) : q.op .stabilize w = (.ok (),
    ((w.setP q.lat.pref ((w.heap q.lat.pref).withT (t + 1))).addC
      ⟨roundName q.lat.name (t + 1), (numSynX dh dw + numSynZ dh dw).toNat⟩).emit
        (stabInstrs q.lat.code q.lat.name dh dw (roundName q.lat.name (t + 1)))) :=
  O.placed.stabilize_run O.T (O.round _ (by omega))

/-- The register of a round. -/
def roundReg (name : Str) (dh dw : Int) (k : Int) : Reg := ⟨roundName name k, (numSynX dh dw + numSynZ dh dw).toNat⟩

/-- The classical registers after a history without readouts. -/
theorem quiet_cregs {t : Int} (l : List QOp) (hl : ∀ o ∈ l, o.quiet = true) (W : WellFormed w.circ) (O : Own q.lat dh dw t w)
    (a : Int) (ha : (w.heap q.lat.pref).numReadout = some a) (b : Int) (hb : (w.heap q.lat.pref).numLatticeReadout = some b) :
    (q.ops l w).circ.cregs = w.circ.cregs ++ (List.range (l.count .stabilize)).map (fun (k : Nat) => roundReg q.lat.name dh dw (t + 1 + k)) ∧
    ((q.ops l w).heap q.lat.pref).numReadout = some a ∧ ((q.ops l w).heap q.lat.pref).numLatticeReadout = some b := by
  induction l generalizing w t with
  | nil => simp [TQubit.ops, ha, hb]
  | cons o l ih =>
    have F := fine o W O
    have e : q.ops (o :: l) w = q.ops l (q.op o w).2 := rfl
    by_cases h : o = .stabilize
    · subst h
      have hr := O.stabilize_run
      have h2 : (q.op .stabilize w).2 = _ := congrArg Prod.snd hr
      have ha' : ((q.op .stabilize w).2.heap q.lat.pref).numReadout = some a := by
        rw [h2, World.emit_heap, World.addC_heap, World.setP_heap_self]; exact ha
      have hb' : ((q.op .stabilize w).2.heap q.lat.pref).numLatticeReadout = some b := by
        rw [h2, World.emit_heap, World.addC_heap, World.setP_heap_self]; exact hb
      obtain ⟨i1, i2⟩ := ih (fun o ho => hl o (by simp [ho])) F.wf F.own ha' hb'
      rw [e]
      refine ⟨?_, i2⟩
      rw [i1, h2, World.emit_cregs, World.addC_cregs, World.setP_circ, List.count_cons_self, List.range_succ_eq_map, List.map_cons,
        List.map_map, List.append_assoc, List.singleton_append]
      congr 2
      · unfold roundReg; simp
      · refine List.map_congr_left fun k _ => ?_
        simp only [Function.comp, QOp.rounds]
        congr 1
        push_cast
        omega
    · have g := (good_quiet O.placed.shaped (hl o (by simp)) h w).1
      have hro : o.rounds = 0 := by cases o <;> simp_all [QOp.rounds]
      have O' := F.own
      rw [hro, Int.add_zero] at O'
      obtain ⟨i1, i2⟩ := ih (fun o ho => hl o (by simp [ho])) F.wf O' (by rw [g.heap]; exact ha) (by rw [g.heap]; exact hb)
      rw [e]
      refine ⟨?_, i2⟩
      rw [i1, g.cregs, List.count_cons_of_ne (by simpa using h)]

/-- The classical registers after a readout into a new register. -/
theorem readout_cregs {o : QOp} (ho : o = .readoutX none ∨ o = .readoutZ none) {t : Int} (O : Own q.lat dh dw t w)
    (a : Int) (ha : (w.heap q.lat.pref).numReadout = some a) :
    (q.op o w).2.circ.cregs = w.circ.cregs ++ [⟨readoutName q.lat.name (a + 1), 1⟩] := by
  have S := O.placed.shaped
  obtain ⟨a', h1, h2, h3⟩ := O.readout
  rw [ha] at h1
  cases h1
  have hf := h3 (a + 1) (by omega)
  rcases ho with rfl | rfl
  · have := (good_run (f := fun r => do
      q.lat.readoutXIntoAncilla
      measure q.lat.ancilla.qubits r.clbits
      barrier) (readoutReg_run ha hf) (S.good_readoutXIntoAncilla.bind fun _ _ =>
        (S.good_measAnc (E := fun _ => False) (C := fun _ => True) (K := fun _ _ => False) fun _ _ => trivial).bind fun _ _ => good_barrier trivial)).1
    exact this.cregs
  · have := (good_run (f := fun r => do
      q.lat.readoutZIntoAncilla
      measure q.lat.ancilla.qubits r.clbits
      barrier) (readoutReg_run ha hf) (S.good_readoutZIntoAncilla.bind fun _ _ =>
        (S.good_measAnc (E := fun _ => False) (C := fun _ => True) (K := fun _ _ => False) fun _ _ => trivial).bind fun _ _ => good_barrier trivial)).1
    exact this.cregs

/-- The classical registers after a readout of the lattice. -/
theorem lattice_cregs {o : QOp} (ho : o = .latticeReadoutX ∨ o = .latticeReadoutZ) {t : Int} (O : Own q.lat dh dw t w)
    (a : Int) (ha : (w.heap q.lat.pref).numLatticeReadout = some a) :
    (q.op o w).2.circ.cregs = w.circ.cregs ++ [⟨latticeName q.lat.name (a + 1), (dh * dw).toNat⟩] := by
  have S := O.placed.shaped
  obtain ⟨a', h1, h2, h3⟩ := O.lattice
  rw [ha] at h1
  cases h1
  have hf := h3 (a + 1) (by omega)
  rcases ho with rfl | rfl
  · have := (good_run (f := fun r => do
      q.lat.turnX
      measure q.lat.data.qubits r.clbits
      barrier) (latticeReg_run O.placed ha hf) (S.good_turnX.bind fun _ _ =>
        (S.good_measData (E := fun _ => False) (C := fun _ => True) (K := fun _ _ => False) fun _ _ => trivial).bind fun _ _ => good_barrier trivial)).1
    exact this.cregs
  · have := (good_run (f := fun r => do
      q.lat.turnZ
      measure q.lat.data.qubits r.clbits
      barrier) (latticeReg_run O.placed ha hf) (S.good_turnZ.bind fun _ _ =>
        (S.good_measData (E := fun _ => False) (C := fun _ => True) (K := fun _ _ => False) fun _ _ => trivial).bind fun _ _ => good_barrier trivial)).1
    exact this.cregs

/-! ### Groups of results -/

theorem groupString_bits (mem : Clbit → Bool) (r : Reg) : ∀ c ∈ groupString mem r, c = '0' ∨ c = '1' := by
  intro c hc
  unfold groupString at hc
  rw [List.mem_reverse] at hc
  obtain ⟨b, -, rfl⟩ := List.mem_map.1 hc
  split <;> simp

theorem groupString_length (mem : Clbit → Bool) (r : Reg) : (groupString mem r).length = r.size := by
  simp [groupString, Reg.clbits]

theorem groupString_isBits (mem : Clbit → Bool) {r : Reg} (h : 0 < r.size) : IsBits (groupString mem r) := by
  refine ⟨?_, groupString_bits mem r⟩
  intro e
  have := groupString_length mem r
  rw [e] at this
  simp at this; omega

/-- Bit `i` of a group is the classical bit `i` of the register. -/
theorem groupString_bit (mem : Clbit → Bool) (r : Reg) {i : Nat} (h : i < r.size) :
    bitFromRight (groupString mem r) i = mem ⟨r.name, i⟩ := by
  unfold bitFromRight groupString Reg.clbits
  rw [List.reverse_reverse, List.map_map, List.getElem?_map, List.getElem?_range h]
  simp only [Option.map_some, Function.comp]
  cases mem ⟨r.name, i⟩ <;> rfl

end Qtc
