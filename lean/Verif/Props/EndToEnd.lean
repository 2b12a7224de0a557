import Verif.Proof.QNoisy
import Verif.Props.Decoding
import Verif.Props.Quantum
/-!
C63: from preparation to the decoded value, with Pauli errors.
-/
namespace Qtc
open Spec Function

variable {cls : QClass} {q : TQubit} {dh dw : Int} {ops : List QOp} {w : World} {sz : Str → Nat} {key : Key}

/-- Without errors the circuit is the circuit. -/
theorem noisyAll_none (A : After cls q dh dw ops w) (l : List QOp) : noisyAll q (l.map fun o => (o, noErrs)) w = addedAll q l w := by
  have h : ∀ is : List Instr, withErrors noErrs is = is := by
    intro is
    induction is with
    | nil => rfl
    | cons i is ih =>
      rw [withErrors_cons, ih]
      have : errorsAfter noErrs i = [] := by
        unfold errorsAfter
        split <;> rfl
      rw [this, List.nil_append]
  induction l generalizing ops w with
  | nil => rw [addedAll_nil]; rfl
  | cons o l ih =>
    rw [A.all_cons, ← ih (A.next o)]
    show withErrors noErrs (added q o w) ++ _ = _
    rw [h]

/-- A noisy circuit has an execution from every state. -/
theorem noisy_exists {l : List (QOp × Errs)} (A : After cls q dh dw ops w) (s : QState) (h0 : s.psi ≠ 0) : ∃ s', Run sz (noisyAll q l w) s s' := by
  refine run_exists ?_ s h0
  clear h0 s
  induction l generalizing ops w with
  | nil => exact fun i hi => absurd hi List.not_mem_nil
  | cons a l ih =>
    intro i hi
    rcases List.mem_append.1 (show i ∈ withErrors a.2 (added q a.1 w) ++ noisyAll q l (q.op a.1 w).2 from hi) with h | h
    · obtain ⟨j, hj, h⟩ := List.mem_flatMap.1 h
      rcases List.mem_cons.1 h with rfl | h
      · exact A.proper _ _ hj
      · unfold errorsAfter at h
        split at h
        · rcases List.mem_append.1 h with h | h <;> split at h
          · rw [List.mem_singleton.1 h]; trivial
          · cases h
          · rw [List.mem_singleton.1 h]; trivial
          · cases h
        · cases h
    · exact ih (A.next _) i h

/-- What is printed after a logical readout: one bit, which tells the value if no errors flip it, and the rounds. -/
theorem strings_keeps (A : AfterAlone cls q dh dw ops w) (hq : ∀ o ∈ ops, o.quiet = true) (hbig : 1 < dh * dw)
    (hc : CanRead cls dh dw key) {e1 : Errs} {T : Nat} (hT : ops.count .stabilize = T + 1) {v : Bool} {fs : List Fault} {s s' : QState}
    (hH : Keeps cls.code key q.lat.name dh dw v (T + 1) fs s) (hR : Run sz (withErrors e1 (added q (readOp key) w)) s s') :
    ∃ rounds : List Str, (rounds.length : Int) = T + 1 ∧ RoundsRead key dh dw (fun _ _ => false) (takePlace T fs) rounds ∧
      groups s'.mem (q.op (readOp key) w).2.circ.cregs =
        [if v ^^ readoutFlipped key (takePlace T fs) then '1' else '0'] :: rounds.reverse := by
  have H := A.after.own.2.placed.odd
  have hr := run_readKey A.after hc hH.ne hR
  have hname : nextReadout q w = q.lat.name ++ "_readout_0".toList := by
    obtain ⟨-, hr, -⟩ := A.cregs hq
    unfold nextReadout
    rw [hr]
    show readoutName q.lat.name (-1 + 1) = _
    unfold readoutName
    rw [List.append_assoc]
    rfl
  have hmem := reads_value logOp_onData hr hH.log
  obtain ⟨hgr, -⟩ := C51_logical A hq hbig (readOp key) (by cases key; exact Or.inl rfl; exact Or.inr rfl) s'.mem .Z
  rw [hT] at hgr
  have hpos : 0 < (xSites dh dw).length + (zSites dh dw).length := by
    have := (numSyn_pos H).1
    have := xSites_length H
    have := zSites_length H
    omega
  have hrr := rounds_read (key := key) (name := q.lat.name) (mem := s'.mem) (n := T + 1) hpos
    (ref := fun _ _ => false) (fs := takePlace T fs) (by
      intro j hj k p hk
      rw [hmem, writeReg_other (by obtain ⟨a, ha, -⟩ := A.after.own.2.readout; unfold nextReadout; rw [ha]; exact round_ne_readout), hH.mem j hj k p hk]
      show _ = (false ^^ reading _ _ _)
      rw [Bool.false_xor, reading_takePlace (by omega)])
  refine ⟨_, by simp, hrr, ?_⟩
  rw [readoutFlipped_takePlace, hgr]
  have : s'.mem ⟨q.lat.name ++ "_readout_0".toList, 0⟩ = (v ^^ readoutFlipped key fs) := by rw [hmem, hname, writeReg_mem Nat.one_pos]
  rw [this, List.map_reverse]

/-- The same after a memory. -/
theorem strings_held (A : AfterAlone cls q dh dw ops w) (hq : ∀ o ∈ ops, o.quiet = true) (hn : ops.count .stabilize = 0) (hbig : 1 < dh * dw)
    (hc : CanRead cls dh dw key) {e1 : Errs} {l : List (QOp × Errs)} (hl : ∀ a ∈ l, MemoryOp a.1) {T : Nat}
    (hT : (l.map Prod.fst).count .stabilize = T + 1) {s s' : QState} (hK : Keeps cls.code key q.lat.name dh dw false 0 [] s)
    (hR : Run sz (noisyAll q (l ++ [(readOp key, e1)]) w) s s') :
    ∃ rounds : List Str, (rounds.length : Int) = T + 1 ∧
      RoundsRead key dh dw (fun _ _ => false) (takePlace T (faultsOf cls.code key q.lat.name dh dw 0 l)) rounds ∧
      groups s'.mem (q.ops (l.map Prod.fst ++ [readOp key]) w).circ.cregs =
        [if decide ((l.map Prod.fst).count (flipGate key) % 2 = 1) ^^
          readoutFlipped key (takePlace T (faultsOf cls.code key q.lat.name dh dw 0 l)) then '1' else '0'] :: rounds.reverse := by
  rw [noisyAll_append, Run.append] at hR
  obtain ⟨t, h1, h2⟩ := hR
  have hH := hK.all A.after hl hn h1
  rw [hT, Bool.false_xor, Nat.zero_add, List.nil_append] at hH
  have h2' : Run sz (withErrors e1 (added q (readOp key) (q.ops (l.map Prod.fst) w)) ++ []) t s' := h2
  rw [List.append_nil] at h2'
  have hcount : (ops ++ l.map Prod.fst).count .stabilize = T + 1 := by
    rw [List.count_append, hn, hT, Nat.zero_add]
  obtain ⟨rounds, h3, h4, h5⟩ := strings_keeps (A.all_next (l.map Prod.fst)) (by
    intro o ho
    rcases List.mem_append.1 ho with h | h
    · exact hq o h
    · obtain ⟨a, ha, rfl⟩ := List.mem_map.1 h
      exact memoryOp_quiet (hl a ha)) hbig hc hcount hH h2'
  rw [← ops_snoc] at h5
  exact ⟨rounds, h3, h4, h5⟩

/-- The same with the preparation. -/
theorem endToEnd_strings (A : AfterAlone cls q dh dw ops w) (hq : ∀ o ∈ ops, o.quiet = true) (hn : ops.count .stabilize = 0) (hbig : 1 < dh * dw)
    (hc : CanRead cls dh dw key) {e0 e1 : Errs} {l : List (QOp × Errs)} (hl : ∀ a ∈ l, MemoryOp a.1) {T : Nat}
    (hT : (l.map Prod.fst).count .stabilize = T + 1) {s s' : QState} (h0 : s.psi ≠ 0)
    (hs : SynZero q.lat.name dh dw s.psi) (hR : Run sz (noisyAll q ((prepOp key, e0) :: l ++ [(readOp key, e1)]) w) s s') :
    ∃ rounds : List Str, (rounds.length : Int) = T + 1 ∧
      RoundsRead key dh dw (fun _ _ => false) (takePlace T (faultsOf cls.code key q.lat.name dh dw 0 l)) rounds ∧
      groups s'.mem (q.ops (prepOp key :: l.map Prod.fst ++ [readOp key]) w).circ.cregs =
        [if decide ((l.map Prod.fst).count (flipGate key) % 2 = 1) ^^
          readoutFlipped key (takePlace T (faultsOf cls.code key q.lat.name dh dw 0 l)) then '1' else '0'] :: rounds.reverse := by
  obtain ⟨t, h1, h2⟩ := Run.append.1 (show Run sz (withErrors e0 (added q (prepOp key) w) ++
    noisyAll q (l ++ [(readOp key, e1)]) (q.op (prepOp key) w).2) s s' from hR)
  have hp := (run_prep A.after hbig h0 h1).held A.after.own.2.placed.odd hs
  refine strings_held (A.all_next [prepOp key]) ?_ ?_ hbig hc hl hT hp h2
  · intro o ho
    rcases List.mem_append.1 ho with h | h
    · exact hq o h
    · rw [List.mem_singleton.1 h]
      cases key <;> rfl
  · rw [List.count_append, hn]
    cases key <;> rfl

/-- C98: the logical qubit is prepared, rounds of stabilization, identity gates and logical gates follow, the identity gates make Pauli
errors, and the logical operator of the type is measured. If the number of faults the errors amount to, together with the number of lines
in which an odd number of data qubits flip, is less than the distance, the decoder tells what would have been measured without errors. -/
theorem C98_logical (A : AfterAlone cls q dh dw ops w) (hq : ∀ o ∈ ops, o.quiet = true) (hn : ops.count .stabilize = 0) (hbig : 1 < dh * dw)
    (hc : CanRead cls dh dw key) {e0 e1 : Errs} {l : List (QOp × Errs)} (hl : ∀ a ∈ l, MemoryOp a.1) {T : Nat}
    (hT : (l.map Prod.fst).count .stabilize = T + 1) {D : Decoder} (hD : Made D) (hdh : D.dh = dh) (hdw : D.dw = dw) {g : SGraph}
    (hg : D.S key = some g) (hDT : (T : Int) ≤ D.T) {m : Matcher} (hm : Contract m)
    (hf : Tolerable key dh dw T (takePlace T (faultsOf cls.code key q.lat.name dh dw 0 l))) {s s' : QState} (h0 : s.psi ≠ 0)
    (hs : SynZero q.lat.name dh dw s.psi) (hR : Run sz (noisyAll q ((prepOp key, e0) :: l ++ [(readOp key, e1)]) w) s s') :
    correctString D m (joinSp (groups s'.mem (q.ops (prepOp key :: l.map Prod.fst ++ [readOp key]) w).circ.cregs)) (rtypeOf key) none =
      .ok (some (bit (decide ((l.map Prod.fst).count (flipGate key) % 2 = 1)))) := by
  have H := A.after.own.2.placed.odd
  obtain ⟨rounds, hlen, hrr, hgr⟩ := endToEnd_strings A hq hn hbig hc hl hT h0 hs hR
  subst hdh hdw
  rw [hgr]
  exact C98_strings_single D hD key g hg H hbig m hm T hDT _ hf _ _ hlen hrr _

/-- C63: the logical qubit is prepared in |0⟩, rounds of stabilization, identity gates and logical gates follow, the identity gates make
Pauli errors, and Z is measured. If at most `(height - 1) / 2` errors flip Z operators, the decoder tells what would have been measured
without them, namely 0 if the number of logical X gates is even: for every outcome of the measurements. -/
theorem C63_logical_z (A : AfterAlone cls q dh dw ops w) (hq : ∀ o ∈ ops, o.quiet = true) (hn : ops.count .stabilize = 0) (hbig : 1 < dh * dw)
    (hc : cls ≠ .xzzx ∨ 1 < dw) {e0 e1 : Errs} {l : List (QOp × Errs)} (hl : ∀ a ∈ l, MemoryOp a.1) {T : Nat}
    (hT : (l.map Prod.fst).count .stabilize = T + 1) {D : Decoder} (hD : Made D) (hdh : D.dh = dh) (hdw : D.dw = dw) {g : SGraph}
    (hg : D.S .Z = some g) (hDT : (T : Int) ≤ D.T) {m : Matcher} (hm : Contract m)
    (hf : Correctable .Z dh dw T (takePlace T (faultsOf cls.code .Z q.lat.name dh dw 0 l))) {s s' : QState} (h0 : s.psi ≠ 0)
    (hs : SynZero q.lat.name dh dw s.psi) (hR : Run sz (noisyAll q ((.resetZ, e0) :: l ++ [(.readoutZ none, e1)]) w) s s') :
    correctString D m (joinSp (groups s'.mem (q.ops (.resetZ :: l.map Prod.fst ++ [.readoutZ none]) w).circ.cregs)) .Z none =
      .ok (some (if (l.map Prod.fst).count .x % 2 = 1 then 1 else 0)) := by
  have := C98_logical (key := .Z) A hq hn hbig hc hl hT hD hdh hdw hg hDT hm (tolerable_of_correctable hf) h0 hs hR
  refine this.trans ?_
  unfold bit
  simp only [decide_eq_true_eq]
  rfl

/-- C63: the same for X, of which at most `(width - 1) / 2` errors flip the operators. -/
theorem C63_logical_x (A : AfterAlone cls q dh dw ops w) (hq : ∀ o ∈ ops, o.quiet = true) (hn : ops.count .stabilize = 0) (hbig : 1 < dh * dw)
    (hc : cls ≠ .xzzx ∨ 1 < dh) {e0 e1 : Errs} {l : List (QOp × Errs)} (hl : ∀ a ∈ l, MemoryOp a.1) {T : Nat}
    (hT : (l.map Prod.fst).count .stabilize = T + 1) {D : Decoder} (hD : Made D) (hdh : D.dh = dh) (hdw : D.dw = dw) {g : SGraph}
    (hg : D.S .X = some g) (hDT : (T : Int) ≤ D.T) {m : Matcher} (hm : Contract m)
    (hf : Correctable .X dh dw T (takePlace T (faultsOf cls.code .X q.lat.name dh dw 0 l))) {s s' : QState} (h0 : s.psi ≠ 0)
    (hs : SynZero q.lat.name dh dw s.psi) (hR : Run sz (noisyAll q ((.resetX, e0) :: l ++ [(.readoutX none, e1)]) w) s s') :
    correctString D m (joinSp (groups s'.mem (q.ops (.resetX :: l.map Prod.fst ++ [.readoutX none]) w).circ.cregs)) .X none =
      .ok (some (if (l.map Prod.fst).count .z % 2 = 1 then 1 else 0)) := by
  have := C98_logical (key := .X) A hq hn hbig hc hl hT hD hdh hdw hg hDT hm (tolerable_of_correctable hf) h0 hs hR
  refine this.trans ?_
  unfold bit
  simp only [decide_eq_true_eq]
  rfl

/-- What is decoded after a readout of all data qubits, if the plaquettes and the readout read what other faults would make them read, apart
from what they read without faults. -/
theorem lattice_reads (A : AfterAlone cls q dh dw ops w) (hq : ∀ o ∈ ops, o.quiet = true) (hbig : 1 < dh * dw)
    {T : Nat} (hT : ops.count .stabilize = T + 1)
    {D : Decoder} (hD : Made D) (hdh : D.dh = dh) (hdw : D.dw = dw) {g : SGraph} (hg : D.S .Z = some g) (hDT : (T : Int) + 1 ≤ D.T)
    {m : Matcher} (hm : Contract m) {v v' : Bool} {fs fs' : List Fault} {ref : Int × Int → Bool}
    (hread : ∀ t : Nat, t ≤ T → ∀ p, SiteOf dh dw .Z p → reading fs t p = (ref p ^^ reading fs' t p))
    (hend : ∀ p, SiteOf dh dw .Z p → reading fs ((T + 1 : Nat) + 1) p = (ref p ^^ reading fs' (T + 1) p))
    (hlog : (v ^^ readoutFlipped .Z fs) = (v' ^^ readoutFlipped .Z fs'))
    (hf : ∀ f ∈ fs', f.Fits .Z dh dw (T + 1)) {wrong : Bool} (hd : Decided .Z dh dw D.T fs' wrong) {s s' : QState}
    (hH : Keeps cls.code .Z q.lat.name dh dw v (T + 1) fs s) (hR : Run sz (added q .latticeReadoutZ w) s s') :
    correctString D m (joinSp (groups s'.mem (q.op .latticeReadoutZ w).2.circ.cregs)) .Z none = .ok (some (bit (v' ^^ wrong))) := by
  have H := A.after.own.2.placed.odd
  have hr := (run_latticeZ A.after hH.ne).1 hR
  have hname : nextLattice q w = q.lat.name ++ "_lattice_readout_0".toList := by
    obtain ⟨-, -, hr⟩ := A.cregs hq
    unfold nextLattice
    rw [hr]
    show latticeName q.lat.name (-1 + 1) = _
    unfold latticeName
    rw [List.append_assoc]
    rfl
  rw [hname] at hr
  -- what would have been read without faults
  let x : Int → Bool := fun i => s'.mem ⟨q.lat.name ++ "_lattice_readout_0".toList, i.toNat⟩
  let x0 : Int → Bool := fun i => readData x fs' dw i
  have hx : ∀ i, readData x0 fs' dw i = x i := by
    intro i
    show ((x i ^^ xorAll _) ^^ xorAll _) = x i
    rw [Bool.xor_assoc, Bool.xor_self, Bool.xor_false]
  have hx' : readData x0 fs' dw = x := funext hx
  have hpar : ∀ p ∈ zSites dh dw, parityOn x0 (cornersOf dh dw p.1 p.2) = ref p := by
    intro p hp
    have hp' := mem_zSites.1 hp
    have ho : p.1 % 2 = 1 ∧ p.2 % 2 = 1 := by
      unfold ZSite at hp'
      omega
    have hv := hH.check p hp'
    rw [checkOp_eq H _ _ (key := .Z) hp'] at hv
    have e := hr.parity around_all hv
    rw [← parityOn_around (dh := dh) (dw := dw) x p, ← hx', parity_readData (T := T + 1) ho.1 ho.2 x0 fs' hf] at e
    rw [hend p hp'] at e
    unfold reading at e
    exact (by decide : ∀ a b c : Bool, (a ^^ c) = (b ^^ c) → a = b) _ _ _ e
  have hrow : xorAll ((rowQubits dw 0).map x0) = v' := by
    have e : xorAll ((rowQubits dw 0).map x) = _ := hr.parity (row_all H) hH.log
    rw [← hx', row_readData x0 fs' hf, hlog] at e
    exact (by decide : ∀ a b c : Bool, (a ^^ c) = (b ^^ c) → a = b) _ _ _ e
  obtain ⟨hgr, -⟩ := C51_lattice A hq hbig T hT .latticeReadoutZ (Or.inr rfl) s'.mem
  have hpos : 0 < (xSites dh dw).length + (zSites dh dw).length := by
    have := (numSyn_pos H).1
    have := xSites_length H
    have := zSites_length H
    omega
  have hrr := rounds_read (key := .Z) (name := q.lat.name) (mem := s'.mem) (n := T + 1) hpos
    (ref := fun r c => parityOn x0 (cornersOf dh dw r c)) (fs := fs') (by
      intro j hj k p hk
      obtain ⟨m', -, -, hm⟩ := hr
      rw [hm, writeReg_other (by rw [← hname]; obtain ⟨a, ha, -⟩ := A.after.own.2.lattice; unfold nextLattice; rw [ha]; exact round_ne_lattice), hH.mem j hj k p hk]
      show _ = (parityOn x0 (cornersOf dh dw p.1 p.2) ^^ reading fs' _ _)
      rw [hpar p (List.mem_of_getElem? hk), hread j (by omega) p (site_mem_iff.2 (List.mem_of_getElem? hk))])
  subst hdh hdw
  rw [List.range_succ, List.map_append] at hrr
  have hfin := decided_lattice D hD g hg H hbig m hm (T + 1) hDT fs' hf hd x0
    (groupString s'.mem ⟨q.lat.name ++ "_lattice_readout_0".toList, (D.dh * D.dw).toNat⟩) (groupString_bits _ _)
    (by rw [groupString_length]; exact Int.toNat_of_nonneg (by omega))
    (by
      intro i hi hlt
      rw [hx]
      exact groupString_bit s'.mem ⟨q.lat.name ++ "_lattice_readout_0".toList, (D.dh * D.dw).toNat⟩ (by show i.toNat < (D.dh * D.dw).toNat; omega))
    _ _ (by rw [groupString_length]) (by simp) hrr
  rw [hrow] at hfin
  rw [hgr, List.map_reverse, List.range_succ, List.map_append]
  exact hfin

/-- What is decoded after a readout of all data qubits, if all smallest explanations agree about the readout. -/
theorem lattice_decided (A : AfterAlone cls q dh dw ops w) (hq : ∀ o ∈ ops, o.quiet = true) (hbig : 1 < dh * dw)
    {T : Nat} (hT : ops.count .stabilize = T + 1)
    {D : Decoder} (hD : Made D) (hdh : D.dh = dh) (hdw : D.dw = dw) {g : SGraph} (hg : D.S .Z = some g) (hDT : (T : Int) + 1 ≤ D.T)
    {m : Matcher} (hm : Contract m) {v : Bool} {fs : List Fault} (hf : ∀ f ∈ takePlace T fs, f.Fits .Z dh dw (T + 1)) {wrong : Bool}
    (hd : Decided .Z dh dw D.T (takePlace T fs) wrong) {s s' : QState}
    (hH : Keeps cls.code .Z q.lat.name dh dw v (T + 1) fs s) (hR : Run sz (added q .latticeReadoutZ w) s s') :
    correctString D m (joinSp (groups s'.mem (q.op .latticeReadoutZ w).2.circ.cregs)) .Z none = .ok (some (bit (v ^^ wrong))) := by
  refine lattice_reads A hq hbig hT hD hdh hdw hg hDT hm (ref := fun _ => false) (fs' := takePlace T fs) ?_ ?_ ?_ hf hd hH hR
  · intro t ht p _
    rw [Bool.false_xor, reading_takePlace (by omega)]
  · intro p _
    rw [Bool.false_xor, ← reading_takePlace_end hH.time]
    push_cast
    rw [show (T : Int) + 1 - 1 = T by omega]
  · rw [readoutFlipped_takePlace]

/-- What is decoded after a readout of all data qubits. -/
theorem lattice_keeps (A : AfterAlone cls q dh dw ops w) (hq : ∀ o ∈ ops, o.quiet = true) (hbig : 1 < dh * dw)
    {T : Nat} (hT : ops.count .stabilize = T + 1)
    {D : Decoder} (hD : Made D) (hdh : D.dh = dh) (hdw : D.dw = dw) {g : SGraph} (hg : D.S .Z = some g) (hDT : (T : Int) + 1 ≤ D.T)
    {m : Matcher} (hm : Contract m) {v : Bool} {fs : List Fault} (hf : Tolerable .Z dh dw (T + 1) (takePlace T fs)) {s s' : QState}
    (hH : Keeps cls.code .Z q.lat.name dh dw v (T + 1) fs s) (hR : Run sz (added q .latticeReadoutZ w) s s') :
    correctString D m (joinSp (groups s'.mem (q.op .latticeReadoutZ w).2.circ.cregs)) .Z none = .ok (some (bit v)) := by
  have H := A.after.own.2.placed.odd
  have hd : Decided .Z dh dw D.T (takePlace T fs) false := by
    subst hdh hdw
    exact tolerable_decided H hDT hf
  have := lattice_decided A hq hbig hT hD hdh hdw hg hDT hm hf.1 hd hH hR
  rwa [Bool.xor_false] at this

/-- C98: the same with a readout of all data qubits in the end, whose plaquettes are the last round. -/
theorem C98_lattice_z (A : AfterAlone cls q dh dw ops w) (hq : ∀ o ∈ ops, o.quiet = true) (hn : ops.count .stabilize = 0) (hbig : 1 < dh * dw)
    {e0 e1 : Errs} {l : List (QOp × Errs)} (hl : ∀ a ∈ l, MemoryOp a.1) {T : Nat} (hT : (l.map Prod.fst).count .stabilize = T + 1)
    {D : Decoder} (hD : Made D) (hdh : D.dh = dh) (hdw : D.dw = dw) {g : SGraph} (hg : D.S .Z = some g) (hDT : (T : Int) + 1 ≤ D.T)
    {m : Matcher} (hm : Contract m)
    (hf : Tolerable .Z dh dw (T + 1) (takePlace T (faultsOf cls.code .Z q.lat.name dh dw 0 l))) {s s' : QState} (h0 : s.psi ≠ 0)
    (hs : SynZero q.lat.name dh dw s.psi) (hR : Run sz (noisyAll q ((.resetZ, e0) :: l ++ [(.latticeReadoutZ, e1)]) w) s s') :
    correctString D m (joinSp (groups s'.mem (q.ops (.resetZ :: l.map Prod.fst ++ [.latticeReadoutZ]) w).circ.cregs)) .Z none =
      .ok (some (if (l.map Prod.fst).count .x % 2 = 1 then 1 else 0)) := by
  rw [noisyAll_append, Run.append] at hR
  obtain ⟨t, h1, h2⟩ := hR
  have hH := held_run (key := .Z) A.after hbig hn hl h0 hs h1
  rw [hT] at hH
  have A' := A.all_next (.resetZ :: l.map Prod.fst)
  have hq' : ∀ o ∈ ops ++ .resetZ :: l.map Prod.fst, o.quiet = true := by
    intro o ho
    rcases List.mem_append.1 ho with h | h
    · exact hq o h
    rcases List.mem_cons.1 h with rfl | h
    · rfl
    · obtain ⟨a, ha, rfl⟩ := List.mem_map.1 h
      exact memoryOp_quiet (hl a ha)
  have hcount : (ops ++ .resetZ :: l.map Prod.fst).count .stabilize = T + 1 := by
    rw [List.count_append, hn, List.count_cons, hT]
    simp
  have h2' : Run sz (withErrors e1 (added q .latticeReadoutZ (q.ops (.resetZ :: l.map Prod.fst) w)) ++ []) t s' := h2
  rw [List.append_nil, noErr_lattice A'.after] at h2'
  have := lattice_keeps A' hq' hbig hcount hD hdh hdw hg hDT hm hf hH h2'
  rw [← ops_snoc] at this
  refine Eq.trans this ?_
  unfold bit
  simp only [decide_eq_true_eq]
  rfl

/-- C63: the same with a readout of all data qubits in the end, whose plaquettes are the last round. -/
theorem C63_lattice_z (A : AfterAlone cls q dh dw ops w) (hq : ∀ o ∈ ops, o.quiet = true) (hn : ops.count .stabilize = 0) (hbig : 1 < dh * dw)
    {e0 e1 : Errs} {l : List (QOp × Errs)} (hl : ∀ a ∈ l, MemoryOp a.1) {T : Nat} (hT : (l.map Prod.fst).count .stabilize = T + 1)
    {D : Decoder} (hD : Made D) (hdh : D.dh = dh) (hdw : D.dw = dw) {g : SGraph} (hg : D.S .Z = some g) (hDT : (T : Int) + 1 ≤ D.T)
    {m : Matcher} (hm : Contract m)
    (hf : Correctable .Z dh dw (T + 1) (takePlace T (faultsOf cls.code .Z q.lat.name dh dw 0 l))) {s s' : QState} (h0 : s.psi ≠ 0)
    (hs : SynZero q.lat.name dh dw s.psi) (hR : Run sz (noisyAll q ((.resetZ, e0) :: l ++ [(.latticeReadoutZ, e1)]) w) s s') :
    correctString D m (joinSp (groups s'.mem (q.ops (.resetZ :: l.map Prod.fst ++ [.latticeReadoutZ]) w).circ.cregs)) .Z none =
      .ok (some (if (l.map Prod.fst).count .x % 2 = 1 then 1 else 0)) :=
  C98_lattice_z A hq hn hbig hl hT hD hdh hdw hg hDT hm (tolerable_of_correctable hf) h0 hs hR

/-! ### C82 -/

/-- C82 is false of the last round before a readout of the logical qubit: if the
only error is one that makes a plaquette next to the upper edge be misread in the last round, the decoded value is wrong, for every
outcome of the measurements. -/
theorem C82_false_last_round (A : AfterAlone cls q dh dw ops w) (hq : ∀ o ∈ ops, o.quiet = true) (hn : ops.count .stabilize = 0)
    (hbig : 1 < dh * dw) (hc : cls ≠ .xzzx ∨ 1 < dw) {e0 e1 : Errs} {l : List (QOp × Errs)} (hl : ∀ a ∈ l, MemoryOp a.1) {T : Nat} (hT0 : 0 < T)
    (hT : (l.map Prod.fst).count .stabilize = T + 1) {D : Decoder} (hD : Made D) (hdh : D.dh = dh) (hdw : D.dw = dw) {g : SGraph}
    (hg : D.S .Z = some g) (hDT : (T : Int) ≤ D.T) {m : Matcher} (hm : Contract m) {c2 : Int} (hp : ZSite dh dw 1 c2)
    (hf : takePlace T (faultsOf cls.code .Z q.lat.name dh dw 0 l) = [.meas (T - 1) 1 c2]) {s s' : QState} (h0 : s.psi ≠ 0)
    (hs : SynZero q.lat.name dh dw s.psi) (hR : Run sz (noisyAll q ((.resetZ, e0) :: l ++ [(.readoutZ none, e1)]) w) s s') :
    correctString D m (joinSp (groups s'.mem (q.ops (.resetZ :: l.map Prod.fst ++ [.readoutZ none]) w).circ.cregs)) .Z none =
      .ok (some (if (l.map Prod.fst).count .x % 2 = 1 then 0 else 1)) := by
  have H := A.after.own.2.placed.odd
  obtain ⟨rounds, hlen, hrr, hgr⟩ := endToEnd_strings (key := .Z) A hq hn hbig hc hl hT h0 hs hR
  subst hdh hdw
  rw [hf] at hrr hgr
  -- the same bits are read if a data qubit flips
  have hp' := hp
  unfold ZSite at hp'
  have hrr' : RoundsRead .Z D.dh D.dw (fun _ _ => false) [.data (T - 1) 0 ((c2 - 1) / 2)] rounds := by
    refine ⟨hrr.1, fun t k s p hs hp => ?_⟩
    rw [hrr.2 t k s p hs hp]
    have ht := (List.getElem?_eq_some_iff.1 hs).1
    have hz := mem_zSites.1 (List.mem_of_getElem? hp)
    unfold ZSite at hz
    show (false ^^ xorAll [_]) = (false ^^ xorAll [_])
    congr 2
    simp only [Fault.affects, List.cons.injEq, and_true]
    rw [Bool.eq_iff_iff]
    simp only [Bool.and_eq_true, Bool.or_eq_true, beq_iff_eq, decide_eq_true_eq]
    omega
  have := C32_strings_single D hD .Z g hg H hbig m hm T hDT [.data (T - 1) 0 ((c2 - 1) / 2)] (by
    refine ⟨?_, ?_⟩
    · intro f hf
      rw [List.mem_singleton.1 hf]
      show _ ∧ _ ∧ _ ∧ _ ∧ _ ∧ _
      omega
    · show (1 : Int) ≤ (D.dh - 1) / 2
      have H' := H
      unfold OddPos at H'
      omega) _ _ hlen hrr' (!decide ((l.map Prod.fst).count .x % 2 = 1))
  have e : (!decide ((l.map Prod.fst).count .x % 2 = 1) ^^ readoutFlipped .Z [.data (T - 1) 0 ((c2 - 1) / 2)]) =
      (decide ((l.map Prod.fst).count (flipGate .Z) % 2 = 1) ^^ readoutFlipped .Z [.meas (T - 1) 1 c2]) := by
    show (!decide ((l.map Prod.fst).count .x % 2 = 1) ^^ true) = (decide ((l.map Prod.fst).count .x % 2 = 1) ^^ false)
    cases decide ((l.map Prod.fst).count .x % 2 = 1) <;> rfl
  rw [e] at this
  show correctString D m (joinSp (groups s'.mem (q.ops (prepOp .Z :: l.map Prod.fst ++ [readOp .Z]) w).circ.cregs)) .Z none = _
  rw [hgr]
  refine Eq.trans this ?_
  by_cases h : (l.map Prod.fst).count .x % 2 = 1
  · rw [if_pos h, decide_eq_true h]; rfl
  · rw [if_neg h, decide_eq_false h]; rfl

/-- An X error on data qubit 1 and a Z error on data qubit 7. -/
def demoErrs : Errs := fun x => (decide (x = dataQ "a".toList 1), decide (x = dataQ "a".toList 7))

/-- Three rounds on a 3 × 5 XXZZ lattice with an X and a Z error after the first one and a logical X gate after the second one: whatever
is measured, the decoded value is 1. -/
example : ∃ q w, AfterAlone .xxzz q 3 5 [] w ∧ ∃ D m s',
    Run (fun _ => 0) (noisyAll q [(.resetZ, noErrs), (.stabilize, noErrs), (.idData, demoErrs), (.stabilize, noErrs), (.x, noErrs),
      (.stabilize, noErrs), (.readoutZ none, noErrs)] w) ⟨ground, fun _ => false⟩ s' ∧
    correctString D m (joinSp (groups s'.mem (q.ops [.resetZ, .stabilize, .idData, .stabilize, .x, .stabilize, .readoutZ none] w).circ.cregs))
      .Z none = .ok (some 1) := by
  obtain ⟨q, w, A, hn⟩ := afterAlone_exists (dh := 3) (dw := 5) .xxzz "a".toList (by unfold OddPos; decide) (by simp) []
  obtain ⟨D, sx, sz, h, h1, h2, h3, h4, h5, h6, h7⟩ := demo_decoder
  obtain ⟨m, hm⟩ := contract_exists
  obtain ⟨s', hs'⟩ := noisy_exists (sz := fun _ => 0) A.after ⟨ground, fun _ => false⟩ ground_ne_zero
    (l := [(.resetZ, noErrs), (.stabilize, noErrs), (.idData, demoErrs), (.stabilize, noErrs), (.x, noErrs), (.stabilize, noErrs),
      (.readoutZ none, noErrs)])
  refine ⟨q, w, A, D, m, s', hs', C63_logical_z (T := 2)
    (l := [(.stabilize, noErrs), (.idData, demoErrs), (.stabilize, noErrs), (.x, noErrs), (.stabilize, noErrs)]) A
    (fun o h => absurd h List.not_mem_nil) rfl (by decide) (Or.inl (by decide)) ?_ rfl h h1 h2 h5 (by rw [h3]; decide) hm ?_
    (s := ⟨ground, fun _ => false⟩) ground_ne_zero ground_synZero hs'⟩
  · intro a ha
    simp only [List.mem_cons, List.not_mem_nil, or_false] at ha
    rcases ha with rfl | rfl | rfl | rfl | rfl <;> trivial
  · rw [hn]
    have e : takePlace 2 (faultsOf .xxzz .Z "a".toList 3 5 0
      [(.stabilize, noErrs), (.idData, demoErrs), (.stabilize, noErrs), (.x, noErrs), (.stabilize, noErrs)]) = [.data 0 0 1] := by decide +kernel
    refine (congrArg (Correctable .Z 3 5 2) e).mpr ⟨?_, by decide⟩
    intro f hf
    rw [List.mem_singleton.1 hf]
    unfold Fault.Fits; decide

/-- The same with a readout of all data qubits. -/
example : ∃ q w, AfterAlone .xzzx q 3 5 [] w ∧ ∃ D m s',
    Run (fun _ => 0) (noisyAll q [(.resetZ, noErrs), (.stabilize, noErrs), (.id, demoErrs), (.stabilize, noErrs), (.x, noErrs),
      (.latticeReadoutZ, noErrs)] w) ⟨ground, fun _ => false⟩ s' ∧
    correctString D m (joinSp (groups s'.mem (q.ops [.resetZ, .stabilize, .id, .stabilize, .x, .latticeReadoutZ] w).circ.cregs))
      .Z none = .ok (some 1) := by
  obtain ⟨q, w, A, hn⟩ := afterAlone_exists (dh := 3) (dw := 5) .xzzx "a".toList (by unfold OddPos; decide) (by simp) []
  obtain ⟨D, sx, sz, h, h1, h2, h3, h4, h5, h6, h7⟩ := demo_decoder
  obtain ⟨m, hm⟩ := contract_exists
  obtain ⟨s', hs'⟩ := noisy_exists (sz := fun _ => 0) A.after ⟨ground, fun _ => false⟩ ground_ne_zero
    (l := [(.resetZ, noErrs), (.stabilize, noErrs), (.id, demoErrs), (.stabilize, noErrs), (.x, noErrs), (.latticeReadoutZ, noErrs)])
  refine ⟨q, w, A, D, m, s', hs', C63_lattice_z (T := 1)
    (l := [(.stabilize, noErrs), (.id, demoErrs), (.stabilize, noErrs), (.x, noErrs)]) A
    (fun o h => absurd h List.not_mem_nil) rfl (by decide) ?_ rfl h h1 h2 h5 (by rw [h3]; decide) hm ?_
    (s := ⟨ground, fun _ => false⟩) ground_ne_zero ground_synZero hs'⟩
  · intro a ha
    simp only [List.mem_cons, List.not_mem_nil, or_false] at ha
    rcases ha with rfl | rfl | rfl | rfl <;> trivial
  · rw [hn]
    have e : takePlace 1 (faultsOf .xzzx .Z "a".toList 3 5 0
      [(.stabilize, noErrs), (.id, demoErrs), (.stabilize, noErrs), (.x, noErrs)]) = [.data 0 0 1] := by decide +kernel
    refine (congrArg (Correctable .Z 3 5 (1 + 1)) e).mpr ⟨?_, by decide⟩
    intro f hf
    rw [List.mem_singleton.1 hf]
    unfold Fault.Fits; decide

/-- An X error and a Z error on a 3 × 5 lattice prepared and read in the X basis: the Z error is corrected, the X error does not
matter. -/
example : ∃ q w, AfterAlone .xxzz q 3 5 [] w ∧ ∃ D m s',
    Run (fun _ => 0) (noisyAll q [(.resetX, noErrs), (.stabilize, noErrs), (.idData, demoErrs), (.stabilize, noErrs),
      (.stabilize, noErrs), (.readoutX none, noErrs)] w) ⟨ground, fun _ => false⟩ s' ∧
    correctString D m (joinSp (groups s'.mem (q.ops [.resetX, .stabilize, .idData, .stabilize, .stabilize, .readoutX none] w).circ.cregs))
      .X none = .ok (some 0) := by
  obtain ⟨q, w, A, hn⟩ := afterAlone_exists (dh := 3) (dw := 5) .xxzz "a".toList (by unfold OddPos; decide) (by simp) []
  obtain ⟨D, sx, sz, h, h1, h2, h3, h4, h5, h6, h7⟩ := demo_decoder
  obtain ⟨m, hm⟩ := contract_exists
  obtain ⟨s', hs'⟩ := noisy_exists (sz := fun _ => 0) A.after ⟨ground, fun _ => false⟩ ground_ne_zero
    (l := [(.resetX, noErrs), (.stabilize, noErrs), (.idData, demoErrs), (.stabilize, noErrs), (.stabilize, noErrs),
      (.readoutX none, noErrs)])
  refine ⟨q, w, A, D, m, s', hs', C63_logical_x (T := 2)
    (l := [(.stabilize, noErrs), (.idData, demoErrs), (.stabilize, noErrs), (.stabilize, noErrs)]) A
    (fun o h => absurd h List.not_mem_nil) rfl (by decide) (Or.inl (by decide)) ?_ rfl h h1 h2 h4 (by rw [h3]; decide) hm ?_
    (s := ⟨ground, fun _ => false⟩) ground_ne_zero ground_synZero hs'⟩
  · intro a ha
    simp only [List.mem_cons, List.not_mem_nil, or_false] at ha
    rcases ha with rfl | rfl | rfl | rfl <;> trivial
  · rw [hn]
    have e : takePlace 2 (faultsOf .xxzz .X "a".toList 3 5 0
      [(.stabilize, noErrs), (.idData, demoErrs), (.stabilize, noErrs), (.stabilize, noErrs)]) = [.data 0 1 2] := by decide +kernel
    refine (congrArg (Correctable .X 3 5 2) e).mpr ⟨?_, by decide⟩
    intro f hf
    rw [List.mem_singleton.1 hf]
    unfold Fault.Fits; decide

/-- One error on a syndrome qubit before the last round: the decoded value of a qubit prepared in |0⟩ is 1. -/
example : ∃ q w, AfterAlone .xxzz q 3 5 [] w ∧ ∃ D m s',
    Run (fun _ => 0) (noisyAll q [(.resetZ, noErrs), (.stabilize, noErrs), (.stabilize, noErrs),
      (.id, fun x => (decide (x = mzQ "a".toList 0), false)), (.stabilize, noErrs), (.readoutZ none, noErrs)] w) ⟨ground, fun _ => false⟩ s' ∧
    correctString D m (joinSp (groups s'.mem (q.ops [.resetZ, .stabilize, .stabilize, .id, .stabilize, .readoutZ none] w).circ.cregs))
      .Z none = .ok (some 1) := by
  obtain ⟨q, w, A, hn⟩ := afterAlone_exists (dh := 3) (dw := 5) .xxzz "a".toList (by unfold OddPos; decide) (by simp) []
  obtain ⟨D, sx, sz, h, h1, h2, h3, h4, h5, h6, h7⟩ := demo_decoder
  obtain ⟨m, hm⟩ := contract_exists
  obtain ⟨s', hs'⟩ := noisy_exists (sz := fun _ => 0) A.after ⟨ground, fun _ => false⟩ ground_ne_zero
    (l := [(.resetZ, noErrs), (.stabilize, noErrs), (.stabilize, noErrs), (.id, fun x => (decide (x = mzQ "a".toList 0), false)),
      (.stabilize, noErrs), (.readoutZ none, noErrs)])
  refine ⟨q, w, A, D, m, s', hs', C82_false_last_round (T := 2) (c2 := 1)
    (l := [(.stabilize, noErrs), (.stabilize, noErrs), (.id, fun x => (decide (x = mzQ "a".toList 0), false)), (.stabilize, noErrs)]) A
    (fun o h => absurd h List.not_mem_nil) rfl (by decide) (Or.inl (by decide)) ?_ (by decide) rfl h h1 h2 h5 (by rw [h3]; decide) hm
    (by decide) ?_ (s := ⟨ground, fun _ => false⟩) ground_ne_zero ground_synZero hs'⟩
  · intro a ha
    simp only [List.mem_cons, List.not_mem_nil, or_false] at ha
    rcases ha with rfl | rfl | rfl | rfl <;> trivial
  · rw [hn]
    decide +kernel

/-- C82: a single misreading in an earlier round than the last is corrected. -/
theorem C82_earlier_rounds_partial (A : AfterAlone cls q dh dw ops w) (hq : ∀ o ∈ ops, o.quiet = true) (hn : ops.count .stabilize = 0)
    (hbig : 1 < dh * dw) (hc : cls ≠ .xzzx ∨ 1 < dw) {e0 e1 : Errs} {l : List (QOp × Errs)} (hl : ∀ a ∈ l, MemoryOp a.1) {T : Nat}
    (hT : (l.map Prod.fst).count .stabilize = T + 1) {D : Decoder} (hD : Made D) (hdh : D.dh = dh) (hdw : D.dw = dw) {g : SGraph}
    (hg : D.S .Z = some g) (hDT : (T : Int) ≤ D.T) {m : Matcher} (hm : Contract m) {t r2 c2 : Int} (h0t : 0 ≤ t) (htT : t + 1 < T)
    (hp : ZSite dh dw r2 c2) (hf : faultsOf cls.code .Z q.lat.name dh dw 0 l = [.meas t r2 c2]) {s s' : QState} (h0 : s.psi ≠ 0)
    (hs : SynZero q.lat.name dh dw s.psi) (hR : Run sz (noisyAll q ((.resetZ, e0) :: l ++ [(.readoutZ none, e1)]) w) s s') :
    correctString D m (joinSp (groups s'.mem (q.ops (.resetZ :: l.map Prod.fst ++ [.readoutZ none]) w).circ.cregs)) .Z none =
      .ok (some (if (l.map Prod.fst).count .x % 2 = 1 then 1 else 0)) := by
  refine C63_logical_z A hq hn hbig hc hl hT hD hdh hdw hg hDT hm ?_ h0 hs hR
  have H := A.after.own.2.placed.odd
  unfold OddPos at H
  have e : takePlace T [.meas t r2 c2] = [.meas t r2 c2] := by
    unfold takePlace
    exact List.filter_eq_self.2 fun f hf => by rw [List.mem_singleton.1 hf]; exact decide_eq_true (by omega)
  rw [hf, e]
  refine ⟨fun f hf => ?_, ?_⟩
  · rw [List.mem_singleton.1 hf]
    exact ⟨h0t, htT, hp⟩
  · show (1 : Int) ≤ (dh - 1) / 2
    unfold ZSite at hp
    omega

/-- An error on a syndrome qubit between the first two of three rounds. -/
example : faultsOf .xxzz .Z "a".toList 3 5 0 [(.stabilize, noErrs), (.id, fun x => (decide (x = mzQ "a".toList 0), false)),
    (.stabilize, noErrs), (.stabilize, noErrs)] = [.meas 0 1 1] ∧ ZSite 3 5 1 1 := by decide +kernel

end Qtc
