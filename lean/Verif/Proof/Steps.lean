import Verif.Proof.Frame
/-!
Every operation keeps the circuit well formed, touches only the qubit's own registers and never meets a name that is taken.
-/
namespace Qtc
open Spec

variable {α β : Type} {L : Lattice} {dh dw : Int} {w w' : World} {E : Qubit → Prop} {C : Clbit → Prop} {K : Str → Int → Prop}

theorem Good.dataAt_gate1 (S : Shaped L) {g : G1} {i : Int} : Good (Allowed L E C K) (do
    let q ← L.dataAt i
    gate1 g [q]) fun _ => True := by
  refine good_dataAt.bind fun q hq => good_gate1 ?_
  intro x hx
  rw [List.mem_singleton.1 hx]
  exact Or.inl (S.data_own hq)

theorem everySecond_sub {l : List α} : ∀ a ∈ everySecond l, a ∈ l := by
  induction l using everySecond.induct with
  | case1 => exact fun a h => h
  | case2 => exact fun a h => h
  | case3 a b l ih =>
    intro c hc
    unfold everySecond at hc
    rcases List.mem_cons.1 hc with rfl | hc
    · simp
    · simp [ih c hc]

theorem Shaped.good_h (S : Shaped L) {qs : List Qubit} (h : ∀ q ∈ qs, q ∈ L.data.qubits) :
    Good (Allowed L E C K) (gate1 .h qs) fun _ => True := good_gate1 fun _ hq => Or.inl (S.data_own (h _ hq))

theorem Shaped.good_resetData (S : Shaped L) : Good (Allowed L E C K) (reset L.data.qubits) fun _ => True :=
  good_reset fun _ hq => Or.inl (S.data_own hq)

theorem Shaped.good_resetAnc (S : Shaped L) : Good (Allowed L E C K) (reset L.ancilla.qubits) fun _ => True :=
  good_reset fun _ hq => Or.inl (S.anc_own hq)

theorem Shaped.good_hAnc (S : Shaped L) : Good (Allowed L E C K) (gate1 .h L.ancilla.qubits) fun _ => True :=
  good_gate1 fun _ hq => Or.inl (S.anc_own hq)

theorem Shaped.good_resetX (S : Shaped L) : Good (Allowed L E C K) L.resetX fun _ => True := by
  unfold Lattice.resetX
  cases L.code
  · exact S.good_resetData.bind fun _ _ => (S.good_h fun _ h => h).bind fun _ _ => good_barrier trivial
  · exact S.good_resetData.bind fun _ _ => S.good_h fun _ h => List.mem_of_mem_drop (everySecond_sub _ h)

theorem Shaped.good_resetZ (S : Shaped L) : Good (Allowed L E C K) L.resetZ fun _ => True := by
  unfold Lattice.resetZ
  cases L.code
  · exact S.good_resetData.bind fun _ _ => good_barrier trivial
  · exact S.good_resetData.bind fun _ _ => S.good_h fun _ h => everySecond_sub _ h

theorem Shaped.good_x (S : Shaped L) : Good (Allowed L E C K) L.x fun _ => True :=
  good_columnIdx.bind fun _ _ => (Good.forEach fun _ _ => Good.dataAt_gate1 S).bind fun _ _ => good_barrier trivial

theorem Shaped.good_z (S : Shaped L) : Good (Allowed L E C K) L.z fun _ => True :=
  good_rowIdx.bind fun _ _ => (Good.forEach fun _ _ => Good.dataAt_gate1 S).bind fun _ _ => good_barrier trivial

theorem Shaped.good_xCIf (S : Shaped L) {c : Str} {v : Int} (hK : K c v) : Good (Allowed L E C K) (L.xCIf c v) fun _ => True :=
  good_columnIdx.bind fun _ _ => (Good.forEach fun _ _ => good_dataAt.bind fun _ hq =>
    good_gate1If (Or.inl (S.data_own hq)) ⟨Or.inl (S.data_own hq), hK⟩).bind fun _ _ => good_barrier trivial

theorem Shaped.good_zCIf (S : Shaped L) {c : Str} {v : Int} (hK : K c v) : Good (Allowed L E C K) (L.zCIf c v) fun _ => True :=
  good_rowIdx.bind fun _ _ => (Good.forEach fun _ _ => good_dataAt.bind fun _ hq =>
    good_gate1If (Or.inl (S.data_own hq)) ⟨Or.inl (S.data_own hq), hK⟩).bind fun _ _ => good_barrier trivial

theorem Shaped.good_ancData (S : Shaped L) {g : G2} {qs : List Qubit} (h : ∀ q ∈ qs, q ∈ L.data.qubits) :
    Good (Allowed L E C K) (gate2 g L.ancilla.qubits qs) fun _ => True :=
  good_gate2 fun _ ha _ hb => ⟨Or.inl (S.anc_own ha), Or.inl (S.data_own (h _ hb))⟩

theorem Shaped.good_dataAnc (S : Shaped L) {g : G2} {qs : List Qubit} (h : ∀ q ∈ qs, q ∈ L.data.qubits) :
    Good (Allowed L E C K) (gate2 g qs L.ancilla.qubits) fun _ => True :=
  good_gate2 fun _ ha _ hb => ⟨Or.inl (S.data_own (h _ ha)), Or.inl (S.anc_own hb)⟩

theorem Shaped.good_readoutXIntoAncilla (S : Shaped L) : Good (Allowed L E C K) L.readoutXIntoAncilla fun _ => True := by
  unfold Lattice.readoutXIntoAncilla
  cases L.code
  · exact S.good_resetAnc.bind fun _ _ => S.good_hAnc.bind fun _ _ => good_columnIdx.bind fun _ _ =>
      (Good.forEach fun _ _ => good_dataAt.bind fun _ hq => S.good_ancData (by simpa using hq)).bind fun _ _ => S.good_hAnc
  · exact S.good_resetAnc.bind fun _ _ => good_columnIdx.bind fun _ _ => S.good_hAnc.bind fun _ _ =>
      good_atList.bind fun _ hq => (S.good_ancData hq).bind fun _ _ => S.good_hAnc.bind fun _ _ =>
      good_atList.bind fun _ hq => S.good_dataAnc hq

theorem Shaped.good_readoutZIntoAncilla (S : Shaped L) : Good (Allowed L E C K) L.readoutZIntoAncilla fun _ => True := by
  unfold Lattice.readoutZIntoAncilla
  cases L.code
  · exact S.good_resetAnc.bind fun _ _ => good_rowIdx.bind fun _ _ =>
      Good.forEach fun _ _ => good_dataAt.bind fun _ hq => S.good_dataAnc (by simpa using hq)
  · exact S.good_resetAnc.bind fun _ _ => good_rowIdx.bind fun _ _ => S.good_hAnc.bind fun _ _ =>
      good_atList.bind fun _ hq => (S.good_ancData hq).bind fun _ _ => S.good_hAnc.bind fun _ _ =>
      good_atList.bind fun _ hq => S.good_dataAnc hq

theorem Shaped.good_cx (S : Shaped L) {c t : Option Qubit} (hc : ∀ q, c = some q → E q) (ht : ∀ q, t = some q → E q) :
    Good (Allowed L E C K) (L.cx c t) fun _ => True := by
  unfold Lattice.cx
  rcases c with _ | c
  · rcases t with _ | t
    · exact Good.pure trivial
    · exact S.good_readoutZIntoAncilla.bind fun _ _ => good_gate2 fun a ha b hb =>
        ⟨Or.inl (S.anc_own ha), Or.inr (List.mem_singleton.1 hb ▸ ht _ rfl)⟩
  · exact good_columnIdx.bind fun _ _ => (Good.forEach fun _ _ => good_dataAt.bind fun q hq => good_gate2 fun a ha b hb =>
        ⟨Or.inr (List.mem_singleton.1 ha ▸ hc _ rfl), Or.inl (List.mem_singleton.1 hb ▸ S.data_own hq)⟩).bind
        fun _ _ => good_barrier trivial

theorem Shaped.good_qcx {q : TQubit} (S : Shaped q.lat) {c t : Option Qubit} (hc : ∀ x, c = some x → E x)
    (ht : ∀ x, t = some x → E x) : Good (Allowed q.lat E C K) (q.cx c t) fun _ => True := by
  unfold TQubit.cx
  simp only
  split
  · exact (Good.throw (by decide)).bind (Q := fun _ => True) fun _ _ => S.good_cx hc ht
  · exact S.good_cx hc ht

theorem Shaped.qregs_own (S : Shaped L) {r : Reg} (hr : r ∈ L.qregs) {q : Qubit} (h : q ∈ r.qubits) : OwnQreg L.name q.reg := by
  unfold Lattice.qregs at hr
  simp only [List.mem_append, List.mem_singleton, Option.mem_toList] at hr
  rcases hr with ((rfl | hr) | hr) | rfl
  · exact S.data_own h
  · exact S.mz_own hr h
  · exact S.mx_own hr h
  · exact S.anc_own h

theorem Shaped.good_id {q : TQubit} (S : Shaped q.lat) : Good (Allowed q.lat E C K) q.id fun _ => True :=
  (Good.forEach fun _ hr => good_gate1 fun _ hx => Or.inl (S.qregs_own hr hx)).bind fun _ _ => good_barrier trivial

theorem Shaped.good_idData {q : TQubit} (S : Shaped q.lat) : Good (Allowed q.lat E C K) q.idData fun _ => True :=
  (good_gate1 fun _ hx => Or.inl (S.data_own hx)).bind fun _ _ => good_barrier trivial

theorem numX_ne_taken : L.numX ≠ .error .nameTaken := by
  unfold Lattice.numX
  cases L.mx <;> exact fun e => by cases e

theorem Shaped.good_entangleX (S : Shaped L) : Good (Allowed L E C K) L.entangleX fun _ => True :=
  (Good.lift (Q := fun _ => True) (fun _ _ => trivial) numX_ne_taken).bind fun _ _ => S.good_entangle fun _ e p hp => by
    cases e; exact List.mem_of_mem_take hp

theorem Shaped.good_entangleZ (S : Shaped L) : Good (Allowed L E C K) L.entangleZ fun _ => True :=
  (Good.lift (Q := fun _ => True) (fun _ _ => trivial) numX_ne_taken).bind fun _ _ => S.good_entangle fun _ e p hp => by
    cases e; exact List.mem_of_mem_drop hp

theorem Shaped.good_turnX (S : Shaped L) : Good (Allowed L E C K) L.turnX fun _ => True := by
  unfold Lattice.turnX
  cases L.code
  · exact S.good_h fun _ h => h
  · exact S.good_h fun _ h => List.mem_of_mem_drop (everySecond_sub _ h)

theorem Shaped.good_turnZ (S : Shaped L) : Good (Allowed L E C K) L.turnZ fun _ => True := by
  unfold Lattice.turnZ
  cases L.code
  · exact Good.pure trivial
  · exact S.good_h fun _ h => everySecond_sub _ h

theorem Shaped.good_measAnc (S : Shaped L) {cs : List Clbit} (h : ∀ c ∈ cs, C c) :
    Good (Allowed L E C K) (measure L.ancilla.qubits cs) fun _ => True :=
  good_measure fun _ hq _ hc => ⟨Or.inl (S.anc_own hq), h _ hc⟩

theorem Shaped.good_measData (S : Shaped L) {cs : List Clbit} (h : ∀ c ∈ cs, C c) :
    Good (Allowed L E C K) (measure L.data.qubits cs) fun _ => True :=
  good_measure fun _ hq _ hc => ⟨Or.inl (S.data_own hq), h _ hc⟩

/-! ### Steps -/

/-- What an operation may do: change the qubit's own dictionary, add classical registers with names of its own and
instructions allowed by `A`. -/
structure Steps (L : Lattice) (A : Instr → Prop) (w w' : World) : Prop where
  heap : ∀ k, k ≠ L.pref → w'.heap k = w.heap k
  next : w'.next = w.next
  qregs : w'.circ.qregs = w.circ.qregs
  cregs : ∃ extra, w'.circ.cregs = w.circ.cregs ++ extra ∧ ∀ r ∈ extra, OwnCreg L.name r.name
  instrs : ∃ new, w'.circ.instrs = w.circ.instrs ++ new ∧ ∀ i ∈ new, A i

theorem Adds.steps {A : Instr → Prop} (h : Adds A w w') : Steps L A w w' := by
  obtain ⟨new, e, hn⟩ := h.instrs
  exact ⟨fun k _ => by rw [h.heap], h.next, h.qregs, ⟨[], by rw [h.cregs, List.append_nil], by simp⟩, new, e, fun i hi => (hn i hi).1⟩

theorem Steps.refl (L : Lattice) (A : Instr → Prop) (w : World) : Steps L A w w := (Adds.refl A w).steps

theorem Steps.trans {A : Instr → Prop} {w w' w'' : World} (h : Steps L A w w') (h' : Steps L A w' w'') : Steps L A w w'' := by
  obtain ⟨n1, e1, a1⟩ := h.instrs
  obtain ⟨n2, e2, a2⟩ := h'.instrs
  obtain ⟨c1, f1, b1⟩ := h.cregs
  obtain ⟨c2, f2, b2⟩ := h'.cregs
  refine ⟨fun k hk => (h'.heap k hk).trans (h.heap k hk), h'.next.trans h.next, h'.qregs.trans h.qregs, ⟨c1 ++ c2, ?_, ?_⟩,
    n1 ++ n2, ?_, ?_⟩
  · rw [f2, f1, List.append_assoc]
  · intro r hr
    rcases List.mem_append.1 hr with hr | hr
    · exact b1 r hr
    · exact b2 r hr
  · rw [e2, e1, List.append_assoc]
  · intro i hi
    rcases List.mem_append.1 hi with hi | hi
    · exact a1 i hi
    · exact a2 i hi

theorem Steps.mono {A B : Instr → Prop} (h : Steps L A w w') (hAB : ∀ i, A i → B i) : Steps L B w w' := by
  obtain ⟨new, e, hn⟩ := h.instrs
  exact ⟨h.heap, h.next, h.qregs, h.cregs, new, e, fun i hi => hAB i (hn i hi)⟩

theorem Steps.regs {A : Instr → Prop} (p : Params) {r : Reg} (h : OwnCreg L.name r.name) :
    Steps L A w ((w.setP L.pref p).addC r) := by
  refine ⟨fun k hk => ?_, rfl, rfl, ⟨[r], rfl, by simpa using h⟩, [], by simp, by simp⟩
  rw [World.addC_heap, World.setP_heap_ne _ _ hk]

/-- The qubit's dictionary and registers are in order: counters at least -1, `T` at `t`, and no register of a later number
exists. -/
structure Own (L : Lattice) (dh dw t : Int) (w : World) : Prop where
  placed : Placed L dh dw w
  T : (w.heap L.pref).T = some t
  tge : -1 ≤ t
  round : ∀ k, t < k → roundName L.name k ∉ w.circ.names
  readout : ∃ a, (w.heap L.pref).numReadout = some a ∧ -1 ≤ a ∧ ∀ k, a < k → readoutName L.name k ∉ w.circ.names
  lattice : ∃ b, (w.heap L.pref).numLatticeReadout = some b ∧ -1 ≤ b ∧ ∀ k, b < k → latticeName L.name k ∉ w.circ.names

theorem Adds.names {A : Instr → Prop} (h : Adds A w w') : w'.circ.names = w.circ.names := by
  unfold Circ.names
  rw [h.qregs, h.cregs]

theorem Adds.placed {A : Instr → Prop} (h : Adds A w w') (P : Placed L dh dw w) : Placed L dh dw w' := by
  refine ⟨P.eq, P.odd, ?_, ?_, ?_, ?_⟩
  · rw [h.qregs]; exact P.qregs
  · rw [h.heap]; exact P.d
  · rw [h.heap]; exact P.nd
  · rw [h.heap]; exact P.ns

theorem Adds.own {A : Instr → Prop} {t : Int} (h : Adds A w w') (O : Own L dh dw t w) : Own L dh dw t w' := by
  refine ⟨h.placed O.placed, ?_, O.tge, ?_, ?_, ?_⟩
  · rw [h.heap]; exact O.T
  · rw [h.names]; exact O.round
  · rw [h.heap, h.names]; exact O.readout
  · rw [h.heap, h.names]; exact O.lattice

theorem Adds.wellFormed {A : Instr → Prop} (h : Adds A w w') (W : WellFormed w.circ) : WellFormed w'.circ := by
  obtain ⟨new, e, hn⟩ := h.instrs
  refine ⟨h.qregs ▸ W.qnames, h.cregs ▸ W.cnames, ?_, ?_⟩
  · rw [h.qregs, h.cregs]; exact W.disjoint
  · intro i hi
    rw [e] at hi
    refine InstrFits.mono (c := w.circ) (by rw [h.qregs]; exact fun _ h => h) (by rw [h.cregs]; exact fun _ h => h) ?_
    rcases List.mem_append.1 hi with hi | hi
    · exact W.fits i hi
    · exact (hn i hi).2

theorem names_addC (w : World) (r : Reg) (n : Str) : n ∈ (w.addC r).circ.names ↔ n = r.name ∨ n ∈ w.circ.names := by
  simp only [Circ.names, World.addC_qregs, World.addC_cregs, List.map_append, List.mem_append, List.map_cons, List.map_nil,
    List.mem_singleton]
  tauto

theorem ownCreg_round {name : Str} {k : Int} (h : 0 ≤ k) : OwnCreg name (roundName name k) := by
  obtain ⟨n, rfl⟩ := Int.eq_ofNat_of_zero_le h
  exact ⟨n, Or.inl rfl⟩

theorem ownCreg_readout {name : Str} {k : Int} (h : 0 ≤ k) : OwnCreg name (readoutName name k) := by
  obtain ⟨n, rfl⟩ := Int.eq_ofNat_of_zero_le h
  exact ⟨n, Or.inr (Or.inl rfl)⟩

theorem ownCreg_lattice {name : Str} {k : Int} (h : 0 ≤ k) : OwnCreg name (latticeName name k) := by
  obtain ⟨n, rfl⟩ := Int.eq_ofNat_of_zero_le h
  exact ⟨n, Or.inr (Or.inr rfl)⟩

theorem Own.newRound {t : Int} (O : Own L dh dw t w) (n : Nat) :
    Own L dh dw (t + 1) ((w.setP L.pref ((w.heap L.pref).withT (t + 1))).addC ⟨roundName L.name (t + 1), n⟩) := by
  refine ⟨(O.placed.setP (p := (w.heap L.pref).withT (t + 1)) ⟨rfl, rfl, rfl⟩).addC _, ?_, by have := O.tge; omega, ?_, ?_, ?_⟩
  · rw [World.addC_heap, World.setP_heap_self]; rfl
  · intro k hk h
    rw [names_addC] at h
    rcases h with h | h
    · have := roundName_inj h
      omega
    · exact O.round k (by omega) h
  · obtain ⟨a, h1, h2, h3⟩ := O.readout
    refine ⟨a, by rw [World.addC_heap, World.setP_heap_self]; exact h1, h2, fun k hk h => ?_⟩
    rw [names_addC] at h
    rcases h with h | h
    · exact round_ne_readout h.symm
    · exact h3 k hk h
  · obtain ⟨a, h1, h2, h3⟩ := O.lattice
    refine ⟨a, by rw [World.addC_heap, World.setP_heap_self]; exact h1, h2, fun k hk h => ?_⟩
    rw [names_addC] at h
    rcases h with h | h
    · exact round_ne_lattice h.symm
    · exact h3 k hk h

theorem Own.newReadout {t a : Int} (O : Own L dh dw t w) (ha : (w.heap L.pref).numReadout = some a) (n : Nat) :
    Own L dh dw t ((w.setP L.pref ((w.heap L.pref).withReadout (a + 1))).addC ⟨readoutName L.name (a + 1), n⟩) := by
  refine ⟨(O.placed.setP (p := (w.heap L.pref).withReadout (a + 1)) ⟨rfl, rfl, rfl⟩).addC _, ?_, O.tge, ?_, ?_, ?_⟩
  · rw [World.addC_heap, World.setP_heap_self]; exact O.T
  · intro k hk h
    rw [names_addC] at h
    rcases h with h | h
    · exact round_ne_readout h
    · exact O.round k hk h
  · obtain ⟨a', h1, h2, h3⟩ := O.readout
    rw [ha] at h1
    cases h1
    refine ⟨a + 1, by rw [World.addC_heap, World.setP_heap_self]; rfl, by omega, fun k hk h => ?_⟩
    rw [names_addC] at h
    rcases h with h | h
    · have := readoutName_inj h
      omega
    · exact h3 k (by omega) h
  · obtain ⟨a, h1, h2, h3⟩ := O.lattice
    refine ⟨a, by rw [World.addC_heap, World.setP_heap_self]; exact h1, h2, fun k hk h => ?_⟩
    rw [names_addC] at h
    rcases h with h | h
    · exact readout_ne_lattice h.symm
    · exact h3 k hk h

theorem Own.newLatticeReadout {t a : Int} (O : Own L dh dw t w) (ha : (w.heap L.pref).numLatticeReadout = some a) (n : Nat) :
    Own L dh dw t ((w.setP L.pref ((w.heap L.pref).withLattice (a + 1))).addC ⟨latticeName L.name (a + 1), n⟩) := by
  refine ⟨(O.placed.setP (p := (w.heap L.pref).withLattice (a + 1)) ⟨rfl, rfl, rfl⟩).addC _, ?_, O.tge, ?_, ?_, ?_⟩
  · rw [World.addC_heap, World.setP_heap_self]; exact O.T
  · intro k hk h
    rw [names_addC] at h
    rcases h with h | h
    · exact round_ne_lattice h
    · exact O.round k hk h
  · obtain ⟨a, h1, h2, h3⟩ := O.readout
    refine ⟨a, by rw [World.addC_heap, World.setP_heap_self]; exact h1, h2, fun k hk h => ?_⟩
    rw [names_addC] at h
    rcases h with h | h
    · exact readout_ne_lattice h
    · exact h3 k hk h
  · obtain ⟨a', h1, h2, h3⟩ := O.lattice
    rw [ha] at h1
    cases h1
    refine ⟨a + 1, by rw [World.addC_heap, World.setP_heap_self]; rfl, by omega, fun k hk h => ?_⟩
    rw [names_addC] at h
    rcases h with h | h
    · have := latticeName_inj h
      omega
    · exact h3 k (by omega) h

/-- The round counter after an operation. -/
def QOp.rounds : QOp → Int
  | .stabilize => 1
  | _ => 0

/-- What an operation of the qubit may add. -/
def TQubit.mayAdd (q : TQubit) (o : QOp) : Instr → Prop :=
  Only (fun x => OwnQreg q.lat.name x.reg ∨ o.args x) (fun c => OwnCreg q.lat.name c.reg ∨ o.creg c.reg) o.cond

/-- The outcome of an operation. -/
structure Fine (q : TQubit) (o : QOp) (dh dw t : Int) (w : World) : Prop where
  wf : WellFormed (q.op o w).2.circ
  own : Own q.lat dh dw (t + o.rounds) (q.op o w).2
  steps : Steps q.lat (q.mayAdd o) w (q.op o w).2
  name : (q.op o w).1 ≠ .error .nameTaken

theorem fine_of_good {q : TQubit} {o : QOp} {t : Int} (W : WellFormed w.circ) (O : Own q.lat dh dw t w) (h0 : o.rounds = 0)
    (h : Good (q.mayAdd o) (q.op o) fun _ => True) : Fine q o dh dw t w := by
  obtain ⟨h1, -, h3⟩ := h w
  refine ⟨h1.wellFormed W, ?_, h1.steps, h3⟩
  rw [h0, Int.add_zero]
  exact h1.own O

theorem good_run {x : WM α} {f : α → WM Unit} {A : Instr → Prop} {a : α} {w1 : World} (h : x w = (.ok a, w1))
    (hf : Good A (f a) fun _ => True) : Adds A w1 ((x >>= f) w).2 ∧ ((x >>= f) w).1 ≠ .error .nameTaken := by
  rw [CM.bind_ok h]
  exact ⟨(hf w1).1, (hf w1).2.2⟩

theorem readoutReg_none (creg : Option Reg) (h : ∀ n k, creg ≠ some ⟨n, k + 1⟩) : L.readoutReg creg = L.readoutReg none := by
  rcases creg with _ | ⟨n, _ | k⟩
  · rfl
  · rfl
  · exact absurd rfl (h n k)

theorem fine_readout {q : TQubit} {o : QOp} {t : Int} (W : WellFormed w.circ) (O : Own q.lat dh dw t w) (h0 : o.rounds = 0)
    (creg : Option Reg) {x : WM Unit} (ho : q.op o = (do
      let r ← q.lat.readoutReg creg
      x
      measure q.lat.ancilla.qubits r.clbits
      barrier)) (hx : Good (q.mayAdd o) x fun _ => True) (hc : ∀ r, creg = some r → o.creg r.name) : Fine q o dh dw t w := by
  have S := O.placed.shaped
  have good : ∀ r : Reg, (OwnCreg q.lat.name r.name ∨ o.creg r.name) → Good (q.mayAdd o) (do
      x
      measure q.lat.ancilla.qubits r.clbits
      barrier) fun _ => True := by
    intro r hr
    refine hx.bind fun _ _ => (S.good_measAnc fun c hc => ?_).bind fun _ _ => good_barrier trivial
    rw [(Reg.mem_clbits.1 hc).1]
    exact hr
  by_cases hg : ∃ n k, creg = some ⟨n, k + 1⟩
  · obtain ⟨n, k, rfl⟩ := hg
    refine fine_of_good W O h0 ?_
    rw [ho]
    refine Good.bind (Q := fun r => r = ⟨n, k + 1⟩) (Good.pure rfl) fun r hr => ?_
    rw [hr]
    exact good _ (Or.inr (hc _ rfl))
  · have hn : q.lat.readoutReg creg = q.lat.readoutReg none := readoutReg_none creg fun n k e => hg ⟨n, k, e⟩
    rw [hn] at ho
    obtain ⟨a, h1, h2, h3⟩ := O.readout
    have hf := h3 (a + 1) (by omega)
    have hown := ownCreg_readout (name := q.lat.name) (k := a + 1) (by omega)
    have := good_run (f := fun r => do
      x
      measure q.lat.ancilla.qubits r.clbits
      barrier) (readoutReg_run h1 hf) (good ⟨readoutName q.lat.name (a + 1), 1⟩ (Or.inl hown))
    rw [← ho] at this
    refine ⟨this.1.wellFormed (WellFormed.addC (w := w.setP _ _) W hf), ?_,
      (Steps.regs _ hown).trans this.1.steps, this.2⟩
    rw [h0, Int.add_zero]
    exact this.1.own (O.newReadout h1 1)

theorem fine_lattice {q : TQubit} {o : QOp} {t : Int} (W : WellFormed w.circ) (O : Own q.lat dh dw t w) (h0 : o.rounds = 0)
    {x : WM Unit} (ho : q.op o = (do
      let r ← q.lat.latticeReg
      x
      measure q.lat.data.qubits r.clbits
      barrier)) (hx : Good (q.mayAdd o) x fun _ => True) : Fine q o dh dw t w := by
  have S := O.placed.shaped
  have good : ∀ r : Reg, (OwnCreg q.lat.name r.name ∨ o.creg r.name) → Good (q.mayAdd o) (do
      x
      measure q.lat.data.qubits r.clbits
      barrier) fun _ => True := by
    intro r hr
    refine hx.bind fun _ _ => (S.good_measData fun c hc => ?_).bind fun _ _ => good_barrier trivial
    rw [(Reg.mem_clbits.1 hc).1]
    exact hr
  obtain ⟨a, h1, h2, h3⟩ := O.lattice
  have hf := h3 (a + 1) (by omega)
  have hown := ownCreg_lattice (name := q.lat.name) (k := a + 1) (by omega)
  have := good_run (f := fun r => do
      x
      measure q.lat.data.qubits r.clbits
      barrier) (latticeReg_run O.placed h1 hf) (good ⟨latticeName q.lat.name (a + 1), (dh * dw).toNat⟩ (Or.inl hown))
  rw [← ho] at this
  refine ⟨this.1.wellFormed (WellFormed.addC (w := w.setP _ _) W hf), ?_,
    (Steps.regs _ hown).trans this.1.steps, this.2⟩
  rw [h0, Int.add_zero]
  exact this.1.own (O.newLatticeReadout h1 _)

theorem good_params' {A : Instr → Prop} {r : Nat} : Good A (getParams r) fun _ => True :=
  fun w => ⟨Adds.refl A w, fun _ _ => trivial, fun e => by cases e⟩

theorem fine_stabilize {q : TQubit} {t : Int} (W : WellFormed w.circ) (O : Own q.lat dh dw t w) : Fine q .stabilize dh dw t w := by
  have S := O.placed.shaped
  have hf := O.round (t + 1) (by omega)
  have hown := ownCreg_round (name := q.lat.name) (k := t + 1) (by have := O.tge; omega)
  obtain ⟨hs, hx, hz⟩ := numSyn_pos O.placed.odd
  -- after the new register has been added
  have hrun : q.stabilize w = (do
      q.lat.entangle none none
      CM.when (0 < numSynZ dh dw) do
        let r ← CM.lift (key q.lat.mz)
        measure r.qubits ((Reg.clbits ⟨roundName q.lat.name (t + 1), (numSynX dh dw + numSynZ dh dw).toNat⟩).take (numSynZ dh dw).toNat)
      CM.when (0 < numSynX dh dw) do
        let r ← CM.lift (key q.lat.mx)
        measure r.qubits (((Reg.clbits ⟨roundName q.lat.name (t + 1), (numSynX dh dw + numSynZ dh dw).toNat⟩).take
          (numSynZ dh dw + numSynX dh dw).toNat).drop (numSynZ dh dw).toNat)
      CM.when (0 < numSynZ dh dw) do
        let r ← CM.lift (key q.lat.mz)
        reset r.qubits
      CM.when (0 < numSynX dh dw) do
        let r ← CM.lift (key q.lat.mx)
        reset r.qubits
      barrier) ((w.setP q.lat.pref ((w.heap q.lat.pref).withT (t + 1))).addC
      ⟨roundName q.lat.name (t + 1), (numSynX dh dw + numSynZ dh dw).toNat⟩) := by
    unfold TQubit.stabilize
    rw [CM.bind_ok (s' := w) (by have := O.placed.numSyn.run; rwa [World.emit_nil] at this),
      CM.bind_ok (x := q.lat.params) (a := w.heap q.lat.pref) (s' := w) rfl,
      CM.bind_lift (key_ok O.T), CM.bind_ok (setParams_run _ _ w), CM.bind_lift (newReg_ok (by simp only; omega) _),
      CM.bind_ok (addCreg_ok (show _ from hf))]
    rfl
  have mem : ∀ c ∈ Reg.clbits ⟨roundName q.lat.name (t + 1), (numSynX dh dw + numSynZ dh dw).toNat⟩,
      OwnCreg q.lat.name c.reg := by
    intro c hc
    rw [(Reg.mem_clbits.1 hc).1]
    exact hown
  have good := S.good_entangle (E := QOp.stabilize.args) (C := fun c => OwnCreg q.lat.name c.reg ∨ QOp.stabilize.creg c.reg)
    (K := QOp.stabilize.cond) (qi := none) (st := none) (by intro l e; cases e)
  have goodAll := good.bind fun _ _ => ((Good.when (b := decide (0 < numSynZ dh dw)) fun _ =>
      (Good.lift (x := key q.lat.mz) (Q := fun r => q.lat.mz = some r) (fun r h => key_eq_ok h) key_ne_taken).bind fun r hr =>
        good_measure (A := q.mayAdd .stabilize)
          (cs := (Reg.clbits ⟨roundName q.lat.name (t + 1), (numSynX dh dw + numSynZ dh dw).toNat⟩).take (numSynZ dh dw).toNat)
          fun x hx c hc => ⟨Or.inl (S.mz_own hr hx), Or.inl (mem c (List.mem_of_mem_take hc))⟩).bind fun _ _ =>
    (Good.when (b := decide (0 < numSynX dh dw)) fun _ =>
      (Good.lift (x := key q.lat.mx) (Q := fun r => q.lat.mx = some r) (fun r h => key_eq_ok h) key_ne_taken).bind fun r hr =>
        good_measure (A := q.mayAdd .stabilize)
          (cs := ((Reg.clbits ⟨roundName q.lat.name (t + 1), (numSynX dh dw + numSynZ dh dw).toNat⟩).take
            (numSynZ dh dw + numSynX dh dw).toNat).drop (numSynZ dh dw).toNat)
          fun x hx c hc => ⟨Or.inl (S.mx_own hr hx), Or.inl (mem c (List.mem_of_mem_take (List.mem_of_mem_drop hc)))⟩).bind fun _ _ =>
    (Good.when (b := decide (0 < numSynZ dh dw)) fun _ =>
      (Good.lift (x := key q.lat.mz) (Q := fun r => q.lat.mz = some r) (fun r h => key_eq_ok h) key_ne_taken).bind fun r hr =>
        good_reset (A := q.mayAdd .stabilize) fun x hx => Or.inl (S.mz_own hr hx)).bind fun _ _ =>
    (Good.when (b := decide (0 < numSynX dh dw)) fun _ =>
      (Good.lift (x := key q.lat.mx) (Q := fun r => q.lat.mx = some r) (fun r h => key_eq_ok h) key_ne_taken).bind fun r hr =>
        good_reset (A := q.mayAdd .stabilize) fun x hx => Or.inl (S.mx_own hr hx)).bind fun _ _ =>
    good_barrier (A := q.mayAdd .stabilize) trivial)
  obtain ⟨g1, -, g3⟩ := goodAll ((w.setP q.lat.pref ((w.heap q.lat.pref).withT (t + 1))).addC
      ⟨roundName q.lat.name (t + 1), (numSynX dh dw + numSynZ dh dw).toNat⟩)
  have e : q.op .stabilize w = q.stabilize w := rfl
  rw [hrun] at e
  rw [← e] at g1 g3
  exact ⟨g1.wellFormed (WellFormed.addC (w := w.setP _ _) W hf), g1.own (O.newRound _), (Steps.regs _ hown).trans g1.steps, g3⟩

/-- Every operation is fine. -/
theorem fine {q : TQubit} (o : QOp) {t : Int} (W : WellFormed w.circ) (O : Own q.lat dh dw t w) : Fine q o dh dw t w := by
  have S := O.placed.shaped
  cases o with
  | stabilize => exact fine_stabilize W O
  | entangleX => exact fine_of_good W O rfl S.good_entangleX
  | entangleZ => exact fine_of_good W O rfl S.good_entangleZ
  | id => exact fine_of_good W O rfl S.good_id
  | idData => exact fine_of_good W O rfl S.good_idData
  | resetX => exact fine_of_good W O rfl S.good_resetX
  | resetZ => exact fine_of_good W O rfl S.good_resetZ
  | x => exact fine_of_good W O rfl S.good_x
  | z => exact fine_of_good W O rfl S.good_z
  | xCIf c v => exact fine_of_good W O rfl (S.good_xCIf ⟨rfl, rfl⟩)
  | zCIf c v => exact fine_of_good W O rfl (S.good_zCIf ⟨rfl, rfl⟩)
  | cx c t => exact fine_of_good W O rfl (S.good_qcx (fun _ h => Or.inl h) fun _ h => Or.inr h)
  | readoutX r => exact fine_readout W O rfl r rfl S.good_readoutXIntoAncilla fun r e => by subst e; rfl
  | readoutZ r => exact fine_readout W O rfl r rfl S.good_readoutZIntoAncilla fun r e => by subst e; rfl
  | latticeReadoutX => exact fine_lattice W O rfl rfl S.good_turnX
  | latticeReadoutZ => exact fine_lattice W O rfl rfl S.good_turnZ

/-- The number of rounds in a sequence of operations. -/
def roundsOf (l : List QOp) : Int := (l.map QOp.rounds).sum

/-- Every sequence of operations is fine. -/
theorem fine_ops {q : TQubit} (l : List QOp) {t : Int} (W : WellFormed w.circ) (O : Own q.lat dh dw t w) :
    WellFormed (q.ops l w).circ ∧ Own q.lat dh dw (t + roundsOf l) (q.ops l w) ∧
      Steps q.lat (fun i => ∃ o ∈ l, q.mayAdd o i) w (q.ops l w) := by
  induction l generalizing w t with
  | nil => exact ⟨W, by simpa [roundsOf, TQubit.ops] using O, Steps.refl _ _ _⟩
  | cons o l ih =>
    have F := fine o W O
    obtain ⟨h1, h2, h3⟩ := ih F.wf F.own
    have e : q.ops (o :: l) w = q.ops l (q.op o w).2 := rfl
    rw [e]
    refine ⟨h1, ?_, ?_⟩
    · have e : t + roundsOf (o :: l) = t + o.rounds + roundsOf l := by
        simp only [roundsOf, List.map_cons, List.sum_cons]; omega
      rw [e]; exact h2
    · exact (F.steps.mono fun i hi => ⟨o, by simp, hi⟩).trans (h3.mono fun i ⟨o', h, hi⟩ => ⟨o', by simp [h], hi⟩)

end Qtc
