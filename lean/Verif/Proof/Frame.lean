import Verif.Proof.Names
import Verif.Spec.Circuit
/-!
What every operation leaves alone, whether it succeeds or raises.
-/
namespace Qtc
open Spec

variable {α β : Type} {L : Lattice} {dh dw : Int} {w w' : World}

/-! ### Well-formed circuits -/

theorem mem_circ_qubits {c : Circ} {q : Qubit} : q ∈ c.qubits ↔ HasQubit c q := by
  unfold Circ.qubits HasQubit
  rw [List.mem_flatMap]
  simp only [Reg.mem_qubits]

theorem mem_circ_clbits {c : Circ} {b : Clbit} : b ∈ c.clbits ↔ HasClbit c b := by
  unfold Circ.clbits HasClbit
  rw [List.mem_flatMap]
  simp only [Reg.mem_clbits]

theorem fits_iff {i : Instr} : Fits w i ↔ InstrFits w.circ i := by
  unfold Fits
  cases i <;> simp [Instr.qargs, Instr.cargs, InstrFits, mem_circ_qubits, mem_circ_clbits, and_assoc]

theorem HasQubit.mono {c c' : Circ} {q : Qubit} (h : ∀ r ∈ c.qregs, r ∈ c'.qregs) (hq : HasQubit c q) : HasQubit c' q := by
  obtain ⟨r, hr, e⟩ := hq
  exact ⟨r, h r hr, e⟩

theorem HasClbit.mono {c c' : Circ} {b : Clbit} (h : ∀ r ∈ c.cregs, r ∈ c'.cregs) (hq : HasClbit c b) : HasClbit c' b := by
  obtain ⟨r, hr, e⟩ := hq
  exact ⟨r, h r hr, e⟩

theorem InstrFits.mono {c c' : Circ} {i : Instr} (h : ∀ r ∈ c.qregs, r ∈ c'.qregs) (h' : ∀ r ∈ c.cregs, r ∈ c'.cregs)
    (hi : InstrFits c i) : InstrFits c' i := by
  cases i with
  | gate1 g q o => exact HasQubit.mono h hi
  | gate2 g a b => exact ⟨HasQubit.mono h hi.1, HasQubit.mono h hi.2.1, hi.2.2⟩
  | measure q b => exact ⟨HasQubit.mono h hi.1, HasClbit.mono h' hi.2⟩
  | reset q => exact HasQubit.mono h hi
  | barrier => trivial

theorem WellFormed.emit (W : WellFormed w.circ) {is : List Instr} (h : ∀ i ∈ is, InstrFits w.circ i) :
    WellFormed (w.emit is).circ := by
  refine ⟨W.qnames, W.cnames, W.disjoint, ?_⟩
  intro i hi
  rcases List.mem_append.1 hi with hi | hi
  · exact W.fits i hi
  · exact h i hi

theorem WellFormed.addC (W : WellFormed w.circ) {r : Reg} (h : r.name ∉ w.circ.names) : WellFormed (w.addC r).circ := by
  have h1 : r.name ∉ w.circ.qregs.map Reg.name := fun e => h (List.mem_append_left _ e)
  have h2 : r.name ∉ w.circ.cregs.map Reg.name := fun e => h (List.mem_append_right _ e)
  refine ⟨W.qnames, ?_, ?_, ?_⟩
  · rw [World.addC_cregs, List.map_append, List.nodup_append]
    refine ⟨W.cnames, by simp, ?_⟩
    intro a ha b hb e
    simp only [List.map_cons, List.map_nil, List.mem_singleton] at hb
    exact h2 (hb ▸ e ▸ ha)
  · intro q hq s hs
    rw [World.addC_cregs] at hs
    rcases List.mem_append.1 hs with hs | hs
    · exact W.disjoint q hq s hs
    · rw [List.mem_singleton.1 hs]
      intro e
      exact h1 (e ▸ List.mem_map_of_mem hq)
  · intro i hi
    refine InstrFits.mono (c := w.circ) (fun r hr => hr) (fun r hr => ?_) (W.fits i hi)
    rw [World.addC_cregs]
    exact List.mem_append_left _ hr

theorem WellFormed.addQs (W : WellFormed w.circ) {l : List Reg} (h : ∀ r ∈ l, r.name ∉ w.circ.names)
    (hn : (l.map Reg.name).Nodup) : WellFormed (w.addQs l).circ := by
  have h1 : ∀ r ∈ l, r.name ∉ w.circ.qregs.map Reg.name := fun r hr e => h r hr (List.mem_append_left _ e)
  have h2 : ∀ r ∈ l, r.name ∉ w.circ.cregs.map Reg.name := fun r hr e => h r hr (List.mem_append_right _ e)
  refine ⟨?_, W.cnames, ?_, ?_⟩
  · rw [World.addQs_qregs, List.map_append, List.nodup_append]
    refine ⟨W.qnames, hn, ?_⟩
    intro a ha b hb e
    obtain ⟨r, hr, rfl⟩ := List.mem_map.1 hb
    exact h1 r hr (e ▸ ha)
  · intro q hq s hs
    rw [World.addQs_qregs] at hq
    rcases List.mem_append.1 hq with hq | hq
    · exact W.disjoint q hq s hs
    · intro e
      exact h2 q hq (e ▸ List.mem_map_of_mem hs)
  · intro i hi
    exact InstrFits.mono (fun r hr => List.mem_append_left _ hr) (fun r hr => hr) (W.fits i hi)

/-! ### Frames -/

/-- Only instructions allowed by `A` have been added, registers and dictionaries are as before. -/
structure Adds (A : Instr → Prop) (w w' : World) : Prop where
  heap : w'.heap = w.heap
  next : w'.next = w.next
  qregs : w'.circ.qregs = w.circ.qregs
  cregs : w'.circ.cregs = w.circ.cregs
  instrs : ∃ new, w'.circ.instrs = w.circ.instrs ++ new ∧ ∀ i ∈ new, A i ∧ InstrFits w.circ i

theorem Adds.refl (A : Instr → Prop) (w : World) : Adds A w w := ⟨rfl, rfl, rfl, rfl, [], by simp, by simp⟩

theorem Adds.trans {A : Instr → Prop} {w w' w'' : World} (h : Adds A w w') (h' : Adds A w' w'') : Adds A w w'' := by
  obtain ⟨n1, e1, a1⟩ := h.instrs
  obtain ⟨n2, e2, a2⟩ := h'.instrs
  refine ⟨h'.heap.trans h.heap, h'.next.trans h.next, h'.qregs.trans h.qregs, h'.cregs.trans h.cregs, n1 ++ n2, ?_, ?_⟩
  · rw [e2, e1, List.append_assoc]
  · intro i hi
    rcases List.mem_append.1 hi with hi | hi
    · exact a1 i hi
    · refine ⟨(a2 i hi).1, InstrFits.mono ?_ ?_ (a2 i hi).2⟩
      · rw [h.qregs]; exact fun r hr => hr
      · rw [h.cregs]; exact fun r hr => hr

/-- The method only adds allowed instructions, does not complain about a name, and returns a value satisfying `Q`. -/
def Good (A : Instr → Prop) (x : WM α) (Q : α → Prop) : Prop :=
  ∀ w, Adds A w (x w).2 ∧ (∀ a, (x w).1 = .ok a → Q a) ∧ (x w).1 ≠ .error .nameTaken

variable {A : Instr → Prop}

theorem Good.pure {a : α} {Q : α → Prop} (h : Q a) : Good A (pure a) Q := by
  intro w
  refine ⟨Adds.refl A w, ?_, ?_⟩
  · intro b hb
    rw [CM.pure_run] at hb
    cases hb; exact h
  · rw [CM.pure_run]; exact fun e => by cases e

theorem Good.throw {e : PyErr} {Q : α → Prop} (h : e ≠ .nameTaken) : Good A (CM.throw e) Q := by
  intro w
  refine ⟨Adds.refl A w, ?_, ?_⟩
  · intro b hb
    rw [CM.throw_run] at hb
    cases hb
  · rw [CM.throw_run]; exact fun e' => by cases e'; exact h rfl

theorem Good.lift {x : Py α} {Q : α → Prop} (h : ∀ a, x = .ok a → Q a) (he : x ≠ .error .nameTaken) : Good A (CM.lift x) Q := by
  intro w
  exact ⟨Adds.refl A w, h, he⟩

theorem Good.bind {x : WM α} {f : α → WM β} {Q : α → Prop} {R : β → Prop} (hx : Good A x Q) (hf : ∀ a, Q a → Good A (f a) R) :
    Good A (x >>= f) R := by
  intro w
  obtain ⟨h1, h2, h3⟩ := hx w
  rw [CM.bind_run]
  rcases hr : x w with ⟨e | a, w1⟩
  · rw [hr] at h1 h2 h3
    exact ⟨h1, fun a ha => (by simp at ha), fun e' => h3 (by simpa using e')⟩
  · rw [hr] at h1 h2 h3
    obtain ⟨g1, g2, g3⟩ := hf a (h2 a rfl) w1
    exact ⟨h1.trans g1, g2, g3⟩

theorem Good.forEach {l : List α} {f : α → WM Unit} (h : ∀ a ∈ l, Good A (f a) fun _ => True) :
    Good A (CM.forEach l f) fun _ => True := by
  induction l with
  | nil => exact Good.pure trivial
  | cons a l ih =>
    rw [CM.forEach_cons]
    exact (h a (by simp)).bind fun _ _ => ih fun b hb => h b (by simp [hb])

theorem Good.when {b : Bool} {x : WM Unit} (h : b = true → Good A x fun _ => True) : Good A (CM.when b x) fun _ => True := by
  unfold CM.when
  cases b
  · exact Good.pure trivial
  · exact h rfl

theorem good_append {i : Instr} (h : A i) : Good A (append i) fun _ => True := by
  intro w
  by_cases hf : Fits w i
  · rw [append_fits hf]
    refine ⟨⟨rfl, rfl, rfl, rfl, [i], rfl, ?_⟩, fun _ _ => trivial, fun e => by cases e⟩
    intro j hj
    rw [List.mem_singleton.1 hj]
    exact ⟨h, fits_iff.1 hf⟩
  · rw [append_not_fits hf]
    exact ⟨Adds.refl A w, fun _ _ => trivial, fun e => by cases e⟩

theorem good_each {l : List α} {f : α → Instr} (h : ∀ a ∈ l, A (f a)) : Good A (CM.forEach l fun a => append (f a)) fun _ => True :=
  Good.forEach fun a ha => good_append (h a ha)

theorem good_gate1 {g : G1} {qs : List Qubit} (h : ∀ q ∈ qs, A (.gate1 g q none)) : Good A (gate1 g qs) fun _ => True := by
  unfold gate1
  cases qs with
  | nil => exact Good.throw (by decide)
  | cons q qs => exact good_each h

theorem good_gate1If {g : G1} {q : Qubit} {c : Str} {v : Int} (h1 : A (.gate1 g q none)) (h2 : A (.gate1 g q (some (c, v)))) :
    Good A (gate1If g q c v) fun _ => True := by
  unfold gate1If
  split
  · exact (good_append h1).bind fun _ _ => Good.throw (by decide)
  · exact good_append h2

theorem good_gate2 {g : G2} {as bs : List Qubit} (h : ∀ a ∈ as, ∀ b ∈ bs, A (.gate2 g a b)) : Good A (gate2 g as bs) fun _ => True := by
  unfold gate2
  split
  · exact Good.throw (by decide)
  · split
    · exact good_each fun p hp => h _ (List.of_mem_zip hp).1 _ (List.of_mem_zip hp).2
    · split
      · exact good_each fun b hb => h _ (by simp) _ hb
      · exact good_each fun a ha => h _ ha _ (by simp)
      · exact Good.throw (by decide)

theorem good_measure {qs : List Qubit} {cs : List Clbit} (h : ∀ q ∈ qs, ∀ c ∈ cs, A (.measure q c)) :
    Good A (measure qs cs) fun _ => True := by
  unfold measure
  split
  · exact good_each fun p hp => h _ (List.of_mem_zip hp).1 _ (List.of_mem_zip hp).2
  · split
    · split
      · exact Good.throw (by decide)
      · exact good_each fun c hc => h _ (by simp) _ hc
    · exact Good.throw (by decide)

theorem good_reset {qs : List Qubit} (h : ∀ q ∈ qs, A (.reset q)) : Good A (reset qs) fun _ => True :=
  good_each h

theorem good_barrier (h : A .barrier) : Good A barrier fun _ => True := good_append h

/-! ### The operations -/

/-- What an operation of the lattice may add: instructions on the lattice's own registers and on the given qubits, writing
the given bits, conditioned in the given way. -/
def Allowed (L : Lattice) (qs : Qubit → Prop) (C : Clbit → Prop) (K : Str → Int → Prop) : Instr → Prop :=
  Only (fun q => OwnQreg L.name q.reg ∨ qs q) C K

/-- A lattice of the right shape: what the arguments below need. -/
structure Shaped (L : Lattice) : Prop where
  data : L.data.name = L.name ++ "_data".toList
  mz : ∀ r, L.mz = some r → r.name = L.name ++ "_mz".toList
  mx : ∀ r, L.mx = some r → r.name = L.name ++ "_mx".toList
  anc : L.ancilla.name = L.name ++ "_ancilla".toList
  plaqs : ∀ p ∈ L.qubitIndices, OwnQreg L.name p.syn.reg ∧ ∀ q, some q ∈ [p.tl, p.tr, p.bl, p.br] → OwnQreg L.name q.reg

theorem Placed.shaped (P : Placed L dh dw w) : Shaped L := by
  refine ⟨by rw [P.code_data], ?_, ?_, by rw [P.code_anc], ?_⟩
  · intro r h
    rw [P.code_mz] at h
    exact mem_optReg (by rw [h]; simp)
  · intro r h
    rw [P.code_mx] at h
    exact mem_optReg (by rw [h]; simp)
  · intro p hp
    rw [P.code_plaqs] at hp
    rcases List.mem_append.1 hp with hp | hp
    · obtain ⟨p', -, rfl⟩ := List.mem_map.1 hp
      refine ⟨Or.inr (Or.inr (Or.inl rfl)), ?_⟩
      intro q hq
      obtain ⟨i, -, rfl⟩ := plaqOf_corner hq
      exact Or.inl rfl
    · obtain ⟨p', -, rfl⟩ := List.mem_map.1 hp
      refine ⟨Or.inr (Or.inl rfl), ?_⟩
      intro q hq
      obtain ⟨i, -, rfl⟩ := plaqOf_corner hq
      exact Or.inl rfl

variable {E : Qubit → Prop} {C : Clbit → Prop} {K : Str → Int → Prop}

theorem Shaped.data_own (S : Shaped L) {q : Qubit} (h : q ∈ L.data.qubits) : OwnQreg L.name q.reg :=
  Or.inl ((Reg.mem_qubits.1 h).1.trans S.data)

theorem Shaped.anc_own (S : Shaped L) {q : Qubit} (h : q ∈ L.ancilla.qubits) : OwnQreg L.name q.reg :=
  Or.inr (Or.inr (Or.inr ((Reg.mem_qubits.1 h).1.trans S.anc)))

theorem Shaped.mz_own (S : Shaped L) {r : Reg} (hr : L.mz = some r) {q : Qubit} (h : q ∈ r.qubits) : OwnQreg L.name q.reg :=
  Or.inr (Or.inl ((Reg.mem_qubits.1 h).1.trans (S.mz r hr)))

theorem Shaped.mx_own (S : Shaped L) {r : Reg} (hr : L.mx = some r) {q : Qubit} (h : q ∈ r.qubits) : OwnQreg L.name q.reg :=
  Or.inr (Or.inr (Or.inl ((Reg.mem_qubits.1 h).1.trans (S.mx r hr))))

theorem key_ne_taken {v : Option α} : key v ≠ .error .nameTaken := by
  cases v <;> exact fun e => by cases e

theorem pyIdx_ne_taken {l : List α} {k : Int} : pyIdx l k ≠ .error .nameTaken := by
  unfold pyIdx
  simp only
  generalize hk : (if k < 0 then k + (l.length : Int) else k) = k'
  split
  · exact fun e => by cases e
  · split <;> exact fun e => by cases e

theorem pyIdx_mem {l : List α} {k : Int} {a : α} (h : pyIdx l k = .ok a) : a ∈ l := by
  unfold pyIdx at h
  simp only at h
  generalize (if k < 0 then k + (l.length : Int) else k) = k' at h
  split at h
  · cases h
  · split at h
    · rename_i b hb
      cases h
      exact List.mem_of_getElem? hb
    · cases h

theorem mapM_ne_taken {f : α → Py β} {l : List α} (h : ∀ a, f a ≠ .error .nameTaken) : l.mapM f ≠ .error .nameTaken := by
  induction l with
  | nil => exact fun e => by cases e
  | cons a l ih =>
    rw [List.mapM_cons]
    rcases hf : f a with e | b
    · intro e'
      have := h a
      rw [hf] at this
      simp only [bind, Except.bind] at e'
      cases e'; exact this rfl
    · rcases hl : l.mapM f with e | bs
      · intro e'
        simp only [bind, Except.bind] at e'
        rw [hl] at ih
        cases e'; exact ih rfl
      · simp [bind, Except.bind, pure, Except.pure]

theorem mapM_mem {f : α → Py β} {l : List α} {bs : List β} (h : l.mapM f = .ok bs) : ∀ b ∈ bs, ∃ a ∈ l, f a = .ok b := by
  induction l generalizing bs with
  | nil =>
    cases h
    intro b hb; cases hb
  | cons a l ih =>
    rw [List.mapM_cons] at h
    rcases hf : f a with e | b
    · rw [hf] at h; cases h
    · rcases hl : l.mapM f with e | cs
      · rw [hf, hl] at h; cases h
      · rw [hf, hl] at h
        cases h
        intro c hc
        rcases List.mem_cons.1 hc with rfl | hc
        · exact ⟨a, by simp, hf⟩
        · obtain ⟨a', ha', e⟩ := ih hl c hc
          exact ⟨a', by simp [ha'], e⟩

theorem good_params : Good A L.params fun _ => True := fun w => ⟨Adds.refl A w, fun _ _ => trivial, fun e => by cases e⟩

theorem dim_ne_taken {p : Params} {k : Int} : p.dim k ≠ .error .nameTaken := by
  unfold Params.dim
  split
  · rename_i l _
    rcases h : pyIdx l k with e | n
    · intro e'
      simp only [bind, Except.bind] at e'
      cases e'
      exact pyIdx_ne_taken h
    · exact fun e => by cases e
  · exact fun e => by cases e
  · exact fun e => by cases e

theorem good_width : Good A L.width fun _ => True :=
  good_params.bind fun _ _ => Good.lift (fun _ _ => trivial) dim_ne_taken

theorem good_numData : Good A L.numData fun _ => True :=
  good_params.bind fun _ _ => Good.lift (fun _ _ => trivial) key_ne_taken

theorem good_numSyn : Good A L.numSyn fun _ => True :=
  good_params.bind fun _ _ => Good.lift (fun _ _ => trivial) key_ne_taken

theorem good_columnIdx : Good A L.columnIdx fun _ => True := by
  refine good_numData.bind fun n _ => good_width.bind fun d _ => ?_
  split
  · exact Good.throw (by decide)
  · exact Good.pure trivial

theorem good_rowIdx : Good A L.rowIdx fun _ => True := good_width.bind fun _ _ => Good.pure trivial

theorem good_dataAt {i : Int} : Good A (L.dataAt i) fun q => q ∈ L.data.qubits :=
  Good.lift (fun _ h => pyIdx_mem h) pyIdx_ne_taken

theorem good_atList {l : List Int} : Good A (CM.lift (L.data.atList l)) fun qs => ∀ q ∈ qs, q ∈ L.data.qubits := by
  refine Good.lift ?_ ?_
  · intro qs h
    unfold Reg.atList at h
    split at h
    · cases h
    · split at h
      · intro q hq
        obtain ⟨i, -, e⟩ := mapM_mem h q hq
        exact pyIdx_mem e
      · cases h
  · unfold Reg.atList
    split
    · exact fun e => by cases e
    · split
      · exact mapM_ne_taken fun i => pyIdx_ne_taken
      · exact fun e => by cases e

theorem allowed_barrier : Allowed L E C K .barrier := trivial

theorem good_entangleOne {st : Stab} {p : QPlaq} (hs : OwnQreg L.name p.syn.reg)
    (hq : ∀ q, some q ∈ [p.tl, p.tr, p.bl, p.br] → OwnQreg L.name q.reg) :
    Good (Allowed L E C K) (entangleOne st p) fun _ => True := by
  have q1 : ∀ q, p.tl = some q → OwnQreg L.name q.reg := fun q e => hq q (by simp [e])
  have q2 : ∀ q, p.tr = some q → OwnQreg L.name q.reg := fun q e => hq q (by simp [e])
  have q3 : ∀ q, p.bl = some q → OwnQreg L.name q.reg := fun q e => hq q (by simp [e])
  have q4 : ∀ q, p.br = some q → OwnQreg L.name q.reg := fun q e => hq q (by simp [e])
  have g1 : Good (Allowed L E C K) (gate1 .h [p.syn]) fun _ => True := good_gate1 (by
    intro q hq
    rw [List.mem_singleton.1 hq]
    exact Or.inl hs)
  have gx : ∀ q, OwnQreg L.name q.reg → Good (Allowed L E C K) (gate2 .cx [p.syn] [q]) fun _ => True :=
    fun q h => good_gate2 (by simpa using ⟨Or.inl hs, Or.inl h⟩)
  have gz : ∀ q, OwnQreg L.name q.reg → Good (Allowed L E C K) (gate2 .cx [q] [p.syn]) fun _ => True :=
    fun q h => good_gate2 (by simpa using ⟨Or.inl h, Or.inl hs⟩)
  have rx : ∀ a b, (∀ q, a = some q → OwnQreg L.name q.reg) → (∀ q, b = some q → OwnQreg L.name q.reg) →
      Good (Allowed L E C K) (entangleRowX p.syn a b) fun _ => True := by
    intro a b ha hb
    unfold entangleRowX
    split
    · exact (gx _ (ha _ rfl)).bind fun _ _ => gx _ (hb _ rfl)
    · exact Good.pure trivial
  have rz : ∀ a b, (∀ q, a = some q → OwnQreg L.name q.reg) → (∀ q, b = some q → OwnQreg L.name q.reg) →
      Good (Allowed L E C K) (entangleColZ p.syn a b) fun _ => True := by
    intro a b ha hb
    unfold entangleColZ
    split
    · exact (gz _ (ha _ rfl)).bind fun _ _ => gz _ (hb _ rfl)
    · exact Good.pure trivial
  have cx : ∀ a, (∀ q, a = some q → OwnQreg L.name q.reg) → Good (Allowed L E C K) (entangleCornerX p.syn a) fun _ => True := by
    rintro (_ | a) ha
    · exact Good.pure trivial
    · exact g1.bind fun _ _ => (gx _ (ha a rfl)).bind fun _ _ => g1
  have cz : ∀ a, (∀ q, a = some q → OwnQreg L.name q.reg) → Good (Allowed L E C K) (entangleCornerZ p.syn a) fun _ => True := by
    rintro (_ | a) ha
    · exact Good.pure trivial
    · exact gz _ (ha a rfl)
  cases st
  · unfold entangleOne entangleXXXX
    simp only
    split
    · exact (Good.throw (by decide)).bind (Q := fun _ => True) fun _ _ => g1.bind fun _ _ => (rx _ _ q2 q1).bind fun _ _ => (rx _ _ q4 q3).bind fun _ _ => g1
    · exact g1.bind fun _ _ => (rx _ _ q2 q1).bind fun _ _ => (rx _ _ q4 q3).bind fun _ _ => g1
  · unfold entangleOne entangleZZZZ
    simp only
    split
    · exact (Good.throw (by decide)).bind (Q := fun _ => True) fun _ _ => (rz _ _ q2 q4).bind fun _ _ => rz _ _ q1 q3
    · exact (rz _ _ q2 q4).bind fun _ _ => rz _ _ q1 q3
  · exact (cx _ q1).bind fun _ _ => (cz _ q2).bind fun _ _ => (cz _ q3).bind fun _ _ => cx _ q4

theorem Shaped.good_entangle (S : Shaped L) {qi : Option (List QPlaq)} {st : Option (List Stab)}
    (h : ∀ l, qi = some l → ∀ p ∈ l, p ∈ L.qubitIndices) : Good (Allowed L E C K) (L.entangle qi st) fun _ => True := by
  unfold Lattice.entangle
  refine Good.forEach fun s _ => ?_
  have hq : ∀ p, pyIdx (match qi with
      | some (a :: l) => a :: l
      | _ => L.qubitIndices) s.2 = .ok p → p ∈ L.qubitIndices := by
    intro p hp
    have := pyIdx_mem hp
    split at this
    · exact h _ rfl p this
    · exact this
  refine (Good.lift hq pyIdx_ne_taken).bind fun p hp => ?_
  have := S.plaqs p hp
  exact (good_entangleOne this.1 this.2).bind fun _ _ => good_barrier trivial

end Qtc
