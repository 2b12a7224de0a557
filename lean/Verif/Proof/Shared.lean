import Verif.Spec.Shared
import Verif.Proof.Build
import Verif.Proof.Environment
/-!
What a qubit does in a circuit that it shares with others is what it does alone.
-/
namespace Qtc
open Spec Classical

variable {name : Str} {pref : Nat} {α β : Type}

/-- `u` is like `w`, without what does not belong to the qubit called `name`. -/
structure Twin (name : Str) (pref : Nat) (u w : World) : Prop where
  heap : w.heap pref = u.heap pref
  qregs : ∀ r ∈ u.circ.qregs, r ∈ w.circ.qregs
  cregs : u.circ.cregs = ownCregs name w.circ
  names : ∀ n ∈ w.circ.names, OwnName name n → n ∈ u.circ.names

/-- What the method does on `u` it does on `w`. -/
def Mirrors (name : Str) (pref : Nat) (x : WM α) : Prop := ∀ u w a u', Twin name pref u w → x u = (.ok a, u') →
  ∃ w' l, x w = (.ok a, w') ∧ Twin name pref u' w' ∧ u'.circ.instrs = u.circ.instrs ++ l ∧ w'.circ.instrs = w.circ.instrs ++ l

theorem Mirrors.pure (a : α) : Mirrors name pref (pure a : WM α) := by
  intro u w a u' T h
  cases h
  exact ⟨w, [], rfl, T, (List.append_nil _).symm, (List.append_nil _).symm⟩

theorem Mirrors.throw (e : PyErr) : Mirrors name pref (CM.throw e : WM α) := by
  intro u w a u' T h
  cases h

theorem Mirrors.lift (x : Py α) : Mirrors name pref (CM.lift x : WM α) := by
  intro u w a u' T h
  rw [CM.lift_run, Prod.mk.injEq] at h
  obtain ⟨rfl, rfl⟩ := h
  exact ⟨w, [], CM.lift_run _ _, T, (List.append_nil _).symm, (List.append_nil _).symm⟩

theorem Mirrors.bind {x : WM α} {f : α → WM β} (hx : Mirrors name pref x) (hf : ∀ a, Mirrors name pref (f a)) : Mirrors name pref (x >>= f) := by
  intro u w b u' T h
  obtain ⟨a, u1, h1, h2⟩ := CM.bind_eq_ok h
  obtain ⟨w1, l1, e1, T1, i1, j1⟩ := hx u w a u1 T h1
  obtain ⟨w2, l2, e2, T2, i2, j2⟩ := hf a u1 w1 b u' T1 h2
  exact ⟨w2, l1 ++ l2, by rw [CM.bind_ok e1, e2], T2, by rw [i2, i1, List.append_assoc], by rw [j2, j1, List.append_assoc]⟩

theorem Mirrors.liftBind {x : Py α} {f : α → WM β} (hf : ∀ a, x = .ok a → Mirrors name pref (f a)) : Mirrors name pref (CM.lift x >>= f) := by
  intro u w b u' T h
  obtain ⟨a, ha, h⟩ := CM.lift_eq_ok h
  obtain ⟨w', l, e, r⟩ := hf a ha u w b u' T h
  exact ⟨w', l, by rw [CM.bind_lift ha, e], r⟩

theorem Mirrors.forEach {l : List α} {f : α → WM Unit} (h : ∀ a, Mirrors name pref (f a)) : Mirrors name pref (CM.forEach l f) := by
  induction l with
  | nil => exact Mirrors.pure ()
  | cons a l ih => exact (h a).bind fun _ => ih

theorem Mirrors.when {b : Bool} {x : WM Unit} (h : Mirrors name pref x) : Mirrors name pref (CM.when b x) := by
  unfold CM.when
  split
  · exact h
  · exact Mirrors.pure ()

theorem Mirrors.ite {c : Prop} [Decidable c] {x y : WM α} (hx : Mirrors name pref x) (hy : Mirrors name pref y) : Mirrors name pref (if c then x else y) := by
  split
  · exact hx
  · exact hy

theorem Twin.qubits {u w : World} (T : Twin name pref u w) {x : Qubit} (h : x ∈ u.circ.qubits) : x ∈ w.circ.qubits := by
  obtain ⟨r, hr, hx⟩ := List.mem_flatMap.1 h
  exact List.mem_flatMap.2 ⟨r, T.qregs r hr, hx⟩

theorem Twin.clbits {u w : World} (T : Twin name pref u w) {x : Clbit} (h : x ∈ u.circ.clbits) : x ∈ w.circ.clbits := by
  obtain ⟨r, hr, hx⟩ := List.mem_flatMap.1 h
  rw [T.cregs] at hr
  exact List.mem_flatMap.2 ⟨r, List.mem_of_mem_filter hr, hx⟩

theorem mirrors_append (i : Instr) : Mirrors name pref (append i) := by
  intro u w a u' T h
  unfold append at h
  split at h
  · rename_i hc
    cases h
    simp only [Bool.and_eq_true, List.all_eq_true, List.contains_iff_mem] at hc
    refine ⟨{ w with circ := { w.circ with instrs := w.circ.instrs ++ [i] } }, [i], ?_, ⟨T.heap, T.qregs, T.cregs, T.names⟩, rfl, rfl⟩
    unfold append
    rw [if_pos]
    simp only [Bool.and_eq_true, List.all_eq_true, List.contains_iff_mem]
    exact ⟨⟨fun x hx => T.qubits (hc.1.1 x hx), fun x hx => T.clbits (hc.1.2 x hx)⟩, hc.2⟩
  · cases h

theorem mirrors_getParams : Mirrors name pref (getParams pref) := by
  intro u w a u' T h
  cases h
  exact ⟨w, [], by show (_, _) = _; rw [T.heap], T, (List.append_nil _).symm, (List.append_nil _).symm⟩

theorem mirrors_setParams (p : Params) : Mirrors name pref (setParams pref p) := by
  intro u w a u' T h
  cases h
  exact ⟨_, [], rfl, ⟨by simp, T.qregs, T.cregs, T.names⟩, (List.append_nil _).symm, (List.append_nil _).symm⟩

theorem mirrors_addCreg {r : Reg} (hr : OwnName name r.name) : Mirrors name pref (addCreg r) := by
  intro u w a u' T h
  unfold addCreg at h
  split at h
  · cases h
  · rename_i hc
    cases h
    have hc' : ¬w.circ.names.contains r.name = true := fun h => hc (by
      rw [List.contains_iff_mem] at h ⊢
      exact T.names _ h hr)
    refine ⟨{ w with circ := { w.circ with cregs := w.circ.cregs ++ [r] } }, [], by unfold addCreg; rw [if_neg hc'],
      ⟨T.heap, T.qregs, ?_, ?_⟩, (List.append_nil _).symm, (List.append_nil _).symm⟩
    · show u.circ.cregs ++ [r] = (w.circ.cregs ++ [r]).filter _
      rw [List.filter_append, T.cregs]
      exact congrArg _ (by simp [hr])
    · intro n hn hown
      have e : ∀ c : Circ, ({ c with cregs := c.cregs ++ [r] } : Circ).names = c.names ++ [r.name] := fun c => by
        unfold Circ.names
        rw [List.map_append, ← List.append_assoc]; rfl
      rw [e] at hn ⊢
      rcases List.mem_append.1 hn with hn | hn
      · exact List.mem_append_left _ (T.names n hn hown)
      · exact List.mem_append_right _ hn

theorem mirrors_gate1 (g : G1) (qs : List Qubit) : Mirrors name pref (gate1 g qs) := by
  unfold gate1
  split
  · exact Mirrors.throw _
  · exact Mirrors.forEach fun _ => mirrors_append _

theorem mirrors_gate1If (g : G1) (q : Qubit) (c : Str) (v : Int) : Mirrors name pref (gate1If g q c v) :=
  Mirrors.ite ((mirrors_append _).bind fun _ => Mirrors.throw _) (mirrors_append _)

theorem mirrors_gate2 (g : G2) (as bs : List Qubit) : Mirrors name pref (gate2 g as bs) := by
  unfold gate2
  refine Mirrors.ite (Mirrors.throw _) (Mirrors.ite (Mirrors.forEach fun _ => mirrors_append _) ?_)
  split
  · exact Mirrors.forEach fun _ => mirrors_append _
  · exact Mirrors.forEach fun _ => mirrors_append _
  · exact Mirrors.throw _

theorem mirrors_measure (qs : List Qubit) (cs : List Clbit) : Mirrors name pref (measure qs cs) := by
  unfold measure
  refine Mirrors.ite (Mirrors.forEach fun _ => mirrors_append _) ?_
  split
  · exact Mirrors.ite (Mirrors.throw _) (Mirrors.forEach fun _ => mirrors_append _)
  · exact Mirrors.throw _

theorem mirrors_reset (qs : List Qubit) : Mirrors name pref (reset qs) := Mirrors.forEach fun _ => mirrors_append _

theorem mirrors_barrier : Mirrors name pref barrier := mirrors_append _

/-- Take a method apart. -/
local macro "mirrors" : tactic => `(tactic| repeat first
  | exact mirrors_gate1 _ _ | exact mirrors_gate1If _ _ _ _ | exact mirrors_gate2 _ _ _ | exact mirrors_measure _ _ | exact mirrors_reset _
  | exact mirrors_barrier | exact mirrors_append _ | exact Mirrors.lift _ | exact mirrors_getParams | exact mirrors_setParams _
  | exact Mirrors.throw _ | exact Mirrors.pure _ | assumption
  | refine Mirrors.bind ?_ fun _ => ?_ | refine Mirrors.forEach fun _ => ?_ | refine Mirrors.when ?_ | refine Mirrors.ite ?_ ?_)

variable {L : Lattice}

theorem mirrors_params : Mirrors name L.pref L.params := mirrors_getParams

theorem mirrors_width : Mirrors name L.pref L.width := mirrors_params.bind fun _ => Mirrors.lift _

theorem mirrors_numData : Mirrors name L.pref L.numData := mirrors_params.bind fun _ => Mirrors.lift _

theorem mirrors_numSyn : Mirrors name L.pref L.numSyn := mirrors_params.bind fun _ => Mirrors.lift _

theorem mirrors_dataAt (i : Int) : Mirrors name pref (L.dataAt i) := Mirrors.lift _

theorem mirrors_columnIdx : Mirrors name L.pref L.columnIdx :=
  mirrors_numData.bind fun _ => mirrors_width.bind fun _ => Mirrors.ite (Mirrors.throw _) (Mirrors.pure _)

theorem mirrors_rowIdx : Mirrors name L.pref L.rowIdx := mirrors_width.bind fun _ => Mirrors.pure _

theorem mirrors_entangleOne (s : Stab) (p : QPlaq) : Mirrors name pref (entangleOne s p) := by
  cases s
  · show Mirrors name pref (entangleXXXX p)
    have hr : ∀ a b, Mirrors name pref (entangleRowX p.syn a b) := by
      intro a b
      unfold entangleRowX
      split <;> mirrors
    have h1 := hr p.tr p.tl
    have h2 := hr p.br p.bl
    unfold entangleXXXX
    split <;> mirrors
  · show Mirrors name pref (entangleZZZZ p)
    have hr : ∀ a b, Mirrors name pref (entangleColZ p.syn a b) := by
      intro a b
      unfold entangleColZ
      split <;> mirrors
    have h1 := hr p.tr p.br
    have h2 := hr p.tl p.bl
    unfold entangleZZZZ
    split <;> mirrors
  · have hx : ∀ a, Mirrors name pref (entangleCornerX p.syn a) := by
      intro a
      cases a <;> unfold entangleCornerX <;> mirrors
    have hz : ∀ a, Mirrors name pref (entangleCornerZ p.syn a) := by
      intro a
      cases a <;> unfold entangleCornerZ <;> mirrors
    exact (hx _).bind fun _ => (hz _).bind fun _ => (hz _).bind fun _ => hx _

theorem mirrors_entangle (qi : Option (List QPlaq)) (st : Option (List Stab)) : Mirrors name pref (L.entangle qi st) :=
  Mirrors.forEach fun _ => (Mirrors.lift _).bind fun _ => (mirrors_entangleOne _ _).bind fun _ => mirrors_barrier

theorem mirrors_onData {is : List Int} {f : Int → Qubit → WM Unit} (h : ∀ i q, Mirrors name pref (f i q)) :
    Mirrors name pref (CM.forEach is fun i => do
      let q ← L.dataAt i
      f i q) := Mirrors.forEach fun _ => (mirrors_dataAt _).bind fun _ => h _ _

theorem mirrors_intoX : Mirrors name L.pref L.readoutXIntoAncilla := by
  have hc := mirrors_columnIdx (name := name) (L := L)
  have hd := mirrors_dataAt (name := name) (pref := L.pref) (L := L)
  unfold Lattice.readoutXIntoAncilla
  split
  · refine (mirrors_reset _).bind fun _ => (mirrors_gate1 _ _).bind fun _ => hc.bind fun _ => Mirrors.bind ?_ fun _ => mirrors_gate1 _ _
    exact mirrors_onData fun _ _ => mirrors_gate2 _ _ _
  · mirrors

theorem mirrors_intoZ : Mirrors name L.pref L.readoutZIntoAncilla := by
  have hc := mirrors_rowIdx (name := name) (L := L)
  unfold Lattice.readoutZIntoAncilla
  split
  · refine (mirrors_reset _).bind fun _ => hc.bind fun _ => ?_
    exact mirrors_onData fun _ _ => mirrors_gate2 _ _ _
  · mirrors

theorem ownName_of {s : String} (h : ∃ l, s.toList = '_' :: l) (rest : Str) : OwnName name (name ++ s.toList ++ rest) := by
  obtain ⟨l, hl⟩ := h
  exact ⟨l ++ rest, by rw [hl, List.append_assoc]; rfl⟩

theorem mirrors_newCreg {n : Int} {s : String} (h : ∃ l, s.toList = '_' :: l) (rest : Str) {f : Reg → WM α} (hf : ∀ r, Mirrors name pref (f r)) :
    Mirrors name pref (CM.lift (newReg n (name ++ s.toList ++ rest)) >>= fun r => addCreg r >>= fun _ => f r) := by
  refine Mirrors.liftBind fun r hr => ?_
  obtain ⟨-, rfl⟩ := newReg_eq_ok hr
  exact (mirrors_addCreg (ownName_of h rest)).bind fun _ => hf _

theorem mirrors_readoutReg (r : Option Reg) : Mirrors L.name L.pref (L.readoutReg r) := by
  unfold Lattice.readoutReg
  split
  · mirrors
  · refine mirrors_params.bind fun _ => (Mirrors.lift _).bind fun _ => (mirrors_setParams _).bind fun _ => ?_
    exact mirrors_newCreg ⟨_, rfl⟩ _ fun r => Mirrors.pure r

theorem mirrors_latticeReg : Mirrors L.name L.pref L.latticeReg := by
  unfold Lattice.latticeReg
  refine mirrors_params.bind fun _ => (Mirrors.lift _).bind fun _ => (mirrors_setParams _).bind fun _ => (Mirrors.lift _).bind fun _ => ?_
  exact mirrors_newCreg ⟨_, rfl⟩ _ fun r => Mirrors.pure r

variable (q : TQubit)

theorem mirrors_stabilize : Mirrors q.lat.name q.lat.pref q.stabilize := by
  have he := mirrors_entangle (name := q.lat.name) (pref := q.lat.pref) (L := q.lat) none none
  unfold TQubit.stabilize
  refine mirrors_numSyn.bind fun _ => mirrors_params.bind fun _ => (Mirrors.lift _).bind fun _ => (mirrors_setParams _).bind fun _ => ?_
  refine mirrors_newCreg ⟨_, rfl⟩ _ fun r => ?_
  mirrors

/-- All methods of a qubit do in a shared circuit what they do in one of their own. -/
theorem mirrors_op (o : QOp) : Mirrors q.lat.name q.lat.pref (q.op o) := by
  cases o with
  | stabilize => exact mirrors_stabilize q
  | entangleX => exact (Mirrors.lift _).bind fun _ => mirrors_entangle _ _
  | entangleZ => exact (Mirrors.lift _).bind fun _ => mirrors_entangle _ _
  | id => exact (Mirrors.forEach fun _ => mirrors_gate1 _ _).bind fun _ => mirrors_barrier
  | idData => exact (mirrors_gate1 _ _).bind fun _ => mirrors_barrier
  | resetX => show Mirrors _ _ q.lat.resetX; unfold Lattice.resetX; split <;> mirrors
  | resetZ => show Mirrors _ _ q.lat.resetZ; unfold Lattice.resetZ; split <;> mirrors
  | x => exact mirrors_columnIdx.bind fun _ => (mirrors_onData fun _ _ => mirrors_gate1 _ _).bind fun _ => mirrors_barrier
  | z => exact mirrors_rowIdx.bind fun _ => (mirrors_onData fun _ _ => mirrors_gate1 _ _).bind fun _ => mirrors_barrier
  | xCIf c v => exact mirrors_columnIdx.bind fun _ => (mirrors_onData fun _ _ => mirrors_gate1If _ _ _ _).bind fun _ => mirrors_barrier
  | zCIf c v => exact mirrors_rowIdx.bind fun _ => (mirrors_onData fun _ _ => mirrors_gate1If _ _ _ _).bind fun _ => mirrors_barrier
  | cx c t =>
    have hL : Mirrors q.lat.name q.lat.pref (q.lat.cx c t) := by
      unfold Lattice.cx
      split
      · exact mirrors_columnIdx.bind fun _ => (mirrors_onData fun _ _ => mirrors_gate2 _ _ _).bind fun _ => mirrors_barrier
      · exact mirrors_intoZ.bind fun _ => mirrors_gate2 _ _ _
      · exact Mirrors.pure _
    show Mirrors _ _ (q.cx c t)
    unfold TQubit.cx
    split <;> mirrors
  | readoutX r => exact (mirrors_readoutReg r).bind fun _ => mirrors_intoX.bind fun _ => (mirrors_measure _ _).bind fun _ => mirrors_barrier
  | readoutZ r => exact (mirrors_readoutReg r).bind fun _ => mirrors_intoZ.bind fun _ => (mirrors_measure _ _).bind fun _ => mirrors_barrier
  | latticeReadoutX =>
    refine mirrors_latticeReg.bind fun _ => Mirrors.bind ?_ fun _ => (mirrors_measure _ _).bind fun _ => mirrors_barrier
    unfold Lattice.turnX; split <;> mirrors
  | latticeReadoutZ =>
    refine mirrors_latticeReg.bind fun _ => Mirrors.bind ?_ fun _ => (mirrors_measure _ _).bind fun _ => mirrors_barrier
    unfold Lattice.turnZ; split <;> mirrors

variable {q}

theorem twin_op {u w : World} (T : Twin q.lat.name q.lat.pref u w) {o : QOp} (h : (q.op o u).1 = .ok ()) :
    Twin q.lat.name q.lat.pref (q.op o u).2 (q.op o w).2 ∧ added q o w = added q o u := by
  obtain ⟨w', l, e, T', i, j⟩ := mirrors_op q o u w () (q.op o u).2 T (by rw [← h])
  unfold added
  rw [e, i, j, List.drop_left, List.drop_left]
  exact ⟨T', rfl⟩

theorem Twin.elsewhere {u w w' : World} (T : Twin q.lat.name q.lat.pref u w) (h : Elsewhere q w w') : Twin q.lat.name q.lat.pref u w' := by
  obtain ⟨new, e, hn⟩ := h.cregs
  refine ⟨by rw [h.heap, T.heap], fun r hr => h.qregs r (T.qregs r hr), ?_, fun n hn ho => T.names n (h.names n hn ho) ho⟩
  rw [T.cregs]
  unfold ownCregs
  have h0 : new.filter (fun r => decide (OwnName q.lat.name r.name)) = [] := List.filter_eq_nil_iff.2 fun r hr => by simpa using hn r hr
  rw [e, List.filter_append, h0, List.append_nil]

end Qtc
