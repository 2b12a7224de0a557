import Verif.Proof.Emit
import Verif.Props.Geometry
import Verif.Props.Readout
import Verif.Spec.Circuit
/-!
Closed forms of the lattices the code builds and of the instructions their methods append.
-/
namespace Qtc
open Spec

/-- The qubits of a plaquette. -/
def plaqOf (name : Str) (syn : Str → Int → Qubit) (p : Plaq) : QPlaq where
  syn := syn name p.syn
  tl := p.tl.map (dataQ name)
  tr := p.tr.map (dataQ name)
  bl := p.bl.map (dataQ name)
  br := p.br.map (dataQ name)

/-- The lattice the code builds. -/
def mkLattice (code : Code) (dh dw : Int) (name : Str) (pref : Nat) : Lattice where
  code := code
  name := name
  pref := pref
  data := ⟨name ++ "_data".toList, (dh * dw).toNat⟩
  mz := optReg (numSynZ dh dw) (name ++ "_mz".toList)
  mx := optReg (numSynX dh dw) (name ++ "_mx".toList)
  ancilla := ⟨name ++ "_ancilla".toList, 1⟩
  qubitIndices := (geometryX dh dw).map (plaqOf name mxQ) ++ (geometryZ dh dw).map (plaqOf name mzQ)
  stabilizers := (geometryX dh dw).map (fun _ => code.stab .X) ++ (geometryZ dh dw).map (fun _ => code.stab .Z)

theorem Reg.mem_qubits {r : Reg} {q : Qubit} : q ∈ r.qubits ↔ q.reg = r.name ∧ q.idx < r.size := by
  unfold Reg.qubits
  rw [List.mem_map]
  constructor
  · rintro ⟨i, hi, rfl⟩
    exact ⟨rfl, List.mem_range.1 hi⟩
  · rintro ⟨h1, h2⟩
    refine ⟨q.idx, List.mem_range.2 h2, ?_⟩
    cases q; simp_all

theorem Reg.mem_clbits {r : Reg} {q : Clbit} : q ∈ r.clbits ↔ q.reg = r.name ∧ q.idx < r.size := by
  unfold Reg.clbits
  rw [List.mem_map]
  constructor
  · rintro ⟨i, hi, rfl⟩
    exact ⟨rfl, List.mem_range.1 hi⟩
  · rintro ⟨h1, h2⟩
    refine ⟨q.idx, List.mem_range.2 h2, ?_⟩
    cases q; simp_all

theorem pyIdx_nat {α : Type} {l : List α} {k : Int} {a : α} (hk : 0 ≤ k) (h : l[k.toNat]? = some a) : pyIdx l k = .ok a := by
  unfold pyIdx
  simp only [if_neg (show ¬ k < 0 by omega), h]

theorem Reg.at_ok {r : Reg} {i : Int} (h0 : 0 ≤ i) (h1 : i < r.size) : r.at i = .ok ⟨r.name, i.toNat⟩ := by
  refine pyIdx_nat h0 ?_
  unfold Reg.qubits
  rw [List.getElem?_map, List.getElem?_range (by omega)]
  rfl

/-- A lattice of the code sits on the circuit of the world, and its dictionary is in the state validation left it in (up to
the counters). -/
structure Placed (L : Lattice) (dh dw : Int) (w : World) : Prop where
  eq : L = mkLattice L.code dh dw L.name L.pref
  odd : OddPos dh dw
  qregs : ∀ r ∈ L.qregs, r ∈ w.circ.qregs
  d : ∃ rest, (w.heap L.pref).d = some (.tup (.int dh :: .int dw :: rest))
  nd : (w.heap L.pref).numData = some (dh * dw)
  ns : (w.heap L.pref).numSyn = some (numSynX dh dw, numSynZ dh dw)

variable {L : Lattice} {dh dw : Int} {w : World}

theorem Placed.code_data (P : Placed L dh dw w) : L.data = ⟨L.name ++ "_data".toList, (dh * dw).toNat⟩ := by
  have := P.eq
  rw [this]; rfl

theorem Placed.code_mz (P : Placed L dh dw w) : L.mz = optReg (numSynZ dh dw) (L.name ++ "_mz".toList) := by
  have := P.eq
  rw [this]; rfl

theorem Placed.code_mx (P : Placed L dh dw w) : L.mx = optReg (numSynX dh dw) (L.name ++ "_mx".toList) := by
  have := P.eq
  rw [this]; rfl

theorem Placed.code_anc (P : Placed L dh dw w) : L.ancilla = ⟨L.name ++ "_ancilla".toList, 1⟩ := by
  have := P.eq
  rw [this]; rfl

theorem Placed.code_plaqs (P : Placed L dh dw w) : L.qubitIndices =
    (geometryX dh dw).map (plaqOf L.name mxQ) ++ (geometryZ dh dw).map (plaqOf L.name mzQ) := by
  have := P.eq
  rw [this]; rfl

theorem Placed.code_stabs (P : Placed L dh dw w) : L.stabilizers =
    (geometryX dh dw).map (fun _ => L.code.stab .X) ++ (geometryZ dh dw).map (fun _ => L.code.stab .Z) := by
  have := P.eq
  rw [this]; rfl

theorem mem_qubits_of_reg {r : Reg} {q : Qubit} (hr : r ∈ w.circ.qregs) (hq : q ∈ r.qubits) : q ∈ w.circ.qubits :=
  List.mem_flatMap.2 ⟨r, hr, hq⟩

theorem Placed.data_mem (P : Placed L dh dw w) {q : Qubit} (h : q ∈ L.data.qubits) : q ∈ w.circ.qubits :=
  mem_qubits_of_reg (P.qregs _ (by simp [Lattice.qregs])) h

theorem Placed.anc_mem (P : Placed L dh dw w) {q : Qubit} (h : q ∈ L.ancilla.qubits) : q ∈ w.circ.qubits :=
  mem_qubits_of_reg (P.qregs _ (by simp [Lattice.qregs])) h

theorem Placed.dataQ_mem (P : Placed L dh dw w) {i : Int} (h0 : 0 ≤ i) (h1 : i < dh * dw) :
    dataQ L.name i ∈ w.circ.qubits := by
  refine P.data_mem ?_
  rw [P.code_data, Reg.mem_qubits]
  exact ⟨rfl, by show i.toNat < (dh * dw).toNat; omega⟩

theorem Placed.mxQ_mem (P : Placed L dh dw w) {i : Int} (h0 : 0 ≤ i) (h1 : i < numSynX dh dw) :
    mxQ L.name i ∈ w.circ.qubits := by
  have e : L.mx = some ⟨L.name ++ "_mx".toList, (numSynX dh dw).toNat⟩ := by
    rw [P.code_mx]; unfold optReg; rw [if_pos (by omega)]
  refine mem_qubits_of_reg (P.qregs _ (by simp [Lattice.qregs, e]; exact Or.inr (Or.inr (Or.inl rfl)))) ?_
  rw [Reg.mem_qubits]
  exact ⟨rfl, by show i.toNat < (numSynX dh dw).toNat; omega⟩

theorem Placed.mzQ_mem (P : Placed L dh dw w) {i : Int} (h0 : 0 ≤ i) (h1 : i < numSynZ dh dw) :
    mzQ L.name i ∈ w.circ.qubits := by
  have e : L.mz = some ⟨L.name ++ "_mz".toList, (numSynZ dh dw).toNat⟩ := by
    rw [P.code_mz]; unfold optReg; rw [if_pos (by omega)]
  refine mem_qubits_of_reg (P.qregs _ (by simp [Lattice.qregs, e]; exact Or.inr (Or.inl rfl))) ?_
  rw [Reg.mem_qubits]
  exact ⟨rfl, by show i.toNat < (numSynZ dh dw).toNat; omega⟩

theorem Placed.ancQ_mem (P : Placed L dh dw w) : ancQ L.name ∈ w.circ.qubits := by
  refine P.anc_mem ?_
  rw [P.code_anc, Reg.mem_qubits]
  exact ⟨rfl, Nat.zero_lt_one⟩

/-! ### Entangling -/

/-- The two gates of a row of an X plaquette. -/
def pairX (s : Qubit) : Option Qubit → Option Qubit → List Instr
  | some x, some y => [.gate2 .cx s x, .gate2 .cx s y]
  | _, _ => []

/-- The two gates of a column of a Z plaquette. -/
def pairZ (s : Qubit) : Option Qubit → Option Qubit → List Instr
  | some x, some y => [.gate2 .cx x s, .gate2 .cx y s]
  | _, _ => []

/-- The instructions of one plaquette. -/
def instrsOne : Stab → QPlaq → List Instr
  | .xxxx, p => [.gate1 .h p.syn none] ++ pairX p.syn p.tr p.tl ++ pairX p.syn p.br p.bl ++ [.gate1 .h p.syn none]
  | .zzzz, p => pairZ p.syn p.tr p.br ++ pairZ p.syn p.tl p.bl
  | .xzzx, p =>
    (match p.tl with
      | some q => [.gate1 .h p.syn none, .gate2 .cx p.syn q, .gate1 .h p.syn none]
      | none => []) ++
    (match p.tr with
      | some q => [.gate2 .cx q p.syn]
      | none => []) ++
    (match p.bl with
      | some q => [.gate2 .cx q p.syn]
      | none => []) ++
    (match p.br with
      | some q => [.gate1 .h p.syn none, .gate2 .cx p.syn q, .gate1 .h p.syn none]
      | none => [])

/-- The plaquette can be entangled without complaint. -/
def PlaqOk (w : World) (st : Stab) (p : QPlaq) : Prop :=
  p.syn ∈ w.circ.qubits ∧ (∀ q, some q ∈ [p.tl, p.tr, p.bl, p.br] → q ∈ w.circ.qubits ∧ q ≠ p.syn) ∧
  (st = .xxxx → p.tl.isSome = p.tr.isSome ∧ p.bl.isSome = p.br.isSome) ∧
  (st = .zzzz → p.tl.isSome = p.bl.isSome ∧ p.tr.isSome = p.br.isSome)

theorem emits_pairX {s : Qubit} {a b : Option Qubit} (hs : s ∈ w.circ.qubits)
    (ha : ∀ q, a = some q → q ∈ w.circ.qubits ∧ q ≠ s) (hb : ∀ q, b = some q → q ∈ w.circ.qubits ∧ q ≠ s) :
    Emits w (entangleRowX s a b) () (pairX s a b) := by
  rcases a with _ | a
  · exact Emits.pure ()
  · rcases b with _ | b
    · exact Emits.pure ()
    · exact (emits_gate2_one hs (ha a rfl).1 (Ne.symm (ha a rfl).2)).bind
        (emits_gate2_one hs (hb b rfl).1 (Ne.symm (hb b rfl).2))

theorem emits_pairZ {s : Qubit} {a b : Option Qubit} (hs : s ∈ w.circ.qubits)
    (ha : ∀ q, a = some q → q ∈ w.circ.qubits ∧ q ≠ s) (hb : ∀ q, b = some q → q ∈ w.circ.qubits ∧ q ≠ s) :
    Emits w (entangleColZ s a b) () (pairZ s a b) := by
  rcases a with _ | a
  · exact Emits.pure ()
  · rcases b with _ | b
    · exact Emits.pure ()
    · exact (emits_gate2_one (ha a rfl).1 hs (ha a rfl).2).bind (emits_gate2_one (hb b rfl).1 hs (hb b rfl).2)

theorem emits_entangleOne {st : Stab} {p : QPlaq} (h : PlaqOk w st p) : Emits w (entangleOne st p) () (instrsOne st p) := by
  obtain ⟨hs, hq, hx, hz⟩ := h
  have q1 : ∀ q, p.tl = some q → q ∈ w.circ.qubits ∧ q ≠ p.syn := fun q e => hq q (by simp [e])
  have q2 : ∀ q, p.tr = some q → q ∈ w.circ.qubits ∧ q ≠ p.syn := fun q e => hq q (by simp [e])
  have q3 : ∀ q, p.bl = some q → q ∈ w.circ.qubits ∧ q ≠ p.syn := fun q e => hq q (by simp [e])
  have q4 : ∀ q, p.br = some q → q ∈ w.circ.qubits ∧ q ≠ p.syn := fun q e => hq q (by simp [e])
  cases st
  · obtain ⟨e1, e2⟩ := hx rfl
    unfold entangleOne entangleXXXX instrsOne
    simp only
    rw [if_neg (by rw [e1, e2]; simp [Option.isSome_iff_ne_none])]
    have := (emits_gate1_one (w := w) (g := .h) hs).bind (f := fun _ => _) ((emits_pairX hs q2 q1).bind (f := fun _ => _)
      ((emits_pairX hs q4 q3).bind (f := fun _ => gate1 .h [p.syn]) (emits_gate1_one (w := w) (g := .h) hs)))
    refine Emits.congr this ?_
    simp only [List.append_assoc]
  · obtain ⟨e1, e2⟩ := hz rfl
    unfold entangleOne entangleZZZZ instrsOne
    simp only
    rw [if_neg (by rw [e1, e2]; simp [Option.isSome_iff_ne_none])]
    exact (emits_pairZ hs q2 q4).bind (f := fun _ => _) (emits_pairZ hs q1 q3)
  · unfold entangleOne entangleXZZX instrsOne
    simp only
    have cx : ∀ {a : Option Qubit}, (∀ q, a = some q → q ∈ w.circ.qubits ∧ q ≠ p.syn) →
        Emits w (entangleCornerX p.syn a) () (match a with
          | some q => [.gate1 .h p.syn none, .gate2 .cx p.syn q, .gate1 .h p.syn none]
          | none => []) := by
      rintro (_ | a) ha
      · exact Emits.pure ()
      · exact (emits_gate1_one hs).bind ((emits_gate2_one hs (ha a rfl).1 (Ne.symm (ha a rfl).2)).bind (emits_gate1_one hs))
    have cz : ∀ {a : Option Qubit}, (∀ q, a = some q → q ∈ w.circ.qubits ∧ q ≠ p.syn) →
        Emits w (entangleCornerZ p.syn a) () (match a with
          | some q => [.gate2 .cx q p.syn]
          | none => []) := by
      rintro (_ | a) ha
      · exact Emits.pure ()
      · exact emits_gate2_one (ha a rfl).1 hs (ha a rfl).2
    refine Emits.congr ((cx q1).bind (f := fun _ => _) ((cz q2).bind (f := fun _ => _) ((cz q3).bind (f := fun _ => _) (cx q4)))) ?_
    simp only [List.append_assoc]

/-- The instructions of a list of plaquettes. -/
def instrsAll (st : List Stab) (qi : List QPlaq) : List Instr :=
  (st.zip qi).flatMap fun s => instrsOne s.1 s.2 ++ [.barrier]

theorem emits_loop {st : List Stab} {pre qi : List QPlaq} (hl : st.length = qi.length)
    (h : ∀ s ∈ st.zip qi, PlaqOk w s.1 s.2) :
    Emits w (CM.forEach (st.zipIdx pre.length) fun s => do
      let p ← CM.lift (pyIdx (pre ++ qi) s.2)
      entangleOne s.1 p
      barrier) () (instrsAll st qi) := by
  induction st generalizing pre qi with
  | nil => exact Emits.pure ()
  | cons s st ih =>
    cases qi with
    | nil => simp at hl
    | cons p qi =>
      rw [List.zipIdx_cons, CM.forEach_cons]
      unfold instrsAll
      rw [List.zip_cons_cons, List.flatMap_cons]
      have hp : pyIdx (pre ++ p :: qi) (pre.length : Int) = .ok p := by
        refine pyIdx_nat (by omega) ?_
        simp
      refine Emits.bind (a := ()) ?_ ?_
      · exact (Emits.lift hp).bind0 ((emits_entangleOne (h (s, p) (by simp))).bind Emits.barrier)
      · have := ih (pre := pre ++ [p]) (qi := qi) (by simpa using hl) (fun s hs => h s (by simp [hs]))
        rw [List.length_append, List.length_singleton, List.append_assoc] at this
        exact this

/-- `entangle` with lists that are not empty. -/
theorem emits_entangle_lists {qi : List QPlaq} {st : List Stab} (hl : st.length = qi.length)
    (h : ∀ s ∈ st.zip qi, PlaqOk w s.1 s.2) (hn : qi ≠ []) :
    Emits w (L.entangle (some qi) (some st)) () (instrsAll st qi) := by
  cases qi with
  | nil => exact absurd rfl hn
  | cons p qi =>
    cases st with
    | nil => simp at hl
    | cons s st => exact emits_loop (pre := []) hl h

theorem emits_entangle_own (hl : L.stabilizers.length = L.qubitIndices.length)
    (h : ∀ s ∈ L.stabilizers.zip L.qubitIndices, PlaqOk w s.1 s.2) :
    Emits w (L.entangle none none) () (instrsAll L.stabilizers L.qubitIndices) :=
  emits_loop (pre := []) hl h

theorem name_ne {name a b : Str} (h : a ≠ b) : name ++ a ≠ name ++ b := fun e => h (List.append_cancel_left e)

theorem dataQ_ne_mx (name : Str) (i j : Int) : dataQ name i ≠ mxQ name j := by
  intro e
  exact name_ne (by decide) (congrArg Qubit.reg e)

theorem dataQ_ne_mz (name : Str) (i j : Int) : dataQ name i ≠ mzQ name j := by
  intro e
  exact name_ne (by decide) (congrArg Qubit.reg e)

theorem dataQ_ne_anc (name : Str) (i : Int) : dataQ name i ≠ ancQ name := by
  intro e
  exact name_ne (by decide) (congrArg Qubit.reg e)

theorem mxQ_ne_mz (name : Str) (i j : Int) : mxQ name i ≠ mzQ name j := by
  intro e
  exact name_ne (by decide) (congrArg Qubit.reg e)

theorem corners_rows {p : Plaq} {r2 c2 : Int} (e : p.corners = cornersOf dh dw r2 c2) :
    p.tl = dataAt dh dw ((r2 - 1) / 2) ((c2 - 1) / 2) ∧ p.tr = dataAt dh dw ((r2 - 1) / 2) ((c2 + 1) / 2) ∧
    p.bl = dataAt dh dw ((r2 + 1) / 2) ((c2 - 1) / 2) ∧ p.br = dataAt dh dw ((r2 + 1) / 2) ((c2 + 1) / 2) := by
  unfold Plaq.corners cornersOf at e
  simpa using e

theorem dataAt_isSome (r c : Int) : (dataAt dh dw r c).isSome = decide (0 ≤ r ∧ r < dh ∧ 0 ≤ c ∧ c < dw) := by
  unfold dataAt
  split
  · rename_i h; simp [h]
  · rename_i h; simp only [Option.isSome_none]; exact (decide_eq_false h).symm

theorem plaqX_consistent (H : OddPos dh dw) {p : Plaq} (hp : p ∈ geometryX dh dw) :
    p.tl.isSome = p.tr.isSome ∧ p.bl.isSome = p.br.isSome := by
  obtain ⟨⟨r2, c2⟩, hs, e⟩ := plaqX_mem H hp
  obtain ⟨e1, e2, e3, e4⟩ := corners_rows e
  unfold XSite at hs
  rw [e1, e2, e3, e4]
  simp only [dataAt_isSome]
  constructor <;> · rw [decide_eq_decide]; simp only at hs ⊢; omega

theorem plaqZ_consistent (H : OddPos dh dw) {p : Plaq} (hp : p ∈ geometryZ dh dw) :
    p.tl.isSome = p.bl.isSome ∧ p.tr.isSome = p.br.isSome := by
  obtain ⟨⟨r2, c2⟩, hs, e⟩ := plaqZ_mem H hp
  obtain ⟨e1, e2, e3, e4⟩ := corners_rows e
  unfold ZSite at hs
  rw [e1, e2, e3, e4]
  simp only [dataAt_isSome]
  constructor <;> · rw [decide_eq_decide]; simp only at hs ⊢; omega

theorem geometryX_syn {p : Plaq} (hp : p ∈ geometryX dh dw) : 0 ≤ p.syn ∧ p.syn < numSynX dh dw := by
  obtain ⟨k, hk⟩ := List.getElem?_of_mem hp
  obtain ⟨rfl, h⟩ := getElem?_geometryX hk
  rw [geomX_syn]
  omega

theorem geometryZ_syn {p : Plaq} (hp : p ∈ geometryZ dh dw) : 0 ≤ p.syn ∧ p.syn < numSynZ dh dw := by
  obtain ⟨k, hk⟩ := List.getElem?_of_mem hp
  obtain ⟨rfl, h⟩ := getElem?_geometryZ hk
  rw [geomZ_syn]
  omega

theorem plaqOf_corner {name : Str} {syn : Str → Int → Qubit} {p : Plaq} {q : Qubit}
    (h : some q ∈ [(plaqOf name syn p).tl, (plaqOf name syn p).tr, (plaqOf name syn p).bl, (plaqOf name syn p).br]) :
    ∃ i, some i ∈ p.corners ∧ q = dataQ name i := by
  have : some q ∈ p.corners.map (Option.map (dataQ name)) := h
  obtain ⟨o, ho, e⟩ := List.mem_map.1 this
  cases o with
  | none => cases e
  | some i => exact ⟨i, ho, by simpa using e.symm⟩

theorem plaqX_ok (P : Placed L dh dw w) {st : Stab} (hst : st ≠ .zzzz) {p : Plaq} (hp : p ∈ geometryX dh dw) :
    PlaqOk w st (plaqOf L.name mxQ p) := by
  refine ⟨P.mxQ_mem (geometryX_syn hp).1 (geometryX_syn hp).2, ?_, ?_, fun e => absurd e hst⟩
  · intro q hq
    obtain ⟨i, hi, rfl⟩ := plaqOf_corner hq
    obtain ⟨h0, h1⟩ := plaqX_idx_range P.odd p hp i hi
    exact ⟨P.dataQ_mem h0 h1, dataQ_ne_mx _ _ _⟩
  · intro _
    have := plaqX_consistent P.odd hp
    simp only [plaqOf, Option.isSome_map]
    exact this

theorem plaqZ_ok (P : Placed L dh dw w) {st : Stab} (hst : st ≠ .xxxx) {p : Plaq} (hp : p ∈ geometryZ dh dw) :
    PlaqOk w st (plaqOf L.name mzQ p) := by
  refine ⟨P.mzQ_mem (geometryZ_syn hp).1 (geometryZ_syn hp).2, ?_, fun e => absurd e hst, ?_⟩
  · intro q hq
    obtain ⟨i, hi, rfl⟩ := plaqOf_corner hq
    obtain ⟨h0, h1⟩ := plaqZ_idx_range P.odd p hp i hi
    exact ⟨P.dataQ_mem h0 h1, dataQ_ne_mz _ _ _⟩
  · intro _
    have := plaqZ_consistent P.odd hp
    simp only [plaqOf, Option.isSome_map]
    exact this

/-- The plaquettes of type X with their classes, in order. -/
def xChecks (code : Code) (name : Str) (dh dw : Int) : List (Stab × QPlaq) :=
  (geometryX dh dw).map fun p => (code.stab .X, plaqOf name mxQ p)

/-- The plaquettes of type Z with their classes, in order. -/
def zChecks (code : Code) (name : Str) (dh dw : Int) : List (Stab × QPlaq) :=
  (geometryZ dh dw).map fun p => (code.stab .Z, plaqOf name mzQ p)

theorem zip_map_map {α β γ : Type} (l : List α) (f : α → β) (g : α → γ) : (l.map f).zip (l.map g) = l.map fun a => (f a, g a) := by
  induction l with
  | nil => rfl
  | cons a l ih => simp [ih]

theorem Placed.checks (P : Placed L dh dw w) : L.stabilizers.zip L.qubitIndices =
    xChecks L.code L.name dh dw ++ zChecks L.code L.name dh dw := by
  rw [P.code_plaqs, P.code_stabs, List.zip_append (by simp), zip_map_map, zip_map_map]
  rfl

theorem code_stab_X (c : Code) : c.stab .X ≠ .zzzz := by cases c <;> decide
theorem code_stab_Z (c : Code) : c.stab .Z ≠ .xxxx := by cases c <;> decide

theorem Placed.xChecks_ok (P : Placed L dh dw w) : ∀ s ∈ xChecks L.code L.name dh dw, PlaqOk w s.1 s.2 := by
  intro s hs
  obtain ⟨p, hp, rfl⟩ := List.mem_map.1 hs
  exact plaqX_ok P (code_stab_X _) hp

theorem Placed.zChecks_ok (P : Placed L dh dw w) : ∀ s ∈ zChecks L.code L.name dh dw, PlaqOk w s.1 s.2 := by
  intro s hs
  obtain ⟨p, hp, rfl⟩ := List.mem_map.1 hs
  exact plaqZ_ok P (code_stab_Z _) hp

/-- The instructions of a list of checks. -/
def instrsChecks (l : List (Stab × QPlaq)) : List Instr := l.flatMap fun s => instrsOne s.1 s.2 ++ [.barrier]

theorem Placed.emits_entangle (P : Placed L dh dw w) : Emits w (L.entangle none none) ()
    (instrsChecks (xChecks L.code L.name dh dw ++ zChecks L.code L.name dh dw)) := by
  have := emits_entangle_own (w := w) (L := L) (by rw [P.code_plaqs, P.code_stabs]; simp) (by
    rw [P.checks]
    intro s hs
    rcases List.mem_append.1 hs with h | h
    · exact P.xChecks_ok s h
    · exact P.zChecks_ok s h)
  unfold instrsAll at this
  rwa [P.checks] at this

end Qtc
