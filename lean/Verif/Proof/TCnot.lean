import Verif.Proof.TFairRun
import Verif.Proof.Partial
import Verif.Proof.QCnot
/-!
The instructions `cx` adds.
-/
namespace Qtc
open Spec

variable {α β : Type} {b b' : TState}

/-- The state after instructions have been appended. -/
def TState.emit (b : TState) (is : List Instr) : TState := { b with world := b.world.emit is }

theorem TState.emit_nil (b : TState) : b.emit [] = b := by unfold TState.emit; rw [World.emit_nil]

/-- From states that differ from `b` by instructions, `x` leads to states that differ from `b'` by these and `is`. -/
def Goes (b : TState) (x : TM α) (a : α) (b' : TState) (is : List Instr) : Prop :=
  ∀ js, x (b.emit js) = (.ok a, b'.emit (js ++ is))

/-- From such states, `x` raises an exception. -/
def Stops (b : TState) (x : TM α) : Prop := ∀ js, ∃ e s', x (b.emit js) = (.error e, s')

theorem Goes.bind {x : TM α} {f : α → TM β} {a : α} {c : β} {b'' : TState} {is js : List Instr} (h : Goes b x a b' is) (h' : Goes b' (f a) c b'' js) :
    Goes b (x >>= f) c b'' (is ++ js) := by
  intro ks
  rw [CM.bind_ok (h ks), h', List.append_assoc]

theorem Goes.bind0 {x : TM α} {f : α → TM β} {a : α} {c : β} {b'' : TState} {js : List Instr} (h : Goes b x a b' []) (h' : Goes b' (f a) c b'' js) :
    Goes b (x >>= f) c b'' js := h.bind h'

theorem Goes.stops {x : TM α} {f : α → TM β} {a : α} {is : List Instr} (h : Goes b x a b' is) (h' : Stops b' (f a)) : Stops b (x >>= f) := by
  intro ks
  rw [CM.bind_ok (h ks)]
  exact h' _

theorem Stops.bind {x : TM α} {f : α → TM β} (h : Stops b x) : Stops b (x >>= f) := by
  intro ks
  obtain ⟨e, s', h⟩ := h ks
  exact ⟨e, s', CM.bind_error h⟩

theorem Emits.goes {x : WM α} {a : α} {is : List Instr} (h : Emits b.world x a is) : Goes b (onWorld x) a b is := by
  intro js
  unfold onWorld
  have := h js
  show ((x (b.world.emit js)).1, _) = _
  simp only [TState.emit]
  rw [this]

theorem Fails.stops {x : WM α} {e : PyErr} {is : List Instr} (h : Fails b.world x e is) : Stops b (onWorld x) := by
  intro js
  refine ⟨e, _, Prod.ext ?_ rfl⟩
  show (x (b.world.emit js)).1 = _
  rw [h js]

/-! ### Helper registers -/

/-- The helper register is there. -/
def HasC (b : TState) (n : Str) : Prop := b.creg.get? n = some ⟨n, 1⟩ ∧ ⟨n, 1⟩ ∈ b.world.circ.cregs

/-- The helper qubit is there. -/
def HasQ (b : TState) : Prop := b.qreg.get? helperQ = some ⟨helperQ, 1⟩ ∧ ⟨helperQ, 1⟩ ∈ b.world.circ.qregs

/-- The dictionaries of registers are in order. -/
structure HelperReady (b : TState) : Prop where
  syncC : ∀ h ∈ helperC, (b.creg.get? h = none ∧ h ∉ b.world.circ.names) ∨ HasC b h
  syncQ : (b.qreg.get? helperQ = none ∧ helperQ ∉ b.world.circ.names) ∨ HasQ b

/-- Registers stay. -/
structure Onward (b b' : TState) : Prop where
  ready : HelperReady b'
  hasC : ∀ n, HasC b n → HasC b' n
  hasQ : HasQ b → HasQ b'
  placed : ∀ L dh dw, Placed L dh dw b.world → Placed L dh dw b'.world
  instrs : b'.world.circ.instrs = b.world.circ.instrs

theorem Onward.trans {b'' : TState} (h : Onward b b') (h' : Onward b' b'') : Onward b b'' :=
  ⟨h'.ready, fun n x => h'.hasC n (h.hasC n x), fun x => h'.hasQ (h.hasQ x), fun L dh dw x => h'.placed L dh dw (h.placed L dh dw x),
    h'.instrs.trans h.instrs⟩

theorem HelperReady.addC (R : HelperReady b) {n : Str} (hn : n ∈ helperC) : ∃ b', Goes b (addCregT 1 n false) () b' [] ∧ Onward b b' ∧ HasC b' n := by
  rcases R.syncC n hn with ⟨h1, h2⟩ | h
  swap
  · refine ⟨b, fun js => ?_, ⟨R, fun _ h => h, fun h => h, fun _ _ _ h => h, rfl⟩, h⟩
    rw [List.append_nil]
    exact addCregT_known (s := b.emit js) h.1
  have new : HasC { b with creg := b.creg.set n ⟨n, 1⟩, world := b.world.addC ⟨n, 1⟩ } n := by
    refine ⟨Dict.get?_set_self _ _ _, ?_⟩
    rw [World.addC_cregs]
    exact List.mem_append_right _ (List.mem_singleton.2 rfl)
  have old : ∀ m, HasC b m → HasC { b with creg := b.creg.set n ⟨n, 1⟩, world := b.world.addC ⟨n, 1⟩ } m := by
    intro m hm
    by_cases e : m = n
    · subst e; exact new
    · refine ⟨by simp only [Dict.get?_set_ne _ _ e]; exact hm.1, ?_⟩
      rw [World.addC_cregs]
      exact List.mem_append_left _ hm.2
  refine ⟨_, fun js => ?_, ⟨⟨?_, ?_⟩, old, fun h => h, fun L dh dw P => P.addC _, rfl⟩, new⟩
  · rw [List.append_nil]
    exact addCregT_new (s := b.emit js) h1 h2
  · intro h hh
    by_cases e : h = n
    · subst e; exact Or.inr new
    · rcases R.syncC h hh with ⟨h1, h2⟩ | h1
      · refine Or.inl ⟨by simp only [Dict.get?_set_ne _ _ e]; exact h1, ?_⟩
        simp only [names_addC, not_or]
        exact ⟨e, h2⟩
      · exact Or.inr (old h h1)
  · have hne : helperQ ≠ n := by
      rintro rfl
      exact absurd hn (by decide)
    rcases R.syncQ with ⟨h1, h2⟩ | h1
    · refine Or.inl ⟨h1, ?_⟩
      simp only [names_addC, not_or]
      exact ⟨hne, h2⟩
    · exact Or.inr h1

theorem HelperReady.addQ (R : HelperReady b) : ∃ b', Goes b (addQregT 1 helperQ false) () b' [] ∧ Onward b b' ∧ HasQ b' := by
  rcases R.syncQ with ⟨h1, h2⟩ | h
  swap
  · refine ⟨b, fun js => ?_, ⟨R, fun _ h => h, fun h => h, fun _ _ _ h => h, rfl⟩, h⟩
    rw [List.append_nil]
    exact addQregT_known (s := b.emit js) h.1
  have new : HasQ { b with qreg := b.qreg.set helperQ ⟨helperQ, 1⟩, world := b.world.addQs [⟨helperQ, 1⟩] } := by
    refine ⟨Dict.get?_set_self _ _ _, ?_⟩
    rw [World.addQs_qregs]
    exact List.mem_append_right _ (List.mem_singleton.2 rfl)
  refine ⟨_, fun js => ?_, ⟨⟨?_, Or.inr new⟩, fun _ h => h, fun _ => new, fun L dh dw P => ?_, rfl⟩, new⟩
  · rw [List.append_nil]
    exact addQregT_new (s := b.emit js) h1 h2
  · intro h hh
    have hne : h ≠ helperQ := by
      rintro rfl
      exact absurd hh (by decide)
    rcases R.syncC h hh with ⟨h1, h2⟩ | h1
    · refine Or.inl ⟨h1, ?_⟩
      simp only [names_addQs, not_or]
      exact ⟨hne, h2⟩
    · exact Or.inr h1
  · refine ⟨P.eq, P.odd, fun r hr => ?_, P.d, P.nd, P.ns⟩
    rw [World.addQs_qregs]
    exact List.mem_append_left _ (P.qregs r hr)

theorem HasC.of {n : Str} (h : HasC b n) : Goes b (cregOf n) ⟨n, 1⟩ b [] := by
  intro js
  rw [List.append_nil]
  unfold cregOf
  show (match b.creg.get? n with
    | none => (Except.error PyErr.keyError, b.emit js)
    | some r => (Except.ok r, b.emit js)) = _
  rw [h.1]

theorem HasC.bit {n : Str} (h : HasC b n) : Goes b (cregBit n) ⟨n, 0⟩ b [] :=
  Goes.bind0 h.of fun js => by rw [List.append_nil]; rfl

theorem HasC.mem {n : Str} (h : HasC b n) : (⟨n, 0⟩ : Clbit) ∈ b.world.circ.clbits :=
  mem_clbits_of_reg h.2 (Reg.mem_clbits.2 ⟨rfl, Nat.one_pos⟩)

theorem HasQ.bit (h : HasQ b) : Goes b (qregBit helperQ) ⟨helperQ, 0⟩ b [] := by
  intro js
  rw [List.append_nil]
  unfold qregBit
  show (match b.qreg.get? helperQ with
    | none => (Except.error PyErr.keyError, b.emit js)
    | some r => (r.at 0, b.emit js)) = _
  rw [h.1]
  rfl

theorem HasQ.mem (h : HasQ b) : (⟨helperQ, 0⟩ : Qubit) ∈ b.world.circ.qubits :=
  mem_qubits_of_reg h.2 (Reg.mem_qubits.2 ⟨rfl, Nat.one_pos⟩)

/-! ### The body -/

/-- The lattice a qubit has. -/
def patchOf (q : TQubit) (dh dw : Int) : Patch := ⟨q.lat.code, q.lat.name, dh, dw⟩

/-- Can the logical Z be read into the ancilla? -/
def Wide (q : TQubit) (dw : Int) : Prop := 1 < dw ∨ q.lat.code = .xxzz

theorem not_wide {q : TQubit} {dh dw : Int} (H : OddPos dh dw) (h : ¬ Wide q dw) : q.lat.code = .xzzx ∧ dw = 1 := by
  unfold Wide at h
  push Not at h
  unfold OddPos at H
  refine ⟨?_, by omega⟩
  cases hc : q.lat.code
  · exact absurd hc h.2
  · rfl

theorem Placed.fails_cx_target {L : Lattice} {dh dw : Int} {w : World} (P : Placed L dh dw w) (hc : L.code = .xzzx) (h : dw = 1) (t : Qubit) :
    ∃ is, Fails w (L.cx none (some t)) .valueError is := by
  unfold Lattice.cx
  simp only
  exact ⟨_, (P.fails_readoutZIntoAncilla hc h).bind⟩

theorem Placed.fails_resetX {L : Lattice} {dh dw : Int} {w : World} (P : Placed L dh dw w) (hc : L.code = .xzzx) (h : ¬ 1 < dh * dw) :
    ∃ e is, Fails w L.resetX e is := by
  have hH := P.odd
  have h1 : dh * dw = 1 := by
    have := P.size_pos
    omega
  unfold Lattice.resetX
  rw [hc, P.data_qubits]
  simp only
  refine ⟨.circuitError, _, Emits.fails (js := []) (emits_reset (mem_dataQs P)) ?_⟩
  intro js
  rw [List.append_nil]
  have e : everySecond ((dataQs L.name dh dw).drop 1) = [] := by
    have : (dataQs L.name dh dw).length = 1 := by
      rw [← P.data_qubits, P.code_data]
      simp [Reg.qubits, h1]
    rw [List.drop_eq_nil_of_le (by omega)]
    rfl
  rw [e]
  rfl

theorem FInv.ready (F : FInv b) : HelperReady b := ⟨F.syncC, F.syncQ⟩

section
variable {c t a : TQubit} {ch cw th tw ah aw : Int}

theorem prepareCx_goes (R : HelperReady b) (Pa : Placed a.lat ah aw b.world) (ha : 1 < ah * aw ∨ a.lat.code = .xxzz) :
    ∃ b', Goes b (prepareCx a) ⟨helperQ, 0⟩ b' (resetXInstrs a.lat.code a.lat.name ah aw) ∧ Onward b b' ∧ (∀ n ∈ helperC, HasC b' n) ∧ HasQ b' := by
  obtain ⟨b1, g1, o1, h1⟩ := R.addC (n := "m1".toList) (by decide)
  obtain ⟨b2, g2, o2, h2⟩ := o1.ready.addC (n := "m2".toList) (by decide)
  obtain ⟨b3, g3, o3, h3⟩ := o2.ready.addC (n := "m3".toList) (by decide)
  obtain ⟨b4, g4, o4, h4⟩ := o3.ready.addQ
  refine ⟨b4, ?_, ((o1.trans o2).trans o3).trans o4, ?_, h4⟩
  · have e := (((o1.trans o2).trans o3).placed _ _ _ Pa).emits_resetX ha
    have := g1.bind0 (f := fun _ => _) (g2.bind0 (f := fun _ => _) (g3.bind0 (f := fun _ => _) (e.goes.bind (f := fun _ => _) (g4.bind0 (f := fun _ => _) h4.bit))))
    rw [List.append_nil] at this
    exact this
  · intro n hn
    unfold helperC at hn
    simp only [List.mem_cons, List.not_mem_nil, or_false] at hn
    rcases hn with rfl | rfl | rfl
    · exact o4.hasC _ (o3.hasC _ (o2.hasC _ h1))
    · exact o4.hasC _ (o3.hasC _ h2)
    · exact o4.hasC _ h3

theorem prepareCx_stops (R : HelperReady b) (Pa : Placed a.lat ah aw b.world) (hc : a.lat.code = .xzzx) (h : ¬ 1 < ah * aw) : Stops b (prepareCx a) := by
  obtain ⟨b1, g1, o1, -⟩ := R.addC (n := "m1".toList) (by decide)
  obtain ⟨b2, g2, o2, -⟩ := o1.ready.addC (n := "m2".toList) (by decide)
  obtain ⟨b3, g3, o3, -⟩ := o2.ready.addC (n := "m3".toList) (by decide)
  obtain ⟨e, is, hf⟩ := (((o1.trans o2).trans o3).placed _ _ _ Pa).fails_resetX hc h
  exact g1.stops (f := fun _ => _) (g2.stops (f := fun _ => _) (g3.stops (f := fun _ => _) hf.stops.bind))

/-- The situation after the preparation. -/
structure Stage (b : TState) (c t a : TQubit) (ch cw th tw ah aw : Int) : Prop where
  C : Placed c.lat ch cw b.world
  T : Placed t.lat th tw b.world
  A : Placed a.lat ah aw b.world
  regs : ∀ n ∈ helperC, HasC b n
  q : HasQ b
  outC : Outside c.lat.name ⟨helperQ, 0⟩
  outT : Outside t.lat.name ⟨helperQ, 0⟩
  outA : Outside a.lat.name ⟨helperQ, 0⟩

theorem measureZZ_goes (S : Stage b c t a ch cw th tw ah aw) (hc : Wide c cw) (ha : Wide a aw) :
    Goes b (measureZZ c a ⟨helperQ, 0⟩) () b (zzInstrs (patchOf c ch cw) (patchOf a ah aw) ⟨helperQ, 0⟩ ⟨"m1".toList, 0⟩) := by
  have m1 := S.regs "m1".toList (by decide)
  have e1 : Emits b.world (reset [⟨helperQ, 0⟩]) () [.reset ⟨helperQ, 0⟩] := emits_reset (by simpa using S.q.mem)
  have e2 := S.C.emits_cx_target hc S.q.mem S.outC.anc.symm
  have e3 := S.A.emits_cx_target ha S.q.mem S.outA.anc.symm
  have e4 : Emits b.world (measure [⟨helperQ, 0⟩] [⟨"m1".toList, 0⟩]) () [.measure ⟨helperQ, 0⟩ ⟨"m1".toList, 0⟩] :=
    emits_measure_one (by simp) S.q.mem (by simpa using m1.mem)
  unfold measureZZ zzInstrs
  rw [qcx_one rfl, qcx_one rfl]
  simp only [List.append_assoc]
  have := e1.goes.bind (f := fun _ => _) (e2.goes.bind (f := fun _ => _) (e3.goes.bind (f := fun _ => _) (m1.bit.bind0 (f := fun x => onWorld (measure [⟨helperQ, 0⟩] [x])) e4.goes)))
  simp only [List.append_assoc] at this
  exact this

theorem measureZZ_stops (S : Stage b c t a ch cw th tw ah aw) (h : ¬ (Wide c cw ∧ Wide a aw)) : Stops b (measureZZ c a ⟨helperQ, 0⟩) := by
  have e1 : Emits b.world (reset [⟨helperQ, 0⟩]) () [.reset ⟨helperQ, 0⟩] := emits_reset (by simpa using S.q.mem)
  unfold measureZZ
  rw [qcx_one rfl, qcx_one rfl]
  refine e1.goes.stops ?_
  by_cases hc : Wide c cw
  · obtain ⟨h1, h2⟩ := not_wide S.A.odd fun ha => h ⟨hc, ha⟩
    obtain ⟨is, hf⟩ := S.A.fails_cx_target h1 h2 ⟨helperQ, 0⟩
    exact (S.C.emits_cx_target hc S.q.mem S.outC.anc.symm).goes.stops hf.stops.bind
  · obtain ⟨h1, h2⟩ := not_wide S.C.odd hc
    obtain ⟨is, hf⟩ := S.C.fails_cx_target h1 h2 ⟨helperQ, 0⟩
    exact hf.stops.bind

theorem not_data {n : Str} {dh dw : Int} {x : Qubit} (h : Outside n x) : x ∉ dataQs n dh dw := by
  intro hx
  obtain ⟨i, -, e⟩ := List.mem_map.1 hx
  exact h.data i e

theorem measureXX_goes (S : Stage b c t a ch cw th tw ah aw) :
    Goes b (measureXX t a ⟨helperQ, 0⟩) () b (xxInstrs (patchOf t th tw) (patchOf a ah aw) ⟨helperQ, 0⟩ ⟨"m2".toList, 0⟩) := by
  have m2 := S.regs "m2".toList (by decide)
  have e1 : Emits b.world (reset [⟨helperQ, 0⟩]) () [.reset ⟨helperQ, 0⟩] := emits_reset (by simpa using S.q.mem)
  have e2 : Emits b.world (gate1 .h [⟨helperQ, 0⟩]) () [.gate1 .h ⟨helperQ, 0⟩ none] := emits_gate1_one S.q.mem
  have e3 := S.T.emits_cx_control none S.q.mem (not_data S.outT)
  have e4 := S.A.emits_cx_control none S.q.mem (not_data S.outA)
  have e5 : Emits b.world (measure [⟨helperQ, 0⟩] [⟨"m2".toList, 0⟩]) () [.measure ⟨helperQ, 0⟩ ⟨"m2".toList, 0⟩] :=
    emits_measure_one (by simp) S.q.mem (by simpa using m2.mem)
  unfold measureXX xxInstrs
  rw [qcx_one rfl, qcx_one rfl]
  simp only [List.append_assoc]
  have := e1.goes.bind (f := fun _ => _) (e2.goes.bind (f := fun _ => _) (e3.goes.bind (f := fun _ => _) (e4.goes.bind (f := fun _ => _)
    (e2.goes.bind (f := fun _ => _) (m2.bit.bind0 (f := fun x => onWorld (measure [⟨helperQ, 0⟩] [x])) e5.goes)))))
  exact this

theorem correctCx_goes (S : Stage b c t a ch cw th tw ah aw) (ha : Wide a aw) :
    Goes b (correctCx c t a) () b (readInstrs (intoAncillaZ a.lat.code a.lat.name ah aw) a.lat.name ⟨"m3".toList, 1⟩ ++
      (logicalInstrs c.lat.code.gateZ c.lat.name (some ("m2".toList, 1)) (rowQubits cw 0) ++
      (logicalInstrs t.lat.code.gateX t.lat.name (some ("m1".toList, 1)) (colQubits th tw 0) ++
      logicalInstrs t.lat.code.gateX t.lat.name (some ("m3".toList, 1)) (colQubits th tw 0)))) := by
  unfold correctCx
  have m1 : HasC b "m1".toList := S.regs _ (by decide)
  have m2 : HasC b "m2".toList := S.regs _ (by decide)
  have m3 : HasC b "m3".toList := S.regs _ (by decide)
  generalize "m1".toList = n1 at *
  generalize "m2".toList = n2 at *
  generalize "m3".toList = n3 at *
  have e1 := S.A.emits_readoutZ ha m3.2 Nat.one_pos
  have e2 := S.C.emits_zCIf n2 (v := 1) (by decide)
  have e3 := S.T.emits_xCIf n1 (v := 1) (by decide)
  have e4 := S.T.emits_xCIf n3 (v := 1) (by decide)
  have g4 : Goes b (do let m3 ← cregOf n3; onWorld (t.lat.xCIf m3.name 1)) () b _ := m3.of.bind0 (b'' := b) (Emits.goes e4)
  have g3 : Goes b (do let m1 ← cregOf n1; onWorld (t.lat.xCIf m1.name 1); let m3 ← cregOf n3; onWorld (t.lat.xCIf m3.name 1)) () b _ :=
    m1.of.bind0 (b'' := b) ((Emits.goes e3).bind (b'' := b) g4)
  have g2 : Goes b (do
    let m2 ← cregOf n2
    onWorld (c.lat.zCIf m2.name 1)
    let m1 ← cregOf n1
    onWorld (t.lat.xCIf m1.name 1)
    let m3 ← cregOf n3
    onWorld (t.lat.xCIf m3.name 1)) () b _ := m2.of.bind0 (b'' := b) ((Emits.goes e2).bind (b'' := b) g3)
  exact m3.of.bind0 (b'' := b) ((Emits.goes e1).bind (b'' := b) g2)

/-- `cx` succeeds exactly on lattices whose logical Z can be read, and then adds these instructions. -/
theorem cxBody_closed (R : HelperReady b) (Pc : Placed c.lat ch cw b.world) (Pt : Placed t.lat th tw b.world) (Pa : Placed a.lat ah aw b.world)
    (oc : Outside c.lat.name ⟨helperQ, 0⟩) (ot : Outside t.lat.name ⟨helperQ, 0⟩) (oa : Outside a.lat.name ⟨helperQ, 0⟩) {s' : TState}
    (h : cxBody c t a b = (.ok (), s')) :
    Wide c cw ∧ Wide a aw ∧
    s'.world.circ.instrs = b.world.circ.instrs ++ cnotInstrs (patchOf c ch cw) (patchOf t th tw) (patchOf a ah aw) ⟨helperQ, 0⟩ ∧
    ∀ n ∈ helperC, ⟨n, 1⟩ ∈ s'.world.circ.cregs := by
  have stop : ∀ {x : TM Unit}, x b = (.ok (), s') → ¬ Stops b x := by
    intro x hx hs
    obtain ⟨e, s1, hs⟩ := hs []
    rw [TState.emit_nil, hx] at hs
    cases hs
  have hsmall : 1 < ah * aw ∨ a.lat.code = .xxzz := by
    by_contra hh
    push Not at hh
    have hx : a.lat.code = .xzzx := by
      cases hc : a.lat.code
      · exact absurd hc hh.2
      · rfl
    exact stop h (prepareCx_stops R Pa hx (by omega)).bind
  obtain ⟨b', g1, o, hC, hQ⟩ := prepareCx_goes R Pa hsmall
  have S : Stage b' c t a ch cw th tw ah aw := ⟨o.placed _ _ _ Pc, o.placed _ _ _ Pt, o.placed _ _ _ Pa, hC, hQ, oc, ot, oa⟩
  have hw : Wide c cw ∧ Wide a aw := by
    by_contra hh
    exact stop h (g1.stops (f := fun _ => _) (measureZZ_stops S hh).bind)
  refine ⟨hw.1, hw.2, ?_⟩
  have g := g1.bind (f := fun r => (do measureZZ c a r; measureXX t a r; correctCx c t a)) ((measureZZ_goes S hw.1 hw.2).bind (f := fun _ => _)
    ((measureXX_goes S).bind (f := fun _ => _) (correctCx_goes S hw.2)))
  have e := g []
  rw [TState.emit_nil] at e
  have e : cxBody c t a b = _ := e
  rw [h] at e
  simp only [Prod.mk.injEq, true_and] at e
  subst e
  constructor
  · show b'.world.circ.instrs ++ _ = _
    rw [o.instrs]
    unfold cnotInstrs
    simp only [List.nil_append, List.append_assoc]
    rfl
  · intro n hn
    exact (hC n hn).2
end

end Qtc
