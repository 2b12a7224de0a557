import Verif.Proof.TReg
import Verif.Proof.Keep
/-!
Invariants of the methods of registers and circuits.
-/
namespace Qtc
open Spec

variable {α β : Type} {I : TState → Prop} {E : PyErr → Prop}

/-- The method keeps `I`, its value satisfies `Q`, and it raises only exceptions in `E`. -/
def Safe (I : TState → Prop) (E : PyErr → Prop) (x : TM α) (Q : α → Prop) : Prop :=
  ∀ s, I s → I (x s).2 ∧ (∀ a, (x s).1 = .ok a → Q a) ∧ ∀ e, (x s).1 = .error e → E e

theorem Safe.pure {a : α} {Q : α → Prop} (h : Q a) : Safe I E (pure a) Q := by
  intro s hs
  refine ⟨hs, ?_, ?_⟩
  · intro b hb; rw [CM.pure_run] at hb; cases hb; exact h
  · intro e he; rw [CM.pure_run] at he; cases he

theorem Safe.throw {e : PyErr} {Q : α → Prop} (h : E e) : Safe I E (CM.throw e) Q := by
  intro s hs
  refine ⟨hs, ?_, ?_⟩
  · intro b hb; rw [CM.throw_run] at hb; cases hb
  · intro e' he; rw [CM.throw_run] at he; cases he; exact h

theorem Safe.lift {x : Py α} {Q : α → Prop} (h : ∀ a, x = .ok a → Q a) (h' : ∀ e, x = .error e → E e) : Safe I E (CM.lift x) Q :=
  fun _ hs => ⟨hs, h, h'⟩

theorem Safe.bind {x : TM α} {f : α → TM β} {Q : α → Prop} {R : β → Prop} (hx : Safe I E x Q) (hf : ∀ a, Q a → Safe I E (f a) R) :
    Safe I E (x >>= f) R := by
  intro s hs
  obtain ⟨h1, h2, h3⟩ := hx s hs
  rw [CM.bind_run]
  rcases hr : x s with ⟨e | a, s1⟩
  · rw [hr] at h1 h2 h3
    refine ⟨h1, fun a ha => (by simp at ha), ?_⟩
    intro e' he
    simp only [Except.error.injEq] at he
    exact he ▸ h3 e rfl
  · rw [hr] at h1 h2 h3
    exact hf a (h2 a rfl) s1 h1

theorem Safe.forEach {l : List α} {f : α → TM Unit} (h : ∀ a ∈ l, Safe I E (f a) fun _ => True) :
    Safe I E (CM.forEach l f) fun _ => True := by
  induction l with
  | nil => exact Safe.pure trivial
  | cons a l ih =>
    rw [CM.forEach_cons]
    exact (h a (by simp)).bind fun _ _ => ih fun b hb => h b (by simp [hb])

theorem Safe.weaken {x : TM α} {Q R : α → Prop} (h : Safe I E x Q) (hQ : ∀ a, Q a → R a) : Safe I E x R :=
  fun s hs => ⟨(h s hs).1, fun a ha => hQ a ((h s hs).2.1 a ha), (h s hs).2.2⟩

/-- The part of `cx` after the ancilla has been found. -/
def cxBody (c t a : TQubit) : TM Unit := do
  let r ← prepareCx a
  measureZZ c a r
  measureXX t a r
  correctCx c t a

theorem cxT_eq (control target : QArg) (ctype : Option Str) (params : Option Nat) :
    cxT control target ctype params = (do
      let kind ← ancillaKind control ctype params
      let c ← getIndex control
      let t ← getIndex target
      ensureAncilla kind
      let a ← lastAncilla
      cxBody c t a) := rfl

/-- What is needed to go through the body of `cx`. -/
theorem safe_cxBody {c t a : TQubit} {R : Qubit → Prop} {B : Clbit → Prop}
    (creg : ∀ n ∈ helperC, Safe I E (addCregT 1 n false) fun _ => True)
    (qreg : Safe I E (addQregT 1 helperQ false) fun _ => True)
    (bit : Safe I E (qregBit helperQ) R)
    (cbit : ∀ n ∈ helperC, Safe I E (cregBit n) B)
    (cof : ∀ n ∈ helperC, Safe I E (cregOf n) fun r => r = ⟨n, 1⟩)
    (hx : Safe I E (onWorld a.lat.resetX) fun _ => True)
    (res : ∀ r, R r → Safe I E (onWorld (reset [r])) fun _ => True)
    (hh : ∀ r, R r → Safe I E (onWorld (gate1 .h [r])) fun _ => True)
    (me : ∀ r, R r → ∀ b, B b → Safe I E (onWorld (measure [r] [b])) fun _ => True)
    (cx1 : ∀ r, R r → Safe I E (onWorld (c.cx none (some r))) fun _ => True)
    (cx2 : ∀ r, R r → Safe I E (onWorld (a.cx none (some r))) fun _ => True)
    (cx3 : ∀ r, R r → Safe I E (onWorld (t.cx (some r) none)) fun _ => True)
    (cx4 : ∀ r, R r → Safe I E (onWorld (a.cx (some r) none)) fun _ => True)
    (ro : Safe I E (onWorld (a.lat.readoutZ (some ⟨"m3".toList, 1⟩))) fun _ => True)
    (zc : Safe I E (onWorld (c.lat.zCIf "m2".toList 1)) fun _ => True)
    (xc : ∀ n ∈ helperC, Safe I E (onWorld (t.lat.xCIf n 1)) fun _ => True) :
    Safe I E (cxBody c t a) fun _ => True := by
  have m1 : "m1".toList ∈ helperC := by decide
  have m2 : "m2".toList ∈ helperC := by decide
  have m3 : "m3".toList ∈ helperC := by decide
  have prep : Safe I E (prepareCx a) R :=
    (creg _ m1).bind fun _ _ => (creg _ m2).bind fun _ _ => (creg _ m3).bind fun _ _ => hx.bind fun _ _ => qreg.bind fun _ _ => bit
  have zz : ∀ r, R r → Safe I E (measureZZ c a r) fun _ => True := fun r hr =>
    (res r hr).bind fun _ _ => (cx1 r hr).bind fun _ _ => (cx2 r hr).bind fun _ _ => (cbit _ m1).bind fun b hb => me r hr b hb
  have xx : ∀ r, R r → Safe I E (measureXX t a r) fun _ => True := fun r hr =>
    (res r hr).bind fun _ _ => (hh r hr).bind fun _ _ => (cx3 r hr).bind fun _ _ => (cx4 r hr).bind fun _ _ => (hh r hr).bind fun _ _ =>
      (cbit _ m2).bind fun b hb => me r hr b hb
  have co : Safe I E (correctCx c t a) fun _ => True := by
    unfold correctCx
    refine (cof _ m3).bind fun r hr => ?_
    rw [hr]
    refine ro.bind fun _ _ => (cof _ m2).bind fun r hr => ?_
    rw [hr]
    refine zc.bind fun _ _ => (cof _ m1).bind fun r hr => ?_
    rw [hr]
    refine (xc _ m1).bind fun _ _ => (cof _ m3).bind fun r hr => ?_
    rw [hr]
    exact xc _ m3
  exact prep.bind fun r hr => (zz r hr).bind fun _ _ => (xx r hr).bind fun _ _ => co

/-! ### Invariants of everything but the addition of qubits -/

/-- An invariant every method on the physical circuit and on the two dictionaries keeps. -/
structure Loose (I : TState → Prop) : Prop where
  op : ∀ (q : TQubit) (o : QOp) s, I s → I { s with world := (q.op o s.world).2 }
  append : ∀ (i : Instr) s, I s → I { s with world := (append i s.world).2 }
  creg : ∀ s r d, I s → I { s with creg := d, world := (addCreg r s.world).2 }
  qreg : ∀ s r d, I s → I { s with qreg := d, world := (addQreg r s.world).2 }

theorem loose_onWorld {x : WM α} (h : ∀ s, I s → I { s with world := (x s.world).2 }) : Safe I (fun _ => True) (onWorld x) fun _ => True :=
  fun s hs => ⟨h s hs, fun _ _ => trivial, fun _ _ => trivial⟩

theorem Safe.any {x : TM α} {Q : α → Prop} (h : ∀ s, I s → I (x s).2) (hQ : ∀ a, Q a) : Safe I (fun _ => True) x Q :=
  fun s hs => ⟨h s hs, fun a _ => hQ a, fun _ _ => trivial⟩

theorem Loose.addCregT (H : Loose I) {n : Int} {name : Str} {b : Bool} : Safe I (fun _ => True) (addCregT n name b) fun _ => True := by
  refine Safe.any (fun s hs => ?_) fun _ => trivial
  unfold Qtc.addCregT
  split
  · exact hs
  · split
    · exact hs
    · exact H.creg s _ _ hs

theorem Loose.addQregT (H : Loose I) {n : Int} {name : Str} {b : Bool} : Safe I (fun _ => True) (addQregT n name b) fun _ => True := by
  refine Safe.any (fun s hs => ?_) fun _ => trivial
  unfold Qtc.addQregT
  split
  · exact hs
  · split
    · exact hs
    · exact H.qreg s _ _ hs

theorem loose_cregOf {n : Str} : Safe I (fun _ => True) (cregOf n) fun _ => True := by
  refine Safe.any (fun s hs => ?_) fun _ => trivial
  unfold cregOf
  split <;> exact hs

theorem loose_qregBit {n : Str} : Safe I (fun _ => True) (qregBit n) fun _ => True := by
  refine Safe.any (fun s hs => ?_) fun _ => trivial
  unfold qregBit
  split <;> exact hs

theorem loose_cregBit {n : Str} : Safe I (fun _ => True) (cregBit n) fun _ => True :=
  loose_cregOf.bind fun _ _ => Safe.any (fun _ hs => hs) fun _ => trivial

theorem loose_getIndex {a : QArg} : Safe I (fun _ => True) (getIndex a) fun _ => True := by
  refine Safe.any (fun s hs => ?_) fun _ => trivial
  unfold getIndex
  split
  · split <;> exact hs
  · exact hs

theorem Loose.onQubit (H : Loose I) {a : QArg} {o : QOp} : Safe I (fun _ => True) (onQubit a o) fun _ => True :=
  loose_getIndex.bind fun q _ => loose_onWorld (H.op q o)

theorem loose_lastAncilla : Safe I (fun _ => True) lastAncilla fun _ => True := by
  refine Safe.any (fun s hs => ?_) fun _ => trivial
  unfold lastAncilla
  split
  · exact hs
  · split <;> exact hs

theorem loose_ancillaKind {a : QArg} {c : Option Str} {p : Option Nat} : Safe I (fun _ => True) (ancillaKind a c p) fun _ => True := by
  unfold ancillaKind
  split
  · exact Safe.pure trivial
  · exact loose_getIndex.bind fun _ _ => Safe.pure trivial
  · exact Safe.throw trivial

theorem Loose.cxBody (H : Loose I) {c t a : TQubit} : Safe I (fun _ => True) (cxBody c t a) fun _ => True := by
  have one : ∀ i, Safe I (fun _ => True) (onWorld (Qtc.append i)) fun _ => True := fun i => loose_onWorld (H.append i)
  have forEach1 : ∀ {α : Type} (f : α → Instr) (l : List α), Safe I (fun _ => True) (onWorld (CM.forEach l fun a => Qtc.append (f a))) fun _ => True := by
    intro α f l
    refine loose_onWorld ?_
    induction l with
    | nil => exact fun s hs => hs
    | cons a l ih =>
      intro s hs
      rw [CM.forEach_cons, CM.bind_run]
      have h1 := H.append (f a) s hs
      rcases hr : Qtc.append (f a) s.world with ⟨e | u, w1⟩
      · rw [hr] at h1; exact h1
      · rw [hr] at h1
        exact ih _ h1
  have opq : ∀ (q : TQubit) o, Safe I (fun _ => True) (onWorld (q.op o)) fun _ => True := fun q o => loose_onWorld (H.op q o)
  have gate : ∀ r : Qubit, Safe I (fun _ => True) (onWorld (gate1 .h [r])) fun _ => True := fun r => forEach1 _ [r]
  have res : ∀ r : Qubit, Safe I (fun _ => True) (onWorld (reset [r])) fun _ => True := fun r => forEach1 _ [r]
  have me : ∀ (r : Qubit) (b : Clbit), Safe I (fun _ => True) (onWorld (measure [r] [b])) fun _ => True := fun r b => forEach1 (fun p : Qubit × Clbit => .measure p.1 p.2) [(r, b)]
  have prep : Safe I (fun _ => True) (prepareCx a) fun _ => True :=
    H.addCregT.bind fun _ _ => H.addCregT.bind fun _ _ => H.addCregT.bind fun _ _ => (opq a .resetX).bind fun _ _ =>
      H.addQregT.bind fun _ _ => loose_qregBit
  have zz : ∀ r, Safe I (fun _ => True) (measureZZ c a r) fun _ => True := fun r =>
    (res r).bind fun _ _ => (opq c (.cx none (some r))).bind fun _ _ => (opq a (.cx none (some r))).bind fun _ _ => loose_cregBit.bind fun b _ => me r b
  have xx : ∀ r, Safe I (fun _ => True) (measureXX t a r) fun _ => True := fun r =>
    (res r).bind fun _ _ => (gate r).bind fun _ _ => (opq t (.cx (some r) none)).bind fun _ _ => (opq a (.cx (some r) none)).bind fun _ _ =>
      (gate r).bind fun _ _ => loose_cregBit.bind fun b _ => me r b
  have co : Safe I (fun _ => True) (correctCx c t a) fun _ => True := by
    unfold correctCx
    exact loose_cregOf.bind fun r _ => (opq a (.readoutZ (some r))).bind fun _ _ => loose_cregOf.bind fun r _ => (opq c (.zCIf r.name 1)).bind fun _ _ =>
      loose_cregOf.bind fun r _ => (opq t (.xCIf r.name 1)).bind fun _ _ => loose_cregOf.bind fun r _ => opq t (.xCIf r.name 1)
  exact prep.bind fun r _ => (zz r).bind fun _ _ => (xx r).bind fun _ _ => co

/-- Invariants that also survive `add_tqubit` survive everything. -/
theorem Loose.run (H : Loose I) (add : ∀ s sub ctype p, I s → I (addTqubit sub ctype p s).2) (o : TOp) (s : TState) (hs : I s) :
    I (o.run s).2 := by
  cases o with
  | addQubits sub cs ps =>
    show I (addTqubits sub cs ps s).2
    unfold addTqubits
    split
    · exact hs
    · split
      · exact hs
      · exact (Safe.forEach (E := fun _ => True) (fun e _ => Safe.any (fun s hs => add s sub e.1 e.2 hs) fun _ => trivial) s hs).1
  | addQubit sub c p => exact add s sub c p hs
  | on a o => exact (H.onQubit s hs).1
  | cx c t k p =>
    show I (cxT c t k p s).2
    rw [cxT_eq]
    have ens : ∀ kind, Safe I (fun _ => True) (ensureAncilla kind) fun _ => True := by
      intro kind
      refine Safe.any (fun s hs => ?_) fun _ => trivial
      unfold ensureAncilla
      split
      · exact hs
      · exact add s _ _ _ hs
    exact ((loose_ancillaKind.bind fun kind _ => loose_getIndex.bind fun c _ => loose_getIndex.bind fun t _ => (ens kind).bind fun _ _ =>
      loose_lastAncilla.bind fun a _ => H.cxBody) s hs).1
  | addCreg n name b => exact (H.addCregT s hs).1
  | addQreg n name b => exact (H.addQregT s hs).1

theorem Loose.runOps (H : Loose I) (add : ∀ s sub ctype p, I s → I (addTqubit sub ctype p s).2) (l : List TOp) {s : TState} (hs : I s) :
    I (runOps l s) := by
  induction l generalizing s with
  | nil => exact hs
  | cons o l ih => exact ih (H.run add o s hs)

theorem loose_treg (P : TReg → Prop) : Loose fun s => P s.treg := ⟨fun _ _ _ h => h, fun _ _ h => h, fun _ _ _ h => h, fun _ _ _ h => h⟩

theorem loose_wf : Loose fun s => WellFormed s.world.circ :=
  ⟨fun q o s h => keepsWF_op q o s.world h, fun _ s h => keepsWF_append s.world h, fun s _ _ h => keepsWF_addCreg s.world h,
    fun s _ _ h => keepsWF_addQreg s.world h⟩

theorem wf_addTqubit (s : TState) (sub ctype : Str) (p : Option Nat) (W : WellFormed s.world.circ) :
    WellFormed (addTqubit sub ctype p s).2.world.circ := by
  rcases addTqubit_run sub ctype p s with ⟨-, hr⟩ | ⟨cls, -, ⟨q, w, hq, hr⟩ | ⟨e, w, hq, hr⟩⟩
  · rw [hr]; exact W
  · rw [hr]
    have := keepsWF_newQubit (cls := cls) (p := p) (name := s.treg.qubitName) s.world W
    rw [hq] at this; exact this
  · rw [hr]
    have := keepsWF_newQubit (cls := cls) (p := p) (name := s.treg.qubitName) s.world W
    rw [hq] at this; exact this

theorem loose_log (name : Str) : Loose fun s => ∃ log tried, Log name s log tried := by
  constructor
  · rintro q o s ⟨log, tried, h⟩; exact ⟨log, tried, h.other rfl⟩
  · rintro i s ⟨log, tried, h⟩; exact ⟨log, tried, h.other rfl⟩
  · rintro s r d ⟨log, tried, h⟩; exact ⟨log, tried, h.other rfl⟩
  · rintro s r d ⟨log, tried, h⟩; exact ⟨log, tried, h.other rfl⟩

end Qtc
