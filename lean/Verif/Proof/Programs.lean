import Verif.Proof.ProgOps
import Verif.Proof.QNoise
import Verif.Props.QuantumCnot
/-!
Programs on the logical qubits of a topological circuit.
-/
namespace Qtc
open Spec Function

variable {s s1 : TState} {q : TQubit} {dh dw k : Int} {key : Key}

/-! ### Histories -/

theorem FairRun.snoc {l : List TOp} {o : TOp} (h : FairRun l s) (ho : Fair (runOps l s) o) : FairRun (l ++ [o]) s := by
  induction l generalizing s with
  | nil => exact ⟨ho, trivial⟩
  | cons a l ih => exact ⟨h.1, ih h.2 ho⟩

theorem Spec.FairState.step (F : FairState s) {o : TOp} (ho : Fair s o) : FairState (o.run s).2 := by
  obtain ⟨name, w, ops, hf, hr, rfl⟩ := F
  refine ⟨name, w, ops ++ [o], hf, FairRun.snoc hr ho, ?_⟩
  unfold runOps
  rw [List.foldl_append]
  rfl

theorem Spec.Logical.placed (L : Logical s k q dh dw) (F : FInv s) : Placed q.lat dh dw s.world := by
  obtain ⟨_, _, P⟩ := (F.held _ _ L.1).placed
  exact P.sized L.2.1

/-- Different logical qubits have different names. -/
theorem Spec.Logical.far {k' dh' dw' : Int} {q' : TQubit} (L : Logical s k q dh dw) (L' : Logical s k' q' dh' dw') (F : FInv s) (h : k ≠ k') :
    Far q.lat.name q'.lat.name := by
  intro x y e
  rw [(F.held _ _ L.1).name, (F.held _ _ L'.1).name] at e
  have := (qname_inj e).1
  have := (F.find_range L.1).1
  have := (F.find_range L'.1).1
  omega

theorem Spec.Logical.unique {dh' dw' : Int} {q' : TQubit} (L : Logical s k q dh dw) (L' : Logical s k q' dh' dw') : q' = q ∧ dh' = dh ∧ dw' = dw := by
  have e := L.1.symm.trans L'.1
  cases e
  obtain ⟨r, h⟩ := L.2.1
  obtain ⟨r', h'⟩ := L'.2.1
  rw [h] at h'
  cases h'
  exact ⟨rfl, rfl, rfl⟩

/-! ### Operators -/

theorem logicalOf_onData : OnData q.lat.name (logicalOf key q dh dw) := by
  cases key
  · exact logX_onData
  · exact logZ_onData

theorem OnData.away {n n' : Str} {B : Op} (hB : OnData n B) (h : Far n n') : Away n' B :=
  ⟨fun i l => hB _ (fun j => h.data j i) l, fun l => hB _ (fun j => h.anc j) l⟩

/-- Syndrome qubits. -/
theorem away_syn {n n' : Str} (h : n = n' ∨ Far n n') (j : Nat) : Away n' (opZ (mzQ n j)) ∧ Away n' (opZ (mxQ n j)) := by
  have key : ∀ x : Qubit, (∀ i, dataQ n' i ≠ x) → ancQ n' ≠ x → Away n' (opZ x) := fun x h1 h2 =>
    ⟨fun i l => letter_comm (h1 i).symm .Z l, fun l => letter_comm h2.symm .Z l⟩
  rcases h with rfl | h
  · exact ⟨key _ (dataQ_ne_mzQ j) (ancQ_ne_mz j), key _ (dataQ_ne_mxQ j) (ancQ_ne_mx j)⟩
  · exact ⟨key _ (fun i e => h "mz".toList "data".toList (congrArg Qubit.reg e.symm)) fun e => h "mz".toList "ancilla".toList (congrArg Qubit.reg e.symm),
      key _ (fun i e => h "mx".toList "data".toList (congrArg Qubit.reg e.symm)) fun e => h "mx".toList "ancilla".toList (congrArg Qubit.reg e.symm)⟩

theorem SynZero.keep {n : Str} {φ φ' : QState} (h : SynZero n dh dw φ.psi)
    (hz : ∀ j : Nat, HasValue (opZ (mzQ n j)) false φ.psi → HasValue (opZ (mzQ n j)) false φ'.psi)
    (hx : ∀ j : Nat, HasValue (opZ (mxQ n j)) false φ.psi → HasValue (opZ (mxQ n j)) false φ'.psi) : SynZero n dh dw φ'.psi :=
  ⟨fun j hj => isZero_value.2 (hz j (isZero_value.1 (h.1 j hj))), fun j hj => isZero_value.2 (hx j (isZero_value.1 (h.2 j hj)))⟩

/-! ### One qubit -/

/-- What becomes of the value of a logical operator. -/
def Spec.QOp.turn (out : Bool) (v : Option Bool) : Key → QOp → Option Bool
  | .Z, .resetZ => some false
  | .Z, .resetX => none
  | .Z, .x => v.map not
  | .Z, .readoutZ _ => some (v.getD out)
  | .Z, .readoutX _ => none
  | .X, .resetX => some false
  | .X, .resetZ => none
  | .X, .z => v.map not
  | .X, .readoutX _ => some (v.getD out)
  | .X, .readoutZ _ => none
  | _, _ => v

/-- What becomes of the value of a logical operator, without use of what was known before a readout. -/
def Spec.QOp.turn0 (out : Bool) (v : Option Bool) : Key → QOp → Option Bool
  | .Z, .resetZ => some false
  | .Z, .resetX => none
  | .Z, .x => v.map not
  | .Z, .readoutZ _ => some out
  | .Z, .readoutX _ => none
  | .X, .resetX => some false
  | .X, .resetZ => none
  | .X, .z => v.map not
  | .X, .readoutX _ => some out
  | .X, .readoutZ _ => none
  | _, _ => v

/-- The name of the last register. -/
def lastName (l : List Reg) : Str := (l.getLast?.map Reg.name).getD []

theorem Spec.Reads.value {n r : Str} {L : Op} {φ φ' : QState} (h : Reads n L r 1 φ φ') (hL : L * L = 1) (hn : ∀ l : Letter, Commute L (l.op (ancQ n))) :
    HasValue L (φ'.mem ⟨r, 0⟩) φ'.psi := by
  obtain ⟨c, m, e, -, e'⟩ := h
  rw [e, e', writeReg_mem Nat.one_pos]
  exact (hasValue_proj hL m _).of_comm (clear_comm (hn .X) m)

theorem Spec.Reads.outcome {n r : Str} {L : Op} {φ φ' : QState} (h : Reads n L r 1 φ φ') (hn : ∀ l : Letter, Commute L (l.op (ancQ n))) {v : Bool}
    (hv : HasValue L v φ.psi) : φ'.mem ⟨r, 0⟩ = v := by
  obtain ⟨c, m, e, h0, e'⟩ := h
  rw [e', writeReg_mem Nat.one_pos]
  refine (hv.of_comm (clear_opP_comm hn c)).outcome (m := m) fun h => ?_
  rw [Module.End.mul_apply] at h
  rw [h, map_zero] at e
  exact h0 e

theorem anc_logical {code : Code} {n : Str} : (∀ l : Letter, Commute (logX code n dh dw) (l.op (ancQ n))) ∧ ∀ l : Letter, Commute (logZ code n dw) (l.op (ancQ n)) :=
  ⟨logX_comm_letter dataQ_ne_ancQ, logZ_comm_letter dataQ_ne_ancQ⟩

/-- The operation that reads in a basis. -/
def readsIn : Key → QOp
  | .X => .readoutX none
  | .Z => .readoutZ none

theorem Eff.outcome {new : List Reg} {φ φ' : QState} (E : Eff q dh dw new φ φ' (readsIn key)) (hc : q.lat.code = q.cls.code) {v : Bool}
    (hv : HasValue (logicalOf key q dh dw) v φ.psi) : φ'.mem ⟨lastName new, 0⟩ = v := by
  cases key
  · obtain ⟨r, E, rfl⟩ := E
    have e : logicalOf .X q dh dw = logX q.lat.code q.lat.name dh dw := by rw [hc]; rfl
    rw [e] at hv
    exact E.outcome anc_logical.1 hv
  · obtain ⟨r, E, rfl⟩ := E
    have e : logicalOf .Z q dh dw = logZ q.lat.code q.lat.name dw := by rw [hc]; rfl
    rw [e] at hv
    exact E.outcome (anc_logical (dh := dh)).2 hv

theorem Eff.value0 {new : List Reg} {φ φ' : QState} {o : QOp} (E : Eff q dh dw new φ φ' o) (H : OddPos dh dw) (hc : q.lat.code = q.cls.code)
    {v : Option Bool} (hv : ∀ u, v = some u → HasValue (logicalOf key q dh dw) u φ.psi) {u : Bool}
    (hu : Spec.QOp.turn0 (φ'.mem ⟨lastName new, 0⟩) v key o = some u) : HasValue (logicalOf key q dh dw) u φ'.psi := by
  have eX : logicalOf .X q dh dw = logX q.lat.code q.lat.name dh dw := by rw [hc]; rfl
  have eZ : logicalOf .Z q dh dw = logZ q.lat.code q.lat.name dw := by rw [hc]; rfl
  have keep : ∀ B : Op, Commute (logicalOf key q dh dw) B → v = some u → HasValue (logicalOf key q dh dw) u (B φ.psi) :=
    fun B hB h => (hv u h).of_comm hB
  have flip : ∀ B : Op, Passes true (logicalOf key q dh dw) B → v.map not = some u → HasValue (logicalOf key q dh dw) u (B φ.psi) := by
    intro B hB h
    obtain ⟨u', h', rfl⟩ := Option.map_eq_some_iff.1 h
    have := (hv u' h').passes hB
    rwa [Bool.xor_true] at this
  have xz := logX_logZ (code := q.lat.code) (name := q.lat.name) H
  have string : ∀ {key' : Key}, Prepares q.lat.code q.lat.name dh dw key' φ φ' → HasValue (logicalOf key' q dh dw) false φ'.psi := by
    intro key' hp
    cases key'
    · rw [eX, logX_eq]; exact hp.string fun i hi => mem_allQubits.2 (col_range H i hi)
    · rw [eZ, logZ_eq]; exact hp.string fun i hi => mem_allQubits.2 (row_range H i hi)
  cases key <;> cases o
  all_goals first
    | exact E.elim
    | (obtain ⟨rfl, -⟩ := E; first
        | (exact hv u hu)
        | (rw [eX] at keep ⊢; exact keep _ (Commute.refl _) hu)
        | (rw [eZ] at keep ⊢; exact keep _ (Commute.refl _) hu)
        | (rw [eX] at flip ⊢; exact flip _ xz hu)
        | (rw [eZ] at flip ⊢; exact flip _ xz.symm hu))
    | (cases hu; exact string E.1)
    | (cases hu; done)
    | (obtain ⟨r, m, e, -, -⟩ := E; rw [e]; first
        | (rw [eX] at keep ⊢; exact keep _ (jointProj_comm (fun A hA => logX_checks H hA) m) hu)
        | (rw [eZ] at keep ⊢; exact keep _ (jointProj_comm (fun A hA => logZ_checks H hA) m) hu))
    | (rename_i r; cases r
       · obtain ⟨r, E, rfl⟩ := E
         cases hu
         first
          | (rw [eX]; exact E.value (logX_sq H) anc_logical.1)
          | (rw [eZ]; exact E.value logZ_sq (anc_logical (dh := dh)).2)
       · exact E.elim)

/-- What becomes of the logical values. -/
theorem Eff.value {new : List Reg} {φ φ' : QState} {o : QOp} (E : Eff q dh dw new φ φ' o) (H : OddPos dh dw) (hc : q.lat.code = q.cls.code)
    {v : Option Bool} (hv : ∀ u, v = some u → HasValue (logicalOf key q dh dw) u φ.psi) {u : Bool}
    (hu : Spec.QOp.turn (φ'.mem ⟨lastName new, 0⟩) v key o = some u) : HasValue (logicalOf key q dh dw) u φ'.psi := by
  refine E.value0 H hc hv ?_
  by_cases e : o = readsIn key
  · subst e
    have same : v.getD (φ'.mem ⟨lastName new, 0⟩) = φ'.mem ⟨lastName new, 0⟩ := by
      cases v with
      | none => rfl
      | some u' => exact (E.outcome hc (hv u' rfl)).symm
    rw [← hu]
    cases key <;> exact congrArg some same.symm
  · rw [← hu]
    cases key <;> cases o <;> first
      | rfl
      | (rename_i r
         cases r
         · exact absurd rfl e
         · exact E.elim)

end Qtc
