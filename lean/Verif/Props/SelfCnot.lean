import Verif.Spec.SelfCnot
import Verif.Props.QuantumCnot
/-!
C116: a logical CNOT of a qubit with itself.
-/
namespace Qtc
open Spec Function

variable {sz : Str → Nat} {s s' : TState} {i : Int} {c : TQubit} {φ φ' : QState} {ch cw : Int}

theorem run_cnot_self {c a : Patch} {x : Qubit} (Hc : OddPos c.dh c.dw) (Ha : OddPos a.dh a.dw) (ca : Far c.name a.name)
    (oc : Outside c.name x) (oa : Outside a.name x) (hp : ∀ i ∈ cnotInstrs c c a x, i.Proper)
    (h1 : sz "m1".toList = 1) (h2 : sz "m2".toList = 1) (h3 : sz "m3".toList = 1) {s s' : QState} (h0 : s.psi ≠ 0)
    (hR : Run sz (cnotInstrs c c a x) s s') :
    HasValue c.Z false s'.psi ∧ ∀ B v, OnData c.name B → Commute B c.Z → Commute B c.X → HasValue B v s.psi → HasValue B v s'.psi := by
  unfold cnotInstrs at hR hp
  simp only [List.mem_append, or_imp, forall_and] at hp
  obtain ⟨⟨⟨⟨⟨⟨p1, p2⟩, p3⟩, p4⟩, p5⟩, p6⟩, p7⟩ := hp
  obtain ⟨s6, hR, r7⟩ := Run.append.1 hR
  obtain ⟨s5, hR, r6⟩ := Run.append.1 hR
  obtain ⟨s4, hR, r5⟩ := Run.append.1 hR
  obtain ⟨s3, hR, r4⟩ := Run.append.1 hR
  obtain ⟨s2, hR, r3⟩ := Run.append.1 hR
  obtain ⟨s1, r1, r2⟩ := Run.append.1 hR
  have n1 : s1.psi ≠ 0 := ((run_iff p1 h0).1 r1).choose_spec.2.2
  have n2 : s2.psi ≠ 0 := ((run_iff p2 n1).1 r2).choose_spec.2.2
  have n3 : s3.psi ≠ 0 := ((run_iff p3 n2).1 r3).choose_spec.2.2
  have k1 := (run_reset .X p1 h0).1 r1
  obtain ⟨b1, e2, k2, -, u2⟩ := run_zz p2 ca oc oa n1 r2
  obtain ⟨b2, e3, u3⟩ := run_xx p3 Hc Ha oc oa n2 r3
  obtain ⟨l, hl, hC⟩ := into_copiesZ (code := a.code) (name := a.name) (dh := a.dh) (dw := a.dw)
  obtain ⟨o, b3, k4, -, e4⟩ := (run_read hl hC (logZ_comm_letter dataQ_ne_ancQ .Z) Nat.one_pos p4 n3).1 r4
  obtain ⟨e5, k5⟩ := run_condZ h2 r5
  obtain ⟨e6, k6⟩ := run_condX Hc h1 r6
  obtain ⟨e7, k7⟩ := run_condX Hc h3 r7
  have w1 : s5.mem ⟨"m1".toList, 0⟩ = b1 := by
    rw [e5, e4, writeReg_other (by decide), e3, update_of_ne (by decide), e2, update_self]
  have w3 : s6.mem ⟨"m3".toList, 0⟩ = b3 := by
    rw [e6, e5, e4, writeReg_mem Nat.one_pos]
  rw [w1] at k6
  rw [w3] at k7
  have haZ : ∀ l : Letter, Commute a.Z (l.op a.anc) := fun l => a.Z_onData _ dataQ_ne_ancQ l
  have hcZ : ∀ {y : Qubit}, (∀ i, dataQ c.name i ≠ y) → ∀ l : Letter, Commute c.Z (l.op y) := fun h l => c.Z_onData _ h l
  have hcaZ : Commute c.Z a.Z := c.Z_onData.Z_comm ca
  have u4 : ∀ B v, (∀ l : Letter, Commute B (l.op a.anc)) → Commute B a.Z → HasValue B v s3.psi → HasValue B v s4.psi := by
    intro B v hB hZ hv
    rw [k4]
    exact ((hv.of_comm (clear_opP_comm hB o)).of_comm (Commute.proj hZ b3)).of_comm (clear_comm (hB .X) b3)
  have q4 : HasValue a.Z b3 s4.psi := by
    rw [k4]
    exact (hasValue_proj a.Z_sq b3 _).of_comm (clear_comm (haZ .X) b3)
  constructor
  · have cX : Commute (a.Z * c.Z) (a.X * c.X) := by
      have d1 : Passes (true ^^ false) (a.Z * c.Z) a.X := (Patch.Z_X Ha).mul_left (passes_false.2 (c.Z_onData.X_comm ca))
      have d2 : Passes (false ^^ true) (a.Z * c.Z) c.X := (passes_false.2 (a.Z_onData.X_comm ca.symm)).mul_left (Patch.Z_X Hc)
      exact passes_false.1 (d1.mul_right d2)
    have v3 := u3 _ _ (fun l => (a.Z_onData _ oa.data l).mul_left (hcZ oc.data l)) cX k2
    have v4 := u4 _ _ (fun l => (haZ l).mul_left (hcZ (fun i => ca.anc i) l)) ((Commute.refl _).mul_left hcaZ) v3
    have v4' := q4.mul v4
    rw [← mul_assoc, a.Z_sq, one_mul] at v4'
    have v5 : HasValue c.Z (b3 ^^ b1) s5.psi := by
      rw [k5]
      simpa using v4'.cond (passes_false.2 (Commute.refl c.Z))
    have v6 := v5.cond (m := b1) (Patch.Z_X Hc)
    rw [← k6] at v6
    have v7 := v6.cond (m := b3) (Patch.Z_X Hc)
    rw [← k7] at v7
    convert v7 using 1
    cases b1 <;> cases b3 <;> rfl
  · intro B v hB hZ hX hv
    have v1 := prepares_comm k1 (fun i l => hB _ (fun j => ca.data j i) l) hv
    have v2 := u2 B v (fun l => ⟨hB _ oc.data l, hB _ dataQ_ne_ancQ l, hB _ (fun i => ca.anc i) l⟩) hZ (hB.Z_comm ca) v1
    have v3 := u3 B v (hB _ oc.data) ((hB.X_comm ca).mul_right hX) v2
    have v4 := u4 B v (hB _ fun i => ca.anc i) (hB.Z_comm ca) v3
    have v5 : HasValue B v s5.psi := by rw [k5]; simpa using v4.cond (passes_false.2 hZ)
    have v6 : HasValue B v s6.psi := by rw [k6]; simpa using v5.cond (passes_false.2 hX)
    rw [k7]; simpa using v6.cond (passes_false.2 hX)

theorem Spec.SelfCx.facts (R : SelfCx s i c s' φ φ') (hc : HasSize s c ch cw) : OddPos ch cw ∧ HasValue (patchOf c ch cw).Z false φ'.psi ∧
    ∀ B v, OnData c.lat.name B → Commute B (patchOf c ch cw).Z → Commute B (patchOf c ch cw).X → HasValue B v φ.psi → HasValue B v φ'.psi := by
  obtain ⟨a, ⟨⟨h1, h2⟩, -, ⟨h4, -⟩, h6, -, h8⟩, -, h10, ⟨sz, h11, h12⟩, -⟩ :=
    cx_worked R.fair R.call (fun d hd e he => ⟨R.ancilla d hd e he, R.ancilla d hd e he⟩) R.run hc hc
  exact ⟨h1, run_cnot_self h1 h2 h4 h6 h8 h10 (h11 _ (by decide)) (h11 _ (by decide)) (h11 _ (by decide)) R.possible h12⟩

theorem Spec.SelfCx.code (R : SelfCx s i c s' φ φ') : c.lat.code = c.cls.code := by
  obtain ⟨ca, ta, ctype, p, pc, -⟩ := R.call
  exact (R.fair.inv.held _ _ pc.1).code

/-- C116: `cx` accepts the same qubit as control and target. Whatever its state before and whatever is measured, its logical Z then has the
value 0. -/
theorem C116_zero (R : SelfCx s i c s' φ φ') (hc : HasSize s c ch cw) : HasValue (logZ c.cls.code c.lat.name cw) false φ'.psi := by
  have := (R.facts hc).2.1
  rwa [patch_Z R.code] at this

/-- C116: the plaquettes keep their values. -/
theorem C116_checks (R : SelfCx s i c s' φ φ') (hc : HasSize s c ch cw) {v : Bool} {B : Op} (hB : B ∈ checks c.cls.code c.lat.name ch cw)
    (hv : HasValue B v φ.psi) : HasValue B v φ'.psi := by
  obtain ⟨H, -, h⟩ := R.facts hc
  refine h B v (checks_onData H hB) ?_ ?_ hv
  · rw [patch_Z R.code]
    exact (logZ_checks H hB).symm
  · rw [patch_X R.code]
    exact (logX_checks H hB).symm

/-- On the register of C65's examples the call is accepted, and can be executed in every state. -/
theorem C116_accepted {φ : QState} (h : φ.psi ≠ 0) {c : TQubit} (hc : cxPair.treg.find? 0 = some c) : ∃ s' φ', SelfCx cxPair 0 c s' φ φ' := by
  have ok : (cxT (.idx 0) (.idx 0) none none cxPair).1 = .ok () := by decide +kernel
  have one : ∀ r ∈ (cxT (.idx 0) (.idx 0) none none cxPair).2.world.circ.cregs, r.size = 1 := by decide +kernel
  have hn : cxPair.treg.tqubits.get? "ancilla".toList = none := by
    have : (cxPair.treg.tqubits.get? "ancilla".toList).isNone = true := by decide +kernel
    exact Option.isNone_iff_eq_none.1 this
  have F := cxPair_fair.inv.cx (ca := .idx 0) (ta := .idx 0) (ctype := none) (p := none) trivial trivial (fun r hr => by cases hr)
  generalize hr : cxT (.idx 0) (.idx 0) none none cxPair = r at ok F one
  obtain ⟨r1, s'⟩ := r
  simp only at ok F one
  subst ok
  obtain ⟨φ', hφ⟩ := run_exists (sz := fun _ => 1)
    (l := s'.world.circ.instrs.drop cxPair.world.circ.instrs.length) (fun i hi => proper_of_fits (F.wf.fits i (List.mem_of_mem_drop hi))) φ h
  refine ⟨s', φ', cxPair_fair, ⟨.idx 0, .idx 0, none, none, ⟨hc, Or.inl rfl⟩, ⟨hc, Or.inl rfl⟩, (fun r hr => by cases hr), hr⟩, ?_, h, _, ?_, hφ⟩
  · intro d hd; rw [hn] at hd; cases hd
  · intro r hr
    exact (one r hr).symm

/-- A qubit with value 1 has value 0 afterwards. -/
example : ∃ s' c φ φ', SelfCx cxPair 0 c s' φ φ' ∧ HasValue (logZ .xxzz "r_0".toList 1) true φ.psi ∧
    HasValue (logZ .xxzz "r_0".toList 1) false φ'.psi := by
  obtain ⟨c, t, hc, -, sc, -, nc, -, kc, -⟩ := cxPair_qubits
  have v0 : HasValue (logZ .xxzz "r_0".toList 1) true (logX .xxzz "r_0".toList 3 1 ground) :=
    ground_Z.passes (logX_logZ (by unfold OddPos; decide)).symm
  have h0 : logX .xxzz "r_0".toList 3 1 ground ≠ 0 := by
    intro e
    have := congrArg (logX .xxzz "r_0".toList 3 1) e
    rw [← Module.End.mul_apply, logX_sq (by unfold OddPos; decide), map_zero] at this
    exact ground_ne_zero this
  obtain ⟨s', φ', R⟩ := C116_accepted (φ := ⟨_, fun _ => false⟩) h0 hc
  have := C116_zero R sc
  rw [kc, nc] at this
  exact ⟨s', c, _, φ', R, v0, this⟩

end Qtc
