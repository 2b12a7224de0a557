import Verif.Proof.QCnotRun
import Verif.Proof.QFault
import Verif.Props.Registers
/-!
Properties C65, C66 and C81: what `TopologicalCircuit.cx` does to quantum states.
-/
namespace Qtc
open Spec

variable {s s' : TState} {i j : Int} {c t : TQubit} {φ φ' : QState} {ch cw th tw : Int}

theorem Spec.CxRun.codes (R : CxRun s i j c t s' φ φ') : c.lat.code = c.cls.code ∧ t.lat.code = t.cls.code := by
  obtain ⟨ca, ta, ctype, p, pc, pt, -, -⟩ := R.call
  exact ⟨(R.fair.inv.held _ _ pc.1).code, (R.fair.inv.held _ _ pt.1).code⟩

/-- What `run_cnot` says about a call of `cx`. -/
theorem Spec.CxRun.facts (R : CxRun s i j c t s' φ φ') (hc : HasSize s c ch cw) (ht : HasSize s t th tw) :
    ∃ a, Worked s i j c t ch cw th tw φ φ' a ∧
    (∀ B v, Untouched (patchOf c ch cw) (patchOf t th tw) a ⟨helperQ, 0⟩ B → HasValue B v φ.psi → HasValue B v φ'.psi) ∧
    (∀ B v, Untouched (patchOf c ch cw) (patchOf t th tw) a ⟨helperQ, 0⟩ B → HasValue (B * (patchOf t th tw).Z) v φ.psi →
      HasValue (B * ((patchOf c ch cw).Z * (patchOf t th tw).Z)) v φ'.psi) ∧
    HasValue ((patchOf c ch cw).Z * opZ (ancQ c.lat.name)) false φ'.psi ∧ φ'.psi ≠ 0 := by
  obtain ⟨a, W⟩ := R.worked hc ht
  obtain ⟨sz, hsz, hr⟩ := W.run
  obtain ⟨h1, h2, h3⟩ := run_cnot W.sep W.proper (hsz _ (by decide)) (hsz _ (by decide)) (hsz _ (by decide)) R.possible hr
  exact ⟨a, W, h1, h2, h3, ((run_iff W.proper R.possible).1 hr).choose_spec.2.2⟩

theorem patch_Z {q : TQubit} {dh dw : Int} (h : q.lat.code = q.cls.code) : (patchOf q dh dw).Z = logZ q.cls.code q.lat.name dw := by
  rw [← h]; rfl

theorem patch_X {q : TQubit} {dh dw : Int} (h : q.lat.code = q.cls.code) : (patchOf q dh dw).X = logX q.cls.code q.lat.name dh dw := by
  rw [← h]; rfl

/-! ### C65 -/

/-- C65: with logical Z of control and target known before `cx`, that of the control is the same afterwards, that of the target is
the exclusive or of both, for every measurement outcome. -/
theorem C65_truth (R : CxRun s i j c t s' φ φ') (hc : HasSize s c ch cw) (ht : HasSize s t th tw) {x y : Bool}
    (hx : HasValue (logZ c.cls.code c.lat.name cw) x φ.psi) (hy : HasValue (logZ t.cls.code t.lat.name tw) y φ.psi) :
    HasValue (logZ c.cls.code c.lat.name cw) x φ'.psi ∧ HasValue (logZ t.cls.code t.lat.name tw) (x ^^ y) φ'.psi := by
  obtain ⟨ec, et⟩ := R.codes
  obtain ⟨a, W, h1, h2, -, -⟩ := R.facts hc ht
  rw [patch_Z ec, patch_Z et] at h2
  have k1 := h1 _ x (W.sep.untouched_c (patchOf c ch cw).Z_onData (Commute.refl _)) (by rw [patch_Z ec]; exact hx)
  rw [patch_Z ec] at k1
  have k2 := h2 1 y Untouched.one (by rw [one_mul]; exact hy)
  rw [one_mul] at k2
  refine ⟨k1, ?_⟩
  have := k1.mul k2
  rw [← mul_assoc, logZ_sq, one_mul] at this
  exact this

/-- C81: every plaquette of control and target that has a certain value before `cx` has the same value afterwards. -/
theorem C81_checks (R : CxRun s i j c t s' φ φ') (hc : HasSize s c ch cw) (ht : HasSize s t th tw) {v : Bool} {B : Op}
    (hB : B ∈ checks c.cls.code c.lat.name ch cw ∨ B ∈ checks t.cls.code t.lat.name th tw) (hv : HasValue B v φ.psi) : HasValue B v φ'.psi := by
  obtain ⟨ec, et⟩ := R.codes
  obtain ⟨a, W, h1, -, -, -⟩ := R.facts hc ht
  refine h1 B v ?_ hv
  rcases hB with hB | hB
  · refine W.sep.untouched_c (checks_onData W.Hc hB) ?_
    rw [patch_Z ec]
    exact (logZ_checks W.Hc hB).symm
  · have Ht : OddPos th tw := W.sep.Ht
    refine W.sep.untouched_t (checks_onData Ht hB) ?_
    rw [patch_X et]
    exact (logX_checks Ht hB).symm

theorem Spec.OnQubit.letter {n : Str} {B : Op} (h : OnQubit n B) {x : Qubit} (hx : Outside n x) (l : Letter) : Commute B (l.op x) :=
  h x (fun rest e => hx rest (by rw [e, List.append_assoc]; rfl)) l

theorem Far.outside {n n' : Str} (h : Far n n') (x : Str) (k : Nat) : Outside n ⟨n' ++ '_' :: x, k⟩ := fun y e => h y x e.symm

/-- C81: any other qubit of the register (that is not in the sub-register "ancilla") is left alone: every observable on its
registers, also products of several qubits, keeps its value. -/
theorem C81_others (R : CxRun s i j c t s' φ φ') (hc : HasSize s c ch cw) (ht : HasSize s t th tw) {k : Int} {q : TQubit}
    (hk : s.treg.find? k = some q) (hi : k ≠ i) (hj : k ≠ j)
    (ha : ∀ d, s.treg.tqubits.get? "ancilla".toList = some d → ∀ e ∈ d, (e.1 : Int) ≠ k) {v : Bool} {B : Op} (hB : OnQubit q.lat.name B)
    (hv : HasValue B v φ.psi) : HasValue B v φ'.psi := by
  obtain ⟨a, W, h1, -, -, -⟩ := R.facts hc ht
  obtain ⟨f1, f2, f3, f4⟩ := W.other k q hk hi hj ha
  have data : ∀ {n : Str}, Far q.lat.name n → ∀ i (l : Letter), Commute B (l.op (dataQ n i)) := fun f i l => hB.letter (f.outside "data".toList _) l
  have anc : ∀ {n : Str}, Far q.lat.name n → ∀ l : Letter, Commute B (l.op (ancQ n)) := fun f l => hB.letter (f.outside "ancilla".toList _) l
  refine h1 B v ⟨?_, ?_, data f3, hB.letter f4, anc f1, anc f3⟩ hv
  · unfold Patch.Z; rw [logZ_eq]; exact fstr_comm fun i _ => data f1 i _
  · unfold Patch.X; rw [logX_eq]; exact fstr_comm fun i _ => data f2 i _

/-! ### C66 -/

/-- C66, what is true of it: as for a CNOT, Z of the target becomes the product of both Z; Z of the control and X of the target
stay, also in their product. Missing: X of the control does not become the product of both X (`C66_false`). -/
theorem C66_z_partial (R : CxRun s i j c t s' φ φ') (hc : HasSize s c ch cw) (ht : HasSize s t th tw) {v : Bool} :
    (HasValue (logZ t.cls.code t.lat.name tw) v φ.psi →
      HasValue (logZ c.cls.code c.lat.name cw * logZ t.cls.code t.lat.name tw) v φ'.psi) ∧
    (HasValue (logZ c.cls.code c.lat.name cw * logZ t.cls.code t.lat.name tw) v φ.psi →
      HasValue (logZ t.cls.code t.lat.name tw) v φ'.psi) ∧
    (HasValue (logZ c.cls.code c.lat.name cw) v φ.psi → HasValue (logZ c.cls.code c.lat.name cw) v φ'.psi) ∧
    (HasValue (logX t.cls.code t.lat.name th tw) v φ.psi → HasValue (logX t.cls.code t.lat.name th tw) v φ'.psi) ∧
    (HasValue (logZ c.cls.code c.lat.name cw * logX t.cls.code t.lat.name th tw) v φ.psi →
      HasValue (logZ c.cls.code c.lat.name cw * logX t.cls.code t.lat.name th tw) v φ'.psi) := by
  obtain ⟨ec, et⟩ := R.codes
  obtain ⟨a, W, h1, h2, -, -⟩ := R.facts hc ht
  have uZ := W.sep.untouched_c (patchOf c ch cw).Z_onData (Commute.refl _)
  have uX := W.sep.untouched_t (patchOf t th tw).X_onData (Commute.refl _)
  have uZX := uZ.mul uX
  rw [patch_Z ec] at uZ uZX
  rw [patch_X et] at uX uZX
  rw [patch_Z ec, patch_Z et] at h2
  refine ⟨fun h => ?_, fun h => ?_, h1 _ v uZ, h1 _ v uX, h1 _ v uZX⟩
  · have := h2 1 v Untouched.one (by rw [one_mul]; exact h)
    rwa [one_mul] at this
  · have := h2 _ v uZ h
    rwa [← mul_assoc, logZ_sq, one_mul] at this

/-- C66 is false: after `cx`, in any state before, with any outcomes, X of the control has no certain value, and neither has the product
of X of control and target. (The ancilla of the control keeps a copy of its Z; a CNOT turns X of the control into that product.) -/
theorem C66_false (R : CxRun s i j c t s' φ φ') (hc : HasSize s c ch cw) (ht : HasSize s t th tw) (v : Bool) :
    ¬ HasValue (logX c.cls.code c.lat.name ch cw) v φ'.psi ∧
    ¬ HasValue (logX c.cls.code c.lat.name ch cw * logX t.cls.code t.lat.name th tw) v φ'.psi := by
  obtain ⟨ec, et⟩ := R.codes
  obtain ⟨a, W, -, -, h3, h0⟩ := R.facts hc ht
  have fix : ((patchOf c ch cw).Z * opZ (ancQ c.lat.name)) φ'.psi = φ'.psi := by
    have : _ = sg false • φ'.psi := h3
    rwa [sg_false, one_smul] at this
  have key : ∀ A : Op, Passes true A ((patchOf c ch cw).Z * opZ (ancQ c.lat.name)) → ¬ HasValue A v φ'.psi := by
    intro A hA h
    have h' := h.passes hA
    rw [fix] at h'
    have := h.unique h' h0
    cases v <;> cases this
  have pX : Passes true (patchOf c ch cw).X ((patchOf c ch cw).Z * opZ (ancQ c.lat.name)) := by
    have p1 : Passes true (patchOf c ch cw).X (patchOf c ch cw).Z := logX_logZ W.Hc
    have p2 : Commute (patchOf c ch cw).X (opZ (ancQ c.lat.name)) := (patchOf c ch cw).X_onData _ dataQ_ne_ancQ .Z
    exact p1.mul_right (passes_false.2 p2)
  rw [patch_X ec] at pX
  refine ⟨key _ pX, key _ ?_⟩
  have c1 : Commute (patchOf t th tw).X (patchOf c ch cw).Z := (patchOf t th tw).X_onData.Z_comm W.sep.ct.symm
  have c2 : Commute (patchOf t th tw).X (opZ (ancQ c.lat.name)) := (patchOf t th tw).X_onData _ (fun i => W.sep.ct.symm.anc i) .Z
  rw [patch_X et] at c1 c2
  exact pX.mul_left (passes_false.2 (c1.mul_right c2))

/-! ### Examples -/

/-- A repetition qubit and an XXZZ qubit. -/
def cxAdds : List TOp := [.addQubits "data".toList (some ["Repetition".toList, "XXZZ".toList]) (some [some 0, some 1])]

/-- See `cxAdds`. -/
def cxPair : TState := runOps cxAdds (TState.fresh "r".toList (oneSize (.tup [.int 3, .int 1])))

theorem cxPair_fair : FairState cxPair := by
  refine ⟨"r".toList, oneSize (.tup [.int 3, .int 1]), cxAdds, ⟨⟨List.nodup_nil, List.nodup_nil, ?_, ?_⟩, ?_⟩, ⟨?_, trivial⟩, rfl⟩
  · intro q hq; cases hq
  · intro i hi; cases hi
  · intro n hn; cases hn
  · intro p hp r hr
    refine ⟨?_, ?_⟩
    · subst hr
      rcases List.mem_cons.1 hp with h | h
      · cases h; decide
      · rcases List.mem_cons.1 h with h | h
        · cases h; decide
        · cases h
    · intro n hn
      rcases List.mem_cons.1 hn with h | h
      · subst h; decide
      · rcases List.mem_cons.1 h with h | h
        · subst h; decide
        · cases h

theorem cxPair_qubits : ∃ c t, cxPair.treg.find? 0 = some c ∧ cxPair.treg.find? 1 = some t ∧ HasSize cxPair c 3 1 ∧ HasSize cxPair t 3 1 ∧
    c.lat.name = "r_0".toList ∧ t.lat.name = "r_1".toList ∧ c.cls.code = .xxzz ∧ t.cls.code = .xxzz := by
  have h0 : (cxPair.treg.find? 0).map (fun q => (q.lat.pref, q.lat.name, q.cls.code)) = some (0, "r_0".toList, .xxzz) := by decide +kernel
  have h1 : (cxPair.treg.find? 1).map (fun q => (q.lat.pref, q.lat.name, q.cls.code)) = some (1, "r_1".toList, .xxzz) := by decide +kernel
  obtain ⟨c, hc, e⟩ := Option.map_eq_some_iff.1 h0
  obtain ⟨t, ht, e'⟩ := Option.map_eq_some_iff.1 h1
  simp only [Prod.mk.injEq] at e e'
  have d0 : (cxPair.world.heap 0).d = some (.tup [.int 3, .int 1]) := by decide +kernel
  have d1 : (cxPair.world.heap 1).d = some (.tup [.int 3, .int 1]) := by decide +kernel
  refine ⟨c, t, hc, ht, ⟨[], ?_⟩, ⟨[], ?_⟩, e.2.1, e'.2.1, e.2.2, e'.2.2⟩
  · rw [e.1]; exact d0
  · rw [e'.1]; exact d1

/-- On this pair `cx` succeeds and can be executed in every state. -/
theorem cxPair_run {φ : QState} (h : φ.psi ≠ 0) {c t : TQubit} (hc : cxPair.treg.find? 0 = some c) (ht : cxPair.treg.find? 1 = some t) :
    ∃ s' φ', CxRun cxPair 0 1 c t s' φ φ' := by
  have ok : (cxT (.idx 0) (.idx 1) none none cxPair).1 = .ok () := by decide +kernel
  have one : ∀ r ∈ (cxT (.idx 0) (.idx 1) none none cxPair).2.world.circ.cregs, r.size = 1 := by decide +kernel
  have hn : cxPair.treg.tqubits.get? "ancilla".toList = none := by
    have : (cxPair.treg.tqubits.get? "ancilla".toList).isNone = true := by decide +kernel
    exact Option.isNone_iff_eq_none.1 this
  have F := cxPair_fair.inv.cx (ca := .idx 0) (ta := .idx 1) (ctype := none) (p := none) trivial trivial (fun r hr => by cases hr)
  generalize hr : cxT (.idx 0) (.idx 1) none none cxPair = r at ok F one
  obtain ⟨r1, s'⟩ := r
  simp only at ok F one
  subst ok
  obtain ⟨φ', hφ⟩ := run_exists (sz := fun _ => 1)
    (l := s'.world.circ.instrs.drop cxPair.world.circ.instrs.length) (fun i hi => proper_of_fits (F.wf.fits i (List.mem_of_mem_drop hi))) φ h
  refine ⟨s', φ', cxPair_fair, ⟨.idx 0, .idx 1, none, none, ⟨hc, Or.inl rfl⟩, ⟨ht, Or.inl rfl⟩, (fun r hr => by cases hr), hr⟩, by decide, ?_, h, _, ?_, hφ⟩
  · intro d hd; rw [hn] at hd; cases hd
  · intro r hr
    exact (one r hr).symm

theorem ground_Z {name : Str} {dw : Int} : HasValue (logZ .xxzz name dw) false ground := by
  have one : ∀ x, HasValue (opZ x) false ground := by
    intro x
    funext c
    show sg (c x) * ground c = sg false * ground c
    by_cases h : c x = false
    · rw [h]
    · have : ground c = 0 := by unfold ground; rw [if_neg fun h' => h (h' x)]
      rw [this, mul_zero, mul_zero]
  have all : ∀ l : List (Letter × Qubit), (∀ e ∈ l, e.1 = .Z) → HasValue (pstr l) false ground := by
    intro l hl
    induction l with
    | nil => exact (by unfold HasValue; rw [sg_false, one_smul]; rfl)
    | cons e l ih =>
      have h1 := (one e.2).mul (ih fun e he => hl e (by simp [he]))
      have : pstr (e :: l) = opZ e.2 * pstr l := by
        unfold pstr
        rw [List.map_cons, List.prod_cons, hl e (by simp)]
        rfl
      rw [this]; exact h1
  refine all _ fun e he => ?_
  obtain ⟨i, -, rfl⟩ := List.mem_map.1 he
  rfl

/-- A control with value 1 turns the target from 0 to 1. -/
example : ∃ s' c t φ φ', CxRun cxPair 0 1 c t s' φ φ' ∧ HasValue (logZ .xxzz "r_1".toList 1) false φ.psi ∧
    HasValue (logZ .xxzz "r_0".toList 1) true φ'.psi ∧ HasValue (logZ .xxzz "r_1".toList 1) true φ'.psi := by
  obtain ⟨c, t, hc, ht, sc, st, nc, nt, kc, kt⟩ := cxPair_qubits
  have far : Far "r_1".toList "r_0".toList := fun x y e => absurd (qname_inj (R := "r".toList) (i := 1) (j := 0) e).1 (by decide)
  have v0 : HasValue (logZ .xxzz "r_0".toList 1) true (logX .xxzz "r_0".toList 3 1 ground) :=
    ground_Z.passes (logX_logZ (by unfold OddPos; decide)).symm
  have v1 : HasValue (logZ .xxzz "r_1".toList 1) false (logX .xxzz "r_0".toList 3 1 ground) :=
    ground_Z.of_comm (logZ_onData.X_comm (p := ⟨.xxzz, "r_0".toList, 3, 1⟩) far)
  have h0 : logX .xxzz "r_0".toList 3 1 ground ≠ 0 := by
    intro e
    have := congrArg (logX .xxzz "r_0".toList 3 1) e
    rw [← Module.End.mul_apply, logX_sq (by unfold OddPos; decide), map_zero] at this
    exact ground_ne_zero this
  obtain ⟨s', φ', R⟩ := cxPair_run (φ := ⟨_, fun _ => false⟩) h0 hc ht
  have := C65_truth R sc st (x := true) (y := false) (by rw [kc, nc]; exact v0) (by rw [kt, nt]; exact v1)
  rw [kc, nc, kt, nt] at this
  exact ⟨s', c, t, _, φ', R, v1, this⟩

/-- A control in state + and a target in state 0 become correlated in Z, but not in X. -/
example : ∃ s' c t φ φ', CxRun cxPair 0 1 c t s' φ φ' ∧ HasValue (logX .xxzz "r_0".toList 3 1) false φ.psi ∧
    HasValue (logZ .xxzz "r_1".toList 1) false φ.psi ∧
    HasValue (logZ .xxzz "r_0".toList 1 * logZ .xxzz "r_1".toList 1) false φ'.psi ∧
    ∀ v, ¬ HasValue (logX .xxzz "r_0".toList 3 1 * logX .xxzz "r_1".toList 3 1) v φ'.psi := by
  obtain ⟨c, t, hc, ht, sc, st, nc, nt, kc, kt⟩ := cxPair_qubits
  have far : Far "r_1".toList "r_0".toList := fun x y e => absurd (qname_inj (R := "r".toList) (i := 1) (j := 0) e).1 (by decide)
  have v0 : HasValue (logX .xxzz "r_0".toList 3 1) false (projOf (logX .xxzz "r_0".toList 3 1) false ground) := hasValue_proj (logX_sq (by unfold OddPos; decide)) false _
  have v1 : HasValue (logZ .xxzz "r_1".toList 1) false (projOf (logX .xxzz "r_0".toList 3 1) false ground) :=
    ground_Z.of_comm (Commute.proj (logZ_onData.X_comm (p := ⟨.xxzz, "r_0".toList, 3, 1⟩) far) _)
  have h0 : projOf (logX .xxzz "r_0".toList 3 1) false ground ≠ 0 := by
    intro e
    have e' : (logX .xxzz "r_0".toList 3 1) ground = sg true • ground := by
      unfold projOf at e
      simp only [LinearMap.smul_apply, LinearMap.add_apply, Module.End.one_apply, sg_false, one_smul] at e
      have := (smul_eq_zero.1 e).resolve_left (by norm_num)
      rw [sg_true, neg_smul, one_smul]
      exact eq_neg_of_add_eq_zero_right this
    have v' : HasValue (logX .xxzz "r_0".toList 3 1) true ground := e'
    have v2 := v'.passes (logX_logZ (dh := 3) (code := .xxzz) (dw := 1) (by unfold OddPos; decide))
    have fix : (logZ .xxzz "r_0".toList 1) ground = ground := by
      have : _ = sg false • ground := ground_Z (name := "r_0".toList) (dw := 1)
      rwa [sg_false, one_smul] at this
    rw [fix] at v2
    exact absurd (v'.unique v2 ground_ne_zero) (by decide)
  obtain ⟨s', φ', R⟩ := cxPair_run (φ := ⟨_, fun _ => false⟩) h0 hc ht
  have h1 := (C66_z_partial R sc st (v := false)).1 (by rw [kt, nt]; exact v1)
  have h2 := fun v => (C66_false R sc st v).2
  rw [kc, nc, kt, nt] at h1 h2
  exact ⟨s', c, t, _, φ', R, v0, v1, h1, h2⟩

end Qtc
