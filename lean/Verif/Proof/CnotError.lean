import Verif.Proof.QCnotRun
import Verif.Proof.QSpread
/-!
A logical CNOT with one error on its readout qubit.
-/
namespace Qtc
open Spec Function

variable {sz : Str → Nat}

/-- The instruction has nothing to do with the classical register `r`. -/
def Instr.Without (r : Str) : Instr → Prop
  | .gate1 _ _ (some (r', _)) => r' ≠ r
  | .measure _ b => b.reg ≠ r
  | _ => True

theorem regValue_update {m : Mem} {b : Clbit} {v : Bool} {r : Str} (h : r ≠ b.reg) (n : Nat) : regValue (update m b v) r n = regValue m r n := by
  induction n with
  | zero => rfl
  | succ n ih => rw [regValue, regValue, ih, update_of_ne (by rintro rfl; exact h rfl)]

/-- Instructions that have nothing to do with a register do the same whatever it holds. -/
theorem run_without {l : List Instr} {b : Clbit} (hl : ∀ i ∈ l, i.Without b.reg) (v : Bool) {s s' : QState} (h : Run sz l s s') :
    Run sz l ⟨s.psi, update s.mem b v⟩ ⟨s'.psi, update s'.mem b v⟩ := by
  induction l generalizing s with
  | nil =>
    obtain rfl : s' = s := h
    rfl
  | cons i l ih =>
    obtain ⟨t, h1, h2⟩ := h
    have hi := hl i List.mem_cons_self
    refine ⟨⟨t.psi, update t.mem b v⟩, ?_, ih (fun j hj => hl j (List.mem_cons_of_mem _ hj)) h2⟩
    cases h1 with
    | gate1 g q => exact .gate1 g q _
    | taken g q r u _ h => exact .taken g q r u ⟨_, _⟩ (by rw [regValue_update hi]; exact h)
    | skipped g q r u _ h => exact .skipped g q r u ⟨_, _⟩ (by rw [regValue_update hi]; exact h)
    | gate2 g a c => exact .gate2 g a c _
    | measure q c u _ h =>
      have hne : b ≠ c := by rintro rfl; exact hi rfl
      rw [update_comm hne.symm]
      exact .measure q c u ⟨s.psi, update s.mem b v⟩ h
    | reset q u _ h => exact .reset q u ⟨_, _⟩ h
    | barrier => exact .barrier _

theorem run_without_mem {l : List Instr} {b : Clbit} (hl : ∀ i ∈ l, i.Without b.reg) {s s' : QState} (h : Run sz l s s') : s'.mem b = s.mem b := by
  induction l generalizing s with
  | nil =>
    obtain rfl : s' = s := h
    rfl
  | cons i l ih =>
    obtain ⟨t, h1, h2⟩ := h
    have hi := hl i List.mem_cons_self
    rw [ih (fun j hj => hl j (List.mem_cons_of_mem _ hj)) h2]
    cases h1 with
    | measure q c u _ h => exact update_of_ne (by rintro rfl; exact hi rfl) _ _
    | _ => rfl

/-- A reset does not see a flip before it. -/
theorem run_flip_reset {l : List Instr} {x : Qubit} {ψ : Psi} {m : Mem} {s' : QState} (h : Run sz (.reset x :: l) ⟨opX x ψ, m⟩ s') :
    Run sz (.reset x :: l) ⟨ψ, m⟩ s' := by
  obtain ⟨t, h1, h2⟩ := h
  cases h1 with
  | reset _ v _ h0 =>
    have e : opP v x (opX x ψ) = opX x (opP (!v) x ψ) := by
      rw [← Module.End.mul_apply, opP_X, Module.End.mul_apply]
    have e' : clear v x (opP v x (opX x ψ)) = clear (!v) x (opP (!v) x ψ) := by
      rw [e, ← Module.End.mul_apply, clear_X]
    refine ⟨_, .reset x (!v) ⟨ψ, m⟩ (fun h => h0 ?_), by simpa only [e'] using h2⟩
    show opP v x (opX x ψ) = 0
    rw [e, show opP (!v) x ψ = 0 from h, map_zero]

theorem run_flip_measure {x : Qubit} {b : Clbit} {s t : QState} (h : Run sz [.gate1 .x x none, .measure x b] s t) :
    ∃ v ψ, t.psi = opX x ψ ∧ t.mem = update s.mem b v ∧ Run sz [.measure x b] s ⟨ψ, update s.mem b (!v)⟩ := by
  obtain ⟨t1, h1, t2, h2, rfl⟩ := h
  cases h1
  cases h2 with
  | measure _ _ v _ h0 =>
    have e : opP v x (opX x s.psi) = opX x (opP (!v) x s.psi) := by
      rw [← Module.End.mul_apply, opP_X, Module.End.mul_apply]
    refine ⟨v, opP (!v) x s.psi, e, rfl, _, .measure x b (!v) s fun h => h0 ?_, rfl⟩
    show opP v x (opX x s.psi) = 0
    rw [e, h, map_zero]

/-- The part of a logical CNOT before the first measurement. -/
def cnotBefore (c a : Patch) (x : Qubit) : List Instr :=
  resetXInstrs a.code a.name a.dh a.dw ++
    ([.reset x] ++ (intoAncillaZ c.code c.name c.dh c.dw ++ [.gate2 .cx c.anc x]) ++ (intoAncillaZ a.code a.name a.dh a.dw ++ [.gate2 .cx a.anc x]))

/-- The part after it, up to the corrections that depend on it. -/
def cnotMiddle (c t a : Patch) (x : Qubit) : List Instr :=
  xxInstrs t a x ⟨"m2".toList, 0⟩ ++ readInstrs (intoAncillaZ a.code a.name a.dh a.dw) a.name ⟨"m3".toList, 1⟩ ++
    logicalInstrs c.code.gateZ c.name (some ("m2".toList, 1)) (rowQubits c.dw 0)

/-- The corrections that depend on it, and the last ones. -/
def cnotLast (t : Patch) : List Instr :=
  logicalInstrs t.code.gateX t.name (some ("m1".toList, 1)) (colQubits t.dh t.dw 0) ++
    logicalInstrs t.code.gateX t.name (some ("m3".toList, 1)) (colQubits t.dh t.dw 0)

theorem cnot_split (c t a : Patch) (x : Qubit) :
    cnotInstrs c t a x = cnotBefore c a x ++ ([.measure x ⟨"m1".toList, 0⟩] ++ (cnotMiddle c t a x ++ cnotLast t)) := by
  unfold cnotInstrs cnotBefore cnotMiddle cnotLast zzInstrs
  simp only [List.append_assoc]

theorem without_gate {i : Instr} (h : i.IsGate) (r : Str) : i.Without r := by
  rcases i with ⟨g, q, _ | ⟨r', v⟩⟩ | _ | _ | _ | _ <;> trivial

theorem middle_without (c t a : Patch) (x : Qubit) : ∀ i ∈ cnotMiddle c t a x, i.Without "m1".toList := by
  obtain ⟨l, hl, hC⟩ := into_copiesZ (code := a.code) (name := a.name) (dh := a.dh) (dw := a.dw)
  intro i hi
  unfold cnotMiddle xxInstrs readInstrs logicalInstrs at hi
  simp only [List.mem_append, List.mem_cons, List.not_mem_nil, or_false, List.mem_map] at hi
  rcases hi with ((((((hi | hi) | hi) | hi) | hi) | hi) | ((hi | ⟨b, hb, hi⟩) | hi)) | (⟨j, -, hi⟩ | hi)
  · subst hi; trivial
  · subst hi; trivial
  · exact without_gate (cxInstrs_gates i hi) _
  · exact without_gate (cxInstrs_gates i hi) _
  · subst hi; trivial
  · subst hi; show "m2".toList ≠ "m1".toList; decide
  · rw [hl] at hi
    rcases List.mem_cons.1 hi with hi | hi
    · subst hi; trivial
    · exact without_gate (hC.1 i hi) _
  · subst hi
    obtain ⟨k, -, rfl⟩ := List.mem_map.1 hb
    show "m3".toList ≠ "m1".toList; decide
  · subst hi; trivial
  · subst hi; show "m2".toList ≠ "m1".toList; decide
  · subst hi; trivial

theorem run_condX_exists {p : Patch} {r : Str} (s : QState) :
    ∃ s', Run sz (logicalInstrs p.code.gateX p.name (some (r, 1)) (colQubits p.dh p.dw 0)) s s' := ⟨_, run_cond.2 rfl⟩

/-- A logical CNOT in which the readout qubit is flipped before the first measurement does what one without error may do, and flips the target. -/
theorem run_cnot_struck {c t a : Patch} {x : Qubit} (Ht : OddPos t.dh t.dw) (h1 : sz "m1".toList = 1) (h3 : sz "m3".toList = 1) {s s' : QState}
    (hR : Run sz (cnotBefore c a x ++ (.gate1 .x x none :: .measure x ⟨"m1".toList, 0⟩ :: (cnotMiddle c t a x ++ cnotLast t))) s s') :
    ∃ s'', Run sz (cnotInstrs c t a x) s s'' ∧ s'.psi = t.X s''.psi ∧ s'.mem = update s''.mem ⟨"m1".toList, 0⟩ (!s''.mem ⟨"m1".toList, 0⟩) := by
  rw [show cnotBefore c a x ++ (.gate1 .x x none :: .measure x ⟨"m1".toList, 0⟩ :: (cnotMiddle c t a x ++ cnotLast t)) =
    cnotBefore c a x ++ ([.gate1 .x x none, .measure x ⟨"m1".toList, 0⟩] ++ (cnotMiddle c t a x ++ cnotLast t)) from rfl] at hR
  obtain ⟨s1, r1, hR⟩ := Run.append.1 hR
  obtain ⟨s2, r2, hR⟩ := Run.append.1 hR
  obtain ⟨s3, r3, r4⟩ := Run.append.1 hR
  obtain ⟨v, ψ, e1, e2, q2⟩ := run_flip_measure r2
  obtain ⟨l, hl⟩ : ∃ l, cnotMiddle c t a x = .reset x :: l := ⟨_, rfl⟩
  have r3' : Run sz (cnotMiddle c t a x) ⟨ψ, s2.mem⟩ s3 := by
    rw [hl] at r3 ⊢
    refine run_flip_reset ?_
    rw [← e1]; exact r3
  have q3 := run_without (b := ⟨"m1".toList, 0⟩) (middle_without c t a x) (!v) r3'
  have hm2 : update s2.mem ⟨"m1".toList, 0⟩ (!v) = update s1.mem ⟨"m1".toList, 0⟩ (!v) := by rw [e2, update_idem]
  rw [hm2] at q3
  have w1 : s3.mem ⟨"m1".toList, 0⟩ = v := by rw [run_without_mem (middle_without c t a x) r3, e2, update_self]
  obtain ⟨s4, r4, r5⟩ := Run.append.1 r4
  obtain ⟨u4, q4⟩ := run_condX_exists (sz := sz) (p := t) (r := "m1".toList) ⟨s3.psi, update s3.mem ⟨"m1".toList, 0⟩ (!v)⟩
  obtain ⟨u5, q5⟩ := run_condX_exists (sz := sz) (p := t) (r := "m3".toList) u4
  obtain ⟨m4, k4⟩ := run_condX Ht h1 r4
  obtain ⟨m5, k5⟩ := run_condX Ht h3 r5
  obtain ⟨m4', k4'⟩ := run_condX Ht h1 q4
  obtain ⟨m5', k5'⟩ := run_condX Ht h3 q5
  have sq : ∀ ψ, t.X (t.X ψ) = ψ := fun ψ => by
    rw [← Module.End.mul_apply, show t.X * t.X = 1 from logX_sq Ht]; rfl
  have ne : (⟨"m3".toList, 0⟩ : Clbit) ≠ ⟨"m1".toList, 0⟩ := by decide
  have w3 : u4.mem ⟨"m3".toList, 0⟩ = s4.mem ⟨"m3".toList, 0⟩ := by rw [m4', m4]; exact update_of_ne ne (!v) s3.mem
  refine ⟨u5, ?_, ?_, ?_⟩
  · rw [cnot_split]
    exact Run.append.2 ⟨s1, r1, Run.append.2 ⟨_, q2, Run.append.2 ⟨_, q3, Run.append.2 ⟨_, q4, q5⟩⟩⟩⟩
  · have d4 : s4.psi = t.X u4.psi := by
      rw [k4, k4', w1]
      show _ = t.X (if update s3.mem ⟨"m1".toList, 0⟩ (!v) ⟨"m1".toList, 0⟩ then t.X s3.psi else s3.psi)
      rw [update_self]
      cases v
      · exact (sq _).symm
      · rfl
    rw [k5, k5', w3, d4]
    cases s4.mem ⟨"m3".toList, 0⟩ <;> rfl
  · rw [m5, m4, m5', m4']
    dsimp only
    rw [update_self, update_idem, Bool.not_not, ← w1, update_eq_self]

/-! ### Where the first measurement is -/

theorem split_unique {α : Type} {a : α} {l l' m m' : List α} (h1 : a ∉ l) (h2 : a ∉ l') (h : l ++ a :: l' = m ++ a :: m') : l = m ∧ l' = m' := by
  induction l generalizing m with
  | nil =>
    cases m with
    | nil => exact ⟨rfl, (List.cons.inj h).2⟩
    | cons b m => exact absurd (by rw [(List.cons.inj h).2]; simp) h2
  | cons b l ih =>
    cases m with
    | nil => exact absurd (by rw [(List.cons.inj h).1]; simp) h1
    | cons b' m =>
      obtain ⟨e1, e2⟩ := List.cons.inj h
      obtain ⟨f1, f2⟩ := ih (fun h => h1 (List.mem_cons_of_mem _ h)) e2
      exact ⟨by rw [e1, f1], f2⟩

theorem before_free (c a : Patch) (x y : Qubit) (b : Clbit) : Instr.measure y b ∉ cnotBefore c a x := by
  have into : ∀ p : Patch, Instr.measure y b ∉ intoAncillaZ p.code p.name p.dh p.dw := by
    intro p h
    obtain ⟨l, hl, hC⟩ := into_copiesZ (code := p.code) (name := p.name) (dh := p.dh) (dw := p.dw)
    rw [hl] at h
    rcases List.mem_cons.1 h with h | h
    · cases h
    · exact hC.1 _ h
  intro h
  unfold cnotBefore at h
  simp only [List.mem_append, List.mem_cons, List.not_mem_nil, or_false, reduceCtorEq, into, or_self] at h
  unfold resetXInstrs at h
  generalize a.code = k at h
  cases k <;> simp at h

theorem after_free (c t a : Patch) (x y : Qubit) : Instr.measure y ⟨"m1".toList, 0⟩ ∉ cnotMiddle c t a x ++ cnotLast t := by
  intro h
  rcases List.mem_append.1 h with h | h
  · exact middle_without c t a x _ h rfl
  · unfold cnotLast logicalInstrs at h
    simp at h

variable {s s' : TState} {i j : Int} {c t : TQubit} {φ φ' : QState} {ch cw th tw : Int}

/-- A call of `cx` adds the instructions of a logical CNOT. -/
theorem cx_closed (fair : FairState s)
    (call : ∃ ca ta ctype p, Points s ca i c ∧ Points s ta j t ∧ GivenDict s p ∧ cxT ca ta ctype p s = (.ok (), s'))
    (hc : HasSize s c ch cw) (ht : HasSize s t th tw) :
    ∃ a, OddPos th tw ∧ (∀ n ∈ helperC, ⟨n, 1⟩ ∈ s'.world.circ.cregs) ∧ WellFormed s'.world.circ ∧
      s'.world.circ.instrs = s.world.circ.instrs ++ cnotInstrs (patchOf c ch cw) (patchOf t th tw) a ⟨helperQ, 0⟩ := by
  have F := fair.inv
  obtain ⟨ca, ta, ctype, p, pc, pt, hp, hcall⟩ := call
  rcases F.cxFound (kt := j) pc.1 pc.index pt.index (ctype := ctype) hp with ⟨e, h, -⟩ | ⟨kind, b, d, ka, a, he, G, hd, hm, hf, hr⟩
  · rw [hcall] at h; cases h
  have fc := G.keep _ _ pc.1
  have ft := G.keep _ _ pt.1
  have hb : cxBody c t a b = (.ok (), s') := hr.symm.trans hcall
  have Fb := G.inv
  obtain ⟨ah, aw, Pa⟩ := (Fb.held _ _ hf).placed
  obtain ⟨h1, h2, P1⟩ := (F.held _ _ pc.1).placed
  obtain ⟨h3, h4, P2⟩ := (F.held _ _ pt.1).placed
  have Pc := G.sized (F.held _ _ pc.1).ref (P1.sized hc) ⟨i, fc⟩
  have Pt := G.sized (F.held _ _ pt.1).ref (P2.sized ht) ⟨j, ft⟩
  have out : ∀ k q, b.treg.find? k = some q → Outside q.lat.name ⟨helperQ, 0⟩ := by
    intro k q h y e
    rw [(Fb.held k q h).name] at e
    exact helper_ne (Or.inr rfl) e
  obtain ⟨-, -, hi, hC⟩ := cxBody_closed Fb.ready Pc Pt Pa (out _ _ fc) (out _ _ ft) (out _ _ hf) hb
  have Fs : FInv s' := by
    have := (Fb.cxBody fc ft hf).2
    rw [hb] at this
    exact this
  exact ⟨patchOf a ah aw, Pt.odd, hC, Fs.wf, by rw [hi, G.instrs]⟩

end Qtc
