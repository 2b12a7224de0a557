import Verif.Proof.QStab
/-!
The operations of a qubit as quantum operations.
-/
namespace Qtc
open Spec Function

variable {cls : QClass} {q : TQubit} {dh dw : Int} {ops : List QOp} {w : World} {sz : Str → Nat}

/-! ### Added instructions -/

theorem added_eq {o : QOp} {is : List Instr} (h : (q.op o w).2.circ.instrs = w.circ.instrs ++ is) : added q o w = is := by
  unfold added
  rw [h, List.drop_left]

theorem Emits.added {o : QOp} {is : List Instr} (h : Emits w (q.op o) () is) : added q o w = is :=
  added_eq (by rw [h.run]; rfl)

theorem Spec.After.next (A : After cls q dh dw ops w) (o : QOp) : After cls q dh dw (ops ++ [o]) (q.op o w).2 := by
  obtain ⟨w0, w1, W, hf, B, rfl⟩ := A
  refine ⟨w0, w1, W, hf, B, ?_⟩
  unfold TQubit.ops
  rw [List.foldl_append]
  rfl

theorem Spec.After.instrs (A : After cls q dh dw ops w) (o : QOp) : (q.op o w).2.circ.instrs = w.circ.instrs ++ added q o w := by
  obtain ⟨W, O⟩ := A.own
  obtain ⟨new, e, -⟩ := (fine o W O).steps.instrs
  rw [e, added_eq e]

theorem proper_of_fits {c : Circ} {i : Instr} (h : InstrFits c i) : i.Proper := by
  cases i with
  | gate2 g a b => exact h.2.2
  | _ => trivial

theorem Spec.After.proper (A : After cls q dh dw ops w) (o : QOp) : ∀ i ∈ added q o w, i.Proper := by
  intro i hi
  refine proper_of_fits ((A.next o).own.1.fits i ?_)
  rw [A.instrs o]
  exact List.mem_append_right _ hi

theorem addedAll_nil : addedAll q [] w = [] := List.drop_length ..

theorem Spec.After.all_cons (A : After cls q dh dw ops w) (o : QOp) (l : List QOp) :
    addedAll q (o :: l) w = added q o w ++ addedAll q l (q.op o w).2 := by
  have A' := A.next o
  obtain ⟨W, O⟩ := A'.own
  obtain ⟨-, -, h⟩ := fine_ops l W O
  obtain ⟨new, e, -⟩ := h.instrs
  unfold addedAll
  rw [show q.ops (o :: l) w = q.ops l (q.op o w).2 from rfl, e, List.drop_left, A.instrs o, List.append_assoc, List.drop_left]

theorem Spec.After.all_next (A : After cls q dh dw ops w) (l : List QOp) : After cls q dh dw (ops ++ l) (q.ops l w) := by
  induction l generalizing ops w with
  | nil => rw [List.append_nil]; exact A
  | cons o l ih =>
    have := ih (A.next o)
    rw [List.append_assoc] at this
    exact this

theorem Spec.After.all_append (A : After cls q dh dw ops w) (l l' : List QOp) :
    addedAll q (l ++ l') w = addedAll q l w ++ addedAll q l' (q.ops l w) := by
  induction l generalizing ops w with
  | nil => rw [addedAll_nil]; rfl
  | cons o l ih =>
    rw [List.cons_append, A.all_cons, A.all_cons, ih (A.next o), List.append_assoc]
    rfl

theorem Spec.After.all_single (A : After cls q dh dw ops w) (o : QOp) : addedAll q [o] w = added q o w := by
  rw [A.all_cons, addedAll_nil, List.append_nil]

theorem Spec.After.run_cons (A : After cls q dh dw ops w) {o : QOp} {l : List QOp} {s s' : QState} :
    Run sz (addedAll q (o :: l) w) s s' ↔ ∃ t, Run sz (added q o w) s t ∧ Run sz (addedAll q l (q.op o w).2) t s' := by
  rw [A.all_cons, Run.append]

theorem Spec.After.run_append (A : After cls q dh dw ops w) {l l' : List QOp} {s s' : QState} :
    Run sz (addedAll q (l ++ l') w) s s' ↔ ∃ t, Run sz (addedAll q l w) s t ∧ Run sz (addedAll q l' (q.ops l w)) t s' := by
  rw [A.all_append, Run.append]

theorem Spec.After.ne_zero (A : After cls q dh dw ops w) {o : QOp} {s s' : QState} (h0 : s.psi ≠ 0) (h : Run sz (added q o w) s s') :
    s'.psi ≠ 0 := Run.ne_zero (A.proper o) h0 h

/-! ### Executions exist -/

theorem step_exists (i : Instr) (s : QState) (h0 : s.psi ≠ 0) : ∃ s', Step sz i s s' := by
  have hv : ∀ q, ∃ v, opP v q s.psi ≠ 0 := by
    intro q
    by_contra h
    push Not at h
    have e : opP false q s.psi + opP true q s.psi = s.psi := by
      rw [← LinearMap.add_apply, opP_projOf, opP_projOf, projOf_add]; rfl
    rw [h, h, add_zero] at e
    exact h0 e.symm
  cases i with
  | gate1 g q c =>
    rcases c with _ | ⟨r, v⟩
    · exact ⟨_, .gate1 g q s⟩
    · by_cases h : (regValue s.mem r (sz r) : Int) = v
      · exact ⟨_, .taken g q r v s h⟩
      · exact ⟨_, .skipped g q r v s h⟩
  | gate2 g a b => exact ⟨_, .gate2 g a b s⟩
  | measure q b =>
    obtain ⟨v, h⟩ := hv q
    exact ⟨_, .measure q b v s h⟩
  | reset q =>
    obtain ⟨v, h⟩ := hv q
    exact ⟨_, .reset q v s h⟩
  | barrier => exact ⟨_, .barrier s⟩

/-- There always is an execution. -/
theorem run_exists {l : List Instr} (hl : ∀ i ∈ l, i.Proper) (s : QState) (h0 : s.psi ≠ 0) : ∃ s', Run sz l s s' := by
  induction l generalizing s with
  | nil => exact ⟨s, rfl⟩
  | cons i l ih =>
    obtain ⟨t, ht⟩ := step_exists (sz := sz) i s h0
    obtain ⟨A, -, -, h1⟩ := (step_iff (hl i (by simp)) h0).1 ht
    obtain ⟨s', h⟩ := ih (fun i hi => hl i (by simp [hi])) t h1
    exact ⟨s', t, ht, h⟩

/-! ### Values of observables -/

theorem Spec.HasValue.of_comm {A B : Op} {v : Bool} {ψ : Psi} (h : HasValue A v ψ) (hB : Commute A B) : HasValue A v (B ψ) := by
  unfold HasValue at *
  rw [← Module.End.mul_apply, hB.eq, Module.End.mul_apply, h, map_smul]

theorem Spec.HasValue.passes {A B : Op} {v u : Bool} {ψ : Psi} (h : HasValue A v ψ) (hB : Passes u A B) : HasValue A (v ^^ u) (B ψ) := by
  unfold HasValue Passes at *
  rw [← Module.End.mul_apply, hB, LinearMap.smul_apply, Module.End.mul_apply, h, map_smul, smul_smul, sg_xor, mul_comm]

theorem Spec.HasValue.mul {A B : Op} {v u : Bool} {ψ : Psi} (h : HasValue A v ψ) (h' : HasValue B u ψ) : HasValue (A * B) (v ^^ u) ψ := by
  unfold HasValue at *
  rw [Module.End.mul_apply, h', map_smul, h, smul_smul, sg_xor, mul_comm]

theorem hasValue_one (ψ : Psi) : HasValue 1 false ψ := by
  unfold HasValue
  rw [sg_false, one_smul]; rfl

theorem hasValue_proj {A : Op} (h : A * A = 1) (v : Bool) (ψ : Psi) : HasValue A v (projOf A v ψ) := by
  unfold HasValue
  rw [← Module.End.mul_apply, mul_projOf h]; rfl

theorem Spec.HasValue.proj {A : Op} {v : Bool} {ψ : Psi} (h : HasValue A v ψ) (m : Bool) : projOf A m ψ = if m = v then ψ else 0 := by
  have e : projOf A m ψ = (1 / 2 : ℂ) • (ψ + sg m • A ψ) := rfl
  rw [e, h, smul_smul, ← sg_xor]
  cases m <;> cases v <;> simp
  · module
  · module

theorem hasValue_iff {A : Op} (hA : A * A = 1) {v : Bool} {ψ : Psi} : HasValue A v ψ ↔ projOf A v ψ = ψ := by
  constructor
  · intro h
    rw [h.proj, if_pos rfl]
  · intro h
    rw [← h]
    exact hasValue_proj hA v ψ

theorem Spec.HasValue.outcome {A : Op} {v m : Bool} {ψ : Psi} (h : HasValue A v ψ) (hne : projOf A m ψ ≠ 0) : m = v := by
  rw [h.proj] at hne
  by_contra e
  rw [if_neg e] at hne
  exact hne rfl

theorem Spec.HasValue.unique {A : Op} {v u : Bool} {ψ : Psi} (h : HasValue A v ψ) (h' : HasValue A u ψ) (h0 : ψ ≠ 0) : v = u := by
  unfold HasValue at *
  rw [h] at h'
  by_contra e
  have : (sg v - sg u) • ψ = 0 := by rw [sub_smul, h', sub_self]
  rcases smul_eq_zero.1 this with h | h
  · cases v <;> cases u
    · exact e rfl
    · rw [sg_false, sg_true] at h; norm_num at h
    · rw [sg_false, sg_true] at h; norm_num at h
    · exact e rfl
  · exact h0 h

/-! ### Gates -/

theorem run_gates {l : List Instr} (hl : ∀ i ∈ l, i.IsGate) {s s' : QState} :
    Run sz l s s' ↔ s' = ⟨circOp l s.psi, s.mem⟩ := by
  induction l generalizing s with
  | nil => exact Iff.rfl
  | cons i l ih =>
    have h1 : ∀ t, Step sz i s t ↔ t = ⟨gateOp i s.psi, s.mem⟩ := by
      intro t
      have hi := hl i (by simp)
      cases i with
      | gate1 g q c =>
        rcases c with _ | c
        · constructor
          · intro h; cases h; rfl
          · rintro rfl; exact .gate1 g q s
        · exact hi.elim
      | gate2 g a b =>
        constructor
        · intro h; cases h; rfl
        · rintro rfl; exact .gate2 g a b s
      | measure q b => exact hi.elim
      | reset q => exact hi.elim
      | barrier =>
        constructor
        · intro h; cases h; rfl
        · rintro rfl; exact .barrier s
    have ih' := fun {t : QState} => ih (fun i hi => hl i (by simp [hi])) (s := t)
    constructor
    · rintro ⟨t, h2, h3⟩
      rw [h1] at h2
      subst h2
      rw [ih'] at h3
      rw [h3, circOp_cons]; rfl
    · rintro rfl
      refine ⟨_, (h1 _).2 rfl, ih'.2 ?_⟩
      rw [circOp_cons]; rfl

theorem gateX_op (code : Code) (name : Str) (i : Int) (c : Option (Str × Int)) :
    gateOp (.gate1 (code.gateX i) (dataQ name i) c) = fop code .X name i := by
  cases code
  · rfl
  · unfold gateOp fop Code.gateX kind
    rw [fmod_pos_eq _ (by decide)]
    simp only
    split
    · next h => rw [if_neg (by omega)]; rfl
    · next h => rw [if_pos (by omega)]; rfl

theorem gateZ_op (code : Code) (name : Str) (i : Int) (c : Option (Str × Int)) :
    gateOp (.gate1 (code.gateZ i) (dataQ name i) c) = fop code .Z name i := by
  cases code
  · rfl
  · unfold gateOp fop Code.gateZ kind
    rw [fmod_pos_eq _ (by decide)]
    simp only
    split
    · rfl
    · rfl

theorem circOp_logical {code : Code} {key : Key} {name : Str} {g : Int → G1} {c : Option (Str × Int)}
    (hg : ∀ i, gateOp (.gate1 (g i) (dataQ name i) c) = fop code key name i) {is : List Int} (hi : ∀ i ∈ is, 0 ≤ i) :
    circOp (logicalInstrs g name c is) = fstr code key name is := by
  unfold logicalInstrs circOp
  rw [List.reverse_append, List.map_append, List.prod_append, ← List.map_reverse, List.map_map]
  have e : is.reverse.map (gateOp ∘ fun i => Instr.gate1 (g i) (dataQ name i) c) = is.reverse.map (fop code key name) :=
    List.map_congr_left fun i _ => hg i
  rw [e]
  show 1 * fstr code key name is.reverse = _
  rw [one_mul]
  exact (fstr_perm key hi (List.reverse_perm _).symm).symm

theorem logical_gates {g : Int → G1} {name : Str} {is : List Int} : ∀ i ∈ logicalInstrs g name none is, i.IsGate := by
  intro i hi
  rcases List.mem_append.1 hi with hi | hi
  · obtain ⟨j, -, rfl⟩ := List.mem_map.1 hi; trivial
  · rw [List.mem_singleton] at hi; subst hi; trivial

theorem run_x (A : After cls q dh dw ops w) {s s' : QState} :
    Run sz (added q .x w) s s' ↔ s' = ⟨logX cls.code q.lat.name dh dw s.psi, s.mem⟩ := by
  obtain ⟨W, O⟩ := A.own
  rw [Emits.added (o := .x) O.placed.emits_x, run_gates logical_gates,
    circOp_logical (fun i => gateX_op _ _ i none) (fun i hi => (col_range O.placed.odd i hi).1), logX_eq, A.code]

theorem run_z (A : After cls q dh dw ops w) {s s' : QState} :
    Run sz (added q .z w) s s' ↔ s' = ⟨logZ cls.code q.lat.name dw s.psi, s.mem⟩ := by
  obtain ⟨W, O⟩ := A.own
  rw [Emits.added (o := .z) O.placed.emits_z, run_gates logical_gates,
    circOp_logical (fun i => gateZ_op _ _ i none) (fun i hi => (row_range O.placed.odd i hi).1), logZ_eq, A.code]

theorem run_cond {g : Int → G1} {name : Str} {is : List Int} {r : Str} {v : Int} {s s' : QState} :
    Run sz (logicalInstrs g name (some (r, v)) is) s s' ↔
      s' = if (regValue s.mem r (sz r) : Int) = v then ⟨circOp (logicalInstrs g name none is) s.psi, s.mem⟩ else s := by
  unfold logicalInstrs
  induction is generalizing s with
  | nil =>
    constructor
    · rintro ⟨t, h1, rfl⟩
      cases h1
      split <;> rfl
    · intro h
      refine ⟨s, .barrier s, ?_⟩
      rw [h]
      split <;> rfl
  | cons i is ih =>
    have h1 : ∀ t, Step sz (.gate1 (g i) (dataQ name i) (some (r, v))) s t ↔
        t = if (regValue s.mem r (sz r) : Int) = v then ⟨gate1Op (g i) (dataQ name i) s.psi, s.mem⟩ else s := by
      intro t
      constructor
      · intro h
        cases h with
        | taken _ _ _ _ _ h => rw [if_pos h]
        | skipped _ _ _ _ _ h => rw [if_neg h]
      · rintro rfl
        by_cases h : (regValue s.mem r (sz r) : Int) = v
        · rw [if_pos h]; exact .taken _ _ _ _ _ h
        · rw [if_neg h]; exact .skipped _ _ _ _ _ h
    constructor
    · rintro ⟨t, h2, h3⟩
      replace h3 := ih.1 h3
      rw [h1] at h2
      by_cases h : (regValue s.mem r (sz r) : Int) = v
      · rw [if_pos h] at h2 ⊢
        subst h2
        rw [if_pos h] at h3
        rw [h3, List.map_cons, List.cons_append, circOp_cons]; rfl
      · rw [if_neg h] at h2 ⊢
        subst h2
        rw [if_neg h] at h3
        exact h3
    · intro e
      refine ⟨_, (h1 _).2 rfl, ih.2 ?_⟩
      rw [e]
      by_cases h : (regValue s.mem r (sz r) : Int) = v
      · simp only [if_pos h]
        rw [List.map_cons, List.cons_append, circOp_cons]; rfl
      · simp only [if_neg h]

theorem run_xCIf (A : After cls q dh dw ops w) {r : Str} {v : Int} (hv : 0 ≤ v) {s s' : QState} :
    Run sz (added q (.xCIf r v) w) s s' ↔
      s' = if (regValue s.mem r (sz r) : Int) = v then ⟨logX cls.code q.lat.name dh dw s.psi, s.mem⟩ else s := by
  obtain ⟨W, O⟩ := A.own
  rw [Emits.added (o := .xCIf r v) (O.placed.emits_xCIf r hv), run_cond,
    circOp_logical (fun i => gateX_op _ _ i none) (fun i hi => (col_range O.placed.odd i hi).1), logX_eq, A.code]

theorem run_zCIf (A : After cls q dh dw ops w) {r : Str} {v : Int} (hv : 0 ≤ v) {s s' : QState} :
    Run sz (added q (.zCIf r v) w) s s' ↔
      s' = if (regValue s.mem r (sz r) : Int) = v then ⟨logZ cls.code q.lat.name dw s.psi, s.mem⟩ else s := by
  obtain ⟨W, O⟩ := A.own
  rw [Emits.added (o := .zCIf r v) (O.placed.emits_zCIf r hv), run_cond,
    circOp_logical (fun i => gateZ_op _ _ i none) (fun i hi => (row_range O.placed.odd i hi).1), logZ_eq, A.code]

theorem run_ids {l : List Qubit} {s s' : QState} : Run sz (l.map (fun q => .gate1 .id q none) ++ [.barrier]) s s' ↔ s' = s := by
  have hg : ∀ i ∈ l.map (fun q => Instr.gate1 .id q none) ++ [.barrier], i.IsGate := by
    intro i hi
    rcases List.mem_append.1 hi with hi | hi
    · obtain ⟨j, -, rfl⟩ := List.mem_map.1 hi; trivial
    · rw [List.mem_singleton] at hi; subst hi; trivial
  rw [run_gates hg]
  have e : circOp (l.map (fun q => Instr.gate1 .id q none) ++ [.barrier]) = 1 := by
    clear hg
    induction l with
    | nil => exact one_mul _
    | cons q l ih => rw [List.map_cons, List.cons_append, circOp_cons, ih]; exact one_mul _
  rw [e]
  rfl

theorem run_idData (A : After cls q dh dw ops w) {s s' : QState} : Run sz (added q .idData w) s s' ↔ s' = s := by
  obtain ⟨W, O⟩ := A.own
  rw [Emits.added (o := .idData) O.placed.emits_idData, run_ids]

theorem run_id (A : After cls q dh dw ops w) {s s' : QState} : Run sz (added q .id w) s s' ↔ s' = s := by
  obtain ⟨W, O⟩ := A.own
  rw [Emits.added (o := .id) O.placed.emits_id]
  exact run_ids

/-! ### Stabilization -/

theorem added_stabilize (A : After cls q dh dw ops w) : added q .stabilize w =
    roundInstrs cls.code q.lat.name dh dw (roundName q.lat.name (ops.count .stabilize)) := by
  obtain ⟨w', h1, -, -, h2⟩ := C50_stabilize A
  refine added_eq ?_
  rw [h1, h2]
  unfold roundInstrs roundName
  rw [strInt_nat]

theorem run_stabilize (A : After cls q dh dw ops w) {s s' : QState} (h0 : s.psi ≠ 0) (hs : SynZero q.lat.name dh dw s.psi) :
    Run sz (added q .stabilize w) s s' ↔ ∃ m, s'.psi = jointProj (checks cls.code q.lat.name dh dw) m s.psi ∧ s'.psi ≠ 0 ∧
      s'.mem = writeReg s.mem (roundName q.lat.name (ops.count .stabilize)) ((xSites dh dw).length + (zSites dh dw).length) m := by
  have hp := A.proper .stabilize
  rw [added_stabilize A] at hp ⊢
  exact run_round A.own.2.placed.odd hp h0 hs

end Qtc
