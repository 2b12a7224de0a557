import Verif.Proof.QFault
/-!
The two codes are the same up to Hadamard gates on every second data qubit.
-/
namespace Qtc
open Spec Function

variable {cls cls' : QClass} {q q' : TQubit} {dh dw : Int} {ops ops' : List QOp} {w w' : World} {sz : Str → Nat} {code : Code} {name : Str}

/-! ### The operator -/

theorem turns_prod {l : List Qubit} (hn : l.Nodup) : (l.map opH).prod = circOp (turns l) := by
  induction l with
  | nil => rfl
  | cons x l ih =>
    rw [List.nodup_cons] at hn
    have c : Commute (opH x) (circOp (turns l)) := turns_comm fun y hy =>
      ⟨(Commute.hadamard (letter_comm (by rintro rfl; exact hn.1 hy) .X .X) (letter_comm (by rintro rfl; exact hn.1 hy) .X .Z)).symm,
       (Commute.hadamard (letter_comm (by rintro rfl; exact hn.1 hy) .Z .X) (letter_comm (by rintro rfl; exact hn.1 hy) .Z .Z)).symm⟩
    rw [List.map_cons, List.prod_cons, turns_cons, ih hn.2, c.eq]

theorem halfTurn_eq : halfTurn name dh dw = frame .xzzx name dh dw .Z := by
  have := turns_prod (dataQ_nodup (name := name) (all_nodup (dh := dh) (dw := dw) |>.filter fun i => decide (i % 2 = 0)) fun i hi => all_nonneg i (List.mem_of_mem_filter hi))
  rw [List.map_map] at this
  exact this

theorem halfTurn_sq : halfTurn name dh dw * halfTurn name dh dw = 1 := by rw [halfTurn_eq]; exact frame_sq .Z

theorem turns_split {l : List Qubit} (hn : l.Nodup) (f : Qubit → Bool) :
    circOp (turns (l.filter f)) * circOp (turns (l.filter fun x => !f x)) = circOp (turns l) := by
  induction l with
  | nil => exact one_mul 1
  | cons x l ih =>
    rw [List.nodup_cons] at hn
    have c : ∀ g : Qubit → Bool, Commute (opH x) (circOp (turns (l.filter g))) := fun g => turns_comm fun y hy => by
      have hy := List.mem_of_mem_filter hy
      exact ⟨(Commute.hadamard (letter_comm (by rintro rfl; exact hn.1 hy) .X .X) (letter_comm (by rintro rfl; exact hn.1 hy) .X .Z)).symm,
       (Commute.hadamard (letter_comm (by rintro rfl; exact hn.1 hy) .Z .X) (letter_comm (by rintro rfl; exact hn.1 hy) .Z .Z)).symm⟩
    rw [turns_cons, ← ih hn.2]
    by_cases h : f x
    · rw [List.filter_cons_of_pos h, List.filter_cons_of_neg (by simp [h]), turns_cons, mul_assoc, (c _).eq, mul_assoc]
    · rw [List.filter_cons_of_neg h, List.filter_cons_of_pos (by simp [h]), turns_cons, mul_assoc]

/-- The frames of the two codes. -/
theorem frame_halfTurn (key : Key) : frame .xzzx name dh dw key * halfTurn name dh dw = frame .xxzz name dh dw key := by
  cases key
  · rw [halfTurn_eq]
    have := turns_split (l := (allQubits dh dw).map (dataQ name)) dataQs_nodup fun x => decide (x.idx % 2 = 1)
    rw [List.filter_map, List.filter_map] at this
    show circOp (turns (dataOdd name dh dw)) * circOp (turns (dataEven name dh dw)) = circOp (turns (dataQs name dh dw))
    rw [show circOp (turns (dataQs name dh dw)) = _ from this.symm]
    congr 3
    · refine congrArg (List.map (dataQ name)) ?_
      refine List.filter_congr fun i hi => ?_
      have := all_nonneg i hi
      rw [comp_apply, decide_eq_decide]
      show _ ↔ i.toNat % 2 = 1
      omega
    · refine congrArg (List.map (dataQ name)) ?_
      refine List.filter_congr fun i hi => ?_
      have := all_nonneg i hi
      rw [comp_apply, ← decide_not, decide_eq_decide]
      show _ ↔ ¬ i.toNat % 2 = 1
      omega
  · rw [halfTurn_eq, frame_sq]
    rfl

theorem halfTurn_comm {A : Op} (h : ∀ i ∈ allQubits dh dw, Commute A (opX (dataQ name i)) ∧ Commute A (opZ (dataQ name i))) :
    Commute A (halfTurn name dh dw) := by
  rw [halfTurn_eq]
  refine turns_comm fun x hx => ?_
  obtain ⟨i, hi, rfl⟩ := List.mem_map.1 hx
  exact h i (List.mem_of_mem_filter hi)

theorem halfTurn_letter {x : Qubit} (h : ∀ i, dataQ name i ≠ x) (a : Letter) : Commute (a.op x) (halfTurn name dh dw) :=
  halfTurn_comm fun i _ => ⟨letter_comm (h i).symm a .X, letter_comm (h i).symm a .Z⟩

theorem halfTurn_anc (v : Bool) : Commute (halfTurn name dh dw) (clear v (ancQ name)) :=
  clear_comm (halfTurn_letter dataQ_ne_ancQ .X).symm v

theorem halfTurn_ancP (v : Bool) : Commute (halfTurn name dh dw) (opP v (ancQ name)) :=
  Commute.opP (halfTurn_letter dataQ_ne_ancQ .Z).symm v

theorem halfTurn_fop (key : Key) {i : Int} (hi : i ∈ allQubits dh dw) :
    halfTurn name dh dw * fop .xxzz key name i = fop .xzzx key name i * halfTurn name dh dw := by
  have hm := mem_filter_data (name := name) (f := fun i => decide (i % 2 = 0)) all_nonneg hi
  have hn : ((List.filter (fun i => decide (i % 2 = 0)) (allQubits dh dw)).map (dataQ name)).Nodup :=
    dataQ_nodup (all_nodup.filter _) fun i hi => all_nonneg i (List.mem_of_mem_filter hi)
  rw [halfTurn_eq]
  unfold frame turned turnedZ fop
  by_cases h : i % 2 = 0
  · have hk : kind .xzzx key i = (kind .xxzz key i).swap := by cases key <;> simp [kind, h, Letter.swap]
    rw [hk]
    exact turns_swap hn (hm.2 (by simpa using h)) _
  · have hk : kind .xzzx key i = kind .xxzz key i := by cases key <;> simp [kind, h]
    rw [hk]
    exact (turns_letter (fun h' => h (by simpa using hm.1 h')) _).symm.eq

theorem halfTurn_fstr (key : Key) {l : List Int} (hl : ∀ i ∈ l, i ∈ allQubits dh dw) :
    halfTurn name dh dw * fstr .xxzz key name l = fstr .xzzx key name l * halfTurn name dh dw := by
  induction l with
  | nil => exact (mul_one _).trans (one_mul _).symm
  | cons i l ih =>
    rw [fstr_cons, fstr_cons, ← mul_assoc, halfTurn_fop key (hl i (by simp)), mul_assoc, ih fun j hj => hl j (by simp [hj]), mul_assoc]

theorem conj_of_swap {W A B : Op} (h2 : W * W = 1) (h : W * A = B * W) : B = W * A * W := by rw [h, mul_assoc, h2, mul_one]

theorem swap_symm {W A B : Op} (h2 : W * W = 1) (h : W * A = B * W) : W * B = A * W := by
  rw [conj_of_swap h2 h, mul_assoc, ← mul_assoc W W, h2, one_mul]

theorem halfTurn_check (H : OddPos dh dw) {key : Key} {p : Int × Int} (hp : SiteOf dh dw key p) :
    halfTurn name dh dw * checkOp .xxzz name dh dw key p = checkOp .xzzx name dh dw key p * halfTurn name dh dw := by
  rw [checkOp_eq H _ _ hp, checkOp_eq H _ _ hp]
  exact halfTurn_fstr key around_all

theorem halfTurn_logX (H : OddPos dh dw) : halfTurn name dh dw * logX .xxzz name dh dw = logX .xzzx name dh dw * halfTurn name dh dw := by
  rw [logX_eq, logX_eq]
  exact halfTurn_fstr .X (col_all H)

theorem halfTurn_logZ (H : OddPos dh dw) : halfTurn name dh dw * logZ .xxzz name dw = logZ .xzzx name dw * halfTurn name dh dw := by
  rw [logZ_eq, logZ_eq]
  exact halfTurn_fstr .Z (row_all H)

theorem swap_proj {W A B : Op} (h : W * A = B * W) (v : Bool) : W * projOf A v = projOf B v * W := by
  unfold projOf
  rw [mul_smul_comm, smul_mul_assoc, mul_add, add_mul, mul_smul_comm, smul_mul_assoc, h, mul_one, one_mul]

theorem swap_joint {W : Op} : ∀ {l l' : List Op}, List.Forall₂ (fun A B => W * A = B * W) l l' → ∀ m : Nat → Bool,
    W * jointProj l m = jointProj l' m * W := by
  intro l l' h
  induction h with
  | nil => intro m; exact (mul_one _).trans (one_mul _).symm
  | @cons A B l l' h _ ih =>
    intro m
    show W * (projOf A (m 0) * jointProj l fun k => m (k + 1)) = projOf B (m 0) * jointProj l' (fun k => m (k + 1)) * W
    rw [← mul_assoc, swap_proj h, mul_assoc, ih, mul_assoc]

theorem halfTurn_joint (H : OddPos dh dw) (m : Nat → Bool) :
    halfTurn name dh dw * jointProj (checks .xxzz name dh dw) m = jointProj (checks .xzzx name dh dw) m * halfTurn name dh dw := by
  refine swap_joint ?_ m
  unfold checks
  refine List.rel_append ?_ ?_
  · rw [List.forall₂_map_left_iff, List.forall₂_map_right_iff, List.forall₂_same]
    exact fun p hp => halfTurn_check H (key := .Z) (mem_zSites.1 hp)
  · rw [List.forall₂_map_left_iff, List.forall₂_map_right_iff, List.forall₂_same]
    exact fun p hp => halfTurn_check H (key := .X) (mem_xSites.1 hp)

theorem halfTurn_ne {ψ : Psi} : halfTurn name dh dw ψ ≠ 0 ↔ ψ ≠ 0 :=
  ⟨fun h e => h (by rw [e, map_zero]), fun h => ne_zero_of_sq halfTurn_sq h⟩

theorem halfTurn_inj {ψ φ : Psi} (h : halfTurn name dh dw ψ = halfTurn name dh dw φ) : ψ = φ := by
  have := congrArg (halfTurn name dh dw) h
  rwa [← Module.End.mul_apply, ← Module.End.mul_apply, halfTurn_sq] at this

theorem halfTurn_synZero {ψ : Psi} (h : SynZero name dh dw ψ) : SynZero name dh dw (halfTurn name dh dw ψ) :=
  h.of_comm (fun k => (halfTurn_letter (dataQ_ne_mzQ k) .Z).symm) fun k => (halfTurn_letter (dataQ_ne_mxQ k) .Z).symm

/-! ### Readouts -/

theorem halfTurn_reads {L L' : Op} (h : halfTurn name dh dw * L' = L * halfTurn name dh dw) {r : Str} {n : Nat} {s s' : QState} :
    Reads name L r n s s' ↔
      Reads name L' r n ⟨halfTurn name dh dw s.psi, s.mem⟩ ⟨halfTurn name dh dw s'.psi, s'.mem⟩ := by
  have h' := swap_symm halfTurn_sq h
  have key : ∀ c m, halfTurn name dh dw * (clear m (ancQ name) * projOf L m * clear c (ancQ name) * opP c (ancQ name)) =
      clear m (ancQ name) * projOf L' m * clear c (ancQ name) * opP c (ancQ name) * halfTurn name dh dw := by
    intro c m
    rw [mul_assoc, mul_assoc, mul_assoc, mul_assoc, mul_assoc, ← (halfTurn_ancP c).eq, ← mul_assoc (clear c _), ← (halfTurn_anc c).eq,
      mul_assoc (halfTurn name dh dw), ← mul_assoc (projOf L' m), ← swap_proj h' m, ← mul_assoc, (halfTurn_anc m).eq]
    simp only [mul_assoc]
  rw [reads_eq, reads_eq]
  refine exists_congr fun c => exists_congr fun m => ?_
  rw [halfTurn_ne]
  refine and_congr ⟨fun e => ?_, fun e => halfTurn_inj (name := name) (dh := dh) (dw := dw) ?_⟩ Iff.rfl
  · simp only
    rw [e]
    exact congrArg (fun F : Op => F s.psi) (key c m)
  · exact e.trans (congrArg (fun F : Op => F s.psi) (key c m)).symm

/-! ### Counters -/

theorem readout_heap {o : QOp} (ho : o = .readoutX none ∨ o = .readoutZ none) {t : Int} (O : Own q.lat dh dw t w)
    (a : Int) (ha : (w.heap q.lat.pref).numReadout = some a) :
    (q.op o w).2.heap q.lat.pref = (w.heap q.lat.pref).withReadout (a + 1) := by
  have S := O.placed.shaped
  obtain ⟨a', h1, h2, h3⟩ := O.readout
  rw [ha] at h1
  cases h1
  have hf := h3 (a + 1) (by omega)
  rcases ho with rfl | rfl
  · have := (good_run (f := fun r => do
      q.lat.readoutXIntoAncilla
      measure q.lat.ancilla.qubits r.clbits
      barrier) (readoutReg_run ha hf) (S.good_readoutXIntoAncilla.bind fun _ _ =>
        (S.good_measAnc (E := fun _ => False) (C := fun _ => True) (K := fun _ _ => False) fun _ _ => trivial).bind fun _ _ => good_barrier trivial)).1
    exact (congrFun this.heap _).trans (by rw [World.addC_heap, World.setP_heap_self])
  · have := (good_run (f := fun r => do
      q.lat.readoutZIntoAncilla
      measure q.lat.ancilla.qubits r.clbits
      barrier) (readoutReg_run ha hf) (S.good_readoutZIntoAncilla.bind fun _ _ =>
        (S.good_measAnc (E := fun _ => False) (C := fun _ => True) (K := fun _ _ => False) fun _ _ => trivial).bind fun _ _ => good_barrier trivial)).1
    exact (congrFun this.heap _).trans (by rw [World.addC_heap, World.setP_heap_self])

theorem twins_count (A : After cls q dh dw ops w) (A' : After cls' q' dh dw ops' w') (T : Twins q w q' w') :
    ops.count .stabilize = ops'.count .stabilize := by
  have h := T.2.1
  rw [A.own.2.T, A'.own.2.T] at h
  simp only [Option.some.injEq] at h
  omega

theorem quiet_heap (A : After cls q dh dw ops w) {o : QOp} (hq : o.quiet = true) (hs : o ≠ .stabilize) :
    (q.op o w).2.heap q.lat.pref = w.heap q.lat.pref := congrFun (good_quiet A.own.2.placed.shaped hq hs w).1.heap _

theorem twins_next (A : After cls q dh dw ops w) (A' : After cls' q' dh dw ops' w') (T : Twins q w q' w') {o : QOp}
    (hg : Gentle .xzzx dh dw o) : Twins q (q.op o w).2 q' (q'.op o w').2 := by
  have quiet : o.quiet = true → o ≠ .stabilize → Twins q (q.op o w).2 q' (q'.op o w').2 := by
    intro h1 h2
    unfold Twins
    rw [quiet_heap A h1 h2, quiet_heap A' h1 h2]
    exact T
  have read : (o = .readoutX none ∨ o = .readoutZ none) → Twins q (q.op o w).2 q' (q'.op o w').2 := by
    intro ho
    obtain ⟨a, ha, -⟩ := A.own.2.readout
    have ha' := ha
    rw [T.2.2.1] at ha'
    unfold Twins
    rw [readout_heap ho A.own.2 a ha, readout_heap ho A'.own.2 a ha']
    exact ⟨T.1, T.2.1, rfl, T.2.2.2⟩
  cases o with
  | stabilize =>
    have h1 : (q.op .stabilize w).2 = _ := congrArg Prod.snd A.own.2.stabilize_run
    have h2 : (q'.op .stabilize w').2 = _ := congrArg Prod.snd A'.own.2.stabilize_run
    unfold Twins
    rw [h1, h2, World.emit_heap, World.addC_heap, World.setP_heap_self, World.emit_heap, World.addC_heap, World.setP_heap_self]
    refine ⟨T.1, ?_, T.2.2.1, T.2.2.2⟩
    show some _ = some _
    rw [twins_count A A' T]
  | id => exact quiet rfl (by simp)
  | idData => exact quiet rfl (by simp)
  | x => exact quiet rfl (by simp)
  | z => exact quiet rfl (by simp)
  | xCIf r v => exact quiet rfl (by simp)
  | zCIf r v => exact quiet rfl (by simp)
  | readoutX r =>
    cases r with
    | none => exact read (Or.inl rfl)
    | some r => cases hg
  | readoutZ r =>
    cases r with
    | none => exact read (Or.inr rfl)
    | some r => cases hg
  | resetX => cases hg
  | resetZ => cases hg
  | cx c t => cases hg
  | latticeReadoutX => cases hg
  | latticeReadoutZ => cases hg
  | entangleX => cases hg
  | entangleZ => cases hg

theorem twins_reset (A : After cls q dh dw ops w) (A' : After cls' q' dh dw ops' w') (T : Twins q w q' w') {o : QOp}
    (ho : o = .resetX ∨ o = .resetZ) : Twins q (q.op o w).2 q' (q'.op o w').2 := by
  have h1 : o.quiet = true := by rcases ho with rfl | rfl <;> rfl
  have h2 : o ≠ .stabilize := by rcases ho with rfl | rfl <;> simp
  unfold Twins
  rw [quiet_heap A h1 h2, quiet_heap A' h1 h2]
  exact T

theorem twins_all {l : List QOp} (A : After cls q dh dw ops w) (A' : After cls' q' dh dw ops' w') (T : Twins q w q' w')
    (hg : ∀ o ∈ l, Gentle .xzzx dh dw o) : Twins q (q.ops l w) q' (q'.ops l w') := by
  induction l generalizing ops ops' w w' with
  | nil => exact T
  | cons o l ih => exact ih (A.next o) (A'.next o) (twins_next A A' T (hg o (by simp))) fun o ho => hg o (by simp [ho])

theorem twins_readout (T : Twins q w q' w') : nextReadout q w = nextReadout q' w' := by
  unfold nextReadout
  rw [T.1, T.2.2.1]

theorem twins_lattice (T : Twins q w q' w') : nextLattice q w = nextLattice q' w' := by
  unfold nextLattice
  rw [T.1, T.2.2.2]

/-! ### Executions -/

theorem halfTurn_op (A : After .xzzx q dh dw ops w) (A' : After cls' q' dh dw ops' w') (hc : cls' ≠ .xzzx) (T : Twins q w q' w') {o : QOp}
    (hg : Gentle .xzzx dh dw o) {s s' : QState} (h0 : s.psi ≠ 0) (hs : SynZero q.lat.name dh dw s.psi) :
    Run sz (added q o w) s s' ↔ Run sz (added q' o w')
      ⟨halfTurn q.lat.name dh dw s.psi, s.mem⟩ ⟨halfTurn q.lat.name dh dw s'.psi, s'.mem⟩ := by
  have H := A.own.2.placed.odd
  have hcode := xzzx_code hc
  have hn := T.1
  have h0' : halfTurn q.lat.name dh dw s.psi ≠ 0 := halfTurn_ne.2 h0
  have ext : ∀ {s s' : QState}, s = s' ↔ s.psi = s'.psi ∧ s.mem = s'.mem := by
    intro s s'
    obtain ⟨a, b⟩ := s
    obtain ⟨c, d⟩ := s'
    simp
  have keep : s' = s ↔ (⟨halfTurn q.lat.name dh dw s'.psi, s'.mem⟩ : QState) = ⟨halfTurn q.lat.name dh dw s.psi, s.mem⟩ := by
    rw [ext, ext]
    exact and_congr ⟨fun e => by rw [e], fun e => halfTurn_inj e⟩ Iff.rfl
  have gate : ∀ {G G' : Op}, halfTurn q.lat.name dh dw * G' = G * halfTurn q.lat.name dh dw → (s' = ⟨G s.psi, s.mem⟩ ↔
      (⟨halfTurn q.lat.name dh dw s'.psi, s'.mem⟩ : QState) = ⟨G' (halfTurn q.lat.name dh dw s.psi), s.mem⟩) := by
    intro G G' h
    have e2 : G' (halfTurn q.lat.name dh dw s.psi) = halfTurn q.lat.name dh dw (G s.psi) :=
      (congrArg (fun F : Op => F s.psi) (swap_symm halfTurn_sq h)).symm
    rw [ext, ext]
    refine and_congr ?_ Iff.rfl
    simp only
    rw [e2]
    exact ⟨fun e => by rw [e], fun e => halfTurn_inj e⟩
  cases o with
  | stabilize =>
    rw [run_stabilize A h0 hs, run_stabilize A' h0' (hn ▸ halfTurn_synZero hs), hcode, ← hn, twins_count A A' T]
    refine exists_congr fun m => ?_
    have e2 : jointProj (checks .xxzz q.lat.name dh dw) m (halfTurn q.lat.name dh dw s.psi) =
        halfTurn q.lat.name dh dw (jointProj (checks QClass.xzzx.code q.lat.name dh dw) m s.psi) :=
      (congrArg (fun F : Op => F s.psi) (swap_symm halfTurn_sq (halfTurn_joint H m))).symm
    simp only
    rw [e2, halfTurn_ne]
    exact and_congr ⟨fun e => by rw [e], fun e => halfTurn_inj e⟩ Iff.rfl
  | id => rw [run_id A, run_id A']; exact keep
  | idData => rw [run_idData A, run_idData A']; exact keep
  | x =>
    rw [run_x A, run_x A', hcode, ← hn]
    exact gate (halfTurn_logX H)
  | z =>
    rw [run_z A, run_z A', hcode, ← hn]
    exact gate (halfTurn_logZ H)
  | xCIf r v =>
    rw [run_xCIf A hg, run_xCIf A' hg, hcode, ← hn]
    simp only
    split
    · exact gate (halfTurn_logX H)
    · exact keep
  | zCIf r v =>
    rw [run_zCIf A hg, run_zCIf A' hg, hcode, ← hn]
    simp only
    split
    · exact gate (halfTurn_logZ H)
    · exact keep
  | readoutX r =>
    cases r with
    | none =>
      rw [run_readoutX A hg h0, run_readoutX A' (Or.inl hc) h0', hcode, ← hn, ← twins_readout T]
      exact halfTurn_reads (halfTurn_logX H)
    | some r => cases hg
  | readoutZ r =>
    cases r with
    | none =>
      rw [run_readoutZ A hg h0, run_readoutZ A' (Or.inl hc) h0', hcode, ← hn, ← twins_readout T]
      exact halfTurn_reads (halfTurn_logZ H)
    | some r => cases hg
  | resetX => cases hg
  | resetZ => cases hg
  | cx c t => cases hg
  | latticeReadoutX => cases hg
  | latticeReadoutZ => cases hg
  | entangleX => cases hg
  | entangleZ => cases hg

theorem halfTurn_prepares {key : Key} {s s' : QState} :
    Prepares .xzzx name dh dw key s s' ↔ Prepares .xxzz name dh dw key s ⟨halfTurn name dh dw s'.psi, s'.mem⟩ := by
  unfold Prepares
  refine exists_congr fun o => ?_
  have hc : Commute (frame .xzzx name dh dw key) (halfTurn name dh dw) := by
    rw [halfTurn_eq]
    cases key
    · refine turns_comm fun x hx => ?_
      obtain ⟨i, hi, rfl⟩ := List.mem_map.1 hx
      have : dataQ name i ∉ turned .xzzx name dh dw .X := fun h => by
        have h1 := (mem_filter_data (name := name) (f := fun i => decide (i % 2 = 1)) all_nonneg (List.mem_of_mem_filter hi)).1 h
        have h2 := (List.mem_filter.1 hi).2
        simp only [decide_eq_true_eq] at h1 h2
        omega
      exact ⟨(turns_letter this .X).symm, (turns_letter this .Z).symm⟩
    · exact Commute.refl _
  simp only
  rw [halfTurn_ne, ← frame_halfTurn key, hc.eq, Module.End.mul_apply]
  exact and_congr ⟨fun e => by rw [e], fun e => halfTurn_inj e⟩ Iff.rfl

theorem Prepares.synZero {key : Key} {s s' : QState} (h : Prepares code name dh dw key s s') (hz : SynZero name dh dw s.psi) :
    SynZero name dh dw s'.psi := by
  obtain ⟨o, e, -, -⟩ := h
  have hB : OnData name (frame code name dh dw key * clears o (dataQs name dh dw)) := OnData.mul
    (fun x hx a => (frame_comm_letter key hx a).symm) fun x hx a => (clears_comm fun y hy => by
      obtain ⟨i, -, rfl⟩ := List.mem_map.1 hy
      exact ⟨letter_comm (hx i).symm a .X, letter_comm (hx i).symm a .Z⟩).symm
  rw [e]
  exact hB.synZero hz

theorem halfTurn_readsAll {key : Key} {r : Str} {s s' : QState} :
    ReadsAll .xzzx name dh dw key r s s' ↔ ReadsAll .xxzz name dh dw key r ⟨halfTurn name dh dw s.psi, s.mem⟩ s' := by
  unfold ReadsAll
  refine exists_congr fun m => ?_
  have hp : ∀ l : List Int, (∀ i ∈ l, i ∈ allQubits dh dw) →
      (l.map fun i => projOf (fop .xxzz key name i) (m i.toNat)).prod * halfTurn name dh dw =
        halfTurn name dh dw * (l.map fun i => projOf (fop .xzzx key name i) (m i.toNat)).prod := by
    intro l hl
    induction l with
    | nil => exact (one_mul _).trans (mul_one _).symm
    | cons i l ih =>
      rw [List.map_cons, List.prod_cons, List.map_cons, List.prod_cons, mul_assoc, ih fun j hj => hl j (by simp [hj]), ← mul_assoc,
        ← swap_proj (swap_symm halfTurn_sq (halfTurn_fop key (hl i (by simp)))), mul_assoc]
  have e : frame .xxzz name dh dw key * ((allQubits dh dw).map fun i => projOf (fop .xxzz key name i) (m i.toNat)).prod * halfTurn name dh dw =
      frame .xzzx name dh dw key * ((allQubits dh dw).map fun i => projOf (fop .xzzx key name i) (m i.toNat)).prod := by
    rw [mul_assoc, hp _ fun i h => h, ← frame_halfTurn key, ← mul_assoc, mul_assoc (frame .xzzx name dh dw key), halfTurn_sq, mul_one]
  have e2 := congrArg (fun F : Op => F s.psi) e
  simp only [Module.End.mul_apply] at e2
  simp only
  rw [e2]

end Qtc
