import Verif.Proof.OneQubit
/-!
Property C137: a lattice holds exactly one qubit.
-/
namespace Qtc
open Spec Function

variable {dh dw : Int} {code : Code} {name : Str} {e : Key → Int × Int → Bool} {ψ φ : Psi}

/-- C137: the values of the plaquettes and of the logical Z determine the state up to a factor. -/
theorem C137_unique_z (H : OddPos dh dw) (hψ : CodeState code name dh dw e ψ) (hφ : CodeState code name dh dw e φ) {v : Bool}
    (vψ : HasValue (logZ code name dw) v ψ) (vφ : HasValue (logZ code name dw) v φ) (h0 : φ ≠ 0) : ∃ a : ℂ, ψ = a • φ := by
  rw [logZ_eq] at vψ vφ
  exact state_unique (key := .Z) H hψ hφ vψ vφ h0

/-- C137: so do the values of the plaquettes and of the logical X. -/
theorem C137_unique_x (H : OddPos dh dw) (hψ : CodeState code name dh dw e ψ) (hφ : CodeState code name dh dw e φ) {v : Bool}
    (vψ : HasValue (logX code name dh dw) v ψ) (vφ : HasValue (logX code name dh dw) v φ) (h0 : φ ≠ 0) : ∃ a : ℂ, ψ = a • φ := by
  rw [logX_eq] at vψ vφ
  exact state_unique (key := .X) H hψ hφ vψ vφ h0

theorem codeState_of {A : Op} (hψ : CodeState code name dh dw e ψ) (hc : ∀ key, ∀ p ∈ sitesOf key dh dw, Commute (checkOp code name dh dw key p) A)
    (hx : ∀ x : Qubit, (∀ i ∈ allQubits dh dw, x ≠ dataQ name i) → Commute (opZ x) A) : CodeState code name dh dw e (A ψ) :=
  ⟨fun key p hp => (hψ.1 key p hp).of_comm (hc key p hp), fun x h => IsZero.of_comm (hψ.2 x h) (hx x h).symm⟩

/-- C137: for all values of the plaquettes, the states with these values are the combinations of two states, one with logical Z of
value 1 and its image under the logical X, which has value -1: exactly one qubit. -/
theorem C137_one_qubit (H : OddPos dh dw) (code : Code) (name : Str) (e : Key → Int × Int → Bool) :
    ∃ φ : Psi, φ ≠ 0 ∧ Bounded φ ∧ CodeState code name dh dw e φ ∧ HasValue (logZ code name dw) false φ ∧
      CodeState code name dh dw e (logX code name dh dw φ) ∧ HasValue (logZ code name dw) true (logX code name dh dw φ) ∧
      ∀ ψ, CodeState code name dh dw e ψ → ∃! c : ℂ × ℂ, ψ = c.1 • φ + c.2 • logX code name dh dw φ := by
  obtain ⟨φ, h0, hb, hφ, hv⟩ := state_exists H code name e false
  have hX : CodeState code name dh dw e (logX code name dh dw φ) := codeState_of hφ
    (fun key p hp => (logX_check H (sites_sound hp)).symm) fun x hx => by rw [logX_eq]; exact fstr_other hx (col_all H)
  have hv1 : HasValue (logZ code name dw) true (logX code name dh dw φ) := by
    have hp := (logX_logZ (code := code) (name := name) H).symm
    unfold Passes at hp
    have := congrArg (fun A : Op => A φ) hp
    simp only [Module.End.mul_apply, LinearMap.smul_apply] at this
    unfold HasValue at hv ⊢
    rw [this, hv, map_smul, sg_false, one_smul]
  have hsq : logX code name dh dw * logX code name dh dw = 1 := by
    rw [logX_eq]
    exact fstr_sq .X fun i hi => (mem_allQubits.1 (col_all H i hi)).1
  have h1 : logX code name dh dw φ ≠ 0 := by
    intro h
    have := congrArg (fun A : Op => A φ) hsq
    simp only [Module.End.mul_apply, h, map_zero] at this
    exact h0 this.symm
  have hZZ : logZ code name dw * logZ code name dw = 1 := by
    rw [logZ_eq]
    exact fstr_sq .Z fun i hi => (mem_allQubits.1 (row_all H i hi)).1
  refine ⟨φ, h0, hb, hφ, hv, hX, hv1, fun ψ hψ => ?_⟩
  have hpart : ∀ v, CodeState code name dh dw e (projOf (logZ code name dw) v ψ) := fun v => codeState_of hψ
    (fun key p hp => Commute.proj (logZ_check H (sites_sound hp)).symm v) fun x hx =>
      Commute.proj (by rw [logZ_eq]; exact fstr_other hx (row_all H)) v
  obtain ⟨a, ha⟩ := C137_unique_z H (hpart false) hφ (hasValue_proj hZZ false ψ) hv h0
  obtain ⟨b, hb'⟩ := C137_unique_z H (hpart true) hX (hasValue_proj hZZ true ψ) hv1 h1
  have hsum : projOf (logZ code name dw) false ψ + projOf (logZ code name dw) true ψ = ψ :=
    congrArg (fun A : Op => A ψ) (projOf_add (logZ code name dw))
  refine ⟨(a, b), ?_, ?_⟩
  · show ψ = a • φ + b • _
    rw [← ha, ← hb', hsum]
  · rintro ⟨a', b'⟩ h
    have hz : ∀ v, projOf (logZ code name dw) v ψ = a' • (if v = false then φ else 0) + b' • (if v = true then logX code name dh dw φ else 0) := by
      intro v
      rw [h, map_add, map_smul, map_smul, HasValue.proj hv, HasValue.proj hv1]
    have e1 := hz false
    have e2 := hz true
    rw [ha] at e1
    rw [hb'] at e2
    simp only [if_true, Bool.false_eq_true, if_false, smul_zero, add_zero, zero_add, Bool.true_eq_false] at e1 e2
    rw [Prod.mk.injEq]
    exact ⟨(smul_left_injective ℂ h0 e1).symm, (smul_left_injective ℂ h1 e2).symm⟩

variable {cls : QClass} {q : TQubit} {ops : List QOp} {w : World} {sz : Str → Nat}

/-- The values of the plaquettes written to a register. -/
theorem checks_at_z {p : Int × Int} (hp : p ∈ zSites dh dw) : (checks code name dh dw)[(zSites dh dw).idxOf p]? = some (checkOp code name dh dw .Z p) := by
  have h := List.idxOf_lt_length_of_mem hp
  unfold checks
  rw [List.getElem?_append_left (by rwa [List.length_map]), List.getElem?_map, List.getElem?_eq_getElem h, List.getElem_idxOf h]
  rfl

theorem checks_at_x {p : Int × Int} (hp : p ∈ xSites dh dw) :
    (checks code name dh dw)[(zSites dh dw).length + (xSites dh dw).idxOf p]? = some (checkOp code name dh dw .X p) := by
  have h := List.idxOf_lt_length_of_mem hp
  unfold checks
  rw [List.getElem?_append_right (by rw [List.length_map]; omega), List.length_map, Nat.add_sub_cancel_left, List.getElem?_map, List.getElem?_eq_getElem h,
    List.getElem_idxOf h]
  rfl

/-- A preparation and a stabilization. -/
theorem prepared_state (A : After cls q dh dw ops w) {key : Key} {s u t : QState} (P : Prepares cls.code q.lat.name dh dw key s u)
    (hs : ∀ x : Qubit, (∀ i ∈ allQubits dh dw, x ≠ dataQ q.lat.name i) → IsZero x s.psi) {m : Nat → Bool}
    (ht : t.psi = jointProj (checks cls.code q.lat.name dh dw) m u.psi) :
    CodeState cls.code q.lat.name dh dw (told dh dw m) t.psi ∧ HasValue (fstr cls.code key q.lat.name (lineOf key dh dw)) false t.psi := by
  have H := A.own.2.placed.odd
  have S := syndrome_joint (code := cls.code) (name := q.lat.name) H m u.psi
  rw [← ht] at S
  obtain ⟨o, e, -, -⟩ := id P
  refine ⟨⟨fun key p hp => ?_, fun x hx => ?_⟩, ?_⟩
  · cases key
    · exact S _ _ (checks_at_x hp)
    · exact S _ _ (checks_at_z hp)
  · rw [ht, e]
    refine IsZero.of_comm (IsZero.of_comm (IsZero.of_comm (hs x hx) (clears_comm fun y hy => ?_).symm) (frame_other hx).symm)
      (jointProj_comm (fun C hC => ?_) m).symm
    · obtain ⟨i, hi, rfl⟩ := List.mem_map.1 hy
      exact ⟨letter_comm (hx i hi) .Z .X, letter_comm (hx i hi) .Z .Z⟩
    · obtain ⟨κ, p, hp, rfl⟩ := mem_checks hC
      exact check_other H hx hp
  · rw [ht]
    refine HasValue.of_comm (P.string (line_all H)) (jointProj_comm (fun C hC => ?_) m)
    cases key
    · show Commute (fstr _ _ _ (colQubits dh dw 0)) C
      rw [← logX_eq]
      exact logX_checks H hC
    · show Commute (fstr _ _ _ (rowQubits dw 0)) C
      rw [← logZ_eq]
      exact logZ_checks H hC

theorem told_congr {m m' : Nat → Bool} (h : ∀ k < (xSites dh dw).length + (zSites dh dw).length, m k = m' k)
    (hψ : CodeState code name dh dw (told dh dw m) ψ) : CodeState code name dh dw (told dh dw m') ψ := by
  refine ⟨fun key p hp => ?_, hψ.2⟩
  have := hψ.1 key p hp
  have e : told dh dw m key p = told dh dw m' key p := by
    cases key
    · have h1 : List.idxOf p (xSites dh dw) < (xSites dh dw).length := List.idxOf_lt_length_of_mem hp
      exact h _ (by omega)
    · have h1 : List.idxOf p (zSites dh dw) < (zSites dh dw).length := List.idxOf_lt_length_of_mem hp
      exact h _ (by omega)
  rwa [e] at this

theorem synZero_of (h : ∀ x : Qubit, (∀ i ∈ allQubits dh dw, x ≠ dataQ name i) → IsZero x ψ) : SynZero name dh dw ψ :=
  ⟨fun k _ => h _ fun i _ => (dataQ_ne_mzQ k i).symm, fun k _ => h _ fun i _ => (dataQ_ne_mxQ k i).symm⟩

/-- C137: after `reset_z` and a stabilization the state has the recorded values of the plaquettes and logical Z of value 1; these
determine it up to a factor, so executions with the same syndromes end in the same state, whatever the data qubits were in before. -/
theorem C137_prepared_z (A : After cls q dh dw ops w) {s s' t t' : QState} (h0 : s.psi ≠ 0) (h0' : s'.psi ≠ 0)
    (hs : ∀ x : Qubit, (∀ i ∈ allQubits dh dw, x ≠ dataQ q.lat.name i) → IsZero x s.psi)
    (hs' : ∀ x : Qubit, (∀ i ∈ allQubits dh dw, x ≠ dataQ q.lat.name i) → IsZero x s'.psi)
    (h : Run sz (addedAll q [.resetZ, .stabilize] w) s t) (h' : Run sz (addedAll q [.resetZ, .stabilize] w) s' t')
    (hm : ∀ k < (xSites dh dw).length + (zSites dh dw).length, t.mem ⟨q.lat.name ++ "_c".toList ++ strNat (ops.count .stabilize), k⟩ =
      t'.mem ⟨q.lat.name ++ "_c".toList ++ strNat (ops.count .stabilize), k⟩) :
    CodeState cls.code q.lat.name dh dw (told dh dw fun k => t.mem ⟨q.lat.name ++ "_c".toList ++ strNat (ops.count .stabilize), k⟩) t.psi ∧
    HasValue (logZ cls.code q.lat.name dw) false t.psi ∧ ∃ a : ℂ, a ≠ 0 ∧ t'.psi = a • t.psi := by
  have H := A.own.2.placed.odd
  have key : ∀ {s t : QState}, s.psi ≠ 0 → (∀ x : Qubit, (∀ i ∈ allQubits dh dw, x ≠ dataQ q.lat.name i) → IsZero x s.psi) →
      Run sz (addedAll q [.resetZ, .stabilize] w) s t → t.psi ≠ 0 ∧
      CodeState cls.code q.lat.name dh dw (told dh dw fun k => t.mem ⟨q.lat.name ++ "_c".toList ++ strNat (ops.count .stabilize), k⟩) t.psi ∧
      HasValue (fstr cls.code .Z q.lat.name (lineOf .Z dh dw)) false t.psi := by
    intro s t h0 hs h
    obtain ⟨u, ha, hd⟩ := A.run_cons.1 h
    have P := (run_resetZ A h0).1 ha
    rw [(A.next .resetZ).all_single] at hd
    obtain ⟨m, e, hne, hmem⟩ := (run_stabilize (A.next .resetZ) (A.ne_zero h0 ha) (P.synZero (synZero_of hs))).1 hd
    have hb : ∀ k < (xSites dh dw).length + (zSites dh dw).length, t.mem ⟨q.lat.name ++ "_c".toList ++ strNat (ops.count .stabilize), k⟩ = m k := by
      intro k hk
      rw [show (ops ++ [QOp.resetZ]).count .stabilize = ops.count .stabilize by rw [List.count_append]; rfl] at hmem
      unfold roundName at hmem
      rw [strInt_nat] at hmem
      rw [hmem, writeReg_at hk]
    obtain ⟨h1, h2⟩ := prepared_state A P hs e
    exact ⟨hne, told_congr (fun k hk => (hb k hk).symm) h1, h2⟩
  obtain ⟨hne, a1, a2⟩ := key h0 hs h
  obtain ⟨hne', b1, b2⟩ := key h0' hs' h'
  obtain ⟨a, ha⟩ := state_unique H (told_congr (fun k hk => (hm k hk).symm) b1) a1 b2 a2 hne
  refine ⟨a1, ?_, a, fun h => hne' (by rw [ha, h, zero_smul]), ha⟩
  rw [logZ_eq]
  exact a2

/-- C137: after `reset_x` and a stabilization the state has the recorded values of the plaquettes and logical X of value 1; these
determine it up to a factor, so executions with the same syndromes end in the same state, whatever the data qubits were in before. -/
theorem C137_prepared_x (A : After cls q dh dw ops w) (hh : cls ≠ .xzzx ∨ 1 < dh * dw) {s s' t t' : QState} (h0 : s.psi ≠ 0) (h0' : s'.psi ≠ 0)
    (hs : ∀ x : Qubit, (∀ i ∈ allQubits dh dw, x ≠ dataQ q.lat.name i) → IsZero x s.psi)
    (hs' : ∀ x : Qubit, (∀ i ∈ allQubits dh dw, x ≠ dataQ q.lat.name i) → IsZero x s'.psi)
    (h : Run sz (addedAll q [.resetX, .stabilize] w) s t) (h' : Run sz (addedAll q [.resetX, .stabilize] w) s' t')
    (hm : ∀ k < (xSites dh dw).length + (zSites dh dw).length, t.mem ⟨q.lat.name ++ "_c".toList ++ strNat (ops.count .stabilize), k⟩ =
      t'.mem ⟨q.lat.name ++ "_c".toList ++ strNat (ops.count .stabilize), k⟩) :
    CodeState cls.code q.lat.name dh dw (told dh dw fun k => t.mem ⟨q.lat.name ++ "_c".toList ++ strNat (ops.count .stabilize), k⟩) t.psi ∧
    HasValue (logX cls.code q.lat.name dh dw) false t.psi ∧ ∃ a : ℂ, a ≠ 0 ∧ t'.psi = a • t.psi := by
  have H := A.own.2.placed.odd
  have key : ∀ {s t : QState}, s.psi ≠ 0 → (∀ x : Qubit, (∀ i ∈ allQubits dh dw, x ≠ dataQ q.lat.name i) → IsZero x s.psi) →
      Run sz (addedAll q [.resetX, .stabilize] w) s t → t.psi ≠ 0 ∧
      CodeState cls.code q.lat.name dh dw (told dh dw fun k => t.mem ⟨q.lat.name ++ "_c".toList ++ strNat (ops.count .stabilize), k⟩) t.psi ∧
      HasValue (fstr cls.code .X q.lat.name (lineOf .X dh dw)) false t.psi := by
    intro s t h0 hs h
    obtain ⟨u, ha, hd⟩ := A.run_cons.1 h
    have P := (run_resetX A hh h0).1 ha
    rw [(A.next .resetX).all_single] at hd
    obtain ⟨m, e, hne, hmem⟩ := (run_stabilize (A.next .resetX) (A.ne_zero h0 ha) (P.synZero (synZero_of hs))).1 hd
    have hb : ∀ k < (xSites dh dw).length + (zSites dh dw).length, t.mem ⟨q.lat.name ++ "_c".toList ++ strNat (ops.count .stabilize), k⟩ = m k := by
      intro k hk
      rw [show (ops ++ [QOp.resetX]).count .stabilize = ops.count .stabilize by rw [List.count_append]; rfl] at hmem
      unfold roundName at hmem
      rw [strInt_nat] at hmem
      rw [hmem, writeReg_at hk]
    obtain ⟨h1, h2⟩ := prepared_state A P hs e
    exact ⟨hne, told_congr (fun k hk => (hb k hk).symm) h1, h2⟩
  obtain ⟨hne, a1, a2⟩ := key h0 hs h
  obtain ⟨hne', b1, b2⟩ := key h0' hs' h'
  obtain ⟨a, ha⟩ := state_unique H (told_congr (fun k hk => (hm k hk).symm) b1) a1 b2 a2 hne
  refine ⟨a1, ?_, a, fun h => hne' (by rw [ha, h, zero_smul]), ha⟩
  rw [logX_eq]
  exact a2

/-- A new XXZZ lattice of distance 3: a state with every plaquette of value -1 and logical Z of value 1. -/
example : ∃ φ : Psi, φ ≠ 0 ∧ CodeState .xxzz "a".toList 3 3 (fun _ _ => true) φ ∧ HasValue (logZ .xxzz "a".toList 3) false φ := by
  obtain ⟨φ, h0, -, h1, h2, -⟩ := C137_one_qubit (dh := 3) (dw := 3) (by unfold OddPos; decide) .xxzz "a".toList fun _ _ => true
  exact ⟨φ, h0, h1, h2⟩

/-- Executions of the preparation exist. -/
example : ∃ q w t, AfterAlone .xzzx q 3 5 [] w ∧ Run (fun _ => 0) (addedAll q [.resetZ, .stabilize] w) ⟨ground, fun _ => false⟩ t ∧
    HasValue (logZ .xzzx q.lat.name 5) false t.psi := by
  obtain ⟨q, w, A, hn⟩ := afterAlone_exists (dh := 3) (dw := 5) .xzzx "a".toList (by unfold OddPos; decide) (by simp) []
  obtain ⟨t, ht⟩ := run_exists (sz := fun _ => 0) (proper_all A.after [.resetZ, .stabilize]) ⟨ground, fun _ => false⟩ ground_ne_zero
  have hg : ∀ x : Qubit, (∀ i ∈ allQubits 3 5, x ≠ dataQ q.lat.name i) → IsZero x ground := fun x _ => ground_isZero x
  exact ⟨q, w, t, A, ht, (C137_prepared_z A.after ground_ne_zero ground_ne_zero hg hg ht ht fun _ _ => rfl).2.1⟩

end Qtc
