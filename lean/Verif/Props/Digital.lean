import Verif.Props.Restore
/-!
Property C142: a stabilization turns errors of any kind on few qubits into X and Z errors on these qubits.
-/
namespace Qtc
open Spec

variable {dh dw : Int} {code : Code} {name : Str} {m : Nat → Bool} {ψ : Psi}

theorem pauliOp_append (name : Str) : ∀ l l' : List (Letter × Int), pauliOp name (l ++ l') = pauliOp name l' * pauliOp name l
  | [], _ => (mul_one _).symm
  | e :: l, l' => by
    show pauliOp name (l ++ l') * _ = _ * (pauliOp name l * _)
    rw [pauliOp_append name l l', mul_assoc]

theorem afterPaulis_back (name : Str) : ∀ (l : List (Letter × Int)) (ψ : Psi), afterPaulis name l (afterPaulis name l.reverse ψ) = ψ
  | [], _ => rfl
  | e :: l, ψ => by
    rw [List.reverse_cons, afterPaulis_append]
    show afterPaulis name l (e.1.op _ (e.1.op _ _)) = ψ
    have := congrArg (fun B : Op => B (afterPaulis name l.reverse ψ)) (letter_sq e.1 (dataQ name e.2))
    simp only [Module.End.mul_apply] at this
    rw [this]
    exact afterPaulis_back name l ψ

/-- Every operator on some data qubits is a combination of X and Z errors on them. -/
theorem onQubits_paulis {S : List Int} {E : Op} (hE : OnQubits (S.map (dataQ name)) E) :
    E ∈ Submodule.span ℂ {B : Op | ∃ l : List (Letter × Int), (∀ e ∈ l, e.2 ∈ S) ∧ B = pauliOp name l} := by
  unfold OnQubits at hE
  rw [← Subalgebra.mem_toSubmodule, Algebra.adjoin_eq_span] at hE
  refine Submodule.span_mono (fun B hB => ?_) hE
  refine Submonoid.closure_induction (motive := fun B _ => ∃ l : List (Letter × Int), (∀ e ∈ l, e.2 ∈ S) ∧ B = pauliOp name l) ?_ ?_ ?_ hB
  · rintro B ⟨x, hx, hB⟩
    obtain ⟨i, hi, rfl⟩ := List.mem_map.1 hx
    rcases hB with rfl | rfl
    · exact ⟨[(.X, i)], by simpa using hi, (one_mul _).symm⟩
    · exact ⟨[(.Z, i)], by simpa using hi, (one_mul _).symm⟩
  · exact ⟨[], by simp, rfl⟩
  · rintro B C - - ⟨l, hl, rfl⟩ ⟨l', hl', rfl⟩
    refine ⟨l' ++ l, fun e he => ?_, (pauliOp_append name l' l).symm⟩
    rcases List.mem_append.1 he with he | he
    · exact hl' e he
    · exact hl e he

/-- Some X and Z errors on the qubits explain the syndromes. -/
theorem paulis_explain (H : OddPos dh dw) {S : List Int} (hS : ∀ i ∈ S, i ∈ allQubits dh dw) {E : Op} (hE : OnQubits (S.map (dataQ name)) E)
    (hm : Syndrome code name dh dw m ψ) {m' : Nat → Bool} (h : jointProj (checks code name dh dw) m' (E ψ) ≠ 0) :
    ∃ l : List (Letter × Int), (∀ e ∈ l, e.2 ∈ S) ∧
      ∀ key, ∀ p ∈ sitesOf key dh dw, xorAll (l.map fun e => detects code dh dw key e.1 e.2 p) = (told dh dw m key p ^^ told dh dw m' key p) := by
  have h1 : ∃ l : List (Letter × Int), (∀ e ∈ l, e.2 ∈ S) ∧ jointProj (checks code name dh dw) m' (pauliOp name l ψ) ≠ 0 := by
    by_contra hn
    push Not at hn
    have hE' := onQubits_paulis hE
    clear hE
    refine h (Submodule.span_induction (p := fun B _ => jointProj (checks code name dh dw) m' (B ψ) = 0) ?_ ?_ ?_ ?_ hE')
    · rintro B ⟨l, hl, rfl⟩
      exact hn l hl
    · simp
    · intro B C _ _ hB hC
      rw [LinearMap.add_apply, map_add, hB, hC, add_zero]
    · intro a B _ hB
      rw [LinearMap.smul_apply, map_smul, hB, smul_zero]
  obtain ⟨l, hl, hne⟩ := h1
  refine ⟨l, hl, fun key p hp => ?_⟩
  rw [pauliOp_apply] at hne
  have a := syndrome_values (syndrome_joint (code := code) (name := name) H m' (afterPaulis name l ψ)) hp
  have b := (values_paulis (name := name) H hp l (fun e he => hS _ (hl e he)) (syndrome_values hm hp)).of_comm
    (jointProj_comm (fun B hB => checks_comm H (checkOp_listed hp) hB) m')
  rw [a.unique b hne, ← Bool.xor_assoc, Bool.xor_self, Bool.false_xor]

variable {cls : QClass} {q : TQubit} {ops : List QOp} {w : World} {sz : Str → Nat}

/-- C142: after an error of any kind on fewer data qubits than the height and the width, a stabilization leaves the state as X and Z errors on
these qubits would have left it. Which errors, and the factor, depend on the error and the recorded syndromes, not on the state. -/
theorem C142_digital (A : After cls q dh dw ops w) {S : List Int} (hS : ∀ i ∈ S, i ∈ allQubits dh dw) (h1 : (S.length : Int) < dh)
    (h2 : (S.length : Int) < dw) {E : Op} (hE : OnQubits (S.map (dataQ q.lat.name)) E) (m m' : Nat → Bool) :
    ∃ (l : List (Letter × Int)) (c : ℂ), (∀ e ∈ l, e.2 ∈ S) ∧ ∀ s t : QState, SynZero q.lat.name dh dw s.psi →
      Syndrome cls.code q.lat.name dh dw m s.psi → E s.psi ≠ 0 → Run sz (added q .stabilize w) ⟨E s.psi, s.mem⟩ t →
      (∀ k < (xSites dh dw).length + (zSites dh dw).length, t.mem ⟨q.lat.name ++ "_c".toList ++ strNat (ops.count .stabilize), k⟩ = m' k) →
      c ≠ 0 ∧ t.psi = c • afterPaulis q.lat.name l s.psi ∧
        ∀ key, ∀ p ∈ sitesOf key dh dw, xorAll (l.map fun e => detects cls.code dh dw key e.1 e.2 p) = (told dh dw m key p ^^ told dh dw m' key p) := by
  have H := A.own.2.placed.odd
  have told_eq : ∀ {t : QState}, (∀ k < (xSites dh dw).length + (zSites dh dw).length,
      t.mem ⟨q.lat.name ++ "_c".toList ++ strNat (ops.count .stabilize), k⟩ = m' k) → ∀ key, ∀ p ∈ sitesOf key dh dw,
      told dh dw (fun k => t.mem ⟨q.lat.name ++ "_c".toList ++ strNat (ops.count .stabilize), k⟩) key p = told dh dw m' key p := by
    intro t hb key p hp
    cases key
    · have := List.idxOf_lt_length_of_mem (show p ∈ xSites dh dw from hp)
      exact hb _ (by omega)
    · have := List.idxOf_lt_length_of_mem (show p ∈ zSites dh dw from hp)
      exact hb _ (by omega)
  by_cases hx : ∃ l : List (Letter × Int), (∀ e ∈ l, e.2 ∈ S) ∧
      ∀ key, ∀ p ∈ sitesOf key dh dw, xorAll (l.map fun e => detects cls.code dh dw key e.1 e.2 p) = (told dh dw m key p ^^ told dh dw m' key p)
  · obtain ⟨l, hl, hg⟩ := hx
    obtain ⟨c, hc⟩ := C141_any (sz := sz) A hS h1 h2 hE hl m
    refine ⟨l, c, hl, fun s t hz hm h0 hR hb => ?_⟩
    obtain ⟨c0, e⟩ := hc s t hz hm h0 hR fun key p hp => by rw [hg key p hp, told_eq hb key p hp]
    refine ⟨c0, ?_, hg⟩
    have := congrArg (afterPaulis q.lat.name l) e
    rw [afterPaulis_back, ← pauliOp_apply, map_smul, pauliOp_apply] at this
    exact this
  · refine ⟨[], 1, by simp, fun s t hz hm h0 hR hb => absurd ?_ hx⟩
    have hz' : SynZero q.lat.name dh dw (E s.psi) :=
      ⟨fun k hk => IsZero.of_comm (hz.1 k hk) (onQubits_other (fun i => dataQ_ne_mzQ k i) hE),
        fun k hk => IsZero.of_comm (hz.2 k hk) (onQubits_other (fun i => dataQ_ne_mxQ k i) hE)⟩
    obtain ⟨m1, e, hne, hmem⟩ := (run_stabilize A (s := ⟨E s.psi, s.mem⟩) h0 hz').1 hR
    unfold roundName at hmem
    rw [strInt_nat] at hmem
    rw [e] at hne
    obtain ⟨l, hl, hg⟩ := paulis_explain H hS hE hm hne
    refine ⟨l, hl, fun key p hp => ?_⟩
    rw [hg key p hp, ← told_eq hb key p hp]
    congr 1
    cases key
    · have := List.idxOf_lt_length_of_mem (show p ∈ xSites dh dw from hp)
      show m1 _ = t.mem _
      rw [hmem, writeReg_at (by omega)]
    · have := List.idxOf_lt_length_of_mem (show p ∈ zSites dh dw from hp)
      show m1 _ = t.mem _
      rw [hmem, writeReg_at (by omega)]

/-- A Hadamard gate on the middle qubit of the 3 × 3 lattice by mistake: after a stabilization it is none, X, Z or Y on that qubit. -/
example : ∃ q w, AfterAlone .xzzx q 3 3 [] w ∧ ∀ m m' : Nat → Bool, ∃ (l : List (Letter × Int)) (c : ℂ), (∀ e ∈ l, e.2 ∈ [(4 : Int)]) ∧
    ∀ s t : QState, SynZero q.lat.name 3 3 s.psi → Syndrome .xzzx q.lat.name 3 3 m s.psi → opH (dataQ q.lat.name 4) s.psi ≠ 0 →
      Run (fun _ => 0) (added q .stabilize w) ⟨opH (dataQ q.lat.name 4) s.psi, s.mem⟩ t →
      (∀ k < (xSites 3 3).length + (zSites 3 3).length, t.mem ⟨q.lat.name ++ "_c".toList ++ strNat 0, k⟩ = m' k) →
      t.psi = c • afterPaulis q.lat.name l s.psi := by
  obtain ⟨q, w, A, hn⟩ := afterAlone_exists (dh := 3) (dw := 3) .xzzx "a".toList (by unfold OddPos; decide) (by simp) []
  refine ⟨q, w, A, fun m m' => ?_⟩
  obtain ⟨l, c, hl, h⟩ := C142_digital (sz := fun _ => 0) A.after (S := [4]) (by decide) (by decide) (by decide) (E := opH (dataQ q.lat.name 4)) (by
    rw [opH_eq]
    refine Subalgebra.smul_mem _ (Subalgebra.add_mem _ (Algebra.subset_adjoin ?_) (Algebra.subset_adjoin ?_)) _
    · exact ⟨_, by simp, Or.inl rfl⟩
    · exact ⟨_, by simp, Or.inr rfl⟩) m m'
  exact ⟨l, c, hl, fun s t a1 a2 a3 a4 a5 => (h s t a1 a2 a3 a4 a5).2.1⟩

end Qtc
