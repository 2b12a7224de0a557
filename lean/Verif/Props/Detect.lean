import Verif.Proof.Detect
import Verif.Proof.Inner
import Verif.Props.AnyError
/-!
Property C138: fewer data qubits than the distance know nothing about the logical state, and errors on them are noticed or harmless.
-/
namespace Qtc
open Spec

variable {dh dw : Int} {code : Code} {name : Str}

/-- C138: any operator on fewer data qubits than the height and the width is, between projections to given values of all plaquettes,
a number (the condition of Knill and Laflamme for detecting errors). -/
theorem C138_scalar (H : OddPos dh dw) (code : Code) (name : Str) {S : List Int} (hS : ∀ i ∈ S, i ∈ allQubits dh dw) (h1 : (S.length : Int) < dh)
    (h2 : (S.length : Int) < dw) {A : Op} (hA : OnQubits (S.map (dataQ name)) A) (m : Nat → Bool) :
    ∃ c : ℂ, jointProj (checks code name dh dw) m * A * jointProj (checks code name dh dw) m = c • jointProj (checks code name dh dw) m :=
  few_scalar H hS h1 h2 hA m

theorem onQubits_fstr (code : Code) (key : Key) (name : Str) (L : List Int) : OnQubits (L.map (dataQ name)) (fstr code key name L) := by
  unfold fstr OnQubits
  refine Subalgebra.list_prod_mem _ fun B hB => ?_
  obtain ⟨i, hi, rfl⟩ := List.mem_map.1 hB
  refine Algebra.subset_adjoin ⟨dataQ name i, List.mem_map.2 ⟨i, hi, rfl⟩, ?_⟩
  unfold fop
  cases kind code key i
  · exact Or.inl rfl
  · exact Or.inr rfl

theorem joint_fixed : ∀ (l : List Op) (m : Nat → Bool) {ψ : Psi}, (∀ k C, l[k]? = some C → HasValue C (m k) ψ) → jointProj l m ψ = ψ
  | [], _, _, _ => rfl
  | A :: l, m, ψ, h => by
    show (projOf A (m 0) * jointProj l fun k => m (k + 1)) ψ = ψ
    rw [Module.End.mul_apply, joint_fixed l (fun k => m (k + 1)) fun k C hC => h (k + 1) C (by simpa using hC), HasValue.proj (h 0 A (by simp)), if_pos rfl]

theorem told_syndrome {m : Nat → Bool} {ψ : Psi} (hψ : CodeState code name dh dw (told dh dw m) ψ) : Syndrome code name dh dw m ψ := by
  intro k C h
  unfold checks at h
  by_cases hk : k < (zSites dh dw).length
  · rw [List.getElem?_append_left (by simpa using hk), List.getElem?_map, List.getElem?_eq_getElem hk] at h
    have h' := hψ.1 .Z _ (List.getElem_mem hk)
    simp only [Option.map_some, Option.some.injEq] at h
    rw [h] at h'
    have e : told dh dw m .Z (zSites dh dw)[k] = m k := by
      show m _ = m k
      rw [(zSites_nodup dh dw).idxOf_getElem]
    rwa [e] at h'
  · rw [List.getElem?_append_right (by simpa using hk), List.length_map, List.getElem?_map] at h
    obtain ⟨p, hp, rfl⟩ := Option.map_eq_some_iff.1 h
    obtain ⟨hk', rfl⟩ := List.getElem?_eq_some_iff.1 hp
    have h' := hψ.1 .X _ (List.getElem_mem hk')
    have e : told dh dw m .X (xSites dh dw)[k - (zSites dh dw).length] = m k := by
      show m _ = m k
      rw [(xSites_nodup dh dw).idxOf_getElem]
      congr 1
      omega
    rwa [e] at h'

/-- C138: this is sharp. The logical Z acts on `dw` and the logical X on `dh` data qubits, and neither is a number. -/
theorem C138_sharp (H : OddPos dh dw) (code : Code) (name : Str) (m : Nat → Bool) :
    (∃ (S : List Int) (A : Op), (∀ i ∈ S, i ∈ allQubits dh dw) ∧ (S.length : Int) = dw ∧ OnQubits (S.map (dataQ name)) A ∧
      ¬∃ c : ℂ, jointProj (checks code name dh dw) m * A * jointProj (checks code name dh dw) m = c • jointProj (checks code name dh dw) m) ∧
    ∃ (S : List Int) (A : Op), (∀ i ∈ S, i ∈ allQubits dh dw) ∧ (S.length : Int) = dh ∧ OnQubits (S.map (dataQ name)) A ∧
      ¬∃ c : ℂ, jointProj (checks code name dh dw) m * A * jointProj (checks code name dh dw) m = c • jointProj (checks code name dh dw) m := by
  obtain ⟨φ, h0, -, hφ, hv, hX, hv1, -⟩ := C137_one_qubit H code name (told dh dw m)
  have f0 := joint_fixed _ m (told_syndrome hφ)
  have f1 := joint_fixed _ m (told_syndrome hX)
  have hsq : logX code name dh dw * logX code name dh dw = 1 := by
    rw [logX_eq]
    exact fstr_sq .X fun i hi => (mem_allQubits.1 (col_all H i hi)).1
  have h1 : logX code name dh dw φ ≠ 0 := by
    intro h
    have := congrArg (fun A : Op => A φ) hsq
    simp only [Module.End.mul_apply, h, map_zero] at this
    exact h0 this.symm
  have cast : (dh.toNat : Int) = dh ∧ (dw.toNat : Int) = dw := by
    unfold OddPos at H
    omega
  refine ⟨⟨rowQubits dw 0, logZ code name dw, row_all H, by simpa [rowQubits] using cast.2, by rw [logZ_eq]; exact onQubits_fstr _ _ _ _, ?_⟩,
    ⟨colQubits dh dw 0, logX code name dh dw, col_all H, by simpa [colQubits] using cast.1, by rw [logX_eq]; exact onQubits_fstr _ _ _ _, ?_⟩⟩
  · rintro ⟨c, hc⟩
    have e0 := congrArg (fun A : Op => A φ) hc
    have e1 := congrArg (fun A : Op => A (logX code name dh dw φ)) hc
    unfold HasValue at hv hv1
    simp only [Module.End.mul_apply, LinearMap.smul_apply, f0, f1, hv, hv1, map_smul] at e0 e1
    have c0 : sg false = c := smul_left_injective ℂ h0 e0
    have c1 : sg true = c := smul_left_injective ℂ h1 e1
    rw [← c0] at c1
    norm_num at c1
  · rintro ⟨c, hc⟩
    have e0 := congrArg (fun A : Op => A φ) hc
    simp only [Module.End.mul_apply, LinearMap.smul_apply, f0, f1] at e0
    have e1 := congrArg (logZ code name dw) e0
    unfold HasValue at hv hv1
    rw [hv1, map_smul, hv, sg_false, one_smul, ← e0] at e1
    have : sg true = 1 := smul_left_injective ℂ h1 (by simpa using e1)
    norm_num at this

variable {cls : QClass} {q : TQubit} {ops : List QOp} {w : World} {sz : Str → Nat}

theorem onQubits_other {x : Qubit} (hx : ∀ i, dataQ name i ≠ x) {S : List Int} {A : Op} (hA : OnQubits (S.map (dataQ name)) A) : Commute A (opZ x) := by
  refine Algebra.adjoin_induction (p := fun A _ => Commute A (opZ x)) ?_ ?_ ?_ ?_ hA
  · rintro B ⟨y, hy, hB⟩
    obtain ⟨i, -, rfl⟩ := List.mem_map.1 hy
    rcases hB with rfl | rfl
    · exact letter_comm (hx i) .X .Z
    · exact letter_comm (hx i) .Z .Z
  · intro c
    exact Algebra.commutes c _
  · exact fun A B _ _ hA hB => hA.add_left hB
  · exact fun A B _ _ hA hB => hA.mul_left hB

/-- C138: errors on fewer data qubits than the height and the width, of any kind, are noticed or harmless. If the next stabilization
gives the same syndromes as before the error, the state is the one before the error, up to a factor that does not depend on the state. -/
theorem C138_detected (A : After cls q dh dw ops w) {S : List Int} (hS : ∀ i ∈ S, i ∈ allQubits dh dw) (h1 : (S.length : Int) < dh)
    (h2 : (S.length : Int) < dw) {E : Op} (hE : OnQubits (S.map (dataQ q.lat.name)) E) (m : Nat → Bool) :
    ∃ c : ℂ, ∀ s t : QState, SynZero q.lat.name dh dw s.psi → Syndrome cls.code q.lat.name dh dw m s.psi → E s.psi ≠ 0 →
      Run sz (added q .stabilize w) ⟨E s.psi, s.mem⟩ t →
      (∀ k < (xSites dh dw).length + (zSites dh dw).length, t.mem ⟨q.lat.name ++ "_c".toList ++ strNat (ops.count .stabilize), k⟩ = m k) →
      t.psi = c • s.psi := by
  have H := A.own.2.placed.odd
  obtain ⟨c, hc⟩ := C138_scalar H cls.code q.lat.name hS h1 h2 hE m
  refine ⟨c, fun s t hs hm h0 hR hb => ?_⟩
  have hs' : SynZero q.lat.name dh dw (E s.psi) :=
    ⟨fun k hk => IsZero.of_comm (hs.1 k hk) (onQubits_other (fun i => dataQ_ne_mzQ k i) hE),
      fun k hk => IsZero.of_comm (hs.2 k hk) (onQubits_other (fun i => dataQ_ne_mxQ k i) hE)⟩
  obtain ⟨m', e, -, hmem⟩ := (run_stabilize A (s := ⟨E s.psi, s.mem⟩) h0 hs').1 hR
  unfold roundName at hmem
  rw [strInt_nat] at hmem
  have hmm : jointProj (checks cls.code q.lat.name dh dw) m' = jointProj (checks cls.code q.lat.name dh dw) m := by
    refine jointProj_congr fun k hk => ?_
    have hk' : k < (xSites dh dw).length + (zSites dh dw).length := by
      unfold checks at hk
      simp only [List.length_append, List.length_map] at hk
      omega
    rw [← hb k hk', hmem, writeReg_at hk']
  have := congrArg (fun B : Op => B s.psi) hc
  simp only [Module.End.mul_apply, LinearMap.smul_apply, joint_fixed _ m hm] at this
  rw [e, hmm]
  exact this

theorem adj_check (H : OddPos dh dw) {key : Key} {p : Int × Int} (hp : SiteOf dh dw key p) :
    Adj (checkOp code name dh dw key p) (checkOp code name dh dw key p) := by
  rw [checkOp_eq H _ _ hp]
  refine Adj.prod _ ?_ ?_
  · intro A hA B hB
    obtain ⟨i, hi, rfl⟩ := List.mem_map.1 hA
    obtain ⟨j, hj, rfl⟩ := List.mem_map.1 hB
    exact fop_comm key (around_nonneg i hi) (around_nonneg j hj)
  · intro A hA
    obtain ⟨i, hi, rfl⟩ := List.mem_map.1 hA
    unfold fop
    cases kind code key i
    · exact adj_X _
    · exact adj_Z _

/-- C138: fewer data qubits than the height and the width know nothing about the logical state. Whatever is done with them, each
result (with the operator `E`) has a probability that is the same for all states with the same syndromes. -/
theorem C138_unknown (H : OddPos dh dw) (code : Code) (name : Str) {S : List Int} (hS : ∀ i ∈ S, i ∈ allQubits dh dw) (h1 : (S.length : Int) < dh)
    (h2 : (S.length : Int) < dw) {E : Op} (hE : OnQubits (S.map (dataQ name)) E) (m : Nat → Bool) :
    ∃ r : ℝ, ∀ ψ, Bounded ψ → Syndrome code name dh dw m ψ → norm2 (E ψ) = r * norm2 ψ := by
  obtain ⟨B, hB, hEB⟩ := onQubits_adj hE
  obtain ⟨c, hc⟩ := C138_scalar H code name hS h1 h2 (Subalgebra.mul_mem _ hB hE) m
  refine ⟨c.re, fun ψ hb hm => ?_⟩
  have hf := joint_fixed _ m hm
  have hP : Adj (jointProj (checks code name dh dw) m) (jointProj (checks code name dh dw) m) := by
    refine Adj.joint _ m (fun A hA B hB => checks_comm H hA hB) fun A hA => ?_
    obtain ⟨key, p, hp, rfl⟩ := mem_checks hA
    exact adj_check H hp
  have hcψ := congrArg (fun A : Op => A ψ) hc
  simp only [Module.End.mul_apply, LinearMap.smul_apply, hf] at hcψ
  have e : ((norm2 (E ψ) : ℝ) : ℂ) = c * ((norm2 ψ : ℝ) : ℂ) := by
    rw [norm2_dot (hEB.left ψ hb), norm2_dot hb, hEB.swap _ _ hb (hEB.left ψ hb)]
    conv_lhs => rw [← hf]
    rw [hP.swap _ _ hb, hf, hcψ, dot_smul_right]
    rw [hf]
    exact hEB.right _ (hEB.left ψ hb)
  have := congrArg Complex.re e
  simpa using this

/-- Two data qubits of a lattice of distance 3. -/
example (A : Op) (hA : OnQubits [dataQ "a".toList 4, dataQ "a".toList 8] A) : ∃ c : ℂ,
    jointProj (checks .xzzx "a".toList 3 3) (fun _ => false) * A * jointProj (checks .xzzx "a".toList 3 3) (fun _ => false) =
      c • jointProj (checks .xzzx "a".toList 3 3) fun _ => false :=
  C138_scalar (dh := 3) (dw := 3) (by unfold OddPos; decide) .xzzx "a".toList (S := [4, 8]) (by decide) (by decide) (by decide) hA _

/-- The states |0⟩ and |1⟩ of a lattice of distance 3 whose plaquettes all have value -1: no operator on one data qubit tells them apart. -/
example (M : Bool → Bool → ℂ) : ∃ (φ : Psi) (r : ℝ), φ ≠ 0 ∧ HasValue (logZ .xxzz "a".toList 3) false φ ∧
    HasValue (logZ .xxzz "a".toList 3) true (logX .xxzz "a".toList 3 3 φ) ∧
    norm2 (matOp (dataQ "a".toList 4) M φ) = r * norm2 φ ∧
    norm2 (matOp (dataQ "a".toList 4) M (logX .xxzz "a".toList 3 3 φ)) = r * norm2 (logX .xxzz "a".toList 3 3 φ) := by
  have H : OddPos 3 3 := by unfold OddPos; decide
  obtain ⟨φ, h0, hb, h1, h2, h3, h4, -⟩ := C137_one_qubit H .xxzz "a".toList (told 3 3 fun _ => true)
  obtain ⟨r, hr⟩ := C138_unknown H .xxzz "a".toList (S := [4]) (E := matOp (dataQ "a".toList 4) M) (by decide) (by decide) (by decide) (C124_matrix (by simp) M)
    fun _ => true
  have hb' : Bounded (logX .xxzz "a".toList 3 3 φ) := onQubits_bounded (by rw [logX_eq]; exact onQubits_fstr .xxzz .X "a".toList (colQubits 3 3 0)) φ hb
  exact ⟨φ, r, h0, h2, h4, hr φ hb (told_syndrome h1), hr _ hb' (told_syndrome h3)⟩

end Qtc
