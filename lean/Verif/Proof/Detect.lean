import Verif.Props.OneQubit
import Verif.Spec.AnyError
/-!
Operators on few data qubits, seen from the code space.
-/
namespace Qtc
open Spec

variable {dh dw : Int} {code : Code} {name : Str} {key : Key} {e : Key → Int × Int → Bool} {ψ : Psi}

/-! ### Strings on sets of data qubits -/

/-- The product over the data qubits on which `f` is set. -/
def setStr (code : Code) (key : Key) (name : Str) (dh dw : Int) (f : Int → Bool) : Op := fstr code key name (support dh dw f)

theorem support_nonneg {f : Int → Bool} : ∀ i ∈ support dh dw f, 0 ≤ i := fun i hi => all_nonneg i (List.mem_of_mem_filter hi)

theorem allQubits_distinct : (allQubits dh dw).Nodup := List.Nodup.map (fun _ _ h => Int.ofNat.inj h) List.nodup_range

theorem support_distinct {f : Int → Bool} : (support dh dw f).Nodup := allQubits_distinct.filter _

theorem setStr_mul (f g : Int → Bool) : setStr code key name dh dw f * setStr code key name dh dw g = setStr code key name dh dw fun q => (f q ^^ g q) := by
  have : ∀ L : List Int, (∀ i ∈ L, 0 ≤ i) →
      fstr code key name (L.filter f) * fstr code key name (L.filter g) = fstr code key name (L.filter fun q => (f q ^^ g q)) := by
    intro L hL
    induction L with
    | nil => exact one_mul _
    | cons i L ih =>
      have ih := ih fun j hj => hL j (by simp [hj])
      have hc : Commute (fstr code key name (L.filter f)) (fop code key name i) :=
        (fstr_comm fun j hj => fop_comm key (hL i (by simp)) (hL j (by simp [List.mem_of_mem_filter hj]))).symm
      cases hf : f i <;> cases hg : g i
      · rw [List.filter_cons_of_neg (by simp [hf]), List.filter_cons_of_neg (by simp [hg]), List.filter_cons_of_neg (by simp [hf, hg]), ih]
      · rw [List.filter_cons_of_neg (by simp [hf]), List.filter_cons_of_pos (by simp [hg]), List.filter_cons_of_pos (by simp [hf, hg]), fstr_cons, fstr_cons,
          ← mul_assoc, hc.eq, mul_assoc, ih]
      · rw [List.filter_cons_of_pos (by simp [hf]), List.filter_cons_of_neg (by simp [hg]), List.filter_cons_of_pos (by simp [hf, hg]), fstr_cons, fstr_cons,
          mul_assoc, ih]
      · rw [List.filter_cons_of_pos (by simp [hf]), List.filter_cons_of_pos (by simp [hg]), List.filter_cons_of_neg (by simp [hf, hg]), fstr_cons, fstr_cons,
          mul_assoc, ← mul_assoc (fstr code key name (L.filter f)), hc.eq, mul_assoc, ih, ← mul_assoc, fop_sq, one_mul]
  exact this _ all_nonneg

theorem setStr_congr {f g : Int → Bool} (h : ∀ q : Int, 0 ≤ q → q < dh * dw → f q = g q) : setStr code key name dh dw f = setStr code key name dh dw g := by
  unfold setStr support
  rw [List.filter_congr fun q hq => h q (mem_allQubits.1 hq).1 (mem_allQubits.1 hq).2]

theorem setStr_list {L : List Int} (hL : ∀ i ∈ L, i ∈ allQubits dh dw) (hn : L.Nodup) :
    setStr code key name dh dw (fun q => decide (q ∈ L)) = fstr code key name L := by
  refine fstr_perm key support_nonneg ((List.perm_ext_iff_of_nodup support_distinct hn).2 fun q => ?_)
  unfold support
  rw [List.mem_filter, decide_eq_true_iff]
  exact ⟨fun h => h.2, fun h => ⟨hL q h, h⟩⟩

/-- A sum of plaquettes has a certain value, the same for all states with the same values of the plaquettes. -/
theorem sum_value (H : OddPos dh dw) (u : Int × Int → Bool) (S : Int × Int → Bool) : ∀ (L : List (Int × Int)), (∀ p ∈ L, SiteOf dh dw key p) →
    (∀ p ∈ L, HasValue (checkOp code name dh dw key p) (u p) ψ) →
    HasValue (setStr code key name dh dw fun q => chosenSum L S (cornerSet dh dw) q) (xorAll (L.map fun p => S p && u p)) ψ
  | [], _, _ => by
    unfold setStr support
    rw [List.filter_eq_nil_iff.2 (by intro q _; simp [chosenSum, xorAll])]
    show (1 : Op) ψ = sg false • ψ
    rw [sg_false, one_smul]
    rfl
  | p :: L, h, hv => by
    have ih := sum_value H u S L (fun p hp => h p (by simp [hp])) fun p hp => hv p (by simp [hp])
    have hp := h p (by simp)
    rw [List.map_cons, xorAll_cons]
    by_cases hS : S p = true
    · have e1 : setStr code key name dh dw (fun q => chosenSum (p :: L) S (cornerSet dh dw) q) =
          checkOp code name dh dw key p * setStr code key name dh dw fun q => chosenSum L S (cornerSet dh dw) q := by
        rw [checkOp_eq H _ _ hp, ← setStr_list (dh := dh) (dw := dw) around_all (around_nodup H hp), setStr_mul]
        refine setStr_congr fun q _ _ => ?_
        show xorAll ((p :: L).map _) = (_ ^^ _)
        rw [List.map_cons, xorAll_cons, hS, Bool.true_and]
        congr 1
        unfold cornerSet
        rw [decide_eq_decide]
        exact mem_around.symm
      rw [e1, hS, Bool.true_and]
      have h1 := hv p (by simp)
      unfold HasValue at h1 ih ⊢
      rw [Module.End.mul_apply, ih, map_smul, h1, smul_smul, sg_xor, mul_comm]
    · have e1 : setStr code key name dh dw (fun q => chosenSum (p :: L) S (cornerSet dh dw) q) =
          setStr code key name dh dw fun q => chosenSum L S (cornerSet dh dw) q := by
        refine setStr_congr fun q _ _ => ?_
        show xorAll ((p :: L).map _) = _
        rw [List.map_cons, xorAll_cons, Bool.eq_false_iff.2 hS, Bool.false_and, Bool.false_xor]
        rfl
      rw [e1, Bool.eq_false_iff.2 hS, Bool.false_and, Bool.false_xor]
      exact ih

/-- Fewer flips than the distance that no plaquette notices do not change the logical value. -/
theorem few_unseen (H : OddPos dh dw) (f : Int → Bool) (h : ∀ p ∈ sitesOf key dh dw, xorAll ((around dh dw p).map f) = false)
    (hf : ((support dh dw f).length : Int) < dh) (hf' : ((support dh dw f).length : Int) < dw) : xorAll ((lineOf key dh dw).map f) = false := by
  by_contra hn
  rw [Bool.not_eq_false] at hn
  cases key
  · have := C09_z_distance dh dw H f (fun P hP => ?_) hn
    · omega
    · obtain ⟨p, hp, e⟩ := plaqX_site H hP
      rw [e.1, parityOn_around]
      exact h p hp
  · have := C09_x_distance dh dw H f (fun P hP => ?_) hn
    · omega
    · obtain ⟨p, hp, e⟩ := plaqZ_site H hP
      rw [e.1, parityOn_around]
      exact h p hp

/-- A string of the other type that a plaquette meets oddly anticommutes with it. -/
theorem check_setStr (H : OddPos dh dw) {p : Int × Int} (hp : p ∈ sitesOf key dh dw) (f : Int → Bool) :
    Passes (xorAll ((around dh dw p).map f)) (checkOp code name dh dw key p) (setStr code key.partner name dh dw f) := by
  have hp' := sites_sound hp
  have e1 : xorAll ((around dh dw p).map f) = xorAll ((around dh dw p).map fun i => decide (i ∈ support dh dw f)) := by
    refine xorAll_congr fun i hi => ?_
    cases hf : f i
    · rw [decide_eq_false]
      unfold support
      rw [List.mem_filter, hf]
      simp
    · rw [decide_eq_true]
      unfold support
      exact List.mem_filter.2 ⟨around_all i hi, hf⟩
  rw [checkOp_eq H _ _ hp', e1]
  cases key
  · exact fstr_passes around_nonneg support_nonneg support_distinct
  · rw [xorAll_decide_comm (around_nodup H hp') support_distinct]
    exact (fstr_passes support_nonneg around_nonneg (around_nodup H hp')).symm

theorem check_setStr_same (H : OddPos dh dw) {p : Int × Int} (hp : p ∈ sitesOf key dh dw) (f : Int → Bool) :
    Commute (checkOp code name dh dw key p) (setStr code key name dh dw f) := by
  rw [checkOp_eq H _ _ (sites_sound hp)]
  exact fstr_comm_same key around_nonneg support_nonneg

/-! ### Operators on few data qubits -/

/-- A string that meets a plaquette oddly leads out of the code space. -/
theorem seen_zero {P C T : Op} {v : Bool} (h1 : P * C = sg v • P) (h2 : C * P = sg v • P) (hT : Passes true C T) : P * T * P = 0 := by
  have e1 : P * (C * T) * P = sg v • (P * T * P) := by rw [← mul_assoc, h1, smul_mul_assoc, smul_mul_assoc]
  have e2 : P * (C * T) * P = -(sg v • (P * T * P)) := by
    unfold Passes at hT
    rw [hT, sg_true, mul_smul_comm, smul_mul_assoc, ← mul_assoc, mul_assoc (P * T), h2, mul_smul_comm, neg_one_smul_op]
  have e3 : sg v • (P * T * P) = 0 := by
    have h : sg v • (P * T * P) + sg v • (P * T * P) = 0 := eq_neg_iff_add_eq_zero.1 (e1.symm.trans e2)
    have h' : sg v • (P * T * P) = (1 / 2 : ℂ) • (sg v • (P * T * P) + sg v • (P * T * P)) := by module
    rw [h', h, smul_zero]
  have := congrArg (fun A : Op => sg v • A) e3
  simpa [smul_smul, sg_mul_self] using this

/-- The strings on a set of data qubits. -/
def stringsOn (code : Code) (name : Str) (dh dw : Int) (S : List Int) : Set Op :=
  {T | ∃ f g : Int → Bool, (∀ q, f q = true → q ∈ S) ∧ (∀ q, g q = true → q ∈ S) ∧ T = setStr code .X name dh dw f * setStr code .Z name dh dw g}

theorem letter_fop (code : Code) (name : Str) (i : Int) {B : Op} (hB : B = opX (dataQ name i) ∨ B = opZ (dataQ name i)) :
    B = fop code .X name i ∨ B = fop code .Z name i := by
  unfold fop
  have h := kind_ne code i
  generalize kind code .X i = a at *
  generalize kind code .Z i = b at *
  cases a <;> cases b <;> rcases hB with rfl | rfl <;> simp_all [Letter.op]

theorem setStr_fop {i : Int} (hi : i ∈ allQubits dh dw) : fop code key name i = setStr code key name dh dw fun q => decide (q ∈ [i]) := by
  rw [setStr_list (by simpa using hi) (List.nodup_singleton i)]
  simp [fstr]

/-- Every operator on some data qubits is a combination of strings on them. -/
theorem onQubits_strings {S : List Int} (hS : ∀ i ∈ S, i ∈ allQubits dh dw) {A : Op} (hA : OnQubits (S.map (dataQ name)) A) :
    A ∈ Submodule.span ℂ (stringsOn code name dh dw S) := by
  have key : ∀ V ∈ Submodule.span ℂ (stringsOn code name dh dw S), V * A ∈ Submodule.span ℂ (stringsOn code name dh dw S) := by
    refine Algebra.adjoin_induction
      (p := fun A _ => ∀ V ∈ Submodule.span ℂ (stringsOn code name dh dw S), V * A ∈ Submodule.span ℂ (stringsOn code name dh dw S)) ?_ ?_ ?_ ?_ hA
    · rintro B ⟨x, hx, hB⟩ V hV
      obtain ⟨i, hi, rfl⟩ := List.mem_map.1 hx
      have hi' := hS i hi
      have hsupp : ∀ f : Int → Bool, (∀ q, f q = true → q ∈ S) → ∀ q, (f q ^^ decide (q ∈ [i])) = true → q ∈ S := by
        intro f hf q h
        by_cases hq : q = i
        · rw [hq]; exact hi
        · exact hf q (by simpa [hq] using h)
      induction hV using Submodule.span_induction with
      | mem V h =>
        obtain ⟨f, g, hf, hg, rfl⟩ := h
        rcases letter_fop code name i hB with rfl | rfl
        · have hp := (fop_fstr_passes (code := code) (name := name) (mem_allQubits.1 hi').1 (support_nonneg (dh := dh) (dw := dw) (f := g)) support_distinct).symm
          unfold Passes at hp
          rw [mul_assoc, show setStr code .Z name dh dw g = fstr code .Z name (support dh dw g) from rfl, hp, mul_smul_comm, ← mul_assoc,
            setStr_fop hi', setStr_mul]
          exact Submodule.smul_mem _ _ (Submodule.subset_span ⟨_, g, hsupp f hf, hg, rfl⟩)
        · rw [mul_assoc, setStr_fop hi', setStr_mul]
          exact Submodule.subset_span ⟨f, _, hf, hsupp g hg, rfl⟩
      | zero => rw [zero_mul]; exact Submodule.zero_mem _
      | add U V _ _ hU hV => rw [add_mul]; exact Submodule.add_mem _ hU hV
      | smul c V _ hV => rw [smul_mul_assoc]; exact Submodule.smul_mem _ _ hV
    · intro c V hV
      rw [Algebra.algebraMap_eq_smul_one, mul_smul_comm, mul_one]
      exact Submodule.smul_mem _ _ hV
    · intro A B _ _ hA hB V hV
      rw [mul_add]
      exact Submodule.add_mem _ (hA V hV) (hB V hV)
    · intro A B _ _ hA hB V hV
      rw [← mul_assoc]
      exact hB _ (hA V hV)
  have h1 : (1 : Op) ∈ Submodule.span ℂ (stringsOn code name dh dw S) := by
    refine Submodule.subset_span ⟨fun _ => false, fun _ => false, by simp, by simp, ?_⟩
    unfold setStr support
    rw [List.filter_eq_nil_iff.2 (by simp)]
    exact (one_mul _).symm
  simpa using key 1 h1

theorem support_few {S : List Int} {f : Int → Bool} (hf : ∀ q, f q = true → q ∈ S) : (support dh dw f).length ≤ S.length := by
  refine (List.Nodup.subperm support_distinct fun q hq => hf q ?_).length_le
  exact (List.mem_filter.1 hq).2

/-- The plaquettes have their values in the code space. -/
theorem joint_checks (H : OddPos dh dw) (m : Nat → Bool) {p : Int × Int} (hp : p ∈ sitesOf key dh dw) (χ : Psi) :
    HasValue (checkOp code name dh dw key p) (told dh dw m key p) (jointProj (checks code name dh dw) m χ) := by
  have S := syndrome_joint (code := code) (name := name) H m χ
  cases key
  · exact S _ _ (checks_at_x hp)
  · exact S _ _ (checks_at_z hp)

/-- Operators on fewer data qubits than the distance act on the code space as a number. -/
theorem few_scalar (H : OddPos dh dw) {S : List Int} (hS : ∀ i ∈ S, i ∈ allQubits dh dw) (h1 : (S.length : Int) < dh) (h2 : (S.length : Int) < dw)
    {A : Op} (hA : OnQubits (S.map (dataQ name)) A) (m : Nat → Bool) :
    ∃ c : ℂ, jointProj (checks code name dh dw) m * A * jointProj (checks code name dh dw) m = c • jointProj (checks code name dh dw) m := by
  have hC : ∀ {key : Key} {p : Int × Int}, p ∈ sitesOf key dh dw →
      checkOp code name dh dw key p * jointProj (checks code name dh dw) m = sg (told dh dw m key p) • jointProj (checks code name dh dw) m := by
    intro key p hp
    exact LinearMap.ext fun χ => joint_checks H m hp χ
  have hC' : ∀ {key : Key} {p : Int × Int}, p ∈ sitesOf key dh dw →
      jointProj (checks code name dh dw) m * checkOp code name dh dw key p = sg (told dh dw m key p) • jointProj (checks code name dh dw) m := by
    intro key p hp
    rw [← hC hp]
    refine (jointProj_comm (fun C hC => ?_) m).symm
    obtain ⟨κ, p', hp', rfl⟩ := mem_checks hC
    exact check_comm H (sites_sound hp) hp'
  have hP : jointProj (checks code name dh dw) m * jointProj (checks code name dh dw) m = jointProj (checks code name dh dw) m := by
    have := jointProj_mul (fun A hA B hB => checks_comm (code := code) (name := name) H hA hB) (fun A hA => checks_sq H hA) m m
    simpa using this
  have hval : ∀ {key : Key} (f : Int → Bool), (∀ q, f q = true → q ∈ S) → (∀ p ∈ sitesOf key dh dw, xorAll ((around dh dw p).map f) = false) →
      ∃ v, setStr code key.partner name dh dw f * jointProj (checks code name dh dw) m = sg v • jointProj (checks code name dh dw) m := by
    intro key f hf hu
    have hlen := support_few (dh := dh) (dw := dw) hf
    obtain ⟨T, hT⟩ := unseen_sum H f hu (few_unseen H f hu (by omega) (by omega))
    refine ⟨xorAll ((sitesOf key.partner dh dw).map fun p => T p && told dh dw m key.partner p), LinearMap.ext fun χ => ?_⟩
    have := sum_value (code := code) (name := name) (key := key.partner) H (told dh dw m key.partner) T (sitesOf key.partner dh dw) (fun p hp => sites_sound hp)
      (ψ := jointProj (checks code name dh dw) m χ) fun p hp => joint_checks H m hp χ
    rw [← setStr_congr hT] at this
    exact this
  have main : ∀ T ∈ stringsOn code name dh dw S, ∃ c : ℂ,
      jointProj (checks code name dh dw) m * T * jointProj (checks code name dh dw) m = c • jointProj (checks code name dh dw) m := by
    rintro T ⟨f, g, hf, hg, rfl⟩
    by_cases hf' : ∀ p ∈ sitesOf .Z dh dw, xorAll ((around dh dw p).map f) = false
    · by_cases hg' : ∀ p ∈ sitesOf .X dh dw, xorAll ((around dh dw p).map g) = false
      · obtain ⟨v, hv⟩ := hval (key := .Z) f hf hf'
        obtain ⟨u, hu⟩ := hval (key := .X) g hg hg'
        refine ⟨sg u * sg v, ?_⟩
        show _ * (setStr code (Key.partner .Z) name dh dw f * setStr code (Key.partner .X) name dh dw g) * _ = _
        rw [mul_assoc, mul_assoc, hu, mul_smul_comm, hv, smul_smul, mul_smul_comm, hP]
      · push Not at hg'
        obtain ⟨p, hp, hg'⟩ := hg'
        rw [Bool.ne_false_iff] at hg'
        have h3 := check_setStr (code := code) (name := name) (key := .X) H hp g
        rw [hg'] at h3
        have h4 := (passes_false.2 (check_setStr_same (code := code) (name := name) (key := .X) H hp f)).mul_right h3
        rw [Bool.false_xor] at h4
        exact ⟨0, by rw [zero_smul]; exact seen_zero (hC' hp) (hC hp) h4⟩
    · push Not at hf'
      obtain ⟨p, hp, hf'⟩ := hf'
      rw [Bool.ne_false_iff] at hf'
      have h3 := check_setStr (code := code) (name := name) (key := .Z) H hp f
      rw [hf'] at h3
      have h4 := h3.mul_right (passes_false.2 (check_setStr_same (code := code) (name := name) (key := .Z) H hp g))
      rw [Bool.xor_false] at h4
      exact ⟨0, by rw [zero_smul]; exact seen_zero (hC' hp) (hC hp) h4⟩
  have hspan := onQubits_strings (code := code) hS hA
  clear hA
  induction hspan using Submodule.span_induction with
  | mem T h => exact main T h
  | zero => exact ⟨0, by rw [mul_zero, zero_mul, zero_smul]⟩
  | add U V _ _ hU hV =>
    obtain ⟨a, ha⟩ := hU
    obtain ⟨b, hb⟩ := hV
    exact ⟨a + b, by rw [mul_add, add_mul, ha, hb, add_smul]⟩
  | smul c V _ hV =>
    obtain ⟨a, ha⟩ := hV
    exact ⟨c * a, by rw [mul_smul_comm, smul_mul_assoc, ha, smul_smul]⟩

end Qtc
