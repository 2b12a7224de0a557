import Verif.Proof.LatticeOdds
import Verif.Spec.OneQubit

/-! # The values of the plaquettes and of a logical operator determine the state -/

namespace Qtc
open Spec Function Classical

variable {dh dw : Int} {code : Code} {name : Str} {key : Key} {ψ φ : Psi} {e : Key → Int × Int → Bool}

theorem turned_in (key : Key) : ∀ x ∈ turned code name dh dw key, ∃ i ∈ allQubits dh dw, x = dataQ name i := by
  intro x hx
  cases key <;> cases code
  · obtain ⟨i, hi, rfl⟩ := List.mem_map.1 hx; exact ⟨i, hi, rfl⟩
  · obtain ⟨i, hi, rfl⟩ := List.mem_map.1 hx; exact ⟨i, (List.mem_filter.1 hi).1, rfl⟩
  · cases hx
  · obtain ⟨i, hi, rfl⟩ := List.mem_map.1 hx; exact ⟨i, (List.mem_filter.1 hi).1, rfl⟩

/-- Strings of data qubits do not concern other qubits. -/
theorem fstr_other {x : Qubit} (hx : ∀ i ∈ allQubits dh dw, x ≠ dataQ name i) {L : List Int} (hL : ∀ i ∈ L, i ∈ allQubits dh dw) :
    Commute (opZ x) (fstr code key name L) := fstr_comm fun i hi => letter_comm (hx i (hL i hi)) .Z _

theorem frame_other {x : Qubit} (hx : ∀ i ∈ allQubits dh dw, x ≠ dataQ name i) : Commute (opZ x) (frame code name dh dw key) :=
  turns_letter (fun h => by obtain ⟨i, hi, e⟩ := turned_in key x h; exact hx i hi e) .Z

theorem readOps_other {x : Qubit} (hx : ∀ i ∈ allQubits dh dw, x ≠ dataQ name i) (m : Nat → Bool) :
    Commute (opZ x) (jointProj (readOps code name dh dw key) m) := jointProj_comm (fun A hA => by
  obtain ⟨i, hi, rfl⟩ := List.mem_map.1 hA
  exact letter_comm (hx i hi) .Z _) m

/-- States in which every qubit has a certain value are parallel. -/
theorem certain_parallel {c0 : Config} (hψ : ∀ x, HasValue (opZ x) (c0 x) ψ) (hφ : ∀ x, HasValue (opZ x) (c0 x) φ) (h0 : φ ≠ 0) : ∃ a : ℂ, ψ = a • φ := by
  have hz : ∀ {χ : Psi}, (∀ x, HasValue (opZ x) (c0 x) χ) → ∀ c, c ≠ c0 → χ c = 0 := by
    intro χ hχ c hc
    obtain ⟨x, hx⟩ := Function.ne_iff.1 hc
    have h := congrFun (hχ x) c
    rw [opZ_apply, Pi.smul_apply, smul_eq_mul] at h
    cases h1 : c x <;> cases h2 : c0 x
    · exact absurd (h1.trans h2.symm) hx
    · rw [h1, h2] at h
      simp [sg] at h
      exact CharZero.eq_neg_self_iff.1 h
    · rw [h1, h2] at h
      simp [sg] at h
      exact CharZero.neg_eq_self_iff.1 h
    · exact absurd (h1.trans h2.symm) hx
  have hne : φ c0 ≠ 0 := by
    intro h
    refine h0 (funext fun c => ?_)
    by_cases hc : c = c0
    · rw [hc, h]; rfl
    · exact hz hφ c hc
  refine ⟨ψ c0 / φ c0, funext fun c => ?_⟩
  rw [Pi.smul_apply, smul_eq_mul]
  by_cases hc : c = c0
  · rw [hc, div_mul_cancel₀ _ hne]
  · rw [hz hψ c hc, hz hφ c hc, mul_zero]

theorem frame_twice (χ : Psi) : frame code name dh dw key (frame code name dh dw key χ) = χ :=
  congrArg (fun A : Op => A χ) (frame_sq (code := code) (name := name) (dh := dh) (dw := dw) key)

/-- The parts of two states with the same values read at all data qubits are parallel. -/
theorem read_parallel (hψ : ∀ x : Qubit, (∀ i ∈ allQubits dh dw, x ≠ dataQ name i) → IsZero x ψ)
    (hφ : ∀ x : Qubit, (∀ i ∈ allQubits dh dw, x ≠ dataQ name i) → IsZero x φ) (m : Nat → Bool)
    (h0 : jointProj (readOps code name dh dw key) m φ ≠ 0) :
    ∃ a : ℂ, jointProj (readOps code name dh dw key) m ψ = a • jointProj (readOps code name dh dw key) m φ := by
  let c0 : Config := fun x => if ∃ i ∈ allQubits dh dw, x = dataQ name i then m x.idx else false
  have hv : ∀ χ : Psi, (∀ x : Qubit, (∀ i ∈ allQubits dh dw, x ≠ dataQ name i) → IsZero x χ) →
      ∀ x, HasValue (opZ x) (c0 x) (frame code name dh dw key (jointProj (readOps code name dh dw key) m χ)) := by
    intro χ hχ x
    by_cases hx : ∃ i ∈ allQubits dh dw, x = dataQ name i
    · obtain ⟨i, hi, rfl⟩ := hx
      have e0 : c0 (dataQ name i) = m i.toNat := by
        show (if _ then _ else _) = _
        rw [if_pos ⟨i, hi, rfl⟩]
        rfl
      have h1 := all_value (code := code) (name := name) (key := key) (m := m) all_nonneg hi χ
      rw [← readOps_proj] at h1
      rw [e0]
      unfold HasValue at h1 ⊢
      rw [← Module.End.mul_apply, ← frame_fop key hi, Module.End.mul_apply, h1, map_smul]
    · have e0 : c0 x = false := by
        show (if _ then _ else _) = _
        rw [if_neg hx]
      have hx' : ∀ i ∈ allQubits dh dw, x ≠ dataQ name i := fun i hi he => hx ⟨i, hi, he⟩
      rw [e0, ← isZero_value]
      exact IsZero.of_comm (IsZero.of_comm (hχ x hx') (readOps_other hx' m).symm) (frame_other hx').symm
  obtain ⟨a, ha⟩ := certain_parallel (hv ψ hψ) (hv φ hφ) (frame_ne h0)
  refine ⟨a, ?_⟩
  have := congrArg (frame code name dh dw key) ha
  rwa [map_smul, frame_twice, frame_twice] at this

/-- Plaquettes of the other type lead from one list of bits to another, for all states with the same values alike. -/
theorem read_shift (H : OddPos dh dw) (u : Int × Int → Bool) (S : Int × Int → Bool) : ∀ (L : List (Int × Int)),
    (∀ p ∈ L, SiteOf dh dw key.partner p) → ∀ f : Int → Bool, ∃ B : Op, ∀ ψ : Psi,
      (∀ p ∈ L, HasValue (checkOp code name dh dw key.partner p) (u p) ψ) →
      jointProj (readOps code name dh dw key) (fun k => (f k ^^ chosenSum L S (cornerSet dh dw) k)) ψ =
        B (jointProj (readOps code name dh dw key) (fun k => f k) ψ)
  | [], _, f => ⟨1, fun ψ _ => by
    refine congrArg (fun B : Op => B ψ) (jointProj_congr fun k hk => ?_)
    exact Bool.xor_false _⟩
  | p :: L, h, f => by
    have hp := h p (by simp)
    by_cases hS : S p = true
    · obtain ⟨B, hB⟩ := read_shift H u S L (fun p hp => h p (by simp [hp])) fun q => (f q ^^ decide (q ∈ around dh dw p))
      refine ⟨sg (u p) • (B * fstr code key.partner name (around dh dw p)), fun ψ hψ => ?_⟩
      have hv := hψ p (by simp)
      rw [checkOp_eq H _ _ hp] at hv
      have h1 := odds_pass (dh := dh) (dw := dw) (key := key) (around_nonneg (dh := dh) (dw := dw) (p := p)) (around_nodup H hp) hv f
      rw [LinearMap.smul_apply, Module.End.mul_apply, h1, map_smul, smul_smul, sg_mul_self, one_smul, ← hB ψ fun p hp => hψ p (by simp [hp])]
      refine congrArg (fun B : Op => B ψ) (jointProj_congr fun k hk => ?_)
      show (f k ^^ xorAll ((p :: L).map _)) = ((f k ^^ _) ^^ _)
      rw [List.map_cons, xorAll_cons, hS, Bool.true_and, Bool.xor_assoc]
      congr 2
      unfold cornerSet
      rw [decide_eq_decide]
      exact mem_around.symm
    · obtain ⟨B, hB⟩ := read_shift H u S L (fun p hp => h p (by simp [hp])) f
      refine ⟨B, fun ψ hψ => ?_⟩
      rw [← hB ψ fun p hp => hψ p (by simp [hp])]
      refine congrArg (fun B : Op => B ψ) (jointProj_congr fun k hk => ?_)
      show (f k ^^ xorAll ((p :: L).map _)) = (f k ^^ _)
      rw [List.map_cons, xorAll_cons, Bool.eq_false_iff.2 hS, Bool.false_and, Bool.false_xor]
      rfl

/-- Bits that can be read have the parities of the plaquettes and of the logical operator. -/
theorem read_consistent (H : OddPos dh dw) {e : Int × Int → Bool} {v : Bool}
    (hZ : ∀ p ∈ sitesOf key dh dw, HasValue (checkOp code name dh dw key p) (e p) ψ)
    (hL : HasValue (fstr code key name (lineOf key dh dw)) v ψ) (g : Int → Bool) (hg : jointProj (readOps code name dh dw key) (fun k => g k) ψ ≠ 0) :
    (∀ p ∈ sitesOf key dh dw, xorAll ((around dh dw p).map g) = e p) ∧ xorAll ((lineOf key dh dw).map g) = v := by
  have hnat : ∀ {L : List Int}, (∀ i ∈ L, i ∈ allQubits dh dw) → xorAll (L.map fun i => g (i.toNat : Nat)) = xorAll (L.map g) := by
    intro L hL
    refine xorAll_congr fun i hi => ?_
    rw [Int.toNat_of_nonneg (all_nonneg i (hL i hi))]
  constructor
  · intro p hp
    have h := hZ p hp
    rw [checkOp_eq H _ _ (sites_sound hp)] at h
    rw [← hnat around_all]
    exact readOps_parity (m := fun k => g k) hg around_all h
  · rw [← hnat (line_all H)]
    exact readOps_parity (m := fun k => g k) hg (line_all H) hL

theorem state_unique (H : OddPos dh dw) (hψ : CodeState code name dh dw e ψ) (hφ : CodeState code name dh dw e φ) {v : Bool}
    (vψ : HasValue (fstr code key name (lineOf key dh dw)) v ψ) (vφ : HasValue (fstr code key name (lineOf key dh dw)) v φ) (h0 : φ ≠ 0) :
    ∃ a : ℂ, ψ = a • φ := by
  have hsum : ∀ χ : Psi, χ = ∑ m : Fin (readOps code name dh dw key).length → Bool, jointProj (readOps code name dh dw key) (outcomesOf m) χ := by
    intro χ
    rw [← LinearMap.sum_apply, jointProj_sum]
    rfl
  have hg : ∀ m : Fin (readOps code name dh dw key).length → Bool, outcomesOf m = fun k : Nat => (fun q : Int => outcomesOf m q.toNat) k :=
    fun m => funext fun k => by simp
  obtain ⟨m, hm⟩ : ∃ m : Fin (readOps code name dh dw key).length → Bool, jointProj (readOps code name dh dw key) (outcomesOf m) φ ≠ 0 := by
    by_contra hn
    push Not at hn
    refine h0 ?_
    rw [hsum φ, Finset.sum_eq_zero fun m _ => hn m]
  obtain ⟨a, ha⟩ := read_parallel hψ.2 hφ.2 (outcomesOf m) hm
  refine ⟨a, ?_⟩
  rw [hsum ψ, hsum φ, Finset.smul_sum]
  refine Finset.sum_congr rfl fun m' _ => ?_
  by_cases hz : jointProj (readOps code name dh dw key) (outcomesOf m') ψ = 0 ∧ jointProj (readOps code name dh dw key) (outcomesOf m') φ = 0
  · rw [hz.1, hz.2, smul_zero]
  · have c' : (∀ p ∈ sitesOf key dh dw, xorAll ((around dh dw p).map fun q => outcomesOf m' q.toNat) = e key p) ∧
        xorAll ((lineOf key dh dw).map fun q => outcomesOf m' q.toNat) = v := by
      rcases not_and_or.1 hz with h | h
      · exact read_consistent H (hψ.1 key) vψ _ (by rw [← hg m']; exact h)
      · exact read_consistent H (hφ.1 key) vφ _ (by rw [← hg m']; exact h)
    have c := read_consistent H (hφ.1 key) vφ (fun q => outcomesOf m q.toNat) (by rw [← hg m]; exact hm)
    obtain ⟨S, hS⟩ := unseen_sum (key := key) H (fun q => (outcomesOf m q.toNat ^^ outcomesOf m' q.toNat)) (fun p hp => by
        rw [xorAll_map_xor, c.1 p hp, c'.1 p hp, Bool.xor_self]) (by rw [xorAll_map_xor, c.2, c'.2, Bool.xor_self])
    obtain ⟨B, hB⟩ := read_shift (code := code) (name := name) (key := key) H (e key.partner) S (sitesOf key.partner dh dw) (fun p hp => sites_sound hp)
      fun q => outcomesOf m q.toNat
    have hk : ∀ χ : Psi, CodeState code name dh dw e χ → jointProj (readOps code name dh dw key) (outcomesOf m') χ =
        B (jointProj (readOps code name dh dw key) (outcomesOf m) χ) := by
      intro χ hχ
      rw [hg m, ← hB χ (hχ.1 key.partner)]
      refine congrArg (fun B : Op => B χ) (jointProj_congr fun k hk => ?_)
      rw [readOps_length] at hk
      have h2 := (siteCount H).2
      rw [← hS k (by omega) (by omega), ← Bool.xor_assoc, Bool.xor_self, Bool.false_xor]
      simp
    rw [hk ψ hψ, hk φ hφ, ha, map_smul]

/-! ### Existence -/

theorem joint_value (l : List Op) : ∀ (m : Nat → Bool), (∀ A ∈ l, ∀ B ∈ l, Commute A B) → (∀ A ∈ l, A * A = 1) → ∀ (χ : Psi) k C, l[k]? = some C →
    HasValue C (m k) (jointProj l m χ) := by
  induction l with
  | nil => intro m _ _ χ k C h; cases k <;> cases h
  | cons A l ih =>
    intro m hc hs χ k C h
    show HasValue C (m k) ((projOf A (m 0) * jointProj l fun k => m (k + 1)) χ)
    cases k with
    | zero =>
      have : A = C := by simpa using h
      subst this
      exact hasValue_proj (hs A (by simp)) _ _
    | succ k =>
      have h' : l[k]? = some C := by simpa using h
      have hC : C ∈ l := List.mem_of_getElem? h'
      exact (ih _ (fun a ha b hb => hc a (by simp [ha]) b (by simp [hb])) (fun a ha => hs a (by simp [ha])) χ k C h').of_comm
        (Commute.proj (hc C (by simp [hC]) A (by simp)) _)

theorem check_other {x : Qubit} (H : OddPos dh dw) (hx : ∀ i ∈ allQubits dh dw, x ≠ dataQ name i) {p : Int × Int} (hp : SiteOf dh dw key p) :
    Commute (opZ x) (checkOp code name dh dw key p) := by
  rw [checkOp_eq H _ _ hp]
  exact fstr_other hx around_all

/-- There is a state with any values of the plaquettes and of the logical Z. -/
theorem state_exists (H : OddPos dh dw) (code : Code) (name : Str) (e : Key → Int × Int → Bool) (v : Bool) :
    ∃ φ : Psi, φ ≠ 0 ∧ Bounded φ ∧ CodeState code name dh dw e φ ∧ HasValue (logZ code name dw) v φ := by
  obtain ⟨f, hf, hl⟩ := C135_every_x dh dw H (fun k => e .Z (coordZ dw k)) v
  have hf' : ∀ p ∈ zSites dh dw, xorAll ((around dh dw p).map f) = e .Z p := by
    intro p hp
    obtain ⟨P, hP, e1, e2⟩ := site_plaqZ H hp
    rw [← parityOn_around, ← e1, hf P hP, ← e2]
  let c0 : Config := fun x => if ∃ i ∈ allQubits dh dw, x = dataQ name i then f x.idx else false
  let δ : Psi := fun c => if c = c0 then 1 else 0
  have hδ : ∀ x, HasValue (opZ x) (c0 x) δ := by
    intro x
    funext c
    rw [opZ_apply, Pi.smul_apply, smul_eq_mul]
    by_cases hc : c = c0
    · rw [hc]
    · simp [δ, hc]
  have hδ0 : δ ≠ 0 := fun h => by
    have := congrFun h c0
    simp [δ] at this
  have hδb : Bounded δ := (Set.finite_singleton c0).subset fun c hc => by
    by_contra hn
    refine hc ?_
    simp only [Set.mem_singleton_iff] at hn
    simp [δ, hn]
  let χ : Psi := frame code name dh dw .Z δ
  have hχb : Bounded χ := keeping_frame.bounded _ hδb
  have hχ0 : χ ≠ 0 := frame_ne hδ0
  have hfop : ∀ i ∈ allQubits dh dw, HasValue (fop code .Z name i) (f i) χ := by
    intro i hi
    have h1 : c0 (dataQ name i) = f i := by
      show (if _ then _ else _) = _
      rw [if_pos ⟨i, hi, rfl⟩]
      show f (i.toNat : Nat) = f i
      rw [Int.toNat_of_nonneg (all_nonneg i hi)]
    have h2 := hδ (dataQ name i)
    rw [h1] at h2
    unfold HasValue at h2 ⊢
    show fop code .Z name i (frame code name dh dw .Z δ) = sg (f i) • frame code name dh dw .Z δ
    rw [← Module.End.mul_apply, fop_frame .Z hi, Module.End.mul_apply, h2, map_smul]
  have hstr : ∀ L : List Int, (∀ i ∈ L, i ∈ allQubits dh dw) → HasValue (fstr code .Z name L) (xorAll (L.map f)) χ :=
    fun L hL => string_value fun i hi => hfop i (hL i hi)
  have hother : ∀ x : Qubit, (∀ i ∈ allQubits dh dw, x ≠ dataQ name i) → IsZero x χ := by
    intro x hx
    refine IsZero.of_comm ?_ (frame_other hx).symm
    have h1 : c0 x = false := by
      show (if _ then _ else _) = _
      rw [if_neg]
      rintro ⟨i, hi, he⟩
      exact hx i hi he
    rw [isZero_value, ← h1]
    exact hδ x
  let l := (xSites dh dw).map (checkOp code name dh dw .X)
  let m : Nat → Bool := fun k => e .X ((xSites dh dw).getD k (0, 0))
  have hlk : ∀ A ∈ l, ∃ p ∈ xSites dh dw, A = checkOp code name dh dw .X p := fun A hA => by
    obtain ⟨p, hp, rfl⟩ := List.mem_map.1 hA
    exact ⟨p, hp, rfl⟩
  have hcomm : ∀ {A : Op}, (∀ p ∈ xSites dh dw, Commute A (checkOp code name dh dw .X p)) → Commute A (jointProj l m) := by
    intro A hA
    refine jointProj_comm (fun B hB => ?_) m
    obtain ⟨p, hp, rfl⟩ := hlk B hB
    exact hA p hp
  have hkeep : ∀ A ∈ l, Keeping A := fun A hA => by
    obtain ⟨p, hp, rfl⟩ := hlk A hA
    unfold checkOp
    exact keeping_pstr _
  have hnorm : norm2 (jointProj l m χ) = (1 / 2) ^ l.length * norm2 χ := by
    refine norm2_coins hkeep hχb (fun k hk => ?_) m
    have hk' : k < (xSites dh dw).length := by simpa [l] using hk
    obtain ⟨S, h1, h2⟩ := string_seen H code name (key := .X) (p := (xSites dh dw)[k]) (mem_xSites.1 (List.getElem_mem hk'))
    refine ⟨_, _, keeping_fstr _ _, hstr S h1, fun j hj => ?_⟩
    have hj' : j < (xSites dh dw).length := by simpa [l] using hj
    have := h2 _ (show SiteOf dh dw .X (xSites dh dw)[j] from mem_xSites.1 (List.getElem_mem hj'))
    simp only [l, List.getElem_map]
    rwa [show decide ((xSites dh dw)[j] = (xSites dh dw)[k]) = decide (j = k) from decide_eq_decide.2 (xSites_nodup dh dw).getElem_inj_iff] at this
  refine ⟨jointProj l m χ, ?_, bounded_joint hkeep hχb m, ⟨?_, ?_⟩, ?_⟩
  · intro h
    rw [h, norm2_zero] at hnorm
    have h1 := norm2_pos hχb hχ0
    have h2 : (0 : ℝ) < (1 / 2) ^ l.length * norm2 χ := by positivity
    linarith
  · intro key p hp
    cases key
    · obtain ⟨k, hk, rfl⟩ := List.getElem_of_mem hp
      have hk' : k < (xSites dh dw).length := hk
      have := joint_value l m (fun A hA B hB => by
        obtain ⟨a, ha, rfl⟩ := hlk A hA
        obtain ⟨b, hb, rfl⟩ := hlk B hB
        exact check_comm H (key := .X) (key' := .X) (mem_xSites.1 ha) (mem_xSites.1 hb)) (fun A hA => by
        obtain ⟨a, ha, rfl⟩ := hlk A hA
        exact check_sq H (key := .X) (mem_xSites.1 ha)) χ k (checkOp code name dh dw .X (xSites dh dw)[k]) (by simp [l, hk'])
      have e1 : m k = e .X (xSites dh dw)[k] := by simp [m, hk']
      rw [e1] at this
      exact this
    · have hp' : SiteOf dh dw .Z p := mem_zSites.1 hp
      refine HasValue.of_comm ?_ (hcomm fun p' h' => check_comm H hp' (mem_xSites.1 h' : SiteOf dh dw .X p'))
      rw [checkOp_eq H _ _ hp', ← hf' p hp]
      exact hstr _ around_all
  · intro x hx
    exact IsZero.of_comm (hother x hx) (hcomm fun p hp => check_other H hx (mem_xSites.1 hp : SiteOf dh dw .X p)).symm
  · refine HasValue.of_comm ?_ (hcomm fun p hp => logZ_check H (mem_xSites.1 hp : SiteOf dh dw .X p))
    rw [logZ_eq, ← hl]
    exact hstr _ (row_all H)

end Qtc
