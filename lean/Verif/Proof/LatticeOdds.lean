import Verif.Props.Completeness
import Verif.Props.Chance
import Verif.Proof.QKeeps
import Verif.Spec.LatticeOdds

/-! # Probabilities of the results of readouts of all data qubits -/

namespace Qtc
open Spec Function Classical

variable {dh dw : Int} {code : Code} {name : Str} {key : Key} {sz : Str → Nat} {l : List Instr} {s : QState} {ψ : Psi}

theorem readOps_eq : readOps code name dh dw key = (List.range (dh * dw).toNat).map fun k : Nat => fop code key name k := by
  unfold readOps allQubits
  rw [List.map_map]
  rfl

theorem readOps_length : (readOps code name dh dw key).length = (dh * dw).toNat := by rw [readOps_eq]; simp

theorem jointProj_range (n : Nat) (g : Nat → Op) (m : Nat → Bool) :
    jointProj ((List.range n).map g) m = ((List.range n).map fun k => projOf (g k) (m k)).prod := by
  induction n generalizing g m with
  | zero => rfl
  | succ n ih =>
    rw [List.range_succ_eq_map, List.map_cons, List.map_cons, List.map_map, List.map_map, List.prod_cons, jointProj, ih]
    rfl

theorem readOps_proj (m : Nat → Bool) : jointProj (readOps code name dh dw key) m =
    ((allQubits dh dw).map fun i => projOf (fop code key name i) (m i.toNat)).prod := by
  rw [readOps_eq, jointProj_range]
  unfold allQubits
  rw [List.map_map]
  rfl

theorem keeping_readOps : ∀ A ∈ readOps code name dh dw key, Keeping A := by
  intro A hA
  obtain ⟨i, -, rfl⟩ := List.mem_map.1 hA
  exact keeping_letter _ _

theorem keeping_turns (L : List Qubit) : Keeping (circOp (turns L)) := by
  induction L with
  | nil => exact Keeping.one
  | cons x L ih =>
    show Keeping (circOp (.gate1 .h x none :: turns L))
    rw [circOp_cons]
    exact ih.mul (keeping_H x)

theorem keeping_frame : Keeping (frame code name dh dw key) := keeping_turns _

theorem frame_ne {φ : Psi} (h : φ ≠ 0) : frame code name dh dw key φ ≠ 0 := by
  intro e
  refine h ?_
  have := congrArg (fun A : Op => A φ) (frame_sq (code := code) (name := name) (dh := dh) (dw := dw) key)
  change frame code name dh dw key (frame code name dh dw key φ) = φ at this
  rw [← this, e, map_zero]

/-- Born's rule for readouts of all data qubits. -/
theorem share_readsAll {r : Str} (hp : ∀ i ∈ l, i.Proper) (hR : ∀ s', Run sz l s s' ↔ ReadsAll code name dh dw key r s s') (h : Bounded s.psi) (m : Nat → Bool) :
    share sz l s (fun t => ∀ k < (dh * dw).toNat, t.mem ⟨r, k⟩ = m k) = norm2 (jointProj (readOps code name dh dw key) m s.psi) := by
  have hn := readOps_length (code := code) (name := name) (dh := dh) (dw := dw) (key := key)
  rw [share_eq (F := fun i : Fin (readOps code name dh dw key).length → Bool =>
    ⟨frame code name dh dw key (jointProj (readOps code name dh dw key) (outcomesOf i) s.psi),
      writeReg s.mem r (dh * dw).toNat (outcomesOf i)⟩) hp h ?_ ?_ ?_]
  · rw [Finset.sum_eq_single (fun k : Fin (readOps code name dh dw key).length => m k)]
    · rw [if_pos]
      · rw [keeping_frame.norm2 _ (bounded_joint keeping_readOps h _)]
        congr 1
        refine congrArg (fun B : Op => B s.psi) (jointProj_congr fun k hk => ?_)
        unfold outcomesOf
        rw [dif_pos hk]
      · intro k hk
        show writeReg _ _ _ _ _ = _
        rw [writeReg_at hk]
        unfold outcomesOf
        rw [dif_pos (by omega)]
    · intro i _ hi
      rw [if_neg]
      intro hE
      refine hi (funext fun k => ?_)
      have hk := k.isLt
      have := hE k (by omega)
      change writeReg _ _ _ _ _ = _ at this
      rw [writeReg_at (by omega)] at this
      unfold outcomesOf at this
      rw [dif_pos hk] at this
      exact this
    · intro hi
      exact absurd (Finset.mem_univ _) hi
  · intro i i' hi
    funext k
    have hk := k.isLt
    have := congrFun (congrArg QState.mem hi) ⟨r, k⟩
    simp only at this
    rw [writeReg_at (by omega), writeReg_at (by omega)] at this
    unfold outcomesOf at this
    rw [dif_pos hk, dif_pos hk] at this
    exact this
  · intro i hne
    exact (hR _).2 ⟨outcomesOf i, by rw [readOps_proj], hne, rfl⟩
  · rw [← norm2_joint keeping_readOps h]
    exact Finset.sum_congr rfl fun i _ => keeping_frame.norm2 _ (bounded_joint keeping_readOps h _)

/-- Bits that can be read have the parities of the strings with certain values. -/
theorem readOps_parity {m : Nat → Bool} (hne : jointProj (readOps code name dh dw key) m ψ ≠ 0) {L : List Int}
    (hL : ∀ i ∈ L, i ∈ allQubits dh dw) {v : Bool} (hv : HasValue (fstr code key name L) v ψ) : xorAll (L.map fun i => m i.toNat) = v := by
  have hr : ReadsAll code name dh dw key [] ⟨ψ, fun _ => false⟩
      ⟨frame code name dh dw key (jointProj (readOps code name dh dw key) m ψ), writeReg (fun _ => false) [] (dh * dw).toNat m⟩ :=
    ⟨m, by rw [readOps_proj], frame_ne hne, rfl⟩
  have := hr.parity hL hv
  rw [← this]
  refine xorAll_congr fun i hi => ?_
  have := mem_allQubits.1 (hL i hi)
  have h : i.toNat < (dh * dw).toNat := by omega
  exact (writeReg_at (mem := fun _ => false) (r := []) h m).symm

/-- A string of the other type passes the observable of a data qubit, up to a sign if it meets it. -/
theorem fstr_at {L : List Int} (hL : ∀ i ∈ L, 0 ≤ i) (hn : L.Nodup) {j : Int} (hj : 0 ≤ j) :
    Passes (decide (j ∈ L)) (fstr code key.partner name L) (fop code key name j) := by
  have hs : ∀ κ, fstr code κ name [j] = fop code κ name j := fun κ => by rw [fstr_cons]; exact mul_one _
  have h1 : ∀ i ∈ [j], (0:Int) ≤ i := fun i hi => by rw [List.mem_singleton] at hi; omega
  cases key
  · have := (fstr_passes (code := code) (name := name) h1 hL hn).symm
    rw [hs] at this
    simpa [Key.partner] using this
  · have := fstr_passes (code := code) (name := name) hL h1 (List.nodup_singleton j)
    rw [hs, xorAll_decide_comm hn (List.nodup_singleton j)] at this
    simpa [Key.partner] using this

/-- A string of the other type with a certain value flips the bits along it. -/
theorem odds_pass {L : List Int} (hL : ∀ i ∈ L, 0 ≤ i) (hn : L.Nodup) {u : Bool} (hv : HasValue (fstr code key.partner name L) u ψ) (f : Int → Bool) :
    fstr code key.partner name L (jointProj (readOps code name dh dw key) (fun k => f k) ψ) =
      sg u • jointProj (readOps code name dh dw key) (fun k => (f k ^^ decide ((k : Int) ∈ L))) ψ := by
  have hpass : ∀ Q : List Int, (∀ i ∈ Q, 0 ≤ i) →
      fstr code key.partner name L * (Q.map fun i => projOf (fop code key name i) (f i.toNat)).prod =
        (Q.map fun i => projOf (fop code key name i) (f i.toNat ^^ decide ((i.toNat : Int) ∈ L))).prod * fstr code key.partner name L := by
    intro Q hQ
    induction Q with
    | nil => rw [List.map_nil, List.map_nil, List.prod_nil, mul_one, one_mul]
    | cons i Q ih =>
      have hi := hQ i (by simp)
      rw [List.map_cons, List.map_cons, List.prod_cons, List.prod_cons, ← mul_assoc, (fstr_at hL hn hi).proj, mul_assoc,
        ih fun j hj => hQ j (by simp [hj]), mul_assoc, Int.toNat_of_nonneg hi]
  have h := congrArg (fun A : Op => A ψ) (hpass (allQubits dh dw) all_nonneg)
  rw [← readOps_proj (fun k => f k), ← readOps_proj (fun k => (f k ^^ decide ((k : Int) ∈ L)))] at h
  simp only [Module.End.mul_apply] at h
  unfold HasValue at hv
  rw [hv, map_smul] at h
  exact h

/-- If a string of the other type has a certain value, the bits along it may be flipped. -/
theorem odds_shift {L : List Int} (hL : ∀ i ∈ L, 0 ≤ i) (hn : L.Nodup) {u : Bool} (hv : HasValue (fstr code key.partner name L) u ψ) (hb : Bounded ψ) (f : Int → Bool) :
    norm2 (jointProj (readOps code name dh dw key) (fun k => (f k ^^ decide ((k : Int) ∈ L))) ψ) =
      norm2 (jointProj (readOps code name dh dw key) (fun k => f k) ψ) := by
  have h2 := congrArg norm2 (odds_pass (dh := dh) (dw := dw) hL hn hv f)
  rw [(keeping_fstr _ _).norm2 _ (bounded_joint keeping_readOps hb _), norm2_smul, normSq_sg, one_mul] at h2
  exact h2.symm

/-- The indicator of a plaquette. -/
def cornerSet (dh dw : Int) (p : Int × Int) (q : Int) : Bool := decide (some q ∈ cornersOf dh dw p.1 p.2)

theorem sites_sound {p : Int × Int} (hp : p ∈ sitesOf key dh dw) : SiteOf dh dw key p := by
  cases key
  · exact mem_xSites.1 hp
  · exact mem_zSites.1 hp

theorem sites_distinct : (sitesOf key dh dw).Nodup := by
  cases key
  · exact xSites_nodup dh dw
  · exact zSites_nodup dh dw

/-- A set that the plaquettes of one type and the line do not see is a sum of plaquettes of the other type. -/
theorem unseen_sum (H : OddPos dh dw) (f : Int → Bool) (h : ∀ p ∈ sitesOf key dh dw, xorAll ((around dh dw p).map f) = false)
    (hl : xorAll ((lineOf key dh dw).map f) = false) :
    ∃ S : Int × Int → Bool, ∀ q : Int, 0 ≤ q → q < dh * dw → f q = chosenSum (sitesOf key.partner dh dw) S (cornerSet dh dw) q := by
  have zero : ∀ (l : List (Int × Int)) (T : Int × Int → Bool) (g : Int × Int → Int → Bool) (q : Int), (∀ p ∈ l, T p = false) → chosenSum l T g q = false := by
    intro l T g q hT
    unfold chosenSum
    rw [xorAll_congr (g := fun _ => false) (fun a ha => by rw [hT a ha, Bool.false_and]), xorAll_map_false]
  cases key
  · obtain ⟨S, b, T, h1, h2, h3⟩ := generated_z H f
    have hT : ∀ p ∈ xSites dh dw, T p = false := fun p hp => (h2 p hp).symm.trans (h p hp)
    have hb : b = false := (h3 hT).symm.trans hl
    refine ⟨S, fun q h0 h1' => ?_⟩
    rw [h1 q h0 h1', hb, zero _ T _ q hT]
    simp only [Bool.false_and, Bool.xor_false]
    rfl
  · obtain ⟨S, b, T, h1, h2, h3⟩ := generated_x H f
    have hT : ∀ p ∈ zSites dh dw, T p = false := fun p hp => (h2 p hp).symm.trans (h p hp)
    have hb : b = false := (h3 hT).symm.trans hl
    refine ⟨S, fun q h0 h1' => ?_⟩
    rw [h1 q h0 h1', hb, zero _ T _ q hT]
    simp only [Bool.false_and, Bool.xor_false]
    rfl

theorem sum_unique (H : OddPos dh dw) (S : Int × Int → Bool) (hS : ∀ q : Int, 0 ≤ q → q < dh * dw → chosenSum (sitesOf key dh dw) S (cornerSet dh dw) q = false) :
    ∀ p ∈ sitesOf key dh dw, S p = false := by
  intro p hp
  have hp' := sites_sound hp
  cases key
  · exact x_independent H S hS p.2.toNat p.1 p.2 hp' (by omega)
  · exact z_independent H S hS p.1.toNat p.1 p.2 hp' (by omega)

/-- Adding plaquettes of the other type does not change the probability. -/
theorem odds_orbit (H : OddPos dh dw) (hb : Bounded ψ) (S : Int × Int → Bool) : ∀ (L : List (Int × Int)),
    (∀ p ∈ L, SiteOf dh dw key.partner p ∧ ∃ u, HasValue (checkOp code name dh dw key.partner p) u ψ) → ∀ f : Int → Bool,
    norm2 (jointProj (readOps code name dh dw key) (fun k => (f k ^^ chosenSum L S (cornerSet dh dw) k)) ψ) =
      norm2 (jointProj (readOps code name dh dw key) (fun k => f k) ψ)
  | [], _, f => by
    congr 1
    refine congrArg (fun B : Op => B ψ) (jointProj_congr fun k hk => ?_)
    exact Bool.xor_false _
  | p :: L, h, f => by
    obtain ⟨hp, u, hu⟩ := h p (by simp)
    have ih := odds_orbit H hb S L (fun p hp => h p (by simp [hp]))
    rw [checkOp_eq H _ _ hp] at hu
    by_cases hS : S p = true
    · rw [← odds_shift around_nonneg (around_nodup H hp) hu hb f, ← ih fun q => (f q ^^ decide (q ∈ around dh dw p))]
      congr 1
      refine congrArg (fun B : Op => B ψ) (jointProj_congr fun k hk => ?_)
      show (f k ^^ xorAll ((p :: L).map _)) = ((f k ^^ _) ^^ _)
      rw [List.map_cons, xorAll_cons, hS, Bool.true_and, Bool.xor_assoc]
      congr 2
      unfold cornerSet
      rw [decide_eq_decide]
      exact mem_around.symm
    · rw [← ih f]
      congr 1
      refine congrArg (fun B : Op => B ψ) (jointProj_congr fun k hk => ?_)
      show (f k ^^ xorAll ((p :: L).map _)) = (f k ^^ _)
      rw [List.map_cons, xorAll_cons, Bool.eq_false_iff.2 hS, Bool.false_and, Bool.false_xor]
      rfl

/-- In a state with certain values of all plaquettes and of the logical operator, the consistent results are equally likely. -/
theorem odds_code (H : OddPos dh dw) (hb : Bounded ψ) {e : Int × Int → Bool} {v : Bool}
    (hX : ∀ p ∈ sitesOf key.partner dh dw, ∃ u, HasValue (checkOp code name dh dw key.partner p) u ψ)
    (hZ : ∀ p ∈ sitesOf key dh dw, HasValue (checkOp code name dh dw key p) (e p) ψ)
    (hL : HasValue (fstr code key name (lineOf key dh dw)) v ψ) (f : Int → Bool) :
    norm2 (jointProj (readOps code name dh dw key) (fun k => f k) ψ) =
      if (∀ p ∈ sitesOf key dh dw, parityOn f (cornersOf dh dw p.1 p.2) = e p) ∧ xorAll ((lineOf key dh dw).map f) = v
      then (1 / 2) ^ (sitesOf key.partner dh dw).length * norm2 ψ else 0 := by
  -- results that can occur
  have hcons : ∀ g : Int → Bool, jointProj (readOps code name dh dw key) (fun k => g k) ψ ≠ 0 →
      (∀ p ∈ sitesOf key dh dw, parityOn g (cornersOf dh dw p.1 p.2) = e p) ∧ xorAll ((lineOf key dh dw).map g) = v := by
    intro g hg
    have hnat : ∀ {L : List Int}, (∀ i ∈ L, i ∈ allQubits dh dw) → xorAll (L.map fun i => g (i.toNat : Nat)) = xorAll (L.map g) := by
      intro L hL
      refine xorAll_congr fun i hi => ?_
      rw [Int.toNat_of_nonneg (all_nonneg i (hL i hi))]
    constructor
    · intro p hp
      have h := hZ p hp
      rw [checkOp_eq H _ _ (sites_sound hp)] at h
      rw [parityOn_around, ← hnat around_all]
      exact readOps_parity (m := fun k => g k) hg around_all h
    · rw [← hnat (line_all H)]
      exact readOps_parity (m := fun k => g k) hg (line_all H) hL
  split
  next hf =>
    have hn := (siteCount H).2
    have hlen := readOps_length (code := code) (name := name) (dh := dh) (dw := dw) (key := key)
    let Φ : ({p // p ∈ (sitesOf key.partner dh dw).toFinset} → Bool) → (Fin (readOps code name dh dw key).length → Bool) :=
      fun S k => (f k ^^ chosenSum (sitesOf key.partner dh dw) (chosen S) (cornerSet dh dw) k)
    have hΦ : Injective Φ := by
      intro S S' h
      have h' := sum_unique H (fun p => (chosen S p ^^ chosen S' p)) (fun q h0 h1 => by
        have := congrFun h ⟨q.toNat, by omega⟩
        simp only [Φ, Int.toNat_of_nonneg h0] at this
        rw [chosenSum_xor]
        simpa using this)
      funext ⟨p, hp⟩
      have h2 := h' p (List.mem_toFinset.1 hp)
      unfold chosen at h2
      rw [dif_pos hp, dif_pos hp] at h2
      simpa using h2
    have hW : ∀ S, norm2 (jointProj (readOps code name dh dw key) (outcomesOf (Φ S)) ψ) = norm2 (jointProj (readOps code name dh dw key) (fun k => f k) ψ) := by
      intro S
      rw [← odds_orbit H hb (chosen S) (sitesOf key.partner dh dw) (fun p hp => ⟨sites_sound hp, hX p hp⟩) f]
      congr 1
      refine congrArg (fun B : Op => B ψ) (jointProj_congr fun k hk => ?_)
      unfold outcomesOf
      rw [dif_pos hk]
    have hsum := norm2_joint (keeping_readOps (code := code) (name := name) (dh := dh) (dw := dw) (key := key)) hb
    rw [← Finset.sum_subset (Finset.subset_univ (Finset.univ.image Φ)), Finset.sum_image (fun a _ b _ h => hΦ h),
      Finset.sum_congr rfl (fun S _ => hW S), Finset.sum_const, Finset.card_univ, Fintype.card_fun, Fintype.card_bool, Fintype.card_coe,
      List.toFinset_card_of_nodup sites_distinct, nsmul_eq_mul] at hsum
    · rw [← hsum, ← mul_assoc]
      push_cast
      rw [← mul_pow]
      norm_num
    · intro m _ hm
      by_contra hne
      refine hm ?_
      let g : Int → Bool := fun q => outcomesOf m q.toNat
      have hg : outcomesOf m = fun k : Nat => g k := funext fun k => by simp [g]
      rw [hg] at hne
      obtain ⟨c1, c2⟩ := hcons g fun h0 => hne (by rw [h0, norm2_zero])
      obtain ⟨S, hS⟩ := unseen_sum (key := key) H (fun q => (f q ^^ g q)) (fun p hp => by
        rw [xorAll_map_xor, ← parityOn_around, ← parityOn_around, hf.1 p hp, c1 p hp, Bool.xor_self]) (by
        rw [xorAll_map_xor, hf.2, c2, Bool.xor_self])
      refine Finset.mem_image.2 ⟨fun p => S p.1, Finset.mem_univ _, funext fun k => ?_⟩
      have hk := k.isLt
      have h1 := hS k (by omega) (by omega)
      show (f k ^^ chosenSum _ _ _ _) = m k
      have h2 : chosenSum (sitesOf key.partner dh dw) (chosen fun p : {p // p ∈ (sitesOf key.partner dh dw).toFinset} => S p.1) (cornerSet dh dw) k =
          chosenSum (sitesOf key.partner dh dw) S (cornerSet dh dw) k := by
        unfold chosenSum
        refine xorAll_congr fun p hp => ?_
        unfold chosen
        rw [dif_pos (List.mem_toFinset.2 hp)]
      rw [h2, ← h1, ← Bool.xor_assoc, Bool.xor_self, Bool.false_xor]
      show outcomesOf m (k : Int).toNat = m k
      unfold outcomesOf
      simp
  next hf =>
    by_contra hne
    exact hf (hcons f fun h0 => hne (by rw [h0, norm2_zero]))

end Qtc
