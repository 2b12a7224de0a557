import Verif.Proof.QSlips
import Verif.Proof.OddLines
/-!
Sets of data flips and misreadings that single errors in a round lead to, and how much they cost.
-/
namespace Qtc
open Spec Function

variable {dh dw : Int} {key : Key}

/-- What a fault set costs the decoder: its size together with the number of lines it hits an odd number of times. -/
def costOf (key : Key) (dh dw : Int) (fs : List Fault) : Nat := fs.length + oddLines key (distance key dh dw).toNat fs

theorem countP_xor_le {α : Type} (f g : α → Bool) (l : List α) : (l.countP fun a => f a ^^ g a) ≤ l.countP f + l.countP g := by
  induction l with
  | nil => simp
  | cons a l ih =>
    simp only [List.countP_cons]
    cases f a <;> cases g a <;> simp <;> omega

theorem costOf_append (fs gs : List Fault) : costOf key dh dw (fs ++ gs) ≤ costOf key dh dw fs + costOf key dh dw gs := by
  unfold costOf oddLines
  have := countP_xor_le (fun (k : Nat) => xorAll (fs.map (Fault.inLine key k))) (fun (k : Nat) => xorAll (gs.map (Fault.inLine key k)))
    (List.range (distance key dh dw).toNat)
  simp only [List.map_append, xorAll_append, List.length_append]
  omega

theorem costOf_le (fs : List Fault) : costOf key dh dw fs ≤ 2 * fs.length := by
  unfold costOf
  have := oddLines_le (key := key) (distance key dh dw).toNat fs
  omega

theorem costOf_meas {fs : List Fault} (h : ∀ f ∈ fs, ∃ t r c, f = .meas t r c) : costOf key dh dw fs = fs.length := by
  unfold costOf oddLines
  rw [List.countP_eq_zero.2]
  · rfl
  · intro k _
    rw [xorAll_eq_false]
    · simp
    · intro b hb
      obtain ⟨f, hf, rfl⟩ := List.mem_map.1 hb
      obtain ⟨t, r, c, rfl⟩ := h f hf
      rfl

/-- The flip of a data qubit given by its number. -/
def flip (dw t i : Int) : Fault := .data t (i / dw) (i % dw)

/-! ### Data qubits around plaquettes of the other type -/

/-- The corners of a plaquette in the order of the circuit. -/
def orderOf (key : Key) (dh dw : Int) (p : Int × Int) : List Int :=
  match key with
  | .X => [dataAt dh dw ((p.1 - 1) / 2) ((p.2 + 1) / 2), dataAt dh dw ((p.1 - 1) / 2) ((p.2 - 1) / 2),
      dataAt dh dw ((p.1 + 1) / 2) ((p.2 + 1) / 2), dataAt dh dw ((p.1 + 1) / 2) ((p.2 - 1) / 2)].filterMap id
  | .Z => [dataAt dh dw ((p.1 - 1) / 2) ((p.2 + 1) / 2), dataAt dh dw ((p.1 + 1) / 2) ((p.2 + 1) / 2),
      dataAt dh dw ((p.1 - 1) / 2) ((p.2 - 1) / 2), dataAt dh dw ((p.1 + 1) / 2) ((p.2 - 1) / 2)].filterMap id

theorem orderOf_perm (key : Key) (dh dw : Int) (p : Int × Int) : (orderOf key dh dw p).Perm (around dh dw p) := by
  unfold orderOf around cornersOf
  generalize dataAt dh dw ((p.1 - 1) / 2) ((p.2 - 1) / 2) = a
  generalize dataAt dh dw ((p.1 - 1) / 2) ((p.2 + 1) / 2) = b
  generalize dataAt dh dw ((p.1 + 1) / 2) ((p.2 - 1) / 2) = c
  generalize dataAt dh dw ((p.1 + 1) / 2) ((p.2 + 1) / 2) = d
  cases key
  · refine List.Perm.filterMap _ ?_
    exact (List.Perm.swap a b _).trans ((List.Perm.swap c d _).cons _ |>.cons _)
  · refine List.Perm.filterMap _ ?_
    refine (((List.Perm.swap a d _).trans ((List.Perm.swap c d []).cons a)).cons b).trans ?_
    exact List.Perm.swap a b _

theorem flip_dataAt {r c i : Int} (h : dataAt dh dw r c = some i) (t : Int) : flip dw t i = .data t r c := by
  unfold dataAt at h
  split at h
  · next hc =>
    cases h
    unfold flip
    rw [Int.add_comm, Int.add_mul_ediv_right _ _ (by omega), Int.add_mul_emod_self_right, Int.ediv_eq_zero_of_lt hc.2.2.1 hc.2.2.2, Int.zero_add,
      Int.emod_eq_of_lt hc.2.2.1 hc.2.2.2]
  · cases h

theorem around_flips (t : Int) (p : Int × Int) : (around dh dw p).map (flip dw t) = plaquetteFlips dh dw t p.1 p.2 := by
  have key : ∀ (l : List (Int × Int)), (((l.map fun x => dataAt dh dw x.1 x.2).filterMap id).map (flip dw t)) =
      ((l.filter fun x => decide (0 ≤ x.1 ∧ x.1 < dh ∧ 0 ≤ x.2 ∧ x.2 < dw)).map fun x => Fault.data t x.1 x.2) := by
    intro l
    induction l with
    | nil => rfl
    | cons x l ih =>
      by_cases h : 0 ≤ x.1 ∧ x.1 < dh ∧ 0 ≤ x.2 ∧ x.2 < dw
      · have e : dataAt dh dw x.1 x.2 = some (x.1 * dw + x.2) := by unfold dataAt; rw [if_pos h]
        rw [List.map_cons, e, List.filterMap_cons_some (f := id) (b := x.1 * dw + x.2) rfl, List.map_cons, ih, List.filter_cons_of_pos (by simpa using h),
          List.map_cons, flip_dataAt e]
      · have e : dataAt dh dw x.1 x.2 = none := by unfold dataAt; rw [if_neg h]
        rw [List.map_cons, e, List.filterMap_cons_none rfl, ih, List.filter_cons_of_neg (by simpa using h)]
  exact key [((p.1 - 1) / 2, (p.2 - 1) / 2), ((p.1 - 1) / 2, (p.2 + 1) / 2), ((p.1 + 1) / 2, (p.2 - 1) / 2), ((p.1 + 1) / 2, (p.2 + 1) / 2)]

theorem siteOf_site {p : Int × Int} : SiteOf dh dw key p ↔ Site key dh dw p.1 p.2 := by
  cases key <;> exact Iff.rfl

/-- All corners together are a stabilizer of the other type. -/
theorem order_silent (H : OddPos dh dw) {p : Int × Int} (hp : SiteOf dh dw (otherKey key) p) (t : Int) :
    Amounts key dh dw ((orderOf (otherKey key) dh dw p).map (flip dw t)) [] := by
  refine (Amounts.perm ((orderOf_perm _ dh dw p).map _)).trans ?_
  rw [around_flips]
  exact ⟨fun N r hr => plaquette_silent H (siteOf_site.1 hp) (siteOf_site.1 hr), plaquette_readout H (siteOf_site.1 hp)⟩

theorem Amounts.cancel {fs gs : List Fault} (h : Amounts key dh dw (fs ++ gs) []) : Amounts key dh dw gs fs := by
  have h1 : Amounts key dh dw (fs ++ (fs ++ gs)) (fs ++ []) := (Amounts.refl fs).append h
  rw [List.append_nil, ← List.append_assoc] at h1
  have h2 : Amounts key dh dw (fs ++ fs ++ gs) ([] ++ gs) := (Amounts.double fs).append (Amounts.refl gs)
  exact h2.symm.trans h1

theorem oddLines_pair {t r c t' r' c' : Int} (h : (match key with | .Z => r = r' | .X => c = c')) (n : Nat) :
    oddLines key n [.data t r c, .data t' r' c'] = 0 := by
  unfold oddLines
  rw [List.countP_eq_zero]
  intro k _
  cases key
  · simp only at h
    subst h
    simp [Fault.inLine]
  · simp only at h
    subst h
    simp [Fault.inLine]

theorem orderOf_length (key : Key) (p : Int × Int) : (orderOf key dh dw p).length ≤ 4 := by
  unfold orderOf
  cases key
  · exact (List.length_filterMap_le _ _).trans (by simp)
  · exact (List.length_filterMap_le _ _).trans (by simp)

theorem filterMap_four {a b c d : Option Int} (h : 4 ≤ ([a, b, c, d].filterMap id).length) :
    ∃ i j k l, a = some i ∧ b = some j ∧ c = some k ∧ d = some l := by
  rcases a with _ | a <;> rcases b with _ | b <;> rcases c with _ | c <;> rcases d with _ | d <;> simp at h ⊢

/-- The last corners of a plaquette of the other type flipped: this costs at most 2. -/
theorem hook (H : OddPos dh dw) {p : Int × Int} (hp : SiteOf dh dw (otherKey key) p) {S : List Int} (hS : S <:+ orderOf (otherKey key) dh dw p)
    (t : Int) : ∃ gs, Amounts key dh dw (S.map (flip dw t)) gs ∧ costOf key dh dw gs ≤ 2 ∧ ∀ f ∈ gs, ∃ i ∈ around dh dw p, f = flip dw t i := by
  have hin : ∀ i ∈ orderOf (otherKey key) dh dw p, i ∈ around dh dw p := fun i hi => (orderOf_perm _ dh dw p).subset hi
  obtain ⟨P, hP⟩ := hS
  have hmem : ∀ l : List Int, (∀ i ∈ l, i ∈ orderOf (otherKey key) dh dw p) → ∀ f ∈ l.map (flip dw t), ∃ i ∈ around dh dw p, f = flip dw t i := by
    intro l hl f hf
    obtain ⟨i, hi, rfl⟩ := List.mem_map.1 hf
    exact ⟨i, hin i (hl i hi), rfl⟩
  rcases Nat.lt_or_ge S.length 2 with h1 | h1
  · refine ⟨S.map (flip dw t), Amounts.refl _, ?_, hmem S fun i hi => hP ▸ List.mem_append_right _ hi⟩
    have := costOf_le (key := key) (dh := dh) (dw := dw) (S.map (flip dw t))
    rw [List.length_map] at this
    omega
  rcases Nat.lt_or_ge P.length 2 with h2 | h2
  · refine ⟨P.map (flip dw t), ?_, ?_, hmem P fun i hi => hP ▸ List.mem_append_left _ hi⟩
    · have := order_silent H hp t
      rw [← hP, List.map_append] at this
      exact this.cancel
    · have := costOf_le (key := key) (dh := dh) (dw := dw) (P.map (flip dw t))
      rw [List.length_map] at this
      omega
  have hlen : P.length + S.length ≤ 4 := by
    have := orderOf_length (dh := dh) (dw := dw) (otherKey key) p
    rwa [← hP, List.length_append] at this
  refine ⟨S.map (flip dw t), Amounts.refl _, ?_, hmem S fun i hi => hP ▸ List.mem_append_right _ hi⟩
  have hfour : 4 ≤ (orderOf (otherKey key) dh dw p).length := by rw [← hP, List.length_append]; omega
  have hdrop : S = (orderOf (otherKey key) dh dw p).drop 2 := by
    rw [← hP, List.drop_append_of_le_length (by omega), List.drop_eq_nil_of_le (by omega), List.nil_append]
  cases key with
  | X =>
    simp only [otherKey, orderOf] at hfour hdrop
    obtain ⟨i, j, k, l, ha, hb, hc, hd⟩ := filterMap_four hfour
    rw [ha, hb, hc, hd] at hdrop
    subst hdrop
    show costOf _ _ _ [flip dw t k, flip dw t l] ≤ 2
    rw [flip_dataAt hc, flip_dataAt hd]
    unfold costOf
    rw [oddLines_pair (key := .X) rfl]
    simp
  | Z =>
    simp only [otherKey, orderOf] at hfour hdrop
    obtain ⟨i, j, k, l, ha, hb, hc, hd⟩ := filterMap_four hfour
    rw [ha, hb, hc, hd] at hdrop
    subst hdrop
    show costOf _ _ _ [flip dw t k, flip dw t l] ≤ 2
    rw [flip_dataAt hc, flip_dataAt hd]
    unfold costOf
    rw [oddLines_pair (key := .Z) rfl]
    simp

/-! ### Data qubits flipped during a round -/

/-- The plaquettes of a type that contain a data qubit, with their numbers. -/
def nbrs (key : Key) (dh dw i : Int) : List ((Int × Int) × Nat) := (sitesOf key dh dw).zipIdx.filter fun p => decide (i ∈ around dh dw p.1)

/-- A misreading of a plaquette. -/
def misread (t : Int) (p : (Int × Int) × Nat) : Fault := .meas t p.1.1 p.1.2

theorem affects_flip (H : OddPos dh dw) {p : Int × Int} (hp : SiteOf dh dw key p) {i : Int} (hi : i ∈ allQubits dh dw) (t N : Int) :
    Fault.affects N p.1 p.2 (flip dw t i) = (decide (t < N) && decide (i ∈ around dh dw p)) := by
  by_cases h : t < N
  · rw [decide_eq_true h, Bool.true_and]
    exact affects_data H hp hi h
  · rw [decide_eq_false h, Bool.false_and]
    simp only [flip, Fault.affects, decide_eq_false h, Bool.false_and]

theorem nbrs_length (H : OddPos dh dw) {i : Int} (hi : i ∈ allQubits dh dw) : (nbrs key dh dw i).length ≤ 2 := by
  have hin : ∀ p ∈ nbrs key dh dw i, SiteOf dh dw key p.1 ∧ (p.1.1 = 2 * (i / dw) - 1 ∨ p.1.1 = 2 * (i / dw) + 1) ∧
      (p.1.2 = 2 * (i % dw) - 1 ∨ p.1.2 = 2 * (i % dw) + 1) := by
    intro p hp
    obtain ⟨h1, h2⟩ := List.mem_filter.1 hp
    have hs : SiteOf dh dw key p.1 := site_mem_iff.2 (mem_zipIdx_site h1).1
    have h3 := affects_flip H hs hi 0 1
    rw [h2] at h3
    simp only [flip, Fault.affects] at h3
    simp at h3
    exact ⟨hs, h3.1, h3.2⟩
  have hnd : ((nbrs key dh dw i).map fun p => p.1.1).Nodup := by
    have hz : (nbrs key dh dw i).Nodup :=
      (List.Nodup.of_map Prod.snd (by rw [List.zipIdx_map_snd]; exact List.nodup_range')).filter _
    refine hz.map_on fun p hp p' hp' e => ?_
    obtain ⟨⟨r, c⟩, k⟩ := p
    obtain ⟨⟨r', c'⟩, k'⟩ := p'
    have a := hin _ hp
    have a' := hin _ hp'
    simp only at e a a'
    have hc : c = c' := by
      obtain ⟨a1, -, a3⟩ := a
      obtain ⟨b1, -, b3⟩ := a'
      subst e
      cases key
      · have a1' : XSite dh dw r c := a1
        have b1' : XSite dh dw r c' := b1
        unfold XSite at a1' b1'
        omega
      · have a1' : ZSite dh dw r c := a1
        have b1' : ZSite dh dw r c' := b1
        unfold ZSite at a1' b1'
        omega
    subst e hc
    have h1 := List.mem_zipIdx_iff_getElem?.1 (List.mem_filter.1 hp).1
    have h2 := List.mem_zipIdx_iff_getElem?.1 (List.mem_filter.1 hp').1
    simp only at h1 h2
    obtain ⟨hlt, -⟩ := List.getElem?_eq_some_iff.1 h1
    rw [(List.getElem?_inj hlt (sitesOf_nodup key dh dw)).1 (h1.trans h2.symm)]
  have hsub : ((nbrs key dh dw i).map fun p => p.1.1) ⊆ [2 * (i / dw) - 1, 2 * (i / dw) + 1] := by
    intro r hr
    obtain ⟨p, hp, rfl⟩ := List.mem_map.1 hr
    have := (hin p hp).2.1
    simpa using this
  have := (List.subperm_of_subset hnd hsub).length_le
  rwa [List.length_map] at this

theorem misread_sum {k : Nat} {p : Int × Int} (hp : (sitesOf key dh dw)[k]? = some p) (i t N : Int) :
    reading ((nbrs key dh dw i).map (misread t)) N p = (decide (i ∈ around dh dw p) && decide (N = t + 1)) := by
  unfold reading nbrs
  rw [List.map_map, xorAll_filter, zipIdx_sum hp]
  · simp only [comp, misread, Fault.affects, beq_self_eq_true, Bool.true_and]
    congr 1
  · rintro ⟨p', k'⟩ hb hne
    have hb' := List.mem_zipIdx_iff_getElem?.1 hb
    simp only at hb' hne ⊢
    have : p' ≠ p := by
      rintro rfl
      obtain ⟨hlt, -⟩ := List.getElem?_eq_some_iff.1 hb'
      exact hne ((List.getElem?_inj hlt (sitesOf_nodup key dh dw)).1 (hb'.trans hp.symm))
    simp only [comp, misread, Fault.affects]
    rw [Bool.eq_false_iff]
    intro h
    simp only [Bool.and_eq_true, beq_iff_eq] at h
    exact this (Prod.ext h.2.1.1.symm h.2.1.2.symm)

/-- A data qubit flipped after a round all of whose neighbours are misread in this round is flipped before the round. -/
theorem flip_early (H : OddPos dh dw) {i : Int} (hi : i ∈ allQubits dh dw) (t : Int) :
    Amounts key dh dw (flip dw t i :: (nbrs key dh dw i).map (misread (t - 1))) [flip dw (t - 1) i] := by
  constructor
  · intro N p hp
    obtain ⟨k, hk⟩ := List.getElem?_of_mem (site_mem_iff.1 hp)
    rw [← List.singleton_append, reading_append, misread_sum hk]
    unfold reading
    simp only [List.map_cons, List.map_nil, xorAll_cons, xorAll_nil, Bool.xor_false]
    rw [affects_flip H hp hi, affects_flip H hp hi]
    rcases Int.lt_trichotomy t N with h | h | h
    · rw [decide_eq_true h, decide_eq_true (show t - 1 < N by omega), decide_eq_false (show ¬ N = t - 1 + 1 by omega)]
      simp
    · rw [decide_eq_false (show ¬ t < N by omega), decide_eq_true (show t - 1 < N by omega), decide_eq_true (show N = t - 1 + 1 by omega)]
      simp
    · rw [decide_eq_false (show ¬ t < N by omega), decide_eq_false (show ¬ t - 1 < N by omega), decide_eq_false (show ¬ N = t - 1 + 1 by omega)]
      simp
  · rw [← List.singleton_append, readoutFlipped_append, readoutFlipped_eq_false (fs := (nbrs key dh dw i).map _)]
    · rw [Bool.xor_false]
      rfl
    · intro f hf
      obtain ⟨p, -, rfl⟩ := List.mem_map.1 hf
      exact ⟨_, _, _, rfl⟩

/-- A data qubit flipped in the middle of a round, when some of its plaquettes have already been measured: this costs at most 3. -/
theorem flip_middle (H : OddPos dh dw) {i : Int} (hi : i ∈ allQubits dh dw) (t : Int) {R : List ((Int × Int) × Nat)} (hR : R <:+ nbrs key dh dw i) :
    ∃ gs, Amounts key dh dw (flip dw t i :: R.map (misread (t - 1))) gs ∧ costOf key dh dw gs ≤ 3 ∧
      ∀ f ∈ gs, (f = flip dw t i ∨ f = flip dw (t - 1) i) ∨ ∃ p ∈ nbrs key dh dw i, f = misread (t - 1) p := by
  by_cases h : R = nbrs key dh dw i
  · subst h
    refine ⟨[flip dw (t - 1) i], flip_early H hi t, ?_, ?_⟩
    · have := costOf_le (key := key) (dh := dh) (dw := dw) [flip dw (t - 1) i]
      simp only [List.length_cons, List.length_nil] at this
      omega
    · intro f hf
      exact Or.inl (Or.inr (List.mem_singleton.1 hf))
  · refine ⟨_, Amounts.refl _, ?_, ?_⟩
    · have h1 : R.length ≤ 1 := by
        have := nbrs_length (key := key) H hi
        have h2 := hR.length_le
        rcases Nat.lt_or_ge R.length (nbrs key dh dw i).length with h3 | h3
        · omega
        · exact absurd (hR.eq_of_length_le h3) h
      rw [← List.singleton_append]
      have a := costOf_append (key := key) (dh := dh) (dw := dw) [flip dw t i] (R.map (misread (t - 1)))
      have b := costOf_le (key := key) (dh := dh) (dw := dw) [flip dw t i]
      have c : costOf key dh dw (R.map (misread (t - 1))) = R.length := by
        rw [costOf_meas, List.length_map]
        intro f hf
        obtain ⟨p, -, rfl⟩ := List.mem_map.1 hf
        exact ⟨_, _, _, rfl⟩
      simp only [List.length_cons, List.length_nil] at b
      omega
    · intro f hf
      rcases List.mem_cons.1 hf with rfl | hf
      · exact Or.inl (Or.inl rfl)
      · obtain ⟨p, hp, rfl⟩ := List.mem_map.1 hf
        exact Or.inr ⟨p, hR.subset hp, rfl⟩

end Qtc
