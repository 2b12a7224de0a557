import Verif.Spec.Biased
import Verif.Proof.QFault
/-!
Which plaquettes notice errors of one kind.
-/
namespace Qtc
open Spec Function

variable {code : Code} {name : Str} {dh dw : Int} {a : Letter} {E : Int → Int → Bool}

theorem letters_passes (b : Letter) {j : Int} (hj : 0 ≤ j) {l : List Int} (hl : ∀ i ∈ l, 0 ≤ i) (hn : l.Nodup) :
    Passes (decide (b ≠ a) && decide (j ∈ l)) (pstr (l.map fun i => (a, dataQ name i))) (b.op (dataQ name j)) := by
  induction l with
  | nil =>
    rw [decide_eq_false (by simp : j ∉ []), Bool.and_false]
    exact (Passes.one_right _).symm
  | cons i l ih =>
    rw [List.nodup_cons] at hn
    have e : pstr ((i :: l).map fun i => (a, dataQ name i)) = a.op (dataQ name i) * pstr (l.map fun i => (a, dataQ name i)) := by
      simp [pstr]
    rw [e]
    have h := ih (fun i hi => hl i (by simp [hi])) hn.2
    by_cases hij : j = i
    · subst hij
      rw [decide_eq_false hn.1, Bool.and_false] at h
      by_cases hb : b = a
      · subst hb
        simpa using (passes_false.2 (Commute.refl _)).mul_left h
      · simpa [hb] using (letter_anti (Ne.symm hb) _).mul_left h
    · have : Passes false (a.op (dataQ name i)) (b.op (dataQ name j)) :=
        passes_false.2 (letter_comm (fun e => hij (dataQ_inj (hl i (by simp)) hj e).symm) _ _)
      simpa [hij] using this.mul_left h

theorem sites_passes (b : Letter) {j : Int} (hj : j ∈ allQubits dh dw) :
    Passes (decide (b ≠ a) && E (j / dw) (j % dw)) (onSites a name dh dw E) (b.op (dataQ name j)) := by
  have := letters_passes (a := a) (name := name) b (all_nonneg j hj) (l := (allQubits dh dw).filter fun i => E (i / dw) (i % dw))
    (fun i hi => all_nonneg i (List.mem_of_mem_filter hi)) (all_nodup.filter _)
  have e : decide (j ∈ (allQubits dh dw).filter fun i => E (i / dw) (i % dw)) = E (j / dw) (j % dw) := by
    rw [Bool.eq_iff_iff]
    simp [hj]
  rw [e] at this
  exact this

/-- Is the site in the lattice and in the set? -/
def hasAt (dh dw : Int) (E : Int → Int → Bool) (r c : Int) : Bool := decide (0 ≤ r ∧ r < dh ∧ 0 ≤ c ∧ c < dw) && E r c

theorem corner_passes (hdw : 0 < dw) (b : Letter) (r c : Int) : Passes (decide (b ≠ a) && hasAt dh dw E r c) (onSites a name dh dw E)
    (pstr ((((dataAt dh dw r c).map fun i => (b, dataQ name i))).toList)) := by
  unfold hasAt dataAt
  by_cases h : 0 ≤ r ∧ r < dh ∧ 0 ≤ c ∧ c < dw
  · rw [if_pos h, decide_eq_true h, Bool.true_and]
    have := sites_passes (a := a) (name := name) (E := E) b (site_mem h)
    rw [show (r * dw + c) / dw = r by rw [Int.add_comm, Int.add_mul_ediv_right _ _ (by omega), Int.ediv_eq_zero_of_lt h.2.2.1 h.2.2.2]; omega,
      show (r * dw + c) % dw = c by rw [Int.add_comm, Int.add_mul_emod_self_right, Int.emod_eq_of_lt h.2.2.1 h.2.2.2]] at this
    have e : pstr (((some (r * dw + c)).map fun i => (b, dataQ name i)).toList) = b.op (dataQ name (r * dw + c)) := by
      simp [pstr]
    rw [e]
    exact this
  · rw [if_neg h, decide_eq_false h, Bool.false_and, Bool.and_false]
    exact Passes.one_right _

theorem pstr_append (l l' : List (Letter × Qubit)) : pstr (l ++ l') = pstr l * pstr l' := by simp [pstr]

/-- Whether a plaquette notices. -/
def seenAt (code : Code) (key : Key) (dh dw : Int) (a : Letter) (E : Int → Int → Bool) (p : Int × Int) : Bool :=
  match checkLetters code key with
  | [b1, b2, b3, b4] =>
    (decide (b1 ≠ a) && hasAt dh dw E ((p.1 - 1) / 2) ((p.2 - 1) / 2)) ^^ ((decide (b2 ≠ a) && hasAt dh dw E ((p.1 - 1) / 2) ((p.2 + 1) / 2)) ^^
      ((decide (b3 ≠ a) && hasAt dh dw E ((p.1 + 1) / 2) ((p.2 - 1) / 2)) ^^ (decide (b4 ≠ a) && hasAt dh dw E ((p.1 + 1) / 2) ((p.2 + 1) / 2))))
  | _ => false

theorem check_passes (hdw : 0 < dw) (key : Key) (p : Int × Int) :
    Passes (seenAt code key dh dw a E p) (onSites a name dh dw E) (checkOp code name dh dw key p) := by
  have h4 : ∃ b1 b2 b3 b4, checkLetters code key = [b1, b2, b3, b4] := by
    cases code <;> cases key <;> exact ⟨_, _, _, _, rfl⟩
  obtain ⟨b1, b2, b3, b4, e⟩ := h4
  unfold seenAt checkOp cornersOf
  rw [e]
  have e2 : pstr (([b1, b2, b3, b4].zip [dataAt dh dw ((p.1 - 1) / 2) ((p.2 - 1) / 2), dataAt dh dw ((p.1 - 1) / 2) ((p.2 + 1) / 2),
      dataAt dh dw ((p.1 + 1) / 2) ((p.2 - 1) / 2), dataAt dh dw ((p.1 + 1) / 2) ((p.2 + 1) / 2)]).filterMap
        fun e => e.2.map fun i => (e.1, dataQ name i)) =
      pstr (((dataAt dh dw ((p.1 - 1) / 2) ((p.2 - 1) / 2)).map fun i => (b1, dataQ name i)).toList) *
      (pstr (((dataAt dh dw ((p.1 - 1) / 2) ((p.2 + 1) / 2)).map fun i => (b2, dataQ name i)).toList) *
      (pstr (((dataAt dh dw ((p.1 + 1) / 2) ((p.2 - 1) / 2)).map fun i => (b3, dataQ name i)).toList) *
      pstr (((dataAt dh dw ((p.1 + 1) / 2) ((p.2 + 1) / 2)).map fun i => (b4, dataQ name i)).toList))) := by
    rw [← pstr_append, ← pstr_append, ← pstr_append]
    congr 1
    simp only [List.zip_cons_cons, List.zip_nil_right, List.filterMap_cons, List.filterMap_nil]
    cases dataAt dh dw ((p.1 - 1) / 2) ((p.2 - 1) / 2) <;> cases dataAt dh dw ((p.1 - 1) / 2) ((p.2 + 1) / 2) <;>
      cases dataAt dh dw ((p.1 + 1) / 2) ((p.2 - 1) / 2) <;> cases dataAt dh dw ((p.1 + 1) / 2) ((p.2 + 1) / 2) <;> rfl
  rw [e2]
  exact (corner_passes hdw b1 _ _).mul_right ((corner_passes hdw b2 _ _).mul_right ((corner_passes hdw b3 _ _).mul_right (corner_passes hdw b4 _ _)))

theorem onSites_sq (a : Letter) (name : Str) (dh dw : Int) (E : Int → Int → Bool) : onSites a name dh dw E * onSites a name dh dw E = 1 := by
  unfold onSites
  induction (allQubits dh dw).filter fun i => E (i / dw) (i % dw) with
  | nil => exact one_mul _
  | cons i l ih =>
    have e : pstr ((i :: l).map fun i => (a, dataQ name i)) = a.op (dataQ name i) * pstr (l.map fun i => (a, dataQ name i)) := by
      simp [pstr]
    have hc : Commute (a.op (dataQ name i)) (pstr (l.map fun i => (a, dataQ name i))) := by
      refine Commute.list_prod_right _ _ fun B hB => ?_
      rw [List.map_map] at hB
      obtain ⟨j, -, rfl⟩ := List.mem_map.1 hB
      exact letter_comm_self _ _ a
    rw [e, mul_assoc, ← mul_assoc (pstr _), ← hc.eq, mul_assoc, ih, mul_one, letter_sq]

theorem Passes.commute_iff {v : Bool} {A B : Op} (h : Passes v A B) (hA : A * A = 1) (hB : B * B = 1) : Commute A B ↔ v = false := by
  constructor
  · intro hc
    cases v
    · rfl
    · exfalso
      have h1 : A * B = -(B * A) := by
        have : A * B = sg true • (B * A) := h
        rw [this, show sg true = -1 from rfl]
        exact neg_one_smul ℂ (B * A)
      rw [hc.eq] at h1
      have h2 : B * A = 0 := by
        have : (2 : ℂ) • (B * A) = 0 := by
          rw [two_smul]
          nth_rw 1 [h1]
          exact neg_add_cancel _
        exact (smul_eq_zero.1 this).resolve_left (by norm_num)
      have h3 : (1 : Op) = 0 := by
        rw [← hB, ← mul_one (B * B), ← hA, mul_assoc, ← mul_assoc B A A, h2, zero_mul, mul_zero]
      have : (ground : Psi) = 0 := by
        have := congrArg (fun f : Op => f ground) h3
        simpa using this
      exact ground_ne_zero this
  · rintro rfl
    exact passes_false.1 h

theorem unnoticed_iff (H : OddPos dh dw) : Unnoticed code name dh dw (onSites a name dh dw E) ↔
    ∀ key p, SiteOf dh dw key p → seenAt code key dh dw a E p = false := by
  constructor
  · intro h key p hp
    refine ((check_passes H.2.2.1 key p).commute_iff (onSites_sq _ _ _ _ _) (check_sq H hp)).1 (h _ ?_)
    unfold checks
    cases key
    · exact List.mem_append_right _ (List.mem_map.2 ⟨p, mem_xSites.2 hp, rfl⟩)
    · exact List.mem_append_left _ (List.mem_map.2 ⟨p, mem_zSites.2 hp, rfl⟩)
  · intro h C hC
    obtain ⟨key, p, hp, rfl⟩ := mem_checks hC
    have := check_passes (code := code) (name := name) (dh := dh) (a := a) (E := E) H.2.2.1 key p
    rw [h key p hp] at this
    exact passes_false.1 this

/-! ### Diagonals -/

theorem hasAt_in {r c : Int} (h : InLat dh dw r c) : hasAt dh dw E r c = E r c := by
  unfold hasAt
  rw [decide_eq_true (show 0 ≤ r ∧ r < dh ∧ 0 ≤ c ∧ c < dw from h), Bool.true_and]

theorem hasAt_out {r c : Int} (h : ¬ InLat dh dw r c) : hasAt dh dw E r c = false := by
  unfold hasAt
  rw [decide_eq_false (show ¬ (0 ≤ r ∧ r < dh ∧ 0 ≤ c ∧ c < dw) from h), Bool.false_and]

theorem seenAt_z (key : Key) (p : Int × Int) : seenAt .xzzx key dh dw .Z E p =
    (hasAt dh dw E ((p.1 - 1) / 2) ((p.2 - 1) / 2) ^^ hasAt dh dw E ((p.1 + 1) / 2) ((p.2 + 1) / 2)) := by
  simp [seenAt, checkLetters]

theorem seenAt_x (key : Key) (p : Int × Int) : seenAt .xzzx key dh dw .X E p =
    (hasAt dh dw E ((p.1 - 1) / 2) ((p.2 + 1) / 2) ^^ hasAt dh dw E ((p.1 + 1) / 2) ((p.2 - 1) / 2)) := by
  simp [seenAt, checkLetters]

/-- The plaquette below and to the right of a site. -/
theorem seen_next (h : ∀ key p, SiteOf dh dw key p → seenAt .xzzx key dh dw .Z E p = false) {r c : Int}
    (hs : ∃ key, SiteOf dh dw key (2 * r + 1, 2 * c + 1)) : hasAt dh dw E r c = hasAt dh dw E (r + 1) (c + 1) := by
  obtain ⟨key, hs⟩ := hs
  have := h key _ hs
  rw [seenAt_z] at this
  simp only [show (2 * r + 1 - 1) / 2 = r by omega, show (2 * c + 1 - 1) / 2 = c by omega, show (2 * r + 1 + 1) / 2 = r + 1 by omega,
    show (2 * c + 1 + 1) / 2 = c + 1 by omega] at this
  revert this
  cases hasAt dh dw E r c <;> cases hasAt dh dw E (r + 1) (c + 1) <;> simp

/-- The plaquette above and to the right of a site. -/
theorem seen_up (h : ∀ key p, SiteOf dh dw key p → seenAt .xzzx key dh dw .X E p = false) {r c : Int}
    (hs : ∃ key, SiteOf dh dw key (2 * r - 1, 2 * c + 1)) : hasAt dh dw E r c = hasAt dh dw E (r - 1) (c + 1) := by
  obtain ⟨key, hs⟩ := hs
  have := h key _ hs
  rw [seenAt_x] at this
  simp only [show (2 * r - 1 - 1) / 2 = r - 1 by omega, show (2 * c + 1 - 1) / 2 = c by omega, show (2 * r - 1 + 1) / 2 = r by omega,
    show (2 * c + 1 + 1) / 2 = c + 1 by omega] at this
  revert this
  cases hasAt dh dw E r c <;> cases hasAt dh dw E (r - 1) (c + 1) <;> simp

theorem is_site {r2 c2 : Int} (h : XSite dh dw r2 c2 ∨ ZSite dh dw r2 c2) : ∃ key, SiteOf dh dw key (r2, c2) := by
  rcases h with h | h
  · exact ⟨.X, h⟩
  · exact ⟨.Z, h⟩

theorem inner_site {r2 c2 : Int} (h : r2 % 2 = 1 ∧ c2 % 2 = 1 ∧ 1 ≤ r2 ∧ r2 ≤ 2 * dh - 3 ∧ 1 ≤ c2 ∧ c2 ≤ 2 * dw - 3) :
    ∃ key, SiteOf dh dw key (r2, c2) := by
  refine is_site ?_
  unfold XSite ZSite
  omega

theorem walk_down (h : ∀ key p, SiteOf dh dw key p → seenAt .xzzx key dh dw .Z E p = false) {r c : Int} (hi : InLat dh dw r c) :
    ∀ k : Nat, InLat dh dw (r + k) (c + k) → E (r + k) (c + k) = E r c
  | 0, _ => by simp
  | k + 1, hk => by
    unfold InLat at hi hk
    have hk' : InLat dh dw (r + k) (c + k) := by unfold InLat; omega
    rw [← walk_down h (by unfold InLat; omega) k hk']
    have := seen_next h (r := r + k) (c := c + k) (inner_site (by omega))
    rw [hasAt_in hk', hasAt_in (by unfold InLat; omega)] at this
    rw [this]
    congr 1 <;> omega

theorem walk_up (h : ∀ key p, SiteOf dh dw key p → seenAt .xzzx key dh dw .X E p = false) {r c : Int} (hi : InLat dh dw r c) :
    ∀ k : Nat, InLat dh dw (r - k) (c + k) → E (r - k) (c + k) = E r c
  | 0, _ => by simp
  | k + 1, hk => by
    unfold InLat at hi hk
    have hk' : InLat dh dw (r - k) (c + k) := by unfold InLat; omega
    rw [← walk_up h (by unfold InLat; omega) k hk']
    have := seen_up h (r := r - k) (c := c + k) (inner_site (by omega))
    rw [hasAt_in hk', hasAt_in (by unfold InLat; omega)] at this
    rw [this]
    congr 1 <;> omega

theorem silent_z (H : OddPos dh dw) : (∀ key p, SiteOf dh dw key p → seenAt .xzzx key dh dw .Z E p = false) ↔
    (∀ r c, InLat dh dw r c → InLat dh dw (r + 1) (c + 1) → E (r + 1) (c + 1) = E r c) ∧
    ∀ r c, InLat dh dw r c → E r c = true →
      if (r + c) % 2 = 0 then 0 ≤ c - r ∧ c - r ≤ dw - dh else 0 ≤ r - c ∧ r - c ≤ dh - dw := by
  unfold OddPos at H
  constructor
  · intro h
    refine ⟨fun r c hi hj => ?_, fun r c hi he => ?_⟩
    · have := walk_down h hi 1 (by simpa using hj)
      simpa using this
    · have hi' := hi
      unfold InLat at hi'
      -- the first and the last site of the diagonal
      have first : ∀ r0 c0 : Int, InLat dh dw r0 c0 → r0 ≤ r → r - r0 = c - c0 → ¬ ∃ key, SiteOf dh dw key (2 * r0 - 1, 2 * c0 - 1) ∧
          ¬ InLat dh dw (r0 - 1) (c0 - 1) := by
        intro r0 c0 h0 h1 h2 ⟨key, hs, hn⟩
        have hw := walk_down h h0 (r - r0).toNat (by rw [Int.toNat_of_nonneg (by omega)]; unfold InLat; omega)
        rw [Int.toNat_of_nonneg (by omega), show r0 + (r - r0) = r by omega, show c0 + (r - r0) = c by omega, he] at hw
        have := seen_next h (r := r0 - 1) (c := c0 - 1) ⟨key, by
          rw [show 2 * (r0 - 1) + 1 = 2 * r0 - 1 by omega, show 2 * (c0 - 1) + 1 = 2 * c0 - 1 by omega]; exact hs⟩
        rw [hasAt_out hn, show r0 - 1 + 1 = r0 by omega, show c0 - 1 + 1 = c0 by omega, hasAt_in h0, ← hw] at this
        exact Bool.false_ne_true this
      have last : ∀ r0 c0 : Int, InLat dh dw r0 c0 → r ≤ r0 → r0 - r = c0 - c → ¬ ∃ key, SiteOf dh dw key (2 * r0 + 1, 2 * c0 + 1) ∧
          ¬ InLat dh dw (r0 + 1) (c0 + 1) := by
        intro r0 c0 h0 h1 h2 ⟨key, hs, hn⟩
        have hw := walk_down h hi (r0 - r).toNat (by rw [Int.toNat_of_nonneg (by omega)]; unfold InLat at h0 ⊢; omega)
        rw [Int.toNat_of_nonneg (by omega), show r + (r0 - r) = r0 by omega, show c + (r0 - r) = c0 by omega, he] at hw
        have := seen_next h (r := r0) (c := c0) ⟨key, hs⟩
        rw [hasAt_out hn, hasAt_in h0, hw] at this
        exact Bool.false_ne_true this.symm
      split
      · constructor
        · by_contra hc
          exact first (r - c) 0 (by unfold InLat; omega) (by omega) (by omega) ⟨.Z, by
            show ZSite _ _ _ _
            unfold ZSite; dsimp only; omega, by unfold InLat; omega⟩
        · by_contra hc
          exact last (r + (dw - 1 - c)) (dw - 1) (by unfold InLat; omega) (by omega) (by omega) ⟨.Z, by
            show ZSite _ _ _ _
            unfold ZSite; dsimp only; omega, by unfold InLat; omega⟩
      · constructor
        · by_contra hc
          exact first 0 (c - r) (by unfold InLat; omega) (by omega) (by omega) ⟨.X, by
            show XSite _ _ _ _
            unfold XSite; dsimp only; omega, by unfold InLat; omega⟩
        · by_contra hc
          exact last (dh - 1) (c + (dh - 1 - r)) (by unfold InLat; omega) (by omega) (by omega) ⟨.X, by
            show XSite _ _ _ _
            unfold XSite; dsimp only; omega, by unfold InLat; omega⟩
  · rintro ⟨h1, h2⟩ key ⟨r2, c2⟩ hp
    have hx : XSite dh dw r2 c2 ∨ ZSite dh dw r2 c2 := by
      cases key
      · exact Or.inl hp
      · exact Or.inr hp
    unfold XSite ZSite at hx
    rw [seenAt_z]
    dsimp only
    obtain ⟨r, rfl⟩ : ∃ r, r2 = 2 * r + 1 := ⟨r2 / 2, by omega⟩
    obtain ⟨c, rfl⟩ : ∃ c, c2 = 2 * c + 1 := ⟨c2 / 2, by omega⟩
    simp only [show (2 * r + 1 - 1) / 2 = r by omega, show (2 * c + 1 - 1) / 2 = c by omega, show (2 * r + 1 + 1) / 2 = r + 1 by omega,
      show (2 * c + 1 + 1) / 2 = c + 1 by omega]
    by_cases ha : InLat dh dw r c <;> by_cases hb : InLat dh dw (r + 1) (c + 1)
    · rw [hasAt_in ha, hasAt_in hb, h1 r c ha hb, Bool.xor_self]
    · rw [hasAt_in ha, hasAt_out hb, Bool.xor_false, Bool.eq_false_iff]
      intro ht
      have := h2 r c ha ht
      unfold InLat at ha hb
      split at this <;> omega
    · rw [hasAt_out ha, hasAt_in hb, Bool.false_xor, Bool.eq_false_iff]
      intro ht
      have := h2 _ _ hb ht
      unfold InLat at ha hb
      split at this <;> omega
    · rw [hasAt_out ha, hasAt_out hb]; rfl

theorem silent_x (H : OddPos dh dw) : (∀ key p, SiteOf dh dw key p → seenAt .xzzx key dh dw .X E p = false) ↔
    (∀ r c, InLat dh dw r c → InLat dh dw (r - 1) (c + 1) → E (r - 1) (c + 1) = E r c) ∧
    ∀ r c, InLat dh dw r c → E r c = true →
      if (r + c) % 2 = 0 then dw - 1 ≤ r + c ∧ r + c ≤ dh - 1 else dh - 1 ≤ r + c ∧ r + c ≤ dw - 1 := by
  unfold OddPos at H
  constructor
  · intro h
    refine ⟨fun r c hi hj => ?_, fun r c hi he => ?_⟩
    · have := walk_up h hi 1 (by simpa using hj)
      simpa using this
    · have hi' := hi
      unfold InLat at hi'
      have first : ∀ r0 c0 : Int, InLat dh dw r0 c0 → r ≤ r0 → r0 - r = c - c0 → ¬ ∃ key, SiteOf dh dw key (2 * r0 + 1, 2 * c0 - 1) ∧
          ¬ InLat dh dw (r0 + 1) (c0 - 1) := by
        intro r0 c0 h0 h1 h2 ⟨key, hs, hn⟩
        have hw := walk_up h h0 (r0 - r).toNat (by rw [Int.toNat_of_nonneg (by omega)]; unfold InLat; omega)
        rw [Int.toNat_of_nonneg (by omega), show r0 - (r0 - r) = r by omega, show c0 + (r0 - r) = c by omega, he] at hw
        have := seen_up h (r := r0 + 1) (c := c0 - 1) ⟨key, by
          rw [show 2 * (r0 + 1) - 1 = 2 * r0 + 1 by omega, show 2 * (c0 - 1) + 1 = 2 * c0 - 1 by omega]; exact hs⟩
        rw [hasAt_out hn, show r0 + 1 - 1 = r0 by omega, show c0 - 1 + 1 = c0 by omega, hasAt_in h0, ← hw] at this
        exact Bool.false_ne_true this
      have last : ∀ r0 c0 : Int, InLat dh dw r0 c0 → r0 ≤ r → r - r0 = c0 - c → ¬ ∃ key, SiteOf dh dw key (2 * r0 - 1, 2 * c0 + 1) ∧
          ¬ InLat dh dw (r0 - 1) (c0 + 1) := by
        intro r0 c0 h0 h1 h2 ⟨key, hs, hn⟩
        have hw := walk_up h hi (r - r0).toNat (by rw [Int.toNat_of_nonneg (by omega)]; unfold InLat at h0 ⊢; omega)
        rw [Int.toNat_of_nonneg (by omega), show r - (r - r0) = r0 by omega, show c + (r - r0) = c0 by omega, he] at hw
        have := seen_up h (r := r0) (c := c0) ⟨key, hs⟩
        rw [hasAt_out hn, hasAt_in h0, hw] at this
        exact Bool.false_ne_true this.symm
      split
      · constructor
        · by_contra hc
          exact last 0 (c + r) (by unfold InLat; omega) (by omega) (by omega) ⟨.X, by
            show XSite _ _ _ _
            unfold XSite; dsimp only; omega, by unfold InLat; omega⟩
        · by_contra hc
          exact first (dh - 1) (c + r - (dh - 1)) (by unfold InLat; omega) (by omega) (by omega) ⟨.X, by
            show XSite _ _ _ _
            unfold XSite; dsimp only; omega, by unfold InLat; omega⟩
      · constructor
        · by_contra hc
          exact first (r + c) 0 (by unfold InLat; omega) (by omega) (by omega) ⟨.Z, by
            show ZSite _ _ _ _
            unfold ZSite; dsimp only; omega, by unfold InLat; omega⟩
        · by_contra hc
          exact last (r + c - (dw - 1)) (dw - 1) (by unfold InLat; omega) (by omega) (by omega) ⟨.Z, by
            show ZSite _ _ _ _
            unfold ZSite; dsimp only; omega, by unfold InLat; omega⟩
  · rintro ⟨h1, h2⟩ key ⟨r2, c2⟩ hp
    have hx : XSite dh dw r2 c2 ∨ ZSite dh dw r2 c2 := by
      cases key
      · exact Or.inl hp
      · exact Or.inr hp
    unfold XSite ZSite at hx
    rw [seenAt_x]
    dsimp only
    obtain ⟨r, rfl⟩ : ∃ r, r2 = 2 * r - 1 := ⟨r2 / 2 + 1, by omega⟩
    obtain ⟨c, rfl⟩ : ∃ c, c2 = 2 * c + 1 := ⟨c2 / 2, by omega⟩
    simp only [show (2 * r - 1 - 1) / 2 = r - 1 by omega, show (2 * c + 1 - 1) / 2 = c by omega, show (2 * r - 1 + 1) / 2 = r by omega,
      show (2 * c + 1 + 1) / 2 = c + 1 by omega]
    by_cases ha : InLat dh dw r c <;> by_cases hb : InLat dh dw (r - 1) (c + 1)
    · rw [hasAt_in ha, hasAt_in hb, h1 r c ha hb, Bool.xor_self]
    · rw [hasAt_in ha, hasAt_out hb, Bool.false_xor, Bool.eq_false_iff]
      intro ht
      have := h2 r c ha ht
      unfold InLat at ha hb
      split at this <;> omega
    · rw [hasAt_out ha, hasAt_in hb, Bool.xor_false, Bool.eq_false_iff]
      intro ht
      have := h2 _ _ hb ht
      unfold InLat at ha hb
      split at this <;> omega
    · rw [hasAt_out ha, hasAt_out hb]; rfl

end Qtc
