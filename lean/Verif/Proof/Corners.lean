import Verif.Proof.Parity
namespace Qtc
open Spec

/-- A data qubit is a corner of a plaquette position iff its site is diagonal to it. -/
theorem mem_cornersOf {dh dw r c r2 c2 : Int} (h : 0 ≤ r ∧ r < dh ∧ 0 ≤ c ∧ c < dw) (h1 : r2 % 2 = 1) (h2 : c2 % 2 = 1) :
    some (r * dw + c) ∈ cornersOf dh dw r2 c2 ↔ (r2 = 2*r-1 ∨ r2 = 2*r+1) ∧ (c2 = 2*c-1 ∨ c2 = 2*c+1) := by
  have key : ∀ r' c' : Int, some (r*dw+c) = dataAt dh dw r' c' ↔ r = r' ∧ c = c' := by
    intro r' c'
    unfold dataAt
    split
    · rename_i h'
      constructor
      · intro e
        exact site_inj (by omega) (by omega) (Option.some.inj e)
      · rintro ⟨rfl, rfl⟩; rfl
    · rename_i h'
      constructor
      · intro e; cases e
      · rintro ⟨rfl, rfl⟩; exact absurd h h'
  simp only [cornersOf, List.mem_cons, List.not_mem_nil, or_false, key]
  omega

/-- The site of a data qubit. -/
theorem site_of {dh dw q : Int} (hq : 0 ≤ q ∧ q < dh * dw) (hw : 0 < dw) :
    ∃ r c, (0 ≤ r ∧ r < dh ∧ 0 ≤ c ∧ c < dw) ∧ q = r * dw + c := by
  refine ⟨q / dw, q % dw, ⟨Int.ediv_nonneg hq.1 (by omega), Int.ediv_lt_of_lt_mul hw hq.2,
    Int.emod_nonneg _ (by omega), Int.emod_lt_of_pos _ hw⟩, ?_⟩
  exact (Int.ediv_mul_add_emod q dw).symm

theorem mem_cornersOf_inRange {dh dw r2 c2 q : Int} (h : some q ∈ cornersOf dh dw r2 c2) :
    ∃ r c, (0 ≤ r ∧ r < dh ∧ 0 ≤ c ∧ c < dw) ∧ q = r * dw + c := by
  have key : ∀ r' c' : Int, some q = dataAt dh dw r' c' →
      ∃ r c, (0 ≤ r ∧ r < dh ∧ 0 ≤ c ∧ c < dw) ∧ q = r * dw + c := by
    intro r' c' e
    unfold dataAt at e
    split at e
    · rename_i h'
      exact ⟨r', c', h', Option.some.inj e⟩
    · cases e
  simp only [cornersOf, List.mem_cons, List.not_mem_nil, or_false] at h
  rcases h with h | h | h | h <;> exact key _ _ h

theorem dataAt_pos {dh dw r c : Int} (h : 0 ≤ r ∧ r < dh ∧ 0 ≤ c ∧ c < dw) :
    dataAt dh dw r c = some (r * dw + c) := by rw [dataAt, if_pos h]

theorem dataAt_neg {dh dw r c : Int} (h : ¬ (0 ≤ r ∧ r < dh ∧ 0 ≤ c ∧ c < dw)) :
    dataAt dh dw r c = none := by rw [dataAt, if_neg h]

/-- Which corners of an X plaquette exist: both bottom ones (top edge), both top ones (bottom edge), or all four. -/
theorem xsite_corners {dh dw r2 c2 : Int} (hd : 0 < dh) (h : XSite dh dw r2 c2) :
    (r2 = -1 ∧ cornersOf dh dw r2 c2 = [none, none, some ((c2-1)/2), some ((c2-1)/2+1)]) ∨
    (r2 = 2*dh-1 ∧ cornersOf dh dw r2 c2 =
      [some ((r2-1)/2*dw + (c2-1)/2), some ((r2-1)/2*dw + (c2-1)/2+1), none, none]) ∨
    (r2 ≠ -1 ∧ r2 ≠ 2*dh-1 ∧ cornersOf dh dw r2 c2 =
      [some ((r2-1)/2*dw + (c2-1)/2), some ((r2-1)/2*dw + (c2-1)/2+1),
       some ((r2-1)/2*dw + dw + (c2-1)/2), some ((r2-1)/2*dw + dw + (c2-1)/2+1)]) := by
  obtain ⟨h1, h2, h3, h4, h5, h6, h7⟩ := h
  unfold cornersOf
  have e1 : (c2+1)/2 = (c2-1)/2+1 := by omega
  have e2 : (r2+1)/2 = (r2-1)/2+1 := by omega
  by_cases a : r2 = -1
  · left
    subst a
    refine ⟨rfl, ?_⟩
    rw [dataAt_neg (by omega), dataAt_neg (by omega), dataAt_pos (by omega), dataAt_pos (by omega), e1]
    simp
  by_cases b : r2 = 2*dh-1
  · right; left
    refine ⟨b, ?_⟩
    rw [dataAt_pos (by omega), dataAt_pos (by omega), dataAt_neg (by omega), dataAt_neg (by omega), e1,
      Int.add_assoc]
  · right; right
    refine ⟨a, b, ?_⟩
    rw [dataAt_pos (by omega), dataAt_pos (by omega), dataAt_pos (by omega), dataAt_pos (by omega), e1, e2,
      Int.add_mul, Int.one_mul]
    simp only [Int.add_assoc]

/-- Which corners of a Z plaquette exist: both right ones (left edge), both left ones (right edge), or all four. -/
theorem zsite_corners {dh dw r2 c2 : Int} (hd : 0 < dw) (h : ZSite dh dw r2 c2) :
    (c2 = -1 ∧ cornersOf dh dw r2 c2 = [none, some ((r2-1)/2*dw), none, some ((r2-1)/2*dw+dw)]) ∨
    (c2 = 2*dw-1 ∧ cornersOf dh dw r2 c2 =
      [some ((r2-1)/2*dw + (c2-1)/2), none, some ((r2-1)/2*dw + dw + (c2-1)/2), none]) ∨
    (c2 ≠ -1 ∧ c2 ≠ 2*dw-1 ∧ cornersOf dh dw r2 c2 =
      [some ((r2-1)/2*dw + (c2-1)/2), some ((r2-1)/2*dw + (c2-1)/2+1),
       some ((r2-1)/2*dw + dw + (c2-1)/2), some ((r2-1)/2*dw + dw + (c2-1)/2+1)]) := by
  obtain ⟨h1, h2, h3, h4, h5, h6, h7⟩ := h
  unfold cornersOf
  have e1 : (c2+1)/2 = (c2-1)/2+1 := by omega
  have e2 : (r2+1)/2 = (r2-1)/2+1 := by omega
  by_cases a : c2 = -1
  · left
    subst a
    refine ⟨rfl, ?_⟩
    rw [dataAt_neg (by omega), dataAt_pos (by omega), dataAt_neg (by omega), dataAt_pos (by omega), e2,
      Int.add_mul]
    simp
  by_cases b : c2 = 2*dw-1
  · right; left
    refine ⟨b, ?_⟩
    rw [dataAt_pos (by omega), dataAt_neg (by omega), dataAt_pos (by omega), dataAt_neg (by omega), e2,
      Int.add_mul, Int.one_mul]
  · right; right
    refine ⟨a, b, ?_⟩
    rw [dataAt_pos (by omega), dataAt_pos (by omega), dataAt_pos (by omega), dataAt_pos (by omega), e1, e2,
      Int.add_mul, Int.one_mul]
    simp only [Int.add_assoc]

theorem corners_good (dh dw r2 c2 : Int) (hd : OddPos dh dw) (h : XSite dh dw r2 c2 ∨ ZSite dh dw r2 c2) :
    (((cornersOf dh dw r2 c2).filterMap id).length = 2 ∨ ((cornersOf dh dw r2 c2).filterMap id).length = 4) ∧
    ((cornersOf dh dw r2 c2).filterMap id).Nodup ∧
    ∀ q ∈ (cornersOf dh dw r2 c2).filterMap id, 0 ≤ q ∧ q < dh * dw := by
  refine ⟨?_, ?_, ?_⟩
  · rcases h with h | h
    · rcases xsite_corners hd.1 h with ⟨-, e⟩ | ⟨-, e⟩ | ⟨-, -, e⟩ <;> rw [e] <;> simp
    · rcases zsite_corners hd.2.2.1 h with ⟨-, e⟩ | ⟨-, e⟩ | ⟨-, -, e⟩ <;> rw [e] <;> simp
  · have hw := hd.2.2.1
    rcases h with h | h
    · have : 3 ≤ dw := by have := hd; unfold OddPos at this; unfold XSite at h; omega
      rcases xsite_corners hd.1 h with ⟨-, e⟩ | ⟨-, e⟩ | ⟨-, -, e⟩ <;> rw [e] <;> simp <;> omega
    · rcases zsite_corners hw h with ⟨-, e⟩ | ⟨-, e⟩ | ⟨a, b, e⟩ <;> rw [e] <;> simp
      · omega
      · omega
      · have := h.2.2.2.2.2
        have := h.2.1
        omega
  · intro q hq
    rw [List.mem_filterMap] at hq
    obtain ⟨a, ha, rfl⟩ := hq
    obtain ⟨r, c, hrc, rfl⟩ := mem_cornersOf_inRange ha
    have := site_mem hrc
    rwa [mem_allQubits] at this

theorem parityOn_countP (f : Int → Bool) (l : List (Option Int)) :
    parityOn f l = decide (((l.filterMap id).filter f).length % 2 = 1) := by
  unfold parityOn
  rw [xorAll_eq_countP]
  congr 3
  induction l with
  | nil => rfl
  | cons a l ih =>
    rw [List.map_cons, List.filterMap_cons]
    cases a with
    | none => simpa [optFlip] using ih
    | some q =>
      simp only [optFlip, id, List.filter_cons]
      cases h : f q
      · simpa using ih
      · simpa using ih

/-- An X and a Z plaquette overlap evenly. -/
theorem plaq_commute {dh dw r2 c2 s2 d2 : Int} (hd : OddPos dh dw) (hx : XSite dh dw r2 c2) (hz : ZSite dh dw s2 d2) :
    parityOn (fun q => decide (some q ∈ cornersOf dh dw s2 d2)) (cornersOf dh dw r2 c2) = false := by
  rw [parityOn_cornersOf]
  have key : ∀ r c, at' dh dw (fun q => decide (some q ∈ cornersOf dh dw s2 d2)) r c =
      decide ((0 ≤ r ∧ r < dh ∧ 0 ≤ c ∧ c < dw) ∧ (s2 = 2*r-1 ∨ s2 = 2*r+1) ∧ (d2 = 2*c-1 ∨ d2 = 2*c+1)) := by
    intro r c
    by_cases h : 0 ≤ r ∧ r < dh ∧ 0 ≤ c ∧ c < dw
    · rw [at'_in _ h, Bool.eq_iff_iff, decide_eq_true_iff, decide_eq_true_iff, mem_cornersOf h hz.1 hz.2.1]
      simp [h]
    · rw [at'_out _ h, eq_comm, decide_eq_false_iff_not]
      exact fun h' => h h'.1
  rw [key, key, key, key]
  unfold OddPos at hd
  unfold XSite at hx
  unfold ZSite at hz
  have cases : (s2 = r2 ∧ d2 = c2 + 2) ∨ (s2 = r2 ∧ d2 = c2 - 2) ∨ (s2 = r2+2 ∧ d2 = c2) ∨ (s2 = r2-2 ∧ d2 = c2) ∨
      (s2 < r2 - 2 ∨ r2 + 2 < s2 ∨ d2 < c2 - 2 ∨ c2 + 2 < d2) := by omega
  have t : ∀ {p : Prop} [Decidable p], p → decide p = true := fun h => decide_eq_true h
  have f : ∀ {p : Prop} [Decidable p], ¬ p → decide p = false := fun h => decide_eq_false h
  rcases cases with ⟨rfl, rfl⟩ | ⟨rfl, rfl⟩ | ⟨rfl, rfl⟩ | ⟨rfl, rfl⟩ | h
  · rw [f (by omega), t (by omega), f (by omega), t (by omega)]; rfl
  · rw [t (by omega), f (by omega), t (by omega), f (by omega)]; rfl
  · rw [f (by omega), f (by omega), t (by omega), t (by omega)]; rfl
  · rw [t (by omega), t (by omega), f (by omega), f (by omega)]; rfl
  · rw [f (by omega), f (by omega), f (by omega), f (by omega)]; rfl

theorem mem_colQubits {dh dw r c : Int} (h : 0 ≤ r ∧ r < dh ∧ 0 ≤ c ∧ c < dw) {k : Int} (hk : 0 ≤ k ∧ k < dw) :
    r * dw + c ∈ colQubits dh dw k ↔ c = k := by
  unfold colQubits
  rw [List.mem_map]
  constructor
  · rintro ⟨a, _, e⟩
    exact (site_inj (by omega) (by omega) e).2.symm
  · rintro rfl
    exact ⟨r.toNat, by rw [List.mem_range]; omega, by rw [Int.toNat_of_nonneg h.1]⟩

theorem mem_rowQubits {dh dw r c : Int} (h : 0 ≤ r ∧ r < dh ∧ 0 ≤ c ∧ c < dw) {k : Int} :
    r * dw + c ∈ rowQubits dw k ↔ r = k := by
  unfold rowQubits
  rw [List.mem_map]
  constructor
  · rintro ⟨a, ha, e⟩
    rw [List.mem_range] at ha
    exact (site_inj (by omega) (by omega) e).1.symm
  · rintro rfl
    exact ⟨c.toNat, by rw [List.mem_range]; omega, by omega⟩

theorem column_commutes {dh dw r2 c2 : Int} (hd : OddPos dh dw) (hz : ZSite dh dw r2 c2) :
    parityOn (fun q => decide (q ∈ colQubits dh dw 0)) (cornersOf dh dw r2 c2) = false := by
  rw [parityOn_cornersOf]
  unfold OddPos at hd
  unfold ZSite at hz
  have key : ∀ r c, at' dh dw (fun q => decide (q ∈ colQubits dh dw 0)) r c =
      decide ((0 ≤ r ∧ r < dh ∧ 0 ≤ c ∧ c < dw) ∧ c = 0) := by
    intro r c
    by_cases h : 0 ≤ r ∧ r < dh ∧ 0 ≤ c ∧ c < dw
    · rw [at'_in _ h, Bool.eq_iff_iff, decide_eq_true_iff, decide_eq_true_iff, mem_colQubits h (by omega)]
      simp [h]
    · rw [at'_out _ h, eq_comm, decide_eq_false_iff_not]
      exact fun h' => h h'.1
  rw [key, key, key, key]
  have t : ∀ {p : Prop} [Decidable p], p → decide p = true := fun h => decide_eq_true h
  have f : ∀ {p : Prop} [Decidable p], ¬ p → decide p = false := fun h => decide_eq_false h
  by_cases h1 : c2 = -1
  · rw [f (by omega), t (by omega), f (by omega), t (by omega)]; rfl
  · by_cases h2 : c2 = 1
    · rw [t (by omega), f (by omega), t (by omega), f (by omega)]; rfl
    · rw [f (by omega), f (by omega), f (by omega), f (by omega)]; rfl

theorem row_commutes {dh dw r2 c2 : Int} (hd : OddPos dh dw) (hz : XSite dh dw r2 c2) :
    parityOn (fun q => decide (q ∈ rowQubits dw 0)) (cornersOf dh dw r2 c2) = false := by
  rw [parityOn_cornersOf]
  unfold OddPos at hd
  unfold XSite at hz
  have key : ∀ r c, at' dh dw (fun q => decide (q ∈ rowQubits dw 0)) r c =
      decide ((0 ≤ r ∧ r < dh ∧ 0 ≤ c ∧ c < dw) ∧ r = 0) := by
    intro r c
    by_cases h : 0 ≤ r ∧ r < dh ∧ 0 ≤ c ∧ c < dw
    · rw [at'_in _ h, Bool.eq_iff_iff, decide_eq_true_iff, decide_eq_true_iff, mem_rowQubits h]
      simp [h]
    · rw [at'_out _ h, eq_comm, decide_eq_false_iff_not]
      exact fun h' => h h'.1
  rw [key, key, key, key]
  have t : ∀ {p : Prop} [Decidable p], p → decide p = true := fun h => decide_eq_true h
  have f : ∀ {p : Prop} [Decidable p], ¬ p → decide p = false := fun h => decide_eq_false h
  by_cases h1 : r2 = -1
  · rw [f (by omega), f (by omega), t (by omega), t (by omega)]; rfl
  · by_cases h2 : r2 = 1
    · rw [t (by omega), t (by omega), f (by omega), f (by omega)]; rfl
    · rw [f (by omega), f (by omega), f (by omega), f (by omega)]; rfl

theorem xorAll_single {α : Type} {l : List α} (hl : l.Nodup) {a : α} (ha : a ∈ l) (f : α → Bool)
    (h : ∀ b ∈ l, b ≠ a → f b = false) : xorAll (l.map f) = f a := by
  induction l with
  | nil => cases ha
  | cons x l ih =>
    rw [List.nodup_cons] at hl
    rw [List.map_cons, xorAll_cons]
    rcases List.mem_cons.1 ha with rfl | ha'
    · rw [xorAll_eq_false (l := List.map f l)]
      · simp
      · intro b hb
        obtain ⟨y, hy, rfl⟩ := List.mem_map.1 hb
        exact h y (by simp [hy]) (fun e => hl.1 (e ▸ hy))
    · rw [ih hl.2 ha' fun b hb hne => h b (by simp [hb]) hne,
        h x (by simp) (fun e => hl.1 (e ▸ ha'))]
      simp

theorem nodup_of_pairwise_rlt {l : List (Int × Int)} (h : l.Pairwise rlt) : l.Nodup :=
  List.Pairwise.imp (R := rlt) (S := (· ≠ ·)) (fun {a b} hab (e : a = b) => rlt_irrefl b (e ▸ hab)) h

theorem xSites_nodup (dh dw : Int) : (xSites dh dw).Nodup :=
  nodup_of_pairwise_rlt ((allPos_pairwise _ _).filter _)

theorem zSites_nodup (dh dw : Int) : (zSites dh dw).Nodup :=
  nodup_of_pairwise_rlt ((allPos_pairwise _ _).filter _)

theorem z_independent {dh dw : Int} (hd : OddPos dh dw) (S : Int × Int → Bool)
    (H : ∀ q, 0 ≤ q → q < dh * dw →
      xorAll ((zSites dh dw).map fun p => S p && decide (some q ∈ cornersOf dh dw p.1 p.2)) = false)
    (n : Nat) : ∀ r2 c2, ZSite dh dw r2 c2 → r2 ≤ 2*n+1 → S (r2, c2) = false := by
  induction n using Nat.strong_induction_on with
  | _ n ih =>
  intro r2 c2 hz hle
  unfold OddPos at hd
  have hz' := hz
  unfold ZSite at hz'
  -- choose an upper corner inside the lattice
  have hc : ∃ c, (c = (c2-1)/2 ∨ c = (c2+1)/2) ∧ 0 ≤ c ∧ c < dw := by
    by_cases h : 0 ≤ (c2-1)/2
    · exact ⟨_, Or.inl rfl, h, by omega⟩
    · exact ⟨_, Or.inr rfl, by omega, by omega⟩
  obtain ⟨c, hc1, hc2, hc3⟩ := hc
  have hin : 0 ≤ (r2-1)/2 ∧ (r2-1)/2 < dh ∧ 0 ≤ c ∧ c < dw := by omega
  have hq := mem_allQubits.1 (site_mem hin)
  have h0 := H _ hq.1 hq.2
  rw [xorAll_single (zSites_nodup dh dw) (a := (r2, c2)) (mem_zSites.2 hz)] at h0
  · rw [decide_eq_true ((mem_cornersOf hin hz.1 hz.2.1).2 (by omega))] at h0
    simpa using h0
  · rintro ⟨s2, d2⟩ hb hne
    rw [mem_zSites] at hb
    simp only at hb
    have hb' := hb
    unfold ZSite at hb'
    by_cases hmem : some ((r2-1)/2 * dw + c) ∈ cornersOf dh dw s2 d2
    · rw [mem_cornersOf hin hb.1 hb.2.1] at hmem
      have : s2 = r2 - 2 := by
        by_contra hs
        have : s2 = r2 := by omega
        subst this
        apply hne
        ext
        · rfl
        · simp only; omega
      have hn : 1 ≤ n := by omega
      rw [ih (n-1) (by omega) s2 d2 hb (by omega)]
      rfl
    · simp only [decide_eq_false hmem, Bool.and_false]

theorem x_independent {dh dw : Int} (hd : OddPos dh dw) (S : Int × Int → Bool)
    (H : ∀ q, 0 ≤ q → q < dh * dw →
      xorAll ((xSites dh dw).map fun p => S p && decide (some q ∈ cornersOf dh dw p.1 p.2)) = false)
    (n : Nat) : ∀ r2 c2, XSite dh dw r2 c2 → c2 ≤ 2*n+1 → S (r2, c2) = false := by
  induction n using Nat.strong_induction_on with
  | _ n ih =>
  intro r2 c2 hz hle
  unfold OddPos at hd
  have hz' := hz
  unfold XSite at hz'
  have hc : ∃ r, (r = (r2-1)/2 ∨ r = (r2+1)/2) ∧ 0 ≤ r ∧ r < dh := by
    by_cases h : 0 ≤ (r2-1)/2
    · exact ⟨_, Or.inl rfl, h, by omega⟩
    · exact ⟨_, Or.inr rfl, by omega, by omega⟩
  obtain ⟨r, hc1, hc2, hc3⟩ := hc
  have hin : 0 ≤ r ∧ r < dh ∧ 0 ≤ (c2-1)/2 ∧ (c2-1)/2 < dw := by omega
  have hq := mem_allQubits.1 (site_mem hin)
  have h0 := H _ hq.1 hq.2
  rw [xorAll_single (xSites_nodup dh dw) (a := (r2, c2)) (mem_xSites.2 hz)] at h0
  · rw [decide_eq_true ((mem_cornersOf hin hz.1 hz.2.1).2 (by omega))] at h0
    simpa using h0
  · rintro ⟨s2, d2⟩ hb hne
    rw [mem_xSites] at hb
    simp only at hb
    have hb' := hb
    unfold XSite at hb'
    by_cases hmem : some (r * dw + (c2-1)/2) ∈ cornersOf dh dw s2 d2
    · rw [mem_cornersOf hin hb.1 hb.2.1] at hmem
      have : d2 = c2 - 2 := by
        by_contra hs
        have : d2 = c2 := by omega
        subst this
        apply hne
        ext
        · simp only; omega
        · rfl
      have hn : 1 ≤ n := by omega
      rw [ih (n-1) (by omega) s2 d2 hb (by omega)]
      rfl
    · simp only [decide_eq_false hmem, Bool.and_false]

end Qtc
