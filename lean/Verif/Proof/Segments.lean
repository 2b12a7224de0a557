import Verif.Proof.Odds
/-!
Strings that are seen by one plaquette only.
-/
namespace Qtc
open Spec Function

variable {dh dw : Int} {name : Str} {code : Code}

/-- The data qubits of row `R` up to column `C`. -/
def rowPart (dw R C : Int) : List Int := (List.range (C + 1).toNat).map fun c : Nat => R * dw + c

/-- The data qubits of column `C` up to row `R`. -/
def colPart (dw R C : Int) : List Int := (List.range (R + 1).toNat).map fun r : Nat => r * dw + C

theorem place_inj {r c r' c' : Int} (h : 0 ≤ c) (h1 : c < dw) (h' : 0 ≤ c') (h1' : c' < dw) (e : r * dw + c = r' * dw + c') : r = r' ∧ c = c' := by
  have hr : r = r' := by
    rcases lt_trichotomy r r' with hlt | rfl | hlt
    · nlinarith
    · rfl
    · nlinarith
  subst hr
  exact ⟨rfl, by linarith⟩

theorem mem_rowPart {r c R C : Int} (h : 0 ≤ c) (h1 : c < dw) (hC : C < dw) : r * dw + c ∈ rowPart dw R C ↔ r = R ∧ c ≤ C := by
  unfold rowPart
  rw [List.mem_map]
  constructor
  · rintro ⟨k, hk, e⟩
    rw [List.mem_range] at hk
    obtain ⟨rfl, rfl⟩ := place_inj (dw := dw) (by omega) (by omega) h h1 e
    exact ⟨rfl, by omega⟩
  · rintro ⟨rfl, hc⟩
    exact ⟨c.toNat, List.mem_range.2 (by omega), by rw [Int.toNat_of_nonneg h]⟩

theorem mem_colPart {r c R C : Int} (h : 0 ≤ c) (h1 : c < dw) (hr : 0 ≤ r) (hC : 0 ≤ C ∧ C < dw) : r * dw + c ∈ colPart dw R C ↔ c = C ∧ r ≤ R := by
  unfold colPart
  rw [List.mem_map]
  constructor
  · rintro ⟨k, hk, e⟩
    rw [List.mem_range] at hk
    obtain ⟨rfl, rfl⟩ := place_inj (dw := dw) hC.1 hC.2 h h1 e
    exact ⟨rfl, by omega⟩
  · rintro ⟨rfl, hc⟩
    exact ⟨r.toNat, List.mem_range.2 (by omega), by rw [Int.toNat_of_nonneg hr]⟩

theorem rowPart_all {R C : Int} (hR : 0 ≤ R ∧ R < dh) (hC : C < dw) : ∀ i ∈ rowPart dw R C, i ∈ allQubits dh dw := by
  intro i hi
  unfold rowPart at hi
  obtain ⟨k, hk, rfl⟩ := List.mem_map.1 hi
  rw [List.mem_range] at hk
  unfold allQubits
  have hd : 0 ≤ dw := by omega
  have hk' : (k : Int) < dw := by omega
  have h1 : R * dw + k < dh * dw := by nlinarith
  have h2 : 0 ≤ R * dw + k := by nlinarith
  exact List.mem_map.2 ⟨(R * dw + k).toNat, List.mem_range.2 (by omega), Int.toNat_of_nonneg h2⟩

theorem colPart_all {R C : Int} (hR : R < dh) (hC : 0 ≤ C ∧ C < dw) : ∀ i ∈ colPart dw R C, i ∈ allQubits dh dw := by
  intro i hi
  unfold colPart at hi
  obtain ⟨k, hk, rfl⟩ := List.mem_map.1 hi
  rw [List.mem_range] at hk
  unfold allQubits
  have h0 : (k : Int) < dh := by omega
  have h1 : k * dw + C < dh * dw := by nlinarith
  have h2 : 0 ≤ k * dw + C := by nlinarith
  exact List.mem_map.2 ⟨(k * dw + C).toNat, List.mem_range.2 (by omega), Int.toNat_of_nonneg h2⟩

theorem rowPart_nodup {R C : Int} : (rowPart dw R C).Nodup := by
  refine List.Nodup.map (fun a b (e : R * dw + (a : Int) = R * dw + b) => ?_) List.nodup_range
  omega

theorem colPart_nodup {R C : Int} (h : 0 < dw) : (colPart dw R C).Nodup := by
  refine List.Nodup.map (fun a b (e : (a : Int) * dw + C = b * dw + C) => ?_) List.nodup_range
  have : (a : Int) * dw = b * dw := by omega
  have := Int.eq_of_mul_eq_mul_right h.ne' this
  omega

/-- Whether a corner is there and in a set. -/
theorem around_xor (p : Int × Int) (f : Int → Bool) : xorAll ((around dh dw p).map f) =
    (((dataAt dh dw ((p.1 - 1) / 2) ((p.2 - 1) / 2)).elim false f ^^ (dataAt dh dw ((p.1 - 1) / 2) ((p.2 + 1) / 2)).elim false f) ^^
      ((dataAt dh dw ((p.1 + 1) / 2) ((p.2 - 1) / 2)).elim false f ^^ (dataAt dh dw ((p.1 + 1) / 2) ((p.2 + 1) / 2)).elim false f)) := by
  unfold around cornersOf
  generalize dataAt dh dw ((p.1 - 1) / 2) ((p.2 - 1) / 2) = a
  generalize dataAt dh dw ((p.1 - 1) / 2) ((p.2 + 1) / 2) = b
  generalize dataAt dh dw ((p.1 + 1) / 2) ((p.2 - 1) / 2) = c
  generalize dataAt dh dw ((p.1 + 1) / 2) ((p.2 + 1) / 2) = d
  cases a <;> cases b <;> cases c <;> cases d <;> simp [xorAll]

theorem corner_row {r c R C : Int} (hC : C < dw) : (dataAt dh dw r c).elim false (fun i => decide (i ∈ rowPart dw R C)) =
    decide ((0 ≤ r ∧ r < dh ∧ 0 ≤ c ∧ c < dw) ∧ r = R ∧ c ≤ C) := by
  by_cases h : 0 ≤ r ∧ r < dh ∧ 0 ≤ c ∧ c < dw
  · rw [dataAt_pos h, Option.elim_some]
    exact decide_eq_decide.2 ((mem_rowPart h.2.2.1 h.2.2.2 hC).trans (and_iff_right h).symm)
  · rw [dataAt_neg h, Option.elim_none]
    exact (decide_eq_false fun h' => h h'.1).symm

theorem corner_col {r c R C : Int} (hC : 0 ≤ C ∧ C < dw) : (dataAt dh dw r c).elim false (fun i => decide (i ∈ colPart dw R C)) =
    decide ((0 ≤ r ∧ r < dh ∧ 0 ≤ c ∧ c < dw) ∧ c = C ∧ r ≤ R) := by
  by_cases h : 0 ≤ r ∧ r < dh ∧ 0 ≤ c ∧ c < dw
  · rw [dataAt_pos h, Option.elim_some]
    exact decide_eq_decide.2 ((mem_colPart h.2.2.1 h.2.2.2 h.1 hC).trans (and_iff_right h).symm)
  · rw [dataAt_neg h, Option.elim_none]
    exact (decide_eq_false fun h' => h h'.1).symm

theorem xor_two {A B E : Prop} [Decidable A] [Decidable B] [Decidable E] (h : (A ∧ ¬B ∨ ¬A ∧ B) ↔ E) : (decide A ^^ decide B) = decide E := by
  by_cases hA : A <;> by_cases hB : B <;> simp_all

theorem row_pair {r c R C : Int} (hR : 0 ≤ R ∧ R < dh) (hC : C < dw) (hc : 0 ≤ c ∧ c + 1 < dw) :
    ((dataAt dh dw r c).elim false (fun i => decide (i ∈ rowPart dw R C)) ^^ (dataAt dh dw r (c + 1)).elim false (fun i => decide (i ∈ rowPart dw R C))) =
      decide (r = R ∧ c = C) := by
  rw [corner_row hC, corner_row hC]
  refine xor_two ?_
  omega

theorem col_pair {r c R C : Int} (hC : 0 ≤ C ∧ C < dw) (hr : 0 ≤ r ∧ r + 1 < dh) :
    ((dataAt dh dw r c).elim false (fun i => decide (i ∈ colPart dw R C)) ^^ (dataAt dh dw (r + 1) c).elim false (fun i => decide (i ∈ colPart dw R C))) =
      decide (c = C ∧ r = R) := by
  rw [corner_col hC, corner_col hC]
  refine xor_two ?_
  omega

/-- The row left of an X plaquette. -/
theorem row_seen {p p' : Int × Int} (H : OddPos dh dw) (hp : XSite dh dw p.1 p.2) (hp' : XSite dh dw p'.1 p'.2) :
    xorAll ((around dh dw p').map fun i => decide (i ∈ rowPart dw (max ((p.1 - 1) / 2) 0) ((p.2 - 1) / 2))) = decide (p' = p) := by
  obtain ⟨a, b⟩ := p
  obtain ⟨a', b'⟩ := p'
  unfold XSite at hp hp'
  unfold OddPos at H
  simp only at hp hp'
  have hC : (b - 1) / 2 < dw := by omega
  obtain ⟨r, rfl⟩ : ∃ r, a' = 2 * r + 1 := ⟨(a' - 1) / 2, by omega⟩
  obtain ⟨c, rfl⟩ : ∃ c, b' = 2 * c + 1 := ⟨(b' - 1) / 2, by omega⟩
  obtain ⟨R, rfl⟩ : ∃ r, a = 2 * r + 1 := ⟨(a - 1) / 2, by omega⟩
  obtain ⟨C, rfl⟩ : ∃ r, b = 2 * r + 1 := ⟨(b - 1) / 2, by omega⟩
  rw [around_xor]
  simp only [show (2 * r + 1 - 1) / 2 = r by omega, show (2 * r + 1 + 1) / 2 = r + 1 by omega, show (2 * c + 1 - 1) / 2 = c by omega,
    show (2 * c + 1 + 1) / 2 = c + 1 by omega, show (2 * C + 1 - 1) / 2 = C by omega, show (2 * R + 1 - 1) / 2 = R by omega, Prod.mk.injEq] at hC ⊢
  rw [row_pair (by omega) hC (by omega), row_pair (by omega) hC (by omega)]
  refine xor_two ?_
  omega

/-- The column above a Z plaquette. -/
theorem col_seen {p p' : Int × Int} (H : OddPos dh dw) (hp : ZSite dh dw p.1 p.2) (hp' : ZSite dh dw p'.1 p'.2) :
    xorAll ((around dh dw p').map fun i => decide (i ∈ colPart dw ((p.1 - 1) / 2) (max ((p.2 - 1) / 2) 0))) = decide (p' = p) := by
  obtain ⟨a, b⟩ := p
  obtain ⟨a', b'⟩ := p'
  unfold ZSite at hp hp'
  unfold OddPos at H
  simp only at hp hp'
  have hC : 0 ≤ max ((b - 1) / 2) 0 ∧ max ((b - 1) / 2) 0 < dw := by omega
  obtain ⟨r, rfl⟩ : ∃ r, a' = 2 * r + 1 := ⟨(a' - 1) / 2, by omega⟩
  obtain ⟨c, rfl⟩ : ∃ c, b' = 2 * c + 1 := ⟨(b' - 1) / 2, by omega⟩
  obtain ⟨R, rfl⟩ : ∃ r, a = 2 * r + 1 := ⟨(a - 1) / 2, by omega⟩
  obtain ⟨C, rfl⟩ : ∃ r, b = 2 * r + 1 := ⟨(b - 1) / 2, by omega⟩
  rw [around_xor]
  simp only [show (2 * r + 1 - 1) / 2 = r by omega, show (2 * r + 1 + 1) / 2 = r + 1 by omega, show (2 * c + 1 - 1) / 2 = c by omega,
    show (2 * c + 1 + 1) / 2 = c + 1 by omega, show (2 * C + 1 - 1) / 2 = C by omega, show (2 * R + 1 - 1) / 2 = R by omega, Prod.mk.injEq] at hC ⊢
  have e : ∀ a b c d : Bool, ((a ^^ b) ^^ (c ^^ d)) = ((a ^^ c) ^^ (b ^^ d)) := by decide
  rw [e, col_pair hC (by omega), col_pair hC (by omega)]
  refine xor_two ?_
  omega

/-- The other kind. -/
def Key.partner : Key → Key
  | .X => .Z
  | .Z => .X

/-- A string seen by one plaquette only. -/
theorem string_seen (H : OddPos dh dw) (code : Code) (name : Str) {key : Key} {p : Int × Int} (hp : SiteOf dh dw key p) :
    ∃ S : List Int, (∀ i ∈ S, i ∈ allQubits dh dw) ∧ ∀ p', SiteOf dh dw key p' →
      Passes (decide (p' = p)) (fstr code key.partner name S) (checkOp code name dh dw key p') := by
  have hall : ∀ i ∈ allQubits dh dw, 0 ≤ i := by
    intro i hi
    unfold allQubits at hi
    obtain ⟨k, -, rfl⟩ := List.mem_map.1 hi
    exact Int.natCast_nonneg k
  cases key
  · have hp0 : XSite dh dw p.1 p.2 := hp
    have ha := rowPart_all (dh := dh) (dw := dw) (R := max ((p.1 - 1) / 2) 0) (C := (p.2 - 1) / 2) (by unfold XSite OddPos at *; omega)
      (by unfold XSite OddPos at *; omega)
    refine ⟨_, ha, fun p' hp' => ?_⟩
    rw [checkOp_eq H code name hp']
    have := fstr_passes (code := code) (name := name) (around_nonneg (dh := dh) (dw := dw) (p := p')) (fun i hi => hall i (ha i hi)) rowPart_nodup
    rw [row_seen H hp0 hp'] at this
    exact this.symm
  · have hp0 : ZSite dh dw p.1 p.2 := hp
    have ha := colPart_all (dh := dh) (dw := dw) (R := (p.1 - 1) / 2) (C := max ((p.2 - 1) / 2) 0) (by unfold ZSite OddPos at *; omega)
      (by unfold ZSite OddPos at *; omega)
    have hn := colPart_nodup (dw := dw) (R := (p.1 - 1) / 2) (C := max ((p.2 - 1) / 2) 0) (by unfold OddPos at *; omega)
    refine ⟨_, ha, fun p' hp' => ?_⟩
    rw [checkOp_eq H code name hp']
    have := fstr_passes (code := code) (name := name) (fun i hi => hall i (ha i hi)) (around_nonneg (dh := dh) (dw := dw) (p := p')) (around_nodup H hp')
    rw [xorAll_decide_comm hn (around_nodup H hp'), col_seen H hp0 hp'] at this
    exact this

end Qtc
