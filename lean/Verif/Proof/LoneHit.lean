import Verif.Spec.LoneHit
import Verif.Props.EndToEnd
/-!
Chains of data qubits from a stabilizer to the nearer edge.
-/
namespace Qtc
open Spec

variable {dh dw : Int} {key : Key}

/-- A flip of the data qubit at place `c` of a line. -/
def chainFault (key : Key) (t k c : Int) : Fault := match key with
  | .Z => .data t k c
  | .X => .data t c k

/-- Flips of `n` data qubits one after the other, from line `a` on, at place `c` of each line. -/
def lineChain (key : Key) (t a c : Int) (n : Nat) : List Fault :=
  (List.range n).map fun (i : Nat) => chainFault key t (a + i) c

/-- Place of a position along and across the lines. -/
def alongOf (key : Key) (p : Int × Int) : Int := match key with
  | .Z => p.1
  | .X => p.2

def acrossOf (key : Key) (p : Int × Int) : Int := match key with
  | .Z => p.2
  | .X => p.1

theorem lineChain_succ (t a c : Int) (n : Nat) :
    lineChain key t a c (n + 1) = lineChain key t a c n ++ [chainFault key t (a + n) c] := by
  unfold lineChain
  rw [List.range_succ, List.map_append]
  rfl

theorem step_bool : ∀ x y z u v : Bool, (u && v) = false → ((x && y && (z ^^ u)) ^^ (x && y && (u || v))) = (x && y && (z ^^ v)) := by decide

theorem step_bool' : ∀ x y z u v : Bool, (u && v) = false → ((x && y && (z ^^ u)) ^^ (x && (u || v) && y)) = (x && y && (z ^^ v)) := by decide

theorem lineChain_affects (t a c t' : Int) (p : Int × Int) (n : Nat) :
    xorAll ((lineChain key t a c n).map (Fault.affects t' p.1 p.2)) = (decide (t < t') &&
      decide (acrossOf key p = 2 * c - 1 ∨ acrossOf key p = 2 * c + 1) &&
      (decide (alongOf key p = 2 * a - 1) ^^ decide (alongOf key p = 2 * (a + n) - 1))) := by
  induction n with
  | zero => simp [lineChain]
  | succ n ih =>
    rw [lineChain_succ, List.map_append, xorAll_append, ih, List.map_singleton, xorAll_cons, xorAll_nil, Bool.xor_false]
    obtain ⟨r2, c2⟩ := p
    cases key
    · show ((_ && decide (r2 = 2 * c - 1 ∨ r2 = 2 * c + 1) && (decide (c2 = _) ^^ decide (c2 = _))) ^^
        (decide (t < t') && (r2 == 2 * c - 1 || r2 == 2 * c + 1) && (c2 == 2 * (a + n) - 1 || c2 == 2 * (a + n) + 1))) =
        (_ && decide (r2 = 2 * c - 1 ∨ r2 = 2 * c + 1) && (decide (c2 = _) ^^ decide (c2 = _)))
      rw [Bool.decide_or, show (2 * (a + ((n + 1 : Nat) : Int)) - 1) = 2 * (a + n) + 1 by push_cast; omega]
      simp only [beq_eq_decide]
      have h : (decide (c2 = 2 * (a + n) - 1) && decide (c2 = 2 * (a + n) + 1)) = false := by
        rw [Bool.eq_false_iff, ne_eq, Bool.and_eq_true, decide_eq_true_eq, decide_eq_true_eq]
        omega
      exact step_bool _ _ _ _ _ h
    · show ((_ && decide (c2 = 2 * c - 1 ∨ c2 = 2 * c + 1) && (decide (r2 = _) ^^ decide (r2 = _))) ^^
        (decide (t < t') && (r2 == 2 * (a + n) - 1 || r2 == 2 * (a + n) + 1) && (c2 == 2 * c - 1 || c2 == 2 * c + 1))) =
        (_ && decide (c2 = 2 * c - 1 ∨ c2 = 2 * c + 1) && (decide (r2 = _) ^^ decide (r2 = _)))
      rw [Bool.decide_or, show (2 * (a + ((n + 1 : Nat) : Int)) - 1) = 2 * (a + n) + 1 by push_cast; omega]
      simp only [beq_eq_decide]
      have h : (decide (r2 = 2 * (a + n) - 1) && decide (r2 = 2 * (a + n) + 1)) = false := by
        rw [Bool.eq_false_iff, ne_eq, Bool.and_eq_true, decide_eq_true_eq, decide_eq_true_eq]
        omega
      exact step_bool' _ _ _ _ _ h

theorem lineChain_readout (t a c : Int) (n : Nat) (ha : 0 ≤ a) : readoutFlipped key (lineChain key t a c n) = (decide (a = 0) && decide (0 < n)) := by
  unfold readoutFlipped
  induction n with
  | zero => simp [lineChain]
  | succ n ih =>
    rw [lineChain_succ, List.map_append, xorAll_append, ih, List.map_singleton, xorAll_cons, xorAll_nil, Bool.xor_false]
    have e : Fault.flipsReadout key (chainFault key t (a + n) c) = decide (a + n = 0) := by
      cases key <;> rfl
    rw [e, Bool.eq_iff_iff]
    by_cases h1 : a = 0 <;> by_cases h2 : n = 0 <;> simp [h1, h2] <;> omega

/-- The chain from a stabilizer to the nearer edge. -/
def edgeChain (key : Key) (dh dw t : Int) (p : Int × Int) : List Fault :=
  if nearReadout key dh dw p then lineChain key t 0 (max 0 ((acrossOf key p - 1) / 2)) ((alongOf key p + 1) / 2).toNat
  else lineChain key t ((alongOf key p + 1) / 2) (max 0 ((acrossOf key p - 1) / 2)) (distance key dh dw - (alongOf key p + 1) / 2).toNat

theorem nearReadout_iff (p : Int × Int) : nearReadout key dh dw p = decide (alongOf key p + 1 < distance key dh dw) := by
  cases key <;> rfl

theorem site_along (H : OddPos dh dw) {p : Int × Int} (hp : SiteOf dh dw key p) :
    alongOf key p % 2 = 1 ∧ acrossOf key p % 2 = 1 ∧ 1 ≤ alongOf key p ∧ alongOf key p ≤ 2 * distance key dh dw - 3 ∧ distance key dh dw % 2 = 1 := by
  obtain ⟨r, c⟩ := p
  unfold OddPos at H
  cases key
  · have hp : XSite dh dw r c := hp
    unfold XSite at hp
    show c % 2 = 1 ∧ r % 2 = 1 ∧ 1 ≤ c ∧ c ≤ 2 * dw - 3 ∧ dw % 2 = 1
    omega
  · have hp : ZSite dh dw r c := hp
    unfold ZSite at hp
    show r % 2 = 1 ∧ c % 2 = 1 ∧ 1 ≤ r ∧ r ≤ 2 * dh - 3 ∧ dh % 2 = 1
    omega

/-- Among the stabilizers of the type, the chain changes just the one. -/
theorem edgeChain_affects (H : OddPos dh dw) {p p' : Int × Int} (hp : SiteOf dh dw key p) (hp' : SiteOf dh dw key p') (t t' : Int) :
    xorAll ((edgeChain key dh dw t p).map (Fault.affects t' p'.1 p'.2)) = (decide (t < t') && decide (p' = p)) := by
  obtain ⟨h1, h2, h3, h4, h5⟩ := site_along H hp
  obtain ⟨h1', h2', h3', h4', h5'⟩ := site_along H hp'
  have e : xorAll ((edgeChain key dh dw t p).map (Fault.affects t' p'.1 p'.2)) = (decide (t < t') &&
      decide (acrossOf key p' = 2 * max 0 ((acrossOf key p - 1) / 2) - 1 ∨ acrossOf key p' = 2 * max 0 ((acrossOf key p - 1) / 2) + 1) &&
      decide (alongOf key p' = alongOf key p)) := by
    unfold edgeChain
    split
    · rw [lineChain_affects, Int.toNat_of_nonneg (by omega)]
      congr 1
      rw [Bool.eq_iff_iff]
      have a1 : ¬ alongOf key p' = 2 * 0 - 1 := by omega
      simp only [a1, decide_false, Bool.false_xor, decide_eq_true_eq]
      omega
    · rw [lineChain_affects, Int.toNat_of_nonneg (by omega)]
      congr 1
      rw [Bool.eq_iff_iff]
      have a1 : ¬ alongOf key p' = 2 * ((alongOf key p + 1) / 2 + (distance key dh dw - (alongOf key p + 1) / 2)) - 1 := by omega
      simp only [a1, decide_false, Bool.xor_false, decide_eq_true_eq]
      omega
  rw [e, Bool.and_assoc]
  congr 1
  rw [Bool.eq_iff_iff]
  obtain ⟨r, c⟩ := p
  obtain ⟨r', c'⟩ := p'
  simp only [Bool.and_eq_true, decide_eq_true_eq, Prod.mk.injEq]
  cases key
  · have hp : XSite dh dw r c := hp
    have hp' : XSite dh dw r' c' := hp'
    unfold XSite at hp hp'
    show ((r' = _ ∨ r' = _) ∧ c' = c) ↔ _
    simp only [acrossOf]
    omega
  · have hp : ZSite dh dw r c := hp
    have hp' : ZSite dh dw r' c' := hp'
    unfold ZSite at hp hp'
    show ((c' = _ ∨ c' = _) ∧ r' = r) ↔ _
    simp only [acrossOf]
    omega

theorem edgeChain_readout (H : OddPos dh dw) {p : Int × Int} (hp : SiteOf dh dw key p) (t : Int) :
    readoutFlipped key (edgeChain key dh dw t p) = nearReadout key dh dw p := by
  obtain ⟨h1, h2, h3, h4, h5⟩ := site_along H hp
  unfold edgeChain
  split
  · rename_i h
    rw [lineChain_readout _ _ _ _ (by omega), h]
    simp
    omega
  · rename_i h
    rw [lineChain_readout _ _ _ _ (by omega), Bool.not_eq_true _ |>.mp h]
    simp
    omega

theorem edgeChain_correctable (H : OddPos dh dw) {p : Int × Int} (hp : SiteOf dh dw key p) {t T : Int} (h0 : 0 ≤ t) (hT : t < T) :
    Correctable key dh dw T (edgeChain key dh dw t p) := by
  obtain ⟨h1, h2, h3, h4, h5⟩ := site_along H hp
  have hacr : 0 ≤ max 0 ((acrossOf key p - 1) / 2) ∧ (max 0 ((acrossOf key p - 1) / 2) < match key with | .Z => dw | .X => dh) := by
    obtain ⟨r, c⟩ := p
    unfold OddPos at H
    cases key
    · have hp : XSite dh dw r c := hp
      unfold XSite at hp
      simp only [acrossOf]
      omega
    · have hp : ZSite dh dw r c := hp
      unfold ZSite at hp
      simp only [acrossOf]
      omega
  have hfit : ∀ (a : Int) (n : Nat), 0 ≤ a → a + n ≤ distance key dh dw →
      ∀ f ∈ lineChain key t a (max 0 ((acrossOf key p - 1) / 2)) n, f.Fits key dh dw T := by
    intro a n ha hn f hf
    obtain ⟨i, hi, rfl⟩ := List.mem_map.1 hf
    have hi := List.mem_range.1 hi
    obtain ⟨b1, b2⟩ := hacr
    cases key
    · have hn : a + n ≤ dw := hn
      have b2 : _ < dh := b2
      show 0 ≤ t ∧ t < T ∧ 0 ≤ _ ∧ _ < dh ∧ 0 ≤ a + (i : Int) ∧ a + (i : Int) < dw
      refine ⟨h0, hT, b1, b2, by omega, by omega⟩
    · have hn : a + n ≤ dh := hn
      have b2 : _ < dw := b2
      show 0 ≤ t ∧ t < T ∧ 0 ≤ a + (i : Int) ∧ a + (i : Int) < dh ∧ 0 ≤ _ ∧ _ < dw
      refine ⟨h0, hT, by omega, by omega, b1, b2⟩
  have hlen : ∀ (a c : Int) (n : Nat), (lineChain key t a c n).length = n := fun a c n => by simp [lineChain]
  unfold edgeChain
  rw [nearReadout_iff]
  split
  · rename_i h
    rw [decide_eq_true_eq] at h
    refine ⟨hfit _ _ (by omega) (by omega), ?_⟩
    rw [hlen]
    omega
  · rename_i h
    rw [decide_eq_true_eq] at h
    refine ⟨hfit _ _ (by omega) (by omega), ?_⟩
    rw [hlen]
    omega

theorem edgeChain_length (H : OddPos dh dw) {p : Int × Int} (hp : SiteOf dh dw key p) (t : Int) :
    ((edgeChain key dh dw t p).length : Int) = edgeDist key dh dw p := by
  obtain ⟨h1, h2, h3, h4, h5⟩ := site_along H hp
  have hlen : ∀ (a c : Int) (n : Nat), (lineChain key t a c n).length = n := fun a c n => by simp [lineChain]
  have e : edgeDist key dh dw p = min ((alongOf key p + 1) / 2) (distance key dh dw - (alongOf key p + 1) / 2) := by cases key <;> rfl
  rw [e]
  unfold edgeChain
  rw [nearReadout_iff]
  split
  · rename_i h
    rw [decide_eq_true_eq] at h
    rw [hlen]
    omega
  · rename_i h
    rw [decide_eq_true_eq] at h
    rw [hlen]
    omega

end Qtc
