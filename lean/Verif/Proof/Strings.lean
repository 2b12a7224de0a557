import Verif.Proof.CorrectHits
import Verif.Props.Readout
/-!
Readout strings produced by faults.
-/
namespace Qtc
open Spec

theorem xorAll_countP {α : Type} (f : α → Bool) (l : List α) : xorAll (l.map f) = decide (l.countP f % 2 = 1) := by
  rw [xorAll_eq_countP, List.count_eq_countP, List.countP_map]
  have : ((fun x => x == true) ∘ f) = f := by funext a; simp
  rw [this]

theorem affects_step (t r2 c2 : Int) (f : Fault) :
    (Fault.affects t r2 c2 f ^^ Fault.affects (t + 1) r2 c2 f) = Fault.changes ⟨t, r2, c2⟩ f := by
  cases f with
  | data t' r c =>
    simp only [Fault.affects, Fault.changes]
    have : (decide (t' < t) ^^ decide (t' < t + 1)) = (t == t') := by
      by_cases h : t = t'
      · subst h; simp
      · rw [beq_eq_false_iff_ne.2 h]
        by_cases h1 : t' < t
        · rw [decide_eq_true h1, decide_eq_true (by omega)]; rfl
        · rw [decide_eq_false h1, decide_eq_false (by omega)]; rfl
    rw [← this]
    cases decide (t' < t) <;> cases decide (t' < t + 1) <;> simp
  | meas t' r c =>
    simp only [Fault.affects, Fault.changes]
    have : ((t == t' + 1) ^^ (t + 1 == t' + 1)) = (t == t' || t == t' + 1) := by
      by_cases h : t = t'
      · subst h; simp
      · by_cases h1 : t = t' + 1
        · subst h1; simp
        · rw [beq_eq_false_iff_ne.2 h, beq_eq_false_iff_ne.2 h1, beq_eq_false_iff_ne.2 (by omega)]; rfl
    rw [← this]
    cases (r2 == r && c2 == c) <;> simp

theorem mem_sitesOf {key : Key} {dh dw : Int} {p : Int × Int} : p ∈ sitesOf key dh dw ↔ Site key dh dw p.1 p.2 := by
  cases key
  · exact mem_xSites
  · exact mem_zSites

theorem sitesOf_nodup (key : Key) (dh dw : Int) : (sitesOf key dh dw).Nodup := by
  cases key
  · exact xSites_nodup dh dw
  · exact zSites_nodup dh dw

/-- Rounds that read what the faults make them read produce exactly the hits of the faults. -/
theorem changes_isHit {key : Key} {dh dw : Int} {fs : List Fault} {ref : Int → Int → Bool} {bits : List (Nat → Bool)} {T : Int}
    (hlen : (bits.length : Int) = T + 1)
    (hb : ∀ (t k : Nat) a p, bits[t]? = some a → (sitesOf key dh dw)[k]? = some p → a k = readBit ref fs t p.1 p.2) (n : Node) :
    n ∈ changes (sitesOf key dh dw) bits ↔ IsHit key dh dw T fs n := by
  rw [mem_changes]
  have hx : ∀ (t : Nat) (p : Int × Int), (readBit ref fs t p.1 p.2 ≠ readBit ref fs (t + 1 : Nat) p.1 p.2) ↔
      fs.countP (Fault.changes ⟨t, p.1, p.2⟩) % 2 = 1 := by
    intro t p
    have h1 : (readBit ref fs t p.1 p.2 ^^ readBit ref fs (t + 1 : Nat) p.1 p.2) =
        xorAll (fs.map (Fault.changes ⟨t, p.1, p.2⟩)) := by
      have h2 : xorAll (fs.map (Fault.changes ⟨t, p.1, p.2⟩)) =
          xorAll (fs.map fun f => (Fault.affects t p.1 p.2 f ^^ Fault.affects (t + 1) p.1 p.2 f)) :=
        xorAll_congr fun f _ => (affects_step t p.1 p.2 f).symm
      rw [h2, xorAll_map_xor]
      unfold readBit
      push_cast
      cases ref p.1 p.2 <;> simp
    rw [xorAll_countP] at h1
    constructor
    · intro h
      have : (readBit ref fs t p.1 p.2 ^^ readBit ref fs (t + 1 : Nat) p.1 p.2) = true := by
        revert h
        cases readBit ref fs t p.1 p.2 <;> cases readBit ref fs (t + 1 : Nat) p.1 p.2 <;> simp
      rw [this] at h1
      exact of_decide_eq_true h1.symm
    · intro h
      rw [decide_eq_true h] at h1
      revert h1
      cases readBit ref fs t p.1 p.2 <;> cases readBit ref fs (t + 1 : Nat) p.1 p.2 <;> simp
  constructor
  · rintro ⟨t, k, a, b, p, h1, h2, h3, h4, rfl⟩
    have hl := (List.getElem?_eq_some_iff.1 h2).1
    rw [hb t k a p h1 h3, hb (t + 1) k b p h2 h3] at h4
    refine ⟨by simp, by simp only; omega, mem_sitesOf.1 (List.mem_of_getElem? h3), (hx t p).1 h4⟩
  · obtain ⟨nt, nr, nc⟩ := n
    rintro ⟨h1, h2, h3, h4⟩
    simp only at h1 h2 h3
    obtain ⟨t, rfl⟩ := Int.eq_ofNat_of_zero_le h1
    obtain ⟨k, hk⟩ := List.getElem?_of_mem (mem_sitesOf (p := (nr, nc)).2 h3)
    have t1 : t < bits.length := by omega
    have t2 : t + 1 < bits.length := by omega
    refine ⟨t, k, bits[t], bits[t + 1], (nr, nc), List.getElem?_eq_getElem t1, List.getElem?_eq_getElem t2, hk, ?_, rfl⟩
    rw [hb t k _ _ (List.getElem?_eq_getElem t1) hk, hb (t + 1) k _ _ (List.getElem?_eq_getElem t2) hk]
    exact (hx t (nr, nc)).2 h4

theorem changes_nodup' (key : Key) (dh dw : Int) (bits : List (Nat → Bool)) : (changes (sitesOf key dh dw) bits).Nodup :=
  changes_nodup (sitesOf_nodup key dh dw) bits

/-! ### Data flips in the final readout -/

theorem parityOn_xor (f g : Int → Bool) (l : List (Option Int)) :
    parityOn (fun q => (f q ^^ g q)) l = (parityOn f l ^^ parityOn g l) := by
  unfold parityOn
  rw [← xorAll_map_xor]
  refine xorAll_congr fun a _ => ?_
  cases a <;> rfl

theorem parityOn_single {dh dw t r c r2 c2 T : Int} (h : 0 ≤ r ∧ r < dh ∧ 0 ≤ c ∧ c < dw) (ht : t < T) (h1 : r2 % 2 = 1)
    (h2 : c2 % 2 = 1) :
    parityOn (fun q => Fault.flipsData dw q (.data t r c)) (cornersOf dh dw r2 c2) = Fault.affects T r2 c2 (.data t r c) := by
  have key : ∀ r' c', at' dh dw (fun q => Fault.flipsData dw q (.data t r c)) r' c' = decide (r' = r ∧ c' = c) := by
    intro r' c'
    by_cases hin : 0 ≤ r' ∧ r' < dh ∧ 0 ≤ c' ∧ c' < dw
    · rw [at'_in _ hin]
      simp only [Fault.flipsData]
      rw [Bool.eq_iff_iff, beq_iff_eq, decide_eq_true_eq]
      constructor
      · intro e
        have := site_inj h.2.2 hin.2.2 e
        exact ⟨this.1.symm, this.2.symm⟩
      · rintro ⟨rfl, rfl⟩; rfl
    · rw [at'_out _ hin, eq_comm, decide_eq_false_iff_not]
      rintro ⟨rfl, rfl⟩
      exact hin h
  rw [parityOn_cornersOf, key, key, key, key]
  simp only [Fault.affects, decide_eq_true ht, Bool.true_and]
  have e1 : (r2 == 2 * r - 1) = decide ((r2 + 1) / 2 = r) := by
    rw [Bool.eq_iff_iff, beq_iff_eq, decide_eq_true_eq]; omega
  have e2 : (r2 == 2 * r + 1) = decide ((r2 - 1) / 2 = r) := by
    rw [Bool.eq_iff_iff, beq_iff_eq, decide_eq_true_eq]; omega
  have e3 : (c2 == 2 * c - 1) = decide ((c2 + 1) / 2 = c) := by
    rw [Bool.eq_iff_iff, beq_iff_eq, decide_eq_true_eq]; omega
  have e4 : (c2 == 2 * c + 1) = decide ((c2 - 1) / 2 = c) := by
    rw [Bool.eq_iff_iff, beq_iff_eq, decide_eq_true_eq]; omega
  have x1 : (decide ((r2 + 1) / 2 = r) && decide ((r2 - 1) / 2 = r)) = false := by
    rw [← Bool.decide_and, decide_eq_false_iff_not]; omega
  have x2 : (decide ((c2 + 1) / 2 = c) && decide ((c2 - 1) / 2 = c)) = false := by
    rw [← Bool.decide_and, decide_eq_false_iff_not]; omega
  simp only [e1, e2, e3, e4, Bool.decide_and]
  revert x1 x2
  generalize decide ((r2 + 1) / 2 = r) = a1
  generalize decide ((r2 - 1) / 2 = r) = a2
  generalize decide ((c2 + 1) / 2 = c) = a3
  generalize decide ((c2 - 1) / 2 = c) = a4
  revert a1 a2 a3 a4
  decide

theorem parityOn_false (l : List (Option Int)) : parityOn (fun _ => false) l = false := by
  unfold parityOn
  apply xorAll_eq_false
  intro b hb
  obtain ⟨a, _, rfl⟩ := List.mem_map.1 hb
  cases a <;> rfl

theorem parity_readData {key : Key} {dh dw T r2 c2 : Int} (h1 : r2 % 2 = 1) (h2 : c2 % 2 = 1) (x0 : Int → Bool) :
    ∀ (fs : List Fault), (∀ f ∈ fs, f.Fits key dh dw T) →
    parityOn (readData x0 fs dw) (cornersOf dh dw r2 c2) =
      (parityOn x0 (cornersOf dh dw r2 c2) ^^ xorAll (fs.map (Fault.affects T r2 c2)))
  | [], _ => by
    have : readData x0 [] dw = x0 := by funext q; simp [readData]
    simp [this]
  | f :: fs, h => by
    have ih := parity_readData (T := T) h1 h2 x0 fs fun g hg => h g (List.mem_cons_of_mem _ hg)
    have e : readData x0 (f :: fs) dw = fun q => (Fault.flipsData dw q f ^^ readData x0 fs dw q) := by
      funext q
      simp only [readData, List.map_cons, xorAll_cons]
      cases x0 q <;> cases Fault.flipsData dw q f <;> simp
    rw [e, parityOn_xor, ih, List.map_cons, xorAll_cons]
    have hf := h f List.mem_cons_self
    have : parityOn (fun q => Fault.flipsData dw q f) (cornersOf dh dw r2 c2) = Fault.affects T r2 c2 f := by
      cases f with
      | data t r c =>
        obtain ⟨g1, g2, g3⟩ := hf
        exact parityOn_single g3 g2 h1 h2
      | meas t r c =>
        obtain ⟨g1, g2, g3⟩ := hf
        show parityOn (fun _ => false) _ = _
        rw [parityOn_false]
        simp only [Fault.affects]
        rw [beq_eq_false_iff_ne.2 (show T ≠ t + 1 by omega), Bool.and_false]
    rw [this]
    cases Fault.affects T r2 c2 f <;> simp

theorem row_readData {dh dw T : Int} (x0 : Int → Bool) : ∀ (fs : List Fault), (∀ f ∈ fs, f.Fits .Z dh dw T) →
    xorAll ((rowQubits dw 0).map (readData x0 fs dw)) = (xorAll ((rowQubits dw 0).map x0) ^^ readoutFlipped .Z fs)
  | [], _ => by
    have : readData x0 [] dw = x0 := by funext q; simp [readData]
    simp [this, readoutFlipped]
  | f :: fs, h => by
    have ih := row_readData (T := T) x0 fs fun g hg => h g (List.mem_cons_of_mem _ hg)
    have e : readData x0 (f :: fs) dw = fun q => (Fault.flipsData dw q f ^^ readData x0 fs dw q) := by
      funext q
      simp only [readData, List.map_cons, xorAll_cons]
      cases x0 q <;> cases Fault.flipsData dw q f <;> simp
    rw [e, xorAll_map_xor, ih]
    unfold readoutFlipped
    rw [List.map_cons, xorAll_cons]
    have hf := h f List.mem_cons_self
    have : xorAll ((rowQubits dw 0).map fun q => Fault.flipsData dw q f) = Fault.flipsReadout .Z f := by
      cases f with
      | data t r c =>
        obtain ⟨_, _, g3⟩ := hf
        have hnd : (rowQubits dw 0).Nodup := by
          unfold rowQubits
          refine List.Nodup.map ?_ List.nodup_range
          intro a b hab
          simp only at hab
          omega
        simp only [Fault.flipsData, Fault.flipsReadout]
        by_cases hr : r = 0
        · subst hr
          rw [xorAll_single hnd (a := 0 * dw + c) ((mem_rowQubits g3).2 rfl)]
          · simp
          · intro b _ hb
            rw [beq_eq_false_iff_ne]
            exact fun h => hb h.symm
        · rw [beq_eq_false_iff_ne.2 hr]
          apply xorAll_eq_false
          intro x hx
          obtain ⟨q, hq, rfl⟩ := List.mem_map.1 hx
          rw [beq_eq_false_iff_ne]
          rintro rfl
          exact hr ((mem_rowQubits g3).1 hq)
      | meas t r c => exact xorAll_map_false _
    rw [this]
    cases Fault.flipsReadout .Z f <;> simp

end Qtc
