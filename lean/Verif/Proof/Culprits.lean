import Mathlib.Data.Finset.Prod
import Verif.Proof.LocalNoise
import Verif.Proof.Chains
import Verif.Proof.QBlockSlips
import Verif.Spec.OddLines
/-!
Which errors in the circuits the faults of a chain can come from, and how many chains there are.
-/
namespace Qtc
open Spec Function

variable {name : Str} {dh dw : Int} {key : Key}

/-! ### Positions of qubits -/

theorem at_pos {x : Qubit} {p p' : Int × Int} (h : At name dh dw x p) (h' : At name dh dw x p') : p = p' := by
  rcases h with ⟨i, hi, rfl, rfl⟩ | ⟨κ, k, hk, rfl⟩
  · rcases h' with ⟨j, hj, e, rfl⟩ | ⟨κ, k, hk, e⟩
    · rw [dataQ_inj (mem_allQubits.1 hi).1 (mem_allQubits.1 hj).1 e]
    · exact absurd e (dataQ_ne_synQ κ k i)
  · rcases h' with ⟨j, hj, e, rfl⟩ | ⟨κ', k', hk', e⟩
    · exact absurd e.symm (dataQ_ne_synQ κ k j)
    · by_cases hκ : κ = κ'
      · subst hκ
        rw [synQ_index e] at hk
        exact Option.some.inj (hk.symm.trans hk')
      · exact absurd e (synQ_ne hκ k k')

theorem site_key {κ κ' : Key} {r c : Int} (h : Site κ dh dw r c) (h' : Site κ' dh dw r c) : κ = κ' := by
  cases κ <;> cases κ'
  · rfl
  · exfalso; have a : XSite dh dw r c := h; have b : ZSite dh dw r c := h'; unfold XSite at a; unfold ZSite at b; omega
  · exfalso; have a : ZSite dh dw r c := h; have b : XSite dh dw r c := h'; unfold ZSite at a; unfold XSite at b; omega
  · rfl

theorem at_qubit {x x' : Qubit} {p : Int × Int} (h : At name dh dw x p) (h' : At name dh dw x' p) : x = x' := by
  rcases h with ⟨i, hi, rfl, rfl⟩ | ⟨κ, k, hk, rfl⟩
  · rcases h' with ⟨j, hj, rfl, e⟩ | ⟨κ, k, hk, rfl⟩
    · simp only [Prod.mk.injEq] at e
      have e1 : i / dw = j / dw := by omega
      have e2 : i % dw = j % dw := by omega
      rw [← Int.mul_ediv_add_emod i dw, ← Int.mul_ediv_add_emod j dw, e1, e2]
    · have := sites_odd (List.mem_of_getElem? hk)
      simp only at this
      omega
  · rcases h' with ⟨j, hj, rfl, rfl⟩ | ⟨κ', k', hk', rfl⟩
    · have := sites_odd (List.mem_of_getElem? hk)
      simp only at this
      omega
    · have hs := mem_sitesOf.1 (List.mem_of_getElem? hk)
      have hs' := mem_sitesOf.1 (List.mem_of_getElem? hk')
      obtain rfl := site_key hs hs'
      obtain ⟨b1, b2⟩ := List.getElem?_eq_some_iff.1 hk
      obtain ⟨b1', b2'⟩ := List.getElem?_eq_some_iff.1 hk'
      rw [(sitesOf_nodup κ dh dw).getElem_inj_iff.1 (b2.trans b2'.symm)]

/-- The positions that touch a position. -/
def touching (p : Int × Int) : Finset (Int × Int) :=
  {p, (p.1 - 1, p.2 - 1), (p.1 - 1, p.2 + 1), (p.1 + 1, p.2 - 1), (p.1 + 1, p.2 + 1)}

theorem touching_card (p : Int × Int) : (touching p).card ≤ 5 := Finset.card_le_five

theorem mem_touching {p q : Int × Int} (h : Touch p q) : q ∈ touching p := by
  obtain ⟨a, b⟩ := q
  unfold touching
  simp only [Finset.mem_insert, Finset.mem_singleton, Prod.mk.injEq]
  rcases h with rfl | ⟨h1 | h1, h2 | h2⟩
  · exact Or.inl rfl
  all_goals simp only at h1 h2; subst h1 h2; simp

theorem Touch.symm {p q : Int × Int} (h : Touch p q) : Touch q p := by
  rcases h with rfl | ⟨h1, h2⟩
  · exact Or.inl rfl
  · exact Or.inr ⟨by omega, by omega⟩

/-- A fault is known by its time and position. -/
theorem fault_known {T : Int} {f f' : Fault} (h : f.Fits key dh dw T) (h' : f'.Fits key dh dw T) (ht : Fault.time f = Fault.time f')
    (hp : faultPos f = faultPos f') : f = f' := by
  have odd : ∀ r c, Site key dh dw r c → r % 2 = 1 := by
    intro r c h
    cases key
    · exact h.1
    · exact h.1
  cases f with
  | data t r c =>
    cases f' with
    | data t' r' c' =>
      simp only [faultPos, Fault.time, Prod.mk.injEq] at ht hp
      rw [ht, show r = r' by omega, show c = c' by omega]
    | meas t' r' c' =>
      have := odd _ _ h'.2.2
      simp only [faultPos, Prod.mk.injEq] at hp
      omega
  | meas t r c =>
    cases f' with
    | data t' r' c' =>
      have := odd _ _ h.2.2
      simp only [faultPos, Prod.mk.injEq] at hp
      omega
    | meas t' r' c' =>
      simp only [faultPos, Fault.time, Prod.mk.injEq] at ht hp
      rw [ht, hp.1, hp.2]

/-! ### Errors and faults -/

/-- The operation `a` of `l`, after `n` rounds, and a qubit: what happens there can lead to the fault. -/
def Culprit (key : Key) (name : Str) (dh dw : Int) (n : Nat) (l : List QOp) (i : Nat × Qubit) (f : Fault) : Prop :=
  i.1 < l.length ∧ Near key name dh dw (n + (l.take i.1).count .stabilize) i.2 f

variable {n : Nat} {l : List QOp}

/-- What happens to a qubit during an operation leads to few faults. -/
theorem victims_card {T : Int} (i : Nat × Qubit) {V : Finset Fault} (hV : ∀ f ∈ V, f.Fits key dh dw T ∧ Culprit key name dh dw n l i f) :
    V.card ≤ 10 := by
  classical
  rcases V.eq_empty_or_nonempty with rfl | ⟨f0, h0⟩
  · simp
  obtain ⟨-, -, ⟨p, hp, -⟩, -⟩ := (hV f0 h0).2
  obtain ⟨k, hk⟩ : ∃ k, k = n + (l.take i.1).count .stabilize := ⟨_, rfl⟩
  have hsub : V.image (fun f => (Fault.time f, faultPos f)) ⊆ ({(k : Int) - 1, (k : Int)} : Finset Int) ×ˢ touching p := by
    intro y hy
    obtain ⟨f, hf, rfl⟩ := Finset.mem_image.1 hy
    obtain ⟨-, h1, ⟨p', hp', h2⟩, -⟩ := (hV f hf).2
    rw [← at_pos hp hp'] at h2
    rw [← hk] at h1
    rw [Finset.mem_product]
    refine ⟨?_, mem_touching h2⟩
    simp only [Finset.mem_insert, Finset.mem_singleton]
    exact h1
  rw [← Finset.card_image_of_injOn (f := fun f => (Fault.time f, faultPos f)) (by
    intro f hf f' hf' e
    simp only [Prod.mk.injEq] at e
    exact fault_known (hV f hf).1 (hV f' hf').1 e.1 e.2)]
  refine (Finset.card_le_card hsub).trans ?_
  rw [Finset.card_product]
  exact Nat.mul_le_mul Finset.card_le_two (touching_card p)

/-- A fault comes from what happens at few places. -/
theorem culprits_card {G : Nat} (hG : Paced G l) (f : Fault) {C : Finset (Nat × Qubit)} (hC : ∀ i ∈ C, Culprit key name dh dw n l i f) :
    C.card ≤ 10 * G := by
  classical
  have hat : ∀ i : Nat × Qubit, ∃ p, i ∈ C → At name dh dw i.2 p ∧ Touch p (faultPos f) := by
    intro i
    by_cases hi : i ∈ C
    · obtain ⟨-, -, ⟨p, h1, h2⟩, -⟩ := hC i hi
      exact ⟨p, fun _ => ⟨h1, h2⟩⟩
    · exact ⟨(0, 0), fun h => absurd h hi⟩
  choose pos hpos using hat
  let rounds : Nat → Finset Nat := fun k => ((List.range l.length).filter fun a => decide ((l.take a).count .stabilize = k)).toFinset
  have hr : ∀ k, (rounds k).card ≤ G := fun k => (List.toFinset_card_le _).trans (hG k)
  let t := Fault.time f
  let A : Finset Nat := rounds (t - n).toNat ∪ rounds (t + 1 - n).toNat
  have hA : A.card ≤ 2 * G := (Finset.card_union_le _ _).trans (by have := hr (t - n).toNat; have := hr (t + 1 - n).toNat; omega)
  have hsub : C.image (fun i => (i.1, pos i)) ⊆ A ×ˢ touching (faultPos f) := by
    intro y hy
    obtain ⟨i, hi, rfl⟩ := Finset.mem_image.1 hy
    rw [Finset.mem_product]
    refine ⟨?_, mem_touching (hpos i hi).2.symm⟩
    obtain ⟨h1, h2, -⟩ := hC i hi
    have h2' : t = ((n + (l.take i.1).count .stabilize : Nat) : Int) - 1 ∨ t = ((n + (l.take i.1).count .stabilize : Nat) : Int) := h2
    simp only [A, rounds, Finset.mem_union, List.mem_toFinset, List.mem_filter, List.mem_range, decide_eq_true_eq]
    rcases h2' with h | h
    · right; exact ⟨h1, by omega⟩
    · left; exact ⟨h1, by omega⟩
  rw [← Finset.card_image_of_injOn (f := fun i => (i.1, pos i)) (by
    intro i hi j hj e
    simp only [Prod.mk.injEq] at e
    have h1 := (hpos i hi).1
    rw [e.2] at h1
    exact Prod.ext e.1 (at_qubit h1 (hpos j hj).1))]
  refine (Finset.card_le_card hsub).trans ?_
  rw [Finset.card_product]
  calc A.card * (touching (faultPos f)).card ≤ 2 * G * 5 := Nat.mul_le_mul hA (touching_card _)
    _ = 10 * G := by omega

open Classical in
/-- The places in `S` whose errors can lead to faults of a chain. -/
noncomputable def culprits (key : Key) (name : Str) (dh dw : Int) (n : Nat) (l : List QOp) (S : Finset (Nat × Qubit)) (c : List Fault) :
    Finset (Nat × Qubit) := S.filter fun i => ∃ f ∈ c, Culprit key name dh dw n l i f

theorem culprits_length {G : Nat} (hG : Paced G l) (S : Finset (Nat × Qubit)) (c : List Fault) :
    (culprits key name dh dw n l S c).card ≤ 10 * G * c.length := by
  classical
  induction c with
  | nil =>
    unfold culprits
    simp
  | cons f c ih =>
    have hsub : culprits key name dh dw n l S (f :: c) ⊆ (S.filter fun i => Culprit key name dh dw n l i f) ∪ culprits key name dh dw n l S c := by
      intro i hi
      unfold culprits at *
      rw [Finset.mem_filter] at hi
      obtain ⟨h1, g, hg, h2⟩ := hi
      rw [Finset.mem_union, Finset.mem_filter, Finset.mem_filter]
      rcases List.mem_cons.1 hg with rfl | hg
      · exact Or.inl ⟨h1, h2⟩
      · exact Or.inr ⟨h1, g, hg, h2⟩
    have h1 := culprits_card (name := name) (key := key) (dh := dh) (dw := dw) (n := n) hG f (C := S.filter fun i => Culprit key name dh dw n l i f)
      fun i hi => (Finset.mem_filter.1 hi).2
    have h2 := (Finset.card_le_card hsub).trans (Finset.card_union_le _ _)
    rw [List.length_cons, Nat.mul_add, Nat.mul_one]
    omega

/-- If the faults come from errors at the places in `F`, and at least half of a chain has occurred, then there are errors at many of the places
near the chain. -/
theorem half_culprits {T : Int} {S F : Finset (Nat × Qubit)} (hF : F ⊆ S) {gs c : List Fault} (hnd : c.Nodup) (hfit : ∀ f ∈ c, f.Fits key dh dw T)
    (hgs : ∀ f ∈ gs, ∃ i ∈ F, Culprit key name dh dw n l i f) (hc : c.length ≤ 2 * (c.filter (· ∈ gs)).length) :
    c.length ≤ 20 * (F ∩ culprits key name dh dw n l S c).card := by
  classical
  have hsub : (c.filter (· ∈ gs)).toFinset ⊆ (F ∩ culprits key name dh dw n l S c).biUnion fun i =>
      c.toFinset.filter fun f => Culprit key name dh dw n l i f := by
    intro f hf
    rw [List.mem_toFinset, List.mem_filter, decide_eq_true_eq] at hf
    obtain ⟨i, hi, h⟩ := hgs f hf.2
    rw [Finset.mem_biUnion]
    refine ⟨i, Finset.mem_inter.2 ⟨hi, ?_⟩, ?_⟩
    · unfold culprits
      rw [Finset.mem_filter]
      exact ⟨hF hi, f, hf.1, h⟩
    · rw [Finset.mem_filter, List.mem_toFinset]
      exact ⟨hf.1, h⟩
  have h1 := (Finset.card_le_card hsub).trans (Finset.card_biUnion_le_card_mul _ _ 10 fun i _ =>
    victims_card (T := T) i fun f hf => by
      rw [Finset.mem_filter, List.mem_toFinset] at hf
      exact ⟨hfit f hf.1, hf.2⟩)
  rw [List.toFinset_card_of_nodup (hnd.filter _)] at h1
  omega

/-! ### Faults that are not decoded correctly -/

/-- If some smallest explanation of the hits of faults has another effect on the readout than the faults, at least half of a chain has
occurred. -/
theorem not_decided_chain (H : Long key dh dw) {T : Int} {gs : List Fault} (hfit : ∀ f ∈ gs, f.Fits key dh dw T)
    (hnot : ¬ Decided key dh dw T gs false) :
    ∃ k, (distance key dh dw).toNat ≤ k + 1 ∧ ∃ c ∈ chainList key dh dw T k, c.length = k + 1 ∧ c.Nodup ∧ (∀ f ∈ c, f.Fits key dh dw T) ∧
      c.length ≤ 2 * (c.filter (· ∈ gs)).length := by
  classical
  unfold Decided at hnot
  push Not at hnot
  obtain ⟨hs, h1, h2, h3, h4⟩ := hnot
  rw [Bool.xor_false] at h4
  have hpar : ∀ p : Fault → Bool, (oddPart gs).toList.countP p % 2 = gs.countP p % 2 := by
    intro p
    rw [← oddPart_par p gs, countP_toList]
  have hhit : ∀ m, IsHit key dh dw T (oddPart gs).toList m ↔ IsHit key dh dw T hs m := by
    intro m
    rw [h2 m]
    unfold IsHit
    rw [hpar]
  have hro : readoutFlipped key (oddPart gs).toList = readoutFlipped key gs := by
    unfold readoutFlipped
    rw [xorAll_map_par, xorAll_map_par, hpar]
  obtain ⟨a, b, c, c1, c2, -, c4, c5, c6⟩ := half_chain H (E := oddPart gs) (fun f hf => hfit f (oddPart_sub gs f hf)) h1 hhit
    (fun fs e1 e2 => h3 fs e1 fun m => by rw [e2, h2]) (by rw [hro]; exact h4.symm)
  obtain ⟨k, k1, k2, k3⟩ := c4.listed H c1 c2 c5
  refine ⟨k, by omega, c, k3, k1, c5, c4.all fun _ _ _ h => h.fits, ?_⟩
  have hle : (c.filter (· ∈ oddPart gs)).length ≤ (c.filter (· ∈ gs)).length := by
    rw [← List.countP_eq_length_filter, ← List.countP_eq_length_filter]
    exact List.countP_mono_left fun f _ h => by
      rw [decide_eq_true_eq] at h ⊢
      exact oddPart_sub gs f h
  omega

end Qtc
