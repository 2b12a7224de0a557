import Mathlib.Data.Int.LeastGreatest
import Verif.Proof.ErrorGraph
import Verif.Proof.Readout
/-!
From matchings of indices to matchings of nodes; a matcher that meets the contract exists.
-/
namespace Qtc
open Spec

/-- A matching in terms of nodes. -/
def NMatch (adj : Node → Node → Prop) (M : List (Node × Node)) : Prop :=
  (∀ p ∈ M, p.1 ≠ p.2 ∧ adj p.1 p.2) ∧ (ends M).Nodup

/-- Total weight in terms of nodes. -/
def nweight (U : Node → Node → Int) (M : List (Node × Node)) : Int := (M.map fun p => U p.1 p.2).sum

/-- Largest number of pairs, then largest weight. -/
def NOptimal (adj : Node → Node → Prop) (U : Node → Node → Int) (M : List (Node × Node)) : Prop :=
  NMatch adj M ∧ ∀ M', NMatch adj M' → M'.length ≤ M.length ∧ (M'.length = M.length → nweight U M' ≤ nweight U M)

theorem edgeWeight_of {E : List (Nat × Nat × Int)} {i j : Nat} {x : Int} (hex : ∃ w, (i, j, w) ∈ E ∨ (j, i, w) ∈ E)
    (h : ∀ e ∈ E, ((e.1 = i ∧ e.2.1 = j) ∨ (e.1 = j ∧ e.2.1 = i)) → e.2.2 = x) : edgeWeight E i j = x := by
  unfold edgeWeight
  cases hf : E.find? (fun e => decide ((e.1 = i ∧ e.2.1 = j) ∨ (e.1 = j ∧ e.2.1 = i))) with
  | none =>
    rw [List.find?_eq_none] at hf
    obtain ⟨w, h | h⟩ := hex
    · exact absurd (by simp) (hf _ h)
    · exact absurd (by simp) (hf _ h)
  | some e =>
    have h1 := List.find?_some hf
    exact h e (List.mem_of_find?_eq_some hf) (by simpa using h1)

theorem ends_map {α β : Type} (f : α → β) (M : List (α × α)) : ends (M.map fun p => (f p.1, f p.2)) = (ends M).map f := by
  induction M with
  | nil => rfl
  | cons p M ih => simp [ih]

theorem runMwpm_spec {m : Matcher} (hm : Contract m) {g : RxGraph ℝ} (hw : g.WF) (floats : Bool) {U : Node → Node → Int}
    (hU : AllEdges (fun a b w => weightFn floats w = U a b) g) (hs : ∀ a b, U a b = U b a) :
    ∃ M, runMwpm m g floats = .ok (M.filter fun p => !(p.1.t == -1 && p.2.t == -1)) ∧ NOptimal g.Adj U M ∧
      ∀ p ∈ M, p.1 ∈ g.nodes ∧ p.2 ∈ g.nodes := by
  classical
  let E : List (Nat × Nat × Int) := g.edges.map fun e => (e.1, e.2.1, weightFn floats e.2.2)
  have hE : ∀ i j w, (i, j, w) ∈ E → ∃ v, (i, j, v) ∈ g.edges ∧ w = weightFn floats v := by
    intro i j w h
    obtain ⟨⟨x, y, v⟩, h1, h2⟩ := List.mem_map.1 h
    cases h2
    exact ⟨v, h1, rfl⟩
  have hE' : ∀ i j v, (i, j, v) ∈ g.edges → (i, j, weightFn floats v) ∈ E := fun i j v h => List.mem_map.2 ⟨_, h, rfl⟩
  have hsimple : SimpleEdges g.nodes.length E := by
    constructor
    · intro e he
      obtain ⟨v, h, _⟩ := hE e.1 e.2.1 e.2.2 he
      exact hw.lt _ h
    · show List.Pairwise _ (g.edges.map _)
      rw [List.pairwise_map]
      refine hw.simple.imp ?_
      intro e e' h h'
      exact h (sameEnds_iff.2 h')
  obtain ⟨⟨m1, m2⟩, m3⟩ := hm g.nodes.length E hsimple
  let pay : Nat → Node := fun i => (g.nodes[i]?).getD extraNode
  have hpay : ∀ i, i < g.nodes.length → g.nodes[i]? = some (pay i) := by
    intro i hi
    simp only [pay]
    rw [List.getElem?_eq_getElem hi]
    rfl
  have hlt : ∀ p ∈ m g.nodes.length E, p.1 < g.nodes.length ∧ p.2 < g.nodes.length := by
    intro p hp
    obtain ⟨_, w, h | h⟩ := m1 p hp
    · exact hsimple.1 _ h
    · exact (hsimple.1 _ h).symm
  have hinj : ∀ i j, i < g.nodes.length → j < g.nodes.length → pay i = pay j → i = j := by
    intro i j hi hj h
    have h1 := hpay i hi
    rw [h] at h1
    exact getElem?_inj_of_nodup hw.nodup h1 (hpay j hj)
  -- weights agree
  have hwt : ∀ i j, i < g.nodes.length → j < g.nodes.length → (∃ w, (i, j, w) ∈ E ∨ (j, i, w) ∈ E) →
      edgeWeight E i j = U (pay i) (pay j) := by
    intro i j hi hj hex
    apply edgeWeight_of hex
    rintro ⟨x, y, w⟩ he h
    obtain ⟨v, hv, rfl⟩ := hE x y w he
    rcases h with ⟨h1, h2⟩ | ⟨h1, h2⟩
    · simp only at h1 h2
      subst h1 h2
      exact hU _ _ _ hv _ _ (hpay _ hi) (hpay _ hj)
    · simp only at h1 h2
      subst h1 h2
      rw [hs]
      exact hU _ _ _ hv _ _ (hpay _ hj) (hpay _ hi)
  refine ⟨(m g.nodes.length E).map fun p => (pay p.1, pay p.2), ?_, ⟨⟨?_, ?_⟩, ?_⟩, ?_⟩
  · have hmap : (m g.nodes.length E).mapM (fun p => do
        let a ← g.payload p.1
        let b ← g.payload p.2
        return (a, b)) = (.ok ((m g.nodes.length E).map fun p => (pay p.1, pay p.2)) : Py _) := by
      apply mapM_ok
      intro p hp
      have := hlt p hp
      simp only [RxGraph.payload, hpay _ this.1, hpay _ this.2, bind, Except.bind, pure, Except.pure]
    unfold runMwpm
    erw [hmap]
    rfl
  · intro q hq
    obtain ⟨p, hp, rfl⟩ := List.mem_map.1 hq
    have hl := hlt p hp
    obtain ⟨hne, w, h⟩ := m1 p hp
    refine ⟨fun h => hne (hinj _ _ hl.1 hl.2 h), ?_⟩
    rcases h with h | h
    · obtain ⟨v, hv, _⟩ := hE _ _ _ h
      exact ⟨_, _, v, hpay _ hl.1, hpay _ hl.2, Or.inl hv⟩
    · obtain ⟨v, hv, _⟩ := hE _ _ _ h
      exact ⟨_, _, v, hpay _ hl.1, hpay _ hl.2, Or.inr hv⟩
  · rw [ends_map, List.nodup_map_iff_inj_on m2]
    intro x hx y hy h
    have lt : ∀ z ∈ ends (m g.nodes.length E), z < g.nodes.length := by
      intro z hz
      obtain ⟨p, hp, h⟩ := mem_ends.1 hz
      have := hlt p hp
      rcases h with rfl | rfl
      · exact this.1
      · exact this.2
    exact hinj x y (lt x hx) (lt y hy) h
  · intro M' hM'
    -- the same matching by index
    let ix : Node → Nat := fun n => g.nodes.idxOf n
    have hix : ∀ n ∈ g.nodes, g.nodes[ix n]? = some n := by
      intro n hn
      have := List.idxOf_lt_length_of_mem hn
      rw [List.getElem?_eq_getElem this, List.getElem_idxOf]
    have hixlt : ∀ n ∈ g.nodes, ix n < g.nodes.length := fun n hn => List.idxOf_lt_length_of_mem hn
    have hpix : ∀ n ∈ g.nodes, pay (ix n) = n := by
      intro n hn
      have h1 := hix n hn
      rw [hpay _ (hixlt n hn)] at h1
      exact Option.some.inj h1
    have hmem : ∀ p ∈ M', p.1 ∈ g.nodes ∧ p.2 ∈ g.nodes := by
      intro p hp
      obtain ⟨_, i, j, w, h1, h2, _⟩ := hM'.1 p hp
      exact ⟨List.mem_of_getElem? h1, List.mem_of_getElem? h2⟩
    have hedge : ∀ p ∈ M', ∃ w, (ix p.1, ix p.2, w) ∈ E ∨ (ix p.2, ix p.1, w) ∈ E := by
      intro p hp
      obtain ⟨_, i, j, w, h1, h2, h3⟩ := hM'.1 p hp
      have hm := hmem p hp
      rw [← getElem?_inj_of_nodup hw.nodup h1 (hix p.1 hm.1), ← getElem?_inj_of_nodup hw.nodup h2 (hix p.2 hm.2)]
      refine ⟨weightFn floats w, ?_⟩
      rcases h3 with h3 | h3
      · exact Or.inl (hE' _ _ _ h3)
      · exact Or.inr (hE' _ _ _ h3)
    have hMi : IsMatching E (M'.map fun p => (ix p.1, ix p.2)) := by
      constructor
      · intro q hq
        obtain ⟨p, hp, rfl⟩ := List.mem_map.1 hq
        have hm := hmem p hp
        refine ⟨?_, hedge p hp⟩
        intro h
        apply (hM'.1 p hp).1
        rw [← hpix p.1 hm.1, ← hpix p.2 hm.2]
        exact congrArg pay h
      · rw [ends_map, List.nodup_map_iff_inj_on hM'.2]
        intro x hx y hy h
        have inn : ∀ z ∈ ends M', z ∈ g.nodes := by
          intro z hz
          obtain ⟨p, hp, h⟩ := mem_ends.1 hz
          have := hmem p hp
          rcases h with rfl | rfl
          · exact this.1
          · exact this.2
        rw [← hpix x (inn x hx), ← hpix y (inn y hy)]
        exact congrArg pay h
    have hres := m3 _ hMi
    rw [List.length_map] at hres
    rw [List.length_map]
    refine ⟨hres.1, ?_⟩
    intro hlen
    have h1 := hres.2 hlen
    have e1 : matchWeight E (M'.map fun p => (ix p.1, ix p.2)) = nweight U M' := by
      unfold matchWeight nweight
      rw [List.map_map]
      congr 1
      apply List.map_congr_left
      intro p hp
      have hm := hmem p hp
      show edgeWeight E (ix p.1) (ix p.2) = _
      rw [hwt _ _ (hixlt _ hm.1) (hixlt _ hm.2) (hedge p hp), hpix _ hm.1, hpix _ hm.2]
    have e2 : nweight U ((m g.nodes.length E).map fun p => (pay p.1, pay p.2)) = matchWeight E (m g.nodes.length E) := by
      unfold matchWeight nweight
      rw [List.map_map]
      congr 1
      apply List.map_congr_left
      intro p hp
      have hl := hlt p hp
      show U (pay p.1) (pay p.2) = _
      rw [hwt _ _ hl.1 hl.2 (m1 p hp).2]
    rw [e1] at h1
    rw [e2]
    exact h1
  · intro q hq
    obtain ⟨p, hp, rfl⟩ := List.mem_map.1 hq
    have hl := hlt p hp
    exact ⟨List.mem_of_getElem? (hpay _ hl.1), List.mem_of_getElem? (hpay _ hl.2)⟩

/-! ### The contract can be met -/

theorem exists_optimal {n : Nat} {E : List (Nat × Nat × Int)} (hE : SimpleEdges n E) : ∃ M, IsOptimal E M := by
  classical
  -- matchings have at most `n` pairs
  have hlen : ∀ M, IsMatching E M → M.length ≤ n := by
    intro M hM
    have hsub : ends M ⊆ List.range n := by
      intro x hx
      obtain ⟨p, hp, h⟩ := mem_ends.1 hx
      obtain ⟨_, w, h'⟩ := hM.1 p hp
      rw [List.mem_range]
      rcases h' with h' | h' <;> have := hE.1 _ h' <;> simp only at this <;> rcases h with rfl | rfl <;> omega
    have := (List.subperm_of_subset hM.2 hsub).length_le
    rw [length_ends, List.length_range] at this
    omega
  have hnil : IsMatching E [] := ⟨by simp, by simp⟩
  obtain ⟨k, ⟨⟨M0, hM0, hk⟩, hmax⟩⟩ : ∃ k, (∃ M, IsMatching E M ∧ M.length = k) ∧
      ∀ M, IsMatching E M → M.length ≤ k := by
    have hex : ∃ k, ∀ M, IsMatching E M → M.length ≤ k := ⟨n, hlen⟩
    refine ⟨Nat.find hex, ?_, Nat.find_spec hex⟩
    by_contra hno
    rcases hz : Nat.find hex with _ | k
    · exact hno ⟨[], hnil, hz.symm⟩
    · apply Nat.find_min hex (m := k) (by omega)
      intro M hM
      have h1 := Nat.find_spec hex M hM
      have h2 : M.length ≠ Nat.find hex := fun h => hno ⟨M, hM, h⟩
      omega
  -- weights are bounded
  have hbound : ∃ b : Int, 0 ≤ b ∧ ∀ i j, edgeWeight E i j ≤ b := by
    refine ⟨(E.map fun e => (e.2.2.natAbs : Int)).sum, ?_, ?_⟩
    · apply List.sum_nonneg
      intro x hx
      obtain ⟨e, _, rfl⟩ := List.mem_map.1 hx
      omega
    · intro i j
      have hnn : ∀ l : List (Nat × Nat × Int), 0 ≤ (l.map fun e => (e.2.2.natAbs : Int)).sum := by
        intro l
        apply List.sum_nonneg
        intro x hx
        obtain ⟨e, _, rfl⟩ := List.mem_map.1 hx
        omega
      unfold edgeWeight
      split
      · rename_i e hf
        have hmem := List.mem_of_find?_eq_some hf
        obtain ⟨s, t, rfl⟩ := List.append_of_mem hmem
        have h1 := hnn s
        have h2 := hnn t
        simp only [List.map_append, List.map_cons, List.sum_append, List.sum_cons]
        omega
      · exact hnn E
  obtain ⟨b, hb0, hb⟩ := hbound
  obtain ⟨z, ⟨M, hM, hl, hz⟩, hzmax⟩ := Int.exists_greatest_of_bdd
    (P := fun z => ∃ M, IsMatching E M ∧ M.length = k ∧ matchWeight E M = z)
    ⟨k * b, by
      rintro z ⟨M, hM, hl, rfl⟩
      unfold matchWeight
      have : ∀ l : List (Nat × Nat), (l.map fun p => edgeWeight E p.1 p.2).sum ≤ l.length * b := by
        intro l
        induction l with
        | nil => simp
        | cons p l ih =>
          simp only [List.map_cons, List.sum_cons, List.length_cons]
          have := hb p.1 p.2
          push_cast
          rw [Int.add_mul]
          omega
      rw [← hl]
      exact this M⟩
    ⟨_, M0, hM0, hk, rfl⟩
  refine ⟨M, hM, ?_⟩
  intro M' hM'
  refine ⟨by rw [hl]; exact hmax M' hM', ?_⟩
  intro h
  rw [hz]
  exact hzmax _ ⟨M', hM', by omega, rfl⟩

/-- Some function meets the contract of the matching library. -/
theorem contract_exists : ∃ m : Matcher, Contract m := by
  classical
  refine ⟨fun n E => if h : SimpleEdges n E then Classical.choose (exists_optimal h) else [], ?_⟩
  intro n E h
  simp only [dif_pos h]
  exact Classical.choose_spec (exists_optimal h)

end Qtc
