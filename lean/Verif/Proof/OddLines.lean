import Verif.Proof.Core
/-!
Fault sets with the same hits, of which one lies in few lines.
-/
namespace Qtc
open Spec

variable {key : Key} {dh dw T : Int}

/-- Every cut is crossed as often (modulo 2) as the first one. -/
theorem cross_const {α : Type} [DecidableEq α] (lev : α → Int) (D : Nat) (F : List (α × α))
    (heven : ∀ a, 0 < lev a → lev a < D → (ends F).count a % 2 = 0) : ∀ k : Nat, k < D → cutPar lev F k = cutPar lev F 0 := by
  intro k
  induction k with
  | zero => intro _; rfl
  | succ k ih =>
    intro hk
    rw [← ih (by omega)]
    push_cast
    apply cutPar_succ
    intro a ha
    exact heven a (by omega) (by omega)

/-- There are at most as many odd lines as faults. -/
theorem oddLines_le (n : Nat) (fs : List Fault) : oddLines key n fs ≤ fs.length := by
  unfold oddLines
  rw [List.countP_eq_length_filter]
  have hsub : ((List.range n).filter fun (k : Nat) => xorAll (fs.map (Fault.inLine key k))) ⊆ fs.map fun
      | .data _ r c => (match key with | .Z => r | .X => c).toNat
      | .meas _ _ _ => 0 := by
    intro k hk
    obtain ⟨-, hk⟩ := List.mem_filter.1 hk
    obtain ⟨f, hf, hx⟩ := xorAll_true_exists hk
    refine List.mem_map.2 ⟨f, hf, ?_⟩
    cases f with
    | data t r c =>
      cases key
      · have : c = k := beq_iff_eq.1 hx
        simp only; omega
      · have : r = k := beq_iff_eq.1 hx
        simp only; omega
    | meas t r c => cases hx
  have := (List.subperm_of_subset (List.nodup_range.filter _) hsub).length_le
  rwa [List.length_map] at this

theorem tolerable_of_correctable {fs : List Fault} (h : Correctable key dh dw T fs) :
    Tolerable key dh dw T fs := by
  refine ⟨h.1, ?_⟩
  have := h.2
  have := oddLines_le (key := key) (distance key dh dw).toNat fs
  omega

/-- If two fault sets with the same hits agree in what they do to one line, they agree for all of them. -/
theorem same_lines (HL : Long key dh dw) {fs gs : List Fault} (hf : ∀ f ∈ fs, f.Fits key dh dw T) (hg : ∀ f ∈ gs, f.Fits key dh dw T)
    (hhit : ∀ n, IsHit key dh dw T fs n ↔ IsHit key dh dw T gs n) (k : Nat) (hk : k < (distance key dh dw).toNat) :
    (xorAll (fs.map (Fault.inLine key k)) ^^ xorAll (gs.map (Fault.inLine key k))) = (readoutFlipped key fs ^^ readoutFlipped key gs) := by
  have hfit : ∀ f ∈ fs ++ gs, f.Fits key dh dw T := by
    intro f h
    rcases List.mem_append.1 h with h | h
    · exact hf f h
    · exact hg f h
  obtain ⟨E, e1, e2, e3, e4⟩ := fault_edges_lines HL.1 (fs ++ gs) hfit
  have hc := cross_const (lev key) (distance key dh dw).toNat E (by
    intro a h0 h1
    by_contra hc
    have hmem : a ∈ ends E := List.count_pos_iff.1 (by omega)
    have hga : GNode key dh dw T a := by
      obtain ⟨p, hp', h⟩ := mem_ends.1 hmem
      have := gadj_nodes (e2 p hp')
      rcases h with rfl | rfl
      · exact this.1
      · exact this.2
    rcases gnode_level HL hga with h' | h'
    · omega
    · have hr : a.t ≠ -1 := by omega
      rcases hga with ⟨g1, g2, g3⟩ | ⟨g1, _⟩
      · rw [e3 a hr g3, List.countP_append] at hc
        have hh := hhit a
        unfold IsHit at hh
        simp only [g1, g2, g3, true_and] at hh
        omega
      · exact hr g1) k hk
  have h0 := e4 0
  rw [readoutFlipped_line] at h0
  unfold readoutFlipped at h0 ⊢
  rw [e4 k, h0, List.map_append, xorAll_append, List.map_append, xorAll_append] at hc
  exact hc

/-- Two fault sets with the same hits, of which the smaller one lies in few lines or the larger one does, agree in what they do to the
readout. -/
theorem few_lines (H : OddPos dh dw) {fs gs : List Fault} (hf : Tolerable key dh dw T fs) (hg : ∀ f ∈ gs, f.Fits key dh dw T)
    (hhit : ∀ n, IsHit key dh dw T fs n ↔ IsHit key dh dw T gs n) (hle : gs.length ≤ fs.length) :
    readoutFlipped key gs = readoutFlipped key fs := by
  by_cases hfs : fs = []
  · subst hfs
    rw [List.length_nil, Nat.le_zero, List.length_eq_zero_iff] at hle
    rw [hle]
  have HL : Long key dh dw := by
    refine ⟨H, ?_⟩
    have h2 := hf.2
    have h3 : 0 < fs.length := List.length_pos_iff.2 hfs
    unfold OddPos at H
    cases key
    · simp only [distance] at *; omega
    · simp only [distance] at *; omega
  have hc := same_lines HL hf.1 hg hhit
  by_contra hne
  have hodd : ∀ k ∈ List.range (distance key dh dw).toNat,
      (xorAll (fs.map (Fault.inLine key (k : Int))) || xorAll (gs.map (Fault.inLine key (k : Int)))) = true := by
    intro k hk
    have := hc k (List.mem_range.1 hk)
    revert this hne
    cases readoutFlipped key fs <;> cases readoutFlipped key gs <;> cases xorAll (fs.map (Fault.inLine key (k : Int))) <;>
      cases xorAll (gs.map (Fault.inLine key (k : Int))) <;> simp
  have hsum : ∀ (p r : Nat → Bool) (l : List Nat), (∀ k ∈ l, (p k || r k) = true) → l.length ≤ l.countP p + l.countP r := by
    intro p r l
    induction l with
    | nil => simp
    | cons a l ih =>
      intro h
      have := ih fun k hk => h k (List.mem_cons_of_mem _ hk)
      have ha := h a List.mem_cons_self
      rw [List.countP_cons, List.countP_cons, List.length_cons]
      rcases Bool.or_eq_true _ _ ▸ ha with ha | ha <;> rw [ha] <;> simp <;> omega
  have hs := hsum _ _ _ hodd
  rw [List.length_range] at hs
  have hl := oddLines_le (key := key) (distance key dh dw).toNat gs
  have h2 := hf.2
  unfold oddLines at hl h2
  omega

theorem decided_of_tolerable (H : OddPos dh dw) {fs : List Fault} (hf : Tolerable key dh dw T fs) : Decided key dh dw T fs false := by
  intro gs hg hhit hmin
  rw [Bool.xor_false]
  exact few_lines H hf hg (fun n => (hhit n).symm) (hmin fs hf.1 fun _ => Iff.rfl)

end Qtc
