import Verif.Proof.Crossing
import Verif.Proof.CorrectHits
import Mathlib.Tactic.Ring
/-!
If decoding fails, half of the faults of some chain across the lattice have happened; and how many such chains there are.
-/
namespace Qtc
open Spec

variable {key : Key} {dh dw T : Int}

/-- The fault joins the nodes `a` and `b`. -/
def FJ (key : Key) (dh dw T : Int) (f : Fault) (a b : Node) : Prop :=
  match f with
  | .data t r c => DataEdge key dh dw T t r c a b
  | .meas t r2 c2 => TimeEdge key dh dw T t a b ∧ a.r2 = r2 ∧ a.c2 = c2

/-- An inner node. -/
def RealNode (key : Key) (dh dw T : Int) (n : Node) : Prop := 0 ≤ n.t ∧ n.t < T ∧ Site key dh dw n.r2 n.c2

theorem FJ.adj {f : Fault} {a b : Node} (h : FJ key dh dw T f a b) : GAdj key dh dw T a b := by
  cases f with
  | data t r c => exact Or.inl ⟨t, r, c, h⟩
  | meas t r c => exact Or.inr ⟨t, h.1⟩

theorem FJ.symm {f : Fault} {a b : Node} (h : FJ key dh dw T f a b) : FJ key dh dw T f b a := by
  cases f with
  | data t r c =>
    obtain ⟨h1, h2, h3, h4, h5, h6, h7, h8, h9⟩ := h
    exact ⟨h1, h2, h3, h4, h5, h6, h7.symm, h9, h8⟩
  | meas t r c =>
    obtain ⟨⟨h1, h2, h3, h4, h5, h6⟩, h7, h8⟩ := h
    refine ⟨⟨h1, h2, ?_, h4.symm, h5.symm, ?_⟩, ?_, ?_⟩
    · rw [← h4, ← h5]; exact h3
    · omega
    · omega
    · omega

theorem FJ.fits {f : Fault} {a b : Node} (h : FJ key dh dw T f a b) : f.Fits key dh dw T := by
  cases f with
  | data t r c =>
    obtain ⟨h1, h2, h3, h4, h5, h6, _⟩ := h
    exact ⟨h1, h2, h3, h4, h5, h6⟩
  | meas t r c =>
    obtain ⟨⟨h1, h2, h3, h4, h5, h6⟩, h7, h8⟩ := h
    exact ⟨h1, h2, by rw [← h7, ← h8]; exact h3⟩

theorem FJ.unique (H : OddPos dh dw) {f : Fault} {x y x' y' : Node} (h : FJ key dh dw T f x y) (h' : FJ key dh dw T f x' y') :
    (x' = x ∧ y' = y) ∨ (x' = y ∧ y' = x) := by
  cases f with
  | data t r c =>
    obtain ⟨h1, h2, h3, h4, h5, h6, h7, h8, h9⟩ := h
    obtain ⟨_, _, _, _, _, _, g7, g8, g9⟩ := h'
    obtain ⟨a, b, hab, ha, hb, hall⟩ := touches_two (key := key) (t := t) H h3 h4 h5 h6
    rcases hall _ h8 with rfl | rfl <;> rcases hall _ h9 with rfl | rfl <;> rcases hall _ g8 with rfl | rfl <;>
      rcases hall _ g9 with rfl | rfl <;> simp_all
  | meas t r c =>
    obtain ⟨⟨h1, h2, h3, h4, h5, h6⟩, h7, h8⟩ := h
    obtain ⟨⟨g1, g2, g3, g4, g5, g6⟩, g7, g8⟩ := h'
    obtain ⟨xt, xr, xc⟩ := x
    obtain ⟨yt, yr, yc⟩ := y
    obtain ⟨xt', xr', xc'⟩ := x'
    obtain ⟨yt', yr', yc'⟩ := y'
    simp only at *
    subst h4 h5 h7 h8 g4 g5 g7 g8
    rcases h6 with ⟨rfl, rfl⟩ | ⟨rfl, rfl⟩ <;> rcases g6 with ⟨rfl, rfl⟩ | ⟨rfl, rfl⟩ <;> simp

/-- The fault changes exactly the inner nodes it joins. -/
theorem FJ.changes (H : OddPos dh dw) {f : Fault} {a b n : Node} (h : FJ key dh dw T f a b) (hn : RealNode key dh dw T n) :
    (if f.changes n = true then 1 else 0) = (if a = n then 1 else 0) + if b = n then 1 else 0 := by
  have hn' : n.t ≠ -1 := by have := hn.1; omega
  cases f with
  | data t r c =>
    obtain ⟨h1, h2, h3, h4, h5, h6, h7, h8, h9⟩ := h
    obtain ⟨x, y, hxy, hx, hy, hall⟩ := touches_two (key := key) (t := t) H h3 h4 h5 h6
    have hiff : Fault.changes n (.data t r c) = true ↔ Touches key dh dw t r c n := by
      simp only [Fault.changes, Bool.and_eq_true, Bool.or_eq_true, beq_iff_eq]
      constructor
      · rintro ⟨⟨e1, e2⟩, e3⟩
        exact ⟨e2, e3, Or.inl ⟨e1, hn.2.2⟩⟩
      · rintro ⟨e2, e3, ⟨e1, _⟩ | ⟨e1, _⟩⟩
        · exact ⟨⟨e1, e2⟩, e3⟩
        · exact absurd e1 hn'
    by_cases hc : Touches key dh dw t r c n
    · rw [if_pos (hiff.2 hc)]
      have hn'' : n = a ∨ n = b := by
        rcases hall a h8 with rfl | rfl <;> rcases hall b h9 with rfl | rfl
        · exact absurd rfl h7
        · exact hall n hc
        · exact (hall n hc).symm
        · exact absurd rfl h7
      rcases hn'' with rfl | rfl
      · rw [if_pos rfl, if_neg (Ne.symm h7)]
      · rw [if_pos rfl, if_neg h7]
    · rw [if_neg (fun h => hc (hiff.1 h)), if_neg, if_neg]
      · rintro rfl; exact hc h9
      · rintro rfl; exact hc h8
  | meas t r2 c2 =>
    obtain ⟨⟨h1, h2, h3, h4, h5, h6⟩, h7, h8⟩ := h
    obtain ⟨xt, xr, xc⟩ := a
    obtain ⟨yt, yr, yc⟩ := b
    obtain ⟨nt, nr, nc⟩ := n
    simp only at *
    subst h4 h5 h7 h8
    simp only [Fault.changes, Node.mk.injEq, Bool.and_eq_true, Bool.or_eq_true, beq_iff_eq]
    by_cases e1 : nr = xr
    · by_cases e2 : nc = xc
      · subst e1 e2
        simp only [and_true, true_and]
        by_cases e3 : xt = nt
        · rw [if_pos (by omega), if_pos e3, if_neg (by omega)]
        · by_cases e4 : yt = nt
          · rw [if_pos (by omega), if_neg e3, if_pos e4]
          · rw [if_neg (by omega), if_neg e3, if_neg e4]
      · simp [e2, Ne.symm e2]
    · simp [e1, Ne.symm e1]

/-- The fault flips the readout if it joins a node at the upper boundary to one that is not. -/
theorem FJ.readout {f : Fault} {a b : Node} (h : FJ key dh dw T f a b) :
    (decide (lev key a ≤ 0) ^^ decide (lev key b ≤ 0)) = f.flipsReadout key := by
  cases f with
  | data t r c =>
    have hd : DataEdge key dh dw T t r c a b := h
    obtain ⟨g1, g2, g3, g4, g5, g6, _⟩ := h
    have hl := dataEdge_level hd
    cases key
    · simp only at hl
      simp only [Fault.flipsReadout]
      by_cases hc0 : c = 0
      · subst hc0
        rcases hl with ⟨e1, e2⟩ | ⟨e1, e2⟩ <;> rw [e1, e2] <;> rfl
      · rcases hl with ⟨e1, e2⟩ | ⟨e1, e2⟩ <;> rw [e1, e2, beq_eq_false_iff_ne.2 hc0] <;>
          rw [decide_eq_false (by omega), decide_eq_false (by omega)] <;> rfl
    · simp only at hl
      simp only [Fault.flipsReadout]
      by_cases hc0 : r = 0
      · subst hc0
        rcases hl with ⟨e1, e2⟩ | ⟨e1, e2⟩ <;> rw [e1, e2] <;> rfl
      · rcases hl with ⟨e1, e2⟩ | ⟨e1, e2⟩ <;> rw [e1, e2, beq_eq_false_iff_ne.2 hc0] <;>
          rw [decide_eq_false (by omega), decide_eq_false (by omega)] <;> rfl
  | meas t r2 c2 =>
    obtain ⟨⟨h1, h2, h3, h4, h5, h6⟩, h7, h8⟩ := h
    have : lev key a = lev key b := by
      cases key
      · simp only [lev, h5]
      · simp only [lev, h4]
    rw [this, Bool.xor_self]
    rfl

/-- Every fault joins two nodes. -/
theorem FJ.exists (H : OddPos dh dw) {f : Fault} (hf : f.Fits key dh dw T) : ∃ e : Node × Node, FJ key dh dw T f e.1 e.2 := by
  cases f with
  | data t r c =>
    obtain ⟨g1, g2, g3, g4, g5, g6⟩ := hf
    obtain ⟨a, b, hne, ha, hb, hall⟩ := touches_two (key := key) (t := t) H g3 g4 g5 g6
    exact ⟨(a, b), g1, g2, g3, g4, g5, g6, hne, ha, hb⟩
  | meas t r2 c2 =>
    obtain ⟨g1, g2, g3⟩ := hf
    exact ⟨(⟨t, r2, c2⟩, ⟨t + 1, r2, c2⟩), ⟨g1, g2, g3, rfl, rfl, Or.inl ⟨rfl, rfl⟩⟩, rfl, rfl⟩

open Classical in
/-- The ends of a fault. -/
noncomputable def fends (key : Key) (dh dw T : Int) (f : Fault) : Node × Node :=
  if h : ∃ e : Node × Node, FJ key dh dw T f e.1 e.2 then h.choose else (⟨0, 0, 0⟩, ⟨0, 0, 0⟩)

theorem fends_spec (H : OddPos dh dw) {f : Fault} (hf : f.Fits key dh dw T) : FJ key dh dw T f (fends key dh dw T f).1 (fends key dh dw T f).2 := by
  unfold fends
  rw [dif_pos (FJ.exists H hf)]
  exact (FJ.exists H hf).choose_spec

/-! ### Sets of faults -/

theorem card_filter_symmDiff (A B : Finset Fault) (p : Fault → Bool) :
    ((symmDiff A B).filter fun f => p f = true).card % 2 = ((A.filter fun f => p f = true).card + (B.filter fun f => p f = true).card) % 2 := by
  have e : (symmDiff A B).filter (fun f => p f = true) = symmDiff (A.filter fun f => p f = true) (B.filter fun f => p f = true) := by
    ext f
    simp only [Finset.mem_filter, Finset.mem_symmDiff]
    tauto
  rw [e]
  have h : ∀ A B : Finset Fault, (symmDiff A B).card % 2 = (A.card + B.card) % 2 := by
    intro A B
    have h1 : (symmDiff A B).card = (A \ B).card + (B \ A).card := by
      rw [symmDiff_def, Finset.sup_eq_union, Finset.card_union_of_disjoint disjoint_sdiff_sdiff]
    have h2 := Finset.card_sdiff_add_card_inter A B
    have h3 := Finset.card_sdiff_add_card_inter B A
    rw [Finset.inter_comm] at h3
    omega
  exact h _ _

/-- The faults that occur an odd number of times. -/
def oddPart (l : List Fault) : Finset Fault := l.foldr (fun f s => symmDiff {f} s) ∅

theorem oddPart_par (p : Fault → Bool) (l : List Fault) : ((oddPart l).filter fun f => p f = true).card % 2 = l.countP p % 2 := by
  induction l with
  | nil => simp [oddPart]
  | cons f l ih =>
    show ((symmDiff {f} (oddPart l)).filter _).card % 2 = _
    rw [card_filter_symmDiff, List.countP_cons, Finset.filter_singleton]
    split <;> simp <;> omega

theorem oddPart_sub (l : List Fault) : ∀ f ∈ oddPart l, f ∈ l := by
  induction l with
  | nil => intro f hf; simp [oddPart] at hf
  | cons g l ih =>
    intro f hf
    change f ∈ symmDiff {g} (oddPart l) at hf
    rw [Finset.mem_symmDiff, Finset.mem_singleton] at hf
    rcases hf with ⟨rfl, _⟩ | ⟨h, _⟩
    · exact List.mem_cons_self
    · exact List.mem_cons_of_mem _ (ih f h)

theorem oddPart_card (l : List Fault) : (oddPart l).card ≤ l.length := by
  induction l with
  | nil => simp [oddPart]
  | cons g l ih =>
    show (symmDiff {g} (oddPart l)).card ≤ _
    have : symmDiff {g} (oddPart l) ⊆ {g} ∪ oddPart l := by
      intro f hf
      rw [Finset.mem_symmDiff] at hf
      rw [Finset.mem_union]
      tauto
    have h1 := Finset.card_le_card this
    have h2 := Finset.card_union_le {g} (oddPart l)
    rw [Finset.card_singleton] at h2
    rw [List.length_cons]
    omega

theorem countP_toList (S : Finset Fault) (p : Fault → Bool) : S.toList.countP p = (S.filter fun f => p f = true).card := by
  rw [List.countP_eq_length_filter, ← Finset.length_toList]
  refine List.Perm.length_eq ((List.perm_ext_iff_of_nodup (S.nodup_toList.filter _) (Finset.nodup_toList _)).2 fun f => ?_)
  simp

theorem xorAll_map_par {α : Type} (p : α → Bool) (l : List α) : xorAll (l.map p) = decide (l.countP p % 2 = 1) := by
  rw [xorAll_eq_countP, List.count_eq_countP, List.countP_map]
  congr 3
  congr 1
  funext a
  simp

/-- If the faults `E` have the same hits as a smallest explanation, but another effect on the readout, then at least half of the faults of a
chain from one boundary to the other are in `E`. -/
theorem half_chain (H : Long key dh dw) {E : Finset Fault} (hE : ∀ f ∈ E, f.Fits key dh dw T) {gs : List Fault} (hg : ∀ f ∈ gs, f.Fits key dh dw T)
    (hsame : ∀ n, IsHit key dh dw T E.toList n ↔ IsHit key dh dw T gs n)
    (hmin : ∀ fs : List Fault, (∀ f ∈ fs, f.Fits key dh dw T) → (∀ n, IsHit key dh dw T fs n ↔ IsHit key dh dw T gs n) → gs.length ≤ fs.length)
    (hdiff : readoutFlipped key E.toList ≠ readoutFlipped key gs) :
    ∃ a c l, lev key a ≤ 0 ∧ lev key c = distance key dh dw ∧ GNode key dh dw T a ∧
      Cross (FJ key dh dw T) (RealNode key dh dw T) a l c ∧ l.Nodup ∧ l.length ≤ 2 * (l.filter (· ∈ E)).length := by
  let G := oddPart gs
  have hG : ∀ f ∈ G, f.Fits key dh dw T := fun f h => hg f (oddPart_sub gs f h)
  let S := symmDiff E G
  have hS : ∀ f ∈ S.toList, f.Fits key dh dw T := by
    intro f hf
    rw [Finset.mem_toList, Finset.mem_symmDiff] at hf
    rcases hf with h | h
    · exact hE f h.1
    · exact hG f h.1
  have hpar : ∀ p : Fault → Bool, S.toList.countP p % 2 = (E.toList.countP p + gs.countP p) % 2 := by
    intro p
    rw [countP_toList, card_filter_symmDiff, countP_toList]
    have := oddPart_par p gs
    change (G.filter _).card % 2 = _ at this
    omega
  have hdis : ∀ v, ¬ (RealNode key dh dw T v ∧ lev key v ≤ 0) := by
    rintro v ⟨⟨hv1, hv2, hv3⟩, hv4⟩
    rcases gnode_level H (n := v) (Or.inl ⟨hv1, hv2, hv3⟩) with h | h
    · omega
    · omega
  have heven : ∀ v, RealNode key dh dw T v → (ends (S.toList.map (fends key dh dw T))).count v % 2 = 0 := by
    intro v hv
    have e : (ends (S.toList.map (fends key dh dw T))).count v = S.toList.countP (Fault.changes v) := by
      revert hS
      generalize S.toList = L
      intro hS
      induction L with
      | nil => rfl
      | cons f L ih =>
        have := (fends_spec H.1 (hS f List.mem_cons_self)).changes H.1 hv
        rw [List.map_cons, ends_cons, List.count_cons, List.count_cons, ih fun g hg => hS g (List.mem_cons_of_mem _ hg), List.countP_cons, this]
        simp only [beq_iff_eq]
        omega
    rw [e, hpar]
    have := hsame v
    unfold IsHit at this
    have h3 : E.toList.countP (Fault.changes v) % 2 = 1 ↔ gs.countP (Fault.changes v) % 2 = 1 :=
      ⟨fun h => (this.1 ⟨hv.1, hv.2.1, hv.2.2, h⟩).2.2.2, fun h => (this.2 ⟨hv.1, hv.2.1, hv.2.2, h⟩).2.2.2⟩
    omega
  have hodd : xorAll (S.toList.map fun f => (decide (lev key (fends key dh dw T f).1 ≤ 0) ^^ decide (lev key (fends key dh dw T f).2 ≤ 0))) = true := by
    have e : (S.toList.map fun f => (decide (lev key (fends key dh dw T f).1 ≤ 0) ^^ decide (lev key (fends key dh dw T f).2 ≤ 0))) =
        S.toList.map (Fault.flipsReadout key) := List.map_congr_left fun f hf => (fends_spec H.1 (hS f hf)).readout
    rw [e, xorAll_map_par, decide_eq_true_eq, hpar]
    unfold readoutFlipped at hdiff
    rw [xorAll_map_par, xorAll_map_par] at hdiff
    have h3 : ¬ (E.toList.countP (Fault.flipsReadout key) % 2 = 1 ↔ gs.countP (Fault.flipsReadout key) % 2 = 1) :=
      fun h => hdiff (decide_eq_decide.2 h)
    omega
  obtain ⟨a, c, l0, h1, h2, h3⟩ := exists_crossing (fends key dh dw T) (RealNode key dh dw T) (fun v => lev key v ≤ 0) hdis S.toList heven hodd
  -- a chain without repetitions
  have h3' : Cross (fun f x y => f ∈ S ∧ FJ key dh dw T f x y) (RealNode key dh dw T) a l0 c := by
    refine h3.mono fun f x y h => ⟨Finset.mem_toList.1 h.1, ?_⟩
    have := fends_spec H.1 (hS f h.1)
    rcases h.2 with e | e
    · rw [e] at this; exact this
    · rw [e] at this; exact this.symm
  have hac : a ≠ c := fun e => h2 (e ▸ h1)
  obtain ⟨l, g1, g2⟩ := h3'.exists_nodup (fun f x y x' y' h h' => FJ.unique H.1 h.2 h'.2) hac
  have g3 : ∀ f ∈ l, f ∈ S := g1.all fun f x y h => h.1
  have g4 : Cross (FJ key dh dw T) (RealNode key dh dw T) a l c := g1.mono fun f x y h => h.2
  have hga : GNode key dh dw T a := g4.start_of (Q := GNode key dh dw T) fun f x y h => (gadj_nodes h.adj).1
  have hgc : GNode key dh dw T c := g4.end_of (Q := GNode key dh dw T) fun f x y h => (gadj_nodes h.adj).2
  have hc : lev key c = distance key dh dw := by
    have hnr := g4.end_not
    rcases gnode_level H hgc with ⟨_, h | h⟩ | h
    · exact absurd h.le h2
    · exact h
    · rcases hgc with h' | h'
      · exact absurd h' hnr
      · omega
  refine ⟨a, c, l, h1, hc, hga, g4, g2, ?_⟩
  -- the other explanation
  have har : ∀ n, RealNode key dh dw T n → a ≠ n := by
    rintro n hn rfl
    rcases gnode_level H hga with h | h
    · have := hn.1
      omega
    · omega
  have hmin' := hmin (symmDiff G l.toFinset).toList ?_ ?_
  · rw [Finset.length_toList] at hmin'
    have k1 : (symmDiff G l.toFinset).card = (G \ l.toFinset).card + (l.toFinset \ G).card := by
      rw [symmDiff_def, Finset.sup_eq_union, Finset.card_union_of_disjoint disjoint_sdiff_sdiff]
    have k2 := Finset.card_sdiff_add_card_inter G l.toFinset
    have k3 := Finset.card_sdiff_add_card_inter l.toFinset G
    rw [Finset.inter_comm] at k3
    have k4 : G.card ≤ gs.length := oddPart_card gs
    have k5 : l.toFinset.card = l.length := List.toFinset_card_of_nodup g2
    have k6 : l.toFinset \ G ⊆ (l.filter (· ∈ E)).toFinset := by
      intro f hf
      rw [Finset.mem_sdiff, List.mem_toFinset] at hf
      rw [List.mem_toFinset, List.mem_filter]
      have := g3 f hf.1
      rw [Finset.mem_symmDiff] at this
      refine ⟨hf.1, decide_eq_true ?_⟩
      tauto
    have k7 := Finset.card_le_card k6
    have k8 := List.toFinset_card_le (l.filter (· ∈ E))
    omega
  · intro f hf
    rw [Finset.mem_toList, Finset.mem_symmDiff] at hf
    rcases hf with h | h
    · exact hG f h.1
    · exact g4.all (fun f x y h => h.fits) f (List.mem_toFinset.1 h.1)
  · intro n
    unfold IsHit
    refine and_congr_right fun n1 => and_congr_right fun n2 => and_congr_right fun n3 => ?_
    have hn : RealNode key dh dw T n := ⟨n1, n2, n3⟩
    have hev := g4.even (t := fun v f => f.changes v) hn fun f x y h => h.changes H.1 hn
    rw [if_neg (har n hn)] at hev
    rw [countP_toList, card_filter_symmDiff]
    have e1 : (l.toFinset.filter fun f => f.changes n = true).card = l.countP (Fault.changes n) := by
      rw [← countP_toList]
      exact List.Perm.countP_eq _ ((List.perm_ext_iff_of_nodup (Finset.nodup_toList _) g2).2 fun f => by simp)
    have e2 := oddPart_par (Fault.changes n) gs
    change (G.filter _).card % 2 = _ at e2
    change l.countP (Fault.changes n) % 2 = 0 at hev
    omega

end Qtc
