import Verif.Proof.Levels
import Verif.Proof.Made
/-!
Distances in a graph: `floydWarshall` is the length of a shortest path; parities of paths.
-/
namespace Qtc
open Spec

theorem Spec.IsDist.unique {adj : Node → Node → Prop} {a b : Node} {n m : Nat} (h : IsDist adj a b n) (h' : IsDist adj a b m) :
    n = m := by
  obtain ⟨⟨e1, p1, l1⟩, m1⟩ := h
  obtain ⟨⟨e2, p2, l2⟩, m2⟩ := h'
  have := m1 e2 p2
  have := m2 e1 p1
  omega

theorem pdist_spec {adj : Node → Node → Prop} {a b : Node} (h : ∃ es, Path adj a b es) : IsDist adj a b (pdist adj a b) := by
  classical
  have h' : ∃ n es, Path adj a b es ∧ es.length = n := by
    obtain ⟨es, hes⟩ := h
    exact ⟨_, es, hes, rfl⟩
  unfold pdist
  rw [dif_pos h']
  refine ⟨Nat.find_spec h', ?_⟩
  intro es hes
  exact Nat.find_min' h' ⟨es, hes, rfl⟩

theorem pdist_self (adj : Node → Node → Prop) (a : Node) : pdist adj a a = 0 := by
  have := (pdist_spec (adj := adj) ⟨[], Path.nil a⟩).2 [] (Path.nil a)
  simpa using this

theorem pdist_symm {adj : Node → Node → Prop} (hs : ∀ a b, adj a b → adj b a) (a b : Node) : pdist adj a b = pdist adj b a := by
  by_cases h : ∃ es, Path adj a b es
  · refine (pdist_spec h).unique ?_
    obtain ⟨es, hes⟩ := h
    obtain ⟨es', hes', _⟩ := Path.rev hs hes
    obtain ⟨⟨e1, p1, l1⟩, m1⟩ := pdist_spec ⟨es', hes'⟩
    obtain ⟨e2, p2, l2⟩ := Path.rev hs p1
    refine ⟨⟨e2, p2, by omega⟩, ?_⟩
    intro es3 h3
    obtain ⟨e4, p4, l4⟩ := Path.rev hs h3
    have := m1 e4 p4
    omega
  · have h' : ¬ ∃ es, Path adj b a es := by
      rintro ⟨es, hes⟩
      obtain ⟨es', hes', _⟩ := Path.rev hs hes
      exact h ⟨es', hes'⟩
    unfold pdist
    rw [dif_neg, dif_neg]
    · rintro ⟨n, es, h1, _⟩; exact h' ⟨es, h1⟩
    · rintro ⟨n, es, h1, _⟩; exact h ⟨es, h1⟩

theorem pdist_tri {adj : Node → Node → Prop} {a b c : Node} (h1 : ∃ es, Path adj a b es) (h2 : ∃ es, Path adj b c es) :
    pdist adj a c ≤ pdist adj a b + pdist adj b c := by
  obtain ⟨⟨e1, p1, l1⟩, _⟩ := pdist_spec h1
  obtain ⟨⟨e2, p2, l2⟩, _⟩ := pdist_spec h2
  have := (pdist_spec ⟨_, Path.append p1 p2⟩).2 _ (Path.append p1 p2)
  rw [List.length_append] at this
  omega

theorem pdist_adj {adj : Node → Node → Prop} {a b : Node} (h : adj a b) : pdist adj a b ≤ 1 := by
  have p : Path adj a b [(a, b)] := Path.cons h (Path.nil b)
  exact (pdist_spec ⟨_, p⟩).2 _ p

/-! ### Walks by index and paths by payload -/

theorem linked_iff {W : Type} {g : RxGraph W} {i j : Nat} :
    g.linked i j = true ↔ ∃ w, (i, j, w) ∈ g.edges ∨ (j, i, w) ∈ g.edges := by
  unfold RxGraph.linked
  rw [List.any_eq_true]
  constructor
  · rintro ⟨⟨x, y, w⟩, he, hs⟩
    rw [sameEnds_iff] at hs
    simp only at hs
    rcases hs with ⟨rfl, rfl⟩ | ⟨rfl, rfl⟩
    · exact ⟨w, Or.inl he⟩
    · exact ⟨w, Or.inr he⟩
  · rintro ⟨w, h | h⟩
    · exact ⟨_, h, by rw [sameEnds_iff]; simp⟩
    · exact ⟨_, h, by rw [sameEnds_iff]; simp⟩

theorem linked_symm {W : Type} {g : RxGraph W} {i j : Nat} : g.linked i j = g.linked j i := by
  rw [Bool.eq_iff_iff, linked_iff, linked_iff]
  constructor
  · rintro ⟨w, h⟩; exact ⟨w, h.symm⟩
  · rintro ⟨w, h⟩; exact ⟨w, h.symm⟩

theorem linked_adj {W : Type} {g : RxGraph W} {i j : Nat} {a b : Node} (hw : g.WF) (ha : g.nodes[i]? = some a)
    (hb : g.nodes[j]? = some b) : g.linked i j = true ↔ g.Adj a b := by
  rw [linked_iff]
  constructor
  · rintro ⟨w, h⟩
    exact ⟨i, j, w, ha, hb, h⟩
  · rintro ⟨i', j', w, ha', hb', h⟩
    rw [getElem?_inj_of_nodup hw.nodup ha ha', getElem?_inj_of_nodup hw.nodup hb hb']
    exact ⟨w, h⟩

theorem linked_lt {W : Type} {g : RxGraph W} {i j : Nat} (hw : g.WF) (h : g.linked i j = true) :
    i < g.nodes.length ∧ j < g.nodes.length := by
  obtain ⟨w, h | h⟩ := linked_iff.1 h
  · exact hw.lt _ h
  · exact (hw.lt _ h).symm

theorem walk_path {W : Type} {g : RxGraph W} (hw : g.WF) {i j n : Nat} (h : g.Walk i j n) :
    ∀ {a b : Node}, g.nodes[i]? = some a → g.nodes[j]? = some b → ∃ es, Path g.Adj a b es ∧ es.length = n := by
  induction h with
  | nil i =>
    intro a b ha hb
    rw [ha] at hb
    cases hb
    exact ⟨[], Path.nil _, rfl⟩
  | cons hl _ ih =>
    intro a b ha hb
    have hk := (linked_lt hw hl).2
    obtain ⟨es, p, l⟩ := ih (List.getElem?_eq_getElem hk) hb
    exact ⟨_, Path.cons ((linked_adj hw ha (List.getElem?_eq_getElem hk)).1 hl) p, by simp [l]⟩

theorem path_walk {W : Type} {g : RxGraph W} (hw : g.WF) {a b : Node} {es : List (Node × Node)} (h : Path g.Adj a b es) :
    ∀ {i j : Nat}, g.nodes[i]? = some a → g.nodes[j]? = some b → g.Walk i j es.length := by
  induction h with
  | nil a =>
    intro i j ha hb
    rw [getElem?_inj_of_nodup hw.nodup ha hb]
    exact RxGraph.Walk.nil _
  | cons hl _ ih =>
    intro i j ha hb
    obtain ⟨i', j', w, h1, h2, h3⟩ := hl
    have e := getElem?_inj_of_nodup hw.nodup ha h1
    subst e
    exact RxGraph.Walk.cons (linked_iff.2 ⟨w, h3⟩) (ih h2 hb)

theorem floydWarshall_spec {W : Type} {g : RxGraph W} (hw : g.WF) {a b : Node} (hc : ∃ es, Path g.Adj a b es) {i j : Nat}
    (ha : g.nodes[i]? = some a) (hb : g.nodes[j]? = some b) : g.floydWarshall i j = some (pdist g.Adj a b) := by
  classical
  have hex : ∃ n, g.Walk i j n := by
    obtain ⟨es, p⟩ := hc
    exact ⟨_, path_walk hw p ha hb⟩
  unfold RxGraph.floydWarshall
  rw [dif_pos hex]
  congr 1
  refine IsDist.unique (adj := g.Adj) (a := a) (b := b) ?_ (pdist_spec hc)
  constructor
  · exact walk_path hw (Nat.find_spec hex) ha hb
  · intro es p
    exact Nat.find_min' hex (path_walk hw p ha hb)

/-! ### Parities of paths -/

theorem path_count {adj : Node → Node → Prop} {a b : Node} {es : List (Node × Node)} (h : Path adj a b es) (n : Node) :
    (ends es).count n % 2 = ((if a = n then 1 else 0) + (if b = n then 1 else 0)) % 2 := by
  induction h with
  | nil a => simp only [ends_nil, List.count_nil]; split <;> rfl
  | @cons a b c es _ _ ih =>
    rw [ends_cons, List.count_cons, List.count_cons]
    simp only [beq_iff_eq]
    split <;> split at ih <;> split at ih <;> simp_all <;> omega

theorem path_cut {adj : Node → Node → Prop} {a b : Node} {es : List (Node × Node)} (h : Path adj a b es) (lev : Node → Int)
    (k : Int) : cutPar lev es k = (decide (lev a ≤ k) ^^ decide (lev b ≤ k)) := by
  induction h with
  | nil a => simp [cutPar]
  | @cons a b c es _ _ ih =>
    unfold cutPar at ih ⊢
    rw [List.map_cons, xorAll_cons, ih]
    generalize decide (lev a ≤ k) = x
    generalize decide (lev b ≤ k) = y
    generalize decide (lev c ≤ k) = z
    revert x y z
    decide

theorem path_mem {adj : Node → Node → Prop} {a b : Node} {es : List (Node × Node)} (h : Path adj a b es) :
    ∀ e ∈ es, adj e.1 e.2 := by
  induction h with
  | nil a => simp
  | cons h _ ih =>
    intro e he
    rcases List.mem_cons.1 he with rfl | he
    · exact h
    · exact ih e he

end Qtc
