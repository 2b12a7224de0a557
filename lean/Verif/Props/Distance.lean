import Verif.Proof.Distance
import Verif.Proof.Pairing
import Verif.Props.MatchedGraph
/-!
C111: how far apart two nodes of a decoding graph are, in closed form.
-/
namespace Qtc
open Spec

/-- C111: the table of path lengths of a decoding graph holds, for any two nodes, the number of faults given by the closed formula:
diagonal steps in space plus steps in time, or a way over one of the boundaries. -/
theorem C111_distance (D : Decoder) (hD : Made D) (key : Key) (s : SGraph) (hs : D.S key = some s) (H : Long key D.dh D.dw) (hT : 0 < D.T)
    (i j : Nat) (a b : Node) (hi : s.g.nodes[i]? = some a) (hj : s.g.nodes[j]? = some b) :
    s.g.floydWarshall i j = some (faultsBetween key D.dh D.dw a b) := by
  have R : Ready D key s := ⟨hD, hs, H, hT⟩
  have ha : GNode key D.dh D.dw D.T a := R.mem.1 (List.mem_of_getElem? hi)
  have hb : GNode key D.dh D.dw D.T b := R.mem.1 (List.mem_of_getElem? hj)
  rw [floydWarshall_spec R.wf.toWF (by rw [R.adj]; exact gnode_connected H hT ha hb) hi hj, R.adj, pdist_eq H hT ha hb]

/-- C111: without an error probability every edge of the error graph of any hits weighs minus that number, edges between two
boundary nodes (or the extra node) weigh nothing. -/
theorem C111_weight (D : Decoder) (hD : Made D) (key : Key) (s : SGraph) (hs : D.S key = some s) (H : Long key D.dh D.dw) (hT : 0 < D.T)
    (L : List Node) (hL : ∀ n ∈ L, HitPlace key D n) : ∃ e L', makeErrorGraph s (D.virt key) L none = .ok (e, L') ∧
      ∀ a b w, e.g.Weighs a b w → w = if a.t = -1 ∧ b.t = -1 then 0 else -(faultsBetween key D.dh D.dw a b : ℝ) := by
  have R : Ready D key s := ⟨hD, hs, H, hT⟩
  have hg : ∀ n ∈ L ++ virtualNodes D.dh D.dw key, GNode key D.dh D.dw D.T n := by
    intro n hn
    rcases List.mem_append.1 hn with h | h
    · exact hitPlace_gnode (hL n h)
    · exact virt_gnode R.odd h
  have hx : extraNode ∉ L ++ virtualNodes D.dh D.dw key := fun h => extra_not_gnode (hg _ h)
  have hpw : ∀ p ∈ combinations2 (L ++ virtualNodes D.dh D.dw key), ∀ c, pairWeight s (virtualNodes D.dh D.dw key) none p.1 p.2 c =
      .ok ((if p.1.t = -1 ∧ p.2.t = -1 then 0 else -(faultsBetween key D.dh D.dw p.1 p.2 : ℝ)), c) := by
    intro p hp c
    have g1 := hg _ (mem_combinations2 hp).1
    have g2 := hg _ (mem_combinations2 hp).2
    rw [pairWeight_none R g1 g2 c]
    congr 2
    unfold unitWeight
    split_ifs
    · simp
    · rw [pdist_eq H hT g1 g2]
      push_cast
      rfl
  obtain ⟨e, he⟩ := makeErrorGraph_ok (s := s) (ep := none) (L := L) (I := fun _ => True) trivial hx (fun p hp c hc =>
    ⟨_, hpw p hp c, trivial⟩)
  have hsym : ∀ a b : Node, (if a.t = -1 ∧ b.t = -1 then (0 : ℝ) else -(faultsBetween key D.dh D.dw a b : ℝ)) =
      if b.t = -1 ∧ a.t = -1 then 0 else -(faultsBetween key D.dh D.dw b a : ℝ) := by
    intro a b
    rw [faultsBetween_symm a b]
    simp only [and_comm (a := a.t = -1)]
  obtain ⟨-, -, hall, -, -⟩ := makeErrorGraph_spec
    (Q := fun a b w => w = if a.t = -1 ∧ b.t = -1 then (0 : ℝ) else -(faultsBetween key D.dh D.dw a b : ℝ)) (I := fun _ => True)
    (fun a b w h => by rw [hsym b a]; exact h) trivial hx
    (fun v hv => by rw [if_pos ⟨rfl, ((mem_virtualNodes R.odd).1 hv).1⟩])
    (fun p hp c r hc h => by
      rw [hpw p hp c] at h
      cases h
      exact ⟨rfl, trivial⟩) he
  refine ⟨e, _, by rw [R.virt]; exact he, ?_⟩
  rintro a b w ⟨i, j, hi, hj, h | h⟩
  · exact hall _ _ _ h _ _ hi hj
  · rw [hsym]
    exact hall _ _ _ h _ _ hj hi

/-- Five rounds apart, the same plaquette next to a boundary is only two faults apart, not four. -/
example : straight .Z ⟨0, 1, 1⟩ ⟨4, 1, 1⟩ = 4 ∧ faultsBetween .Z 3 5 ⟨0, 1, 1⟩ ⟨4, 1, 1⟩ = 2 := by decide

/-- Plaquettes of a 9 by 9 lattice: diagonal steps count once. -/
example : faultsBetween .Z 9 9 ⟨0, 1, 5⟩ ⟨0, 5, 9⟩ = 2 ∧ faultsBetween .Z 9 9 ⟨0, 9, 9⟩ ⟨0, 13, 13⟩ = 2 ∧
    faultsBetween .Z 9 9 ⟨0, 1, 1⟩ ⟨0, 1, 5⟩ = 2 ∧ faultsBetween .Z 9 9 ⟨1, 9, 9⟩ ⟨0, 5, 9⟩ = 3 := by decide

/-- A decoder on which the theorems speak about something: from a hit to the boundary next to it, and between hits in different rounds. -/
example : ∃ (D : Decoder) (s : SGraph) (i j k : Nat), Made D ∧ D.S .Z = some s ∧ s.g.nodes[i]? = some ⟨0, 1, 1⟩ ∧ s.g.nodes[j]? = some ⟨1, 3, 3⟩ ∧ s.g.nodes[k]? = some ⟨-1, 5, 1⟩ ∧
    s.g.floydWarshall i j = some 2 ∧ s.g.floydWarshall j k = some 1 := by
  obtain ⟨D, sx, sz, h, h1, h2, h3, h4, h5, h6, h7⟩ := demo_decoder
  have R : Ready D .Z sz := ⟨h, h5, h7, by rw [h3]; decide⟩
  have hn : ∀ n : Node, GNode .Z 3 5 2 n → ∃ i : Nat, sz.g.nodes[i]? = some n := by
    intro n hg
    have := R.mem.2 (by rw [h1, h2, h3]; exact hg : GNode .Z D.dh D.dw D.T n)
    obtain ⟨i, hi, e⟩ := List.mem_iff_getElem.1 this
    exact ⟨i, by rw [List.getElem?_eq_getElem hi, e]⟩
  obtain ⟨i, hi⟩ := hn ⟨0, 1, 1⟩ (Or.inl (by unfold Site ZSite; decide))
  obtain ⟨j, hj⟩ := hn ⟨1, 3, 3⟩ (Or.inl (by unfold Site ZSite; decide))
  obtain ⟨k, hk⟩ := hn ⟨-1, 5, 1⟩ (Or.inr ⟨rfl, by unfold Pos; decide, Or.inr rfl⟩)
  have d1 := C111_distance D h .Z sz h5 h7 R.pos i j _ _ hi hj
  have d2 := C111_distance D h .Z sz h5 h7 R.pos j k _ _ hj hk
  rw [h1, h2] at d1 d2
  exact ⟨D, sz, i, j, k, h, h5, hi, hj, hk, d1.trans (by decide), d2.trans (by decide)⟩

end Qtc
