import Verif.Proof.MatchedGraph
import Verif.Props.Decoding
/-!
C97: the matched graph shows the matches the decoder uses.
-/
namespace Qtc
open Spec

/-- The graph has an edge of weight `w` between the nodes `a` and `b`. -/
def RxGraph.Weighs (g : RxGraph ℝ) (a b : Node) (w : ℝ) : Prop :=
  ∃ i j, g.nodes[i]? = some a ∧ g.nodes[j]? = some b ∧ ((i, j, w) ∈ g.edges ∨ (j, i, w) ∈ g.edges)

/-- C97: for every graph with distinct nodes and at most one edge between any two, `_run_mwpm_graph` returns the graph of the pairs
`_run_mwpm` returns: their ends are its nodes, each once, and its edges are the pairs, each with its weight. -/
theorem C97_matched_graph (m : Matcher) (hm : Contract m) (g : RxGraph ℝ) (hn : g.nodes.Nodup)
    (hlt : ∀ e ∈ g.edges, e.1 < g.nodes.length ∧ e.2.1 < g.nodes.length)
    (hs : g.edges.Pairwise fun e e' => ¬ ((e.1 = e'.1 ∧ e.2.1 = e'.2.1) ∨ (e.1 = e'.2.1 ∧ e.2.1 = e'.1))) (floats : Bool) :
    ∃ M mg, runMwpm m g floats = .ok M ∧ runMwpmGraph m g floats = .ok mg ∧ mg.nodes = ends M ∧ mg.nodes.Nodup ∧
      mg.edges.length = M.length ∧
      ∀ (k : Nat) (a b : Node), M[k]? = some (a, b) → ∃ w, mg.edges[k]? = some (2 * k, 2 * k + 1, w) ∧
        mg.nodes[2 * k]? = some a ∧ mg.nodes[2 * k + 1]? = some b ∧ g.Weighs a b w := by
  have hw : g.WF := ⟨hn, hlt, hs.imp fun h h' => h (sameEnds_iff.1 h')⟩
  obtain ⟨I, ws, h1, h2, h3, h4, h5⟩ := runMwpmGraph_spec hm hw floats
  refine ⟨_, _, h1, h2, rfl, h3, ?_, ?_⟩
  · rw [pairEdges_length, List.length_map, h5.length_eq]
  · intro k a b hk
    rw [List.getElem?_map] at hk
    cases hI : I[k]? with
    | none => rw [hI] at hk; cases hk
    | some p =>
      rw [hI] at hk
      obtain ⟨rfl, rfl⟩ : g.pay p.1 = a ∧ g.pay p.2 = b := by simpa using hk
      obtain ⟨hk1, hk2⟩ := List.getElem?_eq_some_iff.1 hI
      have hk3 : k < ws.length := by rw [← h5.length_eq]; exact hk1
      have hp := (List.forall₂_iff_get.1 h5).2 k hk1 hk3
      simp only [List.get_eq_getElem, hk2] at hp
      have hl := h4 p (List.mem_of_getElem? hI)
      refine ⟨ws[k], ?_, ?_, ?_, p.1, p.2, RxGraph.pay_get hl.1, RxGraph.pay_get hl.2, hp⟩
      · rw [pairEdges_get, List.getElem?_eq_getElem hk3]
        simp
      · rw [ends_get, List.getElem?_map, hI]; rfl
      · rw [ends_get', List.getElem?_map, hI]; rfl

/-- C97: for the error graph of distinct hits the matched graph shows the pairs the decoder flips the readout for, and its total weight is
minus the smallest number of faults that explain the hits. -/
theorem C97_total_weight (D : Decoder) (hD : Made D) (key : Key) (s : SGraph) (hs : D.S key = some s) (HO : OddPos D.dh D.dw)
    (m : Matcher) (hm : Contract m) (L : List Node) (hn : L.Nodup) (hL : ∀ n ∈ L, HitPlace key D n) (hne : L ≠ []) :
    ∃ e M mg gs, makeErrorGraph s (D.virt key) L none = .ok (e, L ++ D.virt key) ∧
      corrections D m L (rtypeOf key) none = .ok (M, L ++ D.virt key) ∧ runMwpmGraph m e.g false = .ok mg ∧ mg.nodes = ends M ∧
      (mg.edges.map fun x => x.2.2).sum = -(gs.length : ℝ) ∧
      (∀ f ∈ gs, f.Fits key D.dh D.dw D.T) ∧ (∀ n, IsHit key D.dh D.dw D.T gs n ↔ n ∈ L) ∧
      ∀ fs : List Fault, (∀ f ∈ fs, f.Fits key D.dh D.dw D.T) → (∀ n, IsHit key D.dh D.dw D.T fs n ↔ n ∈ L) →
        gs.length ≤ fs.length := by
  obtain ⟨n0, h0⟩ := List.exists_mem_of_ne_nil _ hne
  have R := ready_of_hit hD hs HO (hL n0 h0)
  have hLg : ∀ n ∈ L, GNode key D.dh D.dw D.T n := fun n h => hitPlace_gnode (hL n h)
  obtain ⟨M, gs, h1, h6, h7, -, hlen, g⟩ := kept_explanation hD hs HO hm hn hL hne
  have hg : ∀ n ∈ L ++ virtualNodes D.dh D.dw key, GNode key D.dh D.dw D.T n := by
    intro n hn
    rcases List.mem_append.1 hn with h | h
    · exact hLg n h
    · exact virt_gnode R.odd h
  have hx : extraNode ∉ L ++ virtualNodes D.dh D.dw key := by
    rw [List.mem_append]
    rintro (h | h)
    · exact extra_not_gnode (hLg _ h)
    · exact extra_not_virt R.odd h
  obtain ⟨e, he⟩ := makeErrorGraph_ok (s := s) (ep := none) (L := L) (I := fun _ => True) trivial hx (fun p hp c hc =>
    ⟨_, pairWeight_none R (hg _ (mem_combinations2 hp).1) (hg _ (mem_combinations2 hp).2) c, trivial⟩)
  obtain ⟨-, hwf, hall, -, -⟩ := makeErrorGraph_spec (Q := fun a b w => w = ((unitWeight key D.dh D.dw D.T a b : Int) : ℝ)) (I := fun _ => True)
    (fun a b w h => by rw [unitWeight_symm b a]; exact h) trivial hx
    (fun v hv => by
      unfold unitWeight
      rw [if_pos ⟨rfl, ((mem_virtualNodes R.odd).1 hv).1⟩]
      simp)
    (fun p hp c r hc h => by
      rw [pairWeight_none R (hg _ (mem_combinations2 hp).1) (hg _ (mem_combinations2 hp).2) c] at h
      cases h
      exact ⟨rfl, trivial⟩) he
  obtain ⟨I, ws, k1, k2, k3, k4, k5⟩ := runMwpmGraph_spec hm hwf.toWF false
  have hM : kept M = I.map fun p => (e.g.pay p.1, e.g.pay p.2) := by
    unfold corrections at h1
    rw [if_neg hne, RType.key_rtypeOf] at h1
    simp only [R.graph, R.virt, he, bind, Except.bind, Option.isSome, k1, pure, Except.pure] at h1
    exact (Prod.mk.inj (Except.ok.inj h1)).1.symm
  rw [hM] at h1 h6 h7 hlen
  refine ⟨e, _, _, gs, by rw [R.virt]; exact he, by rw [R.virt]; exact h1, k2, rfl, ?_, g⟩
  rw [pairEdges_weights]
  have hsum : ws.sum = ((nweight (unitWeight key D.dh D.dw D.T) (I.map fun p => (e.g.pay p.1, e.g.pay p.2)) : Int) : ℝ) := by
    clear hM h1 h6 h7 hlen k1 k2 k3
    induction k5 with
    | nil => simp [nweight]
    | @cons p w I ws hp _ ih =>
      have hl := k4 p List.mem_cons_self
      have := ih fun q hq => k4 q (List.mem_cons_of_mem _ hq)
      have hw : w = ((unitWeight key D.dh D.dw D.T (e.g.pay p.1) (e.g.pay p.2) : Int) : ℝ) := by
        rcases hp with hp | hp
        · exact hall _ _ _ hp _ _ (RxGraph.pay_get hl.1) (RxGraph.pay_get hl.2)
        · rw [unitWeight_symm]
          exact hall _ _ _ hp _ _ (RxGraph.pay_get hl.2) (RxGraph.pay_get hl.1)
      rw [List.sum_cons, this, hw]
      unfold nweight
      simp
  rw [hsum, nweight_eq h7, hlen]
  push_cast
  ring

/-- Two neighbouring plaquettes changed, one data error apart: the matched graph has total weight -1. -/
example : ∃ D s m e mg, Made D ∧ D.S .Z = some s ∧ Contract m ∧ makeErrorGraph s (D.virt .Z) [⟨0, 1, 1⟩, ⟨0, 3, 3⟩] none = .ok (e, [⟨0, 1, 1⟩, ⟨0, 3, 3⟩] ++ D.virt .Z) ∧
    runMwpmGraph m e.g false = .ok mg ∧ (mg.edges.map fun x => x.2.2).sum = -1 := by
  obtain ⟨D, sx, sz, h, h1, h2, h3, h4, h5, h6, h7⟩ := demo_decoder
  obtain ⟨m, hm⟩ := contract_exists
  obtain ⟨e, M, mg, gs, e1, e2, e3, e4, e5, e6, e7, e8⟩ := C97_total_weight D h .Z sz h5 h7.1 m hm [⟨0, 1, 1⟩, ⟨0, 3, 3⟩] (by decide)
    (by
      intro n hn
      simp only [List.mem_cons, List.not_mem_nil, or_false] at hn
      rcases hn with rfl | rfl <;> unfold HitPlace Site ZSite <;> rw [h1, h2, h3] <;> decide) (by simp)
  refine ⟨D, sz, m, e, mg, h, h5, hm, e1, e3, ?_⟩
  have hle := e8 [.data 0 1 1] (by
      intro f hf
      rw [List.mem_singleton.1 hf, h1, h2, h3]
      unfold Fault.Fits; decide) (by
      rw [h1, h2, h3]
      rintro ⟨t, r, c⟩
      unfold IsHit Site ZSite
      simp only [List.countP_cons, List.countP_nil, Fault.changes, List.mem_cons, List.not_mem_nil, or_false, Node.mk.injEq, Bool.and_eq_true,
        Bool.or_eq_true, beq_iff_eq]
      constructor
      · rintro ⟨a1, a2, a3, a4⟩
        split at a4 <;> omega
      · intro h
        refine ⟨by omega, by omega, by omega, ?_⟩
        rw [if_pos (by omega)])
  have hpos : gs ≠ [] := by
    rintro rfl
    have := (e7 ⟨0, 1, 1⟩).2 (by simp)
    exact absurd this.2.2.2 (by simp)
  rw [e5]
  have : gs.length = 1 := by
    have := List.length_pos_iff.2 hpos
    simp at hle
    omega
  rw [this]
  norm_num

end Qtc
