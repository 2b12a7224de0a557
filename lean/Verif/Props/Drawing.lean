import Verif.Spec.Drawing
import Verif.Props.MatchedGraph
import Mathlib.Tactic.Ring
import Mathlib.Tactic.FieldSimp
/-!
C108: drawings of the decoder's graphs.
-/
namespace Qtc
open Spec

variable {W : Type}

theorem edgeData_simple {g : RxGraph W} (hw : g.WF) {e : Nat × Nat × W} (h : e ∈ g.edges) : g.edgeData e.1 e.2.1 = .ok e.2.2 := by
  unfold RxGraph.edgeData
  have hs := hw.simple
  generalize g.edges = l at *
  induction l with
  | nil => cases h
  | cons x l ih =>
    rw [List.pairwise_cons] at hs
    rcases List.mem_cons.1 h with rfl | h
    · rw [List.find?_cons_of_pos (by simp [sameEnds])]
    · rw [List.find?_cons_of_neg (by simpa using hs.1 e h)]
      exact ih h hs.2

theorem drawEdges_ok {P : Type} {pos : Node → P} {mid : P → P → P} {g : RxGraph W} (hw : g.WF) :
    drawEdges pos mid g = .ok (g.edges.map fun e => ((pos (g.pay e.1), pos (g.pay e.2.1)), mid (pos (g.pay e.1)) (pos (g.pay e.2.1)), e.2.2)) := by
  unfold drawEdges
  apply mapM_ok
  intro e he
  obtain ⟨h1, h2⟩ := hw.lt e he
  unfold RxGraph.payload
  rw [RxGraph.pay_get h1, RxGraph.pay_get h2, edgeData_simple hw he]
  rfl

theorem depicts {P : Type} {pos place : Node → P} {mid middle : P → P → P} {g : RxGraph W} {cs : List ℚ} (hp : pos = place)
    (hm : mid = middle) {es : List ((P × P) × P × W)} (he : es = g.edges.map fun e => ((pos (g.pay e.1), pos (g.pay e.2.1)), mid (pos (g.pay e.1)) (pos (g.pay e.2.1)), e.2.2)) :
    Depicts place middle g { dots := g.nodes.map fun n => (pos n, n), colours := cs, lines := es.map Prod.fst, labels := es.map Prod.snd } := by
  subst hp hm he
  refine ⟨rfl, by simp, by simp, ?_⟩
  intro k i j w a b hk ha hb
  have e1 : g.pay i = a := by unfold RxGraph.pay; rw [ha]; rfl
  have e2 : g.pay j = b := by unfold RxGraph.pay; rw [hb]; rfl
  simp only [List.getElem?_map, hk, Option.map_some, e1, e2]
  exact ⟨trivial, trivial⟩

theorem pos3D_eq (T : Int) : pos3D T = solidPlace T := by
  funext n
  unfold pos3D solidPlace
  rw [zero_add]

theorem middle2D_eq : middle2D = flatMiddle := by
  funext p q
  unfold middle2D flatMiddle
  ext <;> simp only <;> ring

theorem middle3D_eq : middle3D = solidMiddle := by
  funext p q
  unfold middle3D solidMiddle
  ext <;> simp only <;> ring

theorem draw_ok (T : Int) {g : RxGraph W} (hw : g.WF) : ∃ sh r, draw T g = .ok (sh, r) ∧ Shows T g sh ∧ (r = if T ≤ 1 then some sh else none) ∧
    (∀ p, sh = .solid p → p.colours = g.nodes.map fun n => ((n.t + 1 : Int) : ℚ) / T) := by
  unfold draw
  by_cases hT : T > 1
  · rw [if_pos hT]
    have hc : (g.nodes.mapM fun n : Node => if T = 0 then .error .zeroDivisionError else .ok (((n.t + 1 : Int) : ℚ) / T) : Py (List ℚ)) =
        .ok (g.nodes.map fun n => ((n.t + 1 : Int) : ℚ) / T) := mapM_ok _ _ _ fun n _ => if_neg (by omega)
    unfold draw3D
    rw [hc, drawEdges_ok hw]
    refine ⟨_, _, rfl, ⟨hT, depicts (pos3D_eq T) middle3D_eq rfl⟩, (if_neg (by omega)).symm, ?_⟩
    intro p hp
    cases hp
    rfl
  · rw [if_neg hT, drawEdges_ok hw]
    exact ⟨_, _, rfl, ⟨by omega, depicts rfl middle2D_eq rfl⟩, (if_pos (by omega)).symm, fun p hp => by cases hp⟩

/-- C108: a graph with distinct nodes and at most one edge between any two is drawn with a dot for every node and a line with its weight
for every edge, at the right places. -/
theorem C108_shown (T : Int) (g : RxGraph W) (hn : g.nodes.Nodup) (hlt : ∀ e ∈ g.edges, e.1 < g.nodes.length ∧ e.2.1 < g.nodes.length)
    (hs : g.edges.Pairwise fun e e' => ¬ ((e.1 = e'.1 ∧ e.2.1 = e'.2.1) ∨ (e.1 = e'.2.1 ∧ e.2.1 = e'.1))) :
    ∃ sh r, draw T g = .ok (sh, r) ∧ Shows T g sh := by
  obtain ⟨sh, r, h1, h2, -⟩ := draw_ok T ⟨hn, hlt, hs.imp fun h h' => h (sameEnds_iff.1 h')⟩
  exact ⟨sh, r, h1, h2⟩

/-! ### Places -/

/-- The nodes that the decoder's graphs have, with the extra node of error graphs. -/
def DrawNode (key : Key) (dh dw T : Int) (n : Node) : Prop := GNode key dh dw T n ∨ n = extraNode

theorem half_inj {a b : Int} (h : (a : ℚ) / 2 = b / 2) : a = b := by
  have : (a : ℚ) = b := by linarith
  exact_mod_cast this

theorem site_odd {key : Key} {dh dw r c : Int} (h : Site key dh dw r c) : r % 2 = 1 ∧ c % 2 = 1 := by
  cases key
  · have h1 : XSite dh dw r c := h
    unfold XSite at h1
    omega
  · have h1 : ZSite dh dw r c := h
    unfold ZSite at h1
    omega

/-- Two nodes at the same position are both in time steps or the same. -/
theorem drawNode_inj {key : Key} {dh dw T : Int} {a b : Node} (ha : DrawNode key dh dw T a) (hb : DrawNode key dh dw T b) (hr : a.r2 = b.r2)
    (hc : a.c2 = b.c2) : a = b ∨ (0 ≤ a.t ∧ a.t < T ∧ 0 ≤ b.t ∧ b.t < T) := by
  obtain ⟨at', ar, ac⟩ := a
  obtain ⟨bt, br, bc⟩ := b
  simp only at hr hc
  subst hr hc
  have hx : ∀ {t r c : Int}, GNode key dh dw T ⟨t, r, c⟩ → r % 2 = 1 := by
    rintro t r c (⟨-, -, h⟩ | ⟨-, h, -⟩)
    · exact (site_odd h).1
    · exact h.1
  rcases ha with ha | ha
  · rcases hb with hb | hb
    · rcases ha with ⟨a1, a2, a3⟩ | ⟨a1, a2⟩
      · rcases hb with ⟨b1, b2, b3⟩ | ⟨b1, b2⟩
        · exact Or.inr ⟨a1, a2, b1, b2⟩
        · exact (site_not_bdry a3 b2).elim
      · rcases hb with ⟨b1, b2, b3⟩ | ⟨b1, b2⟩
        · exact (site_not_bdry b3 a2).elim
        · simp only at a1 b1
          subst a1 b1
          exact Or.inl rfl
    · cases hb
      exact absurd (hx ha) (by decide)
  · cases ha
    rcases hb with hb | hb
    · exact absurd (hx hb) (by decide)
    · exact Or.inl hb.symm

theorem solidPlace_inj {key : Key} {dh dw T : Int} {a b : Node} (ha : DrawNode key dh dw T a) (hb : DrawNode key dh dw T b)
    (h : solidPlace T a = solidPlace T b) : a = b := by
  unfold solidPlace at h
  simp only [Prod.mk.injEq, neg_inj] at h
  obtain ⟨h1, h2, h3⟩ := h
  rcases drawNode_inj ha hb (half_inj h2) (half_inj h1) with h | ⟨a1, -, b1, -⟩
  · exact h
  · rw [if_neg (by omega), if_neg (by omega)] at h3
    have h3 : a.t = b.t := by exact_mod_cast h3
    have := half_inj h1
    have := half_inj h2
    obtain ⟨at', ar, ac⟩ := a
    obtain ⟨bt, br, bc⟩ := b
    simp only at *
    subst_vars
    rfl

theorem flatPlace_inj {key : Key} {dh dw T : Int} (hT : T ≤ 1) {a b : Node} (ha : DrawNode key dh dw T a) (hb : DrawNode key dh dw T b)
    (h : flatPlace a = flatPlace b) : a = b := by
  unfold flatPlace at h
  simp only [Prod.mk.injEq, neg_inj] at h
  obtain ⟨h1, h2⟩ := h
  rcases drawNode_inj ha hb (half_inj h2) (half_inj h1) with h | ⟨a1, a2, b1, b2⟩
  · exact h
  · have h3 : a.t = b.t := by omega
    have := half_inj h1
    have := half_inj h2
    obtain ⟨at', ar, ac⟩ := a
    obtain ⟨bt, br, bc⟩ := b
    simp only at *
    subst_vars
    rfl

theorem dots_apart {key : Key} {dh dw T : Int} {g : RxGraph W} (hn : g.nodes.Nodup) (hg : ∀ n ∈ g.nodes, DrawNode key dh dw T n) {sh : Shown W}
    (h : Shows T g sh) : DotsApart sh := by
  cases sh with
  | flat p =>
    obtain ⟨hT, h⟩ := h
    show (p.dots.map Prod.fst).Nodup
    rw [h.dots, List.map_map]
    exact hn.map_on fun a ha b hb e => flatPlace_inj hT (hg a ha) (hg b hb) e
  | solid p =>
    obtain ⟨hT, h⟩ := h
    show (p.dots.map Prod.fst).Nodup
    rw [h.dots, List.map_map]
    exact hn.map_on fun a ha b hb e => solidPlace_inj (hg a ha) (hg b hb) e

theorem colours_in {key : Key} {dh dw T : Int} {g : RxGraph W} (hg : ∀ n ∈ g.nodes, DrawNode key dh dw T n) {sh : Shown W} (h : Shows T g sh)
    (hc : ∀ p, sh = .solid p → p.colours = g.nodes.map fun n => ((n.t + 1 : Int) : ℚ) / T) : ColoursInRange sh := by
  cases sh with
  | flat p => trivial
  | solid p =>
    obtain ⟨hT, h⟩ := h
    refine ⟨by rw [hc p rfl, h.dots]; simp, ?_⟩
    rw [hc p rfl]
    intro c hc'
    obtain ⟨n, hn, rfl⟩ := List.mem_map.1 hc'
    have hn : 0 ≤ n.t + 1 ∧ n.t + 1 ≤ T := by
      rcases hg n hn with (⟨h1, h2, -⟩ | ⟨h1, -⟩) | rfl
      · omega
      · omega
      · simp only [extraNode]; omega
    have h0 : (0 : ℚ) < T := by exact_mod_cast (by omega : 0 < T)
    refine ⟨div_nonneg (by exact_mod_cast hn.1) h0.le, ?_⟩
    rw [div_le_one h0]
    exact_mod_cast hn.2

/-! ### Texts of lines -/

theorem touch_pos {key : Key} {dh dw t r c : Int} {n : Node} (h : Touches key dh dw t r c n) :
    (n.r2 + n.c2) % 4 = if key = .X then 0 else 2 := by
  obtain ⟨-, -, ⟨-, h⟩ | ⟨-, h⟩⟩ := h
  · cases key
    · have h1 : XSite dh dw n.r2 n.c2 := h
      unfold XSite at h1
      rw [if_pos rfl]
      omega
    · have h1 : ZSite dh dw n.r2 n.c2 := h
      unfold ZSite at h1
      rw [if_neg (by decide)]
      omega
  · have := h.1.2.2.1
    cases key <;> exact this

theorem height_of {key : Key} {dh dw t r c T : Int} (ht : 0 ≤ t) {n : Node} (h : Touches key dh dw t r c n) :
    (Site key dh dw n.r2 n.c2 ∧ n.t = t ∧ (solidPlace T n).2.2 = t) ∨ (Bdry key dh dw n.r2 n.c2 ∧ n.t = -1 ∧ (solidPlace T n).2.2 = (T - 1) / 2) := by
  obtain ⟨-, -, ⟨h1, h⟩ | ⟨h1, h⟩⟩ := h
  · refine Or.inl ⟨h, h1, ?_⟩
    unfold solidPlace
    simp only
    rw [if_neg (by omega), h1]
  · refine Or.inr ⟨h, h1, ?_⟩
    unfold solidPlace
    simp only
    rw [if_pos h1, zero_add]

theorem DataEdge.swap {key : Key} {dh dw T t r c : Int} {a b : Node} (h : DataEdge key dh dw T t r c a b) : DataEdge key dh dw T t r c b a := by
  obtain ⟨h1, h2, h3, h4, h5, h6, h7, h8, h9⟩ := h
  exact ⟨h1, h2, h3, h4, h5, h6, h7.symm, h9, h8⟩

theorem edge_not_outside {key : Key} {dh dw T t r c : Int} (H : Long key dh dw) {a b : Node} (h : DataEdge key dh dw T t r c a b) :
    ¬ (Bdry key dh dw a.r2 a.c2 ∧ Bdry key dh dw b.r2 b.c2) := by
  rintro ⟨⟨-, ha⟩, -, hb⟩
  have d := dataEdge_diag h
  obtain ⟨-, -, h1, h2, h3, h4, -, ⟨p1, p2, -⟩, q1, q2, -⟩ := h
  obtain ⟨-, H⟩ := H
  cases key <;> simp only at ha hb H <;> omega

/-- Data edges of one data qubit whose middles are at the same height are the same. -/
theorem same_middle {key : Key} {dh dw T t t' r c : Int} (H : Long key dh dw) {a b a' b' : Node} (h : DataEdge key dh dw T t r c a b)
    (h' : DataEdge key dh dw T t' r c a' b') (hp : a.r2 = a'.r2 ∧ a.c2 = a'.c2)
    (hz : (solidPlace T a).2.2 + (solidPlace T b).2.2 = (solidPlace T a').2.2 + (solidPlace T b').2.2) : a = a' ∧ b = b' := by
  have d := dataEdge_diag h
  have d' := dataEdge_diag h'
  have hout := edge_not_outside H h
  obtain ⟨t0, -, -, -, -, -, -, ha, hb⟩ := h
  obtain ⟨t0', -, -, -, -, -, -, ha', hb'⟩ := h'
  have hq : b.r2 = b'.r2 ∧ b.c2 = b'.c2 := by omega
  have key1 : t = t' ∨ (Bdry key dh dw a.r2 a.c2 ∧ Bdry key dh dw b.r2 b.c2) := by
    rcases height_of (T := T) t0 ha with ⟨s1, -, z1⟩ | ⟨s1, -, z1⟩ <;> rcases height_of (T := T) t0 hb with ⟨s2, -, z2⟩ | ⟨s2, -, z2⟩ <;>
      rcases height_of (T := T) t0' ha' with ⟨s3, -, z3⟩ | ⟨s3, -, z3⟩ <;> rcases height_of (T := T) t0' hb' with ⟨s4, -, z4⟩ | ⟨s4, -, z4⟩ <;>
      rw [z1, z2, z3, z4] at hz <;> rw [← hp.1, ← hp.2] at s3 <;> rw [← hq.1, ← hq.2] at s4 <;>
      first
        | exact (site_not_bdry s1 s3).elim
        | exact (site_not_bdry s3 s1).elim
        | exact (site_not_bdry s2 s4).elim
        | exact (site_not_bdry s4 s2).elim
        | exact Or.inr ⟨s1, s2⟩
        | (left; have : (t : ℚ) = t' := by linarith
           exact_mod_cast this)
  have htt : t = t' := by
    rcases key1 with h | h
    · exact h
    · exact absurd h hout
  subst htt
  have one : ∀ {x y : Node}, Touches key dh dw t r c x → Touches key dh dw t r c y → x.r2 = y.r2 → x.c2 = y.c2 → x = y := by
    rintro ⟨xt, xr, xc⟩ ⟨yt, yr, yc⟩ hx hy e1 e2
    simp only at e1 e2
    subst e1 e2
    rcases height_of (T := T) t0 hx with ⟨s1, e1, -⟩ | ⟨s1, e1, -⟩ <;> rcases height_of (T := T) t0 hy with ⟨s2, e2, -⟩ | ⟨s2, e2, -⟩
    · simp only at e1 e2; rw [e1, e2]
    · exact (site_not_bdry s1 s2).elim
    · exact (site_not_bdry s2 s1).elim
    · simp only at e1 e2; rw [e1, e2]
  exact ⟨one ha ha' hp.1 hp.2, one hb hb' hq.1 hq.2⟩

/-- Edges of the decoding graph with the same middle have the same ends. -/
theorem middle_inj {key : Key} {dh dw T : Int} (H : Long key dh dw) {a b a' b' : Node} (h : GAdj key dh dw T a b) (h' : GAdj key dh dw T a' b')
    (hr : a.r2 + b.r2 = a'.r2 + b'.r2) (hc : a.c2 + b.c2 = a'.c2 + b'.c2)
    (hz : (solidPlace T a).2.2 + (solidPlace T b).2.2 = (solidPlace T a').2.2 + (solidPlace T b').2.2) : (a = a' ∧ b = b') ∨ (a = b' ∧ b = a') := by
  rcases h with ⟨t, r, c, h⟩ | ⟨t, h⟩ <;> rcases h' with ⟨t', r', c', h'⟩ | ⟨t', h'⟩
  · have d := dataEdge_diag h
    have d' := dataEdge_diag h'
    have e1 : r = r' := by omega
    have e2 : c = c' := by omega
    subst e1 e2
    have p := touch_pos h.2.2.2.2.2.2.2.1
    have p' := touch_pos h'.2.2.2.2.2.2.2.1
    have : (a.r2 = a'.r2 ∧ a.c2 = a'.c2) ∨ (a.r2 = b'.r2 ∧ a.c2 = b'.c2) := by
      rw [← p'] at p
      omega
    rcases this with this | this
    · exact Or.inl (same_middle H h h' this hz)
    · exact Or.inr (same_middle H h (DataEdge.swap h') this (by linarith))
  · have d := dataEdge_diag h
    obtain ⟨h1, h2, h3, h4, h5, -⟩ := h'
    have := (site_odd h3).1
    omega
  · have d := dataEdge_diag h'
    obtain ⟨h1, h2, h3, h4, h5, -⟩ := h
    have := (site_odd h3).1
    omega
  · obtain ⟨h1, h2, h3, h4, h5, h6⟩ := h
    obtain ⟨k1, k2, k3, k4, k5, k6⟩ := h'
    have hh : ∀ {n : Node}, 0 ≤ n.t → (solidPlace T n).2.2 = n.t := by
      intro n hn
      unfold solidPlace
      simp only
      rw [if_neg (by omega)]
    rw [hh (by omega), hh (by omega), hh (by omega), hh (by omega)] at hz
    have hz : a.t + b.t = a'.t + b'.t := by exact_mod_cast hz
    obtain ⟨at', ar, ac⟩ := a
    obtain ⟨bt, br, bc⟩ := b
    obtain ⟨at2, ar2, ac2⟩ := a'
    obtain ⟨bt2, br2, bc2⟩ := b'
    simp only [Node.mk.injEq] at *
    omega

theorem labels_places {P : Type} {place : Node → P} {middle : P → P → P} {g : RxGraph W} (hw : g.WF) {p : Picture P W} (h : Depicts place middle g p) :
    p.labels.map Prod.fst = g.edges.map fun e => middle (place (g.pay e.1)) (place (g.pay e.2.1)) := by
  apply List.ext_getElem?
  intro k
  rw [List.getElem?_map, List.getElem?_map]
  cases hk : g.edges[k]? with
  | none =>
    rw [List.getElem?_eq_none_iff] at hk
    rw [List.getElem?_eq_none (by rw [h.labels]; exact hk)]
    rfl
  | some e =>
    obtain ⟨h1, h2⟩ := hw.lt e (List.mem_of_getElem? hk)
    rw [(h.edge k e.1 e.2.1 e.2.2 _ _ hk (RxGraph.pay_get h1) (RxGraph.pay_get h2)).2]
    rfl

theorem pay_adj {g : RxGraph W} (hw : g.WF) {e : Nat × Nat × W} (he : e ∈ g.edges) : g.Adj (g.pay e.1) (g.pay e.2.1) :=
  ⟨e.1, e.2.1, e.2.2, RxGraph.pay_get (hw.lt e he).1, RxGraph.pay_get (hw.lt e he).2, Or.inl he⟩

theorem pay_inj {g : RxGraph W} (hw : g.WF) {i j : Nat} (hi : i < g.nodes.length) (hj : j < g.nodes.length) (h : g.pay i = g.pay j) : i = j := by
  have h1 := RxGraph.pay_get hi
  rw [h] at h1
  exact getElem?_inj_of_nodup hw.nodup h1 (RxGraph.pay_get hj)

theorem labels_apart {key : Key} {dh dw T : Int} (H : Long key dh dw) {g : RxGraph W} (hw : g.WF) (hadj : ∀ a b, g.Adj a b → GAdj key dh dw T a b)
    {sh : Shown W} (h : Shows T g sh) : LabelsApart sh := by
  have core : ∀ e ∈ g.edges, ∀ e' ∈ g.edges, ¬ sameEnds e e'.1 e'.2.1 →
      (g.pay e.1).r2 + (g.pay e.2.1).r2 = (g.pay e'.1).r2 + (g.pay e'.2.1).r2 → (g.pay e.1).c2 + (g.pay e.2.1).c2 = (g.pay e'.1).c2 + (g.pay e'.2.1).c2 →
      (solidPlace T (g.pay e.1)).2.2 + (solidPlace T (g.pay e.2.1)).2.2 ≠ (solidPlace T (g.pay e'.1)).2.2 + (solidPlace T (g.pay e'.2.1)).2.2 := by
    intro e he e' he' hne hr hc hz
    apply hne
    obtain ⟨l1, l2⟩ := hw.lt e he
    obtain ⟨l3, l4⟩ := hw.lt e' he'
    rcases middle_inj H (hadj _ _ (pay_adj hw he)) (hadj _ _ (pay_adj hw he')) hr hc hz with ⟨k1, k2⟩ | ⟨k1, k2⟩
    · exact sameEnds_iff.2 (Or.inl ⟨pay_inj hw l1 l3 k1, pay_inj hw l2 l4 k2⟩)
    · exact sameEnds_iff.2 (Or.inr ⟨pay_inj hw l1 l4 k1, pay_inj hw l2 l3 k2⟩)
  have two : ∀ {x y z w : Int}, (x : ℚ) / 2 + (y / 2 - x / 2) / 2 = z / 2 + (w / 2 - z / 2) / 2 → x + y = z + w := by
    intro x y z w h
    have : (x : ℚ) + y = z + w := by linarith
    exact_mod_cast this
  cases sh with
  | flat p =>
    obtain ⟨hT, h⟩ := h
    show (p.labels.map Prod.fst).Nodup
    rw [labels_places hw h]
    refine List.pairwise_map.2 (hw.simple.imp_of_mem ?_)
    intro e e' he he' hne hm
    unfold flatMiddle flatPlace at hm
    simp only [Prod.mk.injEq] at hm
    obtain ⟨hc, hr⟩ := hm
    refine core e he e' he' hne (two (by linarith)) (two hc) ?_
    have hz : ∀ {e : Nat × Nat × W}, e ∈ g.edges → ((g.pay e.1).t = 0 ∨ (g.pay e.1).t = -1) := by
      intro e he
      rcases hadj _ _ (pay_adj hw he) with ⟨t, r, c, h⟩ | ⟨t, h⟩
      · obtain ⟨t0, t1, -, -, -, -, -, ⟨-, -, ⟨h, -⟩ | ⟨h, -⟩⟩, -⟩ := h <;> omega
      · have := h.1
        have := h.2.1
        omega
    have hz2 : ∀ {e : Nat × Nat × W}, e ∈ g.edges → ((g.pay e.2.1).t = 0 ∨ (g.pay e.2.1).t = -1) := by
      intro e he
      rcases hadj _ _ (pay_adj hw he) with ⟨t, r, c, h⟩ | ⟨t, h⟩
      · obtain ⟨t0, t1, -, -, -, -, -, -, ⟨-, -, ⟨h, -⟩ | ⟨h, -⟩⟩⟩ := h <;> omega
      · have := h.1
        have := h.2.1
        omega
    have hT1 : T = 1 := by
      rcases hadj _ _ (pay_adj hw he) with ⟨t, r, c, h⟩ | ⟨t, h⟩
      · have := h.1
        have := h.2.1
        omega
      · have := h.1
        have := h.2.1
        omega
    have flat : ∀ {n : Node}, (n.t = 0 ∨ n.t = -1) → (solidPlace T n).2.2 = 0 := by
      rintro n (hn | hn) <;> unfold solidPlace <;> simp [hn, hT1]
    rw [flat (hz he), flat (hz2 he), flat (hz he'), flat (hz2 he')]
  | solid p =>
    obtain ⟨hT, h⟩ := h
    show (p.labels.map Prod.fst).Nodup
    rw [labels_places hw h]
    refine List.pairwise_map.2 (hw.simple.imp_of_mem ?_)
    intro e e' he he' hne hm
    have h1 : (solidMiddle (solidPlace T (g.pay e.1)) (solidPlace T (g.pay e.2.1))).1 = (solidMiddle (solidPlace T (g.pay e'.1)) (solidPlace T (g.pay e'.2.1))).1 := by rw [hm]
    have h2 : (solidMiddle (solidPlace T (g.pay e.1)) (solidPlace T (g.pay e.2.1))).2.1 = (solidMiddle (solidPlace T (g.pay e'.1)) (solidPlace T (g.pay e'.2.1))).2.1 := by rw [hm]
    have h3 : (solidMiddle (solidPlace T (g.pay e.1)) (solidPlace T (g.pay e.2.1))).2.2 = (solidMiddle (solidPlace T (g.pay e'.1)) (solidPlace T (g.pay e'.2.1))).2.2 := by rw [hm]
    unfold solidMiddle at h1 h2 h3
    simp only at h1 h2 h3
    refine core e he e' he' hne (two ?_) (two h1) (by linarith)
    unfold solidPlace at h2
    simp only at h2
    linarith

/-! ### The graphs of the decoder -/

/-- C108: the drawing of a decoding graph shows all its nodes and edges; no dot covers another, no text of a line covers another, and the
colours are in the range of the colour map. -/
theorem C108_decoding_graph (D : Decoder) (hD : Made D) (key : Key) (s : SGraph) (hs : D.S key = some s) (H : Long key D.dh D.dw) :
    ∃ sh r, draw D.T s.g = .ok (sh, r) ∧ Shows D.T s.g sh ∧ DotsApart sh ∧ LabelsApart sh ∧ ColoursInRange sh := by
  obtain ⟨w, hn, ha⟩ := made_graph hD hs H
  obtain ⟨sh, r, h1, h2, -, h3⟩ := draw_ok D.T w.toWF
  have hg : ∀ n ∈ s.g.nodes, DrawNode key D.dh D.dw D.T n := fun n h => Or.inl ((hn n).1 h).2
  exact ⟨sh, r, h1, h2, dots_apart w.nodup hg h2, labels_apart H w.toWF (fun a b h => (ha a b).1 h) h2, colours_in hg h2 h3⟩

/-- C108: the drawing of an error graph of distinct hits shows each of them, the boundary nodes and perhaps the extra node, at different places.
With or without probability, if there is an error graph. -/
theorem C108_error_graph (D : Decoder) (hD : Made D) (key : Key) (s : SGraph) (hs : D.S key = some s) (HO : OddPos D.dh D.dw)
    (L : List Node) (hL : ∀ n ∈ L, HitPlace key D n) (hne : L ≠ []) (ep : Option ℝ) (e : EGraph) (L' : List Node)
    (h : makeErrorGraph s (D.virt key) L ep = .ok (e, L')) :
    ∃ sh r, draw D.T e.g = .ok (sh, r) ∧ Shows D.T e.g sh ∧ (∀ n ∈ L, n ∈ e.g.nodes) ∧ DotsApart sh ∧ ColoursInRange sh := by
  obtain ⟨n0, h0⟩ := List.exists_mem_of_ne_nil _ hne
  have R := ready_of_hit hD hs HO (hL n0 h0)
  rw [R.virt] at h
  have hLg : ∀ n ∈ L, GNode key D.dh D.dw D.T n := fun n h => hitPlace_gnode (hL n h)
  have hx : extraNode ∉ L ++ virtualNodes D.dh D.dw key := by
    rw [List.mem_append]
    rintro (h | h)
    · exact extra_not_gnode (hLg _ h)
    · exact extra_not_virt R.odd h
  obtain ⟨-, hwf, -, hn, -⟩ := makeErrorGraph_spec (Q := fun _ _ _ => True) (I := fun _ => True) (fun _ _ _ _ => trivial) trivial hx
    (fun _ _ => trivial) (fun _ _ _ _ _ _ => ⟨trivial, trivial⟩) h
  obtain ⟨sh, r, h1, h2, -, h3⟩ := draw_ok D.T hwf.toWF
  have hg : ∀ n ∈ e.g.nodes, DrawNode key D.dh D.dw D.T n := by
    intro n hn'
    rcases (hn n).1 hn' with h | ⟨-, h⟩
    · rcases List.mem_append.1 h with h | h
      · exact Or.inl (hLg n h)
      · exact Or.inl (virt_gnode R.odd h)
    · exact Or.inr h
  exact ⟨sh, r, h1, h2, fun n h => (hn n).2 (Or.inl (List.mem_append.2 (Or.inl h))), dots_apart hwf.nodup hg h2, colours_in hg h2 h3⟩

/-- C108: the drawing of the matched graph of such an error graph also. -/
theorem C108_matched_graph (D : Decoder) (hD : Made D) (key : Key) (s : SGraph) (hs : D.S key = some s) (HO : OddPos D.dh D.dw)
    (m : Matcher) (hm : Contract m) (L : List Node) (hL : ∀ n ∈ L, HitPlace key D n) (hne : L ≠ []) (ep : Option ℝ) (e : EGraph) (L' : List Node)
    (h : makeErrorGraph s (D.virt key) L ep = .ok (e, L')) (floats : Bool) :
    ∃ mg sh r, runMwpmGraph m e.g floats = .ok mg ∧ draw D.T mg = .ok (sh, r) ∧ Shows D.T mg sh ∧ DotsApart sh ∧ ColoursInRange sh := by
  obtain ⟨n0, h0⟩ := List.exists_mem_of_ne_nil _ hne
  have R := ready_of_hit hD hs HO (hL n0 h0)
  rw [R.virt] at h
  have hLg : ∀ n ∈ L, GNode key D.dh D.dw D.T n := fun n h => hitPlace_gnode (hL n h)
  have hx : extraNode ∉ L ++ virtualNodes D.dh D.dw key := by
    rw [List.mem_append]
    rintro (h | h)
    · exact extra_not_gnode (hLg _ h)
    · exact extra_not_virt R.odd h
  obtain ⟨-, hwf, -, hn, -⟩ := makeErrorGraph_spec (Q := fun _ _ _ => True) (I := fun _ => True) (fun _ _ _ _ => trivial) trivial hx
    (fun _ _ => trivial) (fun _ _ _ _ _ _ => ⟨trivial, trivial⟩) h
  have hg : ∀ n ∈ e.g.nodes, DrawNode key D.dh D.dw D.T n := by
    intro n hn'
    rcases (hn n).1 hn' with h | ⟨-, h⟩
    · rcases List.mem_append.1 h with h | h
      · exact Or.inl (hLg n h)
      · exact Or.inl (virt_gnode R.odd h)
    · exact Or.inr h
  obtain ⟨M, mg, -, m2, m3, m4, m5, m6⟩ := C97_matched_graph m hm e.g hwf.nodup hwf.lt
    (hwf.simple.imp fun h h' => h (sameEnds_iff.2 h')) floats
  have hmg : ∀ (k : Nat) (w : Nat × Nat × ℝ), mg.edges[k]? = some w → w.1 = 2 * k ∧ w.2.1 = 2 * k + 1 ∧ 2 * k + 1 < mg.nodes.length ∧
      (∃ a, mg.nodes[2 * k]? = some a ∧ a ∈ e.g.nodes) ∧ ∃ b, mg.nodes[2 * k + 1]? = some b ∧ b ∈ e.g.nodes := by
    intro k w hk
    have hk' : k < M.length := by
      rw [← m5]
      exact (List.getElem?_eq_some_iff.1 hk).1
    obtain ⟨w', e1, e2, e3, i, j, f1, f2, -⟩ := m6 k M[k].1 M[k].2 (List.getElem?_eq_getElem hk')
    rw [e1] at hk
    cases hk
    exact ⟨rfl, rfl, (List.getElem?_eq_some_iff.1 e3).1, ⟨_, e2, List.mem_of_getElem? f1⟩, _, e3, List.mem_of_getElem? f2⟩
  have hWF : mg.WF := by
    refine ⟨m4, ?_, ?_⟩
    · intro w hw
      obtain ⟨k, hk⟩ := List.getElem?_of_mem hw
      obtain ⟨h1, h2, h3, -⟩ := hmg k w hk
      omega
    · rw [List.pairwise_iff_getElem]
      intro i j hi hj hij hs'
      obtain ⟨h1, h2, -⟩ := hmg i _ (List.getElem?_eq_getElem hi)
      obtain ⟨h3, h4, -⟩ := hmg j _ (List.getElem?_eq_getElem hj)
      have := sameEnds_iff.1 hs'
      omega
  have hmem : ∀ n ∈ mg.nodes, n ∈ e.g.nodes := by
    intro n hn'
    rw [m3] at hn'
    obtain ⟨k, hk⟩ := List.getElem?_of_mem (m3 ▸ hn' : n ∈ mg.nodes)
    have hlen : mg.nodes.length = 2 * mg.edges.length := by
      rw [m3, m5]
      exact length_ends M
    have hlt := (List.getElem?_eq_some_iff.1 hk).1
    have hk2 : k / 2 < mg.edges.length := by omega
    obtain ⟨-, -, -, ⟨a, a1, a2⟩, b, b1, b2⟩ := hmg (k / 2) _ (List.getElem?_eq_getElem hk2)
    rcases Nat.mod_two_eq_zero_or_one k with h | h
    · rw [show 2 * (k / 2) = k by omega, hk] at a1
      cases a1
      exact a2
    · rw [show 2 * (k / 2) + 1 = k by omega, hk] at b1
      cases b1
      exact b2
  obtain ⟨sh, r, h1, h2, -, h3⟩ := draw_ok D.T hWF
  have hg' : ∀ n ∈ mg.nodes, DrawNode key D.dh D.dw D.T n := fun n h => hg n (hmem n h)
  exact ⟨mg, sh, r, m2, h1, h2, dots_apart m4 hg' h2, colours_in hg' h2 h3⟩

/-! ### What is returned -/

/-- C108 is false of the code: for more than one time step `draw` returns `None` and not the figure, whatever the graph. -/
theorem C108_returned_refuted (T : Int) (hT : 1 < T) (g : RxGraph W) (sh : Shown W) (r : Option (Shown W)) (h : draw T g = .ok (sh, r)) : r = none := by
  unfold draw at h
  rw [if_pos hT] at h
  obtain ⟨p, -, h⟩ := except_bind_ok h
  cases h
  rfl

/-- C108, positive part: for one time step what is shown is returned. -/
theorem C108_returned_partial (T : Int) (hT : T ≤ 1) (g : RxGraph W) (sh : Shown W) (r : Option (Shown W)) (h : draw T g = .ok (sh, r)) : r = some sh := by
  unfold draw at h
  rw [if_neg (by omega)] at h
  obtain ⟨p, -, h⟩ := except_bind_ok h
  cases h
  rfl

/-- Both kinds of drawing happen: the decoding graph of the 3 by 5 lattice for two and for one time step. -/
example : ∃ D s sh r, Made D ∧ D.S .Z = some s ∧ draw D.T s.g = .ok (sh, r) ∧ DotsApart sh ∧ LabelsApart sh ∧ r = none := by
  obtain ⟨D, sx, sz, h, h1, h2, h3, h4, h5, h6, h7⟩ := demo_decoder
  obtain ⟨sh, r, e1, e2, e3, e4, e5⟩ := C108_decoding_graph D h .Z sz h5 h7
  exact ⟨D, sz, sh, r, h, h5, e1, e3, e4, C108_returned_refuted D.T (by rw [h3]; decide) _ _ _ e1⟩

example : ∃ sh : Shown Int, draw 1 { nodes := [⟨0, 1, 1⟩, ⟨-1, -1, 3⟩], edges := [(0, 1, (1 : Int))] } = .ok (sh, some sh) ∧
    sh = .flat ⟨[((1 / 2, -(1 / 2)), ⟨0, 1, 1⟩), ((3 / 2, 1 / 2), ⟨-1, -1, 3⟩)], [], [((1 / 2, -(1 / 2)), (3 / 2, 1 / 2))], [((1, 0), 1)]⟩ := by
  refine ⟨_, rfl, ?_⟩
  simp [pos2D, middle2D]
  norm_num

end Qtc
