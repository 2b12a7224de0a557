import Verif.Proof.OddLines
import Verif.Proof.Strings
import Verif.Props.Graph
/-!
Properties C27-C34, C38 and C75 (decoding without error probability).
-/
namespace Qtc
open Spec

/-! ### C27 -/

theorem readoutStep_iff {key : Key} {dh dw T : Int} {a b : Node} (h : GAdj key dh dw T a b) :
    ReadoutStep key dh dw T a b ↔ (decide (lev key a ≤ 0) ^^ decide (lev key b ≤ 0)) = true := by
  constructor
  · rintro ⟨t, k, hd⟩
    cases key
    · have := dataEdge_level hd
      simp only at this
      rcases this with ⟨e1, e2⟩ | ⟨e1, e2⟩ <;> rw [e1, e2] <;> rfl
    · have := dataEdge_level hd
      simp only at this
      rcases this with ⟨e1, e2⟩ | ⟨e1, e2⟩ <;> rw [e1, e2] <;> rfl
  · intro hx
    rcases h with ⟨t, r, c, hd⟩ | ⟨t, _, _, _, h1, h2, _⟩
    · have hl := dataEdge_level hd
      cases key
      · simp only at hl
        have hc : c = 0 := by
          by_contra hc
          have hpos : 0 ≤ c := hd.2.2.2.2.1
          rcases hl with ⟨e1, e2⟩ | ⟨e1, e2⟩ <;> rw [e1, e2, decide_eq_false (by omega), decide_eq_false (by omega)] at hx <;>
            cases hx
        subst hc
        exact ⟨t, r, hd⟩
      · simp only at hl
        have hc : r = 0 := by
          by_contra hc
          have hpos : 0 ≤ r := hd.2.2.1
          rcases hl with ⟨e1, e2⟩ | ⟨e1, e2⟩ <;> rw [e1, e2, decide_eq_false (by omega), decide_eq_false (by omega)] at hx <;>
            cases hx
        subst hc
        exact ⟨t, c, hd⟩
    · have : lev key a = lev key b := by
        cases key
        · simp only [lev, h2]
        · simp only [lev, h1]
      rw [this, Bool.xor_self] at hx
      cases hx

/-- C27: for a match whose ends are not both boundary nodes, the crossing test says whether an odd number of steps flip a
data qubit of the readout line – along every path that joins the two ends. -/
theorem C27_path_independent (key : Key) (dh dw T : Int) (H : Long key dh dw) (a b : Node) (ha : GNode key dh dw T a)
    (hb : GNode key dh dw T b) (hab : ¬ (a.t = -1 ∧ b.t = -1)) (es : List (Node × Node)) (hp : Path (GAdj key dh dw T) a b es) :
    isCrossing (a, b) (rtypeOf key) = .ok (decide (readoutSteps key dh dw T es % 2 = 1)) := by
  classical
  rw [crossing_ok H ha hb hab, ← path_cut hp (lev key) 0]
  unfold cutPar readoutSteps
  rw [xorAll_countP]
  have : es.countP (fun e => (decide (lev key e.1 ≤ 0) ^^ decide (lev key e.2 ≤ 0))) =
      es.countP fun e => decide (ReadoutStep key dh dw T e.1 e.2) := by
    apply List.countP_congr
    intro e he
    rw [decide_eq_true_eq, readoutStep_iff (path_mem hp e he)]
  rw [this]

-- a hit next to the top boundary node: one step, which flips a qubit of the top row
example : isCrossing (⟨-1, -1, 3⟩, ⟨1, 1, 5⟩) .Z = .ok true ∧ Path (GAdj .Z 3 5 2) ⟨-1, -1, 3⟩ ⟨1, 1, 5⟩ [(⟨-1, -1, 3⟩, ⟨1, 1, 5⟩)] ∧
    ReadoutStep .Z 3 5 2 ⟨-1, -1, 3⟩ ⟨1, 1, 5⟩ := by
  have h : DataEdge .Z 3 5 2 1 0 2 ⟨-1, -1, 3⟩ ⟨1, 1, 5⟩ := by
    unfold DataEdge Touches Bdry Site ZSite Pos; decide
  exact ⟨by decide, Path.cons (Or.inl ⟨_, _, _, h⟩) (Path.nil _), 1, 2, h⟩

/-! ### C28, C29 -/

/-- C28: without hits of the type, the value is returned as it is and nothing is modified: for every decoder, every
library behaviour, every type (even an unknown one), every error probability. -/
theorem C28_no_hits (D : Decoder) (m : Matcher) (syn : SynDict) (rt : RType) (val : Option Int) (ep : Option ℝ)
    (h : syn rt = some []) : correctHits D m syn rt val ep = .ok (val, syn) := by
  unfold correctHits
  simp only [h]
  show Except.ok (val, _) = _
  congr 2
  funext k
  by_cases hk : k = rt
  · rw [if_pos hk, hk, h]
  · rw [if_neg hk]

/-- C28 for strings: if all rounds read the same, the logical value of the string is returned. -/
theorem C28_quiet_string (D : Decoder) (HO : OddPos D.dh D.dw) (hbig : 1 < D.dh * D.dw) (m : Matcher) (key : Key)
    (v : Char) (hv : v.isDigit = true) (r : Str) (hr : IsBits r) (n : Nat) (ep : Option ℝ) :
    correctString D m (joinSp ([v] :: List.replicate n r)) (rtypeOf key) ep = .ok (some (digitVal v)) := by
  have hq : ∀ (f : Str → Nat → Bool) sites, changes sites ((List.replicate n r).map f) = [] := by
    intro f sites
    rw [List.eq_nil_iff_forall_not_mem]
    intro x hx
    obtain ⟨t, k, a, b, p, h1, h2, _, h4, _⟩ := mem_changes.1 hx
    rw [List.map_replicate, List.getElem?_replicate] at h1 h2
    split at h1
    · split at h2
      · cases h1; cases h2; exact h4 rfl
      · cases h2
    · cases h1
  have hp := C15_parse_is_changes D.dh D.dw HO hbig (rtypeOf key) v hv (List.replicate n r)
    (fun s hs => by rw [List.eq_of_mem_replicate hs]; exact hr)
  rw [List.reverse_replicate, hq, hq] at hp
  unfold correctString
  simp only [hp, bind, Except.bind]
  rw [C28_no_hits D m _ (rtypeOf key) _ ep (by cases key <;> rfl)]
  rfl

example (m : Matcher) : ∃ D, Made D ∧ correctHits D m (fun _ => some []) .Z (some 1) none = .ok (some 1, fun _ => some []) := by
  obtain ⟨D, sx, sz, h, _⟩ := demo_decoder
  exact ⟨D, h, C28_no_hits D m _ .Z (some 1) none rfl⟩

/-- The final loop for both values at once. -/
theorem flip_both (rt : RType) : ∀ (M : List (Node × Node)) (b : Bool) (v : Option Int),
    M.foldlM (flipStep rt) (some (bit b)) = .ok v →
    ∃ b', v = some (bit b') ∧ M.foldlM (flipStep rt) (some (bit !b)) = .ok (some (bit !b'))
  | [], b, v, h => by cases h; exact ⟨b, rfl, rfl⟩
  | p :: M, b, v, h => by
    rw [List.foldlM_cons] at h ⊢
    unfold flipStep at h ⊢
    cases hc : isCrossing p rt with
    | error e => rw [hc] at h; cases h
    | ok x =>
      rw [hc] at h
      simp only [bind, Except.bind] at h ⊢
      cases x
      · simp only [Bool.false_eq_true, if_false, pure, Except.pure] at h ⊢
        exact flip_both rt M b v h
      · simp only [if_true, pure, Except.pure, bit_flip] at h ⊢
        exact flip_both rt M (!b) v h

/-- C29: whenever decoding a measured bit gives an answer, the answer is a bit, and the other measured bit gives the other
answer – for every decoder, every set of hits, every type, every error probability and every matching the library may
return. -/
theorem C29_bits_equivariant (D : Decoder) (m : Matcher) (syn syn' : SynDict) (rt : RType) (b : Bool) (ep : Option ℝ)
    (v : Option Int) (h : correctHits D m syn rt (some (bit b)) ep = .ok (v, syn')) :
    ∃ b', v = some (bit b') ∧ correctHits D m syn rt (some (bit !b)) ep = .ok (some (bit !b'), syn') := by
  unfold correctHits at h ⊢
  cases hs : syn rt with
  | none => rw [hs] at h; cases h
  | some nodes =>
    rw [hs] at h
    simp only at h ⊢
    obtain ⟨r, h1, h2⟩ := except_bind_ok h
    obtain ⟨w, h3, h4⟩ := except_bind_ok h2
    cases h4
    obtain ⟨b', e1, e2⟩ := flip_both rt r.1 b _ h3
    refine ⟨b', e1, ?_⟩
    simp only [h1, bind, Except.bind, e2, pure, Except.pure]

/-! ### C30 -/

/-- `n` is a place where a hit can be reported: a stabilizer of the type at one of the time steps. -/
def HitPlace (key : Key) (D : Decoder) (n : Node) : Prop := 0 ≤ n.t ∧ n.t < D.T ∧ Site key D.dh D.dw n.r2 n.c2

theorem hitPlace_gnode {key : Key} {D : Decoder} {n : Node} (h : HitPlace key D n) : GNode key D.dh D.dw D.T n := Or.inl h

theorem hitPlace_real {key : Key} {D : Decoder} {n : Node} (h : HitPlace key D n) : n.t ≠ -1 := by
  have := h.1
  omega

theorem ready_of_hit {D : Decoder} (hD : Made D) {key : Key} {s : SGraph} (hs : D.S key = some s) (HO : OddPos D.dh D.dw)
    {n : Node} (h : HitPlace key D n) : Ready D key s := by
  obtain ⟨h1, h2, h3⟩ := h
  refine ⟨hD, hs, ⟨HO, ?_⟩, by omega⟩
  unfold OddPos at HO
  cases key
  · simp only [Site, XSite] at h3 ⊢; omega
  · simp only [Site, ZSite] at h3 ⊢; omega

/-- C30, first half: for distinct hits the graph handed to the library is built and all its nodes can be matched. -/
theorem C30_perfect_matching_exists (D : Decoder) (hD : Made D) (key : Key) (s : SGraph) (hs : D.S key = some s)
    (HO : OddPos D.dh D.dw) (L : List Node) (hne : L ≠ []) (hn : L.Nodup) (hL : ∀ n ∈ L, HitPlace key D n) :
    ∃ e L', makeErrorGraph s (D.virt key) L none = .ok (e, L') ∧
      ∃ M : List (Node × Node), (ends M).Perm e.g.nodes ∧ ∀ p ∈ M, p.1 ≠ p.2 ∧ e.g.Adj p.1 p.2 := by
  obtain ⟨n0, h0⟩ := List.exists_mem_of_ne_nil _ hne
  have R := ready_of_hit hD hs HO (hL n0 h0)
  have hg : ∀ n ∈ L ++ virtualNodes D.dh D.dw key, GNode key D.dh D.dw D.T n := by
    intro n hn
    rcases List.mem_append.1 hn with h | h
    · exact hitPlace_gnode (hL n h)
    · exact virt_gnode HO h
  have hx : extraNode ∉ L ++ virtualNodes D.dh D.dw key := fun h => extra_not_gnode (hg _ h)
  obtain ⟨e, he⟩ := makeErrorGraph_ok (s := s) (ep := none) (L := L) (I := fun _ => True) trivial hx (fun p hp c _ =>
    ⟨_, pairWeight_none R (hg _ (mem_combinations2 hp).1) (hg _ (mem_combinations2 hp).2) c, trivial⟩)
  obtain ⟨_, hwf, _, hmem, hadj⟩ := makeErrorGraph_spec (Q := fun _ _ _ => True) (I := fun _ => True)
    (fun _ _ _ _ => trivial) trivial hx (fun _ _ => trivial) (fun _ _ _ _ _ _ => ⟨trivial, trivial⟩) he
  obtain ⟨M0, a1, a2, a3⟩ := hits_pairing (key := key) HO L
  obtain ⟨M, m1, m2, _⟩ := complete_pairing (key := key) HO (parityOk_nodup hn fun n h => hitPlace_real (hL n h))
    (U := fun _ _ => 0) (fun _ _ _ _ => rfl) a1 a2 a3
  refine ⟨e, _, by rw [R.virt]; exact he, M, ?_, ?_⟩
  · rw [List.perm_ext_iff_of_nodup m1.2 hwf.nodup]
    intro n
    rw [m2.mem_iff, hmem]
    unfold allNodes
    rw [List.mem_append, List.mem_append, List.mem_append, mem_reals, mem_extras]
    constructor
    · rintro (h | h | h)
      · exact Or.inl (Or.inl h.1)
      · exact Or.inl (Or.inr h)
      · exact Or.inr h
    · rintro ((h | h) | h)
      · exact Or.inl ⟨h, hitPlace_real (hL n h)⟩
      · exact Or.inr (Or.inl h)
      · exact Or.inr (Or.inr h)
  · intro p hp
    have := m1.1 p hp
    exact ⟨this.1, (hadj _ _ this.1).2 this.2⟩

/-- C30, second half: whatever optimal matching the library picks, every hit is in exactly one reported match, and its
partner is another hit or a boundary node. -/
theorem C30_every_hit_matched (D : Decoder) (hD : Made D) (key : Key) (s : SGraph) (hs : D.S key = some s)
    (HO : OddPos D.dh D.dw) (m : Matcher) (hm : Contract m) (L : List Node) (hn : L.Nodup)
    (hL : ∀ n ∈ L, HitPlace key D n) :
    ∃ Ms L', corrections D m L (rtypeOf key) none = .ok (Ms, L') ∧ (∀ n ∈ L, (ends Ms).count n = 1) ∧
      ∀ p ∈ Ms, (p.1 ∈ L ∧ p.2 ∈ L) ∨ (p.1 ∈ L ∧ p.2 ∈ D.virt key) ∨ (p.1 ∈ D.virt key ∧ p.2 ∈ L) := by
  by_cases hne : L = []
  · subst hne
    exact ⟨[], [], rfl, by simp, by simp⟩
  obtain ⟨n0, h0⟩ := List.exists_mem_of_ne_nil _ hne
  have R := ready_of_hit hD hs HO (hL n0 h0)
  obtain ⟨M, h1, _, _, h4, h5, h6, h7⟩ := corrections_full R hm hne (fun n h => hitPlace_gnode (hL n h))
    (parityOk_nodup hn fun n h => hitPlace_real (hL n h))
  refine ⟨_, _, h1, ?_, ?_⟩
  · intro n h
    exact List.count_eq_one_of_mem h4 ((h5 n (hitPlace_real (hL n h))).2 h)
  · intro p hp
    have g1 : p.1 ∈ ends (kept M) := mem_ends.2 ⟨p, hp, Or.inl rfl⟩
    have g2 : p.2 ∈ ends (kept M) := mem_ends.2 ⟨p, hp, Or.inr rfl⟩
    rw [R.virt]
    have hv := h7 p hp
    by_cases e1 : p.1.t = -1
    · have e2 : p.2.t ≠ -1 := fun h => hv ⟨e1, h⟩
      exact Or.inr (Or.inr ⟨(gnode_virt HO (h6 _ g1)).2 e1, (h5 _ e2).1 g2⟩)
    · by_cases e2 : p.2.t = -1
      · exact Or.inr (Or.inl ⟨(h5 _ e1).1 g1, (gnode_virt HO (h6 _ g2)).2 e2⟩)
      · exact Or.inl ⟨(h5 _ e1).1 g1, (h5 _ e2).1 g2⟩

example : ∃ D s, Made D ∧ D.S .Z = some s ∧ OddPos D.dh D.dw ∧ HitPlace .Z D ⟨1, 1, 1⟩ ∧ HitPlace .Z D ⟨0, 3, 3⟩ := by
  obtain ⟨D, sx, sz, h, h1, h2, h3, h4, h5, h6, h7⟩ := demo_decoder
  refine ⟨D, sz, h, h5, h6.1, ?_, ?_⟩ <;> unfold HitPlace Site ZSite <;> rw [h1, h2, h3] <;> decide

/-! ### C75, C31 -/

/-- Every list of edges of the decoding graph is the effect of as many faults. -/
theorem edges_faults {key : Key} {dh dw T : Int} (H : OddPos dh dw) : ∀ (C : List (Node × Node)), (∀ e ∈ C, GAdj key dh dw T e.1 e.2) →
    ∃ gs : List Fault, gs.length = C.length ∧ (∀ f ∈ gs, f.Fits key dh dw T) ∧
      (∀ n : Node, n.t ≠ -1 → Site key dh dw n.r2 n.c2 → gs.countP (Fault.changes n) = (ends C).count n) ∧
      readoutFlipped key gs = cutPar (lev key) C 0
  | [], _ => ⟨[], rfl, by simp, by simp, rfl⟩
  | (a, b) :: C, h => by
    obtain ⟨gs, g1, g2, g3, g4⟩ := edges_faults H C fun e he => h e (List.mem_cons_of_mem _ he)
    have hab := h (a, b) List.mem_cons_self
    -- the fault of the first edge, and the edge `fault_edges` gives for it
    obtain ⟨f, hf, hends⟩ : ∃ f : Fault, f.Fits key dh dw T ∧ (∀ n : Node, n.t ≠ -1 → Site key dh dw n.r2 n.c2 →
        [f].countP (Fault.changes n) = (ends [(a, b)]).count n) ∧ readoutFlipped key [f] = cutPar (lev key) [(a, b)] 0 := by
      rcases hab with ⟨t, r, c, hd⟩ | ⟨t, k1, k2, k3, k4, k5, k6⟩
      · have hfit : (Fault.data t r c).Fits key dh dw T := ⟨hd.1, hd.2.1, hd.2.2.1, hd.2.2.2.1, hd.2.2.2.2.1, hd.2.2.2.2.2.1⟩
        obtain ⟨_, _, _, _, _, _, hne, ha, hb⟩ := hd
        obtain ⟨x, y, hxy, hx, hy, hall⟩ := touches_two (key := key) (t := t) H hfit.2.2.1 hfit.2.2.2.1 hfit.2.2.2.2.1 hfit.2.2.2.2.2
        have hiff : ∀ n : Node, n.t ≠ -1 → Site key dh dw n.r2 n.c2 →
            (Fault.changes n (.data t r c) = true ↔ Touches key dh dw t r c n) := by
          intro n hn hs
          simp only [Fault.changes, Bool.and_eq_true, Bool.or_eq_true, beq_iff_eq]
          constructor
          · rintro ⟨⟨e1, e2⟩, e3⟩
            exact ⟨e2, e3, Or.inl ⟨e1, hs⟩⟩
          · rintro ⟨e2, e3, ⟨e1, _⟩ | ⟨e1, _⟩⟩
            · exact ⟨⟨e1, e2⟩, e3⟩
            · exact absurd e1 hn
        refine ⟨.data t r c, hfit, ?_, ?_⟩
        · intro n hn hs
          rw [List.countP_cons, List.countP_nil, ends_cons, ends_nil, List.count_cons, List.count_cons, List.count_nil]
          simp only [beq_iff_eq]
          by_cases hc : Touches key dh dw t r c n
          · rw [if_pos ((hiff n hn hs).2 hc)]
            have hn' : n = a ∨ n = b := by
              rcases hall a ha with rfl | rfl <;> rcases hall b hb with rfl | rfl
              · exact absurd rfl hne
              · exact hall n hc
              · exact (hall n hc).symm
              · exact absurd rfl hne
            rcases hn' with rfl | rfl
            · rw [if_pos rfl, if_neg (Ne.symm hne)]
            · rw [if_pos rfl, if_neg hne]
          · rw [if_neg (fun h => hc ((hiff n hn hs).1 h)), if_neg, if_neg]
            · rintro rfl; exact hc ha
            · rintro rfl; exact hc hb
        · have hd : DataEdge key dh dw T t r c a b :=
            ⟨hfit.1, hfit.2.1, hfit.2.2.1, hfit.2.2.2.1, hfit.2.2.2.2.1, hfit.2.2.2.2.2, hne, ha, hb⟩
          have hadj : GAdj key dh dw T a b := Or.inl ⟨_, _, _, hd⟩
          have hl := dataEdge_level hd
          simp only [readoutFlipped, cutPar, List.map_cons, List.map_nil, xorAll_cons, xorAll_nil, Bool.xor_false, Fault.flipsReadout]
          cases key
          · simp only at hl ⊢
            by_cases hc0 : c = 0
            · subst hc0
              rcases hl with ⟨e1, e2⟩ | ⟨e1, e2⟩ <;> rw [e1, e2] <;> rfl
            · have hpos : 0 ≤ c := hfit.2.2.2.2.1
              rcases hl with ⟨e1, e2⟩ | ⟨e1, e2⟩ <;> rw [e1, e2, beq_eq_false_iff_ne.2 hc0] <;>
                rw [decide_eq_false (by omega), decide_eq_false (by omega)] <;> rfl
          · simp only at hl ⊢
            by_cases hc0 : r = 0
            · subst hc0
              rcases hl with ⟨e1, e2⟩ | ⟨e1, e2⟩ <;> rw [e1, e2] <;> rfl
            · have hpos : 0 ≤ r := hfit.2.2.1
              rcases hl with ⟨e1, e2⟩ | ⟨e1, e2⟩ <;> rw [e1, e2, beq_eq_false_iff_ne.2 hc0] <;>
                rw [decide_eq_false (by omega), decide_eq_false (by omega)] <;> rfl
      · obtain ⟨ta, ra, ca⟩ := a
        obtain ⟨tb, rb, cb⟩ := b
        simp only at k3 k4 k5 k6
        subst k4 k5
        refine ⟨.meas t ra ca, ⟨k1, k2, k3⟩, ?_, ?_⟩
        · rintro ⟨nt, nr, nc⟩ _ _
          rw [List.countP_cons, List.countP_nil, ends_cons, ends_nil, List.count_cons, List.count_cons, List.count_nil]
          simp only [Fault.changes, beq_iff_eq, Node.mk.injEq, Bool.and_eq_true, Bool.or_eq_true]
          by_cases e1 : ra = nr
          · by_cases e2 : ca = nc
            · subst e1 e2
              simp only [and_true, true_and]
              by_cases e3 : nt = t
              · rcases k6 with ⟨rfl, rfl⟩ | ⟨rfl, rfl⟩
                · rw [if_pos (Or.inl e3), if_neg (by omega), if_pos (by omega)]
                · rw [if_pos (Or.inl e3), if_pos (by omega), if_neg (by omega)]
              · by_cases e4 : nt = t + 1
                · rcases k6 with ⟨rfl, rfl⟩ | ⟨rfl, rfl⟩
                  · rw [if_pos (Or.inr e4), if_pos (by omega), if_neg (by omega)]
                  · rw [if_pos (Or.inr e4), if_neg (by omega), if_pos (by omega)]
                · rw [if_neg (by omega), if_neg (by omega), if_neg (by omega)]
            · rw [if_neg (fun h => e2 h.1.2.symm), if_neg (fun h => e2 h.2.2), if_neg (fun h => e2 h.2.2)]
          · rw [if_neg (fun h => e1 h.1.1.symm), if_neg (fun h => e1 h.2.1), if_neg (fun h => e1 h.2.1)]
        · have : lev key ⟨ta, ra, ca⟩ = lev key ⟨tb, ra, ca⟩ := by cases key <;> rfl
          simp only [readoutFlipped, cutPar, List.map_cons, List.map_nil, xorAll_cons, xorAll_nil,
            Fault.flipsReadout, this, Bool.xor_self]
    refine ⟨f :: gs, by simp [g1], ?_, ?_, ?_⟩
    · intro f' hf'
      rcases List.mem_cons.1 hf' with rfl | hf'
      · exact hf
      · exact g2 f' hf'
    · intro n hn hs
      have h1 := hends.1 n hn hs
      rw [List.countP_cons, List.countP_nil] at h1
      rw [List.countP_cons, g3 n hn hs]
      have : (ends ((a, b) :: C)).count n = (ends [(a, b)]).count n + (ends C).count n := by
        rw [← List.count_append, ← ends_append]
        rfl
      omega
    · have h1 := hends.2
      unfold readoutFlipped cutPar at *
      rw [List.map_cons, List.map_cons, xorAll_cons, xorAll_cons, g4]
      simp only [List.map_cons, List.map_nil, xorAll_cons, xorAll_nil, Bool.xor_false] at h1
      rw [h1]

/-- The kept pairs stand for a smallest set of faults that explains the hits, as many as the pairs are apart. -/
theorem kept_explanation {D : Decoder} (hD : Made D) {key : Key} {s : SGraph} (hs : D.S key = some s) (HO : OddPos D.dh D.dw) {m : Matcher}
    (hm : Contract m) {L : List Node} (hn : L.Nodup) (hL : ∀ n ∈ L, HitPlace key D n) (hne : L ≠ []) :
    ∃ M gs, corrections D m L (rtypeOf key) none = .ok (kept M, L ++ virtualNodes D.dh D.dw key) ∧
      (∀ n ∈ ends (kept M), GNode key D.dh D.dw D.T n) ∧ (∀ p ∈ kept M, ¬ (p.1.t = -1 ∧ p.2.t = -1)) ∧
      crossPar key (kept M) = readoutFlipped key gs ∧ totalDist key D.dh D.dw D.T (kept M) = gs.length ∧
      (∀ f ∈ gs, f.Fits key D.dh D.dw D.T) ∧ (∀ n, IsHit key D.dh D.dw D.T gs n ↔ n ∈ L) ∧
      ∀ fs : List Fault, (∀ f ∈ fs, f.Fits key D.dh D.dw D.T) → (∀ n, IsHit key D.dh D.dw D.T fs n ↔ n ∈ L) →
        gs.length ≤ fs.length := by
  obtain ⟨n0, h0⟩ := List.exists_mem_of_ne_nil _ hne
  have R := ready_of_hit hD hs HO (hL n0 h0)
  have hLg : ∀ n ∈ L, GNode key D.dh D.dw D.T n := fun n h => hitPlace_gnode (hL n h)
  have hpar : ParityOk L := parityOk_nodup hn fun n h => hitPlace_real (hL n h)
  obtain ⟨M, h1, h2, h3, h4, h5, h6, h7⟩ := corrections_full R hm hne hLg hpar
  obtain ⟨C, c1, c2, c3, c4⟩ := pairs_paths R.long R.pos (kept M) h6
  obtain ⟨gs, g1, g2, g3, g4⟩ := edges_faults HO C c2
  have hx : crossPar key (kept M) = readoutFlipped key gs := by
    rw [g4, c4 0]
    rfl
  refine ⟨M, gs, h1, h6, h7, hx, by rw [g1]; exact c1.symm, g2, ?_, ?_⟩
  · intro n
    constructor
    · rintro ⟨k1, k2, k3, k4⟩
      have hr : n.t ≠ -1 := by omega
      rw [g3 n hr k3, c3 n] at k4
      exact (h5 n hr).1 (List.count_pos_iff.1 (by omega))
    · intro h
      obtain ⟨k1, k2, k3⟩ := hL n h
      have hr : n.t ≠ -1 := by omega
      refine ⟨k1, k2, k3, ?_⟩
      rw [g3 n hr k3, c3 n, List.count_eq_one_of_mem h4 ((h5 n hr).2 h)]
  · intro fs hfit hhit
    obtain ⟨E, e1, e2, e3, e4⟩ := fault_edges (T := D.T) HO fs hfit
    have hEg : ∀ n ∈ ends E, GNode key D.dh D.dw D.T n := by
      intro n hn
      obtain ⟨p, hp, h⟩ := mem_ends.1 hn
      have := gadj_nodes (e2 p hp)
      rcases h with rfl | rfl
      · exact this.1
      · exact this.2
    have hEc : ∀ n, n.t ≠ -1 → ((ends E).count n % 2 = 1 ↔ n ∈ L) := by
      intro n hn
      rw [← hhit n]
      constructor
      · intro h
        have hmem : n ∈ ends E := List.count_pos_iff.1 (by omega)
        rcases hEg n hmem with ⟨g1, g2, g3⟩ | ⟨g1, _⟩
        · exact ⟨g1, g2, g3, by rw [← e3 n hn g3]; exact h⟩
        · exact absurd g1 hn
      · rintro ⟨_, _, g3, g4⟩
        rw [e3 n hn g3]
        exact g4
    obtain ⟨M0, m1, m2, m3⟩ := exists_pairing (pdist (GAdj key D.dh D.dw D.T)) (GNode key D.dh D.dw D.T)
      (fun a b => pdist_symm (fun _ _ h => GAdj.symm h) a b) (fun a => pdist_self _ a)
      (fun a b c ha hb hc => pdist_tri (gnode_connected R.long R.pos ha hb) (gnode_connected R.long R.pos hb hc)) E
      (fun e he => ⟨(gadj_nodes (e2 e he)).1, (gadj_nodes (e2 e he)).2, pdist_adj (e2 e he)⟩)
    have hM0g : ∀ n ∈ ends M0, GNode key D.dh D.dw D.T n := by
      intro n hn
      exact hEg n (List.count_pos_iff.1 (by have := (m2 n).1 hn; omega))
    obtain ⟨_, hw⟩ := optimal_covers HO hLg hpar unitWeight_virt m1 (fun n hn => by rw [m2 n, hEc n hn])
      (fun n hn ht => (gnode_virt HO (hM0g n hn)).2 ht) h2
    have hge := nweight_ge (key := key) (dh := D.dh) (dw := D.dw) (T := D.T) M0
    rw [← nweight_kept unitWeight_virt M, nweight_eq h7] at hw
    unfold totalDist at hge hw c1
    omega

/-- C75: the answer is the measured value corrected by a smallest set of faults that explains the hits, for every set of
distinct hits and whatever optimal matching the library picks. -/
theorem C75_minimum_explanation (D : Decoder) (hD : Made D) (key : Key) (s : SGraph) (hs : D.S key = some s)
    (HO : OddPos D.dh D.dw) (m : Matcher) (hm : Contract m) (L : List Node) (hn : L.Nodup) (hL : ∀ n ∈ L, HitPlace key D n)
    (syn : SynDict) (hsyn : syn (rtypeOf key) = some L) (b : Bool) :
    ∃ gs syn', correctHits D m syn (rtypeOf key) (some (bit b)) none = .ok (some (bit (b ^^ readoutFlipped key gs)), syn') ∧
      (∀ f ∈ gs, f.Fits key D.dh D.dw D.T) ∧ (∀ n, IsHit key D.dh D.dw D.T gs n ↔ n ∈ L) ∧
      ∀ fs : List Fault, (∀ f ∈ fs, f.Fits key D.dh D.dw D.T) → (∀ n, IsHit key D.dh D.dw D.T fs n ↔ n ∈ L) →
        gs.length ≤ fs.length := by
  by_cases hne : L = []
  · subst hne
    refine ⟨[], syn, ?_, by simp, ?_, by simp⟩
    · have : readoutFlipped key [] = false := rfl
      rw [this, Bool.xor_false]
      exact C28_no_hits D m syn (rtypeOf key) _ none hsyn
    · intro n
      simp [IsHit]
  obtain ⟨n0, h0⟩ := List.exists_mem_of_ne_nil _ hne
  have R := ready_of_hit hD hs HO (hL n0 h0)
  obtain ⟨M, gs, h1, h6, h7, hx, -, g⟩ := kept_explanation hD hs HO hm hn hL hne
  have hans := correctHits_of R.long hsyn h1 h6 h7 b
  rw [hx] at hans
  exact ⟨gs, _, hans, g⟩

/-- C31: if at most `(distance - 1)/2` elementary faults happened (data flips in any time step, misreadings in inner rounds)
and the hits are those the faults cause, the true logical value is returned, whatever optimal matching the library picks.
The measured value is the true value `b` flipped if the faults flip the readout line an odd number of times. -/
theorem C31_corrects (D : Decoder) (hD : Made D) (key : Key) (s : SGraph) (hs : D.S key = some s) (HO : OddPos D.dh D.dw)
    (m : Matcher) (hm : Contract m) (fs : List Fault) (hf : Correctable key D.dh D.dw D.T fs) (L : List Node) (hn : L.Nodup)
    (hL : ∀ n, n ∈ L ↔ IsHit key D.dh D.dw D.T fs n) (syn : SynDict) (hsyn : syn (rtypeOf key) = some L) (b : Bool) :
    ∃ syn', correctHits D m syn (rtypeOf key) (some (bit (b ^^ readoutFlipped key fs))) none = .ok (some (bit b), syn') := by
  refine correct_core hD hs HO hm hf (fun n h => isHit_gnode ((hL n).1 h)) (fun n _ => hL n)
    (parityOk_nodup hn fun n h => ?_) ?_ hsyn b
  · have := ((hL n).1 h).1
    omega
  · by_cases h : fs = []
    · right
      subst h
      rw [List.eq_nil_iff_forall_not_mem]
      intro n hn
      have := ((hL n).1 hn).2.2.2
      simp at this
    · exact Or.inl h

-- a measured 0 that is really a 1: the data qubit in the top left corner flipped before the first round
example : ∃ D sx m, Made D ∧ D.S .X = some sx ∧ Contract m ∧ D.dh = 3 ∧ D.dw = 5 ∧ D.T = 2 ∧
    Correctable .X D.dh D.dw D.T [.data 0 1 0, .meas 0 1 7] ∧ readoutFlipped .X [.data 0 1 0, .meas 0 1 7] = true ∧
    (∀ n, n ∈ [(⟨0, 3, 1⟩ : Node), ⟨0, 1, 7⟩, ⟨1, 1, 7⟩] → IsHit .X D.dh D.dw D.T [.data 0 1 0, .meas 0 1 7] n) := by
  obtain ⟨D, sx, sz, h, h1, h2, h3, h4, h5, h6, h7⟩ := demo_decoder
  obtain ⟨m, hm⟩ := contract_exists
  refine ⟨D, sx, m, h, h4, hm, h1, h2, h3, ?_, by decide, ?_⟩
  · rw [h1, h2, h3]
    refine ⟨?_, by decide⟩
    intro f hf
    simp only [List.mem_cons, List.not_mem_nil, or_false] at hf
    rcases hf with rfl | rfl
    · unfold Fault.Fits; decide
    · unfold Fault.Fits Site XSite; decide
  · rw [h1, h2, h3]
    intro n hn
    simp only [List.mem_cons, List.not_mem_nil, or_false] at hn
    rcases hn with rfl | rfl | rfl <;> unfold IsHit Site XSite <;> decide

/-! ### C32 -/

theorem fits_mono {key : Key} {dh dw T T' : Int} (h : T' ≤ T) {f : Fault} (hf : f.Fits key dh dw T') : f.Fits key dh dw T := by
  cases f with
  | data t r c => obtain ⟨h1, h2, h3⟩ := hf; exact ⟨h1, by omega, h3⟩
  | meas t r c => obtain ⟨h1, h2, h3⟩ := hf; exact ⟨h1, by omega, h3⟩

theorem isHit_mono {key : Key} {dh dw T T' : Int} (h : T' ≤ T) {fs : List Fault} (hf : ∀ f ∈ fs, f.Fits key dh dw T') (n : Node) :
    IsHit key dh dw T fs n ↔ IsHit key dh dw T' fs n := by
  constructor
  · rintro ⟨h1, h2, h3, h4⟩
    refine ⟨h1, ?_, h3, h4⟩
    by_contra hc
    have h0 : fs.countP (Fault.changes n) = 0 := by
      rw [List.countP_eq_zero]
      intro f hfm hx
      have := hf f hfm
      cases f with
      | data t r c =>
        obtain ⟨k1, k2, _⟩ := this
        simp only [Fault.changes, Bool.and_eq_true, beq_iff_eq] at hx
        omega
      | meas t r c =>
        obtain ⟨k1, k2, _⟩ := this
        simp only [Fault.changes, Bool.and_eq_true, Bool.or_eq_true, beq_iff_eq] at hx
        omega
    omega
  · rintro ⟨h1, h2, h3, h4⟩
    exact ⟨h1, by omega, h3, h4⟩

/-- What is decoded if all smallest sets of faults with the same hits agree on the readout. The decoder may be made for more rounds. -/
theorem decided_hits (D : Decoder) (hD : Made D) (key : Key) (s : SGraph) (hs : D.S key = some s) (HO : OddPos D.dh D.dw)
    (m : Matcher) (hm : Contract m) (T : Int) (hT : T ≤ D.T) (fs : List Fault) (hf : ∀ f ∈ fs, f.Fits key D.dh D.dw T) {wrong : Bool}
    (hd : Decided key D.dh D.dw D.T fs wrong) (L : List Node)
    (hn : L.Nodup) (hL : ∀ n, n ∈ L ↔ IsHit key D.dh D.dw T fs n) (syn : SynDict) (hsyn : syn (rtypeOf key) = some L) (b : Bool) :
    ∃ syn', correctHits D m syn (rtypeOf key) (some (bit (b ^^ readoutFlipped key fs))) none = .ok (some (bit (b ^^ wrong)), syn') := by
  have hL' : ∀ n, n ∈ L ↔ IsHit key D.dh D.dw D.T fs n := fun n => by rw [hL n, isHit_mono hT hf]
  obtain ⟨gs, syn', h1, h2, h3, h4⟩ := C75_minimum_explanation D hD key s hs HO m hm L hn
    (fun n h => ⟨((hL' n).1 h).1, ((hL' n).1 h).2.1, ((hL' n).1 h).2.2.1⟩) syn hsyn (b ^^ readoutFlipped key fs)
  rw [hd gs h2 (fun n => by rw [h3, hL']) (fun hs h5 h6 => h4 hs h5 fun n => by rw [h6, hL']), Bool.xor_assoc, ← Bool.xor_assoc (readoutFlipped key fs),
    Bool.xor_self, Bool.false_xor] at h1
  exact ⟨syn', h1⟩

theorem tolerable_decided {D : Decoder} {key : Key} (HO : OddPos D.dh D.dw) {T : Int} (hT : T ≤ D.T) {fs : List Fault}
    (hf : Tolerable key D.dh D.dw T fs) : Decided key D.dh D.dw D.T fs false :=
  decided_of_tolerable HO ⟨fun f h => fits_mono hT (hf.1 f h), hf.2⟩

/-- C98: faults inside the lattice whose number, together with the number of lines (rows for the readout of Z, columns for that of X)
in which an odd number of data qubits flip, is less than the distance, are corrected, whatever optimal matching the library picks. The
decoder may be made for more rounds. -/
theorem C98_few_lines (D : Decoder) (hD : Made D) (key : Key) (s : SGraph) (hs : D.S key = some s) (HO : OddPos D.dh D.dw)
    (m : Matcher) (hm : Contract m) (T : Int) (hT : T ≤ D.T) (fs : List Fault) (hf : Tolerable key D.dh D.dw T fs) (L : List Node)
    (hn : L.Nodup) (hL : ∀ n, n ∈ L ↔ IsHit key D.dh D.dw T fs n) (syn : SynDict) (hsyn : syn (rtypeOf key) = some L) (b : Bool) :
    ∃ syn', correctHits D m syn (rtypeOf key) (some (bit (b ^^ readoutFlipped key fs))) none = .ok (some (bit b), syn') := by
  have := decided_hits D hD key s hs HO m hm T hT fs hf.1 (tolerable_decided HO hT hf) L hn hL syn hsyn b
  rwa [Bool.xor_false] at this

/-- C31 with fewer rounds than the decoder was made for. -/
theorem corrects_fewer {D : Decoder} (hD : Made D) {key : Key} {s : SGraph} (hs : D.S key = some s) (HO : OddPos D.dh D.dw)
    {m : Matcher} (hm : Contract m) {T : Int} (hT : T ≤ D.T) {fs : List Fault} (hf : Correctable key D.dh D.dw T fs) {L : List Node}
    (hn : L.Nodup) (hL : ∀ n, n ∈ L ↔ IsHit key D.dh D.dw T fs n) {syn : SynDict} (hsyn : syn (rtypeOf key) = some L) (b : Bool) :
    ∃ syn', correctHits D m syn (rtypeOf key) (some (bit (b ^^ readoutFlipped key fs))) none = .ok (some (bit b), syn') :=
  C98_few_lines D hD key s hs HO m hm T hT fs (tolerable_of_correctable hf) L hn hL syn hsyn b

/-- The same for strings: the measured logical bit and `T + 1` syndrome rounds (newest first). -/
theorem decided_single (D : Decoder) (hD : Made D) (key : Key) (s : SGraph) (hs : D.S key = some s) (HO : OddPos D.dh D.dw)
    (hbig : 1 < D.dh * D.dw) (m : Matcher) (hm : Contract m) (T : Int) (hT : T ≤ D.T) (fs : List Fault)
    (hf : ∀ f ∈ fs, f.Fits key D.dh D.dw T) {wrong : Bool} (hd : Decided key D.dh D.dw D.T fs wrong) (ref : Int → Int → Bool) (rounds : List Str) (hlen : (rounds.length : Int) = T + 1)
    (hr : RoundsRead key D.dh D.dw ref fs rounds) (b : Bool) :
    correctString D m (joinSp ([if b ^^ readoutFlipped key fs then '1' else '0'] :: rounds.reverse)) (rtypeOf key) none =
      .ok (some (bit (b ^^ wrong))) := by
  have hp := C15_parse_is_changes D.dh D.dw HO hbig (rtypeOf key) (if b ^^ readoutFlipped key fs then '1' else '0')
    (by split <;> decide) rounds hr.1
  have hv : digitVal (if b ^^ readoutFlipped key fs then '1' else '0') = bit (b ^^ readoutFlipped key fs) := by
    cases b ^^ readoutFlipped key fs <;> decide
  rw [hv] at hp
  have hch : ∀ n, n ∈ changes (sitesOf key D.dh D.dw) (rounds.map (keyBits key D.dh D.dw)) ↔ IsHit key D.dh D.dw T fs n := by
    refine changes_isHit (ref := ref) (by rw [List.length_map]; exact hlen) ?_
    intro t k a p ha hp
    rw [List.getElem?_map, Option.map_eq_some_iff] at ha
    obtain ⟨s, h1, rfl⟩ := ha
    exact hr.2 t k s p h1 hp
  unfold correctString
  simp only [hp, bind, Except.bind]
  have hdict : Hits.toDict { X := changes (xSites D.dh D.dw) (rounds.map (xBits (zSites D.dh D.dw).length)), Z := changes (zSites D.dh D.dw) (rounds.map zBits) }
      (rtypeOf key) = some (changes (sitesOf key D.dh D.dw) (rounds.map (keyBits key D.dh D.dw))) := by
    cases key <;> rfl
  obtain ⟨syn', hc⟩ := decided_hits D hD key s hs HO m hm T hT fs hf hd _ (changes_nodup' key D.dh D.dw _) hch _ hdict b
  rw [hc]
  rfl

/-- C98: a string consisting of the measured logical bit and `T + 1` syndrome rounds (newest first), in which every stabilizer of the type
reads what such faults make it read for some reference syndrome, is decoded to the true logical value `b`. -/
theorem C98_strings_single (D : Decoder) (hD : Made D) (key : Key) (s : SGraph) (hs : D.S key = some s) (HO : OddPos D.dh D.dw)
    (hbig : 1 < D.dh * D.dw) (m : Matcher) (hm : Contract m) (T : Int) (hT : T ≤ D.T) (fs : List Fault)
    (hf : Tolerable key D.dh D.dw T fs) (ref : Int → Int → Bool) (rounds : List Str) (hlen : (rounds.length : Int) = T + 1)
    (hr : RoundsRead key D.dh D.dw ref fs rounds) (b : Bool) :
    correctString D m (joinSp ([if b ^^ readoutFlipped key fs then '1' else '0'] :: rounds.reverse)) (rtypeOf key) none =
      .ok (some (bit b)) := by
  have := decided_single D hD key s hs HO hbig m hm T hT fs hf.1 (tolerable_decided HO hT hf) ref rounds hlen hr b
  rwa [Bool.xor_false] at this

/-- C32: a string consisting of the measured logical bit and `T + 1` syndrome rounds (newest first), in which every
stabilizer of the type reads what a correctable set of faults makes it read for some reference syndrome, is decoded to the
true logical value `b`. The bits of the other type are arbitrary; the decoder may be made for more rounds. -/
theorem C32_strings_single (D : Decoder) (hD : Made D) (key : Key) (s : SGraph) (hs : D.S key = some s) (HO : OddPos D.dh D.dw)
    (hbig : 1 < D.dh * D.dw) (m : Matcher) (hm : Contract m) (T : Int) (hT : T ≤ D.T) (fs : List Fault)
    (hf : Correctable key D.dh D.dw T fs) (ref : Int → Int → Bool) (rounds : List Str) (hlen : (rounds.length : Int) = T + 1)
    (hr : RoundsRead key D.dh D.dw ref fs rounds) (b : Bool) :
    correctString D m (joinSp ([if b ^^ readoutFlipped key fs then '1' else '0'] :: rounds.reverse)) (rtypeOf key) none =
      .ok (some (bit b)) :=
  C98_strings_single D hD key s hs HO hbig m hm T hT fs (tolerable_of_correctable hf) ref rounds hlen hr b

/-- The same for readouts of the whole lattice (type Z). -/
theorem decided_lattice (D : Decoder) (hD : Made D) (s : SGraph) (hs : D.S .Z = some s) (HO : OddPos D.dh D.dw)
    (hbig : 1 < D.dh * D.dw) (m : Matcher) (hm : Contract m) (T : Int) (hT : T ≤ D.T) (fs : List Fault)
    (hf : ∀ f ∈ fs, f.Fits .Z D.dh D.dw T) {wrong : Bool} (hd : Decided .Z D.dh D.dw D.T fs wrong) (x0 : Int → Bool) (final : Str) (hfb : ∀ c ∈ final, c = '0' ∨ c = '1')
    (hfl : (final.length : Int) = D.dh * D.dw)
    (hfr : ∀ q, 0 ≤ q → q < D.dh * D.dw → dataBit final q = readData x0 fs D.dw q)
    (rounds : List Str) (last : Str) (hlast : last.length = (xSites D.dh D.dw).length + (zSites D.dh D.dw).length)
    (hlen : ((rounds ++ [last]).length : Int) = T)
    (hr : RoundsRead .Z D.dh D.dw (fun r2 c2 => parityOn x0 (cornersOf D.dh D.dw r2 c2)) fs (rounds ++ [last])) :
    correctString D m (joinSp (final :: (rounds ++ [last]).reverse)) .Z none =
      .ok (some (bit (xorAll ((rowQubits D.dw 0).map x0) ^^ wrong))) := by
  have hp := C19_z_lattice_readout D.dh D.dw HO hbig final hfb hfl rounds (fun s h => hr.1 s (by simp [h])) last
    (hr.1 last (by simp)) hlast
  have hrow : xorAll ((rowQubits D.dw 0).map (dataBit final)) =
      (xorAll ((rowQubits D.dw 0).map x0) ^^ readoutFlipped .Z fs) := by
    rw [← row_readData x0 fs hf]
    refine xorAll_congr fun q hq => ?_
    unfold rowQubits at hq
    obtain ⟨k, hk, rfl⟩ := List.mem_map.1 hq
    rw [List.mem_range] at hk
    unfold OddPos at HO
    have hm := site_mem (dh := D.dh) (dw := D.dw) (r := 0) (c := k) (by omega)
    rw [mem_allQubits] at hm
    exact hfr _ hm.1 hm.2
  have hv : (if xorAll ((rowQubits D.dw 0).map (dataBit final)) then (1 : Int) else 0) =
      bit (xorAll ((rowQubits D.dw 0).map x0) ^^ readoutFlipped .Z fs) := by
    rw [hrow]; rfl
  rw [hv] at hp
  have hch : ∀ n, n ∈ changes (sitesOf .Z D.dh D.dw) ((rounds ++ [last]).map zBits ++ [zParities D.dh D.dw final]) ↔
      IsHit .Z D.dh D.dw T fs n := by
    refine changes_isHit (ref := fun r2 c2 => parityOn x0 (cornersOf D.dh D.dw r2 c2)) ?_ ?_
    · rw [List.length_append, List.length_map]
      simp only [List.length_singleton]
      omega
    · intro t k a p ha hp
      by_cases ht : t < ((rounds ++ [last]).map zBits).length
      · rw [List.getElem?_append_left ht, List.getElem?_map, Option.map_eq_some_iff] at ha
        obtain ⟨s, h1, rfl⟩ := ha
        exact hr.2 t k s p h1 hp
      · have ht' : t = ((rounds ++ [last]).map zBits).length := by
          have := (List.getElem?_eq_some_iff.1 ha).1
          rw [List.length_append, List.length_singleton] at this
          omega
        rw [ht', List.getElem?_concat_length] at ha
        cases ha
        have hTt : (t : Int) = T := by rw [ht', List.length_map]; exact hlen
        rw [hTt]
        have hp' : (zSites D.dh D.dw)[k]? = some p := hp
        have hps : ZSite D.dh D.dw p.1 p.2 := mem_zSites.1 (List.mem_of_getElem? hp')
        unfold zParities readBit
        rw [hp']
        simp only
        rw [← parity_readData hps.1 hps.2.1 x0 fs hf]
        refine xorAll_congr fun q hq => ?_
        cases q with
        | none => rfl
        | some q =>
          obtain ⟨r, c, hrc, rfl⟩ := mem_cornersOf_inRange hq
          have hm := site_mem hrc
          rw [mem_allQubits] at hm
          exact hfr _ hm.1 hm.2
  unfold correctString
  simp only [hp, bind, Except.bind]
  have hc := decided_hits D hD .Z s hs HO m hm T hT fs hf hd _ (changes_nodup' .Z D.dh D.dw _) hch
    (Hits.toDict { X := changes (xSites D.dh D.dw) ((rounds ++ [last, last]).map (xBits (zSites D.dh D.dw).length)), Z := changes (zSites D.dh D.dw) ((rounds ++ [last]).map zBits ++ [zParities D.dh D.dw final]) }) rfl
    (xorAll ((rowQubits D.dw 0).map x0))
  obtain ⟨syn', hc⟩ := hc
  rw [show (RType.Z) = rtypeOf .Z from rfl, hc]
  rfl

/-- C98 for readouts of the whole lattice (type Z). -/
theorem C98_strings_lattice (D : Decoder) (hD : Made D) (s : SGraph) (hs : D.S .Z = some s) (HO : OddPos D.dh D.dw)
    (hbig : 1 < D.dh * D.dw) (m : Matcher) (hm : Contract m) (T : Int) (hT : T ≤ D.T) (fs : List Fault)
    (hf : Tolerable .Z D.dh D.dw T fs) (x0 : Int → Bool) (final : Str) (hfb : ∀ c ∈ final, c = '0' ∨ c = '1')
    (hfl : (final.length : Int) = D.dh * D.dw)
    (hfr : ∀ q, 0 ≤ q → q < D.dh * D.dw → dataBit final q = readData x0 fs D.dw q)
    (rounds : List Str) (last : Str) (hlast : last.length = (xSites D.dh D.dw).length + (zSites D.dh D.dw).length)
    (hlen : ((rounds ++ [last]).length : Int) = T)
    (hr : RoundsRead .Z D.dh D.dw (fun r2 c2 => parityOn x0 (cornersOf D.dh D.dw r2 c2)) fs (rounds ++ [last])) :
    correctString D m (joinSp (final :: (rounds ++ [last]).reverse)) .Z none =
      .ok (some (bit (xorAll ((rowQubits D.dw 0).map x0)))) := by
  have := decided_lattice D hD s hs HO hbig m hm T hT fs hf.1 (tolerable_decided HO hT hf) x0 final hfb hfl hfr rounds last hlast hlen hr
  rwa [Bool.xor_false] at this

/-- C32 for readouts of the whole lattice (type Z): the string consists of the data bits and `T` syndrome rounds. The data
bits read `x0` without faults, the Z stabilizers the parities of `x0` around them; the true value is the parity of the top
row of `x0`. Data flips may happen at any time, including between the last round and the final readout. -/
theorem C32_strings_lattice (D : Decoder) (hD : Made D) (s : SGraph) (hs : D.S .Z = some s) (HO : OddPos D.dh D.dw)
    (hbig : 1 < D.dh * D.dw) (m : Matcher) (hm : Contract m) (T : Int) (hT : T ≤ D.T) (fs : List Fault)
    (hf : Correctable .Z D.dh D.dw T fs) (x0 : Int → Bool) (final : Str) (hfb : ∀ c ∈ final, c = '0' ∨ c = '1')
    (hfl : (final.length : Int) = D.dh * D.dw)
    (hfr : ∀ q, 0 ≤ q → q < D.dh * D.dw → dataBit final q = readData x0 fs D.dw q)
    (rounds : List Str) (last : Str) (hlast : last.length = (xSites D.dh D.dw).length + (zSites D.dh D.dw).length)
    (hlen : ((rounds ++ [last]).length : Int) = T)
    (hr : RoundsRead .Z D.dh D.dw (fun r2 c2 => parityOn x0 (cornersOf D.dh D.dw r2 c2)) fs (rounds ++ [last])) :
    correctString D m (joinSp (final :: (rounds ++ [last]).reverse)) .Z none =
      .ok (some (bit (xorAll ((rowQubits D.dw 0).map x0)))) :=
  C98_strings_lattice D hD s hs HO hbig m hm T hT fs (tolerable_of_correctable hf) x0 final hfb hfl hfr rounds last hlast hlen hr

-- two neighbouring data qubits of row 1 flip on a lattice of height 3: more than `(3 - 1) / 2` faults, but no odd row
example : Tolerable .Z 3 5 2 [.data 0 1 2, .data 0 1 3] ∧ ¬ Correctable .Z 3 5 2 [.data 0 1 2, .data 0 1 3] ∧
    ¬ Tolerable .Z 3 5 2 [.data 0 1 2, .data 0 2 2] ∧
    ∃ D m sz, Made D ∧ Contract m ∧ D.S .Z = some sz ∧ D.dh = 3 ∧ D.dw = 5 ∧
      ∀ (L : List Node), L.Nodup → (∀ n, n ∈ L ↔ IsHit .Z 3 5 2 [.data 0 1 2, .data 0 1 3] n) → ∀ syn : SynDict, syn .Z = some L →
        ∃ syn', correctHits D m syn .Z (some 1) none = .ok (some 1, syn') := by
  have h : Tolerable .Z 3 5 2 [.data 0 1 2, .data 0 1 3] := by
    refine ⟨?_, by decide⟩
    intro f hf
    simp only [List.mem_cons, List.not_mem_nil, or_false] at hf
    rcases hf with rfl | rfl <;> unfold Fault.Fits <;> decide
  refine ⟨h, fun hc => absurd hc.2 (by decide), fun hc => absurd hc.2 (by decide), ?_⟩
  obtain ⟨D, sx, sz, k, h1, h2, h3, h4, h5, h6, h7⟩ := demo_decoder
  obtain ⟨m, hm⟩ := contract_exists
  refine ⟨D, m, sz, k, hm, h5, h1, h2, fun L hn hL syn hsyn => ?_⟩
  exact C98_few_lines D k .Z sz h5 h7.1 m hm 2 (by rw [h3]) _ (by rw [h1, h2]; exact h) L hn (by rw [h1, h2]; exact hL) syn hsyn true

/-- A finite check of `RoundsRead`. -/
def roundsCheck (key : Key) (dh dw : Int) (ref : Int → Int → Bool) (fs : List Fault) (rounds : List Str) : Bool :=
  (List.range rounds.length).all fun t => (List.range (sitesOf key dh dw).length).all fun k =>
    match rounds[t]?, (sitesOf key dh dw)[k]? with
    | some s, some p => keyBits key dh dw s k == readBit ref fs t p.1 p.2
    | _, _ => true

theorem roundsRead_of {key : Key} {dh dw : Int} {ref : Int → Int → Bool} {fs : List Fault} {rounds : List Str}
    (h1 : ∀ s ∈ rounds, IsBits s) (h2 : roundsCheck key dh dw ref fs rounds = true) : RoundsRead key dh dw ref fs rounds := by
  refine ⟨h1, ?_⟩
  intro t k s p hs hp
  unfold roundsCheck at h2
  rw [List.all_eq_true] at h2
  have h3 := h2 t (List.mem_range.2 (List.getElem?_eq_some_iff.1 hs).1)
  rw [List.all_eq_true] at h3
  have h4 := h3 k (List.mem_range.2 (List.getElem?_eq_some_iff.1 hp).1)
  rw [hs, hp] at h4
  exact beq_iff_eq.1 h4

-- a 3 × 5 lattice, all stabilizers read 0 at first, then the data qubit in row 0 and column 1 flips: the measured value
-- "0" is corrected to 1
example : ∃ D m, Made D ∧ Contract m ∧
    correctString D m "0 00000000000001 00000000000001 00000000000000".toList .Z none = .ok (some 1) := by
  obtain ⟨D, sx, sz, h, h1, h2, h3, h4, h5, h6, h7⟩ := demo_decoder
  obtain ⟨m, hm⟩ := contract_exists
  refine ⟨D, m, h, hm, ?_⟩
  have := C32_strings_single D h .Z sz h5 h7.1 (by rw [h1, h2]; decide) m hm 2 (by rw [h3]) [.data 0 0 1]
    (by rw [h1, h2]
        refine ⟨?_, by decide⟩
        intro f hf
        rw [List.mem_singleton.1 hf]
        unfold Fault.Fits; decide)
    (fun _ _ => false) ["00000000000000".toList, "00000000000001".toList, "00000000000001".toList] (by decide)
    (by rw [h1, h2]
        refine roundsRead_of ?_ (by decide)
        intro s hs
        simp only [List.mem_cons, List.not_mem_nil, or_false] at hs
        rcases hs with rfl | rfl | rfl <;> unfold IsBits <;> decide) true
  exact this

-- the same flip, seen in the second round and in the final readout of all data qubits (prepared in |0...0⟩)
example : ∃ D m, Made D ∧ Contract m ∧
    correctString D m "000000000000010 00000000000001 00000000000000".toList .Z none = .ok (some 0) := by
  obtain ⟨D, sx, sz, h, h1, h2, h3, h4, h5, h6, h7⟩ := demo_decoder
  obtain ⟨m, hm⟩ := contract_exists
  refine ⟨D, m, h, hm, ?_⟩
  have := C32_strings_lattice D h sz h5 h7.1 (by rw [h1, h2]; decide) m hm 2 (by rw [h3]) [.data 0 0 1]
    (by rw [h1, h2]
        refine ⟨?_, by decide⟩
        intro f hf
        rw [List.mem_singleton.1 hf]
        unfold Fault.Fits; decide)
    (fun _ => false) "000000000000010".toList (by decide) (by rw [h1, h2]; decide)
    (by rw [h1, h2]
        intro q q0 q1
        have hall : ∀ q ∈ pyRange 15, dataBit "000000000000010".toList q = readData (fun _ => false) [.data 0 0 1] 5 q := by
          decide
        exact hall q (mem_pyRange.2 ⟨q0, by omega⟩))
    ["00000000000000".toList] "00000000000001".toList (by rw [h1, h2]; decide) (by decide)
    (by rw [h1, h2]
        refine roundsRead_of ?_ (by decide)
        intro s hs
        simp only [List.cons_append, List.nil_append, List.mem_cons, List.not_mem_nil, or_false] at hs
        rcases hs with rfl | rfl <;> unfold IsBits <;> decide)
  rw [h2] at this
  exact this

/-! ### C33 -/

/-- C33: the order of the hits (and which optimal matching is picked for each order) does not matter for correctable
faults. -/
theorem C33_order_irrelevant (D : Decoder) (hD : Made D) (key : Key) (s : SGraph) (hs : D.S key = some s)
    (HO : OddPos D.dh D.dw) (m m' : Matcher) (hm : Contract m) (hm' : Contract m') (fs : List Fault)
    (hf : Correctable key D.dh D.dw D.T fs) (L L' : List Node) (hn : L.Nodup) (hp : L.Perm L')
    (hL : ∀ n, n ∈ L ↔ IsHit key D.dh D.dw D.T fs n) (syn syn' : SynDict) (hsyn : syn (rtypeOf key) = some L)
    (hsyn' : syn' (rtypeOf key) = some L') (b : Bool) :
    ∃ v u u', correctHits D m syn (rtypeOf key) (some (bit b)) none = .ok (v, u) ∧
      correctHits D m' syn' (rtypeOf key) (some (bit b)) none = .ok (v, u') := by
  obtain ⟨u, h1⟩ := C31_corrects D hD key s hs HO m hm fs hf L hn hL syn hsyn (b ^^ readoutFlipped key fs)
  obtain ⟨u', h2⟩ := C31_corrects D hD key s hs HO m' hm' fs hf L' (hp.nodup_iff.1 hn) (fun n => by rw [← hp.mem_iff, hL n]) syn' hsyn'
    (b ^^ readoutFlipped key fs)
  rw [Bool.xor_assoc, Bool.xor_self, Bool.xor_false] at h1 h2
  exact ⟨_, u, u', h1, h2⟩

theorem distance_le {D : Decoder} (hD : Made D) {key : Key} {s : SGraph} (hs : D.S key = some s) (HO : OddPos D.dh D.dw)
    {m m' : Matcher} (hm : Contract m) (hm' : Contract m') {L L' : List Node} (hn : L.Nodup) (hp : L.Perm L')
    (hL : ∀ n ∈ L, HitPlace key D n) {Ms Ms' : List (Node × Node)} {l l' : List Node}
    (h : corrections D m L (rtypeOf key) none = .ok (Ms, l)) (h' : corrections D m' L' (rtypeOf key) none = .ok (Ms', l')) :
    totalDist key D.dh D.dw D.T Ms' ≤ totalDist key D.dh D.dw D.T Ms := by
  by_cases hne : L = []
  · subst hne
    rw [List.nil_perm.1 hp] at h'
    cases h; cases h'
    exact le_refl _
  have hne' : L' ≠ [] := fun e => hne (List.perm_nil.1 (e ▸ hp))
  obtain ⟨n0, h0⟩ := List.exists_mem_of_ne_nil _ hne
  have R := ready_of_hit hD hs HO (hL n0 h0)
  have hL' : ∀ n ∈ L', HitPlace key D n := fun n h => hL n (hp.mem_iff.2 h)
  have hn' := hp.nodup_iff.1 hn
  have hpar' := parityOk_nodup hn' fun n h => hitPlace_real (hL' n h)
  obtain ⟨M, a1, a2, _, a4, a5, a6, a7⟩ := corrections_full R hm hne (fun n h => hitPlace_gnode (hL n h))
    (parityOk_nodup hn fun n h => hitPlace_real (hL n h))
  obtain ⟨M', b1, b2, _, b4, b5, b6, b7⟩ := corrections_full R hm' hne' (fun n h => hitPlace_gnode (hL' n h)) hpar'
  rw [h] at a1
  rw [h'] at b1
  cases a1; cases b1
  obtain ⟨_, hw⟩ := optimal_covers HO (fun n h => hitPlace_gnode (hL' n h)) hpar' unitWeight_virt a4
    (fun n hn => by rw [a5 n hn, hp.mem_iff]) (fun n hn ht => (gnode_virt HO (a6 n hn)).2 ht) b2
  rw [← nweight_kept unitWeight_virt M', nweight_eq a7, nweight_eq b7] at hw
  omega

/-- C33: for any distinct hits, the total distance of the matches does not depend on the order of the hits nor on which
optimal matching is picked. -/
theorem C33_total_distance (D : Decoder) (hD : Made D) (key : Key) (s : SGraph) (hs : D.S key = some s)
    (HO : OddPos D.dh D.dw) (m m' : Matcher) (hm : Contract m) (hm' : Contract m') (L L' : List Node) (hn : L.Nodup)
    (hp : L.Perm L') (hL : ∀ n ∈ L, HitPlace key D n) :
    ∃ Ms l Ms' l', corrections D m L (rtypeOf key) none = .ok (Ms, l) ∧
      corrections D m' L' (rtypeOf key) none = .ok (Ms', l') ∧
      (Ms.map fun p => pdist (GAdj key D.dh D.dw D.T) p.1 p.2).sum =
        (Ms'.map fun p => pdist (GAdj key D.dh D.dw D.T) p.1 p.2).sum := by
  have hL' : ∀ n ∈ L', HitPlace key D n := fun n h => hL n (hp.mem_iff.2 h)
  have hn' := hp.nodup_iff.1 hn
  obtain ⟨Ms, l, h1, _⟩ := C30_every_hit_matched D hD key s hs HO m hm L hn hL
  obtain ⟨Ms', l', h2, _⟩ := C30_every_hit_matched D hD key s hs HO m' hm' L' hn' hL'
  exact ⟨Ms, l, Ms', l', h1, h2, le_antisymm (distance_le hD hs HO hm' hm hn' hp.symm hL' h2 h1) (distance_le hD hs HO hm hm' hn hp hL h1 h2)⟩

example : ∃ D s, Made D ∧ D.S .Z = some s ∧ OddPos D.dh D.dw ∧ (∀ n ∈ [(⟨1, 1, 1⟩ : Node), ⟨0, 3, 3⟩], HitPlace .Z D n) ∧
    [(⟨1, 1, 1⟩ : Node), ⟨0, 3, 3⟩].Perm [⟨0, 3, 3⟩, ⟨1, 1, 1⟩] := by
  obtain ⟨D, sx, sz, h, h1, h2, h3, h4, h5, h6, h7⟩ := demo_decoder
  refine ⟨D, sz, h, h5, h6.1, ?_, List.Perm.swap _ _ _⟩
  intro n hn
  unfold HitPlace
  rw [h1, h2, h3]
  simp only [List.mem_cons, List.not_mem_nil, or_false] at hn
  rcases hn with rfl | rfl <;> unfold Site ZSite <;> decide

/-! ### C34 -/

/-- C34 is false of the code: decoding any non-empty list of distinct hits leaves the boundary nodes appended to the
caller's list. -/
theorem C34_refuted (D : Decoder) (hD : Made D) (key : Key) (s : SGraph) (hs : D.S key = some s) (HO : OddPos D.dh D.dw)
    (m : Matcher) (hm : Contract m) (L : List Node) (hne : L ≠ []) (hn : L.Nodup) (hL : ∀ n ∈ L, HitPlace key D n)
    (syn : SynDict) (hsyn : syn (rtypeOf key) = some L) (b : Bool) :
    ∃ v syn' L', correctHits D m syn (rtypeOf key) (some (bit b)) none = .ok (v, syn') ∧ syn' (rtypeOf key) = some L' ∧
      L' = L ++ D.virt key ∧ L' ≠ L ∧ syn' ≠ syn := by
  obtain ⟨n0, h0⟩ := List.exists_mem_of_ne_nil _ hne
  have R := ready_of_hit hD hs HO (hL n0 h0)
  obtain ⟨M, h1, _, _, _, _, h6, h7⟩ := corrections_full R hm hne (fun n h => hitPlace_gnode (hL n h))
    (parityOk_nodup hn fun n h => hitPlace_real (hL n h))
  have hv : L ++ virtualNodes D.dh D.dw key ≠ L := by
    intro e
    exact virtualNodes_ne_nil HO (List.append_right_eq_self.1 e)
  refine ⟨_, _, _, correctHits_of R.long hsyn h1 h6 h7 b, if_pos rfl, by rw [R.virt], hv, ?_⟩
  intro e
  have e' := congrFun e (rtypeOf key)
  rw [if_pos rfl, hsyn] at e'
  exact hv (Option.some.inj e')

/-- C34, what holds: no hits, no change (C28); entries of other types are never changed. -/
theorem C34_others_unchanged_partial (D : Decoder) (m : Matcher) (syn syn' : SynDict) (rt rt' : RType) (val v : Option Int)
    (ep : Option ℝ) (h : correctHits D m syn rt val ep = .ok (v, syn')) (hr : rt' ≠ rt) : syn' rt' = syn rt' := by
  unfold correctHits at h
  cases hs : syn rt with
  | none => rw [hs] at h; cases h
  | some nodes =>
    rw [hs] at h
    simp only at h
    obtain ⟨r, _, h2⟩ := except_bind_ok h
    obtain ⟨w, _, h4⟩ := except_bind_ok h2
    cases h4
    exact if_neg hr

/-- The last of `k + 1` calls with the same dictionary; the library may answer differently in every call. -/
noncomputable def callAgain (D : Decoder) (m : Nat → Matcher) (rt : RType) (val : Option Int) : Nat → SynDict → Py (Option Int × SynDict)
  | 0, syn => correctHits D (m 0) syn rt val none
  | k + 1, syn => do
    let r ← correctHits D (m (k + 1)) syn rt val none
    callAgain D m rt val k r.2

theorem parityOk_append {L : List Node} {dh dw : Int} {key : Key} (H : OddPos dh dw) (hp : ParityOk L) :
    ParityOk (L ++ virtualNodes dh dw key) := by
  unfold ParityOk at *
  have he := virtualNodes_even (key := key) H
  have hr : reals (L ++ virtualNodes dh dw key) = reals L := by
    unfold reals
    rw [List.filter_append]
    have : (virtualNodes dh dw key).filter isReal = [] := by
      rw [List.filter_eq_nil_iff]
      intro n hn hc
      exact isReal_iff.1 hc (virtualNodes_t hn)
    rw [this, List.append_nil]
  rw [hr, List.length_append]
  omega

/-- C34, what holds: although the dictionary grows with every call, decoding correctable faults again and again with the
same dictionary always gives the right answer. -/
theorem C34_repeated_calls_partial (D : Decoder) (hD : Made D) (key : Key) (s : SGraph) (hs : D.S key = some s)
    (HO : OddPos D.dh D.dw) (m : Nat → Matcher) (hm : ∀ k, Contract (m k)) (fs : List Fault)
    (hf : Correctable key D.dh D.dw D.T fs) (L : List Node) (hn : L.Nodup)
    (hL : ∀ n, n ∈ L ↔ IsHit key D.dh D.dw D.T fs n) (syn : SynDict) (hsyn : syn (rtypeOf key) = some L) (b : Bool) (k : Nat) :
    ∃ syn', callAgain D m (rtypeOf key) (some (bit (b ^^ readoutFlipped key fs))) k syn = .ok (some (bit b), syn') := by
  -- generalised to the lists that occur
  have gen : ∀ (k : Nat) (L : List Node) (syn : SynDict), (∀ n ∈ L, GNode key D.dh D.dw D.T n) →
      (∀ n, n.t ≠ -1 → (n ∈ L ↔ IsHit key D.dh D.dw D.T fs n)) → ParityOk L → (fs ≠ [] ∨ L = []) →
      syn (rtypeOf key) = some L →
      ∃ syn', callAgain D m (rtypeOf key) (some (bit (b ^^ readoutFlipped key fs))) k syn = .ok (some (bit b), syn') := by
    intro k
    induction k with
    | zero =>
      intro L syn h1 h2 h3 h4 h5
      exact correct_core hD hs HO (hm 0) hf h1 h2 h3 h4 h5 b
    | succ k ih =>
      intro L syn h1 h2 h3 h4 h5
      obtain ⟨syn', hc⟩ := correct_core hD hs HO (hm (k + 1)) hf h1 h2 h3 h4 h5 b
      unfold callAgain
      simp only [hc, bind, Except.bind]
      by_cases hne : L = []
      · subst hne
        rw [C28_no_hits D _ syn (rtypeOf key) _ none h5] at hc
        simp only [Except.ok.injEq, Prod.mk.injEq] at hc
        rw [← hc.2]
        exact ih [] _ h1 h2 h3 h4 h5
      · have hfs : fs ≠ [] := h4.resolve_right hne
        obtain ⟨f, hfm⟩ := List.exists_mem_of_ne_nil _ hfs
        have hT : 0 < D.T := fits_pos (hf.1 f hfm)
        have R : Ready D key s := by
          refine ⟨hD, hs, ⟨HO, ?_⟩, hT⟩
          have g2 := hf.2
          have g3 : 0 < fs.length := List.length_pos_iff.2 hfs
          unfold OddPos at HO
          cases key
          · simp only [distance] at *; omega
          · simp only [distance] at *; omega
        obtain ⟨M, a1, _, _, _, _, a6, a7⟩ := corrections_full R (hm (k + 1)) hne h1 h3
        rw [correctHits_of R.long h5 a1 a6 a7] at hc
        simp only [Except.ok.injEq, Prod.mk.injEq] at hc
        refine ih (L ++ virtualNodes D.dh D.dw key) syn' ?_ ?_ (parityOk_append HO h3) (Or.inl hfs) ?_
        · intro n hn
          rcases List.mem_append.1 hn with h | h
          · exact h1 n h
          · exact virt_gnode HO h
        · intro n hn
          rw [List.mem_append, h2 n hn]
          exact ⟨fun h => h.resolve_right fun h => hn (virtualNodes_t h), Or.inl⟩
        · rw [← hc.2]
          exact if_pos rfl
  refine gen k L syn (fun n h => isHit_gnode ((hL n).1 h)) (fun n _ => hL n) (parityOk_nodup hn fun n h => ?_) ?_ hsyn
  · have := ((hL n).1 h).1
    omega
  · by_cases h : fs = []
    · right
      subst h
      rw [List.eq_nil_iff_forall_not_mem]
      intro n hn
      have := ((hL n).1 hn).2.2.2
      simp at this
    · exact Or.inl h

/-! ### C38 -/

/-- C38: a readout type without a decoding graph (an unknown type, or the type a repetition decoder does not have): the call
can only succeed if there is nothing to correct, and otherwise raises `KeyError`. -/
theorem C38_invalid_type (D : Decoder) (m : Matcher) (syn : SynDict) (rt : RType) (val : Option Int) (ep : Option ℝ)
    (hk : ∀ key, rtypeOf key = rt → D.S key = none) (hne : syn rt ≠ some []) :
    correctHits D m syn rt val ep = .error .keyError := by
  unfold correctHits
  cases hs : syn rt with
  | none => rfl
  | some nodes =>
    have hn : nodes ≠ [] := fun e => hne (by rw [hs, e])
    have : corrections D m nodes rt ep = .error .keyError := by
      unfold corrections
      rw [if_neg hn]
      cases rt with
      | X => simp only [RType.key, hk .X rfl]
      | Z => simp only [RType.key, hk .Z rfl]
      | none => rfl
      | other => rfl
    simp only [this, bind, Except.bind]

/-- C38 for strings: a type other than `X` and `Z` always raises, whatever the string. -/
theorem C38_invalid_type_string (D : Decoder) (m : Matcher) (str : Str) (rt : RType) (ep : Option ℝ)
    (hk : ∀ key, rtypeOf key ≠ rt) : ∃ e, correctString D m str rt ep = .error e := by
  unfold correctString
  cases hp : parseReadout D.dh D.dw str rt with
  | error e => exact ⟨e, rfl⟩
  | ok r =>
    simp only [bind, Except.bind]
    have : correctHits D m r.2.toDict rt (some r.1) ep = .error .keyError := by
      unfold correctHits
      cases rt with
      | X => exact absurd rfl (hk .X)
      | Z => exact absurd rfl (hk .Z)
      | none => rfl
      | other => rfl
    rw [this]
    exact ⟨_, rfl⟩

/-- C38: the crossing test itself rejects unknown types. -/
theorem C38_invalid_crossing (p : Node × Node) (rt : RType) (hk : ∀ key, rtypeOf key ≠ rt) :
    isCrossing p rt = .error .valueError := by
  cases rt with
  | X => exact absurd rfl (hk .X)
  | Z => exact absurd rfl (hk .Z)
  | none => rfl
  | other => rfl

-- a bit-flip repetition decoder asked for X
example (m : Matcher) : ∃ D, Made D ∧ D.S .X = none ∧
    correctHits D m (fun _ => some [⟨0, 1, 1⟩]) .X (some 0) none = .error .keyError ∧
    correctHits D m (fun _ => some [⟨0, 1, 1⟩]) .other (some 0) none = .error .keyError := by
  obtain ⟨D, s, h, hT, h2⟩ := C21_repetition_built 900 { d := some (.num (.int 3)), T := some 1 } 3 1 (by omega) (by omega)
    (Or.inl rfl) rfl (by omega)
  rw [if_neg (by simp)] at h2
  refine ⟨D, Or.inr ⟨_, _, h⟩, h2.2.2.2, C38_invalid_type D m _ _ _ _ ?_ (by simp), C38_invalid_type D m _ _ _ _ ?_ (by simp)⟩
  · intro key hk
    cases key
    · exact h2.2.2.2
    · cases hk
  · intro key hk
    cases key <;> cases hk

end Qtc
