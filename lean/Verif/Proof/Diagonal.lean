import Verif.Props.Degeneracy
/-!
Decoding graphs of type Z with one time step in the coordinates level (0 … dh) and column (0 … dw): distances and bounds on the numbers of
shortest paths.
-/
namespace Qtc
open Spec

variable {dh dw : Int}

/-- The node at level `l` and column `k`. -/
def nd (dh l k : Int) : Node := ⟨if l = 0 ∨ l = dh then -1 else 0, 2 * l - 1, 2 * k - 1⟩

/-- `(l, k)` is the place of a node. -/
def Cell (dh dw l k : Int) : Prop := 0 ≤ l ∧ l ≤ dh ∧ 0 ≤ k ∧ k ≤ dw ∧ (l + k) % 2 = 0

theorem nd_inj {l k l' k' : Int} (h : nd dh l k = nd dh l' k') : l = l' ∧ k = k' := by
  unfold nd at h
  simp only [Node.mk.injEq] at h
  omega

theorem cell_gnode (H : Long .Z dh dw) {l k : Int} (h : Cell dh dw l k) : GNode .Z dh dw 1 (nd dh l k) := by
  obtain ⟨HO, Hl⟩ := H
  unfold OddPos at HO
  unfold Cell at h
  unfold GNode Site ZSite Bdry Pos nd
  simp only at *
  split <;> omega

theorem gnode_cell (H : Long .Z dh dw) {n : Node} (h : GNode .Z dh dw 1 n) : ∃ l k, Cell dh dw l k ∧ n = nd dh l k := by
  obtain ⟨HO, Hl⟩ := H
  unfold OddPos at HO
  obtain ⟨t, r, c⟩ := n
  refine ⟨(r + 1) / 2, (c + 1) / 2, ?_, ?_⟩
  · unfold Cell
    simp only [GNode, Site, ZSite, Bdry, Pos] at *
    omega
  · unfold nd
    simp only [GNode, Site, ZSite, Bdry, Pos] at *
    simp only [Node.mk.injEq]
    split <;> omega

theorem cell_adj (H : Long .Z dh dw) {l k l' k' : Int} (h : Cell dh dw l k) (h' : Cell dh dw l' k') :
    GAdj .Z dh dw 1 (nd dh l k) (nd dh l' k') ↔ (l' = l + 1 ∨ l' = l - 1) ∧ (k' = k + 1 ∨ k' = k - 1) := by
  obtain ⟨HO, Hl⟩ := H
  unfold OddPos at HO
  unfold Cell at h h'
  simp only at Hl
  constructor
  · rintro (⟨t, r, c, h1, h2, h3, h4, h5, h6, h7, h8, h9⟩ | ⟨t, h1, h2, _⟩)
    · have := dataEdge_diag (key := .Z) (dh := dh) (dw := dw) (T := 1) ⟨h1, h2, h3, h4, h5, h6, h7, h8, h9⟩
      simp only [nd] at this
      omega
    · omega
  · rintro ⟨h1, h2⟩
    refine Or.inl ⟨0, min l l', min k k', ?_⟩
    unfold DataEdge Touches Site ZSite Bdry Pos nd
    simp only [ne_eq, Node.mk.injEq]
    refine ⟨by omega, by omega, by omega, by omega, by omega, by omega, by omega, ⟨by omega, by omega, ?_⟩, ⟨by omega, by omega, ?_⟩⟩
    · split <;> omega
    · split <;> omega

/-- A path to any place that is not further away than `m` in both directions. -/
theorem zigzag (H : Long .Z dh dw) : ∀ (m : Nat) {l k l' k' : Int}, Cell dh dw l k → Cell dh dw l' k' → (l' - l).natAbs ≤ m →
    (k' - k).natAbs ≤ m → (l' - l + m) % 2 = 0 → ∃ es, Path (GAdj .Z dh dw 1) (nd dh l k) (nd dh l' k') es ∧ es.length = m
  | 0, l, k, l', k', _, _, h1, h2, _ => by
    obtain rfl : l' = l := by omega
    obtain rfl : k' = k := by omega
    exact ⟨[], Path.nil _, rfl⟩
  | m + 1, l, k, l', k', c, c', h1, h2, h3 => by
    have HO := H.1
    have Hl := H.2
    unfold OddPos at HO
    simp only at Hl
    have c0 := c
    unfold Cell at c c'
    obtain ⟨l1, hl1, hl2, hl3, hl4⟩ : ∃ l1, (l1 = l + 1 ∨ l1 = l - 1) ∧ 0 ≤ l1 ∧ l1 ≤ dh ∧ (l' - l1).natAbs ≤ m := by
      rcases lt_trichotomy l l' with h | h | h
      · exact ⟨l + 1, by omega⟩
      · by_cases hx : l < dh
        · exact ⟨l + 1, by omega⟩
        · exact ⟨l - 1, by omega⟩
      · exact ⟨l - 1, by omega⟩
    obtain ⟨k1, hk1, hk2, hk3, hk4⟩ : ∃ k1, (k1 = k + 1 ∨ k1 = k - 1) ∧ 0 ≤ k1 ∧ k1 ≤ dw ∧ (k' - k1).natAbs ≤ m := by
      rcases lt_trichotomy k k' with h | h | h
      · exact ⟨k + 1, by omega⟩
      · by_cases hx : k < dw
        · exact ⟨k + 1, by omega⟩
        · exact ⟨k - 1, by omega⟩
      · exact ⟨k - 1, by omega⟩
    have c1 : Cell dh dw l1 k1 := by unfold Cell; omega
    obtain ⟨es, p, hl⟩ := zigzag H m c1 (by unfold Cell; exact c') hl4 hk4 (by push_cast at h3; omega)
    exact ⟨_, Path.cons ((cell_adj H c0 c1).2 ⟨hl1, hk1⟩) p, by simp [hl]⟩

/-- A path of cells changes both coordinates by one in each step. -/
theorem path_cells (H : Long .Z dh dw) {a b : Node} {es : List (Node × Node)} (h : Path (GAdj .Z dh dw 1) a b es) :
    ∀ {l k l' k' : Int}, Cell dh dw l k → Cell dh dw l' k' → a = nd dh l k → b = nd dh l' k' →
      (l' - l).natAbs ≤ es.length ∧ (k' - k).natAbs ≤ es.length ∧ (l' - l + es.length) % 2 = 0 := by
  induction h with
  | nil a =>
    intro l k l' k' _ _ e1 e2
    obtain ⟨rfl, rfl⟩ := nd_inj (e1.symm.trans e2)
    simp
  | @cons a c b es h1 _ ih =>
    intro l k l' k' c1 c2 e1 e2
    obtain ⟨l1, k1, c3, e3⟩ := gnode_cell H (gadj_nodes h1).2
    subst e1 e3
    have := (cell_adj H c1 c3).1 h1
    have := ih c3 c2 rfl e2
    rw [List.length_cons]
    push_cast
    omega

theorem cell_dist (H : Long .Z dh dw) {l k l' k' : Int} (c : Cell dh dw l k) (c' : Cell dh dw l' k') :
    pdist (GAdj .Z dh dw 1) (nd dh l k) (nd dh l' k') = max (l' - l).natAbs (k' - k).natAbs := by
  have h1 := c
  have h2 := c'
  unfold Cell at h1 h2
  obtain ⟨es, p, hl⟩ := zigzag H (max (l' - l).natAbs (k' - k).natAbs) c c' (le_max_left _ _) (le_max_right _ _) (by omega)
  refine (pdist_spec ⟨es, p⟩).unique ⟨⟨es, p, hl⟩, fun es' p' => ?_⟩
  have := path_cells H p' c c' rfl rfl
  omega

/-! ### Walks with two choices in each step -/

/-- All walks of `n` steps, each of which is `f true` or `f false`. -/
def walks (dh : Int) (f : Bool → Int × Int) : Nat → Int → Int → List (List (Node × Node))
  | 0, _, _ => [[]]
  | n + 1, l, k =>
    (walks dh f n (l + (f true).1) (k + (f true).2)).map ((nd dh l k, nd dh (l + (f true).1) (k + (f true).2)) :: ·) ++
    (walks dh f n (l + (f false).1) (k + (f false).2)).map ((nd dh l k, nd dh (l + (f false).1) (k + (f false).2)) :: ·)

theorem walks_length (f : Bool → Int × Int) : ∀ (n : Nat) (l k : Int), (walks dh f n l k).length = 2 ^ n
  | 0, _, _ => rfl
  | n + 1, l, k => by
    unfold walks
    rw [List.length_append, List.length_map, List.length_map, walks_length f n, walks_length f n]
    ring

theorem walks_nodup {f : Bool → Int × Int} (hf : f true ≠ f false) : ∀ (n : Nat) (l k : Int), (walks dh f n l k).Nodup
  | 0, _, _ => by unfold walks; simp
  | n + 1, l, k => by
    unfold walks
    rw [List.nodup_append]
    refine ⟨(walks_nodup hf n _ _).map (List.cons_injective), (walks_nodup hf n _ _).map (List.cons_injective), ?_⟩
    rintro x hx y hy rfl
    obtain ⟨x1, _, e1⟩ := List.mem_map.1 hx
    obtain ⟨y1, _, e2⟩ := List.mem_map.1 hy
    rw [← e2] at e1
    simp only [List.cons.injEq, Prod.mk.injEq, true_and] at e1
    have := nd_inj e1.1
    exact hf (Prod.ext (by omega) (by omega))

/-- Paths along which `φ` grows as fast as possible are among the walks. -/
theorem path_walks (H : Long .Z dh dw) {f : Bool → Int × Int} {φ : Int → Int → Int}
    (hφ : ∀ l k l' k', (l' = l + 1 ∨ l' = l - 1) → (k' = k + 1 ∨ k' = k - 1) → φ l' k' ≤ φ l k + 1 ∧
      (φ l' k' = φ l k + 1 → (l' = l + (f true).1 ∧ k' = k + (f true).2) ∨ (l' = l + (f false).1 ∧ k' = k + (f false).2)))
    {a b : Node} {es : List (Node × Node)} (h : Path (GAdj .Z dh dw 1) a b es) :
    ∀ {l k l' k' : Int}, Cell dh dw l k → Cell dh dw l' k' → a = nd dh l k → b = nd dh l' k' →
      φ l' k' ≤ φ l k + es.length ∧ (φ l' k' = φ l k + es.length → es ∈ walks dh f es.length l k) := by
  induction h with
  | nil a =>
    intro l k l' k' _ _ e1 e2
    obtain ⟨rfl, rfl⟩ := nd_inj (e1.symm.trans e2)
    simp [walks]
  | @cons a c b es h1 _ ih =>
    intro l k l' k' c1 c2 e1 e2
    obtain ⟨l1, k1, c3, e3⟩ := gnode_cell H (gadj_nodes h1).2
    subst e1 e3
    have h3 := (cell_adj H c1 c3).1 h1
    obtain ⟨i1, i2⟩ := ih c3 c2 rfl e2
    obtain ⟨j1, j2⟩ := hφ l k l1 k1 h3.1 h3.2
    rw [List.length_cons]
    push_cast
    refine ⟨by omega, fun he => ?_⟩
    unfold walks
    rw [List.mem_append, List.mem_map, List.mem_map]
    have hm := i2 (by omega)
    rcases j2 (by omega) with ⟨rfl, rfl⟩ | ⟨rfl, rfl⟩
    · exact Or.inl ⟨es, hm, rfl⟩
    · exact Or.inr ⟨es, hm, rfl⟩

/-- Walks towards the top. -/
def ups : Bool → Int × Int := fun b => (-1, if b then -1 else 1)
/-- Walks towards the bottom. -/
def downs : Bool → Int × Int := fun b => (1, if b then -1 else 1)
theorem path_ups (H : Long .Z dh dw) {l k l' k' : Int} (c : Cell dh dw l k) (c' : Cell dh dw l' k') {es : List (Node × Node)}
    (h : Path (GAdj .Z dh dw 1) (nd dh l k) (nd dh l' k') es) (hl : l - l' = es.length) : es ∈ walks dh ups es.length l k := by
  refine (path_walks H (f := ups) (φ := fun l _ => -l) ?_ h c c' rfl rfl).2 (by omega)
  intro l k l' k' h1 h2
  simp only [ups, if_true]
  simp only [Bool.false_eq_true, if_false]
  omega

theorem path_downs (H : Long .Z dh dw) {l k l' k' : Int} (c : Cell dh dw l k) (c' : Cell dh dw l' k') {es : List (Node × Node)}
    (h : Path (GAdj .Z dh dw 1) (nd dh l k) (nd dh l' k') es) (hl : l' - l = es.length) : es ∈ walks dh downs es.length l k := by
  refine (path_walks H (f := downs) (φ := fun l _ => l) ?_ h c c' rfl rfl).2 (by omega)
  intro l k l' k' h1 h2
  simp only [downs, if_true]
  simp only [Bool.false_eq_true, if_false]
  omega

/-- With enough room on both sides, all walks towards the top are paths. -/
theorem ups_path (H : Long .Z dh dw) : ∀ (n : Nat) {l k : Int}, Cell dh dw l k → (n : Int) ≤ l → (n : Int) ≤ k → k + n ≤ dw →
    ∀ es ∈ walks dh ups n l k, ∃ k', Cell dh dw (l - n) k' ∧ Path (GAdj .Z dh dw 1) (nd dh l k) (nd dh (l - n) k') es ∧ es.length = n
  | 0, l, k, c, _, _, _, es, he => by
    unfold walks at he
    obtain rfl := List.mem_singleton.1 he
    exact ⟨k, by simpa using c, by simpa using Path.nil _, rfl⟩
  | n + 1, l, k, c, h1, h2, h3, es, he => by
    unfold walks at he
    have c0 := c
    unfold Cell at c
    push_cast at h1 h2 h3 ⊢
    rcases List.mem_append.1 he with he | he
    all_goals
      obtain ⟨es', he', rfl⟩ := List.mem_map.1 he
      simp only [ups, if_true, Bool.false_eq_true, if_false] at he' ⊢
    · have c1 : Cell dh dw (l + -1) (k + -1) := by unfold Cell; omega
      obtain ⟨k', g1, g2, g3⟩ := ups_path H n c1 (by omega) (by omega) (by omega) es' he'
      rw [show l - ((n : Int) + 1) = l + -1 - n by ring]
      exact ⟨k', g1, Path.cons ((cell_adj H c0 c1).2 ⟨by omega, by omega⟩) g2, by simp [g3]⟩
    · have c1 : Cell dh dw (l + -1) (k + 1) := by unfold Cell; omega
      obtain ⟨k', g1, g2, g3⟩ := ups_path H n c1 (by omega) (by omega) (by omega) es' he'
      rw [show l - ((n : Int) + 1) = l + -1 - n by ring]
      exact ⟨k', g1, Path.cons ((cell_adj H c0 c1).2 ⟨by omega, by omega⟩) g2, by simp [g3]⟩

theorem downs_path (H : Long .Z dh dw) : ∀ (n : Nat) {l k : Int}, Cell dh dw l k → l + n ≤ dh → (n : Int) ≤ k → k + n ≤ dw →
    ∀ es ∈ walks dh downs n l k, ∃ k', Cell dh dw (l + n) k' ∧ Path (GAdj .Z dh dw 1) (nd dh l k) (nd dh (l + n) k') es ∧ es.length = n
  | 0, l, k, c, _, _, _, es, he => by
    unfold walks at he
    obtain rfl := List.mem_singleton.1 he
    exact ⟨k, by simpa using c, by simpa using Path.nil _, rfl⟩
  | n + 1, l, k, c, h1, h2, h3, es, he => by
    unfold walks at he
    have c0 := c
    unfold Cell at c
    push_cast at h1 h2 h3 ⊢
    rcases List.mem_append.1 he with he | he
    all_goals
      obtain ⟨es', he', rfl⟩ := List.mem_map.1 he
      simp only [downs, if_true, Bool.false_eq_true, if_false] at he' ⊢
    · have c1 : Cell dh dw (l + 1) (k + -1) := by unfold Cell; omega
      obtain ⟨k', g1, g2, g3⟩ := downs_path H n c1 (by omega) (by omega) (by omega) es' he'
      rw [show l + ((n : Int) + 1) = l + 1 + n by ring]
      exact ⟨k', g1, Path.cons ((cell_adj H c0 c1).2 ⟨by omega, by omega⟩) g2, by simp [g3]⟩
    · have c1 : Cell dh dw (l + 1) (k + 1) := by unfold Cell; omega
      obtain ⟨k', g1, g2, g3⟩ := downs_path H n c1 (by omega) (by omega) (by omega) es' he'
      rw [show l + ((n : Int) + 1) = l + 1 + n by ring]
      exact ⟨k', g1, Path.cons ((cell_adj H c0 c1).2 ⟨by omega, by omega⟩) g2, by simp [g3]⟩

/-! ### Numbers of shortest paths -/

theorem diag_unique (H : Long .Z dh dw) {a b : Node} {es : List (Node × Node)} (h : Path (GAdj .Z dh dw 1) a b es) :
    ∀ {es' : List (Node × Node)} {l k l' k' : Int}, Path (GAdj .Z dh dw 1) a b es' → Cell dh dw l k → Cell dh dw l' k' → a = nd dh l k →
      b = nd dh l' k' → l' - l = es.length → k' - k = es.length → es'.length = es.length → es = es' := by
  induction h with
  | nil a =>
    intro es' l k l' k' _ _ _ _ _ _ _ h
    exact (List.length_eq_zero_iff.1 h).symm
  | @cons a c b es h1 p ih =>
    intro es' l k l' k' p' c1 c2 e1 e2 g1 g2 g3
    cases p' with
    | nil => simp at g3
    | @cons _ c' _ es' h1' p' =>
      obtain ⟨l1, k1, c3, e3⟩ := gnode_cell H (gadj_nodes h1).2
      obtain ⟨l2, k2, c4, e4⟩ := gnode_cell H (gadj_nodes h1').2
      subst e1 e3 e4
      rw [List.length_cons] at g1 g2 g3
      rw [List.length_cons] at g3
      have b1 := path_cells H p c3 c2 rfl e2
      have b2 := path_cells H p' c4 c2 rfl e2
      have a1 := (cell_adj H c1 c3).1 h1
      have a2 := (cell_adj H c1 c4).1 h1'
      push_cast at g1 g2
      obtain rfl : l1 = l2 := by omega
      obtain rfl : k1 = k2 := by omega
      rw [ih p' c3 c2 rfl e2 (by omega) (by omega) (by omega)]

/-- Along a diagonal there is one shortest path. -/
theorem diag_shortest (H : Long .Z dh dw) {l k : Int} (n : Nat) (c : Cell dh dw l k) (c' : Cell dh dw (l + n) (k + n)) :
    pdist (GAdj .Z dh dw 1) (nd dh l k) (nd dh (l + n) (k + n)) = n ∧
    numShortest (GAdj .Z dh dw 1) (nd dh l k) (nd dh (l + n) (k + n)) = 1 := by
  have hd : pdist (GAdj .Z dh dw 1) (nd dh l k) (nd dh (l + n) (k + n)) = n := by
    rw [cell_dist H c c']
    omega
  refine ⟨hd, ?_⟩
  unfold numShortest countPaths
  rw [hd, Set.ncard_eq_one]
  obtain ⟨es, p, hl⟩ := zigzag H n c c' (by omega) (by omega) (by omega)
  refine ⟨es, ?_⟩
  ext es'
  rw [Set.mem_ofPred_eq, Set.mem_singleton_iff]
  constructor
  · rintro ⟨p', l'⟩
    exact (diag_unique H p p' c c' rfl rfl (by omega) (by omega) (by omega)).symm
  · rintro rfl
    exact ⟨p, hl⟩

theorem ncard_le_walks {S : Set (List (Node × Node))} {l : List (List (Node × Node))} (h : ∀ es ∈ S, es ∈ l) : S.ncard ≤ l.length := by
  classical
  have h1 : S ⊆ (l.toFinset : Set (List (Node × Node))) := fun es he => by
    rw [List.coe_toFinset]
    exact h es he
  refine (Set.ncard_le_ncard h1 (Finset.finite_toSet _)).trans ?_
  rw [Set.ncard_coe_finset]
  exact List.toFinset_card_le l

theorem le_ncard_walks {S : Set (List (Node × Node))} (hS : S.Finite) {l : List (List (Node × Node))} (hn : l.Nodup) (h : ∀ es ∈ l, es ∈ S) :
    l.length ≤ S.ncard := by
  classical
  have h1 : (l.toFinset : Set (List (Node × Node))) ⊆ S := fun es he => by
    rw [List.coe_toFinset] at he
    exact h es he
  have := Set.ncard_le_ncard h1 hS
  rwa [Set.ncard_coe_finset, List.toFinset_card_of_nodup hn] at this

/-- The walks of `n` steps to one side (`z = 1` or `-1`) that end at level `m`. -/
def sidewalks (dh z m : Int) : Nat → Int → Int → List (List (Node × Node))
  | 0, l, _ => if l = m then [[]] else []
  | n + 1, l, k =>
    (sidewalks dh z m n (l - 1) (k + z)).map ((nd dh l k, nd dh (l - 1) (k + z)) :: ·) ++
    (sidewalks dh z m n (l + 1) (k + z)).map ((nd dh l k, nd dh (l + 1) (k + z)) :: ·)

theorem sidewalks_two (z m : Int) : ∀ (n : Nat) {l l' : Int} (k k' : Int), l ≠ l' →
    (sidewalks dh z m n l k).length + (sidewalks dh z m n l' k').length ≤ 2 ^ n
  | 0, l, l', k, k', h => by
    unfold sidewalks
    split
    · rw [if_neg (by omega)]; simp
    · split <;> simp
  | n + 1, l, l', k, k', h => by
    unfold sidewalks
    simp only [List.length_append, List.length_map]
    have h1 := sidewalks_two z m n (k + z) (k' + z) (show l - 1 ≠ l' - 1 by omega)
    have h2 := sidewalks_two z m n (k + z) (k' + z) (show l + 1 ≠ l' + 1 by omega)
    rw [pow_succ]
    omega

/-- At most half of all walks to one side end at a given level. -/
theorem sidewalks_le (z m : Int) (n : Nat) (l k : Int) : (sidewalks dh z m (n + 1) l k).length ≤ 2 ^ n := by
  unfold sidewalks
  rw [List.length_append, List.length_map, List.length_map]
  exact sidewalks_two z m n _ _ (by omega)

theorem path_side (H : Long .Z dh dw) {z : Int} (hz : z = 1 ∨ z = -1) {a b : Node} {es : List (Node × Node)}
    (h : Path (GAdj .Z dh dw 1) a b es) : ∀ {l k l' k' : Int}, Cell dh dw l k → Cell dh dw l' k' → a = nd dh l k → b = nd dh l' k' →
      k' - k = z * es.length → es ∈ sidewalks dh z l' es.length l k := by
  induction h with
  | nil a =>
    intro l k l' k' _ _ e1 e2 _
    obtain ⟨rfl, rfl⟩ := nd_inj (e1.symm.trans e2)
    simp [sidewalks]
  | @cons a c b es h1 p ih =>
    intro l k l' k' c1 c2 e1 e2 hk
    obtain ⟨l1, k1, c3, e3⟩ := gnode_cell H (gadj_nodes h1).2
    subst e1 e3
    obtain ⟨a1, a2⟩ := (cell_adj H c1 c3).1 h1
    obtain ⟨-, b1, -⟩ := path_cells H p c3 c2 rfl e2
    rw [List.length_cons] at hk ⊢
    push_cast at hk
    have hk1 : k1 = k + z ∧ k' - k1 = z * es.length := by
      rcases hz with rfl | rfl
      · constructor <;> omega
      · constructor <;> omega
    obtain ⟨rfl, hk2⟩ := hk1
    have hm := ih c3 c2 rfl e2 hk2
    unfold sidewalks
    rw [List.mem_append, List.mem_map, List.mem_map]
    rcases a1 with rfl | rfl
    · exact Or.inr ⟨es, hm, rfl⟩
    · exact Or.inl ⟨es, hm, rfl⟩

/-- At most `2 ^ j` shortest paths lead to the boundary nodes at distance `j`. -/
theorem boundary_le {D : Decoder} {s : SGraph} (R : Ready D .Z s) (hT : D.T = 1) {l k lb kb : Int} (c : Cell D.dh D.dw l k)
    (h0 : 0 < l) (h1 : l < D.dh) (c' : Cell D.dh D.dw lb kb) (hb : lb = 0 ∨ lb = D.dh) {j : Nat}
    (hj : pdist (GAdj .Z D.dh D.dw 1) (nd D.dh l k) (nd D.dh lb kb) = j) :
    boundaryPaths .Z D.dh D.dw 1 (virtualNodes D.dh D.dw .Z) (nd D.dh l k) (nd D.dh lb kb) ≤ 2 ^ j := by
  have H := R.long
  have hd := cell_dist H c c'
  rw [hj] at hd
  have h := (boundaryPaths_all (b := nd D.dh lb kb) R (by rw [hT]; exact cell_gnode H c)).1
  rw [hT] at h
  rw [h]
  obtain ⟨i, rfl⟩ : ∃ i, j = i + 1 := ⟨j - 1, by omega⟩
  have key : ∀ es ∈ {es | BoundaryPath .Z D.dh D.dw 1 (nd D.dh l k) (nd D.dh lb kb) es}, es.length = i + 1 ∧ ∃ kv, Cell D.dh D.dw lb kv ∧
      Path (GAdj .Z D.dh D.dw 1) (nd D.dh l k) (nd D.dh lb kv) es ∧ i + 1 = max (lb - l).natAbs (kv - k).natAbs := by
    rintro es ⟨v, g1, g2, g3, g4, g5⟩
    obtain ⟨lv, kv, cv, rfl⟩ := gnode_cell H g1
    have hdv := cell_dist H c cv
    have hlv : lv = 0 ∨ lv = D.dh := by
      unfold nd at g2
      simp only at g2
      split at g2
      · assumption
      · omega
    rw [g5, hj] at g4 hdv
    have e : lv = lb := by
      obtain ⟨-, -, q1⟩ := path_cells H g3 c cv rfl rfl
      obtain ⟨es', p', l'⟩ := (pdist_spec (gnode_connected (T := 1) H (by decide) (cell_gnode H c) (cell_gnode H c'))).1
      obtain ⟨-, -, q2⟩ := path_cells H p' c c' rfl rfl
      have HO := H.1
      unfold OddPos at HO
      rw [l', hj] at q2
      rw [g4] at q1
      clear hd hdv
      push_cast at q1 q2
      omega
    subst e
    exact ⟨g4, kv, cv, g3, hdv⟩
  by_cases he : i + 1 = (lb - l).natAbs
  · rcases le_total lb l with hle | hle
    · rw [← walks_length (dh := D.dh) ups (i + 1) l k]
      refine ncard_le_walks fun es hes => ?_
      obtain ⟨e, kv, cv, p, _⟩ := key es hes
      rw [← e]
      exact path_ups H c cv p (by rw [e]; omega)
    · rw [← walks_length (dh := D.dh) downs (i + 1) l k]
      refine ncard_le_walks fun es hes => ?_
      obtain ⟨e, kv, cv, p, _⟩ := key es hes
      rw [← e]
      exact path_downs H c cv p (by rw [e]; omega)
  · have hlen : (sidewalks D.dh 1 lb (i + 1) l k ++ sidewalks D.dh (-1) lb (i + 1) l k).length ≤ 2 ^ (i + 1) := by
      rw [List.length_append, pow_succ]
      have g1 := sidewalks_le (dh := D.dh) 1 lb i l k
      have g2 := sidewalks_le (dh := D.dh) (-1) lb i l k
      omega
    refine le_trans (ncard_le_walks fun es hes => ?_) hlen
    obtain ⟨e, kv, cv, p, hm⟩ := key es hes
    rw [List.mem_append, ← e]
    rcases le_total k kv with hle | hle
    · exact Or.inl (path_side H (Or.inl rfl) p c cv rfl rfl (by rw [e]; omega))
    · exact Or.inr (path_side H (Or.inr rfl) p c cv rfl rfl (by rw [e]; omega))

/-- With enough room there are `2 ^ j` shortest paths to the top, which is `j` levels away. -/
theorem top_ge {D : Decoder} {s : SGraph} (R : Ready D .Z s) (hT : D.T = 1) {j : Nat} {k : Int} (c : Cell D.dh D.dw j k)
    (h1 : (j : Int) ≤ k) (h2 : k + j ≤ D.dw) : Cell D.dh D.dw 0 (k - j) ∧
    pdist (GAdj .Z D.dh D.dw 1) (nd D.dh j k) (nd D.dh 0 (k - j)) = j ∧
    2 ^ j ≤ boundaryPaths .Z D.dh D.dw 1 (virtualNodes D.dh D.dw .Z) (nd D.dh j k) (nd D.dh 0 (k - j)) := by
  have H := R.long
  have hc := c
  unfold Cell at hc
  have c' : Cell D.dh D.dw 0 (k - j) := by unfold Cell; omega
  have hd := cell_dist H c c'
  have hd' : pdist (GAdj .Z D.dh D.dw 1) (nd D.dh j k) (nd D.dh 0 (k - j)) = j := by omega
  refine ⟨c', hd', ?_⟩
  have h := boundaryPaths_all (b := nd D.dh 0 (k - j)) R (by rw [hT]; exact cell_gnode H c)
  rw [hT] at h
  rw [h.1, ← walks_length (dh := D.dh) ups j j k]
  refine le_ncard_walks h.2 (walks_nodup (by decide) _ _ _) fun es hes => ?_
  obtain ⟨k', g1, g2, g3⟩ := ups_path H j c (le_refl _) h1 h2 es hes
  rw [sub_self] at g1 g2
  have hd1 := cell_dist H c g1
  have hpl := path_cells H g2 c g1 rfl rfl
  refine ⟨_, cell_gnode H g1, ?_, g2, ?_, ?_⟩
  · unfold nd; rw [if_pos (Or.inl rfl)]
  · omega
  · omega

theorem bottom_ge {D : Decoder} {s : SGraph} (R : Ready D .Z s) (hT : D.T = 1) {j : Nat} {l k : Int} (c : Cell D.dh D.dw l k)
    (hl : l + j = D.dh) (h1 : (j : Int) ≤ k) (h2 : k + j ≤ D.dw) : Cell D.dh D.dw D.dh (k - j) ∧
    pdist (GAdj .Z D.dh D.dw 1) (nd D.dh l k) (nd D.dh D.dh (k - j)) = j ∧
    2 ^ j ≤ boundaryPaths .Z D.dh D.dw 1 (virtualNodes D.dh D.dw .Z) (nd D.dh l k) (nd D.dh D.dh (k - j)) := by
  have H := R.long
  have hc := c
  unfold Cell at hc
  have c' : Cell D.dh D.dw D.dh (k - j) := by unfold Cell; omega
  have hd := cell_dist H c c'
  have hd' : pdist (GAdj .Z D.dh D.dw 1) (nd D.dh l k) (nd D.dh D.dh (k - j)) = j := by omega
  refine ⟨c', hd', ?_⟩
  have h := boundaryPaths_all (b := nd D.dh D.dh (k - j)) R (by rw [hT]; exact cell_gnode H c)
  rw [hT] at h
  rw [h.1, ← walks_length (dh := D.dh) downs j l k]
  refine le_ncard_walks h.2 (walks_nodup (by decide) _ _ _) fun es hes => ?_
  obtain ⟨k', g1, g2, g3⟩ := downs_path H j c (by omega) h1 h2 es hes
  rw [hl] at g1 g2
  have hd1 := cell_dist H c g1
  have hpl := path_cells H g2 c g1 rfl rfl
  refine ⟨_, cell_gnode H g1, ?_, g2, ?_, ?_⟩
  · unfold nd; rw [if_pos (Or.inr rfl)]
  · omega
  · omega

end Qtc
