import Verif.Proof.Chains
import Verif.Proof.Diagonal
import Verif.Proof.Exchange
/-!
With one time step: how many shortest paths there are, how far weights with an error probability are from distances, and how many walks there
are.
-/
namespace Qtc
open Spec

variable {key : Key} {dh dw : Int}

/-- The node at a position, with one time step. -/
def nodeAt (key : Key) (dh dw r c : Int) : Node :=
  ⟨if 0 < lev key ⟨0, r, c⟩ ∧ lev key ⟨0, r, c⟩ < distance key dh dw then 0 else -1, r, c⟩

theorem nodeAt_eq (H : Long key dh dw) {n : Node} (h : GNode key dh dw 1 n) : n = nodeAt key dh dw n.r2 n.c2 := by
  have hl := gnode_level H h
  obtain ⟨t, r, c⟩ := n
  have e : lev key ⟨t, r, c⟩ = lev key ⟨0, r, c⟩ := by cases key <;> rfl
  rw [e] at hl
  simp only [nodeAt, Node.mk.injEq, and_true]
  have ht : t = -1 ∨ (0 ≤ t ∧ t < 1) := by
    rcases h with h | h
    · exact Or.inr ⟨h.1, h.2.1⟩
    · exact Or.inl h.1
  simp only at hl
  split
  · omega
  · omega

theorem step_one {a b : Node} (h : GAdj key dh dw 1 a b) :
    (b.r2 = a.r2 - 2 ∨ b.r2 = a.r2 + 2) ∧ (b.c2 = a.c2 - 2 ∨ b.c2 = a.c2 + 2) := by
  rcases h with ⟨t, r, c, h⟩ | ⟨t, h1, h2, _⟩
  · have := dataEdge_diag h
    omega
  · omega

/-- The paths of `n` steps. -/
def hops (key : Key) (dh dw : Int) : Nat → Node → List (List (Node × Node))
  | 0, _ => [[]]
  | n + 1, a => [nodeAt key dh dw (a.r2 - 2) (a.c2 - 2), nodeAt key dh dw (a.r2 - 2) (a.c2 + 2), nodeAt key dh dw (a.r2 + 2) (a.c2 - 2),
      nodeAt key dh dw (a.r2 + 2) (a.c2 + 2)].flatMap fun b => (hops key dh dw n b).map ((a, b) :: ·)

theorem hops_length : ∀ (n : Nat) (a : Node), (hops key dh dw n a).length = 4 ^ n
  | 0, _ => rfl
  | n + 1, a => by
    simp only [hops, List.flatMap_cons, List.flatMap_nil, List.length_append, List.length_map, List.length_nil, hops_length n]
    rw [pow_succ]
    omega

theorem path_hops (H : Long key dh dw) {a b : Node} {es : List (Node × Node)} (h : Path (GAdj key dh dw 1) a b es) :
    es ∈ hops key dh dw es.length a := by
  induction h with
  | nil a => simp [hops]
  | @cons a b c es h1 _ ih =>
    show _ ∈ hops key dh dw (es.length + 1) a
    unfold hops
    refine List.mem_flatMap.2 ⟨b, ?_, List.mem_map.2 ⟨es, ih, rfl⟩⟩
    rw [nodeAt_eq H (gadj_nodes h1).2]
    obtain ⟨h2 | h2, h3 | h3⟩ := step_one h1 <;> rw [h2, h3] <;> simp

theorem numShortest_le (H : Long key dh dw) (a b : Node) : numShortest (GAdj key dh dw 1) a b ≤ 4 ^ pdist (GAdj key dh dw 1) a b := by
  unfold numShortest countPaths
  rw [← hops_length (key := key) (dh := dh) (dw := dw) _ a]
  refine ncard_le_walks fun es hes => ?_
  rw [← hes.2]
  exact path_hops H hes.1

variable {D : Decoder} {s : SGraph}

theorem boundaryPaths_le (R : Ready D key s) (hT : D.T = 1) {a : Node} (ha : GNode key D.dh D.dw 1 a) (b : Node) :
    boundaryPaths key D.dh D.dw 1 (virtualNodes D.dh D.dw key) a b ≤ 4 ^ pdist (GAdj key D.dh D.dw 1) a b := by
  have h := (boundaryPaths_all (b := b) R (by rw [hT]; exact ha)).1
  rw [hT] at h
  rw [h, ← hops_length (key := key) (dh := D.dh) (dw := D.dw) _ a]
  refine ncard_le_walks ?_
  rintro es ⟨v, -, -, h1, h2, h3⟩
  rw [← h3, ← h2]
  exact path_hops R.long h1

theorem degValue_le (R : Ready D key s) (hT : D.T = 1) (first : Node) {a b : Node} (ha : GNode key D.dh D.dw 1 a) (hb : GNode key D.dh D.dw 1 b) :
    degValue key D.dh D.dw 1 first a b ≤ 4 ^ pdist (GAdj key D.dh D.dw 1) a b := by
  unfold degValue
  split
  · split
    · exact numShortest_le R.long a b
    · rw [pdist_symm (fun _ _ h => GAdj.symm h) a b]
      exact boundaryPaths_le R hT hb a
  · split
    · split
      · exact numShortest_le R.long a b
      · exact boundaryPaths_le R hT ha b
    · exact numShortest_le R.long a b

/-- What a factor of four in the number of paths is worth. -/
theorem worth_four {p : ℝ} (h0 : 0 < p) (h1 : p ≤ 1 / 150) : Real.log 4 / (Real.log (1 - p) - Real.log p) ≤ 7 / 25 := by
  rw [div_le_iff₀ (log_pos_of_small h0 (by linarith))]
  have h2 := Real.log_le_log (by positivity : 0 < p * 149) (by linarith : p * 149 ≤ 1 - p)
  rw [Real.log_mul h0.ne' (by norm_num)] at h2
  have h3 : Real.log ((4 : ℝ) ^ 25) ≤ Real.log ((149 : ℝ) ^ 7) := Real.log_le_log (by norm_num) (by norm_num)
  rw [Real.log_pow, Real.log_pow] at h3
  push_cast at h3
  linarith

theorem pdist_pos {T : Int} (H : Long key dh dw) (hT : 0 < T) {a b : Node} (ha : GNode key dh dw T a) (hb : GNode key dh dw T b) (hab : a ≠ b) :
    0 < pdist (GAdj key dh dw T) a b := by
  rcases Nat.eq_zero_or_pos (pdist (GAdj key dh dw T) a b) with h | h
  · obtain ⟨⟨es, p, l⟩, _⟩ := pdist_spec (gnode_connected H hT ha hb)
    rw [h, List.length_eq_zero_iff] at l
    subst l
    cases p
    exact absurd rfl hab
  · exact h

/-- The cost of a pair is at most its distance, and not much less. -/
theorem cost_bounds (R : Ready D key s) (hT : D.T = 1) {p : ℝ} (h0 : 0 < p) (h1 : p ≤ 1 / 150) {a b : Node} (ha : GNode key D.dh D.dw 1 a)
    (hb : GNode key D.dh D.dw 1 b) (hab : a ≠ b) :
    (¬ (a.t = -1 ∧ b.t = -1) → 7143 * (pdist (GAdj key D.dh D.dw 1) a b : Int) ≤ -probWeightInt key D.dh D.dw 1 p a b) ∧
      -probWeightInt key D.dh D.dw 1 p a b ≤ 10000 * (pdist (GAdj key D.dh D.dw 1) a b : Int) := by
  by_cases hv : a.t = -1 ∧ b.t = -1
  · rw [probWeightInt_virt _ _ hv.1 hv.2]
    exact ⟨fun h => absurd hv h, by simp⟩
  · have h := probWeightInt_bounds R h0 (by linarith : p < 1 / 2) (by rw [hT]; exact ha) (by rw [hT]; exact hb)
      (K := 4 ^ pdist (GAdj key D.dh D.dw 1) a b) (by rw [hT]; exact degValue_le R hT _ ha hb) hv
    rw [hT] at h
    obtain ⟨g1, g2⟩ := h
    unfold unitWeight at g1 g2
    rw [if_neg hv] at g1 g2
    refine ⟨fun _ => ?_, by omega⟩
    have hpos := pdist_pos R.long (by decide) ha hb hab
    generalize pdist (GAdj key D.dh D.dw 1) a b = n at *
    generalize probWeightInt key D.dh D.dw 1 p a b = u at *
    push_cast at g2
    rw [Real.log_pow, mul_div_assoc] at g2
    have hw := worth_four h0 h1
    have hn : (1 : ℝ) ≤ n := by exact_mod_cast hpos
    have : (7143 : ℝ) * n ≤ -u := by nlinarith
    exact_mod_cast this

/-! ### Walks -/

/-- The labelled walks of `k` faults from a position. -/
def lwalks : Nat → Int → Int → List (List (Bool × Fault))
  | 0, _, _ => [[]]
  | k + 1, r, c => [false, true].flatMap fun b => [(r - 1) / 2, (r + 1) / 2].flatMap fun i => [(c - 1) / 2, (c + 1) / 2].flatMap fun j =>
      (lwalks k (4 * i - r) (4 * j - c)).map ((b, .data 0 i j) :: ·)

theorem lwalks_length : ∀ (k : Nat) (r c : Int), (lwalks k r c).length = 8 ^ k
  | 0, _, _ => rfl
  | k + 1, r, c => by
    simp only [lwalks, List.flatMap_cons, List.flatMap_nil, List.length_append, List.length_map, List.length_nil, lwalks_length k]
    rw [pow_succ]
    omega

theorem fj_one {f : Fault} {a b : Node} (h : FJ key dh dw 1 f a b) : ∃ i j, f = .data 0 i j ∧ (i = (a.r2 - 1) / 2 ∨ i = (a.r2 + 1) / 2) ∧
    (j = (a.c2 - 1) / 2 ∨ j = (a.c2 + 1) / 2) ∧ b.r2 = 4 * i - a.r2 ∧ b.c2 = 4 * j - a.c2 := by
  cases f with
  | data t r c =>
    have hd := dataEdge_diag h
    have h1 := h.1
    have h2 := h.2.1
    refine ⟨r, c, ?_, ?_, ?_, ?_, ?_⟩
    · rw [show t = 0 by omega]
    all_goals omega
  | meas t r c =>
    obtain ⟨⟨h1, h2, _⟩, _⟩ := h
    omega

theorem fpath_lwalks {a c : Node} {W : List (Bool × Fault)} (h : FPath (fun w x y => FJ key dh dw 1 w.2 x y) a W c) :
    W ∈ lwalks W.length a.r2 a.c2 := by
  induction h with
  | nil a => simp [lwalks]
  | @cons w a b c l h1 _ ih =>
    show _ ∈ lwalks (l.length + 1) a.r2 a.c2
    obtain ⟨i, j, e, hi, hj, e1, e2⟩ := fj_one h1
    obtain ⟨x, f⟩ := w
    rw [e1, e2] at ih
    simp only at e
    subst e
    unfold lwalks
    refine List.mem_flatMap.2 ⟨x, by cases x <;> simp, List.mem_flatMap.2 ⟨i, by simpa using hi, List.mem_flatMap.2 ⟨j, by simpa using hj, ?_⟩⟩⟩
    exact List.mem_map.2 ⟨l, ih, rfl⟩

/-- The labelled walks of `k + 1` faults from the upper boundary. -/
def walkList1 (key : Key) (dh dw : Int) (k : Nat) : List (List (Bool × Fault)) :=
  (starts key dh dw 1).flatMap fun p => [false, true].flatMap fun b => (lwalks k p.2.r2 p.2.c2).map ((b, p.1) :: ·)

theorem walkList1_length (k : Nat) : (walkList1 key dh dw k).length = 2 * breadth key dh dw * 8 ^ k := by
  have hs : (starts key dh dw 1).length = breadth key dh dw := by
    rw [starts_length]
    simp
  unfold walkList1
  rw [List.length_flatMap]
  have : (starts key dh dw 1).map (fun p => ([false, true].flatMap fun b => (lwalks k p.2.r2 p.2.c2).map ((b, p.1) :: ·)).length) =
      List.replicate (breadth key dh dw) (2 * 8 ^ k) := by
    rw [List.eq_replicate_iff]
    refine ⟨by rw [List.length_map, hs], ?_⟩
    intro x hx
    obtain ⟨p, -, rfl⟩ := List.mem_map.1 hx
    simp only [List.flatMap_cons, List.flatMap_nil, List.length_append, List.length_map, List.length_nil, lwalks_length]
    omega
  rw [this, List.sum_replicate, smul_eq_mul]
  ring

theorem fpath_level {T : Int} {a c : Node} {W : List (Bool × Fault)} (h : FPath (fun w x y => FJ key dh dw T w.2 x y) a W c) :
    lev key c ≤ lev key a + W.length := by
  induction h with
  | nil a => simp
  | cons h1 _ ih => have := (gadj_level h1.adj).2; simp only [List.length_cons]; push_cast; omega

theorem fpath_fits {T : Int} {a c : Node} {W : List (Bool × Fault)} (h : FPath (fun w x y => FJ key dh dw T w.2 x y) a W c) :
    ∀ w ∈ W, w.2.Fits key dh dw T := by
  induction h with
  | nil a => simp
  | cons h1 _ ih =>
    intro w hw
    rcases List.mem_cons.1 hw with rfl | hw
    · exact h1.fits
    · exact ih w hw

theorem fpath_listed (H : Long key dh dw) {a c : Node} {W : List (Bool × Fault)} (h : FPath (fun w x y => FJ key dh dw 1 w.2 x y) a W c)
    (ha : lev key a ≤ 0) (hc : lev key c = distance key dh dw) :
    ∃ k, W.length = k + 1 ∧ distance key dh dw ≤ k + 1 ∧ W ∈ walkList1 key dh dw k := by
  have hlen := fpath_level h
  have hd : 3 ≤ distance key dh dw := by
    obtain ⟨_, h⟩ := H
    cases key <;> exact h
  cases h with
  | nil => simp only [List.length_nil] at hlen; omega
  | @cons w _ b _ l h1 h2 =>
    have hb : RealNode key dh dw 1 b := by
      obtain ⟨ga, gb⟩ := gadj_nodes h1.adj
      have hla : lev key a = 0 := by
        rcases gnode_level H ga with h | h <;> omega
      have hne : lev key b ≠ lev key a := by
        have o := step_one h1.adj
        cases key
        · simp only [lev] at *; omega
        · simp only [lev] at *; omega
      rcases gnode_level H gb with ⟨_, h⟩ | h
      · have := (gadj_level h1.adj).2
        omega
      · rcases gb with gb | gb
        · exact gb
        · omega
    refine ⟨l.length, rfl, by simp only [List.length_cons] at hlen; push_cast at hlen; omega, ?_⟩
    refine List.mem_flatMap.2 ⟨(w.2, b), mem_starts H h1 ha hb, List.mem_flatMap.2 ⟨w.1, by cases w.1 <;> simp, ?_⟩⟩
    exact List.mem_map.2 ⟨l, fpath_lwalks h2, rfl⟩

end Qtc
