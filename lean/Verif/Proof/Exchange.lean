import Verif.Proof.Alternate
import Verif.Proof.Peierls
/-!
If a matching with other weights than distances leads to the wrong value, errors and matching form a walk across the lattice of which a
certain share are errors.
-/
namespace Qtc
open Spec

variable {key : Key} {dh dw T : Int}

theorem count_fends (H : OddPos dh dw) {v : Node} (hv : RealNode key dh dw T v) : ∀ {L : List Fault}, (∀ f ∈ L, f.Fits key dh dw T) →
    (ends (L.map (fends key dh dw T))).count v = L.countP (Fault.changes v)
  | [], _ => rfl
  | f :: L, hS => by
    have := (fends_spec H (hS f List.mem_cons_self)).changes H hv
    rw [List.map_cons, ends_cons, List.count_cons, List.count_cons, count_fends H hv fun g hg => hS g (List.mem_cons_of_mem _ hg), List.countP_cons, this]
    simp only [beq_iff_eq]
    omega

theorem path_faults {a b : Node} {es : List (Node × Node)} (h : Path (GAdj key dh dw T) a b es) :
    ∃ l, FPath (FJ key dh dw T) a l b ∧ l.length = es.length := by
  induction h with
  | nil a => exact ⟨[], .nil a, rfl⟩
  | @cons a b c es h1 _ ih =>
    obtain ⟨l, l1, l2⟩ := ih
    have : ∃ f, FJ key dh dw T f a b := by
      rcases h1 with ⟨t, r, c, h⟩ | ⟨t, h⟩
      · exact ⟨.data t r c, h⟩
      · exact ⟨.meas t a.r2 a.c2, h, rfl, rfl⟩
    obtain ⟨f, hf⟩ := this
    exact ⟨f :: l, .cons hf l1, by simp [l2]⟩

theorem faults_path {a b : Node} {l : List Fault} (h : FPath (FJ key dh dw T) a l b) : ∃ es, Path (GAdj key dh dw T) a b es ∧ es.length = l.length := by
  induction h with
  | nil a => exact ⟨[], .nil a, rfl⟩
  | @cons f a b c l h1 _ ih =>
    obtain ⟨es, l1, l2⟩ := ih
    exact ⟨_ :: es, .cons h1.adj l1, by simp [l2]⟩

theorem fpath_dist {a b : Node} {l : List Fault} (h : FPath (FJ key dh dw T) a l b) : pdist (GAdj key dh dw T) a b ≤ l.length := by
  obtain ⟨es, h1, h2⟩ := faults_path h
  rw [← h2]
  exact (pdist_spec ⟨es, h1⟩).2 es h1

/-- Shortest paths for all pairs. -/
theorem pairs_faults (H : Long key dh dw) (hT : 0 < T) : ∀ (M : List (Node × Node)), (∀ n ∈ ends M, GNode key dh dw T n) →
    ∃ Q : List (Node × List Fault × Node), Q.map pathEnds = M ∧ AllPaths (FJ key dh dw T) Q ∧
      ∀ t ∈ Q, t.2.1.length = pdist (GAdj key dh dw T) t.1 t.2.2
  | [], _ => ⟨[], rfl, fun _ h => absurd h List.not_mem_nil, fun _ h => absurd h List.not_mem_nil⟩
  | (a, b) :: M, h => by
    obtain ⟨Q, h1, h2, h3⟩ := pairs_faults H hT M (fun n hn => h n (by rw [ends_cons]; simp [hn]))
    obtain ⟨⟨es, g1, g2⟩, _⟩ := pdist_spec (gnode_connected H hT (h a (by simp)) (h b (by simp)))
    obtain ⟨l, l1, l2⟩ := path_faults g1
    refine ⟨(a, l, b) :: Q, by rw [List.map_cons, h1]; rfl, ?_, ?_⟩
    · intro t ht
      rcases List.mem_cons.1 ht with rfl | ht
      · exact l1
      · exact h2 t ht
    · intro t ht
      rcases List.mem_cons.1 ht with rfl | ht
      · exact l2.trans g2
      · exact h3 t ht

theorem nweight_perm {U : Node → Node → Int} {M N : List (Node × Node)} (h : M.Perm N) : nweight U M = nweight U N := (h.map _).sum_eq

/-- Errors `E` and a matching `M` of their hits that together cross the lattice. `U` are the weights `M` is optimal for. -/
theorem alternating (H : Long key dh dw) (hT : 0 < T) {L : List Node} {E : Finset Fault} (hE : ∀ f ∈ E, f.Fits key dh dw T)
    (hits : ∀ n, n ∈ L ↔ IsHit key dh dw T E.toList n) {M : List (Node × Node)} (m1 : (ends M).Nodup)
    (m2 : ∀ n : Node, n.t ≠ -1 → (n ∈ ends M ↔ n ∈ L)) (m3 : ∀ n ∈ ends M, GNode key dh dw T n)
    {U : Node → Node → Int} (hopt : ∀ M0 : List (Node × Node), (ends M0).Nodup → (∀ n : Node, n.t ≠ -1 → (n ∈ ends M0 ↔ n ∈ L)) →
      (∀ n ∈ ends M0, n.t = -1 → n ∈ virtualNodes dh dw key) → nweight U M0 ≤ nweight U M) {lo hi : Int}
    (hlo : ∀ p ∈ M, lo * (pdist (GAdj key dh dw T) p.1 p.2 : Int) ≤ -U p.1 p.2) (hhi0 : 0 ≤ hi)
    (hhi : ∀ a b, GNode key dh dw T a → GNode key dh dw T b → a ≠ b → -U a b ≤ hi * (pdist (GAdj key dh dw T) a b : Int))
    (hdiff : readoutFlipped key E.toList ≠ crossPar key M) :
    ∃ (a c : Node) (W : List (Bool × Fault)), lev key a ≤ 0 ∧ lev key c = distance key dh dw ∧ GNode key dh dw T a ∧
      FPath (fun w x y => FJ key dh dw T w.2 x y) a W c ∧ ((W.filter fun w => w.1 == false).map Prod.snd).Nodup ∧
      (∀ f ∈ (W.filter fun w => w.1 == false).map Prod.snd, f ∈ E) ∧
      lo * ((W.filter fun w => w.1 == true).length : Int) ≤ hi * ((W.filter fun w => w.1 == false).length : Int) := by
  have hE' : ∀ f ∈ E.toList, f.Fits key dh dw T := fun f hf => hE f (Finset.mem_toList.1 hf)
  obtain ⟨P, p1, p2, p3⟩ := split_paths (fends key dh dw T) E.toList
  obtain ⟨Q, q1, q2, q3⟩ := pairs_faults H hT M m3
  have hPf : ∀ t ∈ P, ∀ f ∈ t.2.1, f ∈ E.toList := fun t ht f hf => p3.subset (List.mem_flatMap.2 ⟨t, ht, hf⟩)
  have p1' : AllPaths (FJ key dh dw T) P := by
    intro t ht
    refine (p1 t ht).mono fun f hf x y h => ?_
    have := fends_spec H.1 (hE' f (hPf t ht f hf))
    rcases h with h | h <;> rw [h] at this
    · exact this
    · exact this.symm
  have hP1 : (ends (P.map pathEnds)).Nodup := List.nodup_iff_count_le_one.2 fun n => (p2 n).1
  have hpar : ∀ n, n ∈ ends (P.map pathEnds) ↔ (ends (E.toList.map (fends key dh dw T))).count n % 2 = 1 := by
    intro n
    obtain ⟨c1, c2⟩ := p2 n
    rw [← List.count_pos_iff]
    omega
  have hPg : ∀ n ∈ ends (P.map pathEnds), GNode key dh dw T n := by
    intro n hn
    have : n ∈ ends (E.toList.map (fends key dh dw T)) := by
      rw [← List.count_pos_iff]
      have := (hpar n).1 hn
      omega
    obtain ⟨p, hp, hn⟩ := mem_ends.1 this
    obtain ⟨f, hf, rfl⟩ := List.mem_map.1 hp
    have hg := gadj_nodes (fends_spec H.1 (hE' f hf)).adj
    rcases hn with rfl | rfl
    · exact hg.1
    · exact hg.2
  have hPL : ∀ n : Node, n.t ≠ -1 → (n ∈ ends (P.map pathEnds) ↔ n ∈ L) := by
    intro n hn
    rw [hits]
    constructor
    · intro h
      have hr : RealNode key dh dw T n := by
        rcases hPg n h with h' | h'
        · exact h'
        · exact absurd h'.1 hn
      have := (hpar n).1 h
      rw [count_fends H.1 hr hE'] at this
      exact ⟨hr.1, hr.2.1, hr.2.2, this⟩
    · rintro ⟨h1, h2, h3, h4⟩
      rw [hpar, count_fends H.1 ⟨h1, h2, h3⟩ hE']
      exact h4
  have hodd : xorAll ((P ++ Q).map fun t => (decide (lev key t.1 ≤ 0) ^^ decide (lev key t.2.2 ≤ 0))) = true := by
    have e1 : xorAll (Q.map fun t => (decide (lev key t.1 ≤ 0) ^^ decide (lev key t.2.2 ≤ 0))) = crossPar key M := by
      unfold crossPar
      rw [← q1, List.map_map]
      rfl
    have e2 : xorAll (P.map fun t => (decide (lev key t.1 ≤ 0) ^^ decide (lev key t.2.2 ≤ 0))) = readoutFlipped key E.toList := by
      have hh := handshake (fun n => decide (lev key n ≤ 0)) (P.map pathEnds ++ E.toList.map (fends key dh dw T)) (fun n _ => by
        rw [ends_append, List.count_append]
        have := (p2 n).2
        omega)
      rw [List.map_append, xorAll_append, List.map_map, List.map_map] at hh
      have e : E.toList.map ((fun e : Node × Node => (decide (lev key e.1 ≤ 0) ^^ decide (lev key e.2 ≤ 0))) ∘ fends key dh dw T) =
          E.toList.map (Fault.flipsReadout key) := List.map_congr_left fun f hf => (fends_spec H.1 (hE' f hf)).readout
      rw [e] at hh
      have hh' : (xorAll (P.map fun t => (decide (lev key t.1 ≤ 0) ^^ decide (lev key t.2.2 ≤ 0))) ^^ readoutFlipped key E.toList) = false := hh
      revert hh'
      generalize xorAll (P.map _) = x
      generalize readoutFlipped key E.toList = y
      revert x y
      decide
    rw [List.map_append, xorAll_append, e1, e2]
    revert hdiff
    generalize crossPar key M = x
    generalize readoutFlipped key E.toList = y
    revert x y
    decide
  obtain ⟨a, c, KP, KQ, Q', W, h1, h2, h3, h4, h5, h6, h7, h8, h9, h10, h11, h12, h13⟩ :=
    exchange (fun f x y h => h.symm) p1' q2 hP1 (q1 ▸ m1) (fun n => lev key n ≤ 0) hodd
  have hQg : ∀ n ∈ ends (Q.map pathEnds), GNode key dh dw T n := fun n hn => m3 n (q1 ▸ hn)
  have hPQg : ∀ n, (n ∈ ends (P.map pathEnds) ∨ n ∈ ends (Q.map pathEnds)) → GNode key dh dw T n := fun n hn => hn.elim (hPg n) (hQg n)
  have hQL : ∀ n : Node, n.t ≠ -1 → (n ∈ ends (Q.map pathEnds) ↔ n ∈ L) := fun n hn => by rw [q1]; exact m2 n hn
  have hsubP : ∀ n ∈ ends (KP.map pathEnds), n ∈ ends (P.map pathEnds) := fun n hn => (ends_sublist (h7.map _)).subset hn
  have hsubQ : ∀ n ∈ ends (Q'.map pathEnds), n ∈ ends (Q.map pathEnds) := fun n hn => by
    rw [← (ends_perm (h8.map pathEnds)).mem_iff, List.map_append, ends_append]
    exact List.mem_append_right _ hn
  have hM0 : ∀ n ∈ ends ((Q' ++ KP).map pathEnds), n ∈ ends (P.map pathEnds) ∨ n ∈ ends (Q.map pathEnds) := by
    intro n hn
    rw [List.map_append, ends_append, List.mem_append] at hn
    rcases hn with h | h
    · exact Or.inr (hsubQ n h)
    · exact Or.inl (hsubP n h)
  have hw := hopt ((Q' ++ KP).map pathEnds) h9 (fun n hn => by
      constructor
      · intro h
        rcases hM0 n h with h | h
        · exact (hPL n hn).1 h
        · exact (hQL n hn).1 h
      · intro h
        exact h10 n ((hPL n hn).2 h) ((hQL n hn).2 h))
    (fun n hn ht => (gnode_virt H.1 (hPQg n (hM0 n hn))).2 ht)
  have hwM : nweight U M = nweight U (KQ.map pathEnds) + nweight U (Q'.map pathEnds) := by
    rw [← q1, ← nweight_append, ← List.map_append]
    exact nweight_perm (h8.symm.map pathEnds)
  rw [List.map_append, nweight_append, hwM] at hw
  have hsumQ : ∀ K : List (Node × List Fault × Node), (∀ t ∈ K, t ∈ Q) →
      lo * ((K.flatMap fun t => t.2.1).length : Int) ≤ -nweight U (K.map pathEnds) := by
    intro K
    induction K with
    | nil => intro _; simp [nweight]
    | cons t K ih =>
      intro hK
      have g1 := ih fun s hs => hK s (List.mem_cons_of_mem _ hs)
      have g2 := hlo (pathEnds t) (by rw [← q1]; exact List.mem_map.2 ⟨t, hK t List.mem_cons_self, rfl⟩)
      have g3 := q3 t (hK t List.mem_cons_self)
      have g4 : nweight U ((t :: K).map pathEnds) = U t.1 t.2.2 + nweight U (K.map pathEnds) := by
        unfold nweight; simp [pathEnds]
      have g5 : lo * (pdist (GAdj key dh dw T) t.1 t.2.2 : Int) ≤ -U t.1 t.2.2 := g2
      rw [g4, List.flatMap_cons, List.length_append, g3]
      push_cast
      rw [Int.mul_add]
      omega
  have hsumP : ∀ K : List (Node × List Fault × Node), (∀ t ∈ K, t ∈ P) →
      -nweight U (K.map pathEnds) ≤ hi * ((K.flatMap fun t => t.2.1).length : Int) := by
    intro K
    induction K with
    | nil => intro _; simp [nweight]
    | cons t K ih =>
      intro hK
      have ht := hK t List.mem_cons_self
      have g1 := ih fun s hs => hK s (List.mem_cons_of_mem _ hs)
      have gm : pathEnds t ∈ P.map pathEnds := List.mem_map.2 ⟨t, ht, rfl⟩
      have g2 := hhi t.1 t.2.2 (hPg _ (mem_ends.2 ⟨_, gm, Or.inl rfl⟩)) (hPg _ (mem_ends.2 ⟨_, gm, Or.inr rfl⟩)) (ends_ne hP1 _ gm)
      have g3 := fpath_dist (p1' t ht)
      have g4 : nweight U ((t :: K).map pathEnds) = U t.1 t.2.2 + nweight U (K.map pathEnds) := by
        unfold nweight; simp [pathEnds]
      have g5 : hi * (pdist (GAdj key dh dw T) t.1 t.2.2 : Int) ≤ hi * (t.2.1.length : Int) := Int.mul_le_mul_of_nonneg_left (by exact_mod_cast g3) hhi0
      rw [g4, List.flatMap_cons, List.length_append]
      push_cast
      rw [Int.mul_add]
      omega
  have hgc := hPQg c h6
  refine ⟨a, c, W, h1, ?_, hPQg a h5, h11, ?_, ?_, ?_⟩
  · rcases gnode_level H hgc with ⟨_, h | h⟩ | h
    · exact absurd h.le h2
    · exact h
    · have hc : c.t ≠ -1 := by have := h.1; omega
      have hcL : c ∈ L := h6.elim (hPL c hc).1 (hQL c hc).1
      exact absurd ⟨(hPL c hc).2 hcL, (hQL c hc).2 hcL⟩ h4
  · rw [h12.nodup_iff]
    have hs : (KP.flatMap fun t => t.2.1).Subperm E.toList := by
      refine List.Subperm.trans (List.Sublist.subperm ?_) p3
      exact h7.flatMap _
    obtain ⟨l, l1, l2⟩ := hs
    exact l1.nodup_iff.1 (l2.nodup E.nodup_toList)
  · intro f hf
    rw [h12.mem_iff] at hf
    obtain ⟨t, ht, hf⟩ := List.mem_flatMap.1 hf
    exact Finset.mem_toList.1 (hPf t (h7.subset ht) f hf)
  · have e1 : (W.filter fun w => w.1 == true).length = (KQ.flatMap fun t => t.2.1).length := by
      rw [← h13.length_eq, List.length_map]
    have e2 : (W.filter fun w => w.1 == false).length = (KP.flatMap fun t => t.2.1).length := by
      rw [← h12.length_eq, List.length_map]
    rw [e1, e2]
    have g1 := hsumQ KQ fun t ht => h8.subset (List.mem_append_left _ ht)
    have g2 := hsumP KP fun t ht => h7.subset ht
    omega

end Qtc
