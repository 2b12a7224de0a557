import Verif.Proof.Crossing
/-!
Edges as paths between the nodes of odd degree, and exchanging pairs along an alternating chain.
-/
namespace Qtc
open Spec

variable {V F : Type}

/-- A sequence of edges from `a` to `c`. -/
inductive FPath (J : F → V → V → Prop) : V → List F → V → Prop where
  | nil (a : V) : FPath J a [] a
  | cons {f : F} {a b c : V} {l : List F} : J f a b → FPath J b l c → FPath J a (f :: l) c

variable {J : F → V → V → Prop}

theorem FPath.append {a b c : V} {l k : List F} (h : FPath J a l b) (h' : FPath J b k c) : FPath J a (l ++ k) c := by
  induction h with
  | nil => exact h'
  | cons h1 _ ih => exact .cons h1 (ih h')

theorem FPath.reverse (hJ : ∀ f x y, J f x y → J f y x) {a c : V} {l : List F} (h : FPath J a l c) : FPath J c l.reverse a := by
  induction h with
  | nil => exact .nil _
  | cons h1 _ ih =>
    rw [List.reverse_cons]
    exact ih.append (.cons (hJ _ _ _ h1) (.nil _))

theorem FPath.mono {J' : F → V → V → Prop} {a c : V} {l : List F} (h : FPath J a l c) (hJ : ∀ f ∈ l, ∀ x y, J f x y → J' f x y) :
    FPath J' a l c := by
  induction h with
  | nil => exact .nil _
  | cons h1 _ ih => exact .cons (hJ _ (by simp) _ _ h1) (ih fun f hf => hJ f (by simp [hf]))

theorem FPath.ends_of {Q : V → Prop} (hQ : ∀ f x y, J f x y → Q y) {a c : V} {l : List F} (h : FPath J a l c) (ha : Q a) : Q c := by
  induction h with
  | nil => exact ha
  | cons h1 _ ih => exact ih (hQ _ _ _ h1)

/-- The two ends of a path. -/
def pathEnds (t : V × List F × V) : V × V := (t.1, t.2.2)

/-- The paths, and where they end. -/
def AllPaths (J : F → V → V → Prop) (P : List (V × List F × V)) : Prop := ∀ t ∈ P, FPath J t.1 t.2.1 t.2.2

theorem ends_perm {α : Type} {M N : List (α × α)} (h : M.Perm N) : (ends M).Perm (ends N) := by
  unfold ends
  exact h.flatMap_right _

theorem paths_front (hJ : ∀ f x y, J f x y → J f y x) {P : List (V × List F × V)} (hP : AllPaths J P) {a : V} (ha : a ∈ ends (P.map pathEnds)) :
    ∃ x l P', AllPaths J ((a, l, x) :: P') ∧ (ends (P.map pathEnds)).Perm (a :: x :: ends (P'.map pathEnds)) ∧
      (P.flatMap fun t => t.2.1).Perm (l ++ P'.flatMap fun t => t.2.1) := by
  obtain ⟨p, hp, h⟩ := mem_ends.1 ha
  obtain ⟨t, ht, rfl⟩ := List.mem_map.1 hp
  obtain ⟨P1, P2, rfl⟩ := List.append_of_mem ht
  have hperm : (P1 ++ t :: P2).Perm (t :: (P1 ++ P2)) := List.perm_middle
  have h1 : (ends ((P1 ++ t :: P2).map pathEnds)).Perm (ends ((t :: (P1 ++ P2)).map pathEnds)) := ends_perm (hperm.map _)
  have h2 : ((P1 ++ t :: P2).flatMap fun t => t.2.1).Perm ((t :: (P1 ++ P2)).flatMap fun t => t.2.1) := hperm.flatMap_right _
  have h3 : AllPaths J (P1 ++ P2) := fun s hs => hP s (hperm.mem_iff.2 (List.mem_cons_of_mem _ hs))
  have h4 := hP t ht
  obtain ⟨x, l, y⟩ := t
  rcases h with rfl | rfl
  · refine ⟨y, l, P1 ++ P2, ?_, h1, h2⟩
    intro s hs
    rcases List.mem_cons.1 hs with rfl | hs
    · exact h4
    · exact h3 s hs
  · refine ⟨x, l.reverse, P1 ++ P2, ?_, h1.trans (List.Perm.swap _ _ _), h2.trans ?_⟩
    · intro s hs
      rcases List.mem_cons.1 hs with rfl | hs
      · exact h4.reverse hJ
      · exact h3 s hs
    · rw [List.flatMap_cons]
      exact (List.reverse_perm l).symm.append_right _

/-- The edge joins `x` and `y`. -/
def Joins (e : F → V × V) (f : F) (x y : V) : Prop := e f = (x, y) ∨ e f = (y, x)

/-- Every list of edges contains edge-disjoint paths that join its nodes of odd degree in pairs. -/
theorem split_paths [DecidableEq V] (e : F → V × V) : ∀ S : List F, ∃ P : List (V × List F × V), AllPaths (Joins e) P ∧
    (∀ n, (ends (P.map pathEnds)).count n ≤ 1 ∧ (ends (P.map pathEnds)).count n % 2 = (ends (S.map e)).count n % 2) ∧
      (P.flatMap fun t => t.2.1).Subperm S
  | [] => ⟨[], fun t ht => absurd ht List.not_mem_nil, fun n => by simp, List.Subperm.refl _⟩
  | f :: S => by
    obtain ⟨P, h1, h2, h3⟩ := split_paths e S
    obtain ⟨⟨a, b⟩, hf⟩ : ∃ p, e f = p := ⟨_, rfl⟩
    have hsym : ∀ f x y, Joins e f x y → Joins e f y x := fun f x y h => h.symm
    have hcount : ∀ n, (ends ((f :: S).map e)).count n = (if a = n then 1 else 0) + (if b = n then 1 else 0) + (ends (S.map e)).count n := by
      intro n
      rw [List.map_cons, ends_cons, List.count_cons, List.count_cons, hf]
      simp only [beq_iff_eq]
      omega
    have hcons : ∀ (x y : V) (l : List F) (Q : List (V × List F × V)) (n : V), (ends (((x, l, y) :: Q).map pathEnds)).count n =
        (if x = n then 1 else 0) + (if y = n then 1 else 0) + (ends (Q.map pathEnds)).count n := by
      intro x y l Q n
      rw [List.map_cons, ends_cons, List.count_cons, List.count_cons]
      simp only [beq_iff_eq, pathEnds]
      omega
    have hmem : ∀ {n : V} {Q : List (V × List F × V)}, n ∉ ends (Q.map pathEnds) → (ends (Q.map pathEnds)).count n = 0 :=
      fun h => List.count_eq_zero.2 h
    have hJab : Joins e f a b := Or.inl hf
    by_cases hab : a = b
    · subst hab
      refine ⟨P, h1, fun n => ?_, h3.cons_right f⟩
      have := h2 n
      rw [hcount]
      split <;> omega
    have hperm2 : ∀ {x y : V} {Q : List (V × List F × V)} {L : List V}, L.Perm (x :: y :: ends (Q.map pathEnds)) → ∀ n, L.count n =
        (if x = n then 1 else 0) + (if y = n then 1 else 0) + (ends (Q.map pathEnds)).count n := by
      intro x y Q L h n
      rw [h.count_eq, List.count_cons, List.count_cons]
      simp only [beq_iff_eq]
      omega
    by_cases ha : a ∈ ends (P.map pathEnds)
    · obtain ⟨x, l, P', g1, g2, g3⟩ := paths_front hsym h1 ha
      have g2' := hperm2 g2
      have gP' : AllPaths (Joins e) P' := fun t ht => g1 t (List.mem_cons_of_mem _ ht)
      have gl : FPath (Joins e) a l x := g1 _ List.mem_cons_self
      by_cases hbx : b = x
      · subst hbx
        refine ⟨P', gP', fun n => ?_, ?_⟩
        · have := h2 n
          have := g2' n
          rw [hcount]
          constructor <;> omega
        · have : (P'.flatMap fun t => t.2.1).Subperm (P.flatMap fun t => t.2.1) :=
            ((List.sublist_append_right _ _).subperm).trans g3.symm.subperm
          exact (this.trans h3).cons_right f
      · by_cases hb : b ∈ ends (P'.map pathEnds)
        · obtain ⟨y, k, P'', k1, k2, k3⟩ := paths_front hsym gP' hb
          have k2' := hperm2 k2
          refine ⟨(x, l.reverse ++ f :: k, y) :: P'', ?_, fun n => ?_, ?_⟩
          · intro t ht
            rcases List.mem_cons.1 ht with rfl | ht
            · exact (gl.reverse hsym).append (.cons hJab (k1 _ List.mem_cons_self))
            · exact k1 t (List.mem_cons_of_mem _ ht)
          · have := h2 n
            have := g2' n
            have := k2' n
            rw [hcount, hcons]
            constructor <;> omega
          · rw [List.flatMap_cons]
            have q1 : ((l.reverse ++ f :: k) ++ P''.flatMap fun t => t.2.1).Perm (f :: (l ++ P'.flatMap fun t => t.2.1)) := by
              rw [List.append_assoc, List.cons_append]
              refine List.perm_middle.trans ((List.Perm.append (List.reverse_perm l) k3.symm).cons f)
            exact q1.subperm.trans ((List.subperm_cons f).2 (g3.symm.subperm.trans h3))
        · refine ⟨(b, f :: l, x) :: P', ?_, fun n => ?_, ?_⟩
          · intro t ht
            rcases List.mem_cons.1 ht with rfl | ht
            · exact .cons (hsym _ _ _ hJab) gl
            · exact gP' t ht
          · have := h2 n
            have := g2' n
            have := hmem hb
            rw [hcount, hcons]
            by_cases hbn : b = n
            · subst hbn
              rw [if_neg hab, if_pos rfl, if_neg (Ne.symm hbx)] at *
              constructor <;> omega
            · rw [if_neg hbn]
              constructor <;> omega
          · rw [List.flatMap_cons, List.cons_append]
            exact (List.subperm_cons f).2 (g3.symm.subperm.trans h3)
    · by_cases hb : b ∈ ends (P.map pathEnds)
      · obtain ⟨x, l, P', g1, g2, g3⟩ := paths_front hsym h1 hb
        have g2' := hperm2 g2
        have hax : x ≠ a := by
          rintro rfl
          exact ha (g2.mem_iff.2 (by simp))
        refine ⟨(a, f :: l, x) :: P', ?_, fun n => ?_, ?_⟩
        · intro t ht
          rcases List.mem_cons.1 ht with rfl | ht
          · exact .cons hJab (g1 _ List.mem_cons_self)
          · exact g1 t (List.mem_cons_of_mem _ ht)
        · have := h2 n
          have := g2' n
          rw [hcount, hcons]
          by_cases han : a = n
          · subst han
            have := hmem ha
            rw [if_pos rfl, if_neg (Ne.symm hab), if_neg hax] at *
            constructor <;> omega
          · rw [if_neg han]
            constructor <;> omega
        · rw [List.flatMap_cons, List.cons_append]
          exact (List.subperm_cons f).2 (g3.symm.subperm.trans h3)
      · refine ⟨(a, [f], b) :: P, ?_, fun n => ?_, ?_⟩
        · intro t ht
          rcases List.mem_cons.1 ht with rfl | ht
          · exact .cons hJab (.nil _)
          · exact h1 t ht
        · have := h2 n
          rw [hcount, hcons]
          by_cases han : a = n
          · subst han
            have := hmem ha
            rw [if_pos rfl, if_neg (Ne.symm hab)]
            constructor <;> omega
          · by_cases hbn : b = n
            · subst hbn
              have := hmem hb
              rw [if_pos rfl, if_neg hab]
              constructor <;> omega
            · rw [if_neg han, if_neg hbn]
              constructor <;> omega
        · rw [List.flatMap_cons]
          exact (List.subperm_cons f).2 h3

/-- A chain passes through every inner node evenly. -/
theorem Cross.ends_even [DecidableEq V] {e : F → V × V} {S : List F} {real : V → Prop} {v : V} (hv : real v) {a c : V} {l : List F}
    (h : Cross (fun f x y => f ∈ S ∧ (e f = (x, y) ∨ e f = (y, x))) real a l c) : (ends (l.map e)).count v % 2 = if a = v then 1 else 0 := by
  have one : ∀ {f : F} {x y : V} {k : List F}, e f = (x, y) ∨ e f = (y, x) →
      (ends ((f :: k).map e)).count v = (if x = v then 1 else 0) + (if y = v then 1 else 0) + (ends (k.map e)).count v := by
    intro f x y k h
    rw [List.map_cons, ends_cons, List.count_cons, List.count_cons]
    rcases h with h | h <;> rw [h] <;> simp only [beq_iff_eq] <;> omega
  induction h with
  | @last f a b h1 h2 =>
    have hb : b ≠ v := fun e => h2 (e ▸ hv)
    rw [one h1.2, if_neg hb]
    simp only [List.map_nil, ends_nil, List.count_nil]
    split <;> rfl
  | @step f a b c l h1 h2 _ ih =>
    rw [one h1.2]
    by_cases hb : b = v
    · rw [if_pos hb] at ih ⊢
      split <;> omega
    · rw [if_neg hb] at ih ⊢
      split <;> omega

/-- The paths along a chain, one after the other; every step is marked with the mark of its path. -/
theorem Cross.walk (hJ : ∀ f x y, J f x y → J f y x) {S : List (Bool × V × List F × V)} (hS : ∀ t ∈ S, FPath J t.2.1 t.2.2.1 t.2.2.2)
    {real : V → Prop} {a c : V} {K : List (Bool × V × List F × V)}
    (h : Cross (fun t x y => t ∈ S ∧ (pathEnds t.2 = (x, y) ∨ pathEnds t.2 = (y, x))) real a K c) :
    ∃ W : List (Bool × F), FPath (fun w x y => J w.2 x y) a W c ∧
      ∀ β, ((W.filter fun w => w.1 == β).map Prod.snd).Perm ((K.filter fun t => t.1 == β).flatMap fun t => t.2.2.1) := by
  have mark : ∀ (β : Bool) {x y : V} {l : List F}, FPath J x l y → FPath (fun (w : Bool × F) x y => J w.2 x y) x (l.map fun f => (β, f)) y := by
    intro β x y l h
    induction h with
    | nil => exact .nil _
    | cons h1 _ ih => exact .cons h1 ih
  have marked : ∀ (β γ : Bool) (l : List F), (((l.map fun f => (γ, f)).filter fun w => w.1 == β).map Prod.snd) = if γ == β then l else [] := by
    intro β γ l
    rw [List.filter_map, List.map_map]
    split
    · rename_i h
      rw [show l.filter ((fun w : Bool × F => w.1 == β) ∘ fun f => (γ, f)) = l from List.filter_eq_self.2 fun f _ => h]
      exact List.map_id _
    · rename_i h
      rw [show l.filter ((fun w : Bool × F => w.1 == β) ∘ fun f => (γ, f)) = [] from List.filter_eq_nil_iff.2 fun f _ => h]
      rfl
  have one : ∀ {t : Bool × V × List F × V} {x y : V}, t ∈ S → (pathEnds t.2 = (x, y) ∨ pathEnds t.2 = (y, x)) →
      ∃ l : List F, l.Perm t.2.2.1 ∧ FPath J x l y := by
    intro t x y ht h
    have := hS t ht
    rcases h with h | h
    · obtain ⟨h1, h2⟩ := Prod.mk.inj h
      rw [h1, h2] at this
      exact ⟨_, List.Perm.refl _, this⟩
    · obtain ⟨h1, h2⟩ := Prod.mk.inj h
      rw [h1, h2] at this
      exact ⟨_, List.reverse_perm _, this.reverse hJ⟩
  induction h with
  | @last t a b h1 h2 =>
    obtain ⟨l, l1, l2⟩ := one h1.1 h1.2
    refine ⟨l.map fun f => (t.1, f), mark _ l2, fun β => ?_⟩
    rw [marked, List.filter_cons]
    split
    · simpa using l1
    · simp
  | @step t a b c K h1 h2 _ ih =>
    obtain ⟨W, w1, w2⟩ := ih
    obtain ⟨l, l1, l2⟩ := one h1.1 h1.2
    refine ⟨(l.map fun f => (t.1, f)) ++ W, (mark _ l2).append w1, fun β => ?_⟩
    rw [List.filter_append, List.map_append, marked, List.filter_cons]
    split
    · rw [List.flatMap_cons]
      exact l1.append (w2 β)
    · rw [List.nil_append]
      exact w2 β

theorem ends_sublist {α : Type} {M N : List (α × α)} (h : M.Sublist N) : (ends M).Sublist (ends N) := by
  induction h with
  | slnil => exact List.Sublist.refl _
  | cons p _ ih => rw [ends_cons]; exact (ih.cons _).cons _
  | cons_cons p _ ih => rw [ends_cons, ends_cons]; exact (ih.cons_cons _).cons_cons _

theorem nodup_of_ends {α : Type} {M : List (α × α)} (h : (ends M).Nodup) : M.Nodup := by
  induction M with
  | nil => exact List.nodup_nil
  | cons p M ih =>
    rw [ends_cons, List.nodup_cons, List.nodup_cons] at h
    refine List.nodup_cons.2 ⟨fun hp => h.1 (List.mem_cons_of_mem _ (mem_ends.2 ⟨p, hp, Or.inl rfl⟩)), ih h.2.2⟩

/-- Two ways of joining nodes in pairs by paths, `P` and `Q`. If together they cross `top` oddly, there is an alternating chain from a
node in `top` to one that is not, along which the pairs of `Q` can be exchanged for those of `P`. -/
theorem exchange [DecidableEq V] [DecidableEq F] (hJ : ∀ f x y, J f x y → J f y x) {P Q : List (V × List F × V)} (hP : AllPaths J P)
    (hQ : AllPaths J Q) (hP1 : (ends (P.map pathEnds)).Nodup) (hQ1 : (ends (Q.map pathEnds)).Nodup) (top : V → Prop) [DecidablePred top]
    (hodd : xorAll ((P ++ Q).map fun t => (decide (top t.1) ^^ decide (top t.2.2))) = true) :
    ∃ (a c : V) (KP KQ : List (V × List F × V)) (Q' : List (V × List F × V)) (W : List (Bool × F)),
      top a ∧ ¬ top c ∧ (¬ (a ∈ ends (P.map pathEnds) ∧ a ∈ ends (Q.map pathEnds))) ∧ (¬ (c ∈ ends (P.map pathEnds) ∧ c ∈ ends (Q.map pathEnds))) ∧
      (a ∈ ends (P.map pathEnds) ∨ a ∈ ends (Q.map pathEnds)) ∧ (c ∈ ends (P.map pathEnds) ∨ c ∈ ends (Q.map pathEnds)) ∧
      KP.Sublist P ∧ (KQ ++ Q').Perm Q ∧ (ends ((Q' ++ KP).map pathEnds)).Nodup ∧
      (∀ n, n ∈ ends (P.map pathEnds) → n ∈ ends (Q.map pathEnds) → n ∈ ends ((Q' ++ KP).map pathEnds)) ∧
      FPath (fun w x y => J w.2 x y) a W c ∧ ((W.filter fun w => w.1 == false).map Prod.snd).Perm (KP.flatMap fun t => t.2.1) ∧
      ((W.filter fun w => w.1 == true).map Prod.snd).Perm (KQ.flatMap fun t => t.2.1) := by
  classical
  let real : V → Prop := fun n => n ∈ ends (P.map pathEnds) ∧ n ∈ ends (Q.map pathEnds)
  let S : List (Bool × V × List F × V) := P.map (fun t => (false, t)) ++ Q.map fun t => (true, t)
  let e : Bool × V × List F × V → V × V := fun t => pathEnds t.2
  have heS : S.map e = (P ++ Q).map pathEnds := by
    show (P.map (fun t => (false, t)) ++ Q.map fun t => (true, t)).map e = _
    rw [List.map_append, List.map_map, List.map_map, List.map_append]
    rfl
  have c1 : ∀ {M : List (V × V)} {n : V}, (ends M).Nodup → n ∈ ends M → (ends M).count n = 1 := fun h1 h2 => List.count_eq_one_of_mem h1 h2
  have heven : ∀ v, real v → (ends (S.map e)).count v % 2 = 0 := by
    intro v hv
    rw [heS, List.map_append, ends_append, List.count_append, c1 hP1 hv.1, c1 hQ1 hv.2]
  have hodd' : xorAll (S.map fun f => (decide (top (e f).1 ∧ ¬ real (e f).1) ^^ decide (top (e f).2 ∧ ¬ real (e f).2))) = true := by
    have hh := handshake (fun v => decide (top v ∧ real v)) (S.map e) (fun v hv => heven v (of_decide_eq_true hv).2)
    have h1 : S.map (fun f => (decide (top (e f).1) ^^ decide (top (e f).2))) = (P ++ Q).map fun t => (decide (top t.1) ^^ decide (top t.2.2)) := by
      have := congrArg (List.map fun p : V × V => (decide (top p.1) ^^ decide (top p.2))) heS
      rw [List.map_map, List.map_map] at this
      exact this
    have h2 : S.map (fun f => (decide (top (e f).1 ∧ ¬ real (e f).1) ^^ decide (top (e f).2 ∧ ¬ real (e f).2))) =
        S.map fun f => ((decide (top (e f).1) ^^ decide (top (e f).2)) ^^ (decide (top (e f).1 ∧ real (e f).1) ^^ decide (top (e f).2 ∧ real (e f).2))) := by
      refine List.map_congr_left fun f _ => ?_
      by_cases a1 : top (e f).1 <;> by_cases a2 : top (e f).2 <;> by_cases a3 : real (e f).1 <;> by_cases a4 : real (e f).2 <;>
        simp [a1, a2, a3, a4]
    rw [h2, xorAll_map_xor, h1, hodd]
    rw [List.map_map] at hh
    have : xorAll (S.map fun f => (decide (top (e f).1 ∧ real (e f).1) ^^ decide (top (e f).2 ∧ real (e f).2))) = false := hh
    rw [this]
    rfl
  obtain ⟨a, c, l0, h1, h2, h3⟩ := exists_crossing e real (fun v => top v ∧ ¬ real v) (fun v h => h.2.2 h.1) S heven hodd'
  have hac : a ≠ c := fun e => h2 (e ▸ h1)
  obtain ⟨K, k1, k2⟩ := h3.exists_nodup (by
    rintro f x y x' y' ⟨_, g1⟩ ⟨_, g2⟩
    rcases g1 with g1 | g1 <;> rw [g1] at g2 <;> rcases g2 with g2 | g2 <;> rw [Prod.mk.injEq] at g2 <;> obtain ⟨rfl, rfl⟩ := g2 <;> simp) hac
  have hKS : ∀ t ∈ K, t ∈ S := k1.all fun f x y h => h.1
  have hcr : ¬ real c := k1.end_not
  have hct : ¬ top c := fun h => h2 ⟨h, hcr⟩
  have hPn : P.Nodup := (nodup_of_ends hP1).of_map
  have hQn : Q.Nodup := (nodup_of_ends hQ1).of_map
  let KP := P.filter fun t => (false, t) ∈ K
  let KQ := Q.filter fun t => (true, t) ∈ K
  let Q' := Q.filter fun t => !decide ((true, t) ∈ K)
  have hQ' : (KQ ++ Q').Perm Q := List.filter_append_perm _ _
  have hKperm : K.Perm (KP.map (fun t => (false, t)) ++ KQ.map fun t => (true, t)) := by
    refine (List.perm_ext_iff_of_nodup k2 ?_).2 ?_
    · rw [List.nodup_append]
      refine ⟨(hPn.filter _).map fun x y h => (Prod.mk.inj h).2, (hQn.filter _).map fun x y h => (Prod.mk.inj h).2, ?_⟩
      intro x hx y hy
      obtain ⟨_, _, rfl⟩ := List.mem_map.1 hx
      obtain ⟨_, _, rfl⟩ := List.mem_map.1 hy
      simp
    · rintro ⟨β, t⟩
      rw [List.mem_append, List.mem_map, List.mem_map]
      constructor
      · intro h
        rcases List.mem_append.1 (hKS _ h) with hs | hs
        · obtain ⟨t', ht, he⟩ := List.mem_map.1 hs
          obtain ⟨rfl, rfl⟩ := Prod.mk.inj he
          exact Or.inl ⟨_, List.mem_filter.2 ⟨ht, decide_eq_true h⟩, rfl⟩
        · obtain ⟨t', ht, he⟩ := List.mem_map.1 hs
          obtain ⟨rfl, rfl⟩ := Prod.mk.inj he
          exact Or.inr ⟨_, List.mem_filter.2 ⟨ht, decide_eq_true h⟩, rfl⟩
      · rintro (⟨t', ht, he⟩ | ⟨t', ht, he⟩)
        · rw [← he]; exact of_decide_eq_true (List.mem_filter.1 ht).2
        · rw [← he]; exact of_decide_eq_true (List.mem_filter.1 ht).2
  have hcK : ∀ n, (ends (K.map e)).count n = (ends (KP.map pathEnds)).count n + (ends (KQ.map pathEnds)).count n := by
    intro n
    rw [(ends_perm (hKperm.map e)).count_eq, List.map_append, List.map_map, List.map_map, ends_append, List.count_append]
    rfl
  have hcQ : ∀ n, (ends (KQ.map pathEnds)).count n + (ends (Q'.map pathEnds)).count n = (ends (Q.map pathEnds)).count n := by
    intro n
    rw [← (ends_perm (hQ'.map pathEnds)).count_eq, List.map_append, ends_append, List.count_append]
  have hKPs : (ends (KP.map pathEnds)).Sublist (ends (P.map pathEnds)) := by
    exact ends_sublist (List.filter_sublist.map _)
  have hcP : ∀ n, (ends (KP.map pathEnds)).count n ≤ (ends (P.map pathEnds)).count n := fun n => hKPs.count_le n
  have hcQ' : ∀ n, (ends ((Q' ++ KP).map pathEnds)).count n = (ends (Q'.map pathEnds)).count n + (ends (KP.map pathEnds)).count n := by
    intro n
    rw [List.map_append, ends_append, List.count_append]
  have hreal : ∀ n, real n → (ends ((Q' ++ KP).map pathEnds)).count n = 1 := by
    intro n hn
    have g1 := k1.ends_even (v := n) hn
    rw [if_neg (by rintro rfl; exact h1.2 hn), hcK] at g1
    have := hcQ n
    have := hcP n
    rw [c1 hQ1 hn.2] at *
    rw [c1 hP1 hn.1] at *
    rw [hcQ']
    omega
  obtain ⟨W, w1, w2⟩ := k1.walk hJ (by
    intro t ht
    rcases List.mem_append.1 ht with h | h
    · obtain ⟨t', ht', rfl⟩ := List.mem_map.1 h
      exact hP t' ht'
    · obtain ⟨t', ht', rfl⟩ := List.mem_map.1 h
      exact hQ t' ht')
  have hmemS : ∀ {f : Bool × V × List F × V} {x y : V}, f ∈ S ∧ (e f = (x, y) ∨ e f = (y, x)) →
      (x ∈ ends (P.map pathEnds) ∨ x ∈ ends (Q.map pathEnds)) ∧ (y ∈ ends (P.map pathEnds) ∨ y ∈ ends (Q.map pathEnds)) := by
    rintro f x y ⟨hf, hxy⟩
    have : ∀ z, z = (e f).1 ∨ z = (e f).2 → (z ∈ ends (P.map pathEnds) ∨ z ∈ ends (Q.map pathEnds)) := by
      intro z hz
      rw [← List.mem_append, ← ends_append, ← List.map_append, ← heS]
      exact mem_ends.2 ⟨e f, List.mem_map.2 ⟨f, hf, rfl⟩, hz⟩
    rcases hxy with h | h <;> rw [h] at this
    · exact ⟨this x (Or.inl rfl), this y (Or.inr rfl)⟩
    · exact ⟨this x (Or.inr rfl), this y (Or.inl rfl)⟩
  refine ⟨a, c, KP, KQ, Q', W, h1.1, hct, h1.2, hcr, ?_, ?_, List.filter_sublist, hQ', ?_, ?_, w1, ?_, ?_⟩
  · exact k1.start_of (Q := fun x => x ∈ ends (P.map pathEnds) ∨ x ∈ ends (Q.map pathEnds)) fun f x y h => (hmemS h).1
  · exact k1.end_of (Q := fun x => x ∈ ends (P.map pathEnds) ∨ x ∈ ends (Q.map pathEnds)) fun f x y h => (hmemS h).2
  · rw [List.nodup_iff_count_le_one]
    intro n
    by_cases hn : real n
    · exact (hreal n hn).le
    · have q1 := List.nodup_iff_count_le_one.1 hP1 n
      have q2 := List.nodup_iff_count_le_one.1 hQ1 n
      have q3 := hcQ n
      have q4 := hcP n
      rw [hcQ']
      by_cases hp : n ∈ ends (P.map pathEnds)
      · have : (ends (Q.map pathEnds)).count n = 0 := List.count_eq_zero.2 fun h => hn ⟨hp, h⟩
        omega
      · have : (ends (P.map pathEnds)).count n = 0 := List.count_eq_zero.2 hp
        omega
  · intro n n1 n2
    rw [← List.count_pos_iff, hreal n ⟨n1, n2⟩]
    exact Nat.one_pos
  · refine (w2 false).trans ?_
    have := (hKperm.filter fun t => t.1 == false).flatMap_right fun t => t.2.2.1
    refine this.trans (List.Perm.of_eq ?_)
    rw [List.filter_append, List.filter_map, List.filter_map]
    rw [show KP.filter ((fun t : Bool × V × List F × V => t.1 == false) ∘ fun t => (false, t)) = KP from List.filter_eq_self.2 fun t _ => rfl,
      show KQ.filter ((fun t : Bool × V × List F × V => t.1 == false) ∘ fun t => (true, t)) = [] from
        List.filter_eq_nil_iff.2 (by intro t _; simp)]
    rw [List.map_nil, List.append_nil, List.flatMap_map]
  · refine (w2 true).trans ?_
    have := (hKperm.filter fun t => t.1 == true).flatMap_right fun t => t.2.2.1
    refine this.trans (List.Perm.of_eq ?_)
    rw [List.filter_append, List.filter_map, List.filter_map]
    rw [show KQ.filter ((fun t : Bool × V × List F × V => t.1 == true) ∘ fun t => (true, t)) = KQ from List.filter_eq_self.2 fun t _ => rfl,
      show KP.filter ((fun t : Bool × V × List F × V => t.1 == true) ∘ fun t => (false, t)) = [] from
        List.filter_eq_nil_iff.2 (by intro t _; simp)]
    rw [List.map_nil, List.nil_append, List.flatMap_map]

end Qtc
