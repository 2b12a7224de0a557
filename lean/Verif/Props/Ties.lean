import Verif.Proof.Ties
import Verif.Props.OutsideHits
/-!
C119: which answers are possible, and when there is only one.
-/
namespace Qtc
open Spec

/-- C119: exactly the parities of the smallest explanations of the hits are answers that some library meeting its contract leads to. -/
theorem C119_answers (D : Decoder) (hD : Made D) (key : Key) (s : SGraph) (hs : D.S key = some s) (HO : OddPos D.dh D.dw)
    (L : List Node) (hn : L.Nodup) (hL : ∀ n ∈ L, HitPlace key D n) (syn : SynDict) (hsyn : syn (rtypeOf key) = some L) (b x : Bool) :
    (∃ m, Contract m ∧ ∃ u, correctHits D m syn (rtypeOf key) (some (bit b)) none = .ok (some (bit (b ^^ x)), u)) ↔
      ∃ fs, LeastExplains key D.dh D.dw D.T L fs ∧ readoutFlipped key fs = x := by
  constructor
  · rintro ⟨m, hm, u, h⟩
    obtain ⟨gs, u', h1, h2, h3, h4⟩ := C75_minimum_explanation D hD key s hs HO m hm L hn hL syn hsyn b
    refine ⟨gs, ⟨⟨h2, h3⟩, fun fs' h' => h4 fs' h'.1 h'.2⟩, ?_⟩
    rw [h] at h1
    have h5 := (Prod.mk.inj (Except.ok.inj h1)).1
    have h6 := Option.some.inj h5
    revert h6
    generalize readoutFlipped key gs = y
    cases b <;> cases x <;> cases y <;> simp [bit]
  · rintro ⟨fs, h, rfl⟩
    by_cases hne : L = []
    · subst hne
      obtain ⟨m, hm⟩ := contract_exists
      have h0 : fs = [] := by
        have := h.2 [] ⟨by simp, fun n => by simp [IsHit]⟩
        exact List.length_eq_zero_iff.1 (Nat.le_zero.1 this)
      subst h0
      refine ⟨m, hm, syn, ?_⟩
      rw [C28_no_hits D m syn _ _ none hsyn]
      simp [readoutFlipped]
    · obtain ⟨n0, h0⟩ := List.exists_mem_of_ne_nil _ hne
      have R := ready_of_hit hD hs HO (hL n0 h0)
      obtain ⟨m, M, L', m1, m2, m3, m4, m5⟩ := least_realised R hne hn hL h
      exact ⟨m, m1, _, by rw [correctHits_of R.long hsyn m2 m3 m4 b, m5]⟩

/-- C119: they are the parities of the cheapest splits of the hits, which a search finds. -/
theorem C119_search (D : Decoder) (hD : Made D) (key : Key) (s : SGraph) (hs : D.S key = some s) (HO : OddPos D.dh D.dw)
    (L : List Node) (hn : L.Nodup) (hL : ∀ n ∈ L, HitPlace key D n) (x : Bool) :
    (∃ fs, LeastExplains key D.dh D.dw D.T L fs ∧ readoutFlipped key fs = x) ↔ x ∈ cheapParities key D.dh D.dw L := by
  obtain ⟨m0, hm0⟩ := contract_exists
  constructor
  · intro h
    obtain ⟨m, hm, u, h1⟩ := (C119_answers D hD key s hs HO L hn hL (fun _ => some L) rfl false x).2 h
    obtain ⟨M, L', u', -, h2, h3⟩ := C112_cheapest D hD key s hs HO m hm L hn hL (fun _ => some L) rfl false
    rw [h1] at h3
    have h4 := Option.some.inj (Prod.mk.inj (Except.ok.inj h3)).1
    have h5 : oddFirst key D.dh D.dw (splitOf M).2 = x := by
      revert h4
      generalize oddFirst key D.dh D.dw (splitOf M).2 = y
      cases x <;> cases y <;> simp [bit]
    rw [← h5]
    exact mem_cheapParities h2
  · intro h
    obtain ⟨P, Q, ⟨hS, hcheap⟩, rfl⟩ := ((C112_search key D.dh D.dw L).2.2 x).1 h
    by_cases hne : L = []
    · subst hne
      refine ⟨[], ⟨⟨by simp, fun n => by simp [IsHit]⟩, by simp⟩, ?_⟩
      have h0 : Q = [] := (List.append_eq_nil_iff.1 (List.perm_nil.1 hS)).2
      subst h0
      rfl
    obtain ⟨n0, h0⟩ := List.exists_mem_of_ne_nil _ hne
    have R := ready_of_hit hD hs HO (hL n0 h0)
    have hLg : ∀ n ∈ L, GNode key D.dh D.dw D.T n := fun n h => hitPlace_gnode (hL n h)
    have hLr : ∀ n ∈ L, n.t ≠ -1 := fun n h => hitPlace_real (hL n h)
    obtain ⟨M1, m1, m2, m3, m4⟩ := split_pairs R.long R.pos hLg hS
    obtain ⟨fs, f1, f2, f3⟩ := explains_of_pairs R hn hL m1 m3
    refine ⟨fs, ⟨f1, fun fs' h' => ?_⟩, by rw [f3, m4 hLr]⟩
    -- a smallest explanation is at least as long as a cheapest split is dear
    obtain ⟨M, gs, h1, h6, h7, hx, hlen, hfit, hhit, hmin⟩ := kept_explanation hD hs HO hm0 hn hL hne
    obtain ⟨M', L', u', c1, c2, -⟩ := C112_cheapest D hD key s hs HO m0 hm0 L hn hL (fun _ => some L) rfl false
    rw [h1] at c1
    have c3 := (Prod.mk.inj (Except.ok.inj c1)).1
    subst c3
    have c4 := (splitOf_cost R.long R.pos (kept M) h6 h7).1
    have c5 := hcheap _ _ c2.1
    have c6 := hmin fs' h'.1 h'.2
    omega

/-- C119: so the answer is the same for all libraries iff all smallest explanations have the same parity. -/
theorem C119_determined (D : Decoder) (hD : Made D) (key : Key) (s : SGraph) (hs : D.S key = some s) (HO : OddPos D.dh D.dw)
    (L : List Node) (hn : L.Nodup) (hL : ∀ n ∈ L, HitPlace key D n) (syn : SynDict) (hsyn : syn (rtypeOf key) = some L) (b : Bool) :
    (∃ v, ∀ m, Contract m → ∃ u, correctHits D m syn (rtypeOf key) (some (bit b)) none = .ok (v, u)) ↔
      ∀ fs fs', LeastExplains key D.dh D.dw D.T L fs → LeastExplains key D.dh D.dw D.T L fs' → readoutFlipped key fs = readoutFlipped key fs' := by
  constructor
  · rintro ⟨v, hv⟩ fs fs' h h'
    obtain ⟨m, hm, u, h1⟩ := (C119_answers D hD key s hs HO L hn hL syn hsyn b _).2 ⟨fs, h, rfl⟩
    obtain ⟨m', hm', u', h1'⟩ := (C119_answers D hD key s hs HO L hn hL syn hsyn b _).2 ⟨fs', h', rfl⟩
    obtain ⟨w, h2⟩ := hv m hm
    obtain ⟨w', h2'⟩ := hv m' hm'
    rw [h1] at h2
    rw [h1'] at h2'
    have e := (Prod.mk.inj (Except.ok.inj h2)).1.trans (Prod.mk.inj (Except.ok.inj h2')).1.symm
    have e := Option.some.inj e
    revert e
    generalize readoutFlipped key fs = x
    generalize readoutFlipped key fs' = y
    cases b <;> cases x <;> cases y <;> simp [bit]
  · intro h
    obtain ⟨m0, hm0⟩ := contract_exists
    obtain ⟨gs, u', h1, h2, h3, h4⟩ := C75_minimum_explanation D hD key s hs HO m0 hm0 L hn hL syn hsyn b
    refine ⟨some (bit (b ^^ readoutFlipped key gs)), fun m hm => ?_⟩
    obtain ⟨gs', u'', h1', h2', h3', h4'⟩ := C75_minimum_explanation D hD key s hs HO m hm L hn hL syn hsyn b
    refine ⟨u'', ?_⟩
    rw [h1', h gs' gs ⟨⟨h2', h3'⟩, fun fs' h' => h4' fs' h'.1 h'.2⟩ ⟨⟨h2, h3⟩, fun fs' h' => h4 fs' h'.1 h'.2⟩]

/-! ### Times of equal parity -/

theorem faultsBetween_parity {key : Key} {dh dw T : Int} (H : Long key dh dw) (hT : 0 < T) {a b : Node} (ha : GNode key dh dw T a)
    (hb : GNode key dh dw T b) (hr : a.t ≠ -1 ∧ b.t ≠ -1) (ht : (a.t - b.t) % 2 = 0) :
    (faultsBetween key dh dw a b : Int) % 2 = (level key a + level key b) % 2 := by
  obtain ⟨fa, -, -, -⟩ := gnode_spot H hT ha
  obtain ⟨fb, -, -, -⟩ := gnode_spot H hT hb
  unfold InFrame at fa fb
  unfold faultsBetween straight viaFirst viaLast timeApart
  rw [if_neg (by tauto)]
  generalize level key a = la at *
  generalize level key b = lb at *
  generalize lane key a = ka at *
  generalize lane key b = kb at *
  generalize distance key dh dw = d at *
  have hpar : (la + ka) % 2 = (lb + kb) % 2 := by rw [fa.2.2.2.2, fb.2.2.2.2]
  clear fa fb ha hb H
  omega

/-- The cost of a split of hits at times of equal parity is odd or even according to the number of single hits that are nearer to the first boundary. -/
theorem splitCost_parity {key : Key} {dh dw T : Int} (H : Long key dh dw) (hT : 0 < T) {L : List Node}
    (hL : ∀ n ∈ L, GNode key dh dw T n) (hr : ∀ n ∈ L, n.t ≠ -1) (ht : ∀ a ∈ L, ∀ b ∈ L, (a.t - b.t) % 2 = 0)
    {P : List (Node × Node)} {Q : List Node} (h : Split L P Q) :
    (splitCost key dh dw P Q : Int) % 2 = ((L.map (level key)).sum + L.length + bit (oddFirst key dh dw Q)) % 2 := by
  have hodd : distance key dh dw % 2 = 1 := by
    have := H.1
    unfold OddPos at this
    cases key <;> simp only [distance] <;> omega
  have hmem : ∀ n ∈ ends P ++ Q, n ∈ L := fun n hn => h.mem_iff.1 hn
  have hP : ∀ P : List (Node × Node), (∀ n ∈ ends P, n ∈ L) →
      (((P.map fun p => faultsBetween key dh dw p.1 p.2).sum : Nat) : Int) % 2 = (((ends P).map (level key)).sum) % 2 := by
    intro P
    induction P with
    | nil => intro _; rfl
    | cons p P ih =>
      intro hp
      have ih := ih fun n hn => hp n (by rw [ends_cons]; simp [hn])
      have m1 := hp p.1 (by rw [ends_cons]; simp)
      have m2 := hp p.2 (by rw [ends_cons]; simp)
      have := faultsBetween_parity H hT (hL _ m1) (hL _ m2) ⟨hr _ m1, hr _ m2⟩ (ht _ m1 _ m2)
      rw [ends_cons, List.map_cons, List.map_cons, List.map_cons, List.sum_cons, List.sum_cons, List.sum_cons, Nat.cast_add]
      omega
  have hQ : ∀ Q : List Node, (∀ n ∈ Q, n ∈ L) →
      (((Q.map (toBoundary key dh dw)).sum : Nat) : Int) % 2 = ((Q.map (level key)).sum + Q.length + bit (oddFirst key dh dw Q)) % 2 := by
    intro Q
    induction Q with
    | nil => intro _; rfl
    | cons q Q ih =>
      intro hq
      have ih := ih fun n hn => hq n (List.mem_cons_of_mem _ hn)
      obtain ⟨fa, -, -, -⟩ := gnode_spot H hT (hL _ (hq q List.mem_cons_self))
      unfold InFrame at fa
      have e : oddFirst key dh dw (q :: Q) = (decide (2 * level key q < distance key dh dw) ^^ oddFirst key dh dw Q) := rfl
      rw [List.map_cons, List.map_cons, List.sum_cons, List.sum_cons, List.length_cons, e, Nat.cast_add, Nat.cast_add, Nat.cast_one]
      have hb : (toBoundary key dh dw q : Int) % 2 = (level key q + 1 + bit (decide (2 * level key q < distance key dh dw))) % 2 := by
        unfold toBoundary bit
        by_cases hc : 2 * level key q < distance key dh dw
        · simp only [hc, decide_true, if_true]
          omega
        · simp only [hc, decide_false, Bool.false_eq_true, if_false]
          omega
      have hx : ∀ a b : Bool, bit (a ^^ b) % 2 = (bit a + bit b) % 2 := by decide
      have := hx (decide (2 * level key q < distance key dh dw)) (oddFirst key dh dw Q)
      omega
  have h1 := hP P fun n hn => hmem n (List.mem_append_left _ hn)
  have h2 := hQ Q fun n hn => hmem n (List.mem_append_right _ hn)
  have h3 : (L.map (level key)).sum = ((ends P).map (level key)).sum + (Q.map (level key)).sum := by
    rw [← (h.map (level key)).sum_eq, List.map_append, List.sum_append]
  have h4 : (L.length : Int) = 2 * P.length + Q.length := by
    rw [← h.length_eq, List.length_append, length_ends]
    push_cast
    omega
  unfold splitCost
  rw [Nat.cast_add]
  omega

/-- C119: if no two hits lie an odd number of time steps apart – in particular, if all lie in one time step – all cheapest splits have the same
parity. -/
theorem C119_no_ties (D : Decoder) (hD : Made D) (key : Key) (s : SGraph) (hs : D.S key = some s) (HO : OddPos D.dh D.dw)
    (L : List Node) (hL : ∀ n ∈ L, HitPlace key D n) (ht : ∀ a ∈ L, ∀ b ∈ L, (a.t - b.t) % 2 = 0)
    (x y : Bool) (hx : x ∈ cheapParities key D.dh D.dw L) (hy : y ∈ cheapParities key D.dh D.dw L) : x = y := by
  obtain ⟨P, Q, h1, rfl⟩ := ((C112_search key D.dh D.dw L).2.2 x).1 hx
  obtain ⟨P', Q', h2, rfl⟩ := ((C112_search key D.dh D.dw L).2.2 y).1 hy
  by_cases hne : L = []
  · subst hne
    have e : Q = [] := (List.append_eq_nil_iff.1 (List.perm_nil.1 h1.1)).2
    have e' : Q' = [] := (List.append_eq_nil_iff.1 (List.perm_nil.1 h2.1)).2
    rw [e, e']
  obtain ⟨n0, h0⟩ := List.exists_mem_of_ne_nil _ hne
  have R := ready_of_hit hD hs HO (hL n0 h0)
  have hLg : ∀ n ∈ L, GNode key D.dh D.dw D.T n := fun n h => hitPlace_gnode (hL n h)
  have hLr : ∀ n ∈ L, n.t ≠ -1 := fun n h => hitPlace_real (hL n h)
  have e1 := splitCost_parity R.long R.pos hLg hLr ht h1.1
  have e2 := splitCost_parity R.long R.pos hLg hLr ht h2.1
  have e3 : splitCost key D.dh D.dw P Q = splitCost key D.dh D.dw P' Q' := le_antisymm (h1.2 _ _ h2.1) (h2.2 _ _ h1.1)
  rw [e3] at e1
  revert e1 e2
  generalize oddFirst key D.dh D.dw Q = a
  generalize oddFirst key D.dh D.dw Q' = b
  intro e1 e2
  cases a <;> cases b <;> simp only [bit, if_true, if_false, Bool.false_eq_true] at * <;> omega

/-- C119: for such hits the answer does not depend on the library. -/
theorem C119_same (D : Decoder) (hD : Made D) (key : Key) (s : SGraph) (hs : D.S key = some s) (HO : OddPos D.dh D.dw)
    (L : List Node) (hn : L.Nodup) (hL : ∀ n ∈ L, HitPlace key D n) (ht : ∀ a ∈ L, ∀ b ∈ L, (a.t - b.t) % 2 = 0)
    (syn : SynDict) (hsyn : syn (rtypeOf key) = some L) (b : Bool) :
    ∃ v, ∀ m, Contract m → ∃ u, correctHits D m syn (rtypeOf key) (some (bit b)) none = .ok (v, u) := by
  rw [C119_determined D hD key s hs HO L hn hL syn hsyn b]
  intro fs fs' h h'
  exact C119_no_ties D hD key s hs HO L hL ht _ _ ((C119_search D hD key s hs HO L hn hL _).1 ⟨fs, h, rfl⟩)
    ((C119_search D hD key s hs HO L hn hL _).1 ⟨fs', h', rfl⟩)

/-- C119: with one time step, decoding a string gives the same for all libraries: the same answer or the same exception. -/
theorem C119_one_step (D : Decoder) (hD : Made D) (HO : OddPos D.dh D.dw) (hT : D.T = 1) (m m' : Matcher) (hm : Contract m) (hm' : Contract m')
    (s : Str) (rt : RType) (b : Bool) (hits : Hits) (hp : parseReadout D.dh D.dw s rt = .ok (bit b, hits)) :
    correctString D m s rt none = correctString D m' s rt none := by
  obtain ⟨d1, d2, d3, d4⟩ := C17_hits_distinct D.dh D.dw HO s rt (bit b) hits hp
  unfold correctString
  rw [hp]
  have main : ∀ key, rt = rtypeOf key → ∀ L, L.Nodup → (∀ n ∈ L, Site key D.dh D.dw n.r2 n.c2 ∧ 0 ≤ n.t) → hits.toDict (rtypeOf key) = some L →
      (correctHits D m hits.toDict rt (some (bit b)) none >>= fun q => pure q.1 : Py (Option Int)) =
      correctHits D m' hits.toDict rt (some (bit b)) none >>= fun q => pure q.1 := by
    intro key hrt L hn hL hsyn
    rw [hrt]
    by_cases hne : L = []
    · subst hne
      rw [C28_no_hits D m _ _ _ none hsyn, C28_no_hits D m' _ _ _ none hsyn]
    cases hS : D.S key with
    | none =>
      have : ∀ m, correctHits D m hits.toDict (rtypeOf key) (some (bit b)) none = .error .keyError := by
        intro m
        unfold correctHits corrections
        rw [hsyn]
        simp only [if_neg hne, RType.key_rtypeOf, hS, bind, Except.bind]
      rw [this m, this m']
    | some g =>
      by_cases hall : ∀ n ∈ L, n.t < D.T
      · have hL' : ∀ n ∈ L, HitPlace key D n := fun n h => ⟨(hL n h).2, hall n h, (hL n h).1⟩
        obtain ⟨v, hv⟩ := C119_same D hD key g hS HO L hn hL'
          (fun x hx y hy => by
            have h1 := (hL' x hx).1
            have h2 := (hL' x hx).2.1
            have h3 := (hL' y hy).1
            have h4 := (hL' y hy).2.1
            omega) _ hsyn b
        obtain ⟨u, h1⟩ := hv m hm
        obtain ⟨u', h2⟩ := hv m' hm'
        rw [h1, h2]
        rfl
      · push Not at hall
        obtain ⟨n, hmem, hlate⟩ := hall
        have hsite := (hL n hmem).1
        have H : Long key D.dh D.dw := by
          refine ⟨HO, ?_⟩
          unfold OddPos at HO
          cases key
          · simp only [Site, XSite] at hsite ⊢; omega
          · simp only [Site, ZSite] at hsite ⊢; omega
        have hout : ¬ HitPlace key D n := fun h => absurd h.2.1 (by omega)
        have hv : n ∉ D.virt key := by
          rw [(made_facts hD).1]
          intro h
          have := ((mem_virtualNodes HO).1 h).1
          have := (hL n hmem).2
          omega
        rw [C96_outside hD hS H (ep := none) (Or.inl rfl) m _ L hsyn hmem hout hv, C96_outside hD hS H (ep := none) (Or.inl rfl) m' _ L hsyn hmem hout hv]
  cases rt with
  | X => exact main .X rfl hits.X d1 (fun n h => ⟨(d3 n h).1, (d3 n h).2.1⟩) rfl
  | Z => exact main .Z rfl hits.Z d2 (fun n h => ⟨(d4 n h).1, (d4 n h).2.1⟩) rfl
  | other => rfl
  | none => rfl

/-- C119: with two or more time steps this is not so: on every lattice there are two hits for which the library decides. -/
theorem C119_ties (D : Decoder) (hD : Made D) (key : Key) (s : SGraph) (hs : D.S key = some s) (H : Long key D.dh D.dw) (hT : 2 ≤ D.T) :
    ∃ L : List Node, L.Nodup ∧ L.length = 2 ∧ (∀ n ∈ L, HitPlace key D n) ∧ ∀ (syn : SynDict), syn (rtypeOf key) = some L → ∀ b x : Bool,
      ∃ m, Contract m ∧ ∃ u, correctHits D m syn (rtypeOf key) (some (bit b)) none = .ok (some (bit (b ^^ x)), u) := by
  have HO := H.1
  have hd := long_sizes H
  have hodd : distance key D.dh D.dw % 2 = 1 := by
    have := H.1
    unfold OddPos at this
    cases key <;> simp only [distance] <;> omega
  obtain ⟨k, k', f1, f2, hk⟩ : ∃ k k', InFrame key D.dh D.dw 1 k ∧ InFrame key D.dh D.dw ((distance key D.dh D.dw + 1) / 2) k' ∧
      (k - k').natAbs ≤ 1 := by
    unfold InFrame
    generalize distance key D.dh D.dw = d at *
    generalize laneMax key D.dh D.dw = B at *
    cases key <;> dsimp only
    · by_cases h : ((d + 1) / 2) % 2 = 0
      · exact ⟨0, 1, by omega⟩
      · exact ⟨0, 0, by omega⟩
    · by_cases h : ((d + 1) / 2) % 2 = 0
      · exact ⟨1, 0, by omega⟩
      · exact ⟨1, 1, by omega⟩
  have facts : ∀ t l k, 0 ≤ t → t < D.T → InFrame key D.dh D.dw l k → 0 < l → l < distance key D.dh D.dw →
      ∃ n : Node, n.t = t ∧ level key n = l ∧ lane key n = k ∧ HitPlace key D n := by
    intro t l k h0 h1 hf hl hl'
    have g := spot_gnode (T := D.T) H h0 h1 hf
    refine ⟨spot key D.dh D.dw t l k, ?_⟩
    cases key
    · simp only [distance, spot, level, lane, HitPlace] at *
      rw [if_neg (by omega)] at g ⊢
      refine ⟨rfl, by omega, by omega, ?_⟩
      rcases g with g | g
      · exact g
      · exact absurd g.1 (by simp only; omega)
    · simp only [distance, spot, level, lane, HitPlace] at *
      rw [if_neg (by omega)] at g ⊢
      refine ⟨rfl, by omega, by omega, ?_⟩
      rcases g with g | g
      · exact g
      · exact absurd g.1 (by simp only; omega)
  obtain ⟨a, a1, a2, a3, a4⟩ := facts 0 _ _ (le_refl _) (by omega) f1 (by omega) (by omega)
  obtain ⟨b, b1, b2, b3, b4⟩ := facts 1 _ _ (by omega) (by omega) f2 (by omega) (by omega)
  have hab : a ≠ b := by
    intro h
    rw [h, b1] at a1
    omega
  have hmem : ∀ n ∈ [a, b], HitPlace key D n := by
    intro n hn
    rcases List.mem_cons.1 hn with rfl | hn
    · exact a4
    · rw [List.mem_singleton.1 hn]; exact b4
  have c1 : ((faultsBetween key D.dh D.dw a b : Nat) : Int) = (distance key D.dh D.dw + 1) / 2 := by
    unfold faultsBetween straight viaFirst viaLast timeApart
    rw [a2, b2, a3, b3, a1, b1, if_neg (by omega)]
    generalize distance key D.dh D.dw = d at *
    omega
  have c2 : ((toBoundary key D.dh D.dw a : Nat) : Int) = 1 := by
    unfold toBoundary
    rw [a2]
    omega
  have c3 : ((toBoundary key D.dh D.dw b : Nat) : Int) = (distance key D.dh D.dw - 1) / 2 := by
    unfold toBoundary
    rw [b2]
    omega
  have s1 : Split [a, b] [(a, b)] [] := List.Perm.refl _
  have s2 : Split [a, b] [] [a, b] := List.Perm.refl _
  have e1 : splitCost key D.dh D.dw [(a, b)] [] = faultsBetween key D.dh D.dw a b := by simp [splitCost]
  have e2 : splitCost key D.dh D.dw [] [a, b] = toBoundary key D.dh D.dw a + toBoundary key D.dh D.dw b := by simp [splitCost]
  have e12 : splitCost key D.dh D.dw [] [a, b] = splitCost key D.dh D.dw [(a, b)] [] := by
    rw [e1, e2]
    omega
  have hall : ∀ P' Q', Split [a, b] P' Q' → splitCost key D.dh D.dw [(a, b)] [] ≤ splitCost key D.dh D.dw P' Q' := by
    intro P' Q' h
    obtain ⟨x, hx, h1, -⟩ := splits_complete (key := key) (dh := D.dh) (dw := D.dw) 2 [a, b] P' Q' (Nat.le_refl _) h
    rw [← h1]
    have : x = ([], [a, b]) ∨ x = ([(a, b)], []) := by
      simpa [splits] using hx
    rcases this with rfl | rfl
    · exact e12.ge
    · exact Nat.le_refl _
  refine ⟨[a, b], by simp [hab], rfl, hmem, fun syn hsyn v x => ?_⟩
  rw [C119_answers D hD key s hs HO _ (by simp [hab]) hmem syn hsyn v x, C119_search D hD key s hs HO _ (by simp [hab]) hmem,
    (C112_search key D.dh D.dw [a, b]).2.2]
  cases x
  · exact ⟨[(a, b)], [], ⟨s1, hall⟩, rfl⟩
  · refine ⟨[], [a, b], ⟨s2, fun P' Q' h => by rw [e12]; exact hall P' Q' h⟩, ?_⟩
    unfold oddFirst
    rw [List.map_cons, List.map_cons, List.map_nil, xorAll_cons, xorAll_cons, a2, b2,
      decide_eq_true (by omega : 2 * 1 < distance key D.dh D.dw), decide_eq_false (by omega)]
    rfl

/-- On the decoder of the other examples the library decides about these two hits in neighbouring time steps … -/
example : ∃ D, Made D ∧ ∀ (syn : SynDict) (b x : Bool), syn .Z = some [⟨0, 1, 1⟩, ⟨1, 3, 3⟩] →
    ∃ m, Contract m ∧ ∃ u, correctHits D m syn .Z (some (bit b)) none = .ok (some (bit (b ^^ x)), u) := by
  obtain ⟨D, sx, sz, h, h1, h2, h3, h4, h5, h6, h7⟩ := demo_decoder
  refine ⟨D, h, fun syn b x hsyn => ?_⟩
  have hL : ∀ n ∈ ([⟨0, 1, 1⟩, ⟨1, 3, 3⟩] : List Node), HitPlace .Z D n := by
    intro n hn
    simp only [List.mem_cons, List.not_mem_nil, or_false] at hn
    rcases hn with rfl | rfl <;> unfold HitPlace Site ZSite <;> rw [h1, h2, h3] <;> decide
  refine (C119_answers D h .Z sz h5 h7.1 _ (by decide) hL syn hsyn b x).2 ?_
  rw [C119_search D h .Z sz h5 h7.1 _ (by decide) hL, h1, h2]
  cases x <;> decide +kernel

/-- … but not about the same two in one time step. -/
example : ∃ D, Made D ∧ ∀ (syn : SynDict) (b : Bool), syn .Z = some [⟨1, 1, 1⟩, ⟨1, 3, 3⟩] →
    ∃ v, ∀ m, Contract m → ∃ u, correctHits D m syn .Z (some (bit b)) none = .ok (v, u) := by
  obtain ⟨D, sx, sz, h, h1, h2, h3, h4, h5, h6, h7⟩ := demo_decoder
  refine ⟨D, h, fun syn b hsyn => C119_same D h .Z sz h5 h7.1 _ (by decide) ?_ (by decide) syn hsyn b⟩
  intro n hn
  simp only [List.mem_cons, List.not_mem_nil, or_false] at hn
  rcases hn with rfl | rfl <;> unfold HitPlace Site ZSite <;> rw [h1, h2, h3] <;> decide

/-- A decoder for one time step exists, and strings that parse. -/
example : ∃ D, Made D ∧ OddPos D.dh D.dw ∧ D.T = 1 ∧ ∃ hits, parseReadout D.dh D.dw "1 00000100 00000000".toList .Z = .ok (bit true, hits) ∧
    hits.Z ≠ [] := by
  obtain ⟨D, sx, sz, h, h1, h2, h3, -, -⟩ := C21_surface_built 900 { d := some (.tup [.int 3, .int 3]), T := some 1 } 3 3 1
    (by unfold OddPos; decide) (Or.inl rfl) rfl (by decide)
  refine ⟨D, Or.inl ⟨_, _, h⟩, by rw [h1, h2]; unfold OddPos; decide, h3, ?_⟩
  have hp := C15_parse_is_changes 3 3 (by unfold OddPos; decide) (by decide) .Z '1' (by decide) ["00000000".toList, "00000100".toList] (by unfold IsBits; decide)
  rw [h1, h2]
  exact ⟨_, hp, by decide +kernel⟩

end Qtc
