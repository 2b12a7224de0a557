import Mathlib.Algebra.BigOperators.Fin
import Mathlib.Data.Fintype.Pi
import Verif.Proof.QTrack
/-!
Single faults, readouts of all data qubits, and comparisons of syndrome rounds.
-/
namespace Qtc
open Spec Function

variable {cls : QClass} {q : TQubit} {dh dw : Int} {ops : List QOp} {w : World} {sz : Str → Nat} {code : Code} {name : Str}

/-! ### The ground state -/

theorem ground_ne_zero : ground ≠ 0 := by
  intro h
  have := congrFun h fun _ => false
  simp [ground] at this

theorem ground_isZero (x : Qubit) : IsZero x ground := by
  funext c
  show (if c x = true then ground c else 0) = 0
  split
  · next h =>
    unfold ground
    rw [if_neg fun h' => by rw [h' x] at h; cases h]
  · rfl

theorem ground_synZero : SynZero name dh dw ground := ⟨fun _ _ => ground_isZero _, fun _ _ => ground_isZero _⟩

/-! ### Sum of the projections -/

/-- Outcomes for the first `n` observables. -/
def outcomesOf {n : Nat} (m : Fin n → Bool) (k : Nat) : Bool := if h : k < n then m ⟨k, h⟩ else false

theorem jointProj_sum (l : List Op) : ∑ m : Fin l.length → Bool, jointProj l (outcomesOf m) = 1 := by
  induction l with
  | nil => simp [jointProj]
  | cons A l ih =>
    have e : ∀ m : Fin (l.length + 1) → Bool, jointProj (A :: l) (outcomesOf m) = projOf A (m 0) * jointProj l (outcomesOf (Fin.tail m)) := by
      intro m
      show projOf A (outcomesOf m 0) * jointProj l (fun k => outcomesOf m (k + 1)) = _
      congr 1
      refine jointProj_congr fun k hk => ?_
      unfold outcomesOf
      rw [dif_pos (by omega), dif_pos hk]
      rfl
    show ∑ m : Fin (l.length + 1) → Bool, jointProj (A :: l) (outcomesOf m) = 1
    simp only [e]
    rw [← (Fin.consEquiv fun _ => Bool).sum_comp, Fintype.sum_prod_type]
    have e2 : ∀ (b : Bool) (m : Fin l.length → Bool), projOf A ((Fin.consEquiv fun _ => Bool) (b, m) 0) *
        jointProj l (outcomesOf (Fin.tail ((Fin.consEquiv fun _ => Bool) (b, m)))) = projOf A b * jointProj l (outcomesOf m) := fun _ _ => rfl
    simp only [e2, ← Finset.mul_sum]
    rw [ih]
    simp only [mul_one]
    rw [Fintype.sum_bool, add_comm]
    exact projOf_add A

/-! ### Readouts of all data qubits -/

theorem all_value {key : Key} {m : Nat → Bool} {l : List Int} (hl : ∀ i ∈ l, 0 ≤ i) {i : Int} (hi : i ∈ l) (ψ : Psi) :
    HasValue (fop code key name i) (m i.toNat) ((l.map fun i => projOf (fop code key name i) (m i.toNat)).prod ψ) := by
  induction l with
  | nil => cases hi
  | cons j l ih =>
    rw [List.map_cons, List.prod_cons, Module.End.mul_apply]
    by_cases e : i = j
    · subst e
      exact hasValue_proj (fop_sq code key name i) _ _
    · exact (ih (fun i h => hl i (by simp [h])) ((List.mem_cons.1 hi).resolve_left e)).of_comm
        (Commute.proj (fop_comm key (hl i hi) (hl j (by simp))) _)

theorem string_value {key : Key} {m : Int → Bool} {l : List Int} {ψ : Psi} (h : ∀ i ∈ l, HasValue (fop code key name i) (m i) ψ) :
    HasValue (fstr code key name l) (xorAll (l.map m)) ψ := by
  induction l with
  | nil => exact hasValue_one ψ
  | cons i l ih =>
    rw [fstr_cons]
    have := (h i (by simp)).mul (ih fun j hj => h j (by simp [hj]))
    rwa [show xorAll ((i :: l).map m) = (m i ^^ xorAll (l.map m)) from rfl]

/-- The parity of the bits read for a string that has a value is that value. -/
theorem ReadsAll.parity {key : Key} {r : Str} {s s' : QState} (h : ReadsAll code name dh dw key r s s') {l : List Int}
    (hl : ∀ i ∈ l, i ∈ allQubits dh dw) {v : Bool} (hv : HasValue (fstr code key name l) v s.psi) :
    xorAll (l.map fun i => s'.mem ⟨r, i.toNat⟩) = v := by
  obtain ⟨m, e, hne, hm⟩ := h
  have hb : ∀ i ∈ l, s'.mem ⟨r, i.toNat⟩ = m i.toNat := by
    intro i hi
    have := mem_allQubits.1 (hl i hi)
    rw [hm, writeReg_mem (by omega)]
  rw [List.map_congr_left hb]
  have hφ : ((allQubits dh dw).map fun i => projOf (fop code key name i) (m i.toNat)).prod s.psi ≠ 0 := fun h => hne (by rw [e, h, map_zero])
  refine (string_value fun i hi => all_value all_nonneg (hl i hi) s.psi).unique (hv.of_comm ?_) hφ
  have hc : ∀ L : List Int, (∀ i ∈ L, 0 ≤ i) → Commute (fstr code key name l) ((L.map fun i => projOf (fop code key name i) (m i.toNat)).prod) := by
    intro L hL
    induction L with
    | nil => exact Commute.one_right _
    | cons j L ih =>
      rw [List.map_cons, List.prod_cons]
      refine Commute.mul_right (Commute.proj ?_ _) (ih fun i h => hL i (by simp [h]))
      exact (fstr_comm fun i hi => fop_comm key (hL j (by simp)) (all_nonneg i (hl i hi))).symm
  exact hc _ all_nonneg

theorem col_all (H : OddPos dh dw) : ∀ i ∈ colQubits dh dw 0, i ∈ allQubits dh dw := by
  intro i hi
  unfold colQubits at hi
  obtain ⟨k, hk, rfl⟩ := List.mem_map.1 hi
  rw [List.mem_range] at hk
  unfold OddPos at H
  have := site_mem (dh := dh) (dw := dw) (r := k) (c := 0) (by omega)
  simpa using this

theorem row_all (H : OddPos dh dw) : ∀ i ∈ rowQubits dw 0, i ∈ allQubits dh dw := by
  intro i hi
  unfold rowQubits at hi
  obtain ⟨k, hk, rfl⟩ := List.mem_map.1 hi
  rw [List.mem_range] at hk
  unfold OddPos at H
  exact site_mem (dh := dh) (dw := dw) (r := 0) (c := k) (by omega)

theorem around_all {p : Int × Int} : ∀ i ∈ around dh dw p, i ∈ allQubits dh dw := by
  intro i hi
  have h := mem_around.1 hi
  unfold cornersOf at h
  have key : ∀ r c, some i = dataAt dh dw r c → i ∈ allQubits dh dw := by
    intro r c e
    unfold dataAt at e
    split at e
    · next h' => 
      cases e
      exact site_mem h'
    · cases e
  simp only [List.mem_cons, List.not_mem_nil, or_false] at h
  rcases h with h | h | h | h
  all_goals exact key _ _ h

/-! ### Single faults -/

theorem xorAll_any {α : Type} (f : α → Bool) {l : List α} (h : l.Pairwise fun a b => ¬ (f a = true ∧ f b = true)) : xorAll (l.map f) = l.any f := by
  induction l with
  | nil => rfl
  | cons a l ih =>
    rw [List.pairwise_cons] at h
    rw [List.any_cons, ← ih h.2]
    show (f a ^^ xorAll (l.map f)) = _
    cases ha : f a
    · simp
    · have : xorAll (l.map f) = false := by
        rw [ih h.2]
        simp only [List.any_eq_false, Bool.not_eq_true]
        intro b hb
        have := h.1 b hb
        rw [ha] at this
        cases hfb : f b
        · rfl
        · exact absurd ⟨rfl, hfb⟩ this
      simp [this]

theorem letter_passes (a b : Letter) {i j : Int} (hi : 0 ≤ i) (hj : 0 ≤ j) :
    Passes (decide (j = i) && decide (b ≠ a)) (a.op (dataQ name i)) (b.op (dataQ name j)) := by
  by_cases e : j = i
  · subst e
    by_cases e' : b = a
    · subst e'
      simpa using passes_false.2 (letter_comm_self _ _ b)
    · simpa [e'] using letter_anti (Ne.symm e') (dataQ name j)
  · simpa [e] using passes_false.2 (letter_comm (fun h => e (dataQ_inj hi hj h).symm) a b)

theorem pstr_passes (a : Letter) {i : Int} (hi : 0 ≤ i) {l : List (Letter × Option Int)} (hl : ∀ e ∈ l, ∀ j, e.2 = some j → 0 ≤ j) :
    Passes (xorAll (l.map fun e => decide (e.2 = some i) && decide (e.1 ≠ a))) (a.op (dataQ name i))
      (pstr (l.filterMap fun e => e.2.map fun i => (e.1, dataQ name i))) := by
  induction l with
  | nil => exact Passes.one_right _
  | cons e l ih =>
    have ih := ih fun e h => hl e (by simp [h])
    obtain ⟨b, c⟩ := e
    cases c with
    | none =>
      rw [List.filterMap_cons_none rfl]
      rw [show xorAll (((b, none) :: l).map fun e => decide (e.2 = some i) && decide (e.1 ≠ a)) =
        (false ^^ xorAll (l.map fun e => decide (e.2 = some i) && decide (e.1 ≠ a))) by
          show ((decide ((none : Option Int) = some i) && _) ^^ xorAll _) = _
          simp, Bool.false_xor]
      exact ih
    | some j =>
      have hp := letter_passes (name := name) a b hi (hl (b, some j) (by simp) j rfl)
      have := hp.mul_right ih
      have e1 : ((b, some j) :: l).filterMap (fun e : Letter × Option Int => e.2.map fun i => (e.1, dataQ name i)) =
          (b, dataQ name j) :: l.filterMap fun e => e.2.map fun i => (e.1, dataQ name i) := rfl
      rw [e1]
      have e2 : (decide ((some j : Option Int) = some i)) = decide (j = i) := by simp
      show Passes ((decide ((some j : Option Int) = some i) && decide (b ≠ a)) ^^ _) _ _
      rw [e2]
      exact this

theorem corners_pairwise (H : OddPos dh dw) {key : Key} {p : Int × Int} (hp : SiteOf dh dw key p) (i : Int) :
    (cornersOf dh dw p.1 p.2).Pairwise fun a b => ¬ (a = some i ∧ b = some i) := by
  have := around_nodup H hp
  unfold around at this
  generalize cornersOf dh dw p.1 p.2 = l at this
  induction l with
  | nil => exact List.Pairwise.nil
  | cons c l ih =>
    cases c with
    | none =>
      rw [List.filterMap_cons_none rfl] at this
      exact List.pairwise_cons.2 ⟨fun b _ h => (by cases h.1), ih this⟩
    | some j =>
      rw [List.filterMap_cons_some (f := id) (b := j) rfl, List.nodup_cons] at this
      refine List.pairwise_cons.2 ⟨?_, ih this.2⟩
      rintro b hb ⟨h1, h2⟩
      refine this.1 (List.mem_filterMap.2 ⟨b, hb, ?_⟩)
      rw [h2, ← h1]; rfl

theorem detects_passes (H : OddPos dh dw) {key : Key} {p : Int × Int} (hp : SiteOf dh dw key p) (a : Letter) {i : Int} (hi : 0 ≤ i) :
    Passes (detects code dh dw key a i p) (a.op (dataQ name i)) (checkOp code name dh dw key p) := by
  unfold detects checkOp
  have hnn : ∀ e ∈ (checkLetters code key).zip (cornersOf dh dw p.1 p.2), ∀ j, e.2 = some j → 0 ≤ j := by
    rintro ⟨b, c⟩ he j hj
    have : some j ∈ cornersOf dh dw p.1 p.2 := hj ▸ (List.of_mem_zip he).2
    exact around_nonneg j (mem_around.2 this)
  have := pstr_passes (name := name) a hi hnn
  rwa [xorAll_any] at this
  have hpw := corners_pairwise H hp i
  have hz : ∀ (L : List Letter) (C : List (Option Int)), C.Pairwise (fun a b => ¬ (a = some i ∧ b = some i)) →
      (L.zip C).Pairwise fun e e' => ¬ ((decide (e.2 = some i) && decide (e.1 ≠ a)) = true ∧ (decide (e'.2 = some i) && decide (e'.1 ≠ a)) = true) := by
    intro L
    induction L with
    | nil => intro C _; exact List.Pairwise.nil
    | cons b L ih =>
      intro C hC
      cases C with
      | nil => exact List.Pairwise.nil
      | cons c C =>
        rw [List.pairwise_cons] at hC
        rw [List.zip_cons_cons, List.pairwise_cons]
        refine ⟨?_, ih C hC.2⟩
        rintro ⟨b', c'⟩ h ⟨h1, h2⟩
        simp only [Bool.and_eq_true, decide_eq_true_eq] at h1 h2
        exact hC.1 c' (List.of_mem_zip h).2 ⟨h1.1, h2.1⟩
  exact hz _ _ hpw

/-- The bits of the syndrome that a Pauli operator on a data qubit flips. -/
def flips (code : Code) (dh dw : Int) (a : Letter) (i : Int) (k : Nat) : Bool :=
  match (zSites dh dw)[k]? with
  | some p => detects code dh dw .Z a i p
  | none => match (xSites dh dw)[k - (zSites dh dw).length]? with
    | some p => detects code dh dw .X a i p
    | none => false

theorem flips_passes (H : OddPos dh dw) (a : Letter) {i : Int} (hi : 0 ≤ i) {k : Nat} {C : Op}
    (hC : (checks code name dh dw)[k]? = some C) : Passes (flips code dh dw a i k) (a.op (dataQ name i)) C := by
  unfold checks at hC
  unfold flips
  by_cases hk : k < (zSites dh dw).length
  · rw [List.getElem?_append_left (by rw [List.length_map]; exact hk), List.getElem?_map, Option.map_eq_some_iff] at hC
    obtain ⟨p, hp, rfl⟩ := hC
    rw [hp]
    exact detects_passes H (key := .Z) (mem_zSites.1 (List.mem_of_getElem? hp)) a hi
  · rw [List.getElem?_append_right (by rw [List.length_map]; omega), List.length_map, List.getElem?_map, Option.map_eq_some_iff] at hC
    obtain ⟨p, hp, rfl⟩ := hC
    rw [List.getElem?_eq_none (by omega : (zSites dh dw).length ≤ k), hp]
    exact detects_passes H (key := .X) (mem_xSites.1 (List.mem_of_getElem? hp)) a hi

theorem syndrome_fault (H : OddPos dh dw) (a : Letter) {i : Int} (hi : 0 ≤ i) {m : Nat → Bool} {ψ : Psi} (h : Syndrome code name dh dw m ψ) :
    Syndrome code name dh dw (fun k => m k ^^ flips code dh dw a i k) (a.op (dataQ name i) ψ) := fun k C hC =>
  (h k C hC).passes (flips_passes H a hi hC).symm

theorem fault_ne_zero (a : Letter) (x : Qubit) {ψ : Psi} (h : ψ ≠ 0) : a.op x ψ ≠ 0 := ne_zero_of_sq (letter_sq a x) h

/-! ### The first stabilization -/

/-- Through gentle operations: all syndromes measured are the same. -/
theorem syndrome_some {l : List QOp} (A : After cls q dh dw ops w) (hg : ∀ o ∈ l, Gentle cls dh dw o) {s s' : QState}
    (h0 : s.psi ≠ 0) (hz : SynZero q.lat.name dh dw s.psi) (hR : Run sz (addedAll q l w) s s') :
    SynZero q.lat.name dh dw s'.psi ∧ ∃ m, (.stabilize ∈ l → Syndrome cls.code q.lat.name dh dw m s'.psi) ∧
      (∀ t : Nat, t < ops.count .stabilize → ∀ k, s'.mem ⟨roundName q.lat.name t, k⟩ = s.mem ⟨roundName q.lat.name t, k⟩) ∧
      ∀ t : Nat, ops.count .stabilize ≤ t → t < ops.count .stabilize + l.count .stabilize →
        ∀ k < (xSites dh dw).length + (zSites dh dw).length, s'.mem ⟨roundName q.lat.name t, k⟩ = m k := by
  induction l generalizing ops w s with
  | nil =>
    rw [addedAll_nil] at hR
    have : s' = s := hR
    subst this
    exact ⟨hz, fun _ => false, fun h => (by cases h), fun t ht k => rfl, fun t h1 h2 => absurd h2 (by simp; omega)⟩
  | cons o l ih =>
    obtain ⟨t, h1, h2⟩ := A.run_cons.1 hR
    have hgo := hg o (by simp)
    have hgl : ∀ o ∈ l, Gentle cls dh dw o := fun o' h => hg o' (by simp [h])
    have hz' := gentle_synZero A hgo h0 h1 hz
    by_cases e : o = .stabilize
    · subst e
      obtain ⟨m, e1, e2, e3⟩ := (run_stabilize A h0 hz).1 h1
      have hsy : Syndrome cls.code q.lat.name dh dw m t.psi := by rw [e1]; exact syndrome_joint A.own.2.placed.odd m _
      obtain ⟨i1, i2, i3, i4⟩ := syndrome_all (A.next .stabilize) hgl (A.ne_zero h0 h1) hz' hsy h2
      have hcnt : (ops ++ [QOp.stabilize]).count .stabilize = ops.count .stabilize + 1 := by
        rw [List.count_append, List.count_singleton]
        simp
      have hcnt2 : (QOp.stabilize :: l).count .stabilize = l.count .stabilize + 1 := by
        rw [List.count_cons]
        simp
      rw [hcnt] at i3 i4
      refine ⟨i1, m, fun _ => i2, ?_, ?_⟩
      · intro j hj k
        rw [i3 j (by omega), gentle_mem A hgo h0 h1 hz (fun _ => by omega)]
      · intro j hj1 hj2 k hk
        rw [hcnt2] at hj2
        rcases Nat.lt_or_ge (ops.count .stabilize) j with h | h
        · exact i4 j (by omega) (by omega) k hk
        · have hje : j = ops.count .stabilize := by omega
          subst hje
          rw [i3 _ (by omega), e3, writeReg_mem hk]
    · obtain ⟨i1, m, i2, i3, i4⟩ := ih (A.next o) hgl (A.ne_zero h0 h1) hz' h2
      have hcnt : (ops ++ [o]).count .stabilize = ops.count .stabilize := by
        rw [List.count_append, List.count_singleton, beq_eq_false_iff_ne.2 e]
        simp
      have hcnt2 : (o :: l).count .stabilize = l.count .stabilize := by
        rw [List.count_cons, beq_eq_false_iff_ne.2 e]
        simp
      rw [hcnt] at i3 i4
      rw [hcnt2]
      refine ⟨i1, m, fun h => i2 ((List.mem_cons.1 h).resolve_left (Ne.symm e)), ?_, i4⟩
      intro j hj k
      rw [i3 j (by omega), gentle_mem A hgo h0 h1 hz (fun h => absurd h e)]

/-! ### Comparison of rounds -/

theorem range_filter {α β : Type} (g : α → β) (D : α → Bool) : ∀ (sites : List α) (c : Nat → Prop) [DecidablePred c],
    (∀ k s, sites[k]? = some s → (c k ↔ D s = true)) →
    ((List.range sites.length).flatMap fun k => match sites[k]? with
      | some s => if c k then [g s] else []
      | none => []) = (sites.filter D).map g := by
  intro sites
  induction sites with
  | nil => intro c _ _; rfl
  | cons a l ih =>
    intro c _ h
    rw [List.length_cons, List.range_succ_eq_map, List.flatMap_cons, List.flatMap_map]
    have := ih (fun k => c (k + 1)) fun k s hs => h (k + 1) s (by simpa using hs)
    simp only [List.getElem?_cons_succ, List.getElem?_cons_zero]
    rw [this, List.filter_cons]
    have h0 := h 0 a (by simp)
    by_cases hD : D a = true
    · rw [if_pos (h0.2 hD), if_pos hD]; rfl
    · rw [if_neg (fun h => hD (h0.1 h)), if_neg hD]; rfl

/-- Rounds that agree before and after time `n`. -/
theorem changes_once {sites : List (Int × Int)} {rounds : List (Nat → Bool)} {n : Nat} {f : Nat → Bool} {D : Int × Int → Bool}
    (hn : n + 1 < rounds.length)
    (h1 : ∀ t, t ≤ n → ∀ a, rounds[t]? = some a → ∀ k < sites.length, a k = f k)
    (h2 : ∀ t, n < t → ∀ a, rounds[t]? = some a → ∀ k p, sites[k]? = some p → a k = (f k ^^ D p)) :
    changes sites rounds = (sites.filter D).map fun p => { t := n, r2 := p.1, c2 := p.2 } := by
  unfold changes
  have hpt : ∀ t ∈ List.range (rounds.length - 1), ((List.range sites.length).flatMap fun k =>
      match rounds[t]?, rounds[t+1]?, sites[k]? with
      | some a, some b, some s => if a k ≠ b k then [({ t := t, r2 := s.1, c2 := s.2 } : Node)] else []
      | _, _, _ => []) = if t = n then (sites.filter D).map fun p => { t := n, r2 := p.1, c2 := p.2 } else [] := by
    intro t ht
    rw [List.mem_range] at ht
    have ha := List.getElem?_eq_getElem (show t < rounds.length by omega)
    have hb := List.getElem?_eq_getElem (show t + 1 < rounds.length by omega)
    rw [ha, hb]
    by_cases e : t = n
    · subst e
      rw [if_pos rfl]
      have := range_filter (fun p : Int × Int => ({ t := (t : Int), r2 := p.1, c2 := p.2 } : Node)) D sites
        (fun k => rounds[t] k ≠ rounds[t + 1] k) (by
          intro k s hs
          have hk := (List.getElem?_eq_some_iff.1 hs).1
          rw [h1 t (by omega) _ ha k hk, h2 (t + 1) (by omega) _ hb k s hs]
          cases f k <;> cases D s <;> simp)
      rw [← this]
      refine congrArg (fun F => List.flatMap F _) (funext fun k => ?_)
      cases sites[k]? <;> rfl
    · rw [if_neg e]
      rw [List.flatMap_eq_nil_iff]
      intro k hk
      rw [List.mem_range] at hk
      have hs := List.getElem?_eq_getElem hk
      rw [hs]
      simp only
      rw [if_neg]
      rw [not_not]
      rcases Nat.lt_or_ge t n with h | h
      · rw [h1 t (by omega) _ ha k hk, h1 (t + 1) (by omega) _ hb k hk]
      · rw [h2 t (by omega) _ ha k _ hs, h2 (t + 1) (by omega) _ hb k _ hs]
  refine (List.flatMap_congr hpt).trans ?_
  have : ∀ (N : Nat) (l : List Node), n < N → ((List.range N).flatMap fun t => if t = n then l else []) = l := by
    intro N l hN
    induction N with
    | zero => omega
    | succ N ih =>
      rw [List.range_succ, List.flatMap_append]
      by_cases e : n = N
      · subst e
        rw [List.flatMap_eq_nil_iff.2]
        · simp
        · intro t ht
          rw [List.mem_range] at ht
          rw [if_neg (by omega)]
      · rw [ih (by omega)]
        simp [Ne.symm e]
  exact this _ _ (by omega)

/-- Rounds that all agree. -/
theorem changes_none {sites : List (Int × Int)} {rounds : List (Nat → Bool)} {f : Nat → Bool}
    (h : ∀ (t : Nat) (a : Nat → Bool), rounds[t]? = some a → ∀ k < sites.length, a k = f k) : changes sites rounds = [] := by
  unfold changes
  rw [List.flatMap_eq_nil_iff]
  intro t ht
  rw [List.flatMap_eq_nil_iff]
  intro k hk
  rw [List.mem_range] at ht hk
  have ha := List.getElem?_eq_getElem (show t < rounds.length by omega)
  have hb := List.getElem?_eq_getElem (show t + 1 < rounds.length by omega)
  rw [ha, hb, List.getElem?_eq_getElem hk]
  simp only
  rw [if_neg]
  rw [not_not, h t _ ha k hk, h (t + 1) _ hb k hk]

/-! ### Registers and histories -/

theorem ops_append (q : TQubit) (l l' : List QOp) (w : World) : q.ops (l ++ l') w = q.ops l' (q.ops l w) := List.foldl_append

theorem ops_snoc (q : TQubit) (l : List QOp) (o : QOp) (w : World) : q.ops (l ++ [o]) w = (q.op o (q.ops l w)).2 := ops_append q l [o] w

theorem Spec.AfterAlone.all_next (A : AfterAlone cls q dh dw ops w) (l : List QOp) : AfterAlone cls q dh dw (ops ++ l) (q.ops l w) := by
  obtain ⟨w0, w1, h0, B, rfl⟩ := A
  exact ⟨w0, w1, h0, B, (ops_append q ops l w1).symm⟩

/-- A logical readout makes a new register. -/
theorem readout_new (A : After cls q dh dw ops w) {o : QOp} (ho : o = .readoutX none ∨ o = .readoutZ none) :
    nextReadout q w ∉ w.circ.names ∧ (q.op o w).2.circ.cregs = w.circ.cregs ++ [⟨nextReadout q w, 1⟩] := by
  obtain ⟨W, O⟩ := A.own
  obtain ⟨a, ha, h1, hf⟩ := O.readout
  have e : nextReadout q w = readoutName q.lat.name (a + 1) := by unfold nextReadout; rw [ha]; rfl
  rw [e]
  exact ⟨hf _ (by omega), readout_cregs ho O a ha⟩

/-- A readout of all data qubits makes a new register. -/
theorem lattice_new (A : After cls q dh dw ops w) {o : QOp} (ho : o = .latticeReadoutX ∨ o = .latticeReadoutZ) :
    nextLattice q w ∉ w.circ.names ∧ (q.op o w).2.circ.cregs = w.circ.cregs ++ [⟨nextLattice q w, (dh * dw).toNat⟩] := by
  obtain ⟨W, O⟩ := A.own
  obtain ⟨a, ha, h1, hf⟩ := O.lattice
  have e : nextLattice q w = latticeName q.lat.name (a + 1) := by unfold nextLattice; rw [ha]; rfl
  rw [e]
  exact ⟨hf _ (by omega), lattice_cregs ho O a ha⟩

theorem next_x (A : After cls q dh dw ops w) : nextReadout q (q.op .x w).2 = nextReadout q w := by
  unfold nextReadout
  rw [show q.op .x w = _ from A.own.2.placed.emits_x.run]
  rfl

theorem next_z (A : After cls q dh dw ops w) : nextReadout q (q.op .z w).2 = nextReadout q w := by
  unfold nextReadout
  rw [show q.op .z w = _ from A.own.2.placed.emits_z.run]
  rfl

end Qtc
