import Verif.Model.LookUp
import Mathlib.Algebra.Order.BigOperators.Group.List
import Mathlib.Tactic.Linarith
import Mathlib.Tactic.FieldSimp
import Mathlib.Tactic.Ring
/-!
Look-up table decoding: C39 – C42, C77.
-/
namespace Qtc

/-- The relative frequency of a string in a dictionary of counts (0 if the string does not occur). -/
def Spec.relFreq (c : Counts) (s : Str) : ℚ := ((c.lookup s).getD 0 : ℚ) / (c.map (·.2)).sum

/-- The entry for type `ty` and value `v` currently holds the counts `c` and its shot count is `n`. -/
def Spec.EntryIs (st : CountsHeap × LookUp) (ty : Str) (v : Int) (c : Counts) (n : Int) : Prop :=
  (∃ row e, st.2.table ty = some row ∧ row v = some e ∧ e.content st.1 = c) ∧
  ∃ srow, st.2.shots ty = some srow ∧ srow v = some n

open Spec

/-! ### C39 -/

theorem step_set_ok {hp : CountsHeap} {L : LookUp} {ty : Str} {row : Int → Option Entry} {srow : Int → Option Int}
    (hr : L.table ty = some row) (hs : L.shots ty = some srow) (v : Int) (ref : Nat) :
    lookUpStep (hp, L) (.set ty v ref) = (hp, {
      table := fun t => if t = ty then some (fun w => if w = v then some (.caller ref) else row w) else L.table t
      shots := fun t => if t = ty then some (fun w => if w = v then some (hp ref).total else srow w) else L.shots t }) := by
  unfold lookUpStep LookUp.set
  simp only [hr, hs]

theorem step_set_err {hp : CountsHeap} {L : LookUp} {ty : Str} (h : L.table ty = none ∨ L.shots ty = none) (v : Int) (ref : Nat) :
    lookUpStep (hp, L) (.set ty v ref) = (hp, L) := by
  unfold lookUpStep LookUp.set
  rcases h with h | h
  · simp only [h]
  · cases h' : L.table ty <;> simp only [h, h']

/-- The table knows exactly the types `"X"` and `"Z"`. -/
theorem known_types (ops : List LookUpOp) : ∀ st : CountsHeap × LookUp,
    (∀ ty, (st.2.table ty).isSome = (st.2.shots ty).isSome ∧ ((st.2.table ty).isSome ↔ ty = ['X'] ∨ ty = ['Z'])) →
    ∀ ty, ((ops.foldl lookUpStep st).2.table ty).isSome = ((ops.foldl lookUpStep st).2.shots ty).isSome ∧
      (((ops.foldl lookUpStep st).2.table ty).isSome ↔ ty = ['X'] ∨ ty = ['Z']) := by
  induction ops with
  | nil => intro st h; exact h
  | cons op ops ih =>
    intro st h
    rw [List.foldl_cons]
    apply ih
    obtain ⟨hp, L⟩ := st
    intro t
    cases op with
    | set ty v ref =>
      cases hr : L.table ty with
      | none => rw [step_set_err (Or.inl hr)]; exact h t
      | some row =>
        cases hs : L.shots ty with
        | none => rw [step_set_err (Or.inr hs)]; exact h t
        | some srow =>
          rw [step_set_ok hr hs]
          by_cases e : t = ty
          · subst e
            have := (h t).2
            simp only at this
            rw [hr] at this
            simp only [if_true]
            exact ⟨rfl, this⟩
          · simp only [if_neg e]
            exact h t
    | reset =>
      unfold lookUpStep LookUp.reset
      by_cases e : t = ['X'] ∨ t = ['Z'] <;> simp [e]
    | write ref c => exact h t

theorem reset_known (ty : Str) : (LookUp.reset.table ty).isSome = (LookUp.reset.shots ty).isSome ∧
    ((LookUp.reset.table ty).isSome ↔ ty = ['X'] ∨ ty = ['Z']) := by
  unfold LookUp.reset
  by_cases e : ty = ['X'] ∨ ty = ['Z'] <;> simp [e]

/-- Steps that neither reset nor set `(ty, v)` leave the reference stored there and its shot count alone. -/
theorem unaffected (ty : Str) (v : Int) (ops : List LookUpOp) (hn : ∀ ref, .set ty v ref ∉ ops) (hr : .reset ∉ ops) :
    ∀ st : CountsHeap × LookUp,
    ((ops.foldl lookUpStep st).2.table ty).map (· v) = (st.2.table ty).map (· v) ∧
    ((ops.foldl lookUpStep st).2.shots ty).map (· v) = (st.2.shots ty).map (· v) := by
  induction ops with
  | nil => intro st; exact ⟨rfl, rfl⟩
  | cons op ops ih =>
    intro st
    rw [List.foldl_cons]
    obtain ⟨i1, i2⟩ := ih (fun ref h => hn ref (List.mem_cons_of_mem _ h)) (fun h => hr (List.mem_cons_of_mem _ h)) (lookUpStep st op)
    rw [i1, i2]
    obtain ⟨hp, L⟩ := st
    cases op with
    | set ty' v' ref =>
      have hne : ¬ (ty = ty' ∧ v = v') := by
        rintro ⟨rfl, rfl⟩
        exact hn ref List.mem_cons_self
      cases hr : L.table ty' with
      | none => rw [step_set_err (Or.inl hr)]; exact ⟨rfl, rfl⟩
      | some row =>
        cases hs : L.shots ty' with
        | none => rw [step_set_err (Or.inr hs)]; exact ⟨rfl, rfl⟩
        | some srow =>
          rw [step_set_ok hr hs]
          by_cases e : ty = ty'
          · subst e
            have : v ≠ v' := fun h => hne ⟨rfl, h⟩
            simp [this, hr, hs]
          · simp [e]
    | reset => exact absurd List.mem_cons_self hr
    | write ref c => exact ⟨rfl, rfl⟩

/-- C39: if `set_look_up_table(ty, v, results)` was the last call that set `(ty, v)` and no reset came later, the entry is the
dictionary `results` and the shot count is the sum the counts had when it was set – whatever else was set. -/
theorem C39_latest (h : CountsHeap) (pre post : List LookUpOp) (ty : Str) (hty : ty = ['X'] ∨ ty = ['Z']) (v : Int) (ref : Nat)
    (hn : ∀ ref', .set ty v ref' ∉ post) (hr : .reset ∉ post) :
    EntryIs (lookUpRun h (pre ++ .set ty v ref :: post)) ty v ((lookUpRun h (pre ++ .set ty v ref :: post)).1 ref)
      (((lookUpRun h pre).1 ref).map (·.2)).sum := by
  unfold lookUpRun
  rw [List.foldl_append, List.foldl_cons]
  have hk := known_types pre (h, .reset) reset_known ty
  generalize pre.foldl lookUpStep (h, .reset) = st at hk ⊢
  obtain ⟨hp, L⟩ := st
  obtain ⟨k1, k2⟩ := hk
  obtain ⟨row, hrow⟩ := Option.isSome_iff_exists.1 (k2.2 hty)
  obtain ⟨srow, hsrow⟩ := Option.isSome_iff_exists.1 (k1 ▸ k2.2 hty)
  obtain ⟨u1, u2⟩ := unaffected ty v post hn hr (lookUpStep (hp, L) (.set ty v ref))
  have s1 := step_set_ok (hp := hp) hrow hsrow v ref
  rw [s1] at u1 u2
  rw [s1]
  simp only [if_true, Option.map_some] at u1 u2
  constructor
  · obtain ⟨row', h1, h2⟩ := Option.map_eq_some_iff.1 u1
    exact ⟨row', .caller ref, h1, h2, rfl⟩
  · obtain ⟨srow', h1, h2⟩ := Option.map_eq_some_iff.1 u2
    exact ⟨srow', h1, h2⟩

/-- C39: an entry that was not set since the last reset (or since the decoder was made) is empty with no shots. -/
theorem C39_unset (h : CountsHeap) (pre post : List LookUpOp) (ty : Str) (hty : ty = ['X'] ∨ ty = ['Z']) (v : Int)
    (hv : v = 0 ∨ v = 1) (hn : ∀ ref', .set ty v ref' ∉ post) (hr : .reset ∉ post) :
    EntryIs (lookUpRun h (pre ++ .reset :: post)) ty v [] 0 ∧ EntryIs (lookUpRun h post) ty v [] 0 := by
  have key : ∀ h' : CountsHeap, EntryIs (post.foldl lookUpStep (h', .reset)) ty v [] 0 := by
    intro h'
    obtain ⟨u1, u2⟩ := unaffected ty v post hn hr (h', .reset)
    unfold LookUp.reset at u1 u2
    simp only [hty, if_true, Option.map_some, hv] at u1 u2
    constructor
    · obtain ⟨row', h1, h2⟩ := Option.map_eq_some_iff.1 u1
      exact ⟨row', .fresh, h1, h2, rfl⟩
    · obtain ⟨srow', h1, h2⟩ := Option.map_eq_some_iff.1 u2
      exact ⟨srow', h1, h2⟩
  refine ⟨?_, key h⟩
  unfold lookUpRun
  rw [List.foldl_append, List.foldl_cons]
  exact key _

/-- C39: setting an entry of an unknown type raises `KeyError`. -/
theorem C39_unknown_type (h : CountsHeap) (ops : List LookUpOp) (ty : Str) (hty : ty ≠ ['X'] ∧ ty ≠ ['Z']) (v : Int) (ref : Nat) :
    (lookUpRun h ops).2.set (lookUpRun h ops).1 ty v ref = .error .keyError := by
  have hk := known_types ops (h, .reset) reset_known ty
  have : (lookUpRun h ops).2.table ty = none := by
    rw [← Option.not_isSome_iff_eq_none]
    intro hs
    rcases hk.2.1 hs with h | h
    · exact hty.1 h
    · exact hty.2 h
  unfold LookUp.set
  rw [this]

/-! ### C77 -/

theorem writes_only (ref : Nat) : ∀ (ops : List LookUpOp) (st : CountsHeap × LookUp), (∀ c, .write ref c ∉ ops) →
    (ops.foldl lookUpStep st).1 ref = st.1 ref
  | [], _, _ => rfl
  | op :: ops, (hp, L), hw => by
    rw [List.foldl_cons, writes_only ref ops _ fun c h => hw c (List.mem_cons_of_mem _ h)]
    cases op with
    | set ty v r =>
      unfold lookUpStep
      cases hs : L.set hp ty v r <;> simp only [hs]
    | reset => rfl
    | write r c =>
      have : ref ≠ r := by
        rintro rfl
        exact hw c List.mem_cons_self
      exact if_neg this

/-- C77 is false of the code: the table keeps the caller's dictionary itself, so a later change of that dictionary changes the
table but not the shot count. -/
theorem C77_snapshot_refuted (h : CountsHeap) (pre : List LookUpOp) (ty : Str) (hty : ty = ['X'] ∨ ty = ['Z']) (v : Int) (ref : Nat)
    (c : Counts) :
    EntryIs (lookUpRun h (pre ++ [.set ty v ref, .write ref c])) ty v c (((lookUpRun h pre).1 ref).map (·.2)).sum := by
  have := C39_latest h pre [.write ref c] ty hty v ref (by simp) (by simp)
  have e : (lookUpRun h (pre ++ [.set ty v ref, .write ref c])).1 ref = c := by
    unfold lookUpRun
    rw [List.foldl_append, List.foldl_cons, List.foldl_cons, List.foldl_nil]
    exact if_pos rfl
  rwa [e] at this

/-- C77, positive part: as long as the caller leaves the dictionary alone, the entry is what was passed and the shot count is
its sum. -/
theorem C77_snapshot_partial (h : CountsHeap) (pre post : List LookUpOp) (ty : Str) (hty : ty = ['X'] ∨ ty = ['Z']) (v : Int)
    (ref : Nat) (c : Counts) (hc : (lookUpRun h pre).1 ref = c) (hn : ∀ ref', .set ty v ref' ∉ post) (hr : .reset ∉ post)
    (hw : ∀ c', .write ref c' ∉ post) : EntryIs (lookUpRun h (pre ++ .set ty v ref :: post)) ty v c (c.map (·.2)).sum := by
  have := C39_latest h pre post ty hty v ref hn hr
  have e : (lookUpRun h (pre ++ .set ty v ref :: post)).1 ref = c := by
    unfold lookUpRun
    rw [List.foldl_append, writes_only ref]
    · exact hc
    · intro c' hm
      rcases List.mem_cons.1 hm with h | h
      · cases h
      · exact hw c' h
  rw [e, hc] at this
  exact this

-- two entries set, one of them twice
example : EntryIs (lookUpRun (fun r => [([Char.ofNat (48 + r)], 5)])
    [.set ['Z'] 0 0, .set ['Z'] 1 1, .set ['Z'] 0 2]) ['Z'] 0 [(['2'], 5)] 5 :=
  C77_snapshot_partial _ [.set ['Z'] 0 0, .set ['Z'] 1 1] [] _ (Or.inr rfl) _ _ _ rfl (by simp) (by simp) (by simp)

/-! ### C40 – C42 -/

/-- The frequency the code computes. -/
theorem freq_ok {h : CountsHeap} {L : LookUp} {ty : Str} {v : Int} {c : Counts} {n : Int} (hE : EntryIs (h, L) ty v c n) (s : Str)
    (hn : n = (c.map (·.2)).sum) (h0 : (c.lookup s).isSome → n ≠ 0) : L.freq h s ty v = .ok (relFreq c s) := by
  obtain ⟨⟨row, e, h1, h2, h3⟩, srow, h4, h5⟩ := hE
  simp only at h1 h3 h4
  unfold LookUp.freq relFreq
  simp only [h1, h4, h2, h3, h5]
  cases hl : c.lookup s with
  | none => simp
  | some k =>
    rw [hl] at h0
    simp only [if_neg (h0 rfl), Option.getD_some]
    rw [hn]

/-- C40: with the tables holding `c₀` and `c₁`, the returned pair is Bayes' rule for the relative frequencies and the prior, uniform
if none or an empty one is given: it sums to one, is proportional to frequency times prior, and is non-negative for non-negative counts and priors. -/
theorem C40_bayes (h : CountsHeap) (L : LookUp) (ty s : Str) (c₀ c₁ : Counts) (hc₀ : EntryIs (h, L) ty 0 c₀ (c₀.map (·.2)).sum)
    (hc₁ : EntryIs (h, L) ty 1 c₁ (c₁.map (·.2)).sum) (h₀ : (c₀.lookup s).isSome → (c₀.map (·.2)).sum ≠ 0)
    (h₁ : (c₁.lookup s).isSome → (c₁.map (·.2)).sum ≠ 0) (p : Option (List ℚ)) (a b : ℚ)
    (hp : (∃ l, p = some (a :: b :: l)) ∨ ((p = none ∨ p = some []) ∧ a = 1 / 2 ∧ b = 1 / 2)) (hseen : relFreq c₀ s * a + relFreq c₁ s * b ≠ 0) :
    ∃ x y, L.run h s ty p = .ok (x, y) ∧ x + y = 1 ∧ x * (relFreq c₀ s * a + relFreq c₁ s * b) = relFreq c₀ s * a ∧
      y * (relFreq c₀ s * a + relFreq c₁ s * b) = relFreq c₁ s * b ∧
      ((∀ q ∈ c₀, 0 ≤ q.2) → (∀ q ∈ c₁, 0 ≤ q.2) → 0 ≤ a → 0 ≤ b → 0 ≤ x ∧ 0 ≤ y) := by
  have e0 := freq_ok hc₀ s rfl h₀
  have e1 := freq_ok hc₁ s rfl h₁
  obtain ⟨l, hpr⟩ : ∃ l, prior p = a :: b :: l := by
    rcases hp with ⟨l, rfl⟩ | ⟨rfl | rfl, rfl, rfl⟩
    · exact ⟨l, rfl⟩
    · exact ⟨[], rfl⟩
    · exact ⟨[], rfl⟩
  have i0 : pyIdx (a :: b :: l) 0 = .ok a := rfl
  have i1 : pyIdx (a :: b :: l) 1 = .ok b := by
    unfold pyIdx
    simp
  refine ⟨relFreq c₀ s * a / (relFreq c₀ s * a + relFreq c₁ s * b), relFreq c₁ s * b / (relFreq c₀ s * a + relFreq c₁ s * b),
    ?_, ?_, div_mul_cancel₀ _ hseen, div_mul_cancel₀ _ hseen, ?_⟩
  · unfold LookUp.run
    simp only [e0, e1, hpr, i0, i1, bind, Except.bind, if_neg hseen]
  · rw [← add_div, div_self hseen]
  · intro p0 p1 pa pb
    have nn : ∀ c : Counts, (∀ q ∈ c, 0 ≤ q.2) → 0 ≤ relFreq c s := by
      intro c hc
      unfold relFreq
      apply div_nonneg
      · cases hl : c.lookup s with
        | none => simp
        | some k =>
          have : (s, k) ∈ c := by
            clear hc
            induction c with
            | nil => simp at hl
            | cons q c ih =>
              rw [List.lookup_cons] at hl
              by_cases e : s = q.1
              · subst e
                simp at hl
                subst hl
                exact List.mem_cons_self
              · rw [beq_eq_false_iff_ne.2 e] at hl
                exact List.mem_cons_of_mem _ (ih hl)
          have := hc _ this
          simp only [Option.getD_some]
          exact_mod_cast this
      · have : 0 ≤ (c.map (·.2)).sum := by
          apply List.sum_nonneg
          intro x hx
          obtain ⟨q, hq, rfl⟩ := List.mem_map.1 hx
          exact hc q hq
        exact_mod_cast this
    have a0 := mul_nonneg (nn c₀ p0) pa
    have a1 := mul_nonneg (nn c₁ p1) pb
    exact ⟨div_nonneg a0 (by linarith), div_nonneg a1 (by linarith)⟩

/-- C41: for a string with positive counts the decision is 1 exactly when its relative frequency under `|1⟩` strictly exceeds
that under `|0⟩`, otherwise 0. -/
theorem C41_decision (h : CountsHeap) (L : LookUp) (ty s : Str) (c₀ c₁ : Counts) (hc₀ : EntryIs (h, L) ty 0 c₀ (c₀.map (·.2)).sum)
    (hc₁ : EntryIs (h, L) ty 1 c₁ (c₁.map (·.2)).sum) (h₀ : (c₀.lookup s).isSome → (c₀.map (·.2)).sum ≠ 0)
    (h₁ : (c₁.lookup s).isSome → (c₁.map (·.2)).sum ≠ 0) (hseen : 0 < relFreq c₀ s + relFreq c₁ s) :
    L.correct h s ty = .ok (if relFreq c₀ s < relFreq c₁ s then 1 else 0) := by
  have hs : relFreq c₀ s * (1 / 2) + relFreq c₁ s * (1 / 2) ≠ 0 := by
    have : relFreq c₀ s * (1 / 2) + relFreq c₁ s * (1 / 2) = (relFreq c₀ s + relFreq c₁ s) / 2 := by ring
    rw [this]
    exact ne_of_gt (by linarith)
  obtain ⟨x, y, hr, _, hx, hy, _⟩ := C40_bayes h L ty s c₀ c₁ hc₀ hc₁ h₀ h₁ none (1 / 2) (1 / 2) (Or.inr ⟨Or.inl rfl, rfl, rfl⟩) hs
  unfold LookUp.correct
  simp only [hr, bind, Except.bind, pure, Except.pure]
  have hpos : 0 < relFreq c₀ s * (1 / 2) + relFreq c₁ s * (1 / 2) := by linarith
  have hlt : x < y ↔ relFreq c₀ s < relFreq c₁ s := by
    constructor
    · intro hxy
      have := mul_lt_mul_of_pos_right hxy hpos
      rw [hx, hy] at this
      linarith
    · intro hxy
      by_contra hc
      have := mul_le_mul_of_nonneg_right (not_lt.1 hc) hpos.le
      rw [hx, hy] at this
      linarith
  unfold indexMax
  by_cases hxy : x < y
  · rw [if_pos hxy, if_neg (ne_of_lt hxy), if_pos (hlt.1 hxy)]
  · rw [if_neg hxy, if_pos rfl, if_neg (fun h => hxy (hlt.2 h))]

/-- C42: the exact failures. With tables of non-negative counts set for both values, `correct_readout_look_up_table` raises
`ZeroDivisionError` if the string has no positive count in either table, and otherwise answers, provided no table lists the
string with a total of zero shots. -/
theorem C42_unseen (h : CountsHeap) (L : LookUp) (ty s : Str) (c₀ c₁ : Counts) (hc₀ : EntryIs (h, L) ty 0 c₀ (c₀.map (·.2)).sum)
    (hc₁ : EntryIs (h, L) ty 1 c₁ (c₁.map (·.2)).sum) (hz₀ : (c₀.lookup s).getD 0 = 0) (hz₁ : (c₁.lookup s).getD 0 = 0) :
    L.correct h s ty = .error .zeroDivisionError := by
  have f0 : ∀ (v : Int) (c : Counts), EntryIs (h, L) ty v c (c.map (·.2)).sum → (c.lookup s).getD 0 = 0 →
      L.freq h s ty v = .ok 0 ∨ L.freq h s ty v = .error .zeroDivisionError := by
    intro v c hE hz
    by_cases hh : (c.lookup s).isSome → (c.map (·.2)).sum ≠ 0
    · left
      rw [freq_ok hE s rfl hh]
      unfold relFreq
      rw [hz]
      simp
    · right
      rw [Classical.not_imp, not_not] at hh
      obtain ⟨⟨row, e, h1, h2, h3⟩, srow, h4, h5⟩ := hE
      obtain ⟨k, hk⟩ := Option.isSome_iff_exists.1 hh.1
      simp only at h1 h3 h4
      unfold LookUp.freq
      simp only [h1, h4, h2, h3, h5, hk, if_pos hh.2]
  unfold LookUp.correct LookUp.run
  rcases f0 0 c₀ hc₀ hz₀ with e0 | e0
  · rcases f0 1 c₁ hc₁ hz₁ with e1 | e1
    · simp only [e0, e1, bind, Except.bind]
      simp [prior, pyIdx]
    · simp only [e0, e1, bind, Except.bind]
  · simp only [e0, bind, Except.bind]

/-- C42: a table that lists the string although it has no shots at all is a division by zero, too. -/
theorem C42_no_shots (h : CountsHeap) (L : LookUp) (ty s : Str) (c₀ c₁ : Counts) (hc₀ : EntryIs (h, L) ty 0 c₀ (c₀.map (·.2)).sum)
    (hc₁ : EntryIs (h, L) ty 1 c₁ (c₁.map (·.2)).sum)
    (hz : ((c₀.lookup s).isSome ∧ (c₀.map (·.2)).sum = 0) ∨ ((c₁.lookup s).isSome ∧ (c₁.map (·.2)).sum = 0)) :
    L.correct h s ty = .error .zeroDivisionError := by
  have bad : ∀ (v : Int) (c : Counts), EntryIs (h, L) ty v c (c.map (·.2)).sum → (c.lookup s).isSome → (c.map (·.2)).sum = 0 →
      L.freq h s ty v = .error .zeroDivisionError := by
    intro v c hE hs hz
    obtain ⟨⟨row, e, h1, h2, h3⟩, srow, h4, h5⟩ := hE
    obtain ⟨k, hk⟩ := Option.isSome_iff_exists.1 hs
    simp only at h1 h3 h4
    unfold LookUp.freq
    simp only [h1, h4, h2, h3, h5, hk, if_pos hz]
  by_cases b0 : (c₀.lookup s).isSome ∧ (c₀.map (·.2)).sum = 0
  · unfold LookUp.correct LookUp.run
    simp only [bad 0 c₀ hc₀ b0.1 b0.2, bind, Except.bind]
  · have b1 := hz.resolve_left b0
    have e0 := freq_ok hc₀ s rfl (fun hs h => b0 ⟨hs, h⟩)
    unfold LookUp.correct LookUp.run
    simp only [e0, bad 1 c₁ hc₁ b1.1 b1.2, bind, Except.bind]

/-- C42: an unknown readout type raises `KeyError`, after every history. -/
theorem C42_unknown_type (h : CountsHeap) (ops : List LookUpOp) (ty s : Str) (hty : ty ≠ ['X'] ∧ ty ≠ ['Z']) :
    (lookUpRun h ops).2.correct (lookUpRun h ops).1 s ty = .error .keyError := by
  have hk := known_types ops (h, .reset) reset_known ty
  have hnone : (lookUpRun h ops).2.table ty = none := by
    rw [← Option.not_isSome_iff_eq_none]
    intro hs
    rcases hk.2.1 hs with h | h
    · exact hty.1 h
    · exact hty.2 h
  unfold LookUp.correct LookUp.run LookUp.freq
  simp only [hnone, bind, Except.bind]

-- "0 0" is seen 30 of 40 times from |0⟩ and 1 of 40 times from |1⟩
example : (lookUpRun (fun r => if r = 0 then [("0 0".toList, 30), ("1 0".toList, 10)] else [("1 0".toList, 39), ("0 0".toList, 1)])
    [.set ['Z'] 0 0, .set ['Z'] 1 1]).2.correct (fun r => if r = 0 then [("0 0".toList, 30), ("1 0".toList, 10)] else
      [("1 0".toList, 39), ("0 0".toList, 1)]) "0 0".toList ['Z'] = .ok 0 ∧
    (lookUpRun (fun r => if r = 0 then [("0 0".toList, 30), ("1 0".toList, 10)] else [("1 0".toList, 39), ("0 0".toList, 1)])
    [.set ['Z'] 0 0, .set ['Z'] 1 1]).2.correct (fun r => if r = 0 then [("0 0".toList, 30), ("1 0".toList, 10)] else
      [("1 0".toList, 39), ("0 0".toList, 1)]) "1 0".toList ['Z'] = .ok 1 := by
  decide +kernel

end Qtc
