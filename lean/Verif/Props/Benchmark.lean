import Verif.Proof.Benchmark
import Verif.Props.Decoding
/-!
Benchmarking: C43 – C48, C78, C79.
-/
namespace Qtc
open Spec

/-! ### C43 -/

/-- C43: for non-negative counts with at least one shot, the logical error rate is the number of shots decoded to something
other than the expected value over the number of shots; it lies between 0 and 1, and it is 0 exactly when every readout with a
positive count is decoded to the expected value. `ans` is what the decoder answers. -/
theorem C43_rate (dec : DecodeFn) (correct : Int) (c : Counts) (ep : Option ℝ) (ans : Str → Option Int)
    (hdec : ∀ q ∈ c, dec q.1 ep = .ok (ans q.1)) (hc : ∀ q ∈ c, 0 ≤ q.2) (hs : 0 < shots c) :
    ∃ rate, logicalErrorRate dec correct c ep = .ok rate ∧
      rate = (shotsWhere (fun r => ans r != some correct) c : ℚ) / shots c ∧ 0 ≤ rate ∧ rate ≤ 1 ∧
      (rate = 0 ↔ ∀ q ∈ c, 0 < q.2 → ans q.1 = some correct) := by
  have h1 := shotsWhere_nonneg (P := fun r => ans r != some correct) hc
  have h2 := shotsWhere_nonneg (P := fun r => !(ans r != some correct)) hc
  have h3 := shots_split (fun r => ans r != some correct) c
  have hs' : (0 : ℚ) < shots c := by exact_mod_cast hs
  refine ⟨_, (rate_eq hdec).trans (if_neg (by omega)), rfl, ?_, ?_, ?_⟩
  · exact div_nonneg (by exact_mod_cast h1) hs'.le
  · rw [div_le_one hs']
    exact_mod_cast (by omega)
  · rw [div_eq_zero_iff]
    constructor
    · rintro (h | h)
      · have h0 : shotsWhere (fun r => ans r != some correct) c = 0 := by exact_mod_cast h
        intro q hq hpos
        by_contra hne
        have := (sum_zero_iff (c := c.filter fun q => ans q.1 != some correct) fun q hq => hc q (List.mem_filter.1 hq).1).1 h0 q
          (List.mem_filter.2 ⟨hq, by simpa using hne⟩)
        omega
      · exact absurd h (ne_of_gt hs')
    · intro h
      left
      have : shotsWhere (fun r => ans r != some correct) c = 0 := by
        refine (sum_zero_iff (c := c.filter fun q => ans q.1 != some correct) fun q hq => hc q (List.mem_filter.1 hq).1).2 ?_
        intro q hq
        obtain ⟨hq1, hq2⟩ := List.mem_filter.1 hq
        have := hc q hq1
        by_contra hne
        have := h q hq1 (by omega)
        simp [this] at hq2
      exact_mod_cast this

/-- C43: without shots the division by zero is raised. -/
theorem C43_no_shots (dec : DecodeFn) (correct : Int) (c : Counts) (ep : Option ℝ) (ans : Str → Option Int)
    (hdec : ∀ q ∈ c, dec q.1 ep = .ok (ans q.1)) (hs : shots c = 0) :
    logicalErrorRate dec correct c ep = .error .zeroDivisionError :=
  (rate_eq hdec).trans (if_pos hs)

/-- C43: the order of the dictionary does not matter. -/
theorem C43_order (dec : DecodeFn) (correct : Int) (c c' : Counts) (ep : Option ℝ) (hp : c.Perm c')
    (ans : Str → Option Int) (hdec : ∀ q ∈ c, dec q.1 ep = .ok (ans q.1)) :
    logicalErrorRate dec correct c' ep = logicalErrorRate dec correct c ep := by
  rw [rate_eq hdec, rate_eq (ans := ans) fun q hq => hdec q (hp.mem_iff.2 hq)]
  have h1 : shots c' = shots c := (hp.map _).sum_eq.symm
  have h2 : shotsWhere (fun r => ans r != some correct) c' = shotsWhere (fun r => ans r != some correct) c :=
    ((hp.filter _).map _).sum_eq.symm
  rw [h1, h2]

/-- C43: if the decoder raises on some readout, so does the call. -/
theorem C43_decoder_raises (dec : DecodeFn) (correct : Int) (c : Counts) (ep : Option ℝ)
    (h : ∃ q ∈ c, ∃ e, dec q.1 ep = .error e) :
    ∃ q ∈ c, ∃ e, dec q.1 ep = .error e ∧ logicalErrorRate dec correct c ep = .error e := by
  obtain ⟨q, hq, e, he, hf⟩ := errFold_err (correct := correct) c (0, 0) h
  refine ⟨q, hq, e, he, ?_⟩
  unfold logicalErrorRate
  rw [hf]
  rfl

example : ∃ rate, logicalErrorRate (fun s _ => .ok (if s = "1 0".toList then some 1 else some 0)) 0
    [("0 0".toList, 30), ("1 0".toList, 10)] none = .ok rate ∧ rate = 1 / 4 := by
  obtain ⟨r, h1, h2, _⟩ := C43_rate (fun s _ => .ok (if s = "1 0".toList then some 1 else some 0)) 0
    [("0 0".toList, 30), ("1 0".toList, 10)] none (fun s => if s = "1 0".toList then some 1 else some 0)
    (fun _ _ => rfl) (by decide) (by decide)
  refine ⟨r, h1, ?_⟩
  rw [h2, show shotsWhere (fun r => (if r = "1 0".toList then some (1 : Int) else some 0) != some 0)
    [("0 0".toList, 30), ("1 0".toList, 10)] = 10 from by decide, show shots [("0 0".toList, 30), ("1 0".toList, 10)] = 40 from by decide]
  norm_num

/-! ### C44 -/

/-- C44: if a dictionary of counts is the sum of two others, string by string, its error rate is their shot-weighted mean. -/
theorem C44_merge (dec : DecodeFn) (correct : Int) (ep : Option ℝ) (c c₁ c₂ : Counts) (hn : (c.map (·.1)).Nodup)
    (hn₁ : (c₁.map (·.1)).Nodup) (hn₂ : (c₂.map (·.1)).Nodup) (hsum : ∀ s, countOf c s = countOf c₁ s + countOf c₂ s)
    (ans : Str → Option Int) (hdec : ∀ s, dec s ep = .ok (ans s)) (r₁ r₂ : ℚ) (h : shots c ≠ 0)
    (h₁ : logicalErrorRate dec correct c₁ ep = .ok r₁) (h₂ : logicalErrorRate dec correct c₂ ep = .ok r₂) :
    logicalErrorRate dec correct c ep = .ok ((shots c₁ * r₁ + shots c₂ * r₂) / (shots c₁ + shots c₂)) := by
  have key : ∀ P : Str → Bool, shotsWhere P c = shotsWhere P c₁ + shotsWhere P c₂ := by
    intro P
    have hks : ((c.map (·.1)) ++ (c₁.map (·.1)) ++ (c₂.map (·.1))).dedup.Nodup := List.nodup_dedup _
    have mem : ∀ q, q ∈ c ∨ q ∈ c₁ ∨ q ∈ c₂ → q.1 ∈ ((c.map (·.1)) ++ (c₁.map (·.1)) ++ (c₂.map (·.1))).dedup := by
      intro q hq
      rw [List.mem_dedup, List.mem_append, List.mem_append]
      rcases hq with h | h | h
      · exact Or.inl (Or.inl (List.mem_map.2 ⟨q, h, rfl⟩))
      · exact Or.inl (Or.inr (List.mem_map.2 ⟨q, h, rfl⟩))
      · exact Or.inr (List.mem_map.2 ⟨q, h, rfl⟩)
    rw [shotsWhere_eq P c _ hn hks fun q h => mem q (Or.inl h), shotsWhere_eq P c₁ _ hn₁ hks fun q h => mem q (Or.inr (Or.inl h)),
      shotsWhere_eq P c₂ _ hn₂ hks fun q h => mem q (Or.inr (Or.inr h)), ← List.sum_map_add]
    congr 1
    exact List.map_congr_left fun s _ => hsum s
  have tot : shots c = shots c₁ + shots c₂ := by
    have := key fun _ => true
    have e : ∀ c : Counts, shotsWhere (fun _ => true) c = shots c := by
      intro c
      unfold shotsWhere shots
      simp
    rwa [e, e, e] at this
  rw [rate_eq fun q _ => hdec q.1] at h₁ h₂ ⊢
  by_cases z₁ : shots c₁ = 0
  · rw [if_pos z₁] at h₁; cases h₁
  by_cases z₂ : shots c₂ = 0
  · rw [if_pos z₂] at h₂; cases h₂
  rw [if_neg z₁] at h₁
  rw [if_neg z₂] at h₂
  rw [if_neg h]
  cases h₁
  cases h₂
  congr 1
  have q₁ : (shots c₁ : ℚ) ≠ 0 := by exact_mod_cast z₁
  have q₂ : (shots c₂ : ℚ) ≠ 0 := by exact_mod_cast z₂
  rw [mul_div_cancel₀ _ q₁, mul_div_cancel₀ _ q₂, key, tot]
  push_cast
  rfl

example : ∀ s, countOf [("0 0".toList, 3), ("1 0".toList, 5)] s = countOf [("0 0".toList, 3), ("1 0".toList, 1)] s +
    countOf [("1 0".toList, 4)] s := by
  intro s
  unfold countOf
  simp only [List.lookup_cons, List.lookup_nil]
  cases h : s == "0 0".toList
  · cases h' : s == "1 0".toList <;> rfl
  · rw [beq_iff_eq.1 h]
    rfl

/-! ### C45 -/

/-- The rate measured in the `n`-th execution, at noise rate `r`, is `l`. -/
def Measures (B : Benchmark) (n : Nat) (r : ℝ) (ep : Option ℝ) (l : ℚ) : Prop :=
  ∃ ex counts, B.execute = some ex ∧ ex n r = .ok counts ∧ logicalErrorRate B.dec B.correct counts ep = .ok l

theorem measure_iff {B : Benchmark} {n : Nat} {r : ℝ} {ep : Option ℝ} {l : ℚ} :
    B.measure n r ep = .ok l ↔ Measures B n r ep l := by
  unfold Benchmark.measure Measures
  cases h : B.execute with
  | none => simp
  | some ex =>
    cases hc : ex n r with
    | error e =>
      constructor
      · intro h
        simp only [hc, bind, Except.bind] at h
        cases h
      · rintro ⟨ex', c, h1, h2, _⟩
        cases h1
        rw [hc] at h2
        cases h2
    | ok c =>
      constructor
      · intro h
        simp only [hc, bind, Except.bind] at h
        exact ⟨ex, c, rfl, hc, h⟩
      · rintro ⟨ex', c', h1, h2, h3⟩
        cases h1
        rw [hc] at h2
        cases h2
        simp only [hc, bind, Except.bind, h3]

/-- Everything about a completed loop. -/
theorem loop_spec {B : Benchmark} {argsort : ArgSort} {save deg : Bool} : ∀ {rs : List ℝ} {st st' : BenchState} {u : Unit},
    B.sweepLoop argsort save deg rs st = (.ok u, st') →
    ∃ ls : List ℚ, ls.length = rs.length ∧ st'.phys = st.phys ++ rs ∧ st'.logical = st.logical ++ ls ∧
      (∀ i r l, rs[i]? = some r → ls[i]? = some l → Measures B (st.runs + i) r (if deg then some r else none) l) ∧
      st'.runs = st.runs + rs.length ∧
      (save = true → (rs.zip ls).foldlM (fun f q => appendData argsort B.d B.T f q.1 q.2) st.file = .ok st'.file) ∧
      (save = false → st'.file = st.file)
  | [], st, st', u, h => by
    unfold Benchmark.sweepLoop at h
    cases h
    exact ⟨[], rfl, by simp, by simp, by simp, by simp, fun _ => rfl, fun _ => rfl⟩
  | r :: rs, st, st', u, h => by
    unfold Benchmark.sweepLoop Benchmark.sweepStep at h
    cases hm : B.measure st.runs r (if deg then some r else none) with
    | error e =>
      rw [hm] at h
      simp at h
    | ok l =>
      rw [hm] at h
      have hM := measure_iff.1 hm
      cases save with
      | false =>
        simp only [Bool.false_eq_true, if_false] at h
        obtain ⟨ls, h1, h2, h3, h4, h5, _, h7⟩ := loop_spec h
        refine ⟨l :: ls, by simp [h1], by rw [h2]; simp, by rw [h3]; simp, ?_, ?_, by simp, h7⟩
        · intro i r' l' hr hl
          cases i with
          | zero =>
            simp only [List.getElem?_cons_zero, Option.some.injEq] at hr hl
            subst hr hl
            exact hM
          | succ i =>
            simp only [List.getElem?_cons_succ] at hr hl
            have := h4 i r' l' hr hl
            rwa [show st.runs + 1 + i = st.runs + (i + 1) by omega] at this
        · simp only [List.length_cons] at *
          omega
      | true =>
        simp only [if_true] at h
        cases ha : appendData argsort B.d B.T st.file r l with
        | error e =>
          rw [ha] at h
          simp at h
        | ok f =>
          rw [ha] at h
          simp only at h
          obtain ⟨ls, h1, h2, h3, h4, h5, h6, _⟩ := loop_spec h
          refine ⟨l :: ls, by simp [h1], by rw [h2]; simp, by rw [h3]; simp, ?_, ?_, ?_, by simp⟩
          · intro i r' l' hr hl
            cases i with
            | zero =>
              simp only [List.getElem?_cons_zero, Option.some.injEq] at hr hl
              subst hr hl
              exact hM
            | succ i =>
              simp only [List.getElem?_cons_succ] at hr hl
              have := h4 i r' l' hr hl
              rwa [show st.runs + 1 + i = st.runs + (i + 1) by omega] at this
          · simp only [List.length_cons] at *
            omega
          · intro _
            rw [List.zip_cons_cons, List.foldlM_cons]
            simp only [ha, bind, Except.bind]
            exact h6 rfl

/-- A completed loop exists when every measurement succeeds. -/
theorem loop_ok {B : Benchmark} {argsort : ArgSort} (ha : SortsIndices argsort) {save deg : Bool} : ∀ (rs : List ℝ) (st : BenchState),
    Aligned st.file → (∀ n r, r ∈ rs → ∃ l, Measures B n r (if deg then some r else none) l) →
    ∃ st', B.sweepLoop argsort save deg rs st = (.ok (), st')
  | [], st, _, _ => ⟨st, rfl⟩
  | r :: rs, st, hf, h => by
    obtain ⟨l, hl⟩ := h st.runs r List.mem_cons_self
    have hm := measure_iff.2 hl
    unfold Benchmark.sweepLoop Benchmark.sweepStep
    rw [hm]
    cases save with
    | false =>
      simp only [Bool.false_eq_true, if_false]
      exact loop_ok ha rs _ hf fun n r' hr' => h n r' (List.mem_cons_of_mem _ hr')
    | true =>
      obtain ⟨f, h1, h2⟩ := appendData_ok ha hf B.d B.T r l
      simp only [if_true, h1]
      exact loop_ok ha rs _ h2.aligned fun n r' hr' => h n r' (List.mem_cons_of_mem _ hr')

theorem sortedDesc_perm (l : List ℝ) : (sortedDesc l).Perm l := List.mergeSort_perm _ _

theorem sortedDesc_sorted (l : List ℝ) : (sortedDesc l).Pairwise (fun a b => b ≤ a) := by
  unfold sortedDesc
  refine (List.pairwise_mergeSort (fun a b c h1 h2 => ?_) (fun a b => ?_) l).imp fun h => ?_
  · simp only [decide_eq_true_eq] at *
    linarith
  · rcases le_total a b with h | h <;> simp [h]
  · simpa using h

/-- C45: when `sweep` returns, whatever was stored before, the stored physical rates are the requested ones in ascending order,
and the stored pairs are exactly the pairs (rate, logical rate measured in the execution made for it); the executions are
made in descending order of the rates. -/
theorem C45_sweep (B : Benchmark) (argsort : ArgSort) (ha : SortsIndices argsort) (rates : Option (List ℝ)) (save deg : Bool)
    (st st' : BenchState) (u : Unit) (h : B.sweep argsort rates save deg st = (.ok u, st')) :
    st'.phys.Pairwise (· ≤ ·) ∧ st'.phys.Perm (requestedRates rates) ∧ st'.phys.length = st'.logical.length ∧
    ∃ (rs : List ℝ) (ls : List ℚ), rs.Perm (requestedRates rates) ∧ rs.Pairwise (· ≥ ·) ∧ ls.length = rs.length ∧
      (∀ i r l, rs[i]? = some r → ls[i]? = some l → Measures B (st.runs + i) r (if deg then some r else none) l) ∧
      (st'.phys.zip st'.logical).Perm (rs.zip ls) := by
  unfold Benchmark.sweep at h
  cases hL : B.sweepLoop argsort save deg (sortedDesc (requestedRates rates)) { st with phys := [], logical := [] } with
  | mk res st1 =>
    rw [hL] at h
    cases res with
    | error e => simp at h
    | ok u1 =>
      simp only at h
      obtain ⟨ls, h1, h2, h3, h4, _⟩ := loop_spec hL
      simp only [List.nil_append] at h2 h3
      obtain ⟨r, r', k1, k2, k3, k4, k5, k6, k7⟩ := sort_aligned ha (a := st1.phys) (b := st1.logical) (by rw [h2, h3, h1])
      unfold finalSort at h
      simp only [k1, k2] at h
      cases h
      rw [h2] at k6
      rw [h2, h3] at k7
      refine ⟨k5, k6.trans (sortedDesc_perm _), ?_, _, ls, sortedDesc_perm _, sortedDesc_sorted _, h1, h4, k7⟩
      simp only [k3, k4, h2, h3, h1]

/-- C45: `sweep` completes if every execution and its evaluation do (and the data file, if used, is one the code wrote). -/
theorem C45_completes (B : Benchmark) (argsort : ArgSort) (ha : SortsIndices argsort) (rates : Option (List ℝ)) (save deg : Bool)
    (st : BenchState) (hf : Aligned st.file)
    (hm : ∀ n r, r ∈ requestedRates rates → ∃ l, Measures B n r (if deg then some r else none) l) :
    ∃ st', B.sweep argsort rates save deg st = (.ok (), st') := by
  obtain ⟨st1, hL⟩ := loop_ok ha (save := save) (deg := deg) (sortedDesc (requestedRates rates)) { st with phys := [], logical := [] } hf
    fun n r hr => hm n r ((sortedDesc_perm _).mem_iff.1 hr)
  obtain ⟨ls, h1, h2, h3, h4, _⟩ := loop_spec hL
  simp only [List.nil_append] at h2 h3
  obtain ⟨r, r', k1, k2, k3, k4, k5, k6, k7⟩ := sort_aligned ha (a := st1.phys) (b := st1.logical) (by rw [h2, h3, h1])
  unfold Benchmark.sweep
  rw [hL]
  unfold finalSort
  simp only [k1, k2]
  exact ⟨_, rfl⟩

/-- C45/C46: a sweep that saves adds exactly its own pairs to the file; a sweep that does not save leaves the file alone. -/
theorem C45_sweep_saves (B : Benchmark) (argsort : ArgSort) (ha : SortsIndices argsort) (rates : Option (List ℝ)) (deg : Bool)
    (st st' : BenchState) (u : Unit) (hf : Aligned st.file) :
    (B.sweep argsort rates true deg st = (.ok u, st') → requestedRates rates ≠ [] →
      FileHolds st'.file B.d B.T (filePoints st.file ++ st'.phys.zip st'.logical)) ∧
    (B.sweep argsort rates false deg st = (.ok u, st') → st'.file = st.file) := by
  have aux : ∀ save, B.sweep argsort rates save deg st = (.ok u, st') → ∃ st1, st'.file = st1.file ∧
      B.sweepLoop argsort save deg (sortedDesc (requestedRates rates)) { st with phys := [], logical := [] } = (.ok (), st1) ∧
      (st'.phys.zip st'.logical).Perm (st1.phys.zip st1.logical) := by
    intro save h
    unfold Benchmark.sweep at h
    cases hL : B.sweepLoop argsort save deg (sortedDesc (requestedRates rates)) { st with phys := [], logical := [] } with
    | mk res st1 =>
      rw [hL] at h
      cases res with
      | error e => simp at h
      | ok u1 =>
        simp only at h
        obtain ⟨ls, h1, h2, h3, h4, _⟩ := loop_spec hL
        simp only [List.nil_append] at h2 h3
        obtain ⟨r, r', k1, k2, k3, k4, k5, k6, k7⟩ := sort_aligned ha (a := st1.phys) (b := st1.logical) (by rw [h2, h3, h1])
        unfold finalSort at h
        simp only [k1, k2] at h
        cases h
        exact ⟨st1, rfl, rfl, k7⟩
  constructor
  · intro h hne
    obtain ⟨st1, e1, hL, hp⟩ := aux true h
    obtain ⟨ls, h1, h2, h3, _, _, h6, _⟩ := loop_spec hL
    simp only [List.nil_append] at h2 h3
    have hz : (sortedDesc (requestedRates rates)).zip ls ≠ [] := by
      intro h0
      have h0' := congrArg List.length h0
      rw [List.length_zip, h1, Nat.min_self, (sortedDesc_perm _).length_eq, List.length_nil, List.length_eq_zero_iff] at h0'
      exact hne h0'
    obtain ⟨f', g1, g2⟩ := appendAll ha B.d B.T _ st.file hf hz
    have := h6 rfl
    rw [g1] at this
    rw [e1]
    cases this
    refine g2.perm ?_
    rw [h2, h3] at hp
    exact (List.Perm.refl _).append hp.symm
  · intro h
    obtain ⟨st1, e1, hL, _⟩ := aux false h
    obtain ⟨ls, _, _, _, _, _, _, h7⟩ := loop_spec hL
    rw [e1]
    exact h7 rfl

/-- C45: `single` returns the rate of its own execution, does not touch the stored sweep, and saves its pair if asked. -/
theorem C45_single (B : Benchmark) (argsort : ArgSort) (ha : SortsIndices argsort) (r : ℝ) (save : Bool)
    (st st' : BenchState) (l : ℚ) (hf : Aligned st.file) (h : B.single argsort r save st = (.ok l, st')) :
    Measures B st.runs r (some r) l ∧ st'.phys = st.phys ∧ st'.logical = st.logical ∧
      (save = true → FileHolds st'.file B.d B.T (filePoints st.file ++ [(r, l)])) ∧ (save = false → st'.file = st.file) := by
  unfold Benchmark.single at h
  cases hm : B.measure st.runs r (some r) with
  | error e => rw [hm] at h; simp at h
  | ok l' =>
    rw [hm] at h
    cases save with
    | false =>
      simp only [Bool.false_eq_true, if_false, Prod.mk.injEq, Except.ok.injEq] at h
      obtain ⟨rfl, rfl⟩ := h
      exact ⟨measure_iff.1 hm, rfl, rfl, by simp, fun _ => rfl⟩
    | true =>
      obtain ⟨f, h1, h2⟩ := appendData_ok ha hf B.d B.T r l'
      simp only [if_true, h1, Prod.mk.injEq, Except.ok.injEq] at h
      obtain ⟨rfl, rfl⟩ := h
      exact ⟨measure_iff.1 hm, rfl, rfl, fun _ => h2, by simp⟩

/-- There is a function that sorts as `np.argsort` does. -/
theorem argsort_exists : ∃ argsort, SortsIndices argsort := by
  classical
  refine ⟨fun l => (List.range l.length).mergeSort fun i j => decide (l[i]?.getD 0 ≤ l[j]?.getD 0), fun l => ⟨List.mergeSort_perm _ _, ?_⟩⟩
  refine (List.pairwise_mergeSort (fun a b c h1 h2 => ?_) (fun a b => ?_) _).imp fun h => ?_
  · simp only [decide_eq_true_eq] at *
    linarith
  · rcases le_total (l[a]?.getD 0) (l[b]?.getD 0) with h | h <;> simp [h]
  · intro x y hx hy
    rw [hx, hy] at h
    simpa using h

-- a sweep over two rates, the data file being written for the first time
example : ∃ (B : Benchmark) (argsort : ArgSort), SortsIndices argsort ∧ Aligned .absent ∧
    ∀ n r, r ∈ requestedRates (some [0.1, 0.2]) → ∃ l, Measures B n r (if false then some r else none) l := by
  obtain ⟨argsort, h⟩ := argsort_exists
  refine ⟨⟨fun _ _ => .ok (some 0), 0, (3, 3), 1, some fun _ _ => .ok [("0 0".toList, 8)]⟩, argsort, h, rfl, ?_⟩
  intro n r _
  obtain ⟨l, hl, _⟩ := C43_rate (fun _ _ => .ok (some 0)) 0 [("0 0".toList, 8)] (if false then some r else none) (fun _ => some 0)
    (fun _ _ => rfl) (by decide) (by decide)
  exact ⟨l, _, _, rfl, rfl, hl⟩

/-! ### C46 -/

/-- C46: after any non-empty sequence of appends the file holds the pairs it held before (none, if it was missing or
unreadable) and all appended pairs, sorted by physical rate. -/
theorem C46_appends (argsort : ArgSort) (ha : SortsIndices argsort) (d : Int × Int) (T : Int) (f : DataFile) (hf : Aligned f)
    (pts : List (ℝ × ℚ)) (hne : pts ≠ []) :
    ∃ f', pts.foldlM (fun f q => appendData argsort d T f q.1 q.2) f = .ok f' ∧ FileHolds f' d T (filePoints f ++ pts) :=
  appendAll ha d T pts f hf hne

example : ∃ argsort, SortsIndices argsort ∧ ∃ f', [((0.2 : ℝ), (1/2 : ℚ)), (0.1, 1/4)].foldlM
    (fun f q => appendData argsort (3, 3) 2 f q.1 q.2) .absent = .ok f' ∧ FileHolds f' (3, 3) 2 [(0.2, 1/2), (0.1, 1/4)] := by
  obtain ⟨argsort, h⟩ := argsort_exists
  exact ⟨argsort, h, C46_appends argsort h (3, 3) 2 .absent rfl _ (by simp)⟩

/-! ### C47 -/

/-- A whole append by one process, uninterrupted. -/
theorem saves_whole {argsort : ArgSort} (ha : SortsIndices argsort) (d : Int × Int) (T : Int) (pt : Nat → ℝ × ℚ) (i : Nat)
    (f : DataFile) (hf : Aligned f) (pc : Nat → SavePc) (hpc : pc i = .start) (rest : List Nat) :
    ∃ f' pc', runSaves argsort d T pt (i :: i :: i :: rest) (f, pc) = runSaves argsort d T pt rest (f', pc') ∧
      FileHolds f' d T (filePoints f ++ [pt i]) ∧ pc' i = .done ∧ ∀ j, j ≠ i → pc' j = pc j := by
  obtain ⟨ph, lo, h1, h2, h3, h4⟩ := newArrays_ok ha (ph := (loadArrays f).1) (lo := (loadArrays f).2) hf (pt i).1 (pt i).2
  refine ⟨.saved d T ph lo, fun j => if j = i then .done else if j = i then .opened (ph, lo) else if j = i then .loaded (ph, lo) else pc j,
    ?_, ⟨ph, lo, rfl, h2, h3, h4⟩, if_pos rfl, ?_⟩
  · simp only [runSaves, hpc, saveStep, if_true]
    rw [show newArrays argsort (loadArrays f) (pt i).1 (pt i).2 = .ok (ph, lo) from h1]
  · intro j hj
    simp [hj]

/-- C47 is false of the code: if two processes load the file before either writes it, the point of the process that writes
first is lost. -/
theorem C47_lost_update_refuted (argsort : ArgSort) (ha : SortsIndices argsort) (d : Int × Int) (T : Int) (f : DataFile)
    (hf : Aligned f) (pt : Nat → ℝ × ℚ) :
    FileHolds (runSaves argsort d T pt [0, 1, 0, 0, 1, 1] (f, fun _ => .start)).1 d T (filePoints f ++ [pt 1]) ∧
    ¬ FileHolds (runSaves argsort d T pt [0, 1, 0, 0, 1, 1] (f, fun _ => .start)).1 d T (filePoints f ++ [pt 0, pt 1]) := by
  obtain ⟨ph, lo, h1, h2, h3, h4⟩ := newArrays_ok ha (ph := (loadArrays f).1) (lo := (loadArrays f).2) hf (pt 0).1 (pt 0).2
  obtain ⟨ph', lo', h1', h2', h3', h4'⟩ := newArrays_ok ha (ph := (loadArrays f).1) (lo := (loadArrays f).2) hf (pt 1).1 (pt 1).2
  have e : (runSaves argsort d T pt [0, 1, 0, 0, 1, 1] (f, fun _ => .start)).1 = .saved d T ph' lo' := by
    have e1 : newArrays argsort (loadArrays f) (pt 0).1 (pt 0).2 = .ok (ph, lo) := h1
    have e2 : newArrays argsort (loadArrays f) (pt 1).1 (pt 1).2 = .ok (ph', lo') := h1'
    simp [runSaves, saveStep, e1, e2]
  rw [e]
  have hh : FileHolds (.saved d T ph' lo') d T (filePoints f ++ [pt 1]) := ⟨ph', lo', rfl, h2', h3', h4'⟩
  refine ⟨hh, fun hc => ?_⟩
  have := (hh.points.symm.trans hc.points).length_eq
  simp at this

/-- C47 is false of the code: if a process dies between opening and writing the file, the next append silently starts from an
empty file, and everything saved before is lost. -/
theorem C47_crash_refuted (argsort : ArgSort) (ha : SortsIndices argsort) (d : Int × Int) (T : Int) (f : DataFile)
    (hf : Aligned f) (pt : Nat → ℝ × ℚ) :
    FileHolds (runSaves argsort d T pt [0, 0, 1, 1, 1] (f, fun _ => .start)).1 d T [pt 1] := by
  obtain ⟨ph, lo, h1, h2, h3, h4⟩ := newArrays_ok ha (ph := (loadArrays f).1) (lo := (loadArrays f).2) hf (pt 0).1 (pt 0).2
  have e1 : newArrays argsort (loadArrays f) (pt 0).1 (pt 0).2 = .ok (ph, lo) := h1
  obtain ⟨f', pc', h5, h6, _⟩ := saves_whole ha d T pt 1 .unreadable rfl (fun j => if j = 0 then .opened (ph, lo) else .start) (by simp) []
  have e2 : runSaves argsort d T pt [0, 0, 1, 1, 1] (f, fun _ => .start) =
      runSaves argsort d T pt [1, 1, 1] (.unreadable, fun j => if j = 0 then .opened (ph, lo) else .start) := by
    rw [runSaves, runSaves]
    simp only [saveStep, e1, if_true]
    congr 2
    funext j
    split <;> rfl
  rw [e2, h5]
  exact h6

/-- C47, positive part: saves that do not overlap lose nothing, in any order and for any number of processes. -/
theorem C47_serial_partial (argsort : ArgSort) (ha : SortsIndices argsort) (d : Int × Int) (T : Int) (pt : Nat → ℝ × ℚ) :
    ∀ (order : List Nat) (f : DataFile) (pc : Nat → SavePc), Aligned f → order.Nodup → order ≠ [] → (∀ i ∈ order, pc i = .start) →
    FileHolds (runSaves argsort d T pt (order.flatMap fun i => [i, i, i]) (f, pc)).1 d T (filePoints f ++ order.map pt)
  | [], _, _, _, _, h, _ => absurd rfl h
  | i :: order, f, pc, hf, hn, _, hpc => by
    rw [List.flatMap_cons]
    obtain ⟨f', pc', h1, h2, h3, h4⟩ := saves_whole ha d T pt i f hf pc (hpc i List.mem_cons_self) (order.flatMap fun i => [i, i, i])
    rw [show [i, i, i] ++ (order.flatMap fun i => [i, i, i]) = i :: i :: i :: (order.flatMap fun i => [i, i, i]) from rfl, h1]
    by_cases ho : order = []
    · subst ho
      exact h2
    · rw [List.nodup_cons] at hn
      have := C47_serial_partial argsort ha d T pt order f' pc' h2.aligned hn.2 ho fun j hj => by
        rw [h4 j (fun e => hn.1 (e ▸ hj))]
        exact hpc j (List.mem_cons_of_mem _ hj)
      refine this.perm ?_
      have := h2.points.append_right (order.map pt)
      rwa [List.append_assoc, List.singleton_append] at this

example : Aligned (.saved (3, 3) 2 [0.1] [1/4]) ∧ filePoints (.saved (3, 3) 2 [0.1] [1/4]) = [(0.1, 1/4)] := ⟨rfl, rfl⟩

/-! ### C48 -/

/-- C48: loading a file that was saved by appends gives back size, rounds and the saved pairs. -/
theorem C48_load (argsort : ArgSort) (ha : SortsIndices argsort) (d : Int × Int) (T : Int) (f f' : DataFile) (hf : Aligned f)
    (pts : List (ℝ × ℚ)) (hne : pts ≠ []) (h : pts.foldlM (fun f q => appendData argsort d T f q.1 q.2) f = .ok f') :
    ∃ a, loadData f' = .ok a ∧ a.d = d ∧ a.T = T ∧ a.phys.Pairwise (· ≤ ·) ∧ a.phys.length = a.logical.length ∧
      (a.phys.zip a.logical).Perm (filePoints f ++ pts) := by
  obtain ⟨f'', h1, ph, lo, rfl, h2, h3, h4⟩ := appendAll ha d T pts f hf hne
  rw [h1] at h
  cases h
  exact ⟨⟨d, T, ph, lo⟩, rfl, rfl, rfl, h3, h2, h4⟩

theorem mapM_load : ∀ {files : List DataFile}, (∀ f ∈ files, ∃ d T ph lo, f = .saved d T ph lo) →
    ∃ l, files.mapM loadData = .ok l ∧ l.length = files.length ∧
      ∀ (i : Nat) f, files[i]? = some f → ∃ a, l[i]? = some a ∧ loadData f = .ok a
  | [], _ => ⟨[], rfl, rfl, by simp⟩
  | f :: files, h => by
    obtain ⟨d, T, ph, lo, rfl⟩ := h f List.mem_cons_self
    obtain ⟨l, h1, h2, h3⟩ := mapM_load fun f hf => h f (List.mem_cons_of_mem _ hf)
    refine ⟨⟨d, T, ph, lo⟩ :: l, ?_, by simp [h2], ?_⟩
    · rw [List.mapM_cons]
      simp only [loadData, h1, bind, Except.bind, pure, Except.pure]
    · intro i f hi
      cases i with
      | zero =>
        simp only [List.getElem?_cons_zero, Option.some.injEq] at hi
        subst hi
        exact ⟨_, rfl, rfl⟩
      | succ i => exact h3 i f hi

/-- C48: a batch analysis of readable files holds exactly one analysis per file, ordered by non-decreasing height. -/
theorem C48_batch (argsort : ArgSort) (ha : SortsIndices argsort) (files : List DataFile)
    (hf : ∀ f ∈ files, ∃ d T ph lo, f = .saved d T ph lo) :
    ∃ loaded l, loaded.length = files.length ∧ (∀ (i : Nat) f, files[i]? = some f → ∃ a, loaded[i]? = some a ∧ loadData f = .ok a) ∧
      batch argsort files = .ok l ∧ l.Perm loaded ∧ l.Pairwise fun a b => a.d.1 ≤ b.d.1 := by
  obtain ⟨loaded, h1, h2, h3⟩ := mapM_load hf
  obtain ⟨r, r', k1, k2, k3, k4, k5, k6, k7⟩ := sort_aligned ha (a := loaded.map fun a => (a.d.1 : ℝ)) (b := loaded) (by simp)
  obtain ⟨hp, hs⟩ := ha (loaded.map fun a => (a.d.1 : ℝ))
  rw [List.length_map] at hp
  obtain ⟨r'', k8, k9⟩ := takeIdx_ok (a := loaded) (idx := argsort (loaded.map fun a => (a.d.1 : ℝ)))
    fun i hi => List.mem_range.1 (hp.mem_iff.1 hi)
  refine ⟨loaded, r'', h2, h3, ?_, take_perm hp k9, ?_⟩
  · unfold batch
    simp only [h1, k8, bind, Except.bind]
  · have hs' : ((argsort (loaded.map fun a => (a.d.1 : ℝ))).map (loaded[·]?)).Pairwise
        fun o o' => ∀ x y, o = some x → o' = some y → x.d.1 ≤ y.d.1 := by
      refine List.pairwise_map.2 (hs.imp ?_)
      intro i j hij x y hx hy
      have := hij (x.d.1 : ℝ) (y.d.1 : ℝ) (by rw [List.getElem?_map, hx]; rfl) (by rw [List.getElem?_map, hy]; rfl)
      exact_mod_cast this
    rw [← k9, List.pairwise_map] at hs'
    exact hs'.imp fun h => h _ _ rfl rfl

/-- C48: a missing or unreadable file is an error, also in a batch. -/
theorem C48_unreadable (argsort : ArgSort) (files : List DataFile) (h : ∃ f ∈ files, f = .absent ∨ f = .unreadable) :
    batch argsort files = .error .osError := by
  have key : ∀ files : List DataFile, (∃ f ∈ files, f = .absent ∨ f = .unreadable) → files.mapM loadData = .error .osError := by
    intro files
    induction files with
    | nil => simp
    | cons f files ih =>
      intro h
      rw [List.mapM_cons]
      cases hf : f with
      | absent => rfl
      | unreadable => rfl
      | saved d T ph lo =>
        have := ih (by
          obtain ⟨g, hg, hb⟩ := h
          rcases List.mem_cons.1 hg with rfl | hg
          · subst hf; simp at hb
          · exact ⟨g, hg, hb⟩)
        simp only [loadData, this, bind, Except.bind]
  unfold batch
  rw [key files h]
  rfl

example : ∀ f ∈ [DataFile.saved (5, 5) 5 [0.1] [1/4], .saved (3, 3) 3 [0.1] [1/3]], ∃ d T ph lo, f = .saved d T ph lo := by
  intro f hf
  simp only [List.mem_cons, List.not_mem_nil, or_false] at hf
  rcases hf with rfl | rfl <;> exact ⟨_, _, _, _, rfl⟩

/-! ### C78 -/

/-- C78 is false of the code: the multi-process sweep raises for every non-empty list of rates (the function given to the
worker pool cannot be pickled), and stores nothing. -/
theorem C78_multiprocess_refuted (B : Benchmark) (rates : Option (List ℝ)) (workers : Py (List ℚ)) (st : BenchState)
    (hne : requestedRates rates ≠ []) : B.sweepMp rates workers st = (.error .attributeError, st) := by
  have : sortedAsc (requestedRates rates) ≠ [] := by
    intro h
    have hp : (sortedAsc (requestedRates rates)).Perm (requestedRates rates) := List.mergeSort_perm _ _
    rw [h] at hp
    exact hne hp.nil_eq.symm
  unfold Benchmark.sweepMp poolMap
  simp [this]

/-- C78, positive part: for an empty list it stores empty data. -/
theorem C78_empty_partial (B : Benchmark) (workers : Py (List ℚ)) (st : BenchState) :
    B.sweepMp (some []) workers st = (.ok (), { st with phys := [], logical := [] }) := by
  unfold Benchmark.sweepMp poolMap sortedAsc requestedRates
  simp

example : requestedRates none ≠ [] := by simp [requestedRates]

/-! ### C79 -/

/-- The string is a noisy readout of a logical value `b` whose faults are correctable: the measured logical bit and the
syndrome rounds, newest first. -/
def CorrectableReadout (D : Decoder) (b : Bool) (str : Str) : Prop :=
  ∃ (T : Int) (fs : List Fault) (ref : Int → Int → Bool) (rounds : List Str), T ≤ D.T ∧ Correctable .Z D.dh D.dw T fs ∧
    (rounds.length : Int) = T + 1 ∧ RoundsRead .Z D.dh D.dw ref fs rounds ∧
    str = joinSp ([if b ^^ readoutFlipped .Z fs then '1' else '0'] :: rounds.reverse)

/-- C79: if every readout string of a run comes from a correctable fault set, the benchmark reports logical error rate 0 (without
degeneracy weighting); the logical value that was prepared is the expected one. -/
theorem C79_correctable_noise (D : Decoder) (hD : Made D) (s : SGraph) (hs : D.S .Z = some s) (HO : OddPos D.dh D.dw)
    (hbig : 1 < D.dh * D.dw) (m : Matcher) (hm : Contract m) (b : Bool) (c : Counts) (hc : ∀ q ∈ c, 0 ≤ q.2) (hsh : 0 < shots c)
    (hr : ∀ q ∈ c, CorrectableReadout D b q.1) :
    logicalErrorRate (fun str ep => correctString D m str .Z ep) (bit b) c none = .ok 0 := by
  have hdec : ∀ q ∈ c, (fun str (ep : Option ℝ) => correctString D m str .Z ep) q.1 none = .ok ((fun _ => some (bit b)) q.1) := by
    intro q hq
    obtain ⟨T, fs, ref, rounds, h1, h2, h3, h4, h5⟩ := hr q hq
    have := C32_strings_single D hD .Z s hs HO hbig m hm T h1 fs h2 ref rounds h3 h4 b
    rw [← h5] at this
    exact this
  obtain ⟨rate, h1, _, _, _, h5⟩ := C43_rate (fun str ep => correctString D m str .Z ep) (bit b) c none (fun _ => some (bit b)) hdec hc hsh
  rw [h1, h5.2 fun _ _ _ => rfl]

-- the data qubit in row 0 and column 1 of a 3 × 5 lattice flips after the first round: "0" is a noisy readout of 1
example : ∃ D s, Made D ∧ D.S .Z = some s ∧ OddPos D.dh D.dw ∧ 1 < D.dh * D.dw ∧
    CorrectableReadout D true "0 00000000000001 00000000000001 00000000000000".toList := by
  obtain ⟨D, sx, sz, h, h1, h2, h3, h4, h5, h6, h7⟩ := demo_decoder
  refine ⟨D, sz, h, h5, h7.1, by rw [h1, h2]; decide, 2, [.data 0 0 1], fun _ _ => false,
    ["00000000000000".toList, "00000000000001".toList, "00000000000001".toList], by rw [h3], ?_, rfl, ?_, by decide⟩
  · rw [h1, h2]
    refine ⟨?_, by decide⟩
    intro f hf
    rw [List.mem_singleton.1 hf]
    unfold Fault.Fits; decide
  · rw [h1, h2]
    refine roundsRead_of ?_ (by decide)
    intro s hs
    simp only [List.mem_cons, List.not_mem_nil, or_false] at hs
    rcases hs with rfl | rfl | rfl <;> exact ⟨by decide, by decide⟩

end Qtc
