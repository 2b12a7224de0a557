import Verif.Proof.Sampling
import Verif.Props.Benchmark
import Verif.Props.Repetition
/-!
C114: the logical error rate that is reported is an estimate of the probability that a shot is decoded wrongly.
-/
namespace Qtc
open Spec

open Classical in
/-- The probability that a shot is decoded to something other than the expected value. -/
noncomputable def wrongProb {Ω : Type} (S : Finset Ω) (μ : Ω → ℝ) (out : Ω → Str) (ans : Str → Option Int) (correct : Int) : ℝ :=
  ∑ a ∈ S, if ans (out a) = some correct then 0 else μ a

/-- C114: for the counts of any list of shots, the logical error rate is the fraction of shots decoded wrongly. -/
theorem C114_fraction (dec : DecodeFn) (correct : Int) (ep : Option ℝ) (ans : Str → Option Int) (l : List Str) (hl : l ≠ []) (c : Counts)
    (hc : Tally c l) (hdec : ∀ s ∈ l, dec s ep = .ok (ans s)) (hpos : ∀ q ∈ c, 0 < q.2) :
    logicalErrorRate dec correct c ep = .ok (((l.filter fun s => ans s != some correct).length : ℚ) / l.length) := by
  have hmem : ∀ q ∈ c, q.1 ∈ l := by
    intro q hq
    have h1 := hc.2 q.1
    have h2 : countOf c q.1 = q.2 := by
      have : ∀ c : Counts, (c.map (·.1)).Nodup → q ∈ c → countOf c q.1 = q.2 := by
        intro c
        induction c with
        | nil => intro _ h; simp at h
        | cons a c ih =>
          intro hn hq
          rw [List.map_cons, List.nodup_cons] at hn
          unfold countOf
          rw [List.lookup_cons]
          rcases List.mem_cons.1 hq with rfl | hq
          · simp
          · have : (q.1 == a.1) = false := by
              rw [beq_eq_false_iff_ne]
              intro e
              exact hn.1 (e ▸ List.mem_map.2 ⟨q, hq, rfl⟩)
            rw [this]
            exact ih hn.2 hq
      exact this c hc.1 hq
    have h3 := hpos q hq
    by_contra h
    rw [List.count_eq_zero_of_not_mem h] at h1
    rw [h2] at h1
    simp at h1
    omega
  have hs : shots c = l.length := by
    have := tally_where hc fun _ => true
    unfold shotsWhere at this
    rwa [List.filter_true, List.filter_true] at this
  have hpos' : 0 < l.length := List.length_pos_iff.2 hl
  rw [rate_eq fun q hq => hdec q.1 (hmem q hq), if_neg (by omega), tally_where hc, hs]
  simp

variable {Ω : Type} {N : Nat} {S : Finset Ω} {μ : Ω → ℝ} {out : Ω → Str}

/-- A benchmark of `N` independent shots. A shot gives the element `a` of `S` with probability `μ a`, and then the readout `out a`.
For the shots `x` the counts are `tally x` and the reported rate is `rate x`. The decoder answers `ans`. -/
structure Shots (N : Nat) (S : Finset Ω) (μ : Ω → ℝ) (out : Ω → Str) (dec : DecodeFn) (correct : Int) (ep : Option ℝ)
    (ans : Str → Option Int) (tally : (Fin N → Ω) → Counts) (rate : (Fin N → Ω) → ℚ) : Prop where
  law : Law S μ
  some_shots : 0 < N
  answers : ∀ a ∈ S, dec (out a) ep = .ok (ans (out a))
  counts : ∀ x, (∀ i, x i ∈ S) → Tally (tally x) (List.ofFn fun i => out (x i)) ∧ ∀ q ∈ tally x, 0 < q.2
  reported : ∀ x, (∀ i, x i ∈ S) → logicalErrorRate dec correct (tally x) ep = .ok (rate x)

section
variable {dec : DecodeFn} {correct : Int} {ep : Option ℝ} {ans : Str → Option Int} {tally : (Fin N → Ω) → Counts} {rate : (Fin N → Ω) → ℚ}

open Classical in
theorem Shots.rate_eq (H : Shots N S μ out dec correct ep ans tally rate) {x : Fin N → Ω} (hx : ∀ i, x i ∈ S) :
    (rate x : ℝ) = (∑ i, if ans (out (x i)) = some correct then (0 : ℝ) else 1) / N := by
  have h1 := C114_fraction dec correct ep ans (List.ofFn fun i => out (x i)) ?_ (tally x) (H.counts x hx).1 ?_ (H.counts x hx).2
  · rw [H.reported x hx] at h1
    injection h1 with h1
    rw [h1, List.length_ofFn]
    push_cast
    congr 1
    rw [← List.sum_ofFn]
    have : ∀ l : List Str, ((l.filter fun s => ans s != some correct).length : ℝ) =
        (l.map fun s => if ans s = some correct then (0 : ℝ) else 1).sum := by
      intro l
      induction l with
      | nil => simp
      | cons s l ih =>
        rw [List.filter_cons, List.map_cons, List.sum_cons]
        by_cases e : ans s = some correct
        · simp [e, ih]
        · simp [e, ih]
          ring
    rw [this, List.map_ofFn]
    rfl
  · have := H.some_shots
    intro h
    have := congrArg List.length h
    simp at this
    omega
  · intro s hs
    obtain ⟨i, rfl⟩ := List.mem_ofFn.1 hs
    exact H.answers _ (hx i)

open Classical in
theorem wrongProb_eq (S : Finset Ω) (μ : Ω → ℝ) (out : Ω → Str) (ans : Str → Option Int) (correct : Int) :
    wrongProb S μ out ans correct = ∑ a ∈ S, μ a * if ans (out a) = some correct then 0 else 1 :=
  Finset.sum_congr rfl fun a _ => by split <;> simp

/-- C114: the reported rate is right on average. -/
theorem C114_unbiased (H : Shots N S μ out dec correct ep ans tally rate) :
    mean N S μ (fun x => rate x) = wrongProb S μ out ans correct := by
  classical
  rw [mean_congr fun x hx => H.rate_eq hx, wrongProb_eq]
  exact mean_fraction H.law H.some_shots fun a => if ans (out a) = some correct then 0 else 1

/-- C114: its variance. -/
theorem C114_variance (H : Shots N S μ out dec correct ep ans tally rate) :
    mean N S μ (fun x => ((rate x : ℝ) - wrongProb S μ out ans correct) ^ 2) =
      wrongProb S μ out ans correct * (1 - wrongProb S μ out ans correct) / N := by
  classical
  rw [mean_congr fun x hx => by rw [H.rate_eq hx], wrongProb_eq]
  refine (mean_variance H.law H.some_shots fun a => if ans (out a) = some correct then 0 else 1).trans ?_
  congr 1
  have : ∀ a, μ a * (if ans (out a) = some correct then (0 : ℝ) else 1) ^ 2 = μ a * if ans (out a) = some correct then 0 else 1 := by
    intro a
    split <;> simp
  simp only [this]
  ring

/-- C114: the probability that the reported rate is off by `ε` or more. -/
theorem C114_close (H : Shots N S μ out dec correct ep ans tally rate) (ε : ℝ) (hε : 0 < ε) :
    probability N S μ (fun x => ε ≤ |(rate x : ℝ) - wrongProb S μ out ans correct|) ≤ 1 / (4 * N * ε ^ 2) := by
  have hN : (0 : ℝ) < N := by exact_mod_cast H.some_shots
  refine (probability_far H.law (fun x => (rate x : ℝ)) _ hε).trans ?_
  rw [C114_variance H, div_div, div_le_div_iff₀ (by positivity) (by positivity)]
  have h : wrongProb S μ out ans correct * (1 - wrongProb S μ out ans correct) ≤ 1 / 4 := by
    nlinarith [sq_nonneg (wrongProb S μ out ans correct - 1 / 2)]
  have h2 : (0 : ℝ) < N * ε ^ 2 := by positivity
  nlinarith

end

/-- The counts of any shots. -/
theorem tally_exists (l : List Str) : ∃ c, Tally c l ∧ ∀ q ∈ c, 0 < q.2 := by
  refine ⟨l.dedup.map fun s => (s, (l.count s : Int)), ⟨?_, ?_⟩, ?_⟩
  · rw [List.map_map]
    have : ((fun x : Str × Int => x.1) ∘ fun s => (s, (l.count s : Int))) = id := rfl
    rw [this, List.map_id]
    exact List.nodup_dedup l
  · intro s
    unfold countOf
    have : ∀ k : List Str, ((k.map fun s => (s, (l.count s : Int))).lookup s) = if s ∈ k then some (l.count s : Int) else none := by
      intro k
      induction k with
      | nil => rfl
      | cons a k ih =>
        rw [List.map_cons, List.lookup_cons, ih]
        by_cases e : s = a
        · subst e; simp
        · rw [beq_eq_false_iff_ne.2 e]
          simp [e]
    rw [this]
    by_cases h : s ∈ l
    · simp [h]
    · simp [h, List.count_eq_zero_of_not_mem h]
  · intro q hq
    obtain ⟨s, hs, rfl⟩ := List.mem_map.1 hq
    have := List.count_pos_iff.2 (List.mem_dedup.1 hs)
    simpa using List.mem_dedup.1 hs

/-- C114: such benchmarks exist, for every law of the shots and every decoder that answers. -/
theorem C114_exists (hN : 0 < N) (hμ : Law S μ) (out : Ω → Str) (dec : DecodeFn) (correct : Int) (ep : Option ℝ) (ans : Str → Option Int)
    (h : ∀ a ∈ S, dec (out a) ep = .ok (ans (out a))) : ∃ tally rate, Shots N S μ out dec correct ep ans tally rate := by
  choose tally ht using fun x : Fin N → Ω => tally_exists (List.ofFn fun i => out (x i))
  refine ⟨tally, fun x => (((List.ofFn fun i => out (x i)).filter fun s => ans s != some correct).length : ℚ) / (List.ofFn fun i => out (x i)).length,
    hμ, hN, h, fun x _ => ht x, fun x hx => ?_⟩
  refine C114_fraction dec correct ep ans _ ?_ _ (ht x).1 ?_ (ht x).2
  · intro h
    have := congrArg List.length h
    simp at this
    omega
  · intro s hs
    obtain ⟨i, rfl⟩ := List.mem_ofFn.1 hs
    exact h _ (hx i)

/-- C114 for the benchmark of the repetition code (C88, C89): if the shots are executions of its circuit, in which every data qubit flips
independently with probability `p`, the reported rate is on average the probability that more than half of the data qubits flip. Whatever
else is random in a shot. -/
theorem C114_repetition {d : Nat} {ep : Option ℝ} (B : RepBench d ep) (p : ℝ) (flips : Ω → Finset Nat) (fin : Ω → QState)
    (hflips : ∀ a ∈ S, flips a ⊆ Finset.range d) (hends : ∀ a ∈ S, B.Ends (flips a) (fin a))
    (hlaw : ∀ F ⊆ Finset.range d, ∑ a ∈ S with flips a = F, μ a = p ^ F.card * (1 - p) ^ (d - F.card))
    {ans : Str → Option Int} {tally : (Fin N → Ω) → Counts} {rate : (Fin N → Ω) → ℚ}
    (H : Shots N S μ (fun a => joinSp (groups (fin a).mem (B.q.ops [.resetZ, .stabilize, .idData, .stabilize, .readoutZ none] B.w).circ.cregs))
      (fun s ep => correctString B.D B.m s .Z ep) 0 ep ans tally rate) :
    mean N S μ (fun x => rate x) = B.rate p := by
  classical
  rw [C114_unbiased H]
  unfold wrongProb RepBench.rate flipProb
  have key : ∀ a ∈ S, (ans (joinSp (groups (fin a).mem (B.q.ops [.resetZ, .stabilize, .idData, .stabilize, .readoutZ none] B.w).circ.cregs)) =
      some 0 ↔ ¬ d < 2 * (flips a).card) := by
    intro a ha
    have h1 := H.answers a ha
    have h2 := (C88_executions B (flips a) (hflips a ha)).2 (fin a) (hends a ha)
    unfold RepBench.decoded at h2
    rw [h2] at h1
    injection h1 with h1
    rw [← h1]
    split <;> simp [*]
  have bad : ∀ F ⊆ Finset.range d, ((∃ s', B.Ends F s' ∧ B.decoded s' ≠ .ok (some 0)) ↔ d < 2 * F.card) := by
    intro F hF
    obtain ⟨⟨s', h1⟩, h2⟩ := C88_executions B F hF
    constructor
    · rintro ⟨s'', h3, h4⟩
      rw [h2 s'' h3] at h4
      by_contra h
      exact h4 (by rw [if_neg h])
    · intro h
      exact ⟨s', h1, by rw [h2 s' h1, if_pos h]; simp⟩
  have step : ∑ a ∈ S, (if ans (joinSp (groups (fin a).mem (B.q.ops [.resetZ, .stabilize, .idData, .stabilize, .readoutZ none] B.w).circ.cregs)) =
      some 0 then 0 else μ a) = ∑ a ∈ S, if d < 2 * (flips a).card then μ a else 0 := by
    refine Finset.sum_congr rfl fun a ha => ?_
    by_cases h : d < 2 * (flips a).card
    · rw [if_pos h, if_neg fun e => (key a ha).1 e h]
    · rw [if_neg h, if_pos ((key a ha).2 h)]
  rw [step, ← Finset.sum_fiberwise_of_maps_to (t := (Finset.range d).powerset) (g := flips) fun a ha => Finset.mem_powerset.2 (hflips a ha)]
  refine Finset.sum_congr rfl fun F hF => ?_
  have hF' := Finset.mem_powerset.1 hF
  have e : ∑ a ∈ S with flips a = F, (if d < 2 * (flips a).card then μ a else 0) = ∑ a ∈ S with flips a = F, if d < 2 * F.card then μ a else 0 :=
    Finset.sum_congr rfl fun a ha => by rw [(Finset.mem_filter.1 ha).2]
  rw [e]
  by_cases h : d < 2 * F.card
  · simp only [if_pos h, if_pos ((bad F hF').2 h)]
    exact hlaw F hF'
  · simp only [if_neg h, if_neg fun x => h ((bad F hF').1 x), Finset.sum_const_zero]

/-- The hypotheses of `C114_repetition` can be met: draw the set of flips and take one execution for each. -/
theorem C114_repetition_exists {d : Nat} {ep : Option ℝ} (B : RepBench d ep) (p : ℝ) (h0 : 0 ≤ p) (h1 : p ≤ 1) (hN : 0 < N) :
    ∃ (fin : Finset Nat → QState) (ans : Str → Option Int) (tally : (Fin N → Finset Nat) → Counts) (rate : (Fin N → Finset Nat) → ℚ),
      (∀ F ∈ (Finset.range d).powerset, B.Ends F (fin F)) ∧
      Shots N (Finset.range d).powerset (fun F => p ^ F.card * (1 - p) ^ (d - F.card))
        (fun F => joinSp (groups (fin F).mem (B.q.ops [.resetZ, .stabilize, .idData, .stabilize, .readoutZ none] B.w).circ.cregs))
        (fun s ep => correctString B.D B.m s .Z ep) 0 ep ans tally rate := by
  classical
  have : Nonempty QState := ⟨(C88_executions B ∅ (Finset.empty_subset _)).1.choose⟩
  choose! fin hfin using fun F (hF : F ∈ (Finset.range d).powerset) => (C88_executions B F (Finset.mem_powerset.1 hF)).1
  let ans : Str → Option Int := fun s => match correctString B.D B.m s .Z ep with
    | .ok a => a
    | .error _ => none
  have hlaw : Law (Finset.range d).powerset fun F => p ^ F.card * (1 - p) ^ (d - F.card) := by
    refine ⟨fun F _ => mul_nonneg (pow_nonneg h0 _) (pow_nonneg (by linarith) _), ?_⟩
    have := Finset.sum_pow_mul_eq_add_pow p (1 - p) (Finset.range d)
    rw [Finset.card_range] at this
    rw [this]
    simp
  obtain ⟨tally, rate, H⟩ := C114_exists hN hlaw
    (fun F => joinSp (groups (fin F).mem (B.q.ops [.resetZ, .stabilize, .idData, .stabilize, .readoutZ none] B.w).circ.cregs))
    (fun s ep => correctString B.D B.m s .Z ep) 0 ep ans fun F hF => by
      have := (C88_executions B F (Finset.mem_powerset.1 hF)).2 (fin F) (hfin F hF)
      unfold RepBench.decoded at this
      simp only [ans, this]
  exact ⟨fin, ans, tally, rate, hfin, H⟩

/-- With the default number of shots, the reported rate is off by 5 percentage points or more in less than one of twenty benchmarks. -/
example {dec : DecodeFn} {correct : Int} {ep : Option ℝ} {ans : Str → Option Int} {tally : (Fin 2048 → Ω) → Counts}
    {rate : (Fin 2048 → Ω) → ℚ} (H : Shots 2048 S μ out dec correct ep ans tally rate) :
    probability 2048 S μ (fun x => 0.05 ≤ |(rate x : ℝ) - wrongProb S μ out ans correct|) < 1 / 20 :=
  lt_of_le_of_lt (C114_close H 0.05 (by norm_num)) (by norm_num)

-- a fair coin: "0 0" is right, "1 0" is wrong
example : wrongProb (Finset.univ : Finset Bool) (fun _ => 1 / 2) (fun b => if b then "1 0".toList else "0 0".toList)
    (fun s => if s = "0 0".toList then some 0 else some 1) 0 = 1 / 2 := by
  unfold wrongProb
  rw [Fintype.sum_bool]
  simp

end Qtc
