import Verif.Props.LookUp
import Verif.Props.Benchmark
/-!
C113: no decoder does better than the look-up table on the data the table was made from.
-/
namespace Qtc
open Spec

/-- The look-up table as a decoder that can be benchmarked. -/
def lookUpDecoder (h : CountsHeap) (L : LookUp) (ty : Str) : DecodeFn := fun s _ => (L.correct h s ty).map some

theorem sum_filter_ite {α : Type} (P : α → Bool) (f : α → Int) (n : ℚ) : ∀ l : List α,
    ((((l.filter P).map f).sum : Int) : ℚ) / n = (l.map fun x => if P x then (f x : ℚ) / n else 0).sum
  | [] => by simp
  | x :: l => by
    rw [List.filter_cons, List.map_cons, List.sum_cons, ← sum_filter_ite P f n l]
    split
    · rw [List.map_cons, List.sum_cons]
      push_cast
      ring
    · ring

/-- The error rate of a decoder, string by string. -/
theorem rate_sum {dec : DecodeFn} {ep : Option ℝ} {v : Int} {c : Counts} {ans : Str → Option Int} {ks : List Str} {r : ℚ}
    (hn : (c.map (·.1)).Nodup) (hk : ks.Nodup) (hm : ∀ q ∈ c, q.1 ∈ ks) (hdec : ∀ q ∈ c, dec q.1 ep = .ok (ans q.1))
    (hr : logicalErrorRate dec v c ep = .ok r) : r = (ks.map fun s => if ans s = some v then 0 else relFreq c s).sum := by
  rw [rate_eq hdec] at hr
  split at hr
  · cases hr
  · cases hr
    rw [shotsWhere_eq _ c ks hn hk hm, sum_filter_ite]
    congr 1
    refine List.map_congr_left fun s _ => ?_
    by_cases e : ans s = some v
    · simp [e]
    · rw [if_neg e, if_pos (by simpa using e)]
      rfl

/-- If a rate is computed, the decoder has answered every string. -/
theorem rate_answers {dec : DecodeFn} {ep : Option ℝ} {v : Int} {c : Counts} {r : ℚ} (hr : logicalErrorRate dec v c ep = .ok r) :
    ∀ q ∈ c, ∃ a, dec q.1 ep = .ok a := by
  intro q hq
  cases e : dec q.1 ep with
  | ok a => exact ⟨a, rfl⟩
  | error x =>
    obtain ⟨_, _, _, _, h⟩ := C43_decoder_raises dec v c ep ⟨q, hq, x, e⟩
    rw [h] at hr
    cases hr

theorem relFreq_nonneg {c : Counts} (hp : ∀ q ∈ c, 0 < q.2) (s : Str) : 0 ≤ relFreq c s := by
  unfold relFreq
  have h : ∀ c : Counts, (∀ q ∈ c, 0 < q.2) → 0 ≤ (c.lookup s).getD 0 := by
    intro c
    induction c with
    | nil => intro _; simp
    | cons q c ih =>
      intro hp
      rw [List.lookup_cons]
      split
      · exact (hp q List.mem_cons_self).le
      · exact ih fun q hq => hp q (List.mem_cons_of_mem _ hq)
  have hs : 0 ≤ (c.map (·.2)).sum := shots_nonneg fun q hq => (hp q hq).le
  exact div_nonneg (by exact_mod_cast h c hp) (by exact_mod_cast hs)

theorem shots_pos {c : Counts} (hp : ∀ q ∈ c, 0 < q.2) (hne : c ≠ []) : 0 < shots c := by
  cases c with
  | nil => exact absurd rfl hne
  | cons q c =>
    have h1 := hp q List.mem_cons_self
    have h2 : 0 ≤ shots c := shots_nonneg fun q hq => (hp q (List.mem_cons_of_mem _ hq)).le
    unfold shots at *
    rw [List.map_cons, List.sum_cons]
    omega

theorem relFreq_pos {c : Counts} (hp : ∀ q ∈ c, 0 < q.2) {s : Str} (hs : s ∈ c.map (·.1)) : 0 < relFreq c s := by
  have hne : c ≠ [] := by rintro rfl; simp at hs
  have h0 := shots_pos hp hne
  unfold relFreq
  have h : ∀ c : Counts, (∀ q ∈ c, 0 < q.2) → s ∈ c.map (·.1) → 0 < (c.lookup s).getD 0 := by
    intro c
    induction c with
    | nil => intro _ h; simp at h
    | cons q c ih =>
      intro hp hs
      rw [List.lookup_cons]
      split
      · exact hp q List.mem_cons_self
      · rename_i hne
        rw [List.map_cons, List.mem_cons] at hs
        rcases hs with rfl | hs
        · simp at hne
        · exact ih (fun q hq => hp q (List.mem_cons_of_mem _ hq)) hs
  exact div_pos (by exact_mod_cast h c hp hs) (by exact_mod_cast h0)

/-- The strings of two dictionaries of counts. -/
def bothKeys (c₀ c₁ : Counts) : List Str := (c₀.map (·.1) ++ c₁.map (·.1)).dedup

theorem mem_bothKeys {c₀ c₁ : Counts} {q : Str × Int} (h : q ∈ c₀ ∨ q ∈ c₁) : q.1 ∈ bothKeys c₀ c₁ := by
  unfold bothKeys
  rw [List.mem_dedup, List.mem_append]
  exact h.imp (fun h => List.mem_map.2 ⟨q, h, rfl⟩) fun h => List.mem_map.2 ⟨q, h, rfl⟩

/-- What a decoder that answers `ans` gets wrong on both sets of shots. -/
theorem rates_add {dec : DecodeFn} {ep : Option ℝ} {c₀ c₁ : Counts} {ans : Str → Option Int} {r₀ r₁ : ℚ} (hn₀ : (c₀.map (·.1)).Nodup)
    (hn₁ : (c₁.map (·.1)).Nodup) (hdec : ∀ q, q ∈ c₀ ∨ q ∈ c₁ → dec q.1 ep = .ok (ans q.1))
    (h₀ : logicalErrorRate dec 0 c₀ ep = .ok r₀) (h₁ : logicalErrorRate dec 1 c₁ ep = .ok r₁) :
    r₀ + r₁ = ((bothKeys c₀ c₁).map fun s =>
      (if ans s = some 0 then 0 else relFreq c₀ s) + if ans s = some 1 then 0 else relFreq c₁ s).sum := by
  rw [rate_sum hn₀ (List.nodup_dedup _) (fun q hq => mem_bothKeys (Or.inl hq)) (fun q hq => hdec q (Or.inl hq)) h₀,
    rate_sum hn₁ (List.nodup_dedup _) (fun q hq => mem_bothKeys (Or.inr hq)) (fun q hq => hdec q (Or.inr hq)) h₁, ← List.sum_map_add]
  rfl

/-- C113: benchmark the look-up table on the very shots it holds (expecting 0 for the shots of `|0⟩` and 1 for those of `|1⟩`). Then the sum of
its two error rates is the sum of the smaller relative frequencies of all strings, and every other decoder has at least this sum. -/
theorem C113_best (h : CountsHeap) (L : LookUp) (ty : Str) (c₀ c₁ : Counts) (hc₀ : EntryIs (h, L) ty 0 c₀ (c₀.map (·.2)).sum)
    (hc₁ : EntryIs (h, L) ty 1 c₁ (c₁.map (·.2)).sum) (hn₀ : (c₀.map (·.1)).Nodup) (hn₁ : (c₁.map (·.1)).Nodup)
    (hp₀ : ∀ q ∈ c₀, 0 < q.2) (hp₁ : ∀ q ∈ c₁, 0 < q.2) (he₀ : c₀ ≠ []) (he₁ : c₁ ≠ []) :
    ∃ r₀ r₁, logicalErrorRate (lookUpDecoder h L ty) 0 c₀ none = .ok r₀ ∧ logicalErrorRate (lookUpDecoder h L ty) 1 c₁ none = .ok r₁ ∧
      r₀ + r₁ = (((c₀.map (·.1) ++ c₁.map (·.1)).dedup).map fun s => min (relFreq c₀ s) (relFreq c₁ s)).sum ∧
      ∀ (dec : DecodeFn) (ep : Option ℝ) (r₀' r₁' : ℚ), logicalErrorRate dec 0 c₀ ep = .ok r₀' → logicalErrorRate dec 1 c₁ ep = .ok r₁' →
        r₀ + r₁ ≤ r₀' + r₁' := by
  let ans : Str → Option Int := fun s => some (if relFreq c₀ s < relFreq c₁ s then 1 else 0)
  have hans : ∀ q, q ∈ c₀ ∨ q ∈ c₁ → lookUpDecoder h L ty q.1 none = .ok (ans q.1) := by
    intro q hq
    unfold lookUpDecoder
    rw [C41_decision h L ty q.1 c₀ c₁ hc₀ hc₁ (fun _ => (shots_pos hp₀ he₀).ne') (fun _ => (shots_pos hp₁ he₁).ne') ?_]
    · rfl
    · rcases hq with hq | hq
      · exact add_pos_of_pos_of_nonneg (relFreq_pos hp₀ (List.mem_map.2 ⟨q, hq, rfl⟩)) (relFreq_nonneg hp₁ _)
      · exact add_pos_of_nonneg_of_pos (relFreq_nonneg hp₀ _) (relFreq_pos hp₁ (List.mem_map.2 ⟨q, hq, rfl⟩))
  obtain ⟨r₀, h₀, -⟩ := C43_rate (lookUpDecoder h L ty) 0 c₀ none ans (fun q hq => hans q (Or.inl hq)) (fun q hq => (hp₀ q hq).le)
    (shots_pos hp₀ he₀)
  obtain ⟨r₁, h₁, -⟩ := C43_rate (lookUpDecoder h L ty) 1 c₁ none ans (fun q hq => hans q (Or.inr hq)) (fun q hq => (hp₁ q hq).le)
    (shots_pos hp₁ he₁)
  have hsum : r₀ + r₁ = ((bothKeys c₀ c₁).map fun s => min (relFreq c₀ s) (relFreq c₁ s)).sum := by
    rw [rates_add hn₀ hn₁ hans h₀ h₁]
    congr 1
    refine List.map_congr_left fun s _ => ?_
    show (if some _ = some _ then _ else _) + (if some _ = some _ then _ else _) = _
    by_cases hlt : relFreq c₀ s < relFreq c₁ s
    · simp [hlt, min_eq_left hlt.le]
    · simp [hlt, min_eq_right (not_lt.1 hlt)]
  refine ⟨r₀, r₁, h₀, h₁, hsum, ?_⟩
  intro dec ep r₀' r₁' h₀' h₁'
  let ans' : Str → Option Int := fun s => match dec s ep with
    | .ok a => a
    | .error _ => none
  have hans' : ∀ q, q ∈ c₀ ∨ q ∈ c₁ → dec q.1 ep = .ok (ans' q.1) := by
    intro q hq
    obtain ⟨a, ha⟩ := hq.elim (rate_answers h₀' q) (rate_answers h₁' q)
    simp only [ans', ha]
  rw [rates_add hn₀ hn₁ hans' h₀' h₁', hsum]
  refine List.sum_le_sum fun s _ => ?_
  have p0 := relFreq_nonneg hp₀ s
  have p1 := relFreq_nonneg hp₁ s
  by_cases e0 : ans' s = some 0
  · rw [if_pos e0, if_neg (by rw [e0]; decide), zero_add]
    exact min_le_right _ _
  · rw [if_neg e0]
    refine (min_le_left _ _).trans (le_add_of_nonneg_right ?_)
    split
    · exact le_rfl
    · exact p1

/-- The relative frequencies add up to one. -/
theorem relFreq_sum {c : Counts} {ks : List Str} (hn : (c.map (·.1)).Nodup) (hk : ks.Nodup) (hm : ∀ q ∈ c, q.1 ∈ ks) (hs : shots c ≠ 0) :
    (ks.map (relFreq c)).sum = 1 := by
  have h := shotsWhere_eq (fun _ => true) c ks hn hk hm
  rw [List.filter_true] at h
  have e : shotsWhere (fun _ => true) c = shots c := by unfold shotsWhere shots; rw [List.filter_true]
  have h2 := sum_filter_ite (fun _ => true) (countOf c) (shots c : ℚ) ks
  rw [List.filter_true, ← h, e, div_self (by exact_mod_cast hs)] at h2
  rw [h2]
  rfl

/-- C113: on these shots the table is never worse than guessing, and it is better as soon as some string has different relative frequencies
for the two values. -/
theorem C113_no_guess (h : CountsHeap) (L : LookUp) (ty : Str) (c₀ c₁ : Counts) (hc₀ : EntryIs (h, L) ty 0 c₀ (c₀.map (·.2)).sum)
    (hc₁ : EntryIs (h, L) ty 1 c₁ (c₁.map (·.2)).sum) (hn₀ : (c₀.map (·.1)).Nodup) (hn₁ : (c₁.map (·.1)).Nodup)
    (hp₀ : ∀ q ∈ c₀, 0 < q.2) (hp₁ : ∀ q ∈ c₁, 0 < q.2) (he₀ : c₀ ≠ []) (he₁ : c₁ ≠ []) (r₀ r₁ : ℚ)
    (h₀ : logicalErrorRate (lookUpDecoder h L ty) 0 c₀ none = .ok r₀) (h₁ : logicalErrorRate (lookUpDecoder h L ty) 1 c₁ none = .ok r₁) :
    r₀ + r₁ ≤ 1 ∧ (r₀ + r₁ = 1 ↔ ∀ s, relFreq c₀ s = relFreq c₁ s) := by
  obtain ⟨x, y, hx, hy, hsum, -⟩ := C113_best h L ty c₀ c₁ hc₀ hc₁ hn₀ hn₁ hp₀ hp₁ he₀ he₁
  rw [hx] at h₀
  rw [hy] at h₁
  cases h₀
  cases h₁
  rw [hsum]
  have hk : (bothKeys c₀ c₁).Nodup := List.nodup_dedup _
  have s0 := relFreq_sum hn₀ hk (fun q hq => mem_bothKeys (Or.inl hq)) (shots_pos hp₀ he₀).ne'
  have s1 := relFreq_sum hn₁ hk (fun q hq => mem_bothKeys (Or.inr hq)) (shots_pos hp₁ he₁).ne'
  change ((bothKeys c₀ c₁).map _).sum ≤ 1 ∧ (((bothKeys c₀ c₁).map _).sum = 1 ↔ _)
  have hle : ((bothKeys c₀ c₁).map fun s => min (relFreq c₀ s) (relFreq c₁ s)).sum ≤ 1 := by
    rw [← s0]
    exact List.sum_le_sum fun s _ => min_le_left _ _
  refine ⟨hle, fun he => ?_, fun he => ?_⟩
  · have key : ∀ (f g : Str → ℚ), (∀ s, g s ≤ f s) → ∀ l : List Str, (l.map f).sum ≤ (l.map g).sum → ∀ s ∈ l, f s = g s := by
      intro f g hfg l
      induction l with
      | nil => intro _ s hs; simp at hs
      | cons a l ih =>
        intro hl s hs
        rw [List.map_cons, List.map_cons, List.sum_cons, List.sum_cons] at hl
        have h1 := hfg a
        have h2 : (l.map g).sum ≤ (l.map f).sum := List.sum_le_sum fun s _ => hfg s
        rcases List.mem_cons.1 hs with rfl | hs
        · linarith
        · exact ih (by linarith) s hs
    intro s
    by_cases hs : s ∈ bothKeys c₀ c₁
    · have a := key (relFreq c₀) (fun s => min (relFreq c₀ s) (relFreq c₁ s)) (fun s => min_le_left _ _) _ (by rw [s0, he]) s hs
      have b := key (relFreq c₁) (fun s => min (relFreq c₀ s) (relFreq c₁ s)) (fun s => min_le_right _ _) _ (by rw [s1, he]) s hs
      exact a.trans b.symm
    · have none0 : ∀ c : Counts, s ∉ c.map (·.1) → relFreq c s = 0 := by
        intro c hc
        unfold relFreq
        have : c.lookup s = none := by
          rw [List.lookup_eq_none_iff]
          intro q hq
          rw [bne_iff_ne]
          rintro rfl
          exact hc (List.mem_map.2 ⟨q, hq, rfl⟩)
        rw [this]
        simp
      unfold bothKeys at hs
      rw [List.mem_dedup, List.mem_append, not_or] at hs
      rw [none0 c₀ hs.1, none0 c₁ hs.2]
  · rw [← s0]
    congr 1
    exact List.map_congr_left fun s _ => by rw [he s, min_self]

-- the table of C41's example: "0 0" is seen 30 of 40 times from |0⟩ and 1 of 40 times from |1⟩; 11 of 40 is the best sum of the two rates
example : (([("0 0".toList, 30), ("1 0".toList, 10)] : Counts).map (·.1) ++ ([("1 0".toList, 39), ("0 0".toList, 1)] : Counts).map (·.1)).dedup.map
    (fun s => min (relFreq [("0 0".toList, 30), ("1 0".toList, 10)] s) (relFreq [("1 0".toList, 39), ("0 0".toList, 1)] s)) = [1 / 4, 1 / 40] := by
  decide +kernel

/-- The hypotheses can be met: after setting both entries. -/
example (c₀ c₁ : Counts) : EntryIs (lookUpRun (fun r => if r = 0 then c₀ else c₁) [.set ['Z'] 0 0, .set ['Z'] 1 1]) ['Z'] 0 c₀ (c₀.map (·.2)).sum ∧
    EntryIs (lookUpRun (fun r => if r = 0 then c₀ else c₁) [.set ['Z'] 0 0, .set ['Z'] 1 1]) ['Z'] 1 c₁ (c₁.map (·.2)).sum :=
  ⟨C77_snapshot_partial _ [] [.set ['Z'] 1 1] _ (Or.inr rfl) _ _ _ rfl (by simp) (by simp) (by simp),
    C77_snapshot_partial _ [.set ['Z'] 0 0] [] _ (Or.inr rfl) _ _ _ rfl (by simp) (by simp) (by simp)⟩

end Qtc
