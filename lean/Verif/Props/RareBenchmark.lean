import Verif.Props.AnyError
import Verif.Props.CircuitThreshold
import Verif.Props.OutsideHits
import Verif.Props.Sampling
/-!
C131: benchmarks of circuits in which errors are rare, or few.
-/
namespace Qtc
open Spec Function

variable {cls : QClass} {dh dw : Int} {key : Key}

namespace Trial

/-- The readout of an execution. -/
def shown (B : Trial cls dh dw key) (s' : QState) : Str :=
  joinSp (groups s'.mem (B.q.ops (prepOp key :: (B.l0 ++ B.l ++ B.l1) ++ [B.last]) B.w).circ.cregs)

theorem answers_of {D : Decoder} (hD : Made D) (hdh : D.dh = dh) (hdw : D.dw = dw) {g : SGraph} (hg : D.S key = some g) (H : OddPos dh dw)
    {m : Matcher} (hm : Contract m) {str : Str}
    {b : Bool} {hits : Hits} {rounds : List (Nat → Bool)} (hp : parseReadout dh dw str (rtypeOf key) = .ok (bit b, hits))
    (hh : hits.toDict (rtypeOf key) = some (changes (sitesOf key dh dw) rounds)) (hr : (rounds.length : Int) ≤ D.T + 1) :
    ∃ b', correctString D m str (rtypeOf key) none = .ok (some (bit b')) := by
  subst hdh hdw
  unfold correctString
  simp only [hp, bind, Except.bind]
  obtain ⟨gs, syn', h1, -⟩ := C75_minimum_explanation D hD key g hg H m hm _ (changes_nodup' key D.dh D.dw rounds) (fun n hn => by
    obtain ⟨h0, h1⟩ := changes_place hn
    obtain ⟨t, k, a, b, p, -, h3, -, -, rfl⟩ := mem_changes.1 hn
    have := (List.getElem?_eq_some_iff.1 h3).1
    exact ⟨h0, by simp only; omega, h1⟩) _ hh b
  rw [h1]
  exact ⟨_, rfl⟩

/-- The decoder answers, whatever was measured. -/
theorem answers (B : Trial cls dh dw key) (s' : QState) : ∃ b, B.decoded s' = .ok (some (bit b)) := by
  have hall : ∀ l, (∀ o ∈ l, MemoryOp o) → ∀ o ∈ B.ops ++ prepOp key :: l, o.quiet = true := by
    intro l hl o ho
    rcases List.mem_append.1 ho with h | h
    · exact B.quiet o h
    rcases List.mem_cons.1 h with rfl | h
    · cases key <;> rfl
    · exact memoryOp_quiet (hl o h)
  have hmem : ∀ o ∈ B.l0 ++ B.l ++ B.l1, MemoryOp o := by
    intro o ho
    rcases List.mem_append.1 ho with h | h
    · rcases List.mem_append.1 h with h | h
      · exact B.memory0 o h
      · exact B.memory o h
    · exact B.memory1 o h
  have hcount : (B.ops ++ prepOp key :: (B.l0 ++ B.l ++ B.l1)).count .stabilize = (B.l0 ++ B.l ++ B.l1).count .stabilize := by
    rw [List.count_append, B.fresh, List.count_cons, Nat.zero_add]
    cases key <;> simp [prepOp]
  have A := B.after.all_next (prepOp key :: (B.l0 ++ B.l ++ B.l1))
  have hO := B.odd
  have big := B.big
  unfold decoded
  rw [ops_snoc]
  rcases B.ending with ⟨h, h2, h3⟩ | ⟨h, hk, h2, h3⟩
  · have hp := (C51_logical A (hall _ hmem) big B.last (by rw [h]; cases key; exact Or.inl rfl; exact Or.inr rfl) s'.mem (rtypeOf key)).2
    rw [hcount] at hp
    refine answers_of B.made B.height B.width B.graph hO B.contract (b := s'.mem ⟨B.q.lat.name ++ "_readout_0".toList, 0⟩) (hits := _) (rounds := ?_) hp ?_ ?_
    · exact match key with
      | .X => (List.range ((B.l0 ++ B.l ++ B.l1).count .stabilize)).map fun t k =>
            s'.mem ⟨B.q.lat.name ++ "_c".toList ++ strNat t, (zSites dh dw).length + k⟩
      | .Z => (List.range ((B.l0 ++ B.l ++ B.l1).count .stabilize)).map fun t k => s'.mem ⟨B.q.lat.name ++ "_c".toList ++ strNat t, k⟩
    · cases key <;> rfl
    · cases key <;> simpa using h3
  · subst hk
    obtain ⟨n, hn⟩ : ∃ n, (B.l0 ++ B.l ++ B.l1).count QOp.stabilize = n + 1 := ⟨_, (Nat.succ_pred_eq_of_pos (by
      rw [List.count_append, List.count_append]; have := B.first; omega)).symm⟩
    have hp := (C51_lattice A (hall _ hmem) big n (hcount.trans hn) B.last (by rw [h]; exact Or.inr rfl) s'.mem).2
    refine answers_of (key := .Z) B.made B.height B.width B.graph hO B.contract
      (b := xorAll ((rowQubits dw 0).map fun i : Int => s'.mem ⟨B.q.lat.name ++ "_lattice_readout_0".toList, i.toNat⟩)) hp rfl ?_
    rw [h2, List.append_nil] at hn
    rw [hn] at h3
    simp only [List.length_append, List.length_map, List.length_range, List.length_cons, List.length_nil]
    push_cast at h3 ⊢
    omega

end Trial

variable {Ω : Type} {N : Nat} {S : Finset Ω} {μ : Ω → ℝ}

/-- Shots of a memory with errors: in the shot `a`, which has probability `μ a`, the places `places a` are affected, the errors are `E a`, and the
execution ends with `fin a`. A set of places is affected with probability `P`. -/
structure Draws (B : Trial cls dh dw key) (S₀ : Finset (Nat × Qubit)) (P : Finset (Nat × Qubit) → ℝ) (S : Finset Ω) (μ : Ω → ℝ)
    (places : Ω → Finset (Nat × Qubit)) (E : Ω → Nat → List Slip) (fin : Ω → QState) : Prop where
  inside : ∀ a ∈ S, places a ⊆ S₀
  errors : ∀ a ∈ S, Within (places a) (E a)
  ends : ∀ a ∈ S, B.Ends (E a) (fin a)
  law : ∀ F ⊆ S₀, ∑ a ∈ S with places a = F, μ a = P F

section
variable {B : Trial cls dh dw key} {S₀ : Finset (Nat × Qubit)} {P : Finset (Nat × Qubit) → ℝ} {places : Ω → Finset (Nat × Qubit)}
  {E : Ω → Nat → List Slip} {fin : Ω → QState} {ans : Str → Option Int} {tally : (Fin N → Ω) → Counts} {rate : (Fin N → Ω) → ℚ}

theorem wrongProb_le (hd : Draws B S₀ P S μ places E fin)
    (H : Shots N S μ (fun a => B.shown (fin a)) (fun s ep => correctString B.D B.m s (rtypeOf key) ep) B.right none ans tally rate) :
    wrongProb S μ (fun a => B.shown (fin a)) ans B.right ≤ B.rate S₀ P := by
  classical
  unfold wrongProb Trial.rate chance
  have step : ∑ a ∈ S, (if ans (B.shown (fin a)) = some B.right then 0 else μ a) ≤
      ∑ a ∈ S, if ∃ E, Within (places a) E ∧ ∃ s', B.Ends E s' ∧ B.decoded s' ≠ .ok (some B.right) then μ a else 0 := by
    refine Finset.sum_le_sum fun a ha => ?_
    have h0 := H.law.1 a ha
    by_cases h : ans (B.shown (fin a)) = some B.right
    · rw [if_pos h]
      split
      · exact h0
      · exact le_refl _
    · have bad : B.decoded (fin a) ≠ .ok (some B.right) := by
        intro e
        have h1 := H.answers a ha
        have h2 : B.decoded (fin a) = correctString B.D B.m (B.shown (fin a)) (rtypeOf key) none := rfl
        rw [← h2, e] at h1
        exact h (Except.ok.inj h1).symm
      rw [if_neg h, if_pos ⟨E a, hd.errors a ha, fin a, hd.ends a ha, bad⟩]
  refine step.trans (le_of_eq ?_)
  rw [← Finset.sum_fiberwise_of_maps_to (t := S₀.powerset) (g := places) fun a ha => Finset.mem_powerset.2 (hd.inside a ha)]
  refine Finset.sum_congr rfl fun F hF => ?_
  have e : ∑ a ∈ S with places a = F, (if ∃ E, Within (places a) E ∧ ∃ s', B.Ends E s' ∧ B.decoded s' ≠ .ok (some B.right) then μ a else 0) =
      ∑ a ∈ S with places a = F, if ∃ E, Within F E ∧ ∃ s', B.Ends E s' ∧ B.decoded s' ≠ .ok (some B.right) then μ a else 0 :=
    Finset.sum_congr rfl fun a ha => by rw [(Finset.mem_filter.1 ha).2]
  rw [e]
  split
  · exact hd.law F (Finset.mem_powerset.1 hF)
  · exact Finset.sum_const_zero

/-- C131: if errors anywhere in the circuits are rare (as in C103), the rate that the benchmark reports is on average at most the bound of C103,
which falls exponentially with the distance. -/
theorem C131_mean {G : Nat} (hG0 : 0 < G) (hG : Paced G B.l) {p : ℝ} (h0 : 0 < p) (hP : LocalNoise S₀ P p) {u : ℝ} (hu : 0 < u)
    (hu1 : 15 * u < 1) (hp : 10 * G * p ≤ u ^ 20) (hd : Draws B S₀ P S μ places E fin)
    (H : Shots N S μ (fun a => B.shown (fin a)) (fun s ep => correctString B.D B.m s (rtypeOf key) ep) B.right none ans tally rate) :
    mean N S μ (fun x => rate x) ≤ circuitBound key dh dw B.D.T u := by
  rw [C114_unbiased H]
  exact (wrongProb_le hd H).trans (C103_rate B hG0 hG h0 hP hu hu1 hp)

/-- C131: it is unlikely that it reports much more. -/
theorem C131_likely {G : Nat} (hG0 : 0 < G) (hG : Paced G B.l) {p : ℝ} (h0 : 0 < p) (hP : LocalNoise S₀ P p) {u : ℝ} (hu : 0 < u)
    (hu1 : 15 * u < 1) (hp : 10 * G * p ≤ u ^ 20) (hd : Draws B S₀ P S μ places E fin)
    (H : Shots N S μ (fun a => B.shown (fin a)) (fun s ep => correctString B.D B.m s (rtypeOf key) ep) B.right none ans tally rate)
    (ε : ℝ) (hε : 0 < ε) : probability N S μ (fun x => circuitBound key dh dw B.D.T u + ε ≤ rate x) ≤ 1 / (4 * N * ε ^ 2) := by
  have hw := (wrongProb_le hd H).trans (C103_rate B hG0 hG h0 hP hu hu1 hp)
  refine le_trans ?_ (C114_close H ε hε)
  unfold probability
  refine mean_mono H.law fun x _ => ?_
  by_cases h : circuitBound key dh dw B.D.T u + ε ≤ rate x
  · rw [if_pos h, if_pos (le_trans (by linarith) (le_abs_self _))]
  · rw [if_neg h]
    split
    · exact zero_le_one
    · exact le_refl _

end

/-- C131, threshold: below it, a benchmark with enough shots of a large enough square lattice reports less than `2 ε`, but for a probability `δ`, even
if the number of rounds grows like some power of the distance. -/
theorem C131_threshold {G : Nat} (hG0 : 0 < G) {p : ℝ} (h0 : 0 < p) (hp : p ≤ 1 / (10 * G * 30 ^ 20)) (k : Nat) (ε δ : ℝ) (hε : 0 < ε) :
    ∃ d0 : Nat, ∀ (d : Nat) (cls : QClass) (key : Key) (B : Trial cls d d key) (S₀ : Finset (Nat × Qubit)) (P : Finset (Nat × Qubit) → ℝ)
      (Ω : Type) (S : Finset Ω) (μ : Ω → ℝ) (places : Ω → Finset (Nat × Qubit)) (E : Ω → Nat → List Slip) (fin : Ω → QState) (N : Nat)
      (ans : Str → Option Int) (tally : (Fin N → Ω) → Counts) (rate : (Fin N → Ω) → ℚ),
      d0 ≤ d → Paced G B.l → B.D.T ≤ (d : Int) ^ k → LocalNoise S₀ P p → Draws B S₀ P S μ places E fin →
      Shots N S μ (fun a => B.shown (fin a)) (fun s ep => correctString B.D B.m s (rtypeOf key) ep) B.right none ans tally rate →
      1 ≤ 4 * N * ε ^ 2 * δ → probability N S μ (fun x => 2 * ε ≤ rate x) ≤ δ := by
  obtain ⟨d0, h⟩ := C103_vanishes hG0 h0 hp k ε hε
  refine ⟨d0, fun d cls key B S₀ P Ω S μ places E fin N ans tally rate hd hG hT hP hD H hN => ?_⟩
  have hw := (wrongProb_le hD H).trans (h d cls key B S₀ P hd hG hT hP)
  have hN0 : (0 : ℝ) < N := by exact_mod_cast H.some_shots
  refine le_trans (le_trans ?_ (C114_close H ε hε)) ?_
  · unfold probability
    refine mean_mono H.law fun x _ => ?_
    by_cases h : 2 * ε ≤ rate x
    · rw [if_pos h, if_pos (le_trans (by linarith) (le_abs_self _))]
    · rw [if_neg h]
      split
      · exact zero_le_one
      · exact le_refl _
  · rw [div_le_iff₀ (by positivity)]
    linarith

/-- Such benchmarks exist, for every memory, every law of the affected places and all errors at them. -/
theorem C131_exists (B : Trial cls dh dw key) {S₀ : Finset (Nat × Qubit)} {P : Finset (Nat × Qubit) → ℝ} {p : ℝ} (hP : LocalNoise S₀ P p)
    (E : Finset (Nat × Qubit) → Nat → List Slip) (hE : ∀ F ⊆ S₀, Within F (E F)) (hN : 0 < N) :
    ∃ (fin : Finset (Nat × Qubit) → QState) (ans : Str → Option Int) (tally : (Fin N → Finset (Nat × Qubit)) → Counts)
      (rate : (Fin N → Finset (Nat × Qubit)) → ℚ), Draws B S₀ P S₀.powerset P id E fin ∧
      Shots N S₀.powerset P (fun F => B.shown (fin F)) (fun s ep => correctString B.D B.m s (rtypeOf key) ep) B.right none ans tally rate := by
  classical
  choose fin hfin using fun F => C103_executions B (E F)
  let ans : Str → Option Int := fun s => match correctString B.D B.m s (rtypeOf key) none with
    | .ok a => a
    | .error _ => none
  obtain ⟨tally, rate, H⟩ := C114_exists hN (S := S₀.powerset) (μ := P) ⟨fun F hF => hP.nonneg F (Finset.mem_powerset.1 hF), hP.total⟩
    (fun F => B.shown (fin F)) (fun s ep => correctString B.D B.m s (rtypeOf key) ep) B.right none ans fun F hF => by
      obtain ⟨b, hb⟩ := B.answers (fin F)
      have hb' : correctString B.D B.m (B.shown (fin F)) (rtypeOf key) none = .ok (some (bit b)) := hb
      simp only [ans, hb']
  refine ⟨fin, ans, tally, rate, ⟨fun F hF => Finset.mem_powerset.1 hF, fun F hF => hE F (Finset.mem_powerset.1 hF), fun F _ => hfin F, ?_⟩, H⟩
  intro F hF
  simp only [id]
  rw [Finset.sum_filter, Finset.sum_ite_eq' S₀.powerset F P, if_pos (Finset.mem_powerset.2 hF)]

/-- C131: if in every shot arbitrary operators act on fewer than a third of the height qubits (as in C124), the benchmark reports exactly 0, whatever
is measured. -/
theorem C131_few {q : TQubit} {ops : List QOp} {w : World} {sz : Str → Nat} (A : AfterAlone cls q dh dw ops w) (hq : ∀ o ∈ ops, o.quiet = true)
    (hn : ops.count .stabilize = 0) (hbig : 1 < dh * dw) {l0 l : List QOp} (hl0 : ∀ o ∈ l0, MemoryOp o) (h1 : 1 ≤ l0.count .stabilize)
    (hl : ∀ o ∈ l, MemoryOp o) {D : Decoder} (hD : Made D) (hdh : D.dh = dh) (hdw : D.dw = dw) {g : SGraph} (hg : D.S .Z = some g)
    (hT : ((l0 ++ l).count .stabilize : Int) ≤ D.T) {m : Matcher} (hm : Contract m) {c : Counts} (hs : 0 < shots c)
    (hc : ∀ e ∈ c, ∃ (b : List (QOp × List Blow)) (s s' : QState), b.map Prod.fst = l ∧ (∀ a ∈ b, ∀ x ∈ a.2, OnQubits x.qubits x.op) ∧
      3 * (blowCount b : Int) < dh ∧ s.psi ≠ 0 ∧ SynZero q.lat.name dh dw s.psi ∧ s'.psi ≠ 0 ∧
      Happens sz (struckAll q ((.resetZ :: l0).map (fun o => (o, [])) ++ b ++ [(.latticeReadoutZ, [])]) w) s s' ∧
      e.1 = joinSp (groups s'.mem (q.ops (.resetZ :: (l0 ++ l) ++ [.latticeReadoutZ]) w).circ.cregs)) :
    logicalErrorRate (fun str ep => correctString D m str .Z ep) (if (l0 ++ l).count .x % 2 = 1 then 1 else 0) c none = .ok 0 := by
  obtain ⟨T, hT'⟩ : ∃ T, (l0 ++ l).count QOp.stabilize = T + 1 := ⟨_, (Nat.succ_pred_eq_of_pos (by
    rw [List.count_append]; omega)).symm⟩
  rw [hT'] at hT
  rw [rate_eq (ans := fun _ => some (if (l0 ++ l).count .x % 2 = 1 then 1 else 0)), if_neg (by omega)]
  · simp [shotsWhere]
  · intro e he
    obtain ⟨b, s, s', rfl, hb, hf, h0, hs, h0', hR, e1⟩ := hc e he
    rw [e1]
    exact C124_lattice_z A hq hn hbig hl0 h1 (fun a ha => hl a.1 (List.mem_map_of_mem ha)) hb hT' hD hdh hdw hg (by push_cast at hT; exact hT) hm hf
      h0 hs hR h0'

/-- 50000 shots of the XZZX code on a large lattice, with as many rounds as it has rows, and errors with probability `10 ^ -31`: a rate of two percent
or more is reported in at most one of twenty benchmarks. -/
example : ∃ d0 : Nat, ∀ n : Nat, d0 ≤ n → ∃ B : Trial .xzzx (2 * n + 1 : Nat) (2 * n + 1 : Nat) .Z, B.l = idRounds (2 * n - 1) ∧
    ∀ (S : Finset (Nat × Qubit)) (P : Finset (Nat × Qubit) → ℝ), LocalNoise S P (10 ^ (-31 : Int)) →
      ∀ E : Finset (Nat × Qubit) → Nat → List Slip, (∀ F ⊆ S, Within F (E F)) →
      ∃ fin ans tally rate, Draws B S P S.powerset P id E fin ∧
        Shots 50000 S.powerset P (fun F => B.shown (fin F)) (fun s ep => correctString B.D B.m s .Z ep) B.right none ans tally rate ∧
        probability 50000 S.powerset P (fun x => 0.02 ≤ (rate x : ℝ)) ≤ 0.05 := by
  obtain ⟨d0, h⟩ := C131_threshold (G := 2) (by decide) (p := 10 ^ (-31 : Int)) (by positivity) (by norm_num) 1 0.01 0.05 (by norm_num)
  refine ⟨d0 + 1, fun n hn => ?_⟩
  obtain ⟨B, b1, b2, b3, b4⟩ := C103_exists (dh := (2 * n + 1 : Nat)) (dw := (2 * n + 1 : Nat)) .xzzx (by decide) .Z (by unfold OddPos; omega)
    (by simp only [distance]; omega) (Or.inr (by omega)) (2 * n - 1)
  refine ⟨B, b1, fun S P hP E hE => ?_⟩
  obtain ⟨fin, ans, tally, rate, hd, H⟩ := C131_exists B hP E hE (N := 50000) (by decide)
  refine ⟨fin, ans, tally, rate, hd, H, ?_⟩
  have := h _ _ _ B S P _ S.powerset P id E fin 50000 ans tally rate (by omega) (by rw [b1]; exact idRounds_paced _)
    (by rw [b3, pow_one]; push_cast; omega) hP hd H (by norm_num)
  rw [show (2 : ℝ) * 0.01 = 0.02 by norm_num] at this
  exact this

end Qtc
