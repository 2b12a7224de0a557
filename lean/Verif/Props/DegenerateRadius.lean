import Verif.Proof.Chain
import Verif.Props.Radius
/-!
C90: counting paths costs correction radius.
-/
namespace Qtc
open Spec Function

theorem worth_big {p : ℝ} (p0 : 0 < p) (p1 : p < 1 / 2) {n : Nat} (h : 1 - p < p * 2 ^ n) : 1 < (n : ℝ) * worth p := by
  have hq := log_pos_of_small p0 p1
  unfold worth
  rw [← mul_div_assoc, lt_div_iff₀ hq, one_mul]
  have h1 := Real.log_lt_log (by linarith : 0 < 1 - p) h
  rw [Real.log_mul p0.ne' (by positivity), Real.log_pow] at h1
  linarith

theorem worth_lt {p : ℝ} (p0 : 0 < p) (p1 : p < 1 / 3) : worth p < 1 := by
  have hq := log_pos_of_small p0 (by linarith)
  unfold worth
  rw [div_lt_one hq]
  have h1 := Real.log_lt_log (by positivity : 0 < p * 2) (by linarith : p * 2 < 1 - p)
  rw [Real.log_mul p0.ne' (by norm_num)] at h1
  linarith

theorem worth_le {p : ℝ} (p0 : 0 < p) (p1 : p ≤ 3 / 10) : worth p ≤ 5 / 6 := by
  have hq := log_pos_of_small p0 (by linarith)
  unfold worth
  rw [div_le_iff₀ hq]
  have h1 := Real.log_le_log (by positivity : 0 < p * (7 / 3)) (by linarith : p * (7 / 3) ≤ 1 - p)
  rw [Real.log_mul p0.ne' (by norm_num)] at h1
  have h2 : Real.log (2 ^ 6) ≤ Real.log ((7 / 3) ^ 5) := Real.log_le_log (by norm_num) (by norm_num)
  rw [Real.log_pow, Real.log_pow] at h2
  push_cast at h2
  linarith

/-- Hits of the diagonal chain are decoded wrongly. -/
theorem chain_wrong {D : Decoder} (hD : Made D) {g : SGraph} (hg : D.S .Z = some g) (hT : D.T = 1) {i : Nat} (hi : 2 ≤ i)
    (hdh : D.dh = 4 * i + 1) (hdw : D.dw = 4 * i + 1) {p : ℝ} (p0 : 0 < p) (p1 : p < 1 / 2) (hbig : 1 < (2 * i + 1) * worth p)
    (hsmall : 2 < 10000 * ((2 * i - 1) * (1 - worth p))) {m : Matcher} (hm : Contract m) {L : List Node} (hn : L.Nodup)
    (hL : ∀ n, n ∈ L ↔ IsHit .Z D.dh D.dw D.T (diagChain i (2 * i)) n) {syn : SynDict} (hsyn : syn .Z = some L) (b : Bool) :
    ∃ syn', correctHits D m syn .Z (some (bit b)) (some p) = .ok (some (bit !b), syn') := by
  have R : Ready D .Z g := ⟨hD, hg, ⟨by unfold OddPos; omega, by simp only []; omega⟩, by omega⟩
  have hLg : ∀ n ∈ L, GNode .Z D.dh D.dw D.T n := fun n h => isHit_gnode ((hL n).1 h)
  have hr : ∀ n ∈ L, n.t ≠ -1 := by
    intro n h
    have := ((hL n).1 h).1
    omega
  have hne : L ≠ [] := by
    have e : D.dw = D.dh := by omega
    have : nd D.dh i i ∈ L := by
      rw [hL, hT, e, diagChain_isHit hdh (by omega)]
      exact Or.inl rfl
    exact List.ne_nil_of_mem this
  obtain ⟨M, c1, c2⟩ := corrections_prob R hm hne hn hLg hr p0 (by linarith) (by linarith)
  obtain ⟨M0, a1, a2, a3⟩ := hits_pairing (key := .Z) R.odd L
  obtain ⟨hperm, _⟩ := optimal_covers R.odd hLg (parityOk_nodup hn hr) probWeightInt_virt a1 a2 a3 c2
  obtain ⟨f1, f2, f3, f4⟩ := kept_facts R.odd hLg c2.1 hperm
  have h := correctHits_of R.long (syn := syn) hsyn c1 f3 f4 b
  rw [chain_crosses R hT hi hdh hdw p0 p1 hbig hsmall hn hL c2, Bool.xor_true] at h
  exact ⟨_, h⟩

/-- C90 is false of the code: on the `(4i+1) × (4i+1)` lattice with one time step, the `2i` flips of the data qubits on the diagonal from
`(i, i)` on are within the correction radius and are corrected without a probability (C32), but with `err_prob = p` the decoded value is
wrong for every matching, unless `p` is smaller than about `2 ^ -(2i+1)`. -/
theorem C90_false (D : Decoder) (hD : Made D) (g : SGraph) (hg : D.S .Z = some g) (hT : D.T = 1) (i : Nat) (hi : 2 ≤ i)
    (hdh : D.dh = 4 * i + 1) (hdw : D.dw = 4 * i + 1) (p : ℝ) (p1 : p ≤ 3 / 10) (hp : 1 - p < p * 2 ^ (2 * i + 1)) (m : Matcher)
    (hm : Contract m) (ref : Int → Int → Bool) (rounds : List Str) (hlen : rounds.length = 2)
    (hr : RoundsRead .Z D.dh D.dw ref (diagChain i (2 * i)) rounds) (b : Bool) :
    Correctable .Z D.dh D.dw 1 (diagChain i (2 * i)) ∧
    correctString D m (joinSp ([if b then '1' else '0'] :: rounds.reverse)) .Z none = .ok (some (bit b)) ∧
    correctString D m (joinSp ([if b then '1' else '0'] :: rounds.reverse)) .Z (some p) = .ok (some (bit !b)) := by
  have p0 : 0 < p := by
    by_contra h
    have : p * 2 ^ (2 * i + 1) ≤ 0 := mul_nonpos_of_nonpos_of_nonneg (by linarith) (by positivity)
    linarith
  have hi' : (2 : ℝ) ≤ i := by exact_mod_cast hi
  have e : D.dw = D.dh := by omega
  have HO : OddPos D.dh D.dw := by unfold OddPos; omega
  have hbig : 1 < D.dh * D.dw := by
    rw [hdh, hdw]
    nlinarith
  have hc : Correctable .Z D.dh D.dw 1 (diagChain i (2 * i)) := by
    rw [e]
    exact diagChain_correctable hdh
  refine ⟨hc, ?_, ?_⟩
  · refine strings_of_hits (key := .Z) HO hbig (T := 1) (fun L syn h1 h2 h3 => ?_) (by omega) hr
    have := corrects_fewer (T := 1) hD hg HO hm (by omega) hc h1 h2 h3 b
    rwa [diagChain_readout (by omega), Bool.xor_false] at this
  · refine strings_of_hits (key := .Z) HO hbig (T := 1) (fun L syn h1 h2 h3 => ?_) (by omega) hr
    refine chain_wrong hD hg hT hi hdh hdw p0 (by linarith) ?_ ?_ hm h1 (by rw [hT]; exact h2) h3 b
    · have := worth_big p0 (by linarith) hp
      push_cast at this
      exact this
    · have := worth_le p0 p1
      have h4 : (3 : ℝ) * (1 / 6) ≤ (2 * i - 1) * (1 - worth p) := mul_le_mul (by linarith) (by linarith) (by norm_num) (by linarith)
      linarith

/-- C90: every probability below 1/3 costs correction radius on all large enough lattices. -/
theorem C90_every_probability (p : ℝ) (p0 : 0 < p) (p1 : p < 1 / 3) :
    ∃ i0 : Nat, ∀ i ≥ i0, ∀ (D : Decoder) (g : SGraph), Made D → D.S .Z = some g → D.T = 1 → D.dh = 4 * i + 1 → D.dw = 4 * i + 1 →
      ∃ fs, Correctable .Z D.dh D.dw D.T fs ∧ ∀ (m : Matcher), Contract m → ∀ (L : List Node), L.Nodup →
        (∀ n, n ∈ L ↔ IsHit .Z D.dh D.dw D.T fs n) → ∀ (syn : SynDict), syn .Z = some L → ∀ b : Bool,
        ∃ syn', correctHits D m syn .Z (some (bit (b ^^ readoutFlipped .Z fs))) (some p) = .ok (some (bit !b), syn') := by
  have h1 := worth_lt p0 p1
  have h2 : 0 < worth p := div_pos (Real.log_pos (by norm_num)) (log_pos_of_small p0 (by linarith))
  obtain ⟨n1, hn1⟩ := exists_nat_gt (1 / worth p)
  obtain ⟨n2, hn2⟩ := exists_nat_gt (1 / (1 - worth p))
  refine ⟨n1 + n2 + 2, fun i hi D g hD hg hT hdh hdw => ⟨diagChain i (2 * i), ?_, ?_⟩⟩
  · rw [hT, show D.dw = D.dh by omega]
    exact diagChain_correctable hdh
  · intro m hm L hn hL syn hsyn b
    rw [diagChain_readout (by omega), Bool.xor_false]
    have hi' : (n1 : ℝ) + n2 + 2 ≤ i := by exact_mod_cast hi
    have g1 : (0 : ℝ) ≤ n1 := Nat.cast_nonneg _
    have g2 : (0 : ℝ) ≤ n2 := Nat.cast_nonneg _
    rw [div_lt_iff₀ h2] at hn1
    rw [div_lt_iff₀ (by linarith)] at hn2
    refine chain_wrong hD hg hT (by omega) hdh hdw p0 (by linarith) ?_ ?_ hm hn hL hsyn b
    · exact hn1.trans (mul_lt_mul_of_pos_right (by linarith) h2)
    · have := mul_lt_mul_of_pos_right (by linarith : (n2 : ℝ) < 2 * i - 1) (by linarith : 0 < 1 - worth p)
      linarith

/-- What remains of C90: for every decoder there is a probability below which everything within the correction radius is corrected. -/
theorem C90_small_partial (D : Decoder) (hD : Made D) (key : Key) (g : SGraph) (hg : D.S key = some g) (HO : OddPos D.dh D.dw)
    (hb : 1 < D.dh * D.dw) (hd : distance key D.dh D.dw ≤ 10000) :
    ∃ p0 : ℝ, 0 < p0 ∧ ∀ p, 0 < p → p < p0 → ∀ (m : Matcher), Contract m → ∀ (fs : List Fault), Correctable key D.dh D.dw D.T fs →
      ∀ (ref : Int → Int → Bool) (rounds : List Str), (rounds.length : Int) = D.T + 1 → RoundsRead key D.dh D.dw ref fs rounds →
      ∀ b : Bool, correctString D m (joinSp ([if b ^^ readoutFlipped key fs then '1' else '0'] :: rounds.reverse)) (rtypeOf key) (some p) =
        .ok (some (bit b)) := by
  obtain ⟨p0, h0, H⟩ := C76_eventually D hD key g hg HO hd
  refine ⟨p0, h0, fun p a1 a2 m hm fs hf ref rounds hlen hr b => ?_⟩
  exact strings_of_hits HO hb (fun L syn h1 h2 h3 => H p a1 a2 m hm fs hf L h1 h2 syn h3 b) hlen hr

variable {cls : QClass} {q : TQubit} {ops : List QOp} {w : World} {sz : Str → Nat} {dh dw : Int}

/-- C90 for executions: if the errors between the two rounds are these flips, every outcome of the measurements is decoded to the right
value without and to the wrong value with the probability. -/
theorem C90_executions (A : AfterAlone cls q dh dw ops w) (hq : ∀ o ∈ ops, o.quiet = true) (hn : ops.count .stabilize = 0)
    {e0 e1 : Errs} {l : List (QOp × Errs)} (hl : ∀ a ∈ l, MemoryOp a.1) (hT : (l.map Prod.fst).count .stabilize = 2) {D : Decoder}
    (hD : Made D) (hdh : D.dh = dh) (hdw : D.dw = dw) {g : SGraph} (hg : D.S .Z = some g) (hDT : D.T = 1) {m : Matcher} (hm : Contract m)
    {i : Nat} (hi : 2 ≤ i) (hih : dh = 4 * i + 1) (hiw : dw = 4 * i + 1) {p : ℝ} (p1 : p ≤ 3 / 10) (hp : 1 - p < p * 2 ^ (2 * i + 1))
    (hf : takePlace 1 (faultsOf cls.code .Z q.lat.name dh dw 0 l) = diagChain i (2 * i))
    {s s' : QState} (h0 : s.psi ≠ 0) (hs : SynZero q.lat.name dh dw s.psi)
    (hR : Run sz (noisyAll q ((.resetZ, e0) :: l ++ [(.readoutZ none, e1)]) w) s s') :
    ∀ ep ∈ [none, some p],
    correctString D m (joinSp (groups s'.mem (q.ops (.resetZ :: l.map Prod.fst ++ [.readoutZ none]) w).circ.cregs)) .Z ep =
      .ok (some (bit (decide ((l.map Prod.fst).count .x % 2 = 1) ^^ ep.isSome))) := by
  have hbig : 1 < dh * dw := by
    rw [hih, hiw]
    nlinarith
  have hcr : CanRead cls dh dw .Z := Or.inr (by omega)
  obtain ⟨rounds, hlen, hrr, hgr⟩ := endToEnd_strings (key := .Z) (T := 1) A hq hn hbig hcr hl hT h0 hs hR
  have hf' : takePlace ((1 : Nat) : Int) (faultsOf cls.code .Z q.lat.name dh dw 0 l) = diagChain i (2 * i) := hf
  rw [hf'] at hrr hgr
  rw [diagChain_readout (by omega), Bool.xor_false] at hgr
  have hgr' : groups s'.mem (q.ops (.resetZ :: l.map Prod.fst ++ [.readoutZ none]) w).circ.cregs =
      [if decide ((l.map Prod.fst).count .x % 2 = 1) then '1' else '0'] :: rounds.reverse := hgr
  rw [hgr']
  subst hdh hdw
  obtain ⟨-, h1, h2⟩ := C90_false D hD g hg hDT i hi hih hiw p p1 hp m hm _ rounds (by exact_mod_cast hlen) hrr
    (decide ((l.map Prod.fst).count .x % 2 = 1))
  intro ep hep
  rw [List.mem_cons, List.mem_singleton] at hep
  rcases hep with rfl | rfl
  · rw [h1]; simp
  · rw [h2]; simp

/-- X errors on the four data qubits (2,2), (3,3), (4,4), (5,5) of a 9 × 9 lattice. -/
def diagErrs : Errs := fun x => (decide (x ∈ [20, 30, 40, 50].map (dataQ "a".toList)), false)

/-- Four errors on the 9 × 9 lattice, at an error rate of 5 %: whatever is measured, the benchmark decodes 0 without and 1 with the
probability. -/
example : ∃ q w, AfterAlone .xxzz q 9 9 [] w ∧ ∃ D m s',
    Run (fun _ => 0) (noisyAll q [(.resetZ, noErrs), (.stabilize, noErrs), (.idData, diagErrs), (.stabilize, noErrs), (.readoutZ none, noErrs)] w)
      ⟨ground, fun _ => false⟩ s' ∧
    correctString D m (joinSp (groups s'.mem (q.ops [.resetZ, .stabilize, .idData, .stabilize, .readoutZ none] w).circ.cregs)) .Z none = .ok (some 0) ∧
    correctString D m (joinSp (groups s'.mem (q.ops [.resetZ, .stabilize, .idData, .stabilize, .readoutZ none] w).circ.cregs)) .Z
      (some (1 / 20)) = .ok (some 1) := by
  obtain ⟨q, w, A, hn⟩ := afterAlone_exists (dh := 9) (dw := 9) .xxzz "a".toList (by unfold OddPos; decide) (by simp) []
  obtain ⟨D, sx, sz, h, h1, h2, h3, h4, h5⟩ := C21_surface_built 900 { d := some (.num (.int 9)), T := some 1 } 9 9 1
    (by unfold OddPos; decide) (Or.inr (Or.inr ⟨rfl, rfl⟩)) rfl (by decide)
  obtain ⟨m, hm⟩ := contract_exists
  obtain ⟨s', hs'⟩ := noisy_exists (sz := fun _ => 0) A.after ⟨ground, fun _ => false⟩ ground_ne_zero
    (l := [(.resetZ, noErrs), (.stabilize, noErrs), (.idData, diagErrs), (.stabilize, noErrs), (.readoutZ none, noErrs)])
  have hr := C90_executions (l := [(.stabilize, noErrs), (.idData, diagErrs), (.stabilize, noErrs)]) A
    (fun o h => absurd h List.not_mem_nil) rfl ?_ rfl (Or.inl ⟨_, _, h⟩) h1 h2 h5 h3 hm (i := 2) (le_refl _) (by norm_num) (by norm_num)
    (p := 1 / 20) (by norm_num) (by norm_num) ?_ (s := ⟨ground, fun _ => false⟩) ground_ne_zero ground_synZero hs'
  · exact ⟨q, w, A, D, m, s', hs', hr none (by simp), hr (some (1 / 20)) (by simp)⟩
  · intro a ha
    simp only [List.mem_cons, List.not_mem_nil, or_false] at ha
    rcases ha with rfl | rfl | rfl <;> trivial
  · rw [hn]
    exact (by decide +kernel : takePlace 1 (faultsOf .xxzz .Z "a".toList 9 9 0 [(.stabilize, noErrs), (.idData, diagErrs), (.stabilize, noErrs)]) =
      diagChain 2 4)

end Qtc
