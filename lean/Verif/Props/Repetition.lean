import Verif.Proof.Line
import Verif.Proof.Threshold
import Verif.Props.Radius
/-!
C88, C89: decoding of repetition codes is a majority vote, and its failure rate.
-/
namespace Qtc
open Spec Function

variable {key : Key} {dh dw : Int}

/-- Probabilities for which decoding works: none, or one in `[0, 1)` other than `1/2` for a decoder with one time step. -/
def Usable (T : Int) (ep : Option ℝ) : Prop := ep = none ∨ (T = 1 ∧ ∃ p, ep = some p ∧ 0 ≤ p ∧ p < 1 ∧ p ≠ 1 / 2)

/-- Correctable faults of a repetition code are corrected, with or without probability. -/
theorem corrects_line {D : Decoder} (hD : Made D) {s : SGraph} (hs : D.S key = some s) (HO : OddPos D.dh D.dw) (ht : Thin key D.dh D.dw)
    {m : Matcher} (hm : Contract m) {ep : Option ℝ} (hep : Usable D.T ep) {T : Int} (hT : T ≤ D.T) {fs : List Fault}
    (hf : Correctable key D.dh D.dw T fs) {L : List Node} {syn : SynDict} (hn : L.Nodup) (hL : ∀ n, n ∈ L ↔ IsHit key D.dh D.dw T fs n)
    (hsyn : syn (rtypeOf key) = some L) (b : Bool) :
    ∃ syn', correctHits D m syn (rtypeOf key) (some (bit (b ^^ readoutFlipped key fs))) ep = .ok (some (bit b), syn') := by
  rcases hep with rfl | ⟨h1, p, rfl, p0, p1, p2⟩
  · exact corrects_fewer hD hs HO hm hT hf hn hL hsyn b
  · have hf' : Correctable key D.dh D.dw D.T fs := ⟨fun f h => fits_mono hT (hf.1 f h), hf.2⟩
    have hL' : ∀ n, n ∈ L ↔ IsHit key D.dh D.dw D.T fs n := fun n => by rw [hL n, isHit_mono hT hf.1]
    have hr : ∀ n ∈ L, n.t ≠ -1 := by
      intro n h
      have := ((hL' n).1 h).1
      omega
    have hLg : ∀ n ∈ L, GNode key D.dh D.dw D.T n := fun n h => isHit_gnode ((hL' n).1 h)
    refine correct_core_of hD hs HO hf' hLg (fun n _ => hL' n) (parityOk_nodup hn hr) ?_ hsyn ?_ b
    · by_cases h : fs = []
      · right
        subst h
        rw [List.eq_nil_iff_forall_not_mem]
        intro n hn
        have := ((hL' n).1 hn).2.2.2
        simp at this
      · exact Or.inl h
    · intro R hne
      rcases p0.eq_or_lt with rfl | p0
      · exact corrections_zero R hm hne hLg
      · exact corrections_thin R h1 ht hm hne hn hLg hr p0 p1 p2

theorem fault_line (ht : Thin key dh dw) {T t : Int} {f : Fault} (hf : f.Fits key dh dw T) (hd : ∃ r c, f = .data t r c) :
    f ∈ lineFlips key t (distance key dh dw).toNat := by
  obtain ⟨r, c, rfl⟩ := hd
  obtain ⟨h1, h2, h3, h4, h5, h6⟩ := hf
  refine List.mem_map.2 ?_
  cases key
  · simp only [Thin, distance] at *
    exact ⟨c.toNat, List.mem_range.2 (by omega), by simp only [lineFault, Fault.data.injEq, true_and]; omega⟩
  · simp only [Thin, distance] at *
    exact ⟨r.toNat, List.mem_range.2 (by omega), by simp only [lineFault, Fault.data.injEq, true_and]; omega⟩

theorem lineFlips_nodup (t : Int) (n : Nat) : (lineFlips key t n).Nodup := by
  refine List.Nodup.map ?_ List.nodup_range
  intro a b h
  cases key
  · simpa [lineFault] using h
  · simpa [lineFault] using h

theorem lineFlips_fits (HO : OddPos dh dw) {T t : Int} (ht0 : 0 ≤ t) (htT : t < T) {f : Fault}
    (h : f ∈ lineFlips key t (distance key dh dw).toNat) : f.Fits key dh dw T := by
  unfold OddPos at HO
  obtain ⟨k, hk, rfl⟩ := List.mem_map.1 h
  rw [List.mem_range] at hk
  cases key
  · simp only [distance] at hk
    show _ ∧ _ ∧ _ ∧ _ ∧ _ ∧ _
    omega
  · simp only [distance] at hk
    show _ ∧ _ ∧ _ ∧ _ ∧ _ ∧ _
    omega

/-- C88: if any data qubits of a repetition code flip between two rounds, the decoded value is the one most data qubits stand for: it is
wrong if and only if more than half of them have flipped. For every matching the library may find, without probability for any number of
rounds, and with any probability except 1/2 for one time step. -/
theorem C88_majority (D : Decoder) (hD : Made D) (key : Key) (s : SGraph) (hs : D.S key = some s) (HO : OddPos D.dh D.dw)
    (hth : Thin key D.dh D.dw) (hbig : 1 < D.dh * D.dw) (m : Matcher) (hm : Contract m) (ep : Option ℝ) (hep : Usable D.T ep)
    (T : Int) (hT : T ≤ D.T) (t : Int) (fs : List Fault) (hf : ∀ f ∈ fs, f.Fits key D.dh D.dw T ∧ ∃ r c, f = .data t r c)
    (hn : fs.Nodup) (ref : Int → Int → Bool) (rounds : List Str) (hlen : (rounds.length : Int) = T + 1)
    (hr : RoundsRead key D.dh D.dw ref fs rounds) (b : Bool) :
    correctString D m (joinSp ([if b ^^ readoutFlipped key fs then '1' else '0'] :: rounds.reverse)) (rtypeOf key) ep =
      .ok (some (bit (b ^^ decide (distance key D.dh D.dw < 2 * fs.length)))) := by
  have hd : 0 < distance key D.dh D.dw ∧ distance key D.dh D.dw % 2 = 1 := by
    have H := HO
    unfold OddPos at H
    cases key
    · exact ⟨H.2.2.1, H.2.2.2⟩
    · exact ⟨H.1, H.2.1⟩
  by_cases hc : distance key D.dh D.dw < 2 * fs.length
  · rw [decide_eq_true hc, Bool.xor_true]
    obtain ⟨N, hN⟩ : ∃ N : Nat, (N : Int) = distance key D.dh D.dw := ⟨_, Int.toNat_of_nonneg hd.1.le⟩
    obtain ⟨f0, hf0⟩ : ∃ f, f ∈ fs := List.exists_mem_of_length_pos (by omega)
    have ht : 0 ≤ t ∧ t < T := by
      obtain ⟨h1, r, c, rfl⟩ := hf f0 hf0
      exact ⟨h1.1, h1.2.1⟩
    have hNN : (distance key D.dh D.dw).toNat = N := by omega
    have hsub : ∀ f ∈ fs, f ∈ lineFlips key t N := fun f h => hNN ▸ fault_line hth (hf f h).1 (hf f h).2
    let gs := (lineFlips key t N).filter fun f => decide (f ∉ fs)
    have hperm : (lineFlips key t N).Perm (fs ++ gs) := by
      refine (List.perm_ext_iff_of_nodup (lineFlips_nodup t N) ?_).2 ?_
      · rw [List.nodup_append]
        refine ⟨hn, (lineFlips_nodup t N).filter _, ?_⟩
        rintro a ha b hb rfl
        exact of_decide_eq_true (List.mem_filter.1 hb).2 ha
      · intro f
        rw [List.mem_append, List.mem_filter, decide_eq_true_eq]
        constructor
        · intro h
          by_cases hx : f ∈ fs
          · exact Or.inl hx
          · exact Or.inr ⟨h, hx⟩
        · rintro (h | h)
          · exact hsub f h
          · exact h.1
    have hlg : fs.length + gs.length = N := by
      have := hperm.length_eq
      rw [List.length_append] at this
      unfold lineFlips at this
      rw [List.length_map, List.length_range] at this
      exact this.symm
    have hsame : SameReadings key D.dh D.dw fs gs := by
      intro n r2 c2 hsite
      have h := line_silent (t := t) (N := n) hsite hN
      rw [xorAll_perm (hperm.map _), List.map_append, xorAll_append] at h
      exact (by decide : ∀ a b : Bool, (a ^^ b) = false → a = b) _ _ h
    have hro : (readoutFlipped key fs ^^ readoutFlipped key gs) = true := by
      rw [← readoutFlipped_append]
      unfold readoutFlipped
      rw [← xorAll_perm (hperm.map _)]
      exact lineFlips_readout (by omega)
    have hg : Correctable key D.dh D.dw T gs := by
      refine ⟨fun f h => lineFlips_fits HO ht.1 ht.2 (hNN ▸ (List.mem_filter.1 h).1), ?_⟩
      omega
    have hx : (b ^^ readoutFlipped key fs) = (!b ^^ readoutFlipped key gs) :=
      (by decide : ∀ b x y : Bool, (x ^^ y) = true → (b ^^ x) = (!b ^^ y)) _ _ _ hro
    rw [hx]
    exact strings_of_hits HO hbig (fun L syn h1 h2 h3 => corrects_line hD hs HO hth hm hep hT hg h1 h2 h3 _) hlen (sameReadings_rounds hsame hr)
  · rw [decide_eq_false hc, Bool.xor_false]
    exact strings_of_hits HO hbig
      (fun L syn h1 h2 h3 => corrects_line hD hs HO hth hm hep hT ⟨fun f h => (hf f h).1, by omega⟩ h1 h2 h3 _) hlen hr

/-! ### The benchmark of the repetition code -/

variable {cls : QClass} {q : TQubit} {ops : List QOp} {w : World} {sz : Str → Nat}

/-- The operations of /repo/data/rep_threshold/20210617/simulation.py:33-37, with X errors on the qubits in `F`. (The other operations have
no identity gates; their errors `e0 … e3` do not occur.) -/
def repOps (name : Str) (e0 e1 e2 e3 : Errs) (F : Finset Nat) : List (QOp × Errs) :=
  [(.resetZ, e0), (.stabilize, e1), (.idData, bitFlips name F), (.stabilize, e2), (.readoutZ none, e3)]

theorem repFaults (name : Str) (e1 e2 : Errs) (F : Finset Nat) (d : Nat) (code : Code) (hcode : code ≠ .xzzx) :
    faultsOf code .Z name d 1 0 [(.stabilize, e1), (.idData, bitFlips name F), (.stabilize, e2)] =
      ((List.range d).filter (· ∈ F)).map (lineFault .Z 0) := by
  have e : faultsOf code .Z name d 1 0 [(.stabilize, e1), (.idData, bitFlips name F), (.stabilize, e2)] =
      faultsIn code .Z name d 1 ((1 : Nat) - 1) .idData (bitFlips name F) := by
    unfold faultsOf
    simp only [faultsIn, List.nil_append, if_true, faultsOf, List.append_nil]
  rw [e]
  unfold faultsIn faultsIn.dataFaults allQubits
  rw [mul_one, Int.toNat_natCast, List.filterMap_map, ← List.filterMap_eq_filter, List.map_filterMap]
  refine List.filterMap_congr fun i hi => ?_
  have h1 : turnedBy code .Z (i : Nat) (bitFlips name F (dataQ name (i : Nat))) = decide (i ∈ F) := by
    unfold turnedBy
    rw [if_neg (fun h => hcode h.1)]
    unfold bitFlips
    rw [decide_eq_decide]
    constructor
    · rintro ⟨j, hj, hji⟩
      have := dataQ_inj (Int.natCast_nonneg i) (Int.natCast_nonneg j) hji
      rwa [show i = j by omega]
    · exact fun h => ⟨i, h, rfl⟩
  simp only [comp, Int.ofNat_eq_natCast]
  rw [h1]
  by_cases hF : i ∈ F
  · simp [hF, lineFault]
  · simp [hF]

/-- Everything the benchmark of a repetition code with `d` data qubits is made of: a qubit on which nothing has been measured, a decoder
with one time step, any matching library, the probability given to the decoder, and the state of the machine at the start. -/
structure RepBench (d : Nat) (ep : Option ℝ) where
  (q : TQubit) (ops : List QOp) (w : World) (D : Decoder) (g : SGraph) (m : Matcher) (s : QState) (sz : Str → Nat)
  (e0 : Errs) (e1 : Errs) (e2 : Errs) (e3 : Errs)
  after : AfterAlone .rep q d 1 ops w
  quiet : ∀ o ∈ ops, o.quiet = true
  fresh : ops.count .stabilize = 0
  big : 1 < d
  made : Made D
  height : D.dh = d
  width : D.dw = 1
  graph : D.S .Z = some g
  steps : D.T = 1
  contract : Contract m
  usable : Usable 1 ep
  nonzero : s.psi ≠ 0
  zeros : SynZero q.lat.name d 1 s.psi

namespace RepBench

/-- `s'` is a possible end of an execution in which the data qubits in `F` have flipped. -/
def Ends {d : Nat} {ep : Option ℝ} (B : RepBench d ep) (F : Finset Nat) (s' : QState) : Prop :=
  Run B.sz (noisyAll B.q (repOps B.q.lat.name B.e0 B.e1 B.e2 B.e3 F) B.w) B.s s'

/-- What the benchmark compares with `correct_logical_value`. -/
noncomputable def decoded {d : Nat} {ep : Option ℝ} (B : RepBench d ep) (s' : QState) : Py (Option Int) :=
  correctString B.D B.m (joinSp (groups s'.mem (B.q.ops [.resetZ, .stabilize, .idData, .stabilize, .readoutZ none] B.w).circ.cregs)) .Z ep

/-- The probability, with independent flips with probability `p`, that the data qubits flip so that the decoded value may be wrong. -/
noncomputable def rate {d : Nat} {ep : Option ℝ} (B : RepBench d ep) (p : ℝ) : ℝ :=
  flipProb d p fun F => ∃ s', B.Ends F s' ∧ B.decoded s' ≠ .ok (some 0)

end RepBench

/-- C88 for executions: whichever data qubits flip and whatever is measured, the benchmark decodes 1 if more than half have flipped and
0 otherwise. -/
theorem C88_executions {d : Nat} {ep : Option ℝ} (B : RepBench d ep) (F : Finset Nat) (hF : F ⊆ Finset.range d) :
    (∃ s', B.Ends F s') ∧ ∀ s', B.Ends F s' → B.decoded s' = .ok (some (if d < 2 * F.card then 1 else 0)) := by
  refine ⟨noisy_exists B.after.after B.s B.nonzero, ?_⟩
  intro s' hR
  have H := B.after.after.own.2.placed.odd
  have hbig : (1 : Int) < (d : Int) * 1 := by have := B.big; omega
  let l : List (QOp × Errs) := [(.stabilize, B.e1), (.idData, bitFlips B.q.lat.name F), (.stabilize, B.e2)]
  have hl : ∀ a ∈ l, MemoryOp a.1 := by
    intro a ha
    simp only [l, List.mem_cons, List.not_mem_nil, or_false] at ha
    rcases ha with rfl | rfl | rfl <;> trivial
  obtain ⟨rounds, hlen, hrr, hgr⟩ := endToEnd_strings (key := .Z) (T := 1) (l := l) B.after B.quiet B.fresh hbig (Or.inl (by decide)) hl rfl
    B.nonzero B.zeros hR
  have hfs : takePlace ((1 : Nat) : Int) (faultsOf QClass.rep.code .Z B.q.lat.name d 1 0 l) = ((List.range d).filter (· ∈ F)).map (lineFault .Z 0) := by
    rw [repFaults B.q.lat.name B.e1 B.e2 F d QClass.rep.code (by decide)]
    unfold takePlace
    rw [List.filter_eq_self]
    intro f hf
    obtain ⟨i, hi, rfl⟩ := List.mem_map.1 hf
    rfl
  rw [hfs] at hrr hgr
  have hcard : (((List.range d).filter (· ∈ F)).map (lineFault .Z 0)).length = F.card := by
    rw [List.length_map, ← List.toFinset_card_of_nodup (List.nodup_range.filter _)]
    congr 1
    ext i
    simp only [List.mem_toFinset, List.mem_filter, List.mem_range, decide_eq_true_eq]
    exact ⟨fun h => h.2, fun h => ⟨Finset.mem_range.1 (hF h), h⟩⟩
  have h := C88_majority B.D B.made .Z B.g B.graph (by rw [B.height, B.width]; exact H) B.width (by rw [B.height, B.width]; exact hbig) B.m
    B.contract ep (by rw [B.steps]; exact B.usable) 1 (by rw [B.steps]) 0 (((List.range d).filter (· ∈ F)).map (lineFault .Z 0)) ?_ ?_
    (fun _ _ => false) rounds hlen (by rw [B.height, B.width]; exact hrr) false
  · unfold RepBench.decoded
    have hgr' : groups s'.mem (B.q.ops [.resetZ, .stabilize, .idData, .stabilize, .readoutZ none] B.w).circ.cregs = _ := hgr
    rw [hgr']
    have e : decide ((l.map Prod.fst).count (flipGate .Z) % 2 = 1) = false := rfl
    rw [e]
    refine h.trans ?_
    rw [hcard, Bool.false_xor]
    congr 2
    by_cases hc : d < 2 * F.card
    · rw [if_pos hc, decide_eq_true (by simp only [distance, B.height]; omega)]; rfl
    · rw [if_neg hc, decide_eq_false (by simp only [distance, B.height]; omega)]; rfl
  · intro f hf
    obtain ⟨i, hi, rfl⟩ := List.mem_map.1 hf
    have := List.mem_range.1 (List.mem_filter.1 hi).1
    refine ⟨?_, i, 0, rfl⟩
    rw [B.height, B.width]
    show _ ∧ _ ∧ _ ∧ _ ∧ _ ∧ _
    omega
  · refine List.Nodup.map ?_ (List.nodup_range.filter _)
    intro a b h
    simpa [lineFault] using h

theorem repRate_tail {d : Nat} {ep : Option ℝ} (B : RepBench d ep) (p : ℝ) :
    ∃ n, d = 2 * n + 1 ∧ 0 < n ∧ B.rate p = flipTail (2 * n + 1) (n + 1) p := by
  have H := B.after.after.own.2.placed.odd
  have hb := B.big
  unfold OddPos at H
  refine ⟨d / 2, by omega, by omega, ?_⟩
  rw [show 2 * (d / 2) + 1 = d by omega]
  unfold RepBench.rate flipTail
  refine flipProb_congr fun F hF => ?_
  obtain ⟨⟨s', hs'⟩, h⟩ := C88_executions B F hF
  constructor
  · rintro ⟨s', h1, h2⟩
    rw [h s' h1] at h2
    by_contra hc
    rw [if_neg (by omega)] at h2
    exact h2 rfl
  · intro hc
    refine ⟨s', hs', ?_⟩
    rw [h s' hs', if_pos (by omega)]
    simp

/-- C89: the logical error rate of the benchmark: the probability that more than half of the data qubits flip. -/
theorem C89_rate {d : Nat} {ep : Option ℝ} (B : RepBench d ep) (p : ℝ) :
    B.rate p = ∑ k ∈ (Finset.range (d + 1)).filter (d < 2 * ·), (d.choose k : ℝ) * p ^ k * (1 - p) ^ (d - k) := by
  obtain ⟨n, rfl, hn, h⟩ := repRate_tail B p
  rw [h, flipTail_closed]
  refine Finset.sum_congr (Finset.filter_congr fun k _ => ?_) fun _ _ => rfl
  omega

/-- C89, below the threshold: longer repetition codes are better. -/
theorem C89_below {d d' : Nat} {ep ep' : Option ℝ} (B : RepBench d ep) (B' : RepBench d' ep') (h : d < d') (p : ℝ) (h0 : 0 < p)
    (h1 : p < 1 / 2) : B'.rate p < B.rate p := by
  obtain ⟨n, rfl, -, e⟩ := repRate_tail B p
  obtain ⟨n', rfl, -, e'⟩ := repRate_tail B' p
  rw [e, e']
  exact majority_lt h0 h1 (by omega)

/-- C89, above the threshold: longer repetition codes are worse. -/
theorem C89_above {d d' : Nat} {ep ep' : Option ℝ} (B : RepBench d ep) (B' : RepBench d' ep') (h : d < d') (p : ℝ) (h0 : 1 / 2 < p)
    (h1 : p < 1) : B.rate p < B'.rate p := by
  obtain ⟨n, rfl, -, e⟩ := repRate_tail B p
  obtain ⟨n', rfl, -, e'⟩ := repRate_tail B' p
  rw [e, e']
  exact majority_gt h0 h1 (by omega)

/-- C89, at the threshold: the decoded value says nothing. -/
theorem C89_at {d : Nat} {ep : Option ℝ} (B : RepBench d ep) : B.rate (1 / 2) = 1 / 2 := by
  obtain ⟨n, -, -, e⟩ := repRate_tail B (1 / 2)
  rw [e]
  exact majority_half n

/-- C89: below the threshold the rate falls exponentially with the number of data qubits. -/
theorem C89_suppressed {d : Nat} {ep : Option ℝ} (B : RepBench d ep) (p : ℝ) (h0 : 0 ≤ p) (h1 : p ≤ 1 / 2) :
    B.rate p ≤ 2 * p * (4 * (p * (1 - p))) ^ ((d - 1) / 2) := by
  obtain ⟨n, hd, -, e⟩ := repRate_tail B p
  rw [e, show (d - 1) / 2 = n by omega]
  exact majority_bound h0 h1 n

/-- The benchmarks exist, for every odd number of data qubits and every usable probability. -/
theorem C89_exists (n : Nat) (hn : 0 < n) (ep : Option ℝ) (hep : Usable 1 ep) : Nonempty (RepBench (2 * n + 1) ep) := by
  obtain ⟨q, w, A, hname⟩ := afterAlone_exists (dh := ((2 * n + 1 : Nat) : Int)) (dw := 1) .rep "a".toList
    (by unfold OddPos; omega) (fun _ => rfl) []
  obtain ⟨m, hm⟩ := contract_exists
  obtain ⟨D, g, h1, h2, h3⟩ := C21_repetition_built (2 * n + 3) { d := some (.num (.int ((2 * n + 1 : Nat) : Int))), T := some 1 }
    ((2 * n + 1 : Nat) : Int) 1 (by omega) (by omega) (Or.inl rfl) rfl (by omega)
  rw [if_neg (by simp)] at h3
  exact ⟨{
    q := q, ops := [], w := w, D := D, g := g, m := m, s := ⟨ground, fun _ => false⟩, sz := fun _ => 0, e0 := noErrs, e1 := noErrs,
    e2 := noErrs, e3 := noErrs, after := A, quiet := fun o h => absurd h List.not_mem_nil, fresh := rfl, big := by omega,
    made := Or.inr ⟨_, _, h1⟩, height := h3.1, width := h3.2.1, graph := h3.2.2.1, steps := h2, contract := hm, usable := hep,
    nonzero := ground_ne_zero, zeros := ground_synZero }⟩

/-- The three data qubits of the benchmark with `p = 0.15`: 3 · 0.15² · 0.85 + 0.15³. -/
example : ∃ B : RepBench 3 (some 0.15), B.rate 0.15 = 0.06075 := by
  obtain ⟨B⟩ := C89_exists 1 (by decide) (some 0.15) (Or.inr ⟨rfl, 0.15, rfl, by norm_num, by norm_num, by norm_num⟩)
  refine ⟨B, ?_⟩
  rw [C89_rate]
  have e : (Finset.range (3 + 1)).filter (3 < 2 * ·) = {2, 3} := by decide
  rw [e, Finset.sum_pair (by decide)]
  norm_num [Nat.choose]

/-- Two of three flips are decoded as the third one, for example. -/
example : ∃ B : RepBench 3 none, ∃ s', B.Ends {0, 2} s' ∧ B.decoded s' = .ok (some 1) := by
  obtain ⟨B⟩ := C89_exists 1 (by decide) none (Or.inl rfl)
  obtain ⟨⟨s', h1⟩, h2⟩ := C88_executions B {0, 2} (by decide)
  exact ⟨B, s', h1, h2 s' h1⟩

end Qtc
