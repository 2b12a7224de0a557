import Verif.Spec.Repetition
import Verif.Props.Repetition
/-!
C115: what a shot of the repetition code shows, and that no decoder does better than the one of the repository.
-/
namespace Qtc
open Spec Function

variable {key : Key} {dh dw : Int} {cls : QClass} {q : TQubit} {ops : List QOp} {w : World} {sz : Str → Nat}

/-- The groups of the rounds have a character for every stabilizer. -/
theorem groups_lengths (A : AfterAlone cls q dh dw ops w) (hq : ∀ o ∈ ops, o.quiet = true) (hbig : 1 < dh * dw) (l : List QOp)
    (hl : ∀ o ∈ l, o.quiet = true) (mem : Clbit → Bool) :
    ∀ g ∈ (groups mem (q.ops (l ++ [.readoutZ none]) w).circ.cregs).tail, g.length = (xSites dh dw).length + (zSites dh dw).length := by
  obtain ⟨h, -⟩ := C51_logical (A.all_next l) (by
    intro o ho
    rcases List.mem_append.1 ho with h | h
    · exact hq o h
    · exact hl o h) hbig (.readoutZ none) (Or.inr rfl) mem .Z
  rw [← ops_snoc] at h
  rw [h]
  intro g hg
  rw [List.tail_cons] at hg
  obtain ⟨t, -, rfl⟩ := List.mem_map.1 hg
  exact groupString_length _ _

theorem bits_ext {s : Str} {n : Nat} (hn : s.length = n) (hs : ∀ c ∈ s, c = '0' ∨ c = '1') :
    s = ((List.range n).map fun k => digit (bitFromRight s k)).reverse := by
  rw [← List.reverse_inj, List.reverse_reverse]
  refine List.ext_getElem (by simp [hn]) fun i h1 h2 => ?_
  rw [List.getElem_map, List.getElem_range]
  unfold digit bitFromRight
  rw [List.getElem?_eq_getElem h1]
  have := hs _ (List.mem_reverse.1 (List.getElem_mem h1))
  rcases this with h | h <;> rw [h] <;> rfl

theorem xSites_line (d : Int) : xSites d 1 = [] := by
  rw [List.eq_nil_iff_forall_not_mem]
  intro p hp
  have := mem_xSites.1 hp
  unfold XSite at this
  omega

/-- The Z stabilizers of a line. -/
theorem zSites_line {d : Nat} (hd : d % 2 = 1) {k : Nat} (hk : k + 1 < d) : ∃ c : Int, (zSites d 1)[k]? = some (2 * (k : Int) + 1, c) ∧ (c = 1 ∨ c = -1) := by
  have e := zSites_eq (h := (d / 2 : Nat)) (w := 0) le_rfl
  rw [show (2 * ((d / 2 : Nat) : Int) + 1) = d by omega, show (2 * (0 : Int) + 1) = 1 from rfl] at e
  have hn : (numSynZ (d : Int) 1).toNat = d - 1 := by
    unfold numSynZ
    rw [show ((1 : Int) + 1).fdiv 2 = 1 from rfl]
    omega
  unfold pyRange at e
  rw [e, hn, List.map_map, List.getElem?_map, List.getElem?_range (by omega)]
  have h0 : (1 : Int).fdiv 2 + 1 = 1 := rfl
  have h1 : (k : Int).fdiv 1 = k := Int.fdiv_one k
  have h2 : (k : Int).fmod 1 = 0 := Int.fmod_one k
  have h3 : (k : Int).fmod 2 = (k : Int) % 2 := Int.fmod_eq_emod_of_nonneg _ (by decide)
  refine ⟨1 - 2 * ((k : Int) % 2), ?_, by omega⟩
  simp only [Option.map_some, comp, coordZ, Int.ofNat_eq_natCast, h0, h1, h2, h3]
  congr 2 <;> ring

theorem zSites_line_length {d : Nat} (hd : d % 2 = 1) : (zSites (d : Int) 1).length = d - 1 := by
  rw [zSites_length (by unfold OddPos; omega)]
  unfold numSynZ
  rw [show ((1 : Int) + 1).fdiv 2 = 1 from rfl]
  omega

/-- The faults of the qubits in `F`. -/
def repFlips (d : Nat) (F : Finset Nat) : List Fault := ((List.range d).filter (· ∈ F)).map (lineFault .Z 0)

theorem xorAll_repFlips {d : Nat} {F : Finset Nat} (hF : F ⊆ Finset.range d) {f : Fault → Bool} {S : List Nat} (hS : S.Nodup)
    (h : ∀ i, f (lineFault .Z 0 i) = decide (i ∈ S)) : xorAll ((repFlips d F).map f) = xorAll (S.map fun i => decide (i ∈ F)) := by
  have key : ∀ l : List Nat, l.Nodup → xorAll (((l.filter (· ∈ F)).map (lineFault .Z 0)).map f) =
      xorAll ((l.filter (· ∈ S)).map fun i => decide (i ∈ F)) := by
    intro l
    induction l with
    | nil => intro _; rfl
    | cons a l ih =>
      intro hn
      have ih := ih (List.nodup_cons.1 hn).2
      by_cases h1 : a ∈ F <;> by_cases h2 : a ∈ S <;> simp [h1, h2, h, xorAll] at ih ⊢ <;> exact ih
  unfold repFlips
  rw [key _ List.nodup_range]
  have key2 : ∀ S : List Nat, S.Nodup → xorAll (((List.range d).filter (· ∈ S)).map fun i => decide (i ∈ F)) = xorAll (S.map fun i => decide (i ∈ F)) := by
    intro S hS
    have h3 : xorAll (S.map fun i => decide (i ∈ F)) = xorAll ((S.filter (· ∈ F)).map fun i => decide (i ∈ F)) := by
      clear hS
      induction S with
      | nil => rfl
      | cons a S ih =>
        by_cases h1 : a ∈ F <;> simp [h1, xorAll] at ih ⊢ <;> exact ih
    have h4 : ∀ l : List Nat, xorAll (l.map fun i => decide (i ∈ F)) = xorAll ((l.filter (· ∈ F)).map fun i => decide (i ∈ F)) := by
      intro l
      induction l with
      | nil => rfl
      | cons a S ih =>
        by_cases h1 : a ∈ F <;> simp [h1, xorAll] at ih ⊢ <;> exact ih
    rw [h3, h4]
    refine xorAll_perm (List.Perm.map _ ((List.perm_ext_iff_of_nodup ((List.nodup_range.filter _).filter _) (hS.filter _)).2 fun a => ?_))
    simp only [List.mem_filter, List.mem_range, decide_eq_true_eq]
    constructor
    · exact fun h => ⟨h.1.2, h.2⟩
    · exact fun h => ⟨⟨Finset.mem_range.1 (hF h.2), h.1⟩, h.2⟩
  exact key2 S hS

theorem repFlips_readout {d : Nat} {F : Finset Nat} (hF : F ⊆ Finset.range d) : readoutFlipped .Z (repFlips d F) = decide (0 ∈ F) := by
  unfold readoutFlipped
  rw [xorAll_repFlips hF (S := [0]) (by simp)]
  · simp [xorAll]
  · intro i
    simp only [lineFault, Fault.flipsReadout]
    rw [Bool.eq_iff_iff]
    simp

theorem repFlips_round {d : Nat} {F : Finset Nat} (hF : F ⊆ Finset.range d) {k : Nat} {c : Int} (hc : c = 1 ∨ c = -1) :
    readBit (fun _ _ => false) (repFlips d F) 1 (2 * k + 1) c = (decide (k ∈ F) ^^ decide (k + 1 ∈ F)) := by
  unfold readBit
  rw [Bool.false_xor, xorAll_repFlips hF (S := [k, k + 1]) (by simp)]
  · simp [xorAll]
  · intro i
    simp only [lineFault, Fault.affects]
    rw [Bool.eq_iff_iff]
    simp only [Bool.and_eq_true, Bool.or_eq_true, beq_iff_eq, decide_eq_true_eq, List.mem_cons, List.not_mem_nil, or_false]
    omega

theorem repFlips_round_zero {d : Nat} {F : Finset Nat} (r c : Int) : readBit (fun _ _ => false) (repFlips d F) 0 r c = false := by
  unfold readBit
  rw [Bool.false_xor]
  refine xorAll_eq_false ?_
  intro b hb
  obtain ⟨f, hf, rfl⟩ := List.mem_map.1 hb
  obtain ⟨i, -, rfl⟩ := List.mem_map.1 hf
  rfl

namespace RepBench
variable {d : Nat} {ep : Option ℝ} (B : RepBench d ep)

/-- The gates that make the value `v` from 0. (Their errors `e` do not occur.) -/
def flipTo (v : Bool) (e : Errs) : List (QOp × Errs) := if v then [(.x, e)] else []

/-- The operations of the benchmark for the value `v` up to the readout. -/
def memoryOps (v : Bool) (e : Errs) (F : Finset Nat) : List (QOp × Errs) :=
  flipTo v e ++ [(.stabilize, B.e1), (.idData, bitFlips B.q.lat.name F), (.stabilize, B.e2)]

/-- `s'` is a possible end of an execution for the value `v` in which the data qubits in `F` have flipped. -/
def EndsWith (v : Bool) (e : Errs) (F : Finset Nat) (s' : QState) : Prop :=
  Run B.sz (noisyAll B.q ((.resetZ, B.e0) :: B.memoryOps v e F ++ [(.readoutZ none, B.e3)]) B.w) B.s s'

/-- The readout of such an execution. -/
def shown (v : Bool) (s' : QState) : Str :=
  joinSp (groups s'.mem (B.q.ops (.resetZ :: (if v then [.x] else []) ++ [.stabilize, .idData, .stabilize, .readoutZ none]) B.w).circ.cregs)

/-- For the value 0 this is the benchmark of C88. -/
theorem endsWith_false (e : Errs) (F : Finset Nat) (s' : QState) : B.EndsWith false e F s' ↔ B.Ends F s' := Iff.rfl

theorem decoded_shown (s' : QState) : B.decoded s' = correctString B.D B.m (B.shown false s') .Z ep := rfl

end RepBench

theorem repMemory_faults {d : Nat} {ep : Option ℝ} (B : RepBench d ep) (v : Bool) (e : Errs) (F : Finset Nat) :
    takePlace ((1 : Nat) : Int) (faultsOf QClass.rep.code .Z B.q.lat.name d 1 0 (B.memoryOps v e F)) = repFlips d F := by
  have h : faultsOf QClass.rep.code .Z B.q.lat.name d 1 0 (B.memoryOps v e F) =
      faultsOf QClass.rep.code .Z B.q.lat.name d 1 0 [(.stabilize, B.e1), (.idData, bitFlips B.q.lat.name F), (.stabilize, B.e2)] := by
    cases v <;> rfl
  rw [h, repFaults B.q.lat.name B.e1 B.e2 F d QClass.rep.code (by decide)]
  unfold takePlace
  rw [List.filter_eq_self.2]
  · rfl
  · intro f hf
    obtain ⟨i, hi, rfl⟩ := List.mem_map.1 hf
    rfl

theorem repMemory_ops {d : Nat} {ep : Option ℝ} (B : RepBench d ep) (v : Bool) (e : Errs) (F : Finset Nat) :
    ∀ a ∈ B.memoryOps v e F, MemoryOp a.1 := by
  intro a ha
  cases v <;> simp [RepBench.memoryOps, RepBench.flipTo] at ha
  · rcases ha with rfl | rfl | rfl <;> trivial
  · rcases ha with rfl | rfl | rfl | rfl <;> trivial

/-- C115: whatever is measured, the readout of the benchmark is the string that belongs to the value and the flips. -/
theorem C115_string {d : Nat} {ep : Option ℝ} (B : RepBench d ep) (v : Bool) (e : Errs) (F : Finset Nat) (hF : F ⊆ Finset.range d) :
    (∃ s', B.EndsWith v e F s') ∧ ∀ s', B.EndsWith v e F s' → B.shown v s' = repString d v F := by
  refine ⟨noisy_exists B.after.after B.s B.nonzero, fun s' hR => ?_⟩
  have H := B.after.after.own.2.placed.odd
  have hd : d % 2 = 1 := by
    unfold OddPos at H
    omega
  have hbig : (1 : Int) < (d : Int) * 1 := by have := B.big; omega
  obtain ⟨rounds, hlen, hrr, hgr⟩ := endToEnd_strings (key := .Z) (T := 1) (l := B.memoryOps v e F) B.after B.quiet B.fresh hbig
    (Or.inl (by decide)) (repMemory_ops B v e F) (by cases v <;> rfl) B.nonzero B.zeros hR
  rw [repMemory_faults] at hrr hgr
  obtain ⟨a, b, rfl⟩ : ∃ a b, rounds = [a, b] := by
    match rounds, hlen with
    | [a, b], _ => exact ⟨a, b, rfl⟩
    | [], h => simp at h
    | [_], h => simp at h
    | _ :: _ :: _ :: _, h => simp at h; omega
  have hops : prepOp .Z :: (B.memoryOps v e F).map Prod.fst ++ [readOp .Z] =
      (.resetZ :: (if v then [.x] else []) ++ [.stabilize, .idData, .stabilize]) ++ [.readoutZ none] := by
    cases v <;> rfl
  have hlens := groups_lengths B.after B.quiet hbig (.resetZ :: (if v then [.x] else []) ++ [.stabilize, .idData, .stabilize])
    (by cases v <;> simp [QOp.quiet]) s'.mem
  rw [← hops, hgr, xSites_line, zSites_line_length hd, List.length_nil, Nat.zero_add] at hlens
  have hb : b.length = d - 1 := hlens b (by simp)
  have ha : a.length = d - 1 := hlens a (by simp)
  have hb' := bits_ext hb (hrr.1 b (by simp)).2
  have ha' := bits_ext ha (hrr.1 a (by simp)).2
  have e1 : ((List.range (d - 1)).map fun k => digit (bitFromRight b k)) =
      (List.range (d - 1)).map fun k => digit (decide (k ∈ F) ^^ decide (k + 1 ∈ F)) := by
    refine List.map_congr_left fun k hk => ?_
    obtain ⟨c, h1, h2⟩ := zSites_line (d := d) hd (k := k) (by have := List.mem_range.1 hk; omega)
    have := hrr.2 1 k b _ rfl h1
    rw [show bitFromRight b k = _ from this, ← repFlips_round hF h2]
    rfl
  have e0 : ((List.range (d - 1)).map fun k => digit (bitFromRight a k)) = List.replicate (d - 1) '0' := by
    rw [List.eq_replicate_iff]
    refine ⟨by simp, fun x hx => ?_⟩
    obtain ⟨k, hk, rfl⟩ := List.mem_map.1 hx
    obtain ⟨c, h1, h2⟩ := zSites_line (d := d) hd (k := k) (by have := List.mem_range.1 hk; omega)
    have := hrr.2 0 k a _ rfl h1
    rw [show bitFromRight a k = _ from this, show ((0 : Nat) : Int) = 0 from rfl, repFlips_round_zero]
    rfl
  have hv : decide (((B.memoryOps v e F).map Prod.fst).count (flipGate .Z) % 2 = 1) = v := by cases v <;> rfl
  have hgr' : B.shown v s' = joinSp (groups s'.mem (B.q.ops (prepOp .Z :: (B.memoryOps v e F).map Prod.fst ++ [readOp .Z]) B.w).circ.cregs) := by
    rw [hops]
    unfold RepBench.shown
    cases v <;> rfl
  rw [hgr', hgr, hv, repFlips_readout hF, hb', ha', e1, e0, List.reverse_replicate]
  unfold repString
  simp [joinSp, digit]

/-- C115: the other value with the other data qubits flipped looks the same. -/
theorem C115_same (d : Nat) (hd : 0 < d) (v : Bool) (F : Finset Nat) : repString d (!v) (Finset.range d \ F) = repString d v F := by
  have h : ∀ k, k < d → decide (k ∈ Finset.range d \ F) = !decide (k ∈ F) := by
    intro k hk
    rw [Bool.eq_iff_iff]
    simp [hk]
  unfold repString
  rw [h 0 hd]
  have e : ((List.range (d - 1)).map fun k => digit (decide (k ∈ Finset.range d \ F) ^^ decide (k + 1 ∈ Finset.range d \ F))) =
      (List.range (d - 1)).map fun k => digit (decide (k ∈ F) ^^ decide (k + 1 ∈ F)) := by
    refine List.map_congr_left fun k hk => ?_
    have := List.mem_range.1 hk
    rw [h k (by omega), h (k + 1) (by omega)]
    simp
  rw [e]
  simp

/-- The probability, with independent flips with probability `p`, that a decoder `g` of strings may miss the value `v`. -/
noncomputable def RepBench.missed {d : Nat} {ep : Option ℝ} (B : RepBench d ep) (e : Errs) (g : Str → Option Int) (v : Bool) (p : ℝ) : ℝ :=
  flipProb d p fun F => ∃ s', B.EndsWith v e F s' ∧ g (B.shown v s') ≠ some (bit v)

theorem missed_eq {d : Nat} {ep : Option ℝ} (B : RepBench d ep) (e : Errs) (g : Str → Option Int) (v : Bool) (p : ℝ) :
    B.missed e g v p = flipProb d p fun F => g (repString d v F) ≠ some (bit v) := by
  refine flipProb_congr fun F hF => ?_
  obtain ⟨⟨s', h1⟩, h2⟩ := C115_string B v e F hF
  constructor
  · rintro ⟨t, h3, h4⟩
    rwa [h2 t h3] at h4
  · intro h
    exact ⟨s', h1, by rwa [h2 s' h1]⟩

open Classical in
theorem flipProb_compl (d : Nat) (p : ℝ) (bad : Finset Nat → Prop) :
    flipProb d p bad = ∑ F ∈ (Finset.range d).powerset, if bad (Finset.range d \ F) then p ^ (d - F.card) * (1 - p) ^ F.card else 0 := by
  unfold flipProb
  refine Finset.sum_nbij' (fun F => Finset.range d \ F) (fun F => Finset.range d \ F) ?_ ?_ ?_ ?_ ?_
  · exact fun F _ => Finset.mem_powerset.2 Finset.sdiff_subset
  · exact fun F _ => Finset.mem_powerset.2 Finset.sdiff_subset
  · exact fun F hF => Finset.sdiff_sdiff_eq_self (Finset.mem_powerset.1 hF)
  · exact fun F hF => Finset.sdiff_sdiff_eq_self (Finset.mem_powerset.1 hF)
  · intro F hF
    have hF := Finset.mem_powerset.1 hF
    have h1 := Finset.card_sdiff_of_subset hF
    have h2 := Finset.card_le_card hF
    rw [Finset.card_range] at h1 h2
    rw [Finset.sdiff_sdiff_eq_self hF, h1, show d - (d - F.card) = F.card by omega]

theorem weight_le {p : ℝ} (h0 : 0 ≤ p) (h1 : p ≤ 1 / 2) {a b : Nat} (h : b ≤ a) : p ^ a * (1 - p) ^ b ≤ p ^ b * (1 - p) ^ a := by
  obtain ⟨c, rfl⟩ := Nat.exists_eq_add_of_le h
  rw [pow_add, pow_add]
  have h2 : p ^ c ≤ (1 - p) ^ c := pow_le_pow_left₀ h0 (by linarith) c
  have h3 : 0 ≤ p ^ b * (1 - p) ^ b := mul_nonneg (pow_nonneg h0 _) (pow_nonneg (by linarith) _)
  nlinarith

/-- C115: no decoder of the readouts, whatever it does, misses the two values with a smaller total probability than twice the rate of the
decoder of the repository, if the data qubits flip with a probability of at most 1/2. -/
theorem C115_best {d : Nat} {ep : Option ℝ} (B : RepBench d ep) (e : Errs) (p : ℝ) (h0 : 0 ≤ p) (h1 : p ≤ 1 / 2) (g : Str → Option Int) :
    2 * B.rate p ≤ B.missed e g false p + B.missed e g true p := by
  classical
  have hd := B.big
  have hodd : d % 2 = 1 := by
    have H := B.after.after.own.2.placed.odd
    unfold OddPos at H
    omega
  have hrate : B.rate p = flipProb d p fun F => d < 2 * F.card := by
    refine flipProb_congr fun F hF => ?_
    obtain ⟨⟨s', hs'⟩, h⟩ := C88_executions B F hF
    constructor
    · rintro ⟨t, h2, h3⟩
      rw [h t h2] at h3
      by_contra hc
      rw [if_neg hc] at h3
      exact h3 rfl
    · intro hc
      refine ⟨s', hs', ?_⟩
      rw [h s' hs', if_pos hc]
      simp
  rw [missed_eq, missed_eq, two_mul, hrate]
  nth_rw 2 [flipProb_compl]
  rw [flipProb_compl d p fun F => g (repString d true F) ≠ some (bit true)]
  unfold flipProb
  rw [← Finset.sum_add_distrib, ← Finset.sum_add_distrib]
  refine Finset.sum_le_sum fun F hF => ?_
  have hF := Finset.mem_powerset.1 hF
  have hc := Finset.card_sdiff_of_subset hF
  have hle := Finset.card_le_card hF
  rw [Finset.card_range] at hc hle
  have hsame := C115_same d (by omega) false F
  rw [Bool.not_false] at hsame
  rw [hsame, hc]
  have w0 : 0 ≤ p ^ F.card * (1 - p) ^ (d - F.card) := mul_nonneg (pow_nonneg h0 _) (pow_nonneg (by linarith) _)
  have w1 : 0 ≤ p ^ (d - F.card) * (1 - p) ^ F.card := mul_nonneg (pow_nonneg h0 _) (pow_nonneg (by linarith) _)
  have hne : g (repString d false F) ≠ some (bit false) ∨ g (repString d false F) ≠ some (bit true) := by
    by_contra hcon
    push Not at hcon
    rw [hcon.1] at hcon
    exact absurd hcon.2 (by decide)
  by_cases hmaj : d < 2 * F.card
  · rw [if_pos hmaj, if_neg (by omega), add_zero]
    have := weight_le h0 h1 (a := F.card) (b := d - F.card) (by omega)
    rcases hne with h | h
    · rw [if_pos h]
      split <;> linarith
    · rw [if_pos h]
      split <;> linarith
  · rw [if_neg hmaj, if_pos (by omega), zero_add]
    have := weight_le h0 h1 (a := d - F.card) (b := F.card) (by omega)
    rcases hne with h | h
    · rw [if_pos h]
      split <;> linarith
    · rw [if_pos h]
      split <;> linarith

/-- C115: the decoder of the repository on these readouts. -/
theorem C115_decoded {d : Nat} {ep : Option ℝ} (B : RepBench d ep) (v : Bool) (F : Finset Nat) (hF : F ⊆ Finset.range d) :
    correctString B.D B.m (repString d v F) .Z ep = .ok (some (bit (v ^^ decide (d < 2 * F.card)))) := by
  have hd := B.big
  have hodd : d % 2 = 1 := by
    have H := B.after.after.own.2.placed.odd
    unfold OddPos at H
    omega
  have zero : ∀ G ⊆ Finset.range d, correctString B.D B.m (repString d false G) .Z ep = .ok (some (bit (decide (d < 2 * G.card)))) := by
    intro G hG
    obtain ⟨⟨s', h1⟩, h2⟩ := C115_string B false noErrs G hG
    rw [← h2 s' h1, ← B.decoded_shown, (C88_executions B G hG).2 s' h1]
    by_cases h : d < 2 * G.card
    · rw [if_pos h, decide_eq_true h]; rfl
    · rw [if_neg h, decide_eq_false h]; rfl
  cases v
  · rw [Bool.false_xor]
    exact zero F hF
  · have h := C115_same d (by omega) true F
    rw [Bool.not_true] at h
    rw [← h, zero _ Finset.sdiff_subset]
    have hc := Finset.card_sdiff_of_subset hF
    have hle := Finset.card_le_card hF
    rw [Finset.card_range] at hc hle
    congr 3
    rw [hc, Bool.true_xor, ← decide_not, decide_eq_decide]
    omega

/-- C115: it misses both values with the probability `B.rate p`, the least possible. -/
theorem C115_attained {d : Nat} {ep : Option ℝ} (B : RepBench d ep) (e : Errs) (p : ℝ) (g : Str → Option Int)
    (hg : ∀ v F, F ⊆ Finset.range d → correctString B.D B.m (repString d v F) .Z ep = .ok (g (repString d v F))) (v : Bool) :
    B.missed e g v p = B.rate p := by
  have key : ∀ v F, F ⊆ Finset.range d → g (repString d v F) = some (bit (v ^^ decide (d < 2 * F.card))) := by
    intro v F hF
    have h := hg v F hF
    rw [C115_decoded B v F hF] at h
    injection h with h
    exact h.symm
  have : B.rate p = B.missed e g false p := by
    rw [missed_eq]
    refine flipProb_congr fun F hF => ?_
    rw [key false F hF]
    obtain ⟨⟨s', hs'⟩, h⟩ := C88_executions B F hF
    constructor
    · rintro ⟨t, h2, h3⟩
      rw [h t h2] at h3
      by_cases hc : d < 2 * F.card
      · rw [decide_eq_true hc]; decide
      · rw [if_neg hc] at h3
        exact absurd rfl h3
    · intro hc
      refine ⟨s', hs', ?_⟩
      by_cases h2 : d < 2 * F.card
      · rw [h s' hs', if_pos h2]; simp
      · rw [decide_eq_false h2] at hc
        exact absurd rfl hc
  rw [this, missed_eq, missed_eq]
  refine flipProb_congr fun F hF => ?_
  rw [key false F hF, key v F hF]
  cases v <;> cases decide (d < 2 * F.card) <;> decide

/-- C115: for flips with a probability of at most 1/2 the decoder of the repository is the best one. -/
theorem C115_optimal {d : Nat} {ep : Option ℝ} (B : RepBench d ep) (e : Errs) (p : ℝ) (h0 : 0 ≤ p) (h1 : p ≤ 1 / 2) (g g' : Str → Option Int)
    (hg : ∀ v F, F ⊆ Finset.range d → correctString B.D B.m (repString d v F) .Z ep = .ok (g (repString d v F))) :
    B.missed e g false p + B.missed e g true p ≤ B.missed e g' false p + B.missed e g' true p := by
  rw [C115_attained B e p g hg, C115_attained B e p g hg, ← two_mul]
  exact C115_best B e p h0 h1 g'

/-- There is such a function `g` for every benchmark. -/
theorem C115_decoder {d : Nat} {ep : Option ℝ} (B : RepBench d ep) :
    ∃ g : Str → Option Int, ∀ v F, F ⊆ Finset.range d → correctString B.D B.m (repString d v F) .Z ep = .ok (g (repString d v F)) := by
  refine ⟨fun s => match correctString B.D B.m s .Z ep with
    | .ok a => a
    | .error _ => none, fun v F hF => ?_⟩
  simp only [C115_decoded B v F hF]

/-- Five data qubits hold 1 and the second and the last one flip; the third, fourth and first one flip and they hold 0. -/
example : repString 5 true {1, 4} = "1 1011 0000".toList ∧ repString 5 false {0, 2, 3} = "1 1011 0000".toList := by
  constructor <;> decide

/-- Both are decoded to 1. -/
example (B : RepBench 5 none) : correctString B.D B.m "1 1011 0000".toList .Z none = .ok (some 1) := by
  have h := C115_decoded B true {1, 4} (by decide)
  rw [show repString 5 true {1, 4} = "1 1011 0000".toList by decide, show ({1, 4} : Finset Nat).card = 2 by decide] at h
  exact h

/-- Reading only the first data qubit misses both values with probability `p`, which is worse than `3p² - 2p³`. -/
example : ∃ B : RepBench 3 none, ∀ p : ℝ, 0 ≤ p → p ≤ 1 / 2 →
    2 * B.rate p ≤ B.missed noErrs (fun s => if s.head? = some '1' then some 1 else some 0) false p +
      B.missed noErrs (fun s => if s.head? = some '1' then some 1 else some 0) true p := by
  obtain ⟨B⟩ := C89_exists 1 (by decide) none (Or.inl rfl)
  exact ⟨B, fun p h0 h1 => C115_best B noErrs p h0 h1 _⟩

end Qtc
