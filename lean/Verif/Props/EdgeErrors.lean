import Verif.Spec.EdgeErrors
import Verif.Proof.EdgeErrors
import Verif.Proof.QSlips
import Verif.Props.FirstRound
import Verif.Props.RateSymmetry
/-!
C133: errors before the first or after the last round.
-/
namespace Qtc
open Spec Function

variable {cls : QClass} {dh dw : Int} {key : Key} {T : Nat}

/-- A memory whose data qubits suffer errors before the first or after the last of `T + 1` rounds: the logical qubit is prepared, the operations
`before` and `after` follow, with the identity gates that make the errors in between, and the logical operator is measured. The other errors
are tolerable. -/
structure EdgeMemory (cls : QClass) (dh dw : Int) (key : Key) (T : Nat) where
  (q : TQubit) (ops : List QOp) (w : World) (D : Decoder) (g : SGraph) (m : Matcher) (s : QState) (sz : Str → Nat)
  (before after : List (QOp × Errs)) (e0 e1 : Errs)
  alone : AfterAlone cls q dh dw ops w
  quiet : ∀ o ∈ ops, o.quiet = true
  fresh : ops.count .stabilize = 0
  big : 1 < dh * dw
  canRead : CanRead cls dh dw key
  made : Made D
  height : D.dh = dh
  width : D.dw = dw
  graph : D.S key = some g
  steps : (T : Int) ≤ D.T
  contract : Contract m
  start : s.psi ≠ 0
  clean : SynZero q.lat.name dh dw s.psi
  memory : ∀ a ∈ before ++ after, MemoryOp a.1
  rounds : ((before ++ after).map Prod.fst).count .stabilize = T + 1
  outside : (before.map Prod.fst).count .stabilize = 0 ∨ (after.map Prod.fst).count .stabilize = 0
  others : Tolerable key dh dw T (takePlace T (faultsOf cls.code key q.lat.name dh dw 0 (before ++ after)))

namespace EdgeMemory

/-- The operations, with X errors of the data qubits in `X` and Z errors of those in `Z`. -/
def run (B : EdgeMemory cls dh dw key T) (X Z : Finset Nat) : List (QOp × Errs) :=
  B.before ++ (.idData, dataErrs B.q.lat.name X Z) :: B.after

/-- `s'` is a possible end of an execution. -/
def Ends (B : EdgeMemory cls dh dw key T) (X Z : Finset Nat) (s' : QState) : Prop :=
  Run B.sz (noisyAll B.q ((prepOp key, B.e0) :: B.run X Z ++ [(readOp key, B.e1)]) B.w) B.s s'

/-- What the decoder makes of the readout. -/
noncomputable def decoded (B : EdgeMemory cls dh dw key T) (s' : QState) : Py (Option Int) :=
  correctString B.D B.m (joinSp (groups s'.mem (B.q.ops (prepOp key :: (B.run ∅ ∅).map Prod.fst ++ [readOp key]) B.w).circ.cregs)) (rtypeOf key) none

/-- What should be decoded. -/
def truth (B : EdgeMemory cls dh dw key T) : Bool := decide (((B.before ++ B.after).map Prod.fst).count (flipGate key) % 2 = 1)

/-- The probability of a wrong value, if the data qubits suffer independent Pauli errors. -/
noncomputable def rate (B : EdgeMemory cls dh dw key T) (π : Nat → Bool × Bool → ℝ) : ℝ :=
  pauliProb (Finset.range (numData dh dw)) π fun X Z => ∃ s', B.Ends X Z s' ∧ B.decoded s' ≠ .ok (some (bit B.truth))

end EdgeMemory

/-- The data qubits whose errors flip operators of the measured type. -/
def turnedSet (cls : QClass) (dh dw : Int) (key : Key) (X Z : Finset Nat) : Finset Nat :=
  (Finset.range (numData dh dw)).filter fun i => turnedBy cls.code key i (decide (i ∈ X), decide (i ∈ Z)) = true

theorem filterMap_xor {α : Type} (l : List α) (p : α → Bool) (f : α → Fault) (b : Fault → Bool) :
    xorAll ((l.filterMap fun a => if p a then some (f a) else none).map b) = xorAll (l.map fun a => p a && b (f a)) := by
  induction l with
  | nil => rfl
  | cons a l ih =>
    rw [List.map_cons, xorAll_cons, ← ih]
    cases h : p a
    · rw [List.filterMap_cons_none (by simp [h]), Bool.false_and, Bool.false_xor]
    · rw [List.filterMap_cons_some (b := f a) (by simp [h]), List.map_cons, xorAll_cons, Bool.true_and]

theorem xorAll_parity (n : Nat) (p c : Nat → Bool) :
    xorAll ((List.range n).map fun i => p i && c i) = parity ((Finset.range n).filter (p · = true)) c := by
  induction n with
  | zero => rfl
  | succ n ih =>
    rw [List.range_succ, List.map_append, xorAll_append, ih, Finset.range_add_one, Finset.filter_insert]
    cases h : p n
    · simp [h]
    · rw [if_pos rfl, parity_insert (by simp)]
      simp [h]

theorem dataErrs_readout {code : Code} {name : Str} (t : Int) (X Z : Finset Nat) :
    readoutFlipped key (faultsIn code key name dh dw t .idData (dataErrs name X Z)) =
      parity ((Finset.range (numData dh dw)).filter fun i => turnedBy code key i (decide (i ∈ X), decide (i ∈ Z)) = true) (valueCheck key dw) := by
  show xorAll ((List.filterMap _ (allQubits dh dw)).map _) = _
  rw [filterMap_xor, ← xorAll_parity]
  unfold allQubits
  rw [List.map_map]
  refine xorAll_congr fun i _ => ?_
  have e : dataErrs name X Z (dataQ name (Int.ofNat i)) = (decide (i ∈ X), decide (i ∈ Z)) := by
    simp [dataErrs, dataQ]
  show (turnedBy code key (Int.ofNat i) (dataErrs name X Z (dataQ name (Int.ofNat i))) && _) = _
  rw [e]
  rfl

/-- C133: the errors are not noticed, and the decoded value is wrong just if an odd number of them flip data qubits of the measured logical
operator, for every outcome of the measurements. -/
theorem C133_decoded (B : EdgeMemory cls dh dw key T) (X Z : Finset Nat) (s' : QState) (hR : B.Ends X Z s') :
    B.decoded s' = .ok (some (bit (B.truth ^^ parity (turnedSet cls dh dw key X Z) (valueCheck key dw)))) := by
  have H := B.alone.after.own.2.placed.odd
  have hcnt : ∀ o : QOp, ((B.run X Z).map Prod.fst).count o = ((B.before ++ B.after).map Prod.fst).count o + if o = .idData then 1 else 0 := by
    intro o
    unfold EdgeMemory.run
    rw [List.map_append, List.map_append, List.count_append, List.count_append, List.map_cons, List.count_cons]
    by_cases h : o = .idData
    · subst h; simp; omega
    · have h' : ¬ QOp.idData = o := fun e => h e.symm
      simp [h, h']
  obtain ⟨rounds, hlen, hrr, hgr⟩ := endToEnd_strings B.alone B.quiet B.fresh B.big B.canRead (l := B.run X Z) (T := T) (by
      intro a ha
      rcases List.mem_append.1 ha with h | h
      · exact B.memory a (List.mem_append_left _ h)
      rcases List.mem_cons.1 h with rfl | h
      · trivial
      · exact B.memory a (List.mem_append_right _ h)) (by rw [hcnt, B.rounds]; rfl) B.start B.clean hR
  let n := (B.before.map Prod.fst).count .stabilize
  have hn : n = 0 ∨ n = T + 1 := by
    rcases B.outside with h | h
    · exact Or.inl h
    · right
      have := B.rounds
      rw [List.map_append, List.count_append, h] at this
      exact this
  let E := faultsIn cls.code key B.q.lat.name dh dw ((n : Int) - 1) .idData (dataErrs B.q.lat.name X Z)
  let G := takePlace T (faultsOf cls.code key B.q.lat.name dh dw 0 (B.before ++ B.after))
  have hE : ∀ f ∈ E, ∃ r c, f = .data ((n : Int) - 1) r c := by
    intro f hf
    obtain ⟨i, -, hi⟩ := List.mem_filterMap.1 hf
    split at hi
    · exact ⟨_, _, (Option.some.inj hi).symm⟩
    · cases hi
  have hperm : (takePlace T (faultsOf cls.code key B.q.lat.name dh dw 0 (B.run X Z))).Perm (E ++ G) := by
    have e1 : faultsOf cls.code key B.q.lat.name dh dw 0 (B.run X Z) =
        faultsOf cls.code key B.q.lat.name dh dw 0 B.before ++ (E ++ faultsOf cls.code key B.q.lat.name dh dw n B.after) := by
      unfold EdgeMemory.run
      rw [faultsOf_append, Nat.zero_add]
      rfl
    have e2 : takePlace T E = E := List.filter_eq_self.2 fun f hf => by
      obtain ⟨r, c, rfl⟩ := hE f hf
      rfl
    show List.Perm _ (E ++ takePlace T (faultsOf cls.code key B.q.lat.name dh dw 0 (B.before ++ B.after)))
    rw [e1, faultsOf_append, Nat.zero_add, takePlace_append, takePlace_append, takePlace_append, e2]
    exact List.perm_append_comm_assoc _ _ _
  have hread : ∀ t : Nat, t ≤ T → ∀ p, reading E t p = reading E 0 p := by
    intro t ht p
    refine xorAll_congr fun f hf => ?_
    obtain ⟨r, c, rfl⟩ := hE f hf
    have e : decide ((n : Int) - 1 < t) = decide ((n : Int) - 1 < 0) := decide_eq_decide.2 (by omega)
    show (decide ((n : Int) - 1 < t) && _ && _) = (decide ((n : Int) - 1 < 0) && _ && _)
    rw [e]
  have hro : readoutFlipped key (takePlace T (faultsOf cls.code key B.q.lat.name dh dw 0 (B.run X Z))) =
      (parity (turnedSet cls dh dw key X Z) (valueCheck key dw) ^^ readoutFlipped key G) := by
    refine (xorAll_perm (hperm.map _)).trans ?_
    show readoutFlipped key (E ++ G) = _
    rw [readoutFlipped_append]
    congr 1
    exact dataErrs_readout _ X Z
  have htruth : decide (((B.run X Z).map Prod.fst).count (flipGate key) % 2 = 1) = B.truth := by
    rw [hcnt]
    unfold EdgeMemory.truth
    cases key <;> rfl
  have hops : (B.run ∅ ∅).map Prod.fst = (B.run X Z).map Prod.fst := by
    unfold EdgeMemory.run
    rw [List.map_append, List.map_append]
    rfl
  unfold EdgeMemory.decoded
  rw [hops, hgr, hro, htruth, ← Bool.xor_assoc]
  obtain ⟨q, ops, w, D, g, m, s, sz, before, after, e0, e1, alone, quiet, fresh, big, canRead, made, height, width, graph, steps, contract, start, clean,
    memory, rounds', outside, others⟩ := B
  subst height width
  refine C98_strings_single D made key g graph H big m contract T steps _ others
    (fun r c => reading E 0 (r, c)) rounds hlen ⟨hrr.1, fun t k s p hs hp => ?_⟩ _
  rw [hrr.2 t k s p hs hp]
  have ht := (List.getElem?_eq_some_iff.1 hs).1
  unfold readBit
  rw [Bool.false_xor, xorAll_perm (hperm.map _), List.map_append, xorAll_append]
  congr 1
  exact hread t (by omega) p

/-- C133: a readout of all data qubits does not notice errors before the first round either. -/
theorem C133_lattice {q : TQubit} {ops : List QOp} {w : World} {sz : Str → Nat} (A : AfterAlone cls q dh dw ops w) (hq : ∀ o ∈ ops, o.quiet = true)
    (hn : ops.count .stabilize = 0) (hbig : 1 < dh * dw) {e0 e1 : Errs} {l : List (QOp × Errs)} (hl : ∀ a ∈ l, MemoryOp a.1)
    (hT : (l.map Prod.fst).count .stabilize = T + 1) {D : Decoder} (hD : Made D) (hdh : D.dh = dh) (hdw : D.dw = dw) {g : SGraph}
    (hg : D.S .Z = some g) (hDT : (T : Int) + 1 ≤ D.T) {m : Matcher} (hm : Contract m)
    (hf : Tolerable .Z dh dw (T + 1) (takePlace T (faultsOf cls.code .Z q.lat.name dh dw 0 l))) (X Z : Finset Nat) {s s' : QState} (h0 : s.psi ≠ 0)
    (hs : SynZero q.lat.name dh dw s.psi)
    (hR : Run sz (noisyAll q ((.resetZ, e0) :: (.idData, dataErrs q.lat.name X Z) :: l ++ [(.latticeReadoutZ, e1)]) w) s s') :
    correctString D m (joinSp (groups s'.mem (q.ops (.resetZ :: .idData :: l.map Prod.fst ++ [.latticeReadoutZ]) w).circ.cregs)) .Z none =
      .ok (some (bit (decide ((l.map Prod.fst).count .x % 2 = 1) ^^ parity (turnedSet cls dh dw .Z X Z) (valueCheck .Z dw)))) := by
  have H := A.after.own.2.placed.odd
  let l' : List (QOp × Errs) := (.idData, dataErrs q.lat.name X Z) :: l
  have hl' : ∀ a ∈ l', MemoryOp a.1 := by
    intro a ha
    rcases List.mem_cons.1 ha with rfl | h
    · trivial
    · exact hl a h
  have hT' : (l'.map Prod.fst).count .stabilize = T + 1 := by
    rw [List.map_cons, List.count_cons_of_ne (show QOp.idData ≠ .stabilize by decide), hT]
  have hx : (l'.map Prod.fst).count (flipGate .Z) = (l.map Prod.fst).count .x := by
    rw [List.map_cons, List.count_cons_of_ne (show QOp.idData ≠ flipGate .Z by decide)]
    rfl
  replace hR : Run sz (noisyAll q (((.resetZ, e0) :: l') ++ [(.latticeReadoutZ, e1)]) w) s s' := hR
  rw [noisyAll_append, Run.append] at hR
  obtain ⟨u, h2, h3⟩ := hR
  have hH := held_run (key := .Z) A.after hbig hn hl' h0 hs h2
  rw [hT', hx] at hH
  have A' := A.all_next (.resetZ :: l'.map Prod.fst)
  have hq' : ∀ o ∈ ops ++ .resetZ :: l'.map Prod.fst, o.quiet = true := by
    intro o ho
    rcases List.mem_append.1 ho with h | h
    · exact hq o h
    rcases List.mem_cons.1 h with rfl | h
    · rfl
    · obtain ⟨a, ha, rfl⟩ := List.mem_map.1 h
      exact memoryOp_quiet (hl' a ha)
  have hcount : (ops ++ .resetZ :: l'.map Prod.fst).count .stabilize = T + 1 := by
    rw [List.count_append, hn, List.count_cons_of_ne (by decide), hT', Nat.zero_add]
  have h3' : Run sz (withErrors e1 (added q .latticeReadoutZ (q.ops (.resetZ :: l'.map Prod.fst) w)) ++ []) u s' := h3
  rw [List.append_nil, noErr_lattice A'.after] at h3'
  let E := faultsIn cls.code .Z q.lat.name dh dw (-1) .idData (dataErrs q.lat.name X Z)
  let F := faultsOf cls.code .Z q.lat.name dh dw 0 l
  have hfs : faultsOf cls.code .Z q.lat.name dh dw 0 l' = E ++ F := rfl
  rw [hfs] at hH
  have hE : ∀ t : Int, 0 ≤ t → ∀ p, reading E t p = reading E 0 p := by
    intro t ht p
    refine xorAll_congr fun f hf => ?_
    obtain ⟨i, -, hi⟩ := List.mem_filterMap.1 hf
    split at hi
    · cases hi
      have e : decide ((-1 : Int) < t) = decide ((-1 : Int) < 0) := decide_eq_decide.2 (by omega)
      show (decide ((-1 : Int) < t) && _ && _) = (decide ((-1 : Int) < 0) && _ && _)
      rw [e]
    · cases hi
  have hd : Decided .Z dh dw D.T (takePlace T F) false := by
    subst hdh hdw
    exact tolerable_decided H hDT hf
  have hF : ∀ f ∈ F, Fault.time f < ((T + 1 : Nat) : Int) := fun f hf => hH.time f (List.mem_append_right _ hf)
  have := lattice_reads A' hq' hbig hcount hD hdh hdw hg hDT hm (ref := fun p => reading E 0 p)
    (v' := decide ((l.map Prod.fst).count .x % 2 = 1) ^^ parity (turnedSet cls dh dw .Z X Z) (valueCheck .Z dw)) (fs' := takePlace T F) (by
      intro t ht p _
      rw [reading_append, hE t (by omega), reading_takePlace (by omega)]) (by
      intro p _
      have e := reading_takePlace_end hF p
      push_cast at e
      rw [show (T : Int) + 1 - 1 = T by omega] at e
      push_cast
      rw [reading_append, hE _ (by omega), e]) (by
      rw [readoutFlipped_append, readoutFlipped_takePlace, ← Bool.xor_assoc]
      congr 2
      exact dataErrs_readout _ X Z) hf.1 hd hH h3'
  rw [← ops_snoc, Bool.xor_false] at this
  exact this

/-- The number of data qubits of the measured operator. -/
theorem card_line (H : OddPos dh dw) : ((Finset.range (numData dh dw)).filter (valueCheck key dw · = true)).card = lineLength key dh dw := by
  cases key
  · exact card_column H.1 H.2.2.1
  · exact card_row H.1 H.2.2.1

/-- C133: the probability of a wrong value. -/
theorem C133_rate (B : EdgeMemory cls dh dw key T) (π : Nat → Bool × Bool → ℝ) (hπ : ∀ i < numData dh dw, PauliNoise (π i)) :
    B.rate π = (1 - ∏ i ∈ (Finset.range (numData dh dw)).filter (valueCheck key dw · = true), (1 - 2 * turnProb (turnedBy cls.code key i) (π i))) / 2 := by
  rw [← (independent_parity _ _ _).1, ← pauli_marginal (fun i : Nat => turnedBy cls.code key i) π _ fun i hi => hπ i (Finset.mem_range.1 hi)]
  refine pauliProb_congr fun X Z _ _ => ?_
  constructor
  · rintro ⟨s', h1, h2⟩
    rw [C133_decoded B X Z s' h1] at h2
    by_contra h
    refine h2 ?_
    rw [show parity (turnedSet cls dh dw key X Z) (valueCheck key dw) = false from Bool.not_eq_true _ |>.mp h, Bool.xor_false]
  · intro h
    obtain ⟨s', hs'⟩ := noisy_exists (sz := B.sz) (l := (prepOp key, B.e0) :: B.run X Z ++ [(readOp key, B.e1)]) B.alone.after B.s B.start
    refine ⟨s', hs', ?_⟩
    rw [C133_decoded B X Z s' hs', show parity (turnedSet cls dh dw key X Z) (valueCheck key dw) = true from h]
    cases B.truth <;> simp [bit]

theorem turnProb_data (code : Code) (i : Int) (p : ℝ) : turnProb (turnedBy code key i) (xzNoise p) = p := by
  unfold turnProb turnedBy
  split <;> cases key <;> simp [xzNoise]

/-- C133: X and Z errors of probability `p` each make the decoded value wrong with this probability, which grows with the length of the measured
operator. -/
theorem C133_uniform (B : EdgeMemory cls dh dw key T) {p : ℝ} (h0 : 0 ≤ p) (h1 : p ≤ 1 / 2) :
    B.rate (fun _ => xzNoise p) = (1 - (1 - 2 * p) ^ lineLength key dh dw) / 2 := by
  rw [C133_rate B _ fun i _ => xzNoise_pauli h0 h1]
  simp only [turnProb_data]
  rw [Finset.prod_const, card_line B.alone.after.own.2.placed.odd]

/-- C133: on long lattices the decoded value says nothing, however small the probability of an error is. -/
theorem C133_useless {p : ℝ} (h0 : 0 < p) (h1 : p ≤ 1 / 2) {ε : ℝ} (hε : 0 < ε) :
    ∃ N : Nat, ∀ {cls : QClass} {dh dw : Int} {key : Key} {T : Nat} (B : EdgeMemory cls dh dw key T), N ≤ lineLength key dh dw →
      1 / 2 - ε < B.rate (fun _ => xzNoise p) ∧ B.rate (fun _ => xzNoise p) ≤ 1 / 2 := by
  obtain ⟨N, hN⟩ := exists_pow_lt_of_lt_one (y := 1 - 2 * p) hε (by linarith)
  refine ⟨N, fun {cls dh dw key T} B h => ?_⟩
  rw [C133_uniform B h0.le h1]
  have h2 : (1 - 2 * p) ^ lineLength key dh dw ≤ (1 - 2 * p) ^ N := pow_le_pow_of_le_one (by linarith) (by linarith) h
  have h3 : 0 ≤ (1 - 2 * p) ^ lineLength key dh dw := pow_nonneg (by linarith) _
  constructor <;> linarith

/-- C133: longer operators are worse, unlike with errors between rounds (C91), of which a larger distance tolerates more. -/
theorem C133_worse {cls' : QClass} {dh' dw' : Int} {key' : Key} {T' : Nat} (B : EdgeMemory cls dh dw key T) (B' : EdgeMemory cls' dh' dw' key' T')
    {p : ℝ} (h0 : 0 < p) (h1 : p < 1 / 2) (h : lineLength key dh dw < lineLength key' dh' dw') :
    B.rate (fun _ => xzNoise p) < B'.rate (fun _ => xzNoise p) := by
  rw [C133_uniform B h0.le h1.le, C133_uniform B' h0.le h1.le]
  have := pow_lt_pow_right_of_lt_one₀ (a := 1 - 2 * p) (by linarith) (by linarith) h
  linarith

theorem faultsOf_cleanRounds {code : Code} {name : Str} (n t : Nat) :
    faultsOf code key name dh dw t (List.replicate n (.stabilize, noErrs)) = [] := by
  induction n generalizing t with
  | zero => rfl
  | succ n ih =>
    show faultsIn code key name dh dw _ .stabilize noErrs ++ faultsOf code key name dh dw _ (List.replicate n (.stabilize, noErrs)) = []
    rw [faultsIn_noErrs, ih, List.append_nil]

/-- C133: there are such memories of every size, on which the errors happen before the first or after the last round. -/
theorem C133_exists (B : Bench cls dh dw key T) (late : Bool) :
    ∃ E : EdgeMemory cls dh dw key T, E.truth = false ∧
      E.before = (if late then List.replicate (T + 1) (.stabilize, noErrs) else []) ∧
      E.after = (if late then [] else List.replicate (T + 1) (.stabilize, noErrs)) := by
  have H := B.after.after.own.2.placed.odd
  have hb : (if late then List.replicate (T + 1) (QOp.stabilize, noErrs) else []) ++ (if late then [] else List.replicate (T + 1) (.stabilize, noErrs)) =
      List.replicate (T + 1) (.stabilize, noErrs) := by
    cases late <;> simp
  have hl := B.long
  have big : 1 < dh * dw := by
    obtain ⟨a1, a2, a3, a4⟩ := H
    have : 3 ≤ dh ∨ 3 ≤ dw := by
      cases key <;> simp only [distance] at hl <;> omega
    rcases this with h | h <;> nlinarith
  refine ⟨{
    q := B.q, ops := B.ops, w := B.w, D := B.D, g := B.g, m := B.m, s := B.s, sz := B.sz,
    before := if late then List.replicate (T + 1) (.stabilize, noErrs) else []
    after := if late then [] else List.replicate (T + 1) (.stabilize, noErrs)
    e0 := noErrs, e1 := noErrs, alone := B.after, quiet := B.quiet, fresh := B.fresh, big := big, canRead := B.canRead, made := B.made,
    height := B.height, width := B.width, graph := B.graph, steps := B.steps.ge, contract := B.contract, start := B.nonzero, clean := B.zeros,
    memory := ?_, rounds := ?_, outside := ?_, others := ?_ }, ?_, rfl, rfl⟩
  · rw [hb]
    intro a ha
    rw [List.eq_of_mem_replicate ha]
    trivial
  · rw [hb, List.map_replicate, List.count_replicate_self]
  · cases late
    · exact Or.inl rfl
    · exact Or.inr rfl
  · rw [hb, faultsOf_cleanRounds]
    refine ⟨fun f hf => absurd hf List.not_mem_nil, ?_⟩
    show ((0 : Nat) : Int) + _ < _
    rw [show oddLines key (distance key dh dw).toNat (takePlace T []) = 0 from by simp [oddLines, takePlace]]
    omega
  · unfold EdgeMemory.truth
    rw [hb, List.map_replicate, List.count_replicate, if_neg (by cases key <;> decide)]
    rfl

/-- On the 3×5 lattice errors of probability 1 % after the last round make the logical Z wrong with probability 4.8 %, more than a lone qubit. -/
example : ∃ B : EdgeMemory .xxzz 3 5 .Z 2, B.after = [] ∧ 0.048 < B.rate fun _ => xzNoise 0.01 := by
  obtain ⟨B, -⟩ := C91_exists (dh := 3) (dw := 5) (T := 2) .xxzz (by decide) .Z (by unfold OddPos; omega) (by decide) (Or.inl (by decide)) true
    (fun h => by cases h)
  obtain ⟨E, -, -, h⟩ := C133_exists B true
  refine ⟨E, h, ?_⟩
  rw [C133_uniform E (by norm_num) (by norm_num)]
  rw [show lineLength .Z 3 5 = 5 from rfl]
  norm_num

/-- On the 101×101 lattice the same errors, before the first round, make it wrong with probability 43 %. -/
example : ∃ B : EdgeMemory .xzzx 101 101 .Z 1, B.before = [] ∧ 0.43 < B.rate fun _ => xzNoise 0.01 := by
  obtain ⟨B, -⟩ := C91_exists (dh := 101) (dw := 101) (T := 1) .xzzx (by decide) .Z (by unfold OddPos; omega) (by decide) (Or.inr (by decide)) true
    (fun h => by cases h)
  obtain ⟨E, -, h, -⟩ := C133_exists B false
  refine ⟨E, h, ?_⟩
  rw [C133_uniform E (by norm_num) (by norm_num)]
  rw [show lineLength .Z 101 101 = 101 from rfl]
  norm_num

/-- One X error of the first data qubit before the only round of a 3×5 lattice: a readout of all data qubits is decoded to 1 instead of 0. -/
example : ∃ (q : TQubit) (w : World) (D : Decoder) (m : Matcher) (s s' : QState), AfterAlone .xxzz q 3 5 [] w ∧ Made D ∧ Contract m ∧
    Run (fun _ => 0) (noisyAll q [(.resetZ, noErrs), (.idData, dataErrs q.lat.name {0} ∅), (.stabilize, noErrs), (.latticeReadoutZ, noErrs)] w) s s' ∧
    correctString D m (joinSp (groups s'.mem (q.ops [.resetZ, .idData, .stabilize, .latticeReadoutZ] w).circ.cregs)) .Z none = .ok (some 1) := by
  obtain ⟨q, w, A, -⟩ := afterAlone_exists (dh := 3) (dw := 5) .xxzz "a".toList (by unfold OddPos; omega) (fun h => by cases h) []
  obtain ⟨m, hm⟩ := contract_exists
  obtain ⟨D, sx, sz, h, h1, h2, h3, h4, h5, -, -⟩ := demo_decoder
  obtain ⟨s', hs'⟩ := noisy_exists (sz := fun _ => 0)
    (l := [(.resetZ, noErrs), (.idData, dataErrs q.lat.name {0} ∅), (.stabilize, noErrs), (.latticeReadoutZ, noErrs)]) A.after
    ⟨ground, fun _ => false⟩ ground_ne_zero
  refine ⟨q, w, D, m, _, s', A, h, hm, hs', ?_⟩
  refine (C133_lattice A (fun o h => absurd h List.not_mem_nil) rfl (by decide) (T := 0) (l := [(.stabilize, noErrs)])
    (fun a ha => by rw [List.mem_singleton.1 ha]; trivial) rfl h h1 h2 h5 (by omega) hm ?_ {0} ∅ ground_ne_zero ground_synZero hs').trans ?_
  · rw [show [(QOp.stabilize, noErrs)] = List.replicate 1 (.stabilize, noErrs) from rfl, faultsOf_cleanRounds]
    exact ⟨fun f hf => absurd hf List.not_mem_nil, by decide⟩
  · have e : parity (turnedSet .xxzz 3 5 .Z {0} ∅) (valueCheck .Z 5) = true := by decide
    rw [e]
    rfl

end Qtc
