import Verif.Proof.Equivalent
import Verif.Props.EndToEnd
/-!
C83, C84: which fault sets are decoded to the wrong value, and which to the right one although they are large.
-/
namespace Qtc
open Spec Function

variable {key : Key} {dh dw : Int}

/-- What is decoded for faults that read like a tolerable set of faults. -/
theorem decoded_like {D : Decoder} (hD : Made D) {s : SGraph} (hs : D.S key = some s) (HO : OddPos D.dh D.dw)
    (hbig : 1 < D.dh * D.dw) {m : Matcher} (hm : Contract m) {T : Int} (hT : T ≤ D.T) {fs gs : List Fault}
    (hg : Tolerable key D.dh D.dw T gs) (hfg : SameReadings key D.dh D.dw fs gs) {ref : Int → Int → Bool} {rounds : List Str}
    (hlen : (rounds.length : Int) = T + 1) (hr : RoundsRead key D.dh D.dw ref fs rounds) (b : Bool) :
    correctString D m (joinSp ([if b ^^ readoutFlipped key fs then '1' else '0'] :: rounds.reverse)) (rtypeOf key) none =
      .ok (some (bit (b ^^ readoutFlipped key fs ^^ readoutFlipped key gs))) := by
  have := C98_strings_single D hD key s hs HO hbig m hm T hT gs hg ref rounds hlen (sameReadings_rounds hfg hr)
    (b ^^ readoutFlipped key fs ^^ readoutFlipped key gs)
  have e : (b ^^ readoutFlipped key fs ^^ readoutFlipped key gs ^^ readoutFlipped key gs) = (b ^^ readoutFlipped key fs) := by
    simp
  rw [e] at this
  exact this

/-- C83: on every lattice, for every number of rounds and between any two of them, there are `(distance + 1) / 2` flips of data qubits,
one more than can be corrected, for which the decoded value is wrong, whatever the stabilizers read without faults and whichever
minimum-weight matching the library finds. -/
theorem C83_one_more_is_wrong (D : Decoder) (hD : Made D) (key : Key) (s : SGraph) (hs : D.S key = some s) (HO : OddPos D.dh D.dw)
    (hbig : 1 < D.dh * D.dw) (m : Matcher) (hm : Contract m) (T : Int) (hT : T ≤ D.T) (t : Int) (ht : 0 ≤ t) (htT : t < T) :
    ∃ fs : List Fault, (∀ f ∈ fs, f.Fits key D.dh D.dw T) ∧ fs.Nodup ∧ (∀ f ∈ fs, ∃ r c, f = .data t r c) ∧
      (fs.length : Int) = (distance key D.dh D.dw + 1) / 2 ∧
      ∀ (ref : Int → Int → Bool) (rounds : List Str), (rounds.length : Int) = T + 1 → RoundsRead key D.dh D.dw ref fs rounds → ∀ b : Bool,
        correctString D m (joinSp ([if b ^^ readoutFlipped key fs then '1' else '0'] :: rounds.reverse)) (rtypeOf key) none =
          .ok (some (bit (!b))) := by
  have H := HO
  unfold OddPos at H
  have hd : 0 < distance key D.dh D.dw ∧ distance key D.dh D.dw % 2 = 1 := by
    cases key
    · exact ⟨H.2.2.1, H.2.2.2⟩
    · exact ⟨H.1, H.2.1⟩
  obtain ⟨n, hn⟩ : ∃ n : Nat, (n : Int) = (distance key D.dh D.dw + 1) / 2 := ⟨_, Int.toNat_of_nonneg (by omega)⟩
  have fits : ∀ k : Nat, (k : Int) < distance key D.dh D.dw →
      Fault.Fits key D.dh D.dw T (lineFault key t k) := by
    intro k hk
    cases key
    · change (k : Int) < D.dw at hk
      show _ ∧ _ ∧ _ ∧ _ ∧ _ ∧ _
      omega
    · change (k : Int) < D.dh at hk
      show _ ∧ _ ∧ _ ∧ _ ∧ _ ∧ _
      omega
  refine ⟨lineFlips key t n, ?_, ?_, ?_, ?_, ?_⟩
  · intro f hf
    obtain ⟨k, hk, rfl⟩ := List.mem_map.1 hf
    rw [List.mem_range] at hk
    exact fits k (by omega)
  · refine List.Nodup.map ?_ List.nodup_range
    intro a b h
    cases key
    · simpa [lineFault] using h
    · simpa [lineFault] using h
  · intro f hf
    obtain ⟨k, hk, rfl⟩ := List.mem_map.1 hf
    cases key
    · exact ⟨_, _, rfl⟩
    · exact ⟨_, _, rfl⟩
  · unfold lineFlips
    rw [List.length_map, List.length_range]
    exact hn
  · intro ref rounds hlen hr b
    have hg : Correctable key D.dh D.dw T (lineRest key t n (n - 1)) := by
      refine ⟨?_, ?_⟩
      · intro f hf
        obtain ⟨k, hk, rfl⟩ := List.mem_map.1 hf
        have := List.mem_range'_1.1 hk
        exact fits k (by omega)
      · unfold lineRest
        rw [List.length_map, List.length_range']
        omega
    rw [decoded_like hD hs HO hbig hm hT (tolerable_of_correctable hg) (line_same (by omega)) hlen hr b, lineFlips_readout (by omega), lineRest_readout (by omega)]
    cases b <;> rfl

/-- C84: flips of all data qubits around plaquettes of the other type, any number of them, between any rounds, on top of a correctable
set of faults: nothing measured changes, and the decoded value is right. -/
theorem C84_plaquettes (D : Decoder) (hD : Made D) (key : Key) (s : SGraph) (hs : D.S key = some s) (HO : OddPos D.dh D.dw)
    (hbig : 1 < D.dh * D.dw) (m : Matcher) (hm : Contract m) (T : Int) (hT : T ≤ D.T) (fs : List Fault)
    (hf : Correctable key D.dh D.dw T fs) (ps : List (Int × Int × Int)) (hp : ∀ p ∈ ps, Site (otherKey key) D.dh D.dw p.2.1 p.2.2)
    (ref : Int → Int → Bool) (rounds : List Str) (hlen : (rounds.length : Int) = T + 1) :
    let gs := fs ++ ps.flatMap fun p => plaquetteFlips D.dh D.dw p.1 p.2.1 p.2.2
    (RoundsRead key D.dh D.dw ref gs rounds ↔ RoundsRead key D.dh D.dw ref fs rounds) ∧ readoutFlipped key gs = readoutFlipped key fs ∧
      (RoundsRead key D.dh D.dw ref gs rounds → ∀ b : Bool,
        correctString D m (joinSp ([if b ^^ readoutFlipped key gs then '1' else '0'] :: rounds.reverse)) (rtypeOf key) none =
          .ok (some (bit b))) := by
  intro gs
  have h1 : SameReadings key D.dh D.dw gs fs := by
    intro N r2 c2 hs
    show xorAll ((fs ++ _).map _) = _
    rw [List.map_append, xorAll_append, List.map_flatMap, xorAll_flatMap]
    rw [xorAll_eq_false (l := ps.map _), Bool.xor_false]
    intro b hb
    obtain ⟨p, hp', rfl⟩ := List.mem_map.1 hb
    exact plaquette_silent HO (hp p hp') hs
  have h2 : readoutFlipped key gs = readoutFlipped key fs := by
    show readoutFlipped key (fs ++ _) = _
    rw [readoutFlipped_append]
    unfold readoutFlipped
    rw [List.map_flatMap, xorAll_flatMap, xorAll_eq_false (l := ps.map _), Bool.xor_false]
    intro b hb
    obtain ⟨p, hp', rfl⟩ := List.mem_map.1 hb
    exact plaquette_readout HO (hp p hp')
  refine ⟨⟨sameReadings_rounds h1, sameReadings_rounds fun t r2 c2 h => (h1 t r2 c2 h).symm⟩, h2, fun hr b => ?_⟩
  rw [decoded_like hD hs HO hbig hm hT (tolerable_of_correctable hf) h1 hlen hr b, h2]
  simp

variable {cls : QClass} {q : TQubit} {ops : List QOp} {w : World} {sz : Str → Nat}

/-- What is decoded after a noisy execution whose faults read like a correctable set. -/
theorem endToEnd_like (A : AfterAlone cls q dh dw ops w) (hq : ∀ o ∈ ops, o.quiet = true) (hn : ops.count .stabilize = 0) (hbig : 1 < dh * dw)
    (hc : CanRead cls dh dw key) {e0 e1 : Errs} {l : List (QOp × Errs)} (hl : ∀ a ∈ l, MemoryOp a.1) {T : Nat}
    (hT : (l.map Prod.fst).count .stabilize = T + 1) {D : Decoder} (hD : Made D) (hdh : D.dh = dh) (hdw : D.dw = dw) {g : SGraph}
    (hg : D.S key = some g) (hDT : (T : Int) ≤ D.T) {m : Matcher} (hm : Contract m) {gs : List Fault} (hgs : Correctable key dh dw T gs)
    (hf : SameReadings key dh dw (takePlace T (faultsOf cls.code key q.lat.name dh dw 0 l)) gs) {s s' : QState} (h0 : s.psi ≠ 0)
    (hs : SynZero q.lat.name dh dw s.psi) (hR : Run sz (noisyAll q ((prepOp key, e0) :: l ++ [(readOp key, e1)]) w) s s') :
    correctString D m (joinSp (groups s'.mem (q.ops (prepOp key :: l.map Prod.fst ++ [readOp key]) w).circ.cregs)) (rtypeOf key) none =
      .ok (some (bit (decide ((l.map Prod.fst).count (flipGate key) % 2 = 1) ^^
        readoutFlipped key (takePlace T (faultsOf cls.code key q.lat.name dh dw 0 l)) ^^ readoutFlipped key gs))) := by
  have H := A.after.own.2.placed.odd
  obtain ⟨rounds, hlen, hrr, hgr⟩ := endToEnd_strings A hq hn hbig hc hl hT h0 hs hR
  subst hdh hdw
  rw [hgr]
  exact decoded_like hD hg H hbig hm hDT (tolerable_of_correctable hgs) hf hlen hrr _

/-- C83: the same for noisy executions. If the errors flip the first `(height + 1) / 2` qubits of the left column between two rounds, the
decoded value of Z is wrong for every outcome of the measurements. -/
theorem C83_executions_z (A : AfterAlone cls q dh dw ops w) (hq : ∀ o ∈ ops, o.quiet = true) (hn : ops.count .stabilize = 0) (hbig : 1 < dh * dw)
    (hc : cls ≠ .xzzx ∨ 1 < dw) {e0 e1 : Errs} {l : List (QOp × Errs)} (hl : ∀ a ∈ l, MemoryOp a.1) {T : Nat}
    (hT : (l.map Prod.fst).count .stabilize = T + 1) {D : Decoder} (hD : Made D) (hdh : D.dh = dh) (hdw : D.dw = dw) {g : SGraph}
    (hg : D.S .Z = some g) (hDT : (T : Int) ≤ D.T) {m : Matcher} (hm : Contract m) {t : Int} (ht : 0 ≤ t) (htT : t < T) {n : Nat}
    (hnd : 2 * (n : Int) = dh + 1)
    (hf : takePlace T (faultsOf cls.code .Z q.lat.name dh dw 0 l) = (List.range n).map fun (i : Nat) => .data t i 0)
    {s s' : QState} (h0 : s.psi ≠ 0) (hs : SynZero q.lat.name dh dw s.psi)
    (hR : Run sz (noisyAll q ((.resetZ, e0) :: l ++ [(.readoutZ none, e1)]) w) s s') :
    correctString D m (joinSp (groups s'.mem (q.ops (.resetZ :: l.map Prod.fst ++ [.readoutZ none]) w).circ.cregs)) .Z none =
      .ok (some (if (l.map Prod.fst).count .x % 2 = 1 then 0 else 1)) := by
  have H := A.after.own.2.placed.odd
  unfold OddPos at H
  have hf' : takePlace T (faultsOf cls.code .Z q.lat.name dh dw 0 l) = lineFlips .Z t n := hf
  have hgs : Correctable .Z dh dw T (lineRest .Z t n (n - 1)) := by
    refine ⟨?_, ?_⟩
    · intro f hf
      obtain ⟨k, hk, rfl⟩ := List.mem_map.1 hf
      have := List.mem_range'_1.1 hk
      show _ ∧ _ ∧ _ ∧ _ ∧ _ ∧ _
      omega
    · unfold lineRest
      rw [List.length_map, List.length_range']
      show _ ≤ (dh - 1) / 2
      omega
  have := endToEnd_like (key := .Z) A hq hn hbig hc hl hT hD hdh hdw hg hDT hm hgs
    (by rw [hf']; exact line_same (by show _ = dh; omega)) h0 hs hR
  rw [hf', lineFlips_readout (by omega), lineRest_readout (by omega)] at this
  refine this.trans ?_
  by_cases h : (l.map Prod.fst).count .x % 2 = 1
  · rw [if_pos h, show (flipGate .Z) = .x from rfl, decide_eq_true h]; rfl
  · rw [if_neg h, show (flipGate .Z) = .x from rfl, decide_eq_false h]; rfl

/-- C84: the same for noisy executions: the faults need not be few, it is enough that a correctable set of faults changes the same
stabilizers in the same rounds and flips the readout if and only if they do. -/
theorem C84_executions_z (A : AfterAlone cls q dh dw ops w) (hq : ∀ o ∈ ops, o.quiet = true) (hn : ops.count .stabilize = 0) (hbig : 1 < dh * dw)
    (hc : cls ≠ .xzzx ∨ 1 < dw) {e0 e1 : Errs} {l : List (QOp × Errs)} (hl : ∀ a ∈ l, MemoryOp a.1) {T : Nat}
    (hT : (l.map Prod.fst).count .stabilize = T + 1) {D : Decoder} (hD : Made D) (hdh : D.dh = dh) (hdw : D.dw = dw) {g : SGraph}
    (hg : D.S .Z = some g) (hDT : (T : Int) ≤ D.T) {m : Matcher} (hm : Contract m) {gs : List Fault} (hgs : Correctable .Z dh dw T gs)
    (hf : SameReadings .Z dh dw (takePlace T (faultsOf cls.code .Z q.lat.name dh dw 0 l)) gs)
    (hfl : readoutFlipped .Z (takePlace T (faultsOf cls.code .Z q.lat.name dh dw 0 l)) = readoutFlipped .Z gs) {s s' : QState} (h0 : s.psi ≠ 0)
    (hs : SynZero q.lat.name dh dw s.psi) (hR : Run sz (noisyAll q ((.resetZ, e0) :: l ++ [(.readoutZ none, e1)]) w) s s') :
    correctString D m (joinSp (groups s'.mem (q.ops (.resetZ :: l.map Prod.fst ++ [.readoutZ none]) w).circ.cregs)) .Z none =
      .ok (some (if (l.map Prod.fst).count .x % 2 = 1 then 1 else 0)) := by
  have := endToEnd_like (key := .Z) A hq hn hbig hc hl hT hD hdh hdw hg hDT hm hgs hf h0 hs hR
  rw [hfl] at this
  refine this.trans ?_
  by_cases h : (l.map Prod.fst).count .x % 2 = 1
  · rw [if_pos h, show (flipGate .Z) = .x from rfl, decide_eq_true h]; simp [bit]
  · rw [if_neg h, show (flipGate .Z) = .x from rfl, decide_eq_false h]; simp [bit]

/-- Two flips in the left column of a 3 × 5 lattice: "1" is a noisy readout of 0, and the decoded value is 1. -/
example : RoundsRead .Z 3 5 (fun _ _ => false) [.data 0 0 0, .data 0 1 0]
      ["00000000000000".toList, "00000000001000".toList, "00000000001000".toList] ∧
    readoutFlipped .Z [.data 0 0 0, .data 0 1 0] = true ∧ (3 - 1) / 2 = 1 ∧ ∃ D m, Made D ∧ Contract m ∧ D.dh = 3 ∧ D.dw = 5 ∧
      correctString D m "1 00000000001000 00000000001000 00000000000000".toList .Z none = .ok (some 1) := by
  have hb : ∀ s ∈ ["00000000000000".toList, "00000000001000".toList, "00000000001000".toList], IsBits s := by
    intro s hs
    simp only [List.mem_cons, List.not_mem_nil, or_false] at hs
    rcases hs with rfl | rfl | rfl <;> unfold IsBits <;> decide
  have hr : RoundsRead .Z 3 5 (fun _ _ => false) [.data 0 0 0, .data 0 1 0]
      ["00000000000000".toList, "00000000001000".toList, "00000000001000".toList] := roundsRead_of hb (by decide)
  refine ⟨hr, rfl, rfl, ?_⟩
  obtain ⟨D, sx, sz, h, h1, h2, h3, h4, h5, h6, h7⟩ := demo_decoder
  obtain ⟨m, hm⟩ := contract_exists
  refine ⟨D, m, h, hm, h1, h2, ?_⟩
  have := C32_strings_single D h .Z sz h5 h7.1 (by rw [h1, h2]; decide) m hm 2 (by rw [h3]) [.data 0 2 0]
    (by rw [h1, h2]
        refine ⟨?_, by decide⟩
        intro f hf
        rw [List.mem_singleton.1 hf]
        unfold Fault.Fits; decide)
    (fun _ _ => false) ["00000000000000".toList, "00000000001000".toList, "00000000001000".toList] (by decide)
    (by rw [h1, h2]; exact sameReadings_rounds (line_same (t := 0) (n := 2) (m := 1) (by decide)) hr) true
  exact this

/-- The flips around the X plaquette in the middle of the top edge of a 3 × 3 lattice, and around one inside. -/
example : plaquetteFlips 3 3 0 (-1) 1 = [.data 0 0 0, .data 0 0 1] ∧
    plaquetteFlips 3 3 1 1 3 = [.data 1 0 1, .data 1 0 2, .data 1 1 1, .data 1 1 2] ∧ XSite 3 3 (-1) 1 ∧
    XSite 3 3 1 3 := by decide

/-- Five flips, four of them around a plaquette, on a 3 × 5 lattice, on which one can be corrected: the decoded value is right. -/
example : ∃ D m, Made D ∧ Contract m ∧ D.dh = 3 ∧ D.dw = 5 ∧
    correctString D m "0 00000000000001 00000000000001 00000000000000".toList .Z none = .ok (some 1) ∧
    RoundsRead .Z 3 5 (fun _ _ => false) ([.data 0 0 1] ++ plaquetteFlips 3 5 1 1 3)
      ["00000000000000".toList, "00000000000001".toList, "00000000000001".toList] := by
  have hb : ∀ s ∈ ["00000000000000".toList, "00000000000001".toList, "00000000000001".toList], IsBits s := by
    intro s hs
    simp only [List.mem_cons, List.not_mem_nil, or_false] at hs
    rcases hs with rfl | rfl | rfl <;> unfold IsBits <;> decide
  have hr : RoundsRead .Z 3 5 (fun _ _ => false) ([.data 0 0 1] ++ plaquetteFlips 3 5 1 1 3)
      ["00000000000000".toList, "00000000000001".toList, "00000000000001".toList] := roundsRead_of hb (by decide)
  obtain ⟨D, sx, sz, h, h1, h2, h3, h4, h5, h6, h7⟩ := demo_decoder
  obtain ⟨m, hm⟩ := contract_exists
  refine ⟨D, m, h, hm, h1, h2, ?_, hr⟩
  have := (C84_plaquettes D h .Z sz h5 h7.1 (by rw [h1, h2]; decide) m hm 2 (by rw [h3]) [.data 0 0 1]
    (by rw [h1, h2]
        refine ⟨?_, by decide⟩
        intro f hf
        rw [List.mem_singleton.1 hf]
        unfold Fault.Fits; decide) [(1, 1, 3)] (by
          intro p hp
          rw [List.mem_singleton.1 hp, h1, h2]
          exact (by decide : XSite 3 5 1 3)) (fun _ _ => false) ["00000000000000".toList, "00000000000001".toList, "00000000000001".toList] (by decide)).2.2
    (by rw [h1, h2]; exact hr) true
  rw [h1, h2] at this
  exact this

end Qtc
