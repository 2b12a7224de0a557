import Verif.Proof.Components
import Verif.Props.EndToEnd
import Verif.Props.CircuitNoise
import Verif.Props.QuantumCnot
import Verif.Spec.UnknownState
/-!
C105, C106: memories that begin in any state.
-/
namespace Qtc
open Spec Function

variable {cls : QClass} {q : TQubit} {dh dw : Int} {ops : List QOp} {w : World} {sz : Str → Nat} {key : Key} {code : Code} {name : Str}

theorem logical_eq : logical code key name dh dw = logOp code key name dh dw := by
  cases key
  · exact logX_eq code name dh dw
  · exact logZ_eq code name dw

/-! ### Strings -/

/-- The rounds in the classical bits. -/
def roundStrs (name : Str) (dh dw : Int) (mem : Mem) (n : Nat) : List Str :=
  (List.range n).map fun (t : Nat) => groupString mem ⟨name ++ "_c".toList ++ strNat t, (xSites dh dw).length + (zSites dh dw).length⟩

theorem roundStrs_length {mem : Mem} {n : Nat} : (roundStrs name dh dw mem n).length = n := by unfold roundStrs; simp

/-- What is printed before any readout: the rounds. -/
theorem groups_rounds (A : AfterAlone cls q dh dw ops w) (hq : ∀ o ∈ ops, o.quiet = true) (mem : Mem) :
    groups mem w.circ.cregs = (roundStrs q.lat.name dh dw mem (ops.count .stabilize)).reverse := by
  have H := A.after.own.2.placed.odd
  obtain ⟨hs, hx, hz⟩ := numSyn_pos H
  rw [(A.cregs hq).1]
  unfold groups roundStrs
  rw [← List.map_reverse, List.map_map, ← List.map_reverse]
  refine List.map_congr_left fun t _ => ?_
  show groupString mem (roundReg q.lat.name dh dw t) = _
  unfold roundReg roundName
  rw [strInt_nat, xSites_length H, zSites_length H]
  congr 2
  omega

theorem syn_pos (H : OddPos dh dw) (hbig : 1 < dh * dw) : 0 < (xSites dh dw).length + (zSites dh dw).length := by
  have := (numSyn_pos H).1
  have := xSites_length H
  have := zSites_length H
  omega

/-- The rounds of an execution read what the faults make them read. -/
def Tells (key : Key) (name : Str) (dh dw : Int) (mem : Mem) (n : Nat) (F : List Fault) : Prop :=
  ∃ ref : Int × Int → Bool, ∀ t : Nat, t < n → ∀ (k : Nat) p, (sitesOf key dh dw)[k]? = some p →
    mem ⟨roundName name t, offsetOf key dh dw + k⟩ = (ref p ^^ reading F t p)

theorem Tells.read (H : OddPos dh dw) (hbig : 1 < dh * dw) {mem : Mem} {T : Nat} {F : List Fault} (h : Tells key name dh dw mem (T + 1) F) :
    ∃ ref : Int → Int → Bool, RoundsRead key dh dw ref (takePlace T F) (roundStrs name dh dw mem (T + 1)) := by
  obtain ⟨ref, h⟩ := h
  refine ⟨fun r c => ref (r, c), rounds_read (syn_pos H hbig) fun t ht k p hk => ?_⟩
  rw [h t ht k p hk]
  show (ref p ^^ _) = (ref (p.1, p.2) ^^ reading (takePlace T F) t p)
  rw [reading_takePlace (by omega)]

/-- The decoder, given the rounds and a logical bit. -/
theorem Tells.decoded (H : OddPos dh dw) (hbig : 1 < dh * dw) {mem : Mem} {T : Nat} {F : List Fault} (h : Tells key name dh dw mem (T + 1) F)
    {D : Decoder} (hD : Made D) (hdh : D.dh = dh) (hdw : D.dw = dw) {g : SGraph} (hg : D.S key = some g) (hDT : (T : Int) ≤ D.T)
    {m : Matcher} (hm : Contract m) (hf : ∀ f ∈ takePlace T F, f.Fits key dh dw T) (hd : Decided key dh dw D.T (takePlace T F) false) (b : Bool) :
    correctString D m (joinSp ([if b ^^ readoutFlipped key F then '1' else '0'] :: (roundStrs name dh dw mem (T + 1)).reverse)) (rtypeOf key) none =
      .ok (some (bit b)) := by
  obtain ⟨ref, hr⟩ := h.read H hbig
  subst hdh hdw
  have := decided_single D hD key g hg H hbig m hm T hDT _ hf hd ref _ (by rw [roundStrs_length]; push_cast; rfl) hr b
  rwa [Bool.xor_false, readoutFlipped_takePlace] at this

/-- The readout of a logical operator: what is printed. -/
theorem readout_string (A : AfterAlone cls q dh dw ops w) (hq : ∀ o ∈ ops, o.quiet = true) (hbig : 1 < dh * dw)
    (hc : CanRead cls dh dw key) {e1 : Errs} {s s' : QState} (h0 : s.psi ≠ 0) (hR : Run sz (withErrors e1 (added q (readOp key) w)) s s') :
    ∃ b : Bool, (∀ v, HasValue (logOp cls.code key q.lat.name dh dw) v s.psi → b = v) ∧
      (∀ key' n F, Tells key' q.lat.name dh dw s.mem n F → Tells key' q.lat.name dh dw s'.mem n F) ∧
      groups s'.mem (q.op (readOp key) w).2.circ.cregs = [if b then '1' else '0'] :: (roundStrs q.lat.name dh dw s'.mem (ops.count .stabilize)).reverse := by
  have hr := run_readKey A.after hc h0 hR
  have hname : nextReadout q w = q.lat.name ++ "_readout_0".toList := by
    obtain ⟨-, hr, -⟩ := A.cregs hq
    unfold nextReadout
    rw [hr]
    show readoutName q.lat.name (-1 + 1) = _
    unfold readoutName
    rw [List.append_assoc]
    rfl
  obtain ⟨hgr, -⟩ := C51_logical A hq hbig (readOp key) (by cases key; exact Or.inl rfl; exact Or.inr rfl) s'.mem .Z
  obtain ⟨c, m, e, hne, hmem⟩ := hr
  refine ⟨m, fun v hv => ?_, ?_, ?_⟩
  · have h1 := reads_value logOp_onData ⟨c, m, e, hne, hmem⟩ hv
    rw [hmem] at h1
    have := congrFun h1 ⟨nextReadout q w, 0⟩
    rwa [writeReg_mem Nat.one_pos, writeReg_mem Nat.one_pos] at this
  · rintro key' n F ⟨ref, h⟩
    refine ⟨ref, fun t ht k p hk => ?_⟩
    rw [← h t ht k p hk, hmem, writeReg_other (by obtain ⟨a, ha, -⟩ := A.after.own.2.readout; unfold nextReadout; rw [ha]; exact round_ne_readout)]
  · rw [hgr, hmem, ← hname, writeReg_mem Nat.one_pos, List.map_reverse]
    rfl

/-- The parsed hits are those of the faults. -/
theorem hits_told (H : OddPos dh dw) (hbig : 1 < dh * dw) {mem : Mem} {T : Nat} {F : Key → List Fault}
    (h : ∀ key, Tells key name dh dw mem (T + 1) (F key)) (b : Bool) (rt : RType) :
    ∃ hits : Hits, parseReadout dh dw (joinSp ([if b then '1' else '0'] :: (roundStrs name dh dw mem (T + 1)).reverse)) rt = .ok (bit b, hits) ∧
      (∀ n, n ∈ hits.X ↔ IsHit .X dh dw T (takePlace T (F .X)) n) ∧ ∀ n, n ∈ hits.Z ↔ IsHit .Z dh dw T (takePlace T (F .Z)) n := by
  obtain ⟨rx, hx⟩ := (h .X).read H hbig
  obtain ⟨rz, hz⟩ := (h .Z).read H hbig
  have hp := C15_parse_is_changes dh dw H hbig rt (if b then '1' else '0') (by split <;> decide) _ hx.1
  have hv : digitVal (if b then '1' else '0') = bit b := by cases b <;> decide
  rw [hv] at hp
  refine ⟨_, hp, ?_, ?_⟩
  · refine changes_isHit (key := .X) (ref := rx) (by rw [List.length_map, roundStrs_length]; push_cast; rfl) fun t k a p ha hp => ?_
    rw [List.getElem?_map, Option.map_eq_some_iff] at ha
    obtain ⟨s, hs, rfl⟩ := ha
    exact hx.2 t k s p hs hp
  · refine changes_isHit (key := .Z) (ref := rz) (by rw [List.length_map, roundStrs_length]; push_cast; rfl) fun t k a p ha hp => ?_
    rw [List.getElem?_map, Option.map_eq_some_iff] at ha
    obtain ⟨s, hs, rfl⟩ := ha
    exact hz.2 t k s p hs hp

/-! ### Circuits -/

theorem noisy_proper {l : List (QOp × Errs)} (A : After cls q dh dw ops w) : ∀ i ∈ noisyAll q l w, i.Proper := by
  induction l generalizing ops w with
  | nil => exact fun i hi => absurd hi List.not_mem_nil
  | cons a l ih =>
    intro i hi
    rcases List.mem_append.1 (show i ∈ withErrors a.2 (added q a.1 w) ++ noisyAll q l (q.op a.1 w).2 from hi) with h | h
    · obtain ⟨j, hj, h⟩ := List.mem_flatMap.1 h
      rcases List.mem_cons.1 h with rfl | h
      · exact A.proper _ _ hj
      · unfold errorsAfter at h
        split at h
        · rcases List.mem_append.1 h with h | h <;> split at h
          · rw [List.mem_singleton.1 h]; trivial
          · cases h
          · rw [List.mem_singleton.1 h]; trivial
          · cases h
        · cases h
    · exact ih (A.next _) i h

theorem slippedAll_proper {l : List (QOp × List Slip)} (A : After cls q dh dw ops w) : ∀ i ∈ slippedAll q l w, i.Proper := by
  induction l generalizing ops w with
  | nil => exact fun i hi => absurd hi List.not_mem_nil
  | cons a l ih =>
    intro i hi
    rcases List.mem_append.1 (show i ∈ slipped a.2 0 (added q a.1 w) ++ slippedAll q l (q.op a.1 w).2 from hi) with h | h
    · exact slipped_proper (fun j hj => A.proper _ _ hj) 0 i h
    · exact ih (A.next _) i h

/-- A memory whose identity gates make errors. -/
theorem noisy_carries (A : After cls q dh dw ops w) (hn : ops.count .stabilize = 0) {l : List (QOp × Errs)} (hl : ∀ a ∈ l, MemoryOp a.1) (key : Key) :
    Carries sz cls.code key q.lat.name dh dw (noisyAll q l w) (decide ((l.map Prod.fst).count (flipGate key) % 2 = 1))
      ((l.map Prod.fst).count .stabilize) (faultsOf cls.code key q.lat.name dh dw 0 l) := by
  intro v fs s s' h hR
  have := h.all A hl hn hR
  rwa [Nat.zero_add] at this

/-- A memory with errors anywhere, after at least one round and before at least two rounds without errors. -/
theorem slipped_carries (A : AfterAlone cls q dh dw ops w) (hn : ops.count .stabilize = 0) {l0 l1 : List QOp} (hl0 : ∀ o ∈ l0, MemoryOp o)
    (h1 : 1 ≤ l0.count .stabilize) {l : List (QOp × List Slip)} (hl : ∀ a ∈ l, MemoryOp a.1) (hl1 : ∀ o ∈ l1, MemoryOp o) (h2 : 2 ≤ l1.count .stabilize)
    {T : Nat} (hT : (l0 ++ l.map Prod.fst ++ l1).count .stabilize = T + 1) (key : Key) :
    ∃ F, Carries sz cls.code key q.lat.name dh dw (slippedAll q (l0.map (fun o => (o, [])) ++ l ++ l1.map (fun o => (o, []))) w)
      (decide ((l0 ++ l.map Prod.fst ++ l1).count (flipGate key) % 2 = 1)) (T + 1) F ∧
      costOf key dh dw (takePlace T F) ≤ slipCost cls.code key * slipCount l ∧ ∀ f ∈ takePlace T F, f.Fits key dh dw T := by
  have em : (l0.map fun o => (o, ([] : List Slip))).map Prod.fst = l0 := by rw [List.map_map]; exact List.map_id _
  have em0 : (l0.map fun o => (o, noErrs)).map Prod.fst = l0 := by rw [List.map_map]; exact List.map_id _
  have em1 : (l1.map fun o => (o, noErrs)).map Prod.fst = l1 := by rw [List.map_map]; exact List.map_id _
  have hn0 : (ops ++ l0).count .stabilize = l0.count .stabilize := by rw [List.count_append, hn, Nat.zero_add]
  have hn1 : (ops ++ (l0 ++ l.map Prod.fst)).count .stabilize = l0.count .stabilize + (l.map Prod.fst).count .stabilize := by
    rw [List.count_append, hn, Nat.zero_add, List.count_append]
  obtain ⟨gs, g1, g2, g3⟩ := slipsAll_carried (key := key) sz (A.all_next l0).after hl hn0 h1
  refine ⟨gs, ?_, (costOf_takePlace _ gs).trans g2, fun f hf => ?_⟩
  · intro v fs s s' h hR
    rw [slippedAll_append, slippedAll_append, Run.append, em, slippedAll_none, slippedAll_none] at hR
    obtain ⟨u, r2, r3⟩ := hR
    obtain ⟨t, r1, r2⟩ := Run.append.1 r2
    rw [List.map_append, em] at r3
    have k1 := h.all A.after (l := l0.map fun o => (o, noErrs)) (by
      intro a ha
      obtain ⟨o, ho, rfl⟩ := List.mem_map.1 ha
      exact hl0 o ho) hn r1
    rw [em0, faultsOf_none, List.append_nil, Nat.zero_add] at k1
    have k2 := g1 _ _ _ _ k1 r2
    have k3 := k2.all (A.all_next (l0 ++ l.map Prod.fst)).after (l := l1.map fun o => (o, noErrs)) (by
      intro a ha
      obtain ⟨o, ho, rfl⟩ := List.mem_map.1 ha
      exact hl1 o ho) hn1 r3
    rw [em1, faultsOf_none, List.append_nil, Bool.xor_assoc, Bool.xor_assoc, parity_sum, parity_sum] at k3
    rw [List.count_append, List.count_append] at hT ⊢
    rw [hT] at k3
    rwa [Nat.add_assoc]
  · obtain ⟨h3, -⟩ := List.mem_filter.1 hf
    have := (g3 f h3).1
    rw [List.count_append, List.count_append] at hT
    cases f with
    | data t r c => obtain ⟨a1, a2, a3⟩ := this; exact ⟨a1, by omega, a3⟩
    | meas t r c => obtain ⟨a1, a2, a3⟩ := this; exact ⟨a1, by omega, a3⟩

theorem quiet_next (hq : ∀ o ∈ ops, o.quiet = true) {l : List QOp} (hl : ∀ o ∈ l, MemoryOp o) : ∀ o ∈ ops ++ l, o.quiet = true := by
  intro o ho
  rcases List.mem_append.1 ho with h | h
  · exact hq o h
  · exact memoryOp_quiet (hl o h)

/-! ### C105 -/

/-- C105: whatever the state of the data qubits before the first round (the syndrome qubits are 0), the syndrome hits that `parse_readout`
finds in what is printed after rounds of stabilization, identity gates with errors, logical gates and a readout, are for both types exactly
those of the faults the errors amount to. -/
theorem C105_hits (A : AfterAlone cls q dh dw ops w) (hq : ∀ o ∈ ops, o.quiet = true) (hn : ops.count .stabilize = 0) (hbig : 1 < dh * dw)
    (hc : CanRead cls dh dw key) {e1 : Errs} {l : List (QOp × Errs)} (hl : ∀ a ∈ l, MemoryOp a.1) {T : Nat}
    (hT : (l.map Prod.fst).count .stabilize = T + 1) {s s' : QState} (h0 : s.psi ≠ 0) (hs : SynZero q.lat.name dh dw s.psi)
    (hR : Run sz (noisyAll q (l ++ [(readOp key, e1)]) w) s s') (rt : RType) :
    ∃ (b : Bool) (hits : Hits),
      parseReadout dh dw (joinSp (groups s'.mem (q.ops (l.map Prod.fst ++ [readOp key]) w).circ.cregs)) rt = .ok (bit b, hits) ∧
      (∀ n, n ∈ hits.X ↔ IsHit .X dh dw T (takePlace T (faultsOf cls.code .X q.lat.name dh dw 0 l)) n) ∧
      ∀ n, n ∈ hits.Z ↔ IsHit .Z dh dw T (takePlace T (faultsOf cls.code .Z q.lat.name dh dw 0 l)) n := by
  have H := A.after.own.2.placed.odd
  rw [noisyAll_append, Run.append] at hR
  obtain ⟨t, r1, r2⟩ := hR
  have r2' : Run sz (withErrors e1 (added q (readOp key) (q.ops (l.map Prod.fst) w)) ++ []) t s' := r2
  rw [List.append_nil] at r2'
  have ht : ∀ key, Tells key q.lat.name dh dw t.mem (T + 1) (faultsOf cls.code key q.lat.name dh dw 0 l) := by
    intro key
    have hC := noisy_carries (sz := sz) A.after hn hl key
    rw [hT] at hC
    exact hC.reads H (noisy_proper A.after) h0 hs r1
  have ht0 : t.psi ≠ 0 := by
    obtain ⟨K, -, -, h⟩ := (run_iff (noisy_proper A.after) h0).1 r1
    exact h
  obtain ⟨b, -, h3, h4⟩ := readout_string (A.all_next (l.map Prod.fst)) (quiet_next hq fun o ho => by
    obtain ⟨a, ha, rfl⟩ := List.mem_map.1 ho
    exact hl a ha) hbig hc ht0 r2'
  rw [List.count_append, hn, hT, Nat.zero_add] at h4
  obtain ⟨hits, g1, g2, g3⟩ := hits_told H hbig (F := fun key => faultsOf cls.code key q.lat.name dh dw 0 l) (fun key => h3 key _ _ (ht key)) b rt
  refine ⟨b, hits, ?_, g2, g3⟩
  rw [ops_snoc, h4]
  exact g1

/-! ### C106 -/

/-- A circuit that carries the observables of both types: what it does to unknown states, and what the decoder finds out. -/
theorem kept_unknown {l : List Instr} (hl : ∀ i ∈ l, i.Proper) (H : OddPos dh dw) (hbig : 1 < dh * dw) {g : Key → Bool} {T : Nat} {F : Key → List Fault}
    (hC : ∀ key, Carries sz code key name dh dw l (g key) (T + 1) (F key))
    {D : Decoder} (hD : Made D) (hdh : D.dh = dh) (hdw : D.dw = dw) (hg : ∀ key, ∃ g, D.S key = some g) (hDT : (T : Int) ≤ D.T)
    {m : Matcher} (hm : Contract m) (hf : ∀ key, ∀ f ∈ takePlace T (F key), f.Fits key dh dw T)
    (hd : ∀ key, Decided key dh dw D.T (takePlace T (F key)) false) {s s' : QState} (h0 : s.psi ≠ 0) (hs : SynZero name dh dw s.psi)
    (hR : Run sz l s s') : ∃ (K : Op) (flip : Key → Bool), s'.psi = K s.psi ∧ Transforms sz l s.mem s'.mem K ∧
      ∀ key, correctString D m (joinSp (['0'] :: (roundStrs name dh dw s'.mem (T + 1)).reverse)) (rtypeOf key) none = .ok (some (bit (flip key))) ∧
        ∀ φ, SynZero name dh dw φ → logical code key name dh dw (K φ) = sg (flip key ^^ g key) • K (logical code key name dh dw φ) := by
  obtain ⟨K, hK, e, -⟩ := (run_iff hl h0).1 hR
  refine ⟨K, fun key => readoutFlipped key (F key), e, fun φ hφ => ?_, fun key => ⟨?_, fun φ hφ => ?_⟩⟩
  · exact (run_iff hl fun h => hφ (by have : φ = 0 := h; rw [this, map_zero])).2 ⟨K, hK, rfl, hφ⟩
  · have ht : Tells key name dh dw s'.mem (T + 1) (F key) := (hC key).reads H hl h0 hs hR
    obtain ⟨g, hg⟩ := hg key
    have := ht.decoded H hbig hD hdh hdw hg hDT hm (hf key) (hd key) (readoutFlipped key (F key))
    rwa [Bool.xor_self] at this
  · rw [logical_eq, (hC key).passes H hl hK hφ, Bool.xor_comm]

/-- C106: an unknown state is stored. The circuit consists of rounds of stabilization, identity gates with errors and logical gates, the
faults of the errors are few for both types; the state before is any state of the data qubits. The outcomes of the measurements decide on
a linear operator `K` that turns the state before into the state afterwards; and with the flips the decoder computes from the printed rounds
(given a logical bit 0), `K` takes logical X and logical Z to themselves, up to these flips and those of the logical gates. So the logical
qubit is as before but for flips that are known. -/
theorem C106_memory (A : AfterAlone cls q dh dw ops w) (hq : ∀ o ∈ ops, o.quiet = true) (hn : ops.count .stabilize = 0) (hbig : 1 < dh * dw)
    {l : List (QOp × Errs)} (hl : ∀ a ∈ l, MemoryOp a.1) {T : Nat} (hT : (l.map Prod.fst).count .stabilize = T + 1)
    {D : Decoder} (hD : Made D) (hdh : D.dh = dh) (hdw : D.dw = dw) (hg : ∀ key, ∃ g, D.S key = some g) (hDT : (T : Int) ≤ D.T)
    {m : Matcher} (hm : Contract m) (hf : ∀ key, Tolerable key dh dw T (takePlace T (faultsOf cls.code key q.lat.name dh dw 0 l)))
    {s s' : QState} (h0 : s.psi ≠ 0) (hs : SynZero q.lat.name dh dw s.psi) (hR : Run sz (noisyAll q l w) s s') :
    ∃ (K : Op) (flip : Key → Bool), s'.psi = K s.psi ∧ Transforms sz (noisyAll q l w) s.mem s'.mem K ∧ ∀ key,
      correctString D m (joinSp (['0'] :: groups s'.mem (q.ops (l.map Prod.fst) w).circ.cregs)) (rtypeOf key) none = .ok (some (bit (flip key))) ∧
      ∀ φ, SynZero q.lat.name dh dw φ → logical cls.code key q.lat.name dh dw (K φ) =
        sg (flip key ^^ decide ((l.map Prod.fst).count (flipGate key) % 2 = 1)) • K (logical cls.code key q.lat.name dh dw φ) := by
  have H := A.after.own.2.placed.odd
  have hC := noisy_carries (sz := sz) A.after hn hl
  rw [hT] at hC
  rw [groups_rounds (A.all_next (l.map Prod.fst)) (quiet_next hq fun o ho => by
    obtain ⟨a, ha, rfl⟩ := List.mem_map.1 ho
    exact hl a ha), List.count_append, hn, hT, Nat.zero_add]
  refine kept_unknown (noisy_proper A.after) H hbig hC hD hdh hdw hg hDT hm (fun key => (hf key).1) (fun key => ?_) h0 hs hR
  have hf := hf key
  subst hdh hdw
  exact tolerable_decided H hDT hf

/-- C106: the same with errors anywhere in the circuits of the operations `l`, between rounds without errors: if there are fewer than a third
(for the XZZX code a quarter) of the smaller distance. -/
theorem C106_anywhere (A : AfterAlone cls q dh dw ops w) (hq : ∀ o ∈ ops, o.quiet = true) (hn : ops.count .stabilize = 0) (hbig : 1 < dh * dw)
    {l0 l1 : List QOp} (hl0 : ∀ o ∈ l0, MemoryOp o) (h1 : 1 ≤ l0.count .stabilize) {l : List (QOp × List Slip)} (hl : ∀ a ∈ l, MemoryOp a.1)
    (hl1 : ∀ o ∈ l1, MemoryOp o) (h2 : 2 ≤ l1.count .stabilize) {T : Nat} (hT : (l0 ++ l.map Prod.fst ++ l1).count .stabilize = T + 1)
    {D : Decoder} (hD : Made D) (hdh : D.dh = dh) (hdw : D.dw = dw) (hg : ∀ key, ∃ g, D.S key = some g) (hDT : (T : Int) ≤ D.T)
    {m : Matcher} (hm : Contract m) (hf : ∀ key, (slipCost cls.code key : Int) * (slipCount l : Int) < distance key dh dw)
    {s s' : QState} (h0 : s.psi ≠ 0) (hs : SynZero q.lat.name dh dw s.psi)
    (hR : Run sz (slippedAll q (l0.map (fun o => (o, [])) ++ l ++ l1.map (fun o => (o, []))) w) s s') :
    ∃ (K : Op) (flip : Key → Bool), s'.psi = K s.psi ∧
      Transforms sz (slippedAll q (l0.map (fun o => (o, [])) ++ l ++ l1.map (fun o => (o, []))) w) s.mem s'.mem K ∧ ∀ key,
      correctString D m (joinSp (['0'] :: groups s'.mem (q.ops (l0 ++ l.map Prod.fst ++ l1) w).circ.cregs)) (rtypeOf key) none =
        .ok (some (bit (flip key))) ∧
      ∀ φ, SynZero q.lat.name dh dw φ → logical cls.code key q.lat.name dh dw (K φ) =
        sg (flip key ^^ decide ((l0 ++ l.map Prod.fst ++ l1).count (flipGate key) % 2 = 1)) • K (logical cls.code key q.lat.name dh dw φ) := by
  have H := A.after.own.2.placed.odd
  choose F hC hcost hfit using slipped_carries (sz := sz) A hn hl0 h1 hl hl1 h2 hT
  rw [groups_rounds (A.all_next (l0 ++ l.map Prod.fst ++ l1)) (quiet_next hq fun o ho => by
    rcases List.mem_append.1 ho with h | h
    · rcases List.mem_append.1 h with h | h
      · exact hl0 o h
      · obtain ⟨a, ha, rfl⟩ := List.mem_map.1 h
        exact hl a ha
    · exact hl1 o h), List.count_append, hn, hT, Nat.zero_add]
  refine kept_unknown (slippedAll_proper A.after) H hbig hC hD hdh hdw hg hDT hm hfit (fun key => ?_) h0 hs hR
  have hf := tolerable_cost (hcost key) (hf key) (hfit key)
  subst hdh hdw
  exact tolerable_decided H hDT hf

/-- Undoing the flips the decoder computes leaves those of the logical gates. -/
theorem C106_undone (H : OddPos dh dw) {K : Op} {flip g : Key → Bool}
    (hK : ∀ key φ, SynZero name dh dw φ → logical code key name dh dw (K φ) = sg (flip key ^^ g key) • K (logical code key name dh dw φ))
    (key : Key) {φ : Psi} (hφ : SynZero name dh dw φ) :
    logical code key name dh dw (undo code name dh dw flip (K φ)) = sg (g key) • undo code name dh dw flip (K (logical code key name dh dw φ)) := by
  have hp : Passes (flip key) (logical code key name dh dw) (undo code name dh dw flip) := by
    unfold undo
    cases key
    · have h1 : Passes false (logX code name dh dw) (if flip .Z then logX code name dh dw else 1) := by
        split
        · exact passes_false.2 (Commute.refl _)
        · exact passes_false.2 (Commute.one_right _)
      have h2 : Passes (flip .X) (logX code name dh dw) (if flip .X then logZ code name dw else 1) := by
        cases flip .X
        · exact passes_false.2 (Commute.one_right _)
        · exact logX_logZ H
      have := h1.mul_right h2
      rwa [Bool.false_xor] at this
    · have h1 : Passes (flip .Z) (logZ code name dw) (if flip .Z then logX code name dh dw else 1) := by
        cases flip .Z
        · exact passes_false.2 (Commute.one_right _)
        · exact (logX_logZ H).symm
      have h2 : Passes false (logZ code name dw) (if flip .X then logZ code name dw else 1) := by
        split
        · exact passes_false.2 (Commute.refl _)
        · exact passes_false.2 (Commute.one_right _)
      have := h1.mul_right h2
      rwa [Bool.xor_false] at this
  have e := congrArg (fun B : Op => B (K φ)) hp
  simp only [LinearMap.smul_apply, Module.End.mul_apply] at e
  rw [e, hK key φ hφ, map_smul, smul_smul, ← sg_xor, ← Bool.xor_assoc, Bool.xor_self, Bool.false_xor]

/-- C106: a superposition `α |0⟩ + β |1⟩` of the logical qubit, of any states `φ` with logical value 0 and logical X of it, is stored with
errors. If the flips the decoder computes are undone, it is again a superposition `α |0⟩ + β |1⟩`, with the same amplitudes. -/
theorem C106_superposition (A : AfterAlone cls q dh dw ops w) (hq : ∀ o ∈ ops, o.quiet = true) (hn : ops.count .stabilize = 0) (hbig : 1 < dh * dw)
    {l : List (QOp × Errs)} (hl : ∀ a ∈ l, MemoryOp a.1) {T : Nat} (hT : (l.map Prod.fst).count .stabilize = T + 1)
    (heven : ∀ key, (l.map Prod.fst).count (flipGate key) % 2 = 0)
    {D : Decoder} (hD : Made D) (hdh : D.dh = dh) (hdw : D.dw = dw) (hg : ∀ key, ∃ g, D.S key = some g) (hDT : (T : Int) ≤ D.T)
    {m : Matcher} (hm : Contract m) (hf : ∀ key, Tolerable key dh dw T (takePlace T (faultsOf cls.code key q.lat.name dh dw 0 l)))
    {φ : Psi} (hφ : SynZero q.lat.name dh dw φ) (hz : HasValue (logZ cls.code q.lat.name dw) false φ) {α β : ℂ} {s s' : QState} (h0 : s.psi ≠ 0)
    (hs : s.psi = α • φ + β • logX cls.code q.lat.name dh dw φ) (hR : Run sz (noisyAll q l w) s s') :
    ∃ flip : Key → Bool, (∀ key, correctString D m (joinSp (['0'] :: groups s'.mem (q.ops (l.map Prod.fst) w).circ.cregs)) (rtypeOf key) none =
      .ok (some (bit (flip key)))) ∧
      ∃ ζ, HasValue (logZ cls.code q.lat.name dw) false ζ ∧
        undo cls.code q.lat.name dh dw flip s'.psi = α • ζ + β • logX cls.code q.lat.name dh dw ζ := by
  have H := A.after.own.2.placed.odd
  have hsyn : SynZero q.lat.name dh dw s.psi := by
    rw [hs]
    have hx : SynZero q.lat.name dh dw (logX cls.code q.lat.name dh dw φ) := logX_onData.synZero hφ
    refine ⟨fun k hk => ?_, fun k hk => ?_⟩
    · have h1 := hφ.1 k hk
      have h2 := hx.1 k hk
      unfold IsZero at *
      rw [map_add, map_smul, map_smul, h1, h2, smul_zero, smul_zero, add_zero]
    · have h1 := hφ.2 k hk
      have h2 := hx.2 k hk
      unfold IsZero at *
      rw [map_add, map_smul, map_smul, h1, h2, smul_zero, smul_zero, add_zero]
  obtain ⟨K, flip, e, -, h⟩ := C106_memory A hq hn hbig hl hT hD hdh hdw hg hDT hm hf h0 hsyn hR
  have hu := C106_undone H (fun key φ hφ => (h key).2 φ hφ)
  have hodd : ∀ key, decide ((l.map Prod.fst).count (flipGate key) % 2 = 1) = false := fun key => decide_eq_false (by rw [heven key]; decide)
  refine ⟨flip, fun key => (h key).1, undo cls.code q.lat.name dh dw flip (K φ), ?_, ?_⟩
  · have := hu .Z hφ
    rw [hodd, sg_false, one_smul] at this
    show logZ cls.code q.lat.name dw _ = _
    have hz' : logZ cls.code q.lat.name dw φ = sg false • φ := hz
    rw [show logZ cls.code q.lat.name dw _ = _ from this, show logical cls.code .Z q.lat.name dh dw φ = _ from hz', sg_false, one_smul, one_smul]
  · have := hu .X hφ
    rw [hodd, sg_false, one_smul] at this
    rw [e, hs, map_add, map_add, map_smul, map_smul, map_smul, map_smul]
    congr 2
    exact this.symm

/-- C106: whatever the state is otherwise, if the logical operator of a type has a certain value, it is decoded after a readout, whatever the
outcomes of the measurements: the plaquettes need not have certain values before the first round. -/
theorem C106_value (A : AfterAlone cls q dh dw ops w) (hq : ∀ o ∈ ops, o.quiet = true) (hn : ops.count .stabilize = 0) (hbig : 1 < dh * dw)
    (hc : CanRead cls dh dw key) {e1 : Errs} {l : List (QOp × Errs)} (hl : ∀ a ∈ l, MemoryOp a.1) {T : Nat}
    (hT : (l.map Prod.fst).count .stabilize = T + 1) {D : Decoder} (hD : Made D) (hdh : D.dh = dh) (hdw : D.dw = dw) {g : SGraph}
    (hg : D.S key = some g) (hDT : (T : Int) ≤ D.T) {m : Matcher} (hm : Contract m)
    (hf : Tolerable key dh dw T (takePlace T (faultsOf cls.code key q.lat.name dh dw 0 l))) {s s' : QState} (h0 : s.psi ≠ 0)
    (hs : SynZero q.lat.name dh dw s.psi) {u : Bool} (hu : HasValue (logical cls.code key q.lat.name dh dw) u s.psi)
    (hR : Run sz (noisyAll q (l ++ [(readOp key, e1)]) w) s s') :
    correctString D m (joinSp (groups s'.mem (q.ops (l.map Prod.fst ++ [readOp key]) w).circ.cregs)) (rtypeOf key) none =
      .ok (some (bit (u ^^ decide ((l.map Prod.fst).count (flipGate key) % 2 = 1)))) := by
  have H := A.after.own.2.placed.odd
  rw [noisyAll_append, Run.append] at hR
  obtain ⟨t, r1, r2⟩ := hR
  have r2' : Run sz (withErrors e1 (added q (readOp key) (q.ops (l.map Prod.fst) w)) ++ []) t s' := r2
  rw [List.append_nil] at r2'
  have hC := noisy_carries (sz := sz) A.after hn hl key
  rw [hT] at hC
  have ht : Tells key q.lat.name dh dw t.mem (T + 1) (faultsOf cls.code key q.lat.name dh dw 0 l) := hC.reads H (noisy_proper A.after) h0 hs r1
  obtain ⟨K, hK, e, ht0⟩ := (run_iff (noisy_proper A.after) h0).1 r1
  have hv : HasValue (logOp cls.code key q.lat.name dh dw) ((u ^^ decide ((l.map Prod.fst).count (flipGate key) % 2 = 1)) ^^
      readoutFlipped key (faultsOf cls.code key q.lat.name dh dw 0 l)) t.psi := by
    rw [logical_eq] at hu
    have hu' : logOp cls.code key q.lat.name dh dw s.psi = sg u • s.psi := hu
    show logOp cls.code key q.lat.name dh dw t.psi = _
    rw [e, hC.passes H (noisy_proper A.after) hK hs, hu', map_smul, smul_smul, ← sg_xor]
    congr 2
    rw [Bool.xor_comm, Bool.xor_assoc]
  obtain ⟨b, h2, h3, h4⟩ := readout_string (A.all_next (l.map Prod.fst)) (quiet_next hq fun o ho => by
    obtain ⟨a, ha, rfl⟩ := List.mem_map.1 ho
    exact hl a ha) hbig hc ht0 r2'
  rw [List.count_append, hn, hT, Nat.zero_add] at h4
  rw [ops_snoc, h4, h2 _ hv]
  have hd : Decided key dh dw D.T (takePlace T (faultsOf cls.code key q.lat.name dh dw 0 l)) false := by
    subst hdh hdw
    exact tolerable_decided H hDT hf
  exact (h3 key _ _ ht).decoded H hbig hD hdh hdw hg hDT hm hf.1 hd _

/-! ### Examples -/

/-- The operations of the examples: errors after the first of three rounds. -/
def demoOps : List (QOp × Errs) := [(.stabilize, noErrs), (.idData, demoErrs), (.stabilize, noErrs), (.stabilize, noErrs)]

theorem demoOps_memory : ∀ a ∈ demoOps, MemoryOp a.1 := by
  intro a ha
  simp only [demoOps, List.mem_cons, List.not_mem_nil, or_false] at ha
  rcases ha with rfl | rfl | rfl | rfl <;> trivial

theorem demoOps_Z : takePlace 2 (faultsOf .xxzz .Z "a".toList 3 5 0 demoOps) = [.data 0 0 1] := by decide +kernel

theorem demoOps_X : takePlace 2 (faultsOf .xxzz .X "a".toList 3 5 0 demoOps) = [.data 0 1 2] := by decide +kernel

theorem demoOps_tolerable (key : Key) : Tolerable key 3 5 2 (takePlace 2 (faultsOf .xxzz key "a".toList 3 5 0 demoOps)) := by
  cases key
  · rw [demoOps_X]
    refine ⟨?_, by decide⟩
    intro f hf
    rw [List.mem_singleton.1 hf]
    unfold Fault.Fits; decide
  · rw [demoOps_Z]
    refine ⟨?_, by decide⟩
    intro f hf
    rw [List.mem_singleton.1 hf]
    unfold Fault.Fits; decide

/-- Without any preparation (all qubits are 0, so the X plaquettes have random values in the first round), the X and the Z error make the
hits next to their data qubits. -/
example : ∃ q w, AfterAlone .xxzz q 3 5 [] w ∧ ∃ s' b hits,
    Run (fun _ => 0) (noisyAll q (demoOps ++ [(.readoutZ none, noErrs)]) w) ⟨ground, fun _ => false⟩ s' ∧
    parseReadout 3 5 (joinSp (groups s'.mem (q.ops [.stabilize, .idData, .stabilize, .stabilize, .readoutZ none] w).circ.cregs)) .Z = .ok (bit b, hits) ∧
    (⟨0, 1, 1⟩ : Node) ∈ hits.Z ∧ (⟨0, 1, 3⟩ : Node) ∈ hits.X ∧ (⟨0, 3, 5⟩ : Node) ∈ hits.X ∧ (⟨1, 1, 1⟩ : Node) ∉ hits.Z := by
  obtain ⟨q, w, A, hn⟩ := afterAlone_exists (dh := 3) (dw := 5) .xxzz "a".toList (by unfold OddPos; decide) (by simp) []
  obtain ⟨s', hs'⟩ := noisy_exists (sz := fun _ => 0) A.after ⟨ground, fun _ => false⟩ ground_ne_zero (l := demoOps ++ [(.readoutZ none, noErrs)])
  obtain ⟨b, hits, h1, h2, h3⟩ := C105_hits (key := .Z) (T := 2) A (fun o h => absurd h List.not_mem_nil) rfl (by decide) (Or.inl (by decide))
    demoOps_memory rfl (s := ⟨ground, fun _ => false⟩) ground_ne_zero ground_synZero hs' .Z
  rw [hn, show ((2 : Nat) : Int) = 2 from rfl, show QClass.code .xxzz = .xxzz from rfl, demoOps_X] at h2
  rw [hn, show ((2 : Nat) : Int) = 2 from rfl, show QClass.code .xxzz = .xxzz from rfl, demoOps_Z] at h3
  refine ⟨q, w, A, s', b, hits, hs', h1, (h3 _).2 ?_, (h2 _).2 ?_, (h2 _).2 ?_, fun h => ?_⟩
  · unfold IsHit Site; decide
  · unfold IsHit Site; decide
  · unfold IsHit Site; decide
  · exact absurd ((h3 _).1 h) (by unfold IsHit Site; decide)

/-- The superposition of the state with all qubits 0 and logical X of it is stored with these errors. -/
example : ∃ q w, AfterAlone .xxzz q 3 5 [] w ∧ ∃ D m s',
    Run (fun _ => 0) (noisyAll q demoOps w) ⟨ground + logX .xxzz "a".toList 3 5 ground, fun _ => false⟩ s' ∧
    ∃ flip : Key → Bool, (∀ key, correctString D m
      (joinSp (['0'] :: groups s'.mem (q.ops [.stabilize, .idData, .stabilize, .stabilize] w).circ.cregs)) (rtypeOf key) none =
        .ok (some (bit (flip key)))) ∧
      ∃ ζ, HasValue (logZ .xxzz "a".toList 5) false ζ ∧ undo .xxzz "a".toList 3 5 flip s'.psi = ζ + logX .xxzz "a".toList 3 5 ζ := by
  obtain ⟨q, w, A, hn⟩ := afterAlone_exists (dh := 3) (dw := 5) .xxzz "a".toList (by unfold OddPos; decide) (by simp) []
  obtain ⟨D, sx, sz, h, h1, h2, h3, h4, h5, h6, h7⟩ := demo_decoder
  obtain ⟨m, hm⟩ := contract_exists
  have H : OddPos 3 5 := by unfold OddPos; decide
  have h0 : ground + logX .xxzz "a".toList 3 5 ground ≠ 0 := by
    intro e
    have hz : logZ .xxzz "a".toList 5 ground = sg false • ground := ground_Z
    have hx := congrArg (fun B : Op => B ground) (logX_logZ (code := .xxzz) (name := "a".toList) H).symm
    simp only [LinearMap.smul_apply, Module.End.mul_apply] at hx
    have e' := congrArg (logZ .xxzz "a".toList 5) e
    rw [map_add, map_zero, hx, hz, sg_false, one_smul, sg_true, neg_one_smul] at e'
    have : (2 : ℂ) • ground = 0 := by
      have := congrArg₂ (· + ·) e e'
      simp only [add_zero] at this
      rw [← this]
      module
    exact ground_ne_zero ((smul_eq_zero.1 this).resolve_left two_ne_zero)
  obtain ⟨s', hs'⟩ := noisy_exists (sz := fun _ => 0) A.after ⟨ground + logX .xxzz "a".toList 3 5 ground, fun _ => false⟩ h0 (l := demoOps)
  refine ⟨q, w, A, D, m, s', hs', ?_⟩
  have := C106_superposition (T := 2) A (fun o h => absurd h List.not_mem_nil) rfl (by decide) demoOps_memory rfl (by rintro (_ | _) <;> rfl) h h1 h2
    (by rintro (_ | _); exact ⟨_, h4⟩; exact ⟨_, h5⟩) (by rw [h3]; decide) hm (by rw [hn]; exact demoOps_tolerable) (φ := ground) (α := 1) (β := 1)
    ground_synZero ground_Z (s := ⟨ground + logX .xxzz "a".toList 3 5 ground, fun _ => false⟩) h0 (by rw [hn, one_smul, one_smul]; rfl) hs'
  rw [hn] at this
  obtain ⟨flip, k1, ζ, k2, k3⟩ := this
  rw [one_smul, one_smul] at k3
  exact ⟨flip, k1, ζ, k2, k3⟩

end Qtc
