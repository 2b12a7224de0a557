import Verif.Proof.HookRun
import Verif.Props.CircuitNoise
import Verif.Props.Radius
/-!
C101, C102: Pauli errors anywhere in the circuits of the XZZX code.
-/
namespace Qtc
open Spec Function

variable {q : TQubit} {dh dw : Int} {ops : List QOp} {w : World} {sz : Str → Nat} {key : Key}

/-- C101: C99 for the XZZX code. The logical qubit is prepared in |0⟩, and after at least one round of stabilization without errors there are
stabilizations, identity gates and logical gates with Pauli errors on any qubits between any instructions. All data qubits are then
measured. If there are fewer than a third of the height errors, the decoded value is the one that would be measured without errors: for
every outcome of the measurements and every optimal matching. -/
theorem C101_lattice_z (A : AfterAlone .xzzx q dh dw ops w) (hq : ∀ o ∈ ops, o.quiet = true) (hn : ops.count .stabilize = 0) (hbig : 1 < dh * dw)
    {l0 : List QOp} (hl0 : ∀ o ∈ l0, MemoryOp o) (h1 : 1 ≤ l0.count .stabilize) {l : List (QOp × List Slip)}
    (hl : ∀ a ∈ l, MemoryOp a.1) {T : Nat} (hT : (l0 ++ l.map Prod.fst).count .stabilize = T + 1)
    {D : Decoder} (hD : Made D) (hdh : D.dh = dh) (hdw : D.dw = dw) {g : SGraph} (hg : D.S .Z = some g) (hDT : (T : Int) + 1 ≤ D.T)
    {m : Matcher} (hm : Contract m) (hf : 3 * (slipCount l : Int) < dh) {s s' : QState} (h0 : s.psi ≠ 0) (hs : SynZero q.lat.name dh dw s.psi)
    (hR : Run sz (slippedAll q ((.resetZ :: l0).map (fun o => (o, [])) ++ l ++ [(.latticeReadoutZ, [])]) w) s s') :
    correctString D m (joinSp (groups s'.mem (q.ops (.resetZ :: (l0 ++ l.map Prod.fst) ++ [.latticeReadoutZ]) w).circ.cregs)) .Z none =
      .ok (some (if (l0 ++ l.map Prod.fst).count .x % 2 = 1 then 1 else 0)) :=
  lattice_slips A hq hn hbig hl0 h1 hl hT hD hdh hdw hg hDT hm hf h0 hs hR

/-- How many errors of a distance the readout of the XZZX code tolerates: fewer than a third for the readout of Z, fewer than a quarter for
the readout of X. -/
def xzzxShare : Key → Int
  | .X => 4
  | .Z => 3

/-- C101: the same with a readout of the logical operator of either type after two more rounds without errors, on lattices where the code can
read this operator (C69): fewer errors than a third of the height are tolerated by the readout of Z, fewer than a quarter of the width by the
readout of X. -/
theorem C101_logical (A : AfterAlone .xzzx q dh dw ops w) (hq : ∀ o ∈ ops, o.quiet = true) (hn : ops.count .stabilize = 0) (hbig : 1 < dh * dw)
    (hcan : CanRead .xzzx dh dw key) {l0 l1 : List QOp} (hl0 : ∀ o ∈ l0, MemoryOp o) (h1 : 1 ≤ l0.count .stabilize) {l : List (QOp × List Slip)}
    (hl : ∀ a ∈ l, MemoryOp a.1) (hl1 : ∀ o ∈ l1, MemoryOp o) (h2 : 2 ≤ l1.count .stabilize) {T : Nat}
    (hT : (l0 ++ l.map Prod.fst ++ l1).count .stabilize = T + 1)
    {D : Decoder} (hD : Made D) (hdh : D.dh = dh) (hdw : D.dw = dw) {g : SGraph} (hg : D.S key = some g) (hDT : (T : Int) ≤ D.T)
    {m : Matcher} (hm : Contract m) (hf : xzzxShare key * (slipCount l : Int) < distance key dh dw) {s s' : QState} (h0 : s.psi ≠ 0)
    (hs : SynZero q.lat.name dh dw s.psi)
    (hR : Run sz (slippedAll q ((prepOp key :: l0).map (fun o => (o, [])) ++ l ++ (l1 ++ [readOp key]).map (fun o => (o, []))) w) s s') :
    correctString D m (joinSp (groups s'.mem (q.ops (prepOp key :: (l0 ++ l.map Prod.fst ++ l1) ++ [readOp key]) w).circ.cregs)) (rtypeOf key) none =
      .ok (some (bit (decide ((l0 ++ l.map Prod.fst ++ l1).count (flipGate key) % 2 = 1)))) := by
  refine logical_slips A hq hn hbig hcan hl0 h1 hl hl1 h2 hT hD hdh hdw hg hDT hm ?_ h0 hs hR
  cases key <;> exact hf

/-- A Y error on a syndrome qubit in the middle of the entangling gates of the second round, on a 5 × 3 lattice. -/
example : ∃ q w, AfterAlone .xzzx q 5 3 [] w ∧ ∃ D m s',
    Run (fun _ => 0) (slippedAll q [(.resetZ, []), (.stabilize, []), (.stabilize, [⟨9, mxQ "a".toList 1, true, true⟩]), (.x, []),
      (.latticeReadoutZ, [])] w) ⟨ground, fun _ => false⟩ s' ∧
    correctString D m (joinSp (groups s'.mem (q.ops [.resetZ, .stabilize, .stabilize, .x, .latticeReadoutZ] w).circ.cregs)) .Z none =
      .ok (some 1) := by
  obtain ⟨q, w, A, hn⟩ := afterAlone_exists (dh := 5) (dw := 3) .xzzx "a".toList (by unfold OddPos; decide) (by simp) []
  obtain ⟨D, sx, sz, h, h1, h2, h3, h4, h5⟩ := C21_surface_built 900 { d := some (.tup [.int 5, .int 3]), T := some 2 } 5 3 2
    (by unfold OddPos; decide) (Or.inl rfl) rfl (by decide)
  obtain ⟨m, hm⟩ := contract_exists
  obtain ⟨s', hs'⟩ := slipped_exists (sz := fun _ => 0) A.after ⟨ground, fun _ => false⟩ ground_ne_zero
    (l := [(.resetZ, []), (.stabilize, []), (.stabilize, [⟨9, mxQ "a".toList 1, true, true⟩]), (.x, []), (.latticeReadoutZ, [])])
  refine ⟨q, w, A, D, m, s', hs', C101_lattice_z (T := 1) (l0 := [.stabilize])
    (l := [(.stabilize, [⟨9, mxQ "a".toList 1, true, true⟩]), (.x, [])]) A
    (fun o h => absurd h List.not_mem_nil) rfl (by decide) ?_ (by decide) ?_ rfl (Or.inl ⟨_, _, h⟩) h1 h2 h5 (by rw [h3]; decide) hm
    (by decide) (s := ⟨ground, fun _ => false⟩) ground_ne_zero ground_synZero hs'⟩
  · intro o ho
    rw [List.mem_singleton.1 ho]; trivial
  · intro a ha
    simp only [List.mem_cons, List.not_mem_nil, or_false] at ha
    rcases ha with rfl | rfl <;> trivial

/-- A Y error on a syndrome qubit in the middle of a round, on a 3 × 5 lattice that is prepared and read in the X basis. -/
example : ∃ q w, AfterAlone .xzzx q 3 5 [] w ∧ ∃ D m s',
    Run (fun _ => 0) (slippedAll q [(.resetX, []), (.stabilize, []), (.z, []),
      (.stabilize, [⟨50, mzQ "a".toList 3, true, true⟩]), (.stabilize, []), (.stabilize, []), (.readoutX none, [])] w)
      ⟨ground, fun _ => false⟩ s' ∧
    correctString D m (joinSp (groups s'.mem (q.ops [.resetX, .stabilize, .z, .stabilize, .stabilize, .stabilize, .readoutX none] w).circ.cregs))
      .X none = .ok (some 1) := by
  obtain ⟨q, w, A, hn⟩ := afterAlone_exists (dh := 3) (dw := 5) .xzzx "a".toList (by unfold OddPos; decide) (by simp) []
  obtain ⟨D, sx, sz, h, h1, h2, h3, h4, h5⟩ := C21_surface_built 900 { d := some (.tup [.int 3, .int 5]), T := some 3 } 3 5 3
    (by unfold OddPos; decide) (Or.inl rfl) rfl (by decide)
  obtain ⟨m, hm⟩ := contract_exists
  obtain ⟨s', hs'⟩ := slipped_exists (sz := fun _ => 0) A.after ⟨ground, fun _ => false⟩ ground_ne_zero
    (l := [(.resetX, []), (.stabilize, []), (.z, []),
      (.stabilize, [⟨50, mzQ "a".toList 3, true, true⟩]), (.stabilize, []), (.stabilize, []), (.readoutX none, [])])
  refine ⟨q, w, A, D, m, s', hs', C101_logical (key := .X) (T := 3) (l0 := [.stabilize])
    (l := [(.z, []), (.stabilize, [⟨50, mzQ "a".toList 3, true, true⟩])])
    (l1 := [.stabilize, .stabilize]) A
    (fun o h => absurd h List.not_mem_nil) rfl (by decide) (Or.inr (by decide)) ?_ (by decide) ?_ ?_ (by decide) rfl (Or.inl ⟨_, _, h⟩) h1 h2 h4
    (by rw [h3]; decide) hm (by decide) (s := ⟨ground, fun _ => false⟩) ground_ne_zero ground_synZero hs'⟩
  · intro o ho
    rw [List.mem_singleton.1 ho]; trivial
  · intro a ha
    simp only [List.mem_cons, List.not_mem_nil, or_false] at ha
    rcases ha with rfl | rfl <;> trivial
  · intro o ho
    simp only [List.mem_cons, List.not_mem_nil, or_false] at ho
    rcases ho with rfl | rfl <;> trivial

/-! ### C102 -/

/-- C102: for the readout of X a quarter of the width is the best possible. On every lattice with more than one row, and for every number `f`
of errors with `width / 4 < f < width / 2`, there are `f` Z errors on syndrome qubits of Z plaquettes within a single round such that the
logical qubit, prepared in |+⟩, stabilized once without errors, then with these errors, then again without, and read, is decoded to 1: for
every outcome of the measurements and every optimal matching. -/
theorem C102_more_than_a_quarter (A : AfterAlone .xzzx q dh dw ops w) (hq : ∀ o ∈ ops, o.quiet = true) (hn : ops.count .stabilize = 0)
    (hh : 1 < dh) {f : Nat} (h2 : 2 * (f : Int) < dw) (h4 : dw < 4 * (f : Int)) :
    ∃ E : List Slip, E.length = f ∧ (∀ e ∈ E, e.x = false ∧ e.z = true ∧ ∃ k : Nat, e.qubit = mzQ q.lat.name k) ∧
      ∀ (D : Decoder), Made D → D.dh = dh → D.dw = dw → ∀ g, D.S .X = some g → 2 ≤ D.T →
      ∀ m, Contract m → ∀ s s' : QState, s.psi ≠ 0 → SynZero q.lat.name dh dw s.psi →
      Run sz (slippedAll q [(.resetX, []), (.stabilize, []), (.stabilize, E), (.stabilize, []), (.readoutX none, [])] w) s s' →
      correctString D m (joinSp (groups s'.mem (q.ops [.resetX, .stabilize, .stabilize, .stabilize, .readoutX none] w).circ.cregs)) .X none =
        .ok (some 1) := by
  have H := A.after.own.2.placed.odd
  have hbig : 1 < dh * dw := by
    have := H.2.2.1
    calc (1 : Int) < dh := hh
      _ = dh * 1 := (Int.mul_one _).symm
      _ ≤ dh * dw := Int.mul_le_mul_of_nonneg_left (by omega) (by omega)
  choose slip hq1 hx1 hz1 hslip using fun j : Fin f => hook_slip H q.lat.name hh (j := j.1) (by have := j.2; omega)
  let E : Nat → Slip := fun j => if hj : j < f then slip ⟨j, hj⟩ else ⟨0, dataQ [] 0, false, false⟩
  have hEj : ∀ j (hj : j < f), E j = slip ⟨j, hj⟩ := fun j hj => dif_pos hj
  refine ⟨(List.range f).map E, by simp, ?_, ?_⟩
  · intro e he
    obtain ⟨j, hj, rfl⟩ := List.mem_map.1 he
    rw [hEj j (List.mem_range.1 hj)]
    obtain ⟨k, -, hk⟩ := hq1 ⟨j, List.mem_range.1 hj⟩
    exact ⟨hx1 _, hz1 _, k, hk⟩
  intro D hD hdh hdw g hg hDT m hm s s' h0 hs hR
  have e1 : ([(QOp.resetX, []), (.stabilize, []), (.stabilize, (List.range f).map E), (.stabilize, []), (.readoutX none, [])] : List (QOp × List Slip)) =
    [QOp.resetX, .stabilize].map (fun o => (o, [])) ++ ((QOp.stabilize, (List.range f).map E) :: [QOp.stabilize, .readoutX none].map fun o => (o, [])) := rfl
  rw [e1, slippedAll_append, Run.append] at hR
  obtain ⟨u, r1, r2⟩ := hR
  rw [slippedAll_none] at r1
  have em : (([QOp.resetX, .stabilize].map fun o => (o, ([] : List Slip))).map Prod.fst) = [QOp.resetX, .stabilize] := rfl
  rw [em] at r2
  have hH := held_run (key := .X) A.after hbig hn (l := [(.stabilize, noErrs)]) (by
    intro a ha
    rw [List.mem_singleton.1 ha]; trivial) h0 hs r1
  have hH' : Keeps .xzzx .X q.lat.name dh dw false 1 [] u := by
    have e := faultsOf_none (code := .xzzx) (key := .X) (name := q.lat.name) (dh := dh) (dw := dw) (n := 0) [.stabilize]
    have hH2 : Keeps .xzzx .X q.lat.name dh dw false 1 (faultsOf .xzzx .X q.lat.name dh dw 0 ([QOp.stabilize].map fun o => (o, noErrs))) u := hH
    rw [e] at hH2
    exact hH2
  have A1 := A.all_next [QOp.resetX, QOp.stabilize]
  have hn1 : (ops ++ [QOp.resetX, QOp.stabilize]).count QOp.stabilize = 1 := by
    rw [List.count_append, hn]; rfl
  obtain ⟨t, r2, r3⟩ := Run.append.1 (show Run sz (slipped ((List.range f).map E) 0 (added q .stabilize (q.ops [QOp.resetX, .stabilize] w)) ++
    slippedAll q ([QOp.stabilize, .readoutX none].map fun o => (o, [])) (q.op .stabilize (q.ops [QOp.resetX, .stabilize] w)).2) u s' from r2)
  have hK := hook_run (E := E) A1.after hn1 (by
    intro j hj
    rw [hEj j hj]
    exact hslip ⟨j, hj⟩ 1) hH' r2
  rw [slippedAll_none] at r3
  have e3 : ([QOp.stabilize, QOp.readoutX none].map fun o => (o, noErrs)) = ([QOp.stabilize].map fun o => (o, noErrs)) ++ [(readOp .X, noErrs)] := rfl
  rw [e3, noisyAll_append, Run.append] at r3
  obtain ⟨v, r3, r4⟩ := r3
  have A2 := A.all_next [QOp.resetX, QOp.stabilize, QOp.stabilize]
  have hn2 : (ops ++ [QOp.resetX, QOp.stabilize, QOp.stabilize]).count QOp.stabilize = 2 := by
    rw [List.count_append, hn]; rfl
  have hK2 := hK.all A2.after (l := [QOp.stabilize].map fun o => (o, noErrs)) (by
    intro a ha
    rw [List.mem_singleton.1 ha]; trivial) hn2 r3
  rw [faultsOf_none, List.nil_append, List.append_nil] at hK2
  have r4' : Run sz (withErrors noErrs (added q (readOp .X) (q.ops [QOp.resetX, .stabilize, .stabilize, .stabilize] w)) ++ []) v s' := r4
  rw [List.append_nil] at r4'
  have hK3 : Keeps .xzzx .X q.lat.name dh dw false (2 + 1) (lineFlips .X 1 (2 * f)) v := hK2
  have hcan : CanRead .xzzx dh dw .X := Or.inr hh
  obtain ⟨rounds, hlen, hrr, hgr⟩ := strings_keeps (A.all_next [QOp.resetX, .stabilize, .stabilize, .stabilize]) (by
    intro o ho
    rcases List.mem_append.1 ho with h | h
    · exact hq o h
    · simp only [List.mem_cons, List.not_mem_nil, or_false] at h
      rcases h with rfl | rfl | rfl | rfl <;> rfl) hbig hcan (T := 2) (by rw [List.count_append, hn]; rfl) hK3 r4'
  have hgr' : groups s'.mem (q.ops [.resetX, .stabilize, .stabilize, .stabilize, .readoutX none] w).circ.cregs = _ := hgr
  rw [hgr']
  have htp : takePlace ((2 : Nat) : Int) (lineFlips .X 1 (2 * f)) = lineFlips .X 1 (2 * f) := by
    unfold takePlace
    refine List.filter_eq_self.2 fun x hx => ?_
    obtain ⟨k, -, rfl⟩ := List.mem_map.1 hx
    rfl
  rw [htp] at hrr ⊢
  subst hdh hdw
  obtain ⟨r, hr⟩ : ∃ r : Nat, (r : Int) = D.dw - 2 * f := ⟨_, Int.toNat_of_nonneg (by omega)⟩
  have hg' : Correctable .X D.dh D.dw 2 (lineRest .X 1 (2 * f) r) := by
    refine ⟨?_, ?_⟩
    · intro x hx
      obtain ⟨k, hk, rfl⟩ := List.mem_map.1 hx
      have := List.mem_range'_1.1 hk
      show _ ∧ _ ∧ _ ∧ _ ∧ _ ∧ _
      omega
    · unfold lineRest
      rw [List.length_map, List.length_range']
      show _ ≤ (D.dw - 1) / 2
      omega
  have := decoded_like hD hg H hbig hm (T := 2) hDT (tolerable_of_correctable hg') (line_same (by
    show _ = D.dw
    push_cast
    omega)) hlen hrr false
  rw [lineFlips_readout (by omega), lineRest_readout (by omega)] at this
  rw [lineFlips_readout (by omega)]
  exact this

/-- A single error on the 3 × 3 lattice: this has executions, and all of them are decoded to the wrong value. -/
example : ∃ q w, AfterAlone .xzzx q 3 3 [] w ∧ ∃ D m, ∃ e : Slip,
    (∃ s', Run (fun _ => 0) (slippedAll q [(QOp.resetX, []), (.stabilize, []), (.stabilize, [e]), (.stabilize, []), (.readoutX none, [])] w)
      ⟨ground, fun _ => false⟩ s') ∧
    ∀ s', Run (fun _ => 0) (slippedAll q [(.resetX, []), (.stabilize, []), (.stabilize, [e]), (.stabilize, []), (.readoutX none, [])] w)
      ⟨ground, fun _ => false⟩ s' →
    correctString D m (joinSp (groups s'.mem (q.ops [.resetX, .stabilize, .stabilize, .stabilize, .readoutX none] w).circ.cregs)) .X none =
      .ok (some 1) := by
  obtain ⟨q, w, A, hn⟩ := afterAlone_exists (dh := 3) (dw := 3) .xzzx "a".toList (by unfold OddPos; decide) (by simp) []
  obtain ⟨D, sx, sz, h, h1, h2, h3, h4, h5⟩ := C21_surface_built 900 { d := some (.tup [.int 3, .int 3]), T := some 2 } 3 3 2
    (by unfold OddPos; decide) (Or.inl rfl) rfl (by decide)
  obtain ⟨m, hm⟩ := contract_exists
  obtain ⟨E, hE, -, hw⟩ := C102_more_than_a_quarter (sz := fun _ => 0) A (fun o h => absurd h List.not_mem_nil) rfl (by decide) (f := 1) (by decide) (by decide)
  match E, hE with
  | [e], _ =>
    refine ⟨q, w, A, D, m, e, slipped_exists A.after ⟨ground, fun _ => false⟩ ground_ne_zero, fun s' hR => ?_⟩
    exact hw D (Or.inl ⟨_, _, h⟩) h1 h2 _ h4 (by rw [h3]) m hm _ s' ground_ne_zero ground_synZero hR

end Qtc
