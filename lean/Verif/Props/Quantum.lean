import Verif.Proof.QFault
/-!
Properties C55 to C60 and C64: what the operations of a qubit do to quantum states.

`sz` is the size of every classical register; it matters only for conditioned gates.
-/
namespace Qtc
open Spec Function

variable {cls : QClass} {q : TQubit} {dh dw : Int} {ops : List QOp} {w : World} {sz : Str → Nat}

/-! ### C55 -/

/-- C55: with syndrome qubits in state 0, the executions of a stabilization are exactly those of the joint projective measurement
of all plaquettes, with the outcomes in the new register (see C50), on every state. -/
theorem C55_stabilize (A : After cls q dh dw ops w) {s s' : QState} (h0 : s.psi ≠ 0) (hs : SynZero q.lat.name dh dw s.psi) :
    Run sz (added q .stabilize w) s s' ↔ ∃ m, s'.psi = jointProj (checks cls.code q.lat.name dh dw) m s.psi ∧ s'.psi ≠ 0 ∧
      s'.mem = writeReg s.mem (q.lat.name ++ "_c".toList ++ strNat (ops.count .stabilize))
        ((xSites dh dw).length + (zSites dh dw).length) m := by
  have := run_stabilize (sz := sz) A h0 hs (s' := s')
  unfold roundName at this
  rwa [strInt_nat] at this

/-- C55: the syndrome qubits are in state 0 again. -/
theorem C55_zero (A : After cls q dh dw ops w) {s s' : QState} (h0 : s.psi ≠ 0) (hs : SynZero q.lat.name dh dw s.psi)
    (hR : Run sz (added q .stabilize w) s s') : SynZero q.lat.name dh dw s'.psi := gentle_synZero (o := .stabilize) A trivial h0 hR hs

/-- C55: it is a projective measurement: the observables are involutions and commute; the operators of the outcomes are
projections on the states in which all observables have the values measured, orthogonal to each other, and add up to the
identity. -/
theorem C55_projective (H : OddPos dh dw) (code : Code) (name : Str) :
    (∀ C ∈ checks code name dh dw, C * C = 1 ∧ ∀ C' ∈ checks code name dh dw, C * C' = C' * C) ∧
    (∀ m ψ, Syndrome code name dh dw m (jointProj (checks code name dh dw) m ψ)) ∧
    (∀ m m', jointProj (checks code name dh dw) m * jointProj (checks code name dh dw) m' =
      if ∀ k < (checks code name dh dw).length, m k = m' k then jointProj (checks code name dh dw) m else 0) ∧
    ∑ m : Fin (checks code name dh dw).length → Bool,
      jointProj (checks code name dh dw) (fun k => if h : k < _ then m ⟨k, h⟩ else false) = 1 :=
  ⟨fun _ hC => ⟨checks_sq H hC, fun _ hC' => checks_comm H hC hC'⟩, fun m ψ => syndrome_joint H m ψ,
    fun m m' => jointProj_mul (fun _ hC _ hC' => checks_comm H hC hC') (fun _ hC => checks_sq H hC) m m', jointProj_sum _⟩

/-- C55: there always is an execution. -/
theorem C55_possible (A : After cls q dh dw ops w) (s : QState) (h0 : s.psi ≠ 0) : ∃ s', Run sz (added q .stabilize w) s s' :=
  run_exists (A.proper .stabilize) s h0

/-- The first stabilization of an XZZX lattice whose qubits are all in state 0 has an outcome and is the projection on it. -/
example : ∃ q w, AfterAlone .xzzx q 3 3 [] w ∧ ∃ s' m, Run (fun _ => 0) (added q .stabilize w) ⟨ground, fun _ => false⟩ s' ∧
    s'.psi = jointProj (checks .xzzx "a".toList 3 3) m ground ∧ s'.mem ⟨"a_c0".toList, 7⟩ = m 7 := by
  obtain ⟨q, w, A, hn⟩ := afterAlone_exists (dh := 3) (dw := 3) .xzzx "a".toList (by unfold OddPos; decide) (by simp) []
  obtain ⟨s', hs'⟩ := C55_possible (sz := fun _ => 0) A.after ⟨ground, fun _ => false⟩ ground_ne_zero
  obtain ⟨m, h1, -, h2⟩ := (C55_stabilize A.after (s := ⟨ground, fun _ => false⟩) ground_ne_zero ground_synZero).1 hs'
  rw [hn, show QClass.xzzx.code = .xzzx from rfl] at h1
  dsimp only at h1
  rw [hn] at h2
  refine ⟨q, w, A, s', m, hs', h1, ?_⟩
  rw [h2, show "a".toList ++ "_c".toList ++ strNat (List.count QOp.stabilize []) = "a_c0".toList by decide]
  exact writeReg_mem (by decide)

/-! ### C56 -/

/-- C56: after a stabilization, every later one gives the same bits, for any state and any outcomes; in between there may be
logical gates, logical readouts and identity gates. -/
theorem C56_same_bits {l : List QOp} (A : After cls q dh dw ops w) (hg : ∀ o ∈ l, Gentle cls dh dw o) {s s' : QState} (h0 : s.psi ≠ 0)
    (hs : SynZero q.lat.name dh dw s.psi) (hR : Run sz (addedAll q (.stabilize :: l) w) s s') (t : Nat) (ht : t ≤ l.count .stabilize)
    (k : Nat) (hk : k < (xSites dh dw).length + (zSites dh dw).length) :
    s'.mem ⟨q.lat.name ++ "_c".toList ++ strNat (ops.count .stabilize + t), k⟩ =
      s'.mem ⟨q.lat.name ++ "_c".toList ++ strNat (ops.count .stabilize), k⟩ := by
  have hg' : ∀ o ∈ QOp.stabilize :: l, Gentle cls dh dw o := by
    intro o ho
    rcases List.mem_cons.1 ho with rfl | ho
    · trivial
    · exact hg o ho
  obtain ⟨-, m, -, -, h⟩ := syndrome_some A hg' h0 hs hR
  have hc : (QOp.stabilize :: l).count .stabilize = l.count .stabilize + 1 := by rw [List.count_cons]; simp
  rw [hc] at h
  have h1 := h (ops.count .stabilize + t) (by omega) (by omega) k hk
  have h2 := h (ops.count .stabilize) (by omega) (by omega) k hk
  unfold roundName at h1 h2
  rw [strInt_nat] at h1 h2
  rw [h1, h2]

theorem no_changes {mem : Mem} {name : Str} {n : Nat} {m : Nat → Bool}
    (h : ∀ t : Nat, t < n → ∀ k < (xSites dh dw).length + (zSites dh dw).length, mem ⟨roundName name t, k⟩ = m k) :
    changes (xSites dh dw) ((List.range n).map fun t k => mem ⟨name ++ "_c".toList ++ strNat t, (zSites dh dw).length + k⟩) = [] ∧
    changes (zSites dh dw) ((List.range n).map fun t k => mem ⟨name ++ "_c".toList ++ strNat t, k⟩) = [] := by
  constructor
  · refine changes_none (f := fun k => m ((zSites dh dw).length + k)) ?_
    intro t a ha k hk
    rw [List.getElem?_map, Option.map_eq_some_iff] at ha
    obtain ⟨t', ht, rfl⟩ := ha
    obtain ⟨h1, rfl⟩ := List.getElem?_eq_some_iff.1 ht
    rw [List.length_range] at h1
    rw [List.getElem_range]
    have := h t h1 ((zSites dh dw).length + k) (by omega)
    unfold roundName at this
    rwa [strInt_nat] at this
  · refine changes_none (f := m) ?_
    intro t a ha k hk
    rw [List.getElem?_map, Option.map_eq_some_iff] at ha
    obtain ⟨t', ht, rfl⟩ := ha
    obtain ⟨h1, rfl⟩ := List.getElem?_eq_some_iff.1 ht
    rw [List.length_range] at h1
    rw [List.getElem_range]
    have := h t h1 k (by omega)
    unfold roundName at this
    rwa [strInt_nat] at this

/-- C56: without errors no hits are reported: for a qubit with any history `ops` without stabilizations and readouts, in any state
with syndrome qubits in state 0, any number of stabilizations (with logical and identity gates in between) and a logical readout
give a string that `parse_readout` parses to no hits. -/
theorem C56_no_hits {l : List QOp} (A : AfterAlone cls q dh dw ops w) (hq : ∀ o ∈ ops, o.quiet = true) (hn : ops.count .stabilize = 0)
    (hl : ∀ o ∈ l, Gentle cls dh dw o ∧ o.quiet = true) (hbig : 1 < dh * dw) {o : QOp} (ho : o = .readoutX none ∨ o = .readoutZ none)
    (hgo : Gentle cls dh dw o) {s s' : QState} (h0 : s.psi ≠ 0) (hs : SynZero q.lat.name dh dw s.psi)
    (hR : Run sz (addedAll q (l ++ [o]) w) s s') (rt : RType) :
    ∃ b, parseReadout dh dw (joinSp (groups s'.mem (q.ops (l ++ [o]) w).circ.cregs)) rt = .ok (b, { X := [], Z := [] }) := by
  have A' := A.all_next l
  have hq' : ∀ o ∈ ops ++ l, o.quiet = true := by
    intro o ho
    rcases List.mem_append.1 ho with h | h
    · exact hq o h
    · exact (hl o h).2
  have hcount : (ops ++ l).count .stabilize = l.count .stabilize := by rw [List.count_append, hn, Nat.zero_add]
  obtain ⟨-, hp⟩ := C51_logical A' hq' hbig o ho s'.mem rt
  obtain ⟨-, m, -, -, h⟩ := syndrome_some A.after (l := l ++ [o]) (by
    intro o' h
    rcases List.mem_append.1 h with h | h
    · exact (hl o' h).1
    · rw [List.mem_singleton.1 h]; exact hgo) h0 hs hR
  have ho' : (l ++ [o]).count .stabilize = l.count .stabilize := by
    rw [List.count_append, List.count_singleton]
    rcases ho with rfl | rfl <;> rfl
  rw [ho', hn] at h
  have hno := no_changes (dh := dh) (dw := dw) (n := l.count .stabilize) (name := q.lat.name) (mem := s'.mem) (m := m)
    fun t ht k hk => h t (by omega) (by omega) k hk
  rw [ops_snoc, hp, hcount, hno.1, hno.2]
  exact ⟨_, rfl⟩

theorem parityOn_around (f : Int → Bool) (p : Int × Int) :
    parityOn f (cornersOf dh dw p.1 p.2) = xorAll ((around dh dw p).map f) := by
  unfold parityOn around
  generalize cornersOf dh dw p.1 p.2 = l
  induction l with
  | nil => rfl
  | cons a l ih =>
    cases a with
    | none => simpa [optFlip, xorAll] using ih
    | some i => simpa [optFlip, xorAll] using ih

/-- C56: the same with a readout of all data qubits, whose plaquette parities are the last round. -/
theorem C56_no_hits_lattice {l : List QOp} (A : AfterAlone cls q dh dw ops w) (hq : ∀ o ∈ ops, o.quiet = true) (hn : ops.count .stabilize = 0)
    (hl : ∀ o ∈ l, Gentle cls dh dw o ∧ o.quiet = true) (hpos : .stabilize ∈ l) (hbig : 1 < dh * dw) {s s' : QState} (h0 : s.psi ≠ 0)
    (hs : SynZero q.lat.name dh dw s.psi) (hR : Run sz (addedAll q (l ++ [.latticeReadoutZ]) w) s s') :
    ∃ b, parseReadout dh dw (joinSp (groups s'.mem (q.ops (l ++ [.latticeReadoutZ]) w).circ.cregs)) .Z = .ok (b, { X := [], Z := [] }) := by
  have H := A.after.own.2.placed.odd
  have A' := A.all_next l
  have hq' : ∀ o ∈ ops ++ l, o.quiet = true := by
    intro o ho
    rcases List.mem_append.1 ho with h | h
    · exact hq o h
    · exact (hl o h).2
  obtain ⟨n, hc⟩ : ∃ n, l.count .stabilize = n + 1 := ⟨l.count .stabilize - 1, by have := List.count_pos_iff.2 hpos; omega⟩
  have hcount : (ops ++ l).count .stabilize = n + 1 := by rw [List.count_append, hn, Nat.zero_add, hc]
  obtain ⟨-, hp⟩ := C51_lattice A' hq' hbig n hcount .latticeReadoutZ (Or.inr rfl) s'.mem
  obtain ⟨t, ha, hb⟩ := A.after.run_append.1 hR
  obtain ⟨-, m, hsy, -, h⟩ := syndrome_some A.after (fun o h => (hl o h).1) h0 hs ha
  have hsy := hsy hpos
  rw [hn, hc] at h
  rw [A'.after.all_single] at hb
  have hr := (run_latticeZ A'.after (ne_zero_all A.after h0 ha)).1 hb
  have hname : nextLattice q (q.ops l w) = q.lat.name ++ "_lattice_readout_0".toList := by
    obtain ⟨-, -, hr⟩ := A'.cregs hq'
    unfold nextLattice
    rw [hr]
    show latticeName q.lat.name (-1 + 1) = _
    unfold latticeName
    rw [List.append_assoc]
    rfl
  have hrounds : ∀ j : Nat, j ≤ n → ∀ k < (xSites dh dw).length + (zSites dh dw).length,
      s'.mem ⟨q.lat.name ++ "_c".toList ++ strNat j, k⟩ = m k := by
    intro j hj k hk
    have e := h j (by omega) (by omega) k hk
    obtain ⟨m', -, -, hm⟩ := hr
    have e2 : roundName q.lat.name j = q.lat.name ++ "_c".toList ++ strNat j := by unfold roundName; rw [strInt_nat]
    rw [e2] at e
    rw [hm, writeReg_other (by rw [← e2]; exact round_ne_lattice), e]
  rw [hname] at hr
  have hpar : ∀ (k : Nat) (p : Int × Int), (zSites dh dw)[k]? = some p →
      parityOn (fun i => s'.mem ⟨q.lat.name ++ "_lattice_readout_0".toList, i.toNat⟩) (cornersOf dh dw p.1 p.2) = m k := by
    intro k p hk
    have hC : (checks cls.code q.lat.name dh dw)[k]? = some (checkOp cls.code q.lat.name dh dw .Z p) := by
      unfold checks
      have := (List.getElem?_eq_some_iff.1 hk).1
      rw [List.getElem?_append_left (by rw [List.length_map]; exact this), List.getElem?_map, hk]
      rfl
    have hv := hsy k _ hC
    rw [checkOp_eq H _ _ (key := .Z) (mem_zSites.1 (List.mem_of_getElem? hk))] at hv
    rw [← hr.parity around_all hv, parityOn_around]
  have hX : changes (xSites dh dw) (((List.range (n + 1)) ++ [n]).map fun t k =>
      s'.mem ⟨q.lat.name ++ "_c".toList ++ strNat t, (zSites dh dw).length + k⟩) = [] := by
    refine changes_none (f := fun k => m ((zSites dh dw).length + k)) ?_
    intro t a ha k hk
    obtain ⟨j, hj, rfl⟩ := List.mem_map.1 (List.mem_of_getElem? ha)
    have : j ≤ n := by
      rcases List.mem_append.1 hj with h | h
      · have := List.mem_range.1 h
        omega
      · exact (List.mem_singleton.1 h).le
    exact hrounds j this _ (by omega)
  have hZ : changes (zSites dh dw) ((List.range (n + 1)).map (fun t k => s'.mem ⟨q.lat.name ++ "_c".toList ++ strNat t, k⟩) ++
      [fun k => match (zSites dh dw)[k]? with
        | some s => parityOn (fun i => s'.mem ⟨q.lat.name ++ "_lattice_readout_0".toList, i.toNat⟩) (cornersOf dh dw s.1 s.2)
        | none => false]) = [] := by
    refine changes_none (f := m) ?_
    intro t a ha k hk
    rcases List.mem_append.1 (List.mem_of_getElem? ha) with h | h
    · obtain ⟨j, hj, rfl⟩ := List.mem_map.1 h
      have := List.mem_range.1 hj
      exact hrounds j (by omega) _ (by omega)
    · rw [List.mem_singleton.1 h]
      have e := List.getElem?_eq_getElem hk
      simp only [e]
      exact hpar k _ e
  rw [ops_snoc, hp, hX]
  refine ⟨_, congrArg Except.ok (Prod.ext rfl ?_)⟩
  exact congrArg (Hits.mk []) hZ

/-- Three stabilizations of a 3 × 3 XXZZ lattice in the state in which all qubits are 0: the first outcomes are random, still no
hits are reported. -/
example : ∃ q w, AfterAlone .xxzz q 3 3 [] w ∧
    ∃ s' b, Run (fun _ => 0) (addedAll q [.stabilize, .idData, .stabilize, .x, .stabilize, .readoutZ none] w) ⟨ground, fun _ => false⟩ s' ∧
      parseReadout 3 3 (joinSp (groups s'.mem
        (q.ops [.stabilize, .idData, .stabilize, .x, .stabilize, .readoutZ none] w).circ.cregs)) .Z = .ok (b, { X := [], Z := [] }) := by
  obtain ⟨q, w, A, hn⟩ := afterAlone_exists (dh := 3) (dw := 3) .xxzz "a".toList (by unfold OddPos; decide) (by simp) []
  obtain ⟨s', hs'⟩ := run_all_exists (sz := fun _ => 0) A.after ⟨ground, fun _ => false⟩ ground_ne_zero
    (l := [.stabilize, .idData, .stabilize, .x, .stabilize, .readoutZ none])
  obtain ⟨b, hb⟩ := C56_no_hits (l := [.stabilize, .idData, .stabilize, .x, .stabilize]) A (by decide) rfl (by
    intro o ho
    simp only [List.mem_cons, List.not_mem_nil, or_false] at ho
    rcases ho with rfl | rfl | rfl | rfl | rfl <;> exact ⟨trivial, rfl⟩) (by decide) (Or.inr rfl) (Or.inl (by decide))
    (s := ⟨ground, fun _ => false⟩) ground_ne_zero ground_synZero hs' .Z
  exact ⟨q, w, A, s', b, hs', hb⟩

/-! ### C57 -/

theorem logZ_track {l : List QOp} (A : After cls q dh dw ops w) (hg : ∀ o ∈ l, Gentle cls dh dw o ∧ o.blursZ = false) {v : Bool}
    {s s' : QState} (h0 : s.psi ≠ 0) (hR : Run sz (addedAll q l w) s s') (hv : HasValue (logZ cls.code q.lat.name dw) v s.psi) :
    HasValue (logZ cls.code q.lat.name dw) (v ^^ decide (l.count .x % 2 = 1)) s'.psi := by
  have H := A.own.2.placed.odd
  simpa using track_all A (fun o h => (hg o h).1) logZ_onData (fun C hC => logZ_checks H hC) (logX_logZ H).symm
    (passes_false.2 (Commute.refl _)) (fun _ o h => (hg o h).2) (by simp) h0 hR hv

theorem logX_track {l : List QOp} (A : After cls q dh dw ops w) (hg : ∀ o ∈ l, Gentle cls dh dw o ∧ o.blursX = false) {v : Bool}
    {s s' : QState} (h0 : s.psi ≠ 0) (hR : Run sz (addedAll q l w) s s') (hv : HasValue (logX cls.code q.lat.name dh dw) v s.psi) :
    HasValue (logX cls.code q.lat.name dh dw) (v ^^ decide (l.count .z % 2 = 1)) s'.psi := by
  have H := A.own.2.placed.odd
  simpa using track_all A (fun o h => (hg o h).1) logX_onData (fun C hC => logX_checks H hC) (passes_false.2 (Commute.refl _))
    (logX_logZ H) (by simp) (fun _ o h => (hg o h).2) h0 hR hv

theorem prep_logZ (A : After cls q dh dw ops w) {s t : QState} (h0 : s.psi ≠ 0) (hR : Run sz (added q .resetZ w) s t) :
    HasValue (logZ cls.code q.lat.name dw) false t.psi := by
  rw [logZ_eq]
  exact ((run_resetZ A h0).1 hR).string (row_all A.own.2.placed.odd)

theorem prep_logX (A : After cls q dh dw ops w) (hc : cls ≠ .xzzx ∨ 1 < dh * dw) {s t : QState} (h0 : s.psi ≠ 0)
    (hR : Run sz (added q .resetX w) s t) : HasValue (logX cls.code q.lat.name dh dw) false t.psi := by
  rw [logX_eq]
  exact ((run_resetX A hc h0).1 hR).string (col_all A.own.2.placed.odd)

/-- C57: after `reset_z` and any sequence `l` of stabilizations, identity gates, logical gates, conditioned logical Zs and logical Z
readouts, `readout_z` gives 0 with certainty if the number of logical Xs is even and 1 if it is odd; for every initial state (the
syndrome qubits need not be 0) and every sequence of outcomes. -/
theorem C57_readout_z {l : List QOp} (A : After cls q dh dw ops w) (hg : ∀ o ∈ l, Gentle cls dh dw o ∧ o.blursZ = false)
    (hw : cls ≠ .xzzx ∨ 1 < dw) :
    ∃ r, r ∉ (q.ops (.resetZ :: l) w).circ.names ∧
      (q.ops (.resetZ :: l ++ [.readoutZ none]) w).circ.cregs = (q.ops (.resetZ :: l) w).circ.cregs ++ [⟨r, 1⟩] ∧
      ∀ s s', s.psi ≠ 0 → Run sz (addedAll q (.resetZ :: l ++ [.readoutZ none]) w) s s' →
        s'.mem ⟨r, 0⟩ = decide (l.count .x % 2 = 1) := by
  have A' := A.all_next (.resetZ :: l)
  obtain ⟨h1, h2⟩ := readout_new A' (Or.inr rfl : (.readoutZ none : QOp) = .readoutX none ∨ _)
  refine ⟨_, h1, by rw [ops_snoc]; exact h2, ?_⟩
  intro s s' h0 hR
  obtain ⟨t, ha, hb⟩ := A.run_append.1 hR
  obtain ⟨u, hc, hd⟩ := A.run_cons.1 ha
  have hu := A.ne_zero h0 hc
  have ht := ne_zero_all (A.next .resetZ) hu hd
  have hv := logZ_track (A.next .resetZ) hg hu hd (prep_logZ A h0 hc)
  rw [A'.all_single] at hb
  rw [reads_value logZ_onData ((run_readoutZ A' hw ht).1 hb) hv, writeReg_mem Nat.one_pos, Bool.false_xor]

/-- C57: the same with `reset_x` and `readout_x`. -/
theorem C57_readout_x {l : List QOp} (A : After cls q dh dw ops w) (hg : ∀ o ∈ l, Gentle cls dh dw o ∧ o.blursX = false)
    (hh : cls ≠ .xzzx ∨ 1 < dh) :
    ∃ r, r ∉ (q.ops (.resetX :: l) w).circ.names ∧
      (q.ops (.resetX :: l ++ [.readoutX none]) w).circ.cregs = (q.ops (.resetX :: l) w).circ.cregs ++ [⟨r, 1⟩] ∧
      ∀ s s', s.psi ≠ 0 → Run sz (addedAll q (.resetX :: l ++ [.readoutX none]) w) s s' →
        s'.mem ⟨r, 0⟩ = decide (l.count .z % 2 = 1) := by
  have A' := A.all_next (.resetX :: l)
  have H := A.own.2.placed.odd
  have hh' : cls ≠ .xzzx ∨ 1 < dh * dw := hh.imp id fun h => by
    unfold OddPos at H
    nlinarith
  obtain ⟨h1, h2⟩ := readout_new A' (Or.inl rfl : (.readoutX none : QOp) = .readoutX none ∨ _)
  refine ⟨_, h1, by rw [ops_snoc]; exact h2, ?_⟩
  intro s s' h0 hR
  obtain ⟨t, ha, hb⟩ := A.run_append.1 hR
  obtain ⟨u, hc, hd⟩ := A.run_cons.1 ha
  have hu := A.ne_zero h0 hc
  have ht := ne_zero_all (A.next .resetX) hu hd
  have hv := logX_track (A.next .resetX) hg hu hd (prep_logX A hh' h0 hc)
  rw [A'.all_single] at hb
  rw [reads_value logX_onData ((run_readoutX A' hh ht).1 hb) hv, writeReg_mem Nat.one_pos, Bool.false_xor]

/-- C57: through a readout of all data qubits: the parity of the top row. -/
theorem C57_lattice_z {l : List QOp} (A : After cls q dh dw ops w) (hg : ∀ o ∈ l, Gentle cls dh dw o ∧ o.blursZ = false) :
    ∃ r, r ∉ (q.ops (.resetZ :: l) w).circ.names ∧
      (q.ops (.resetZ :: l ++ [.latticeReadoutZ]) w).circ.cregs = (q.ops (.resetZ :: l) w).circ.cregs ++ [⟨r, (dh * dw).toNat⟩] ∧
      ∀ s s', s.psi ≠ 0 → Run sz (addedAll q (.resetZ :: l ++ [.latticeReadoutZ]) w) s s' →
        xorAll ((rowQubits dw 0).map fun i => s'.mem ⟨r, i.toNat⟩) = decide (l.count .x % 2 = 1) := by
  have A' := A.all_next (.resetZ :: l)
  obtain ⟨h1, h2⟩ := lattice_new A' (Or.inr rfl : (.latticeReadoutZ : QOp) = .latticeReadoutX ∨ _)
  refine ⟨_, h1, by rw [ops_snoc]; exact h2, ?_⟩
  intro s s' h0 hR
  obtain ⟨t, ha, hb⟩ := A.run_append.1 hR
  obtain ⟨u, hc, hd⟩ := A.run_cons.1 ha
  have hu := A.ne_zero h0 hc
  have ht := ne_zero_all (A.next .resetZ) hu hd
  have hv := logZ_track (A.next .resetZ) hg hu hd (prep_logZ A h0 hc)
  rw [A'.all_single] at hb
  rw [logZ_eq] at hv
  rw [((run_latticeZ A' ht).1 hb).parity (row_all A.own.2.placed.odd) hv, Bool.false_xor]

/-- C57: the parity of the left column. -/
theorem C57_lattice_x {l : List QOp} (A : After cls q dh dw ops w) (hg : ∀ o ∈ l, Gentle cls dh dw o ∧ o.blursX = false)
    (hh : cls ≠ .xzzx ∨ 1 < dh * dw) :
    ∃ r, r ∉ (q.ops (.resetX :: l) w).circ.names ∧
      (q.ops (.resetX :: l ++ [.latticeReadoutX]) w).circ.cregs = (q.ops (.resetX :: l) w).circ.cregs ++ [⟨r, (dh * dw).toNat⟩] ∧
      ∀ s s', s.psi ≠ 0 → Run sz (addedAll q (.resetX :: l ++ [.latticeReadoutX]) w) s s' →
        xorAll ((colQubits dh dw 0).map fun i => s'.mem ⟨r, i.toNat⟩) = decide (l.count .z % 2 = 1) := by
  have A' := A.all_next (.resetX :: l)
  obtain ⟨h1, h2⟩ := lattice_new A' (Or.inl rfl : (.latticeReadoutX : QOp) = .latticeReadoutX ∨ _)
  refine ⟨_, h1, by rw [ops_snoc]; exact h2, ?_⟩
  intro s s' h0 hR
  obtain ⟨t, ha, hb⟩ := A.run_append.1 hR
  obtain ⟨u, hc, hd⟩ := A.run_cons.1 ha
  have hu := A.ne_zero h0 hc
  have ht := ne_zero_all (A.next .resetX) hu hd
  have hv := logX_track (A.next .resetX) hg hu hd (prep_logX A hh h0 hc)
  rw [A'.all_single] at hb
  rw [logX_eq] at hv
  rw [((run_latticeX A' hh ht).1 hb).parity (col_all A.own.2.placed.odd) hv, Bool.false_xor]

/-- `|0⟩` of the XZZX code, two stabilizations and a logical X in between: the readout is 1. -/
example : ∃ q w, AfterAlone .xzzx q 3 3 [] w ∧
    ∃ s' r, Run (fun _ => 0) (addedAll q [.resetZ, .stabilize, .x, .stabilize, .readoutZ none] w) ⟨ground, fun _ => false⟩ s' ∧
      s'.mem ⟨r, 0⟩ = true := by
  obtain ⟨q, w, A, hn⟩ := afterAlone_exists (dh := 3) (dw := 3) .xzzx "a".toList (by unfold OddPos; decide) (by simp) []
  obtain ⟨s', hs'⟩ := run_all_exists (sz := fun _ => 0) A.after ⟨ground, fun _ => false⟩ ground_ne_zero
    (l := [.resetZ, .stabilize, .x, .stabilize, .readoutZ none])
  obtain ⟨r, -, -, h⟩ := C57_readout_z (sz := fun _ => 0) (l := [.stabilize, .x, .stabilize]) A.after (by
    intro o ho
    simp only [List.mem_cons, List.not_mem_nil, or_false] at ho
    rcases ho with rfl | rfl | rfl <;> exact ⟨trivial, rfl⟩) (Or.inr (by decide))
  exact ⟨q, w, A, s', r, hs', h _ _ ground_ne_zero hs'⟩

/-! ### C58 -/

theorem clear_not (v : Bool) (x : Qubit) : opX x * clear v x = clear (!v) x := by
  unfold clear
  cases v
  · simp
  · simp

theorem hasValue_flip (mem : Mem) (r : Str) (m : Bool) :
    writeReg mem r 1 (fun _ => !m) = update (writeReg mem r 1 fun _ => m) ⟨r, 0⟩ (!writeReg mem r 1 (fun _ => m) ⟨r, 0⟩) := by
  funext b
  obtain ⟨t, k⟩ := b
  by_cases e : (⟨t, k⟩ : Clbit) = ⟨r, 0⟩
  · rw [e, update_self, writeReg_mem Nat.one_pos, writeReg_mem Nat.one_pos]
  · rw [update_of_ne e]
    unfold writeReg
    have : ¬ (t = r ∧ k < 1) := by
      rintro ⟨rfl, h⟩
      exact e (by rw [show k = 0 by omega])
    rw [if_neg this, if_neg this]

/-- A gate that anticommutes with the observable read. -/
theorem reads_flip {name : Str} {L G : Op} (hG : OnData name G) (hs : G * G = 1) (ha : Passes true G L) {r : Str} {s s' : QState} :
    Reads name L r 1 ⟨G s.psi, s.mem⟩ s' ↔ ∃ t, Reads name L r 1 s t ∧
      s' = ⟨G (opX (ancQ name) t.psi), update t.mem ⟨r, 0⟩ (!t.mem ⟨r, 0⟩)⟩ := by
  have key : ∀ c m, clear (!m) (ancQ name) * projOf L (!m) * clear c (ancQ name) * opP c (ancQ name) * G =
      G * opX (ancQ name) * (clear m (ancQ name) * projOf L m * clear c (ancQ name) * opP c (ancQ name)) := by
    intro c m
    have e := ha.proj m
    rw [show (m ^^ true) = !m by cases m <;> rfl] at e
    calc clear (!m) (ancQ name) * projOf L (!m) * clear c (ancQ name) * opP c (ancQ name) * G
        = clear (!m) (ancQ name) * projOf L (!m) * clear c (ancQ name) * (G * opP c (ancQ name)) := by rw [(hG.ancP c).eq]; simp only [mul_assoc]
      _ = clear (!m) (ancQ name) * projOf L (!m) * (G * clear c (ancQ name)) * opP c (ancQ name) := by rw [(hG.anc c).eq]; simp only [mul_assoc]
      _ = clear (!m) (ancQ name) * (G * projOf L m) * clear c (ancQ name) * opP c (ancQ name) := by rw [e]; simp only [mul_assoc]
      _ = (G * clear (!m) (ancQ name)) * projOf L m * clear c (ancQ name) * opP c (ancQ name) := by rw [(hG.anc (!m)).eq]; simp only [mul_assoc]
      _ = _ := by rw [← clear_not]; simp only [mul_assoc]
  have hX : ∀ ψ : Psi, ψ ≠ 0 ↔ G (opX (ancQ name) ψ) ≠ 0 := by
    intro ψ
    refine ⟨fun h => ne_zero_of_sq hs (fault_ne_zero .X _ h), fun h e => h (by rw [e, map_zero, map_zero])⟩
  constructor
  · rintro ⟨c, m, e, hne, hm⟩
    obtain ⟨m', rfl⟩ : ∃ m', m = !m' := ⟨!m, by simp⟩
    have hk := congrArg (fun F : Op => F s.psi) (key c m')
    have e2 : s'.psi = G (opX (ancQ name) ((clear m' (ancQ name) * projOf L m' * clear c (ancQ name) * opP c (ancQ name)) s.psi)) := e.trans hk
    refine ⟨⟨(clear m' (ancQ name) * projOf L m' * clear c (ancQ name) * opP c (ancQ name)) s.psi, writeReg s.mem r 1 fun _ => m'⟩,
      ⟨c, m', rfl, ?_, rfl⟩, ?_⟩
    · rw [hX]
      exact e2 ▸ hne
    · obtain ⟨ψ, mem⟩ := s'
      simp only at e2 hm
      rw [e2, hm]
      simp only
      rw [hasValue_flip]
  · rintro ⟨t, ⟨c, m, e, hne, hm⟩, rfl⟩
    refine ⟨c, !m, ?_, (hX _).1 hne, ?_⟩
    · have hk := congrArg (fun F : Op => F s.psi) (key c m)
      simp only
      rw [e]
      exact hk.symm
    · simp only
      rw [hm, hasValue_flip]

/-- A gate that commutes with the observable read. -/
theorem reads_keep {name : Str} {L G : Op} (hG : OnData name G) (hs : G * G = 1) (ha : Commute G L) {r : Str} {n : Nat} {s s' : QState} :
    Reads name L r n ⟨G s.psi, s.mem⟩ s' ↔ ∃ t, Reads name L r n s t ∧ s' = ⟨G t.psi, t.mem⟩ := by
  have key : ∀ c m, clear m (ancQ name) * projOf L m * clear c (ancQ name) * opP c (ancQ name) * G =
      G * (clear m (ancQ name) * projOf L m * clear c (ancQ name) * opP c (ancQ name)) := fun c m =>
    ((((hG.anc m).mul_right (Commute.proj ha m)).mul_right (hG.anc c)).mul_right (hG.ancP c)).eq.symm
  have hX : ∀ ψ : Psi, ψ ≠ 0 ↔ G ψ ≠ 0 := by
    intro ψ
    refine ⟨fun h => ne_zero_of_sq hs h, fun h e => h (by rw [e, map_zero])⟩
  constructor
  · rintro ⟨c, m, e, hne, hm⟩
    have hk := congrArg (fun F : Op => F s.psi) (key c m)
    have e2 : s'.psi = G ((clear m (ancQ name) * projOf L m * clear c (ancQ name) * opP c (ancQ name)) s.psi) := e.trans hk
    refine ⟨⟨(clear m (ancQ name) * projOf L m * clear c (ancQ name) * opP c (ancQ name)) s.psi, writeReg s.mem r n fun _ => m⟩,
      ⟨c, m, rfl, ?_, rfl⟩, ?_⟩
    · rw [hX]
      exact e2 ▸ hne
    · obtain ⟨ψ, mem⟩ := s'
      simp only at e2 hm
      rw [e2, hm]
  · rintro ⟨t, ⟨c, m, e, hne, hm⟩, rfl⟩
    refine ⟨c, m, ?_, (hX _).1 hne, hm⟩
    have hk := congrArg (fun F : Op => F s.psi) (key c m)
    simp only
    rw [e]
    exact hk.symm

/-- A gate that commutes with all plaquettes. -/
theorem stabilize_keep (A : After cls q dh dw ops w) {G : Op} (hG : OnData q.lat.name G) (hs : G * G = 1)
    (hc : ∀ C ∈ checks cls.code q.lat.name dh dw, Commute G C) {s s' : QState} (h0 : s.psi ≠ 0) (hz : SynZero q.lat.name dh dw s.psi) :
    Run sz (added q .stabilize w) ⟨G s.psi, s.mem⟩ s' ↔ ∃ t, Run sz (added q .stabilize w) s t ∧ s' = ⟨G t.psi, t.mem⟩ := by
  have hX : ∀ ψ : Psi, ψ ≠ 0 ↔ G ψ ≠ 0 := by
    intro ψ
    refine ⟨fun h => ne_zero_of_sq hs h, fun h e => h (by rw [e, map_zero])⟩
  have hk : ∀ m, jointProj (checks cls.code q.lat.name dh dw) m (G s.psi) = G (jointProj (checks cls.code q.lat.name dh dw) m s.psi) :=
    fun m => congrArg (fun F : Op => F s.psi) (jointProj_comm hc m).eq.symm
  rw [run_stabilize A (s := ⟨G s.psi, s.mem⟩) ((hX _).1 h0) (hG.synZero hz)]
  constructor
  · rintro ⟨m, e, hne, hm⟩
    have e2 := e.trans (hk m)
    refine ⟨⟨jointProj (checks cls.code q.lat.name dh dw) m s.psi, s'.mem⟩, (run_stabilize A h0 hz).2 ⟨m, rfl, ?_, hm⟩, ?_⟩
    · rw [hX]; exact e2 ▸ hne
    · obtain ⟨ψ, mem⟩ := s'
      simp only at e2
      rw [e2]
  · rintro ⟨t, ht, rfl⟩
    obtain ⟨m, e, hne, hm⟩ := (run_stabilize A h0 hz).1 ht
    refine ⟨m, ?_, (hX _).1 hne, hm⟩
    simp only
    rw [hk, e]

theorem gate_run (A : After cls q dh dw ops w) {o g : QOp} {G : Op} (hg : ∀ s s', Run sz (added q g w) s s' ↔ s' = ⟨G s.psi, s.mem⟩)
    {s s' : QState} : Run sz (addedAll q [g, o] w) s s' ↔ Run sz (added q o (q.op g w).2) ⟨G s.psi, s.mem⟩ s' := by
  rw [A.run_cons]
  constructor
  · rintro ⟨t, h1, h2⟩
    rw [(A.next g).all_single] at h2
    rw [(hg s t).1 h1] at h2
    exact h2
  · intro h
    exact ⟨_, (hg s _).2 rfl, by rw [(A.next g).all_single]; exact h⟩

/-- C58: a logical X before `readout_z`: the executions are those without it, with the bit read flipped (and the logical X, and the
flip of the ancilla that holds the bit, applied to the state). -/
theorem C58_x_flips_z (A : After cls q dh dw ops w) (hw : cls ≠ .xzzx ∨ 1 < dw) :
    ∃ r, r ∉ w.circ.names ∧ (q.ops [.x, .readoutZ none] w).circ.cregs = w.circ.cregs ++ [⟨r, 1⟩] ∧
      (q.op (.readoutZ none) w).2.circ.cregs = w.circ.cregs ++ [⟨r, 1⟩] ∧
      ∀ s s', s.psi ≠ 0 → (Run sz (addedAll q [.x, .readoutZ none] w) s s' ↔ ∃ t, Run sz (added q (.readoutZ none) w) s t ∧
        s' = ⟨logX cls.code q.lat.name dh dw (opX (ancQ q.lat.name) t.psi), update t.mem ⟨r, 0⟩ (!t.mem ⟨r, 0⟩)⟩) := by
  have H := A.own.2.placed.odd
  obtain ⟨h1, h2⟩ := readout_new A (Or.inr rfl : (.readoutZ none : QOp) = .readoutX none ∨ _)
  obtain ⟨-, h3⟩ := readout_new (A.next .x) (Or.inr rfl : (.readoutZ none : QOp) = .readoutX none ∨ _)
  have hcx : (q.op .x w).2.circ.cregs = w.circ.cregs := by
    rw [show q.op .x w = _ from A.own.2.placed.emits_x.run]; rfl
  rw [next_x A, hcx] at h3
  refine ⟨_, h1, h3, h2, ?_⟩
  intro s s' h0
  rw [gate_run A fun s s' => run_x A]
  rw [run_readoutZ (A.next .x) hw (s := ⟨logX cls.code q.lat.name dh dw s.psi, s.mem⟩) (ne_zero_of_sq (logX_sq H) h0), next_x A,
    reads_flip logX_onData (logX_sq H) (logX_logZ H)]
  simp only [run_readoutZ A hw h0]

/-- C58: a logical X before `readout_x` changes nothing that is read. -/
theorem C58_x_keeps_x (A : After cls q dh dw ops w) (hh : cls ≠ .xzzx ∨ 1 < dh) {s s' : QState} (h0 : s.psi ≠ 0) :
    Run sz (addedAll q [.x, .readoutX none] w) s s' ↔ ∃ t, Run sz (added q (.readoutX none) w) s t ∧
      s' = ⟨logX cls.code q.lat.name dh dw t.psi, t.mem⟩ := by
  have H := A.own.2.placed.odd
  rw [gate_run A fun s s' => run_x A]
  rw [run_readoutX (A.next .x) hh (s := ⟨logX cls.code q.lat.name dh dw s.psi, s.mem⟩) (ne_zero_of_sq (logX_sq H) h0), next_x A,
    reads_keep logX_onData (logX_sq H) (Commute.refl _)]
  simp only [run_readoutX A hh h0]

/-- C58: a logical X before a stabilization changes no syndrome. -/
theorem C58_x_keeps_syndromes (A : After cls q dh dw ops w) {s s' : QState} (h0 : s.psi ≠ 0) (hs : SynZero q.lat.name dh dw s.psi) :
    Run sz (addedAll q [.x, .stabilize] w) s s' ↔ ∃ t, Run sz (added q .stabilize w) s t ∧
      s' = ⟨logX cls.code q.lat.name dh dw t.psi, t.mem⟩ := by
  have H := A.own.2.placed.odd
  rw [gate_run A fun s s' => run_x A]
  rw [← stabilize_keep A logX_onData (logX_sq H) (fun C hC => logX_checks H hC) h0 hs, added_stabilize A, added_stabilize (A.next .x)]
  rw [show (ops ++ [QOp.x]).count .stabilize = ops.count .stabilize by rw [List.count_append]; rfl]

/-- C58: a logical Z before `readout_x` flips the bit read. -/
theorem C58_z_flips_x (A : After cls q dh dw ops w) (hh : cls ≠ .xzzx ∨ 1 < dh) :
    ∃ r, r ∉ w.circ.names ∧ (q.ops [.z, .readoutX none] w).circ.cregs = w.circ.cregs ++ [⟨r, 1⟩] ∧
      (q.op (.readoutX none) w).2.circ.cregs = w.circ.cregs ++ [⟨r, 1⟩] ∧
      ∀ s s', s.psi ≠ 0 → (Run sz (addedAll q [.z, .readoutX none] w) s s' ↔ ∃ t, Run sz (added q (.readoutX none) w) s t ∧
        s' = ⟨logZ cls.code q.lat.name dw (opX (ancQ q.lat.name) t.psi), update t.mem ⟨r, 0⟩ (!t.mem ⟨r, 0⟩)⟩) := by
  have H := A.own.2.placed.odd
  obtain ⟨h1, h2⟩ := readout_new A (Or.inl rfl : (.readoutX none : QOp) = .readoutX none ∨ _)
  obtain ⟨-, h3⟩ := readout_new (A.next .z) (Or.inl rfl : (.readoutX none : QOp) = .readoutX none ∨ _)
  have hcx : (q.op .z w).2.circ.cregs = w.circ.cregs := by
    rw [show q.op .z w = _ from A.own.2.placed.emits_z.run]; rfl
  rw [next_z A, hcx] at h3
  refine ⟨_, h1, h3, h2, ?_⟩
  intro s s' h0
  rw [gate_run A fun s s' => run_z A]
  rw [run_readoutX (A.next .z) hh (s := ⟨logZ cls.code q.lat.name dw s.psi, s.mem⟩) (ne_zero_of_sq logZ_sq h0), next_z A,
    reads_flip logZ_onData logZ_sq (logX_logZ H).symm]
  simp only [run_readoutX A hh h0]

/-- C58: a logical Z before `readout_z` changes nothing that is read. -/
theorem C58_z_keeps_z (A : After cls q dh dw ops w) (hw : cls ≠ .xzzx ∨ 1 < dw) {s s' : QState} (h0 : s.psi ≠ 0) :
    Run sz (addedAll q [.z, .readoutZ none] w) s s' ↔ ∃ t, Run sz (added q (.readoutZ none) w) s t ∧
      s' = ⟨logZ cls.code q.lat.name dw t.psi, t.mem⟩ := by
  rw [gate_run A fun s s' => run_z A]
  rw [run_readoutZ (A.next .z) hw (s := ⟨logZ cls.code q.lat.name dw s.psi, s.mem⟩) (ne_zero_of_sq logZ_sq h0), next_z A,
    reads_keep logZ_onData logZ_sq (Commute.refl _)]
  simp only [run_readoutZ A hw h0]

/-- C58: a logical Z before a stabilization changes no syndrome. -/
theorem C58_z_keeps_syndromes (A : After cls q dh dw ops w) {s s' : QState} (h0 : s.psi ≠ 0) (hs : SynZero q.lat.name dh dw s.psi) :
    Run sz (addedAll q [.z, .stabilize] w) s s' ↔ ∃ t, Run sz (added q .stabilize w) s t ∧
      s' = ⟨logZ cls.code q.lat.name dw t.psi, t.mem⟩ := by
  have H := A.own.2.placed.odd
  rw [gate_run A fun s s' => run_z A]
  rw [← stabilize_keep A logZ_onData logZ_sq (fun C hC => logZ_checks H hC) h0 hs, added_stabilize A, added_stabilize (A.next .z)]
  rw [show (ops ++ [QOp.z]).count .stabilize = ops.count .stabilize by rw [List.count_append]; rfl]

/-- On a repetition code in the state in which all qubits are 0: a logical X before the readout gives what a readout gives, flipped. -/
example : ∃ q w, AfterAlone .rep q 3 1 [] w ∧ ∃ r s' t, Run (fun _ => 0) (addedAll q [.x, .readoutZ none] w) ⟨ground, fun _ => false⟩ s' ∧
    Run (fun _ => 0) (added q (.readoutZ none) w) ⟨ground, fun _ => false⟩ t ∧ s'.mem ⟨r, 0⟩ = !t.mem ⟨r, 0⟩ := by
  obtain ⟨q, w, A, hn⟩ := afterAlone_exists (dh := 3) (dw := 1) .rep "a".toList (by unfold OddPos; decide) (by simp) []
  obtain ⟨s', hs'⟩ := run_all_exists (sz := fun _ => 0) A.after ⟨ground, fun _ => false⟩ ground_ne_zero (l := [.x, .readoutZ none])
  obtain ⟨r, -, -, -, h⟩ := C58_x_flips_z (sz := fun _ => 0) A.after (Or.inl (by decide))
  obtain ⟨t, h1, h2⟩ := (h ⟨ground, fun _ => false⟩ s' ground_ne_zero).1 hs'
  refine ⟨q, w, A, r, s', t, hs', h1, ?_⟩
  rw [h2]
  exact update_self _ _ _

/-! ### C59 -/

/-- C59: `readout_z` acts as the projective measurement of logical Z, with the value in the new register (and in the ancilla,
which is reset before); every initial state, exactly these executions. -/
theorem C59_readout_z (A : After cls q dh dw ops w) (hw : cls ≠ .xzzx ∨ 1 < dw) :
    ∃ r, r ∉ w.circ.names ∧ (q.op (.readoutZ none) w).2.circ.cregs = w.circ.cregs ++ [⟨r, 1⟩] ∧
      ∀ s s', s.psi ≠ 0 → (Run sz (added q (.readoutZ none) w) s s' ↔ Reads q.lat.name (logZ cls.code q.lat.name dw) r 1 s s') := by
  obtain ⟨h1, h2⟩ := readout_new A (Or.inr rfl : (.readoutZ none : QOp) = .readoutX none ∨ _)
  exact ⟨_, h1, h2, fun s s' h0 => run_readoutZ A hw h0⟩

/-- C59: `readout_x` acts as the projective measurement of logical X. -/
theorem C59_readout_x (A : After cls q dh dw ops w) (hh : cls ≠ .xzzx ∨ 1 < dh) :
    ∃ r, r ∉ w.circ.names ∧ (q.op (.readoutX none) w).2.circ.cregs = w.circ.cregs ++ [⟨r, 1⟩] ∧
      ∀ s s', s.psi ≠ 0 → (Run sz (added q (.readoutX none) w) s s' ↔ Reads q.lat.name (logX cls.code q.lat.name dh dw) r 1 s s') := by
  obtain ⟨h1, h2⟩ := readout_new A (Or.inl rfl : (.readoutX none : QOp) = .readoutX none ∨ _)
  exact ⟨_, h1, h2, fun s s' h0 => run_readoutX A hh h0⟩

/-- C59: into a given register, all bits of which get the value. -/
theorem C59_given_register (A : After cls q dh dw ops w) {r : Reg} (hr : r ∈ w.circ.cregs) (hs : 0 < r.size) {s s' : QState}
    (h0 : s.psi ≠ 0) :
    (cls ≠ .xzzx ∨ 1 < dw → (Run sz (added q (.readoutZ (some r)) w) s s' ↔
      Reads q.lat.name (logZ cls.code q.lat.name dw) r.name r.size s s')) ∧
    (cls ≠ .xzzx ∨ 1 < dh → (Run sz (added q (.readoutX (some r)) w) s s' ↔
      Reads q.lat.name (logX cls.code q.lat.name dh dw) r.name r.size s s')) :=
  ⟨fun h => run_readoutZ_to A h hr hs h0, fun h => run_readoutX_to A h hr hs h0⟩

/-- C59: repeating `readout_z` gives the same bit, also after stabilizations and other operations that commute with logical Z in
between (and the flipped bit after an odd number of logical Xs). -/
theorem C59_repeat_z {l : List QOp} (A : After cls q dh dw ops w) (hw : cls ≠ .xzzx ∨ 1 < dw)
    (hg : ∀ o ∈ l, Gentle cls dh dw o ∧ o.blursZ = false) :
    ∃ r r', (q.op (.readoutZ none) w).2.circ.cregs = w.circ.cregs ++ [⟨r, 1⟩] ∧
      (q.ops (.readoutZ none :: l ++ [.readoutZ none]) w).circ.cregs = (q.ops (.readoutZ none :: l) w).circ.cregs ++ [⟨r', 1⟩] ∧
      ∀ s t s', s.psi ≠ 0 → Run sz (added q (.readoutZ none) w) s t →
        Run sz (addedAll q (l ++ [.readoutZ none]) (q.op (.readoutZ none) w).2) t s' →
          s'.mem ⟨r', 0⟩ = (t.mem ⟨r, 0⟩ ^^ decide (l.count .x % 2 = 1)) := by
  have A1 := A.next (.readoutZ none)
  have A2 := A1.all_next l
  obtain ⟨-, h1⟩ := readout_new A (Or.inr rfl : (.readoutZ none : QOp) = .readoutX none ∨ _)
  obtain ⟨-, h2⟩ := readout_new A2 (Or.inr rfl : (.readoutZ none : QOp) = .readoutX none ∨ _)
  refine ⟨_, _, h1, by rw [ops_snoc]; exact h2, ?_⟩
  intro s t s' h0 hR hR'
  obtain ⟨u, ha, hb⟩ := A1.run_append.1 hR'
  have ht := A.ne_zero h0 hR
  have hu := ne_zero_all A1 ht ha
  obtain ⟨v, e, hv⟩ := reads_after logZ_onData logZ_sq ((run_readoutZ A hw h0).1 hR)
  have hv' := logZ_track A1 hg ht ha hv
  rw [A2.all_single] at hb
  rw [reads_value logZ_onData ((run_readoutZ A2 hw hu).1 hb) hv', writeReg_mem Nat.one_pos, e, writeReg_mem Nat.one_pos]

/-- C59: repeating `readout_x`. -/
theorem C59_repeat_x {l : List QOp} (A : After cls q dh dw ops w) (hh : cls ≠ .xzzx ∨ 1 < dh)
    (hg : ∀ o ∈ l, Gentle cls dh dw o ∧ o.blursX = false) :
    ∃ r r', (q.op (.readoutX none) w).2.circ.cregs = w.circ.cregs ++ [⟨r, 1⟩] ∧
      (q.ops (.readoutX none :: l ++ [.readoutX none]) w).circ.cregs = (q.ops (.readoutX none :: l) w).circ.cregs ++ [⟨r', 1⟩] ∧
      ∀ s t s', s.psi ≠ 0 → Run sz (added q (.readoutX none) w) s t →
        Run sz (addedAll q (l ++ [.readoutX none]) (q.op (.readoutX none) w).2) t s' →
          s'.mem ⟨r', 0⟩ = (t.mem ⟨r, 0⟩ ^^ decide (l.count .z % 2 = 1)) := by
  have A1 := A.next (.readoutX none)
  have A2 := A1.all_next l
  have H := A.own.2.placed.odd
  obtain ⟨-, h1⟩ := readout_new A (Or.inl rfl : (.readoutX none : QOp) = .readoutX none ∨ _)
  obtain ⟨-, h2⟩ := readout_new A2 (Or.inl rfl : (.readoutX none : QOp) = .readoutX none ∨ _)
  refine ⟨_, _, h1, by rw [ops_snoc]; exact h2, ?_⟩
  intro s t s' h0 hR hR'
  obtain ⟨u, ha, hb⟩ := A1.run_append.1 hR'
  have ht := A.ne_zero h0 hR
  have hu := ne_zero_all A1 ht ha
  obtain ⟨v, e, hv⟩ := reads_after logX_onData (logX_sq H) ((run_readoutX A hh h0).1 hR)
  have hv' := logX_track A1 hg ht ha hv
  rw [A2.all_single] at hb
  rw [reads_value logX_onData ((run_readoutX A2 hh hu).1 hb) hv', writeReg_mem Nat.one_pos, e, writeReg_mem Nat.one_pos]

/-- C59: readouts do not disturb the syndrome: what the plaquettes are before, they are afterwards, and the syndrome qubits stay in
state 0. (That stabilizations before and after a readout give the same bits is part of `C56_same_bits`.) -/
theorem C59_keeps_syndrome (A : After cls q dh dw ops w) {o : QOp} (ho : o = .readoutX none ∨ o = .readoutZ none)
    (hg : Gentle cls dh dw o) {m : Nat → Bool} {s s' : QState} (h0 : s.psi ≠ 0) (hs : SynZero q.lat.name dh dw s.psi)
    (hR : Run sz (added q o w) s s') (hm : Syndrome cls.code q.lat.name dh dw m s.psi) :
    SynZero q.lat.name dh dw s'.psi ∧ Syndrome cls.code q.lat.name dh dw m s'.psi := by
  have := ho
  exact ⟨gentle_synZero A hg h0 hR hs, syndrome_track A hg h0 hR hm⟩

/-- In the state in which all qubits are 0, a readout of logical X has a random result; a second one after a stabilization repeats it. -/
example : ∃ q w, AfterAlone .xxzz q 3 3 [] w ∧ ∃ r r' t s', Run (fun _ => 0) (added q (.readoutX none) w) ⟨ground, fun _ => false⟩ t ∧
    Run (fun _ => 0) (addedAll q [.stabilize, .readoutX none] (q.op (.readoutX none) w).2) t s' ∧ s'.mem ⟨r', 0⟩ = t.mem ⟨r, 0⟩ := by
  obtain ⟨q, w, A, hn⟩ := afterAlone_exists (dh := 3) (dw := 3) .xxzz "a".toList (by unfold OddPos; decide) (by simp) []
  obtain ⟨t, ht⟩ := run_exists (sz := fun _ => 0) (A.after.proper (.readoutX none)) ⟨ground, fun _ => false⟩ ground_ne_zero
  obtain ⟨s', hs'⟩ := run_all_exists (sz := fun _ => 0) (A.after.next (.readoutX none)) t (A.after.ne_zero ground_ne_zero ht)
    (l := [.stabilize, .readoutX none])
  obtain ⟨r, r', -, -, h⟩ := C59_repeat_x (sz := fun _ => 0) (l := [.stabilize]) A.after (Or.inl (by decide)) (by
    intro o ho
    rw [List.mem_singleton.1 ho]
    exact ⟨trivial, rfl⟩)
  refine ⟨q, w, A, r, r', t, s', ht, hs', ?_⟩
  rw [h _ _ _ ground_ne_zero ht hs']
  simp

/-! ### C60 -/

/-- C60: a Pauli X or Z on one data qubit between two stabilizations flips exactly the bits of the plaquettes that notice it: those
with the qubit at a corner where their letter is the other one. -/
theorem C60_bits (A : After cls q dh dw ops w) (a : Letter) {i : Int} (hi : i ∈ allQubits dh dw) {s t s' : QState} (h0 : s.psi ≠ 0)
    (hs : SynZero q.lat.name dh dw s.psi) (h1 : Run sz (added q .stabilize w) s t)
    (h2 : Run sz (added q .stabilize (q.op .stabilize w).2) ⟨a.op (dataQ q.lat.name i) t.psi, t.mem⟩ s') :
    (∀ k p, (zSites dh dw)[k]? = some p → s'.mem ⟨q.lat.name ++ "_c".toList ++ strNat (ops.count .stabilize + 1), k⟩ =
      (s'.mem ⟨q.lat.name ++ "_c".toList ++ strNat (ops.count .stabilize), k⟩ ^^ detects cls.code dh dw .Z a i p)) ∧
    ∀ k p, (xSites dh dw)[k]? = some p → s'.mem ⟨q.lat.name ++ "_c".toList ++ strNat (ops.count .stabilize + 1), (zSites dh dw).length + k⟩ =
      (s'.mem ⟨q.lat.name ++ "_c".toList ++ strNat (ops.count .stabilize), (zSites dh dw).length + k⟩ ^^
        detects cls.code dh dw .X a i p) := by
  have H := A.own.2.placed.odd
  have A1 := A.next .stabilize
  obtain ⟨m, e1, e2, e3⟩ := (run_stabilize A h0 hs).1 h1
  have hsy : Syndrome cls.code q.lat.name dh dw m t.psi := by rw [e1]; exact syndrome_joint H m _
  have hz : SynZero q.lat.name dh dw t.psi := gentle_synZero (o := .stabilize) A trivial h0 h1 hs
  have hsy' := syndrome_fault H a (all_nonneg i hi) hsy
  obtain ⟨m', f1, f2, f3⟩ := (run_stabilize A1 (s := ⟨a.op (dataQ q.lat.name i) t.psi, t.mem⟩) (fault_ne_zero a _ e2)
    (letter_onData.synZero hz)).1 h2
  have hm := syndrome_outcome H hsy' (f1 ▸ f2)
  have hc : (ops ++ [QOp.stabilize]).count .stabilize = ops.count .stabilize + 1 := by rw [List.count_append]; rfl
  rw [hc] at f3
  unfold roundName at f3 e3
  rw [strInt_nat] at f3 e3
  have hne : q.lat.name ++ "_c".toList ++ strNat (ops.count .stabilize) ≠ q.lat.name ++ "_c".toList ++ strNat (ops.count .stabilize + 1) := by
    intro h
    have := roundName_inj (name := q.lat.name) (j := (ops.count .stabilize : Nat)) (k := (ops.count .stabilize + 1 : Nat))
      (by unfold roundName; rw [strInt_nat, strInt_nat]; exact h)
    omega
  have key : ∀ k < (xSites dh dw).length + (zSites dh dw).length,
      s'.mem ⟨q.lat.name ++ "_c".toList ++ strNat (ops.count .stabilize + 1), k⟩ =
        (s'.mem ⟨q.lat.name ++ "_c".toList ++ strNat (ops.count .stabilize), k⟩ ^^ flips cls.code dh dw a i k) := by
    intro k hk
    rw [f3, writeReg_mem hk, writeReg_other hne, e3, writeReg_mem hk]
    exact hm k hk
  constructor
  · intro k p hp
    have hk := (List.getElem?_eq_some_iff.1 hp).1
    rw [key k (by omega)]
    unfold flips
    rw [hp]
  · intro k p hp
    have hk := (List.getElem?_eq_some_iff.1 hp).1
    rw [key _ (by omega)]
    unfold flips
    rw [List.getElem?_eq_none (by omega : (zSites dh dw).length ≤ (zSites dh dw).length + k), Nat.add_sub_cancel_left, hp]

/-- C60: as reported by `parse_readout`: a qubit with any history without stabilizations and readouts, in any state with syndrome
qubits in state 0; `n + 1` stabilizations, a Pauli X or Z on one data qubit, at least one stabilization more (identity and logical
gates may be anywhere in between), a logical readout. Hits are exactly at the plaquettes that notice the fault, at time `n`. -/
theorem C60_hits {l l' : List QOp} (A : AfterAlone cls q dh dw ops w) (hq : ∀ o ∈ ops, o.quiet = true) (hn : ops.count .stabilize = 0)
    (hl : ∀ o ∈ l, Gentle cls dh dw o ∧ o.quiet = true) (hl' : ∀ o ∈ l', Gentle cls dh dw o ∧ o.quiet = true) (hbig : 1 < dh * dw)
    {n : Nat} (hcl : l.count .stabilize = n + 1) (hcl' : 0 < l'.count .stabilize)
    {o : QOp} (ho : o = .readoutX none ∨ o = .readoutZ none) (hgo : Gentle cls dh dw o) (a : Letter) {i : Int} (hi : i ∈ allQubits dh dw)
    {s t s' : QState} (h0 : s.psi ≠ 0) (hs : SynZero q.lat.name dh dw s.psi) (h1 : Run sz (addedAll q l w) s t)
    (h2 : Run sz (addedAll q (l' ++ [o]) (q.ops l w)) ⟨a.op (dataQ q.lat.name i) t.psi, t.mem⟩ s') (rt : RType) :
    ∃ b, parseReadout dh dw (joinSp (groups s'.mem (q.ops (l ++ l' ++ [o]) w).circ.cregs)) rt = .ok (b,
      { X := ((xSites dh dw).filter (detects cls.code dh dw .X a i)).map fun p => { t := n, r2 := p.1, c2 := p.2 }
        Z := ((zSites dh dw).filter (detects cls.code dh dw .Z a i)).map fun p => { t := n, r2 := p.1, c2 := p.2 } }) := by
  have H := A.after.own.2.placed.odd
  have A1 := A.all_next l
  have A2 := A.all_next (l ++ l')
  have hq' : ∀ o ∈ ops ++ (l ++ l'), o.quiet = true := by
    intro o ho
    rcases List.mem_append.1 ho with h | h
    · exact hq o h
    · rcases List.mem_append.1 h with h | h
      · exact (hl o h).2
      · exact (hl' o h).2
  have hc1 : (ops ++ l).count .stabilize = n + 1 := by rw [List.count_append, hn, hcl, Nat.zero_add]
  have hc2 : (ops ++ (l ++ l')).count .stabilize = n + 1 + l'.count .stabilize := by
    rw [List.count_append, List.count_append, hn, hcl, Nat.zero_add]
  obtain ⟨hz1, m, s1, -, s3⟩ := syndrome_some A.after (fun o h => (hl o h).1) h0 hs h1
  have s1 := s1 (List.count_pos_iff.1 (by omega))
  have ht := ne_zero_all A.after h0 h1
  have hg2 : ∀ o' ∈ l' ++ [o], Gentle cls dh dw o' := by
    intro o' h
    rcases List.mem_append.1 h with h | h
    · exact (hl' o' h).1
    · rw [List.mem_singleton.1 h]; exact hgo
  obtain ⟨-, -, u3, u4⟩ := syndrome_all A1.after hg2 (s := ⟨a.op (dataQ q.lat.name i) t.psi, t.mem⟩) (fault_ne_zero a _ ht)
    (letter_onData.synZero hz1) (syndrome_fault H a (all_nonneg i hi) s1) h2
  have ho' : (l' ++ [o]).count .stabilize = l'.count .stabilize := by
    rw [List.count_append, List.count_singleton]
    rcases ho with rfl | rfl <;> rfl
  rw [hc1] at u3 u4
  rw [ho'] at u4
  rw [hn, hcl] at s3
  have before : ∀ j : Nat, j ≤ n → ∀ k < (xSites dh dw).length + (zSites dh dw).length,
      s'.mem ⟨q.lat.name ++ "_c".toList ++ strNat j, k⟩ = m k := by
    intro j hj k hk
    have e1 := u3 j (by omega) k
    have e2 := s3 j (by omega) (by omega) k hk
    unfold roundName at e1 e2
    rw [strInt_nat] at e1 e2
    rw [e1, e2]
  have after : ∀ j : Nat, n < j → j < n + 1 + l'.count .stabilize → ∀ k < (xSites dh dw).length + (zSites dh dw).length,
      s'.mem ⟨q.lat.name ++ "_c".toList ++ strNat j, k⟩ = (m k ^^ flips cls.code dh dw a i k) := by
    intro j hj hj' k hk
    have e1 := u4 j (by omega) (by omega) k hk
    unfold roundName at e1
    rw [strInt_nat] at e1
    exact e1
  obtain ⟨-, hp⟩ := C51_logical A2 hq' hbig o ho s'.mem rt
  rw [hc2] at hp
  have hX : changes (xSites dh dw) ((List.range (n + 1 + l'.count .stabilize)).map fun t k =>
      s'.mem ⟨q.lat.name ++ "_c".toList ++ strNat t, (zSites dh dw).length + k⟩) =
      ((xSites dh dw).filter (detects cls.code dh dw .X a i)).map fun p => { t := n, r2 := p.1, c2 := p.2 } := by
    refine changes_once (f := fun k => m ((zSites dh dw).length + k)) (by rw [List.length_map, List.length_range]; omega) ?_ ?_
    · intro j hj f hf k hk
      rw [List.getElem?_map, Option.map_eq_some_iff] at hf
      obtain ⟨j', hj', rfl⟩ := hf
      obtain ⟨-, rfl⟩ := List.getElem?_eq_some_iff.1 hj'
      rw [List.getElem_range]
      exact before j hj _ (by omega)
    · intro j hj f hf k p hp
      rw [List.getElem?_map, Option.map_eq_some_iff] at hf
      obtain ⟨j', hj', rfl⟩ := hf
      obtain ⟨hlt, rfl⟩ := List.getElem?_eq_some_iff.1 hj'
      rw [List.length_range] at hlt
      rw [List.getElem_range]
      have hk := (List.getElem?_eq_some_iff.1 hp).1
      refine (after j hj hlt _ (by omega)).trans ?_
      unfold flips
      rw [List.getElem?_eq_none (by omega : (zSites dh dw).length ≤ (zSites dh dw).length + k), Nat.add_sub_cancel_left, hp]
  have hZ : changes (zSites dh dw) ((List.range (n + 1 + l'.count .stabilize)).map fun t k =>
      s'.mem ⟨q.lat.name ++ "_c".toList ++ strNat t, k⟩) =
      ((zSites dh dw).filter (detects cls.code dh dw .Z a i)).map fun p => { t := n, r2 := p.1, c2 := p.2 } := by
    refine changes_once (f := m) (by rw [List.length_map, List.length_range]; omega) ?_ ?_
    · intro j hj f hf k hk
      rw [List.getElem?_map, Option.map_eq_some_iff] at hf
      obtain ⟨j', hj', rfl⟩ := hf
      obtain ⟨-, rfl⟩ := List.getElem?_eq_some_iff.1 hj'
      rw [List.getElem_range]
      exact before j hj _ (by omega)
    · intro j hj f hf k p hp
      rw [List.getElem?_map, Option.map_eq_some_iff] at hf
      obtain ⟨j', hj', rfl⟩ := hf
      obtain ⟨hlt, rfl⟩ := List.getElem?_eq_some_iff.1 hj'
      rw [List.length_range] at hlt
      rw [List.getElem_range]
      have hk := (List.getElem?_eq_some_iff.1 hp).1
      refine (after j hj hlt _ (by omega)).trans ?_
      unfold flips
      rw [hp]
  rw [ops_snoc, hp, hX, hZ]
  exact ⟨_, rfl⟩

/-- The plaquettes that notice a fault on the middle qubit of a 3 × 3 lattice: for XXZZ the two Z plaquettes next to it notice an X,
the two X plaquettes a Z; for XZZX it is the other way round, but for its neighbour it is as for XXZZ. -/
example : (zSites 3 3).filter (detects .xxzz 3 3 .Z .X 4) = [(1, 1), (3, 3)] ∧ (xSites 3 3).filter (detects .xxzz 3 3 .X .X 4) = [] ∧
    (xSites 3 3).filter (detects .xxzz 3 3 .X .Z 4) = [(1, 3), (3, 1)] ∧ (zSites 3 3).filter (detects .xxzz 3 3 .Z .Z 4) = [] ∧
    (zSites 3 3).filter (detects .xzzx 3 3 .Z .X 4) = [] ∧ (xSites 3 3).filter (detects .xzzx 3 3 .X .X 4) = [(1, 3), (3, 1)] ∧
    (zSites 3 3).filter (detects .xzzx 3 3 .Z .X 1) = [(1, 1)] ∧ (xSites 3 3).filter (detects .xzzx 3 3 .X .X 1) = [] := by
  decide

/-- Two stabilizations of the 3 × 3 XXZZ lattice, an X on the middle qubit, one more stabilization: two hits at time 1. -/
example : ∃ q w, AfterAlone .xxzz q 3 3 [] w ∧ ∃ t s' b, Run (fun _ => 0) (addedAll q [.stabilize, .stabilize] w) ⟨ground, fun _ => false⟩ t ∧
    Run (fun _ => 0) (addedAll q [.stabilize, .readoutZ none] (q.ops [.stabilize, .stabilize] w))
      ⟨opX (dataQ "a".toList 4) t.psi, t.mem⟩ s' ∧
    parseReadout 3 3 (joinSp (groups s'.mem (q.ops [.stabilize, .stabilize, .stabilize, .readoutZ none] w).circ.cregs)) .Z =
      .ok (b, { X := [], Z := [{ t := 1, r2 := 1, c2 := 1 }, { t := 1, r2 := 3, c2 := 3 }] }) := by
  obtain ⟨q, w, A, hn⟩ := afterAlone_exists (dh := 3) (dw := 3) .xxzz "a".toList (by unfold OddPos; decide) (by simp) []
  obtain ⟨t, ht⟩ := run_all_exists (sz := fun _ => 0) A.after ⟨ground, fun _ => false⟩ ground_ne_zero (l := [.stabilize, .stabilize])
  have h0 := fault_ne_zero .X (dataQ q.lat.name 4) (ne_zero_all A.after (s := ⟨ground, fun _ => false⟩) ground_ne_zero ht)
  obtain ⟨s', hs'⟩ := run_all_exists (sz := fun _ => 0) (A.after.all_next [.stabilize, .stabilize])
    ⟨opX (dataQ q.lat.name 4) t.psi, t.mem⟩ h0 (l := [.stabilize, .readoutZ none])
  have hl : ∀ n, ∀ o ∈ List.replicate n QOp.stabilize, Gentle .xxzz 3 3 o ∧ o.quiet = true := by
    intro n o ho
    rw [(List.mem_replicate.1 ho).2]
    exact ⟨trivial, rfl⟩
  obtain ⟨b, hb⟩ := C60_hits A (by simp) rfl (hl 2) (hl 1) (by decide) (n := 1) rfl (by decide) (Or.inr rfl) (Or.inl (by decide)) .X
    (i := 4) (by decide) (s := ⟨ground, fun _ => false⟩) ground_ne_zero ground_synZero ht hs' .Z
  rw [hn] at hs'
  exact ⟨q, w, A, t, s', b, ht, hs', hb⟩

/-! ### C64 -/

/-- C64: `x_c_if` acts as logical X if the register holds the value and does nothing otherwise. -/
theorem C64_x_c_if (A : After cls q dh dw ops w) {r : Str} {v : Int} (hv : 0 ≤ v) {s s' : QState} :
    Run sz (added q (.xCIf r v) w) s s' ↔
      s' = if (regValue s.mem r (sz r) : Int) = v then ⟨logX cls.code q.lat.name dh dw s.psi, s.mem⟩ else s := run_xCIf A hv

/-- C64: `z_c_if` acts as logical Z if the register holds the value and does nothing otherwise. -/
theorem C64_z_c_if (A : After cls q dh dw ops w) {r : Str} {v : Int} (hv : 0 ≤ v) {s s' : QState} :
    Run sz (added q (.zCIf r v) w) s s' ↔
      s' = if (regValue s.mem r (sz r) : Int) = v then ⟨logZ cls.code q.lat.name dw s.psi, s.mem⟩ else s := run_zCIf A hv

/-- C64: this is what `x()` and `z()` do. -/
theorem C64_unconditional (A : After cls q dh dw ops w) {s s' : QState} :
    (Run sz (added q .x w) s s' ↔ s' = ⟨logX cls.code q.lat.name dh dw s.psi, s.mem⟩) ∧
    (Run sz (added q .z w) s s' ↔ s' = ⟨logZ cls.code q.lat.name dw s.psi, s.mem⟩) := ⟨run_x A, run_z A⟩

/-- A register of two bits that holds 2: a gate conditioned on 2 acts, one conditioned on 1 does not. -/
example : regValue (fun b => decide (b = ⟨"c".toList, 1⟩)) "c".toList 2 = 2 ∧
    ∃ q w, AfterAlone .xzzx q 3 3 [] w ∧ ∀ s s' : QState, s.mem = (fun b => decide (b = ⟨"c".toList, 1⟩)) →
      (Run (fun _ => 2) (added q (.xCIf "c".toList 2) w) s s' ↔ s' = ⟨logX .xzzx "a".toList 3 3 s.psi, s.mem⟩) ∧
      (Run (fun _ => 2) (added q (.xCIf "c".toList 1) w) s s' ↔ s' = s) := by
  have h2 : regValue (fun b => decide (b = ⟨"c".toList, 1⟩)) "c".toList 2 = 2 := by decide
  obtain ⟨q, w, A, hn⟩ := afterAlone_exists (dh := 3) (dw := 3) .xzzx "a".toList (by unfold OddPos; decide) (by simp) []
  refine ⟨h2, q, w, A, ?_⟩
  intro s s' hm
  rw [C64_x_c_if A.after (by decide), C64_x_c_if A.after (by decide), hm, h2, if_pos (by decide), if_neg (by decide), hn]
  exact ⟨Iff.rfl, Iff.rfl⟩

end Qtc
