import Verif.Proof.Indifferent
import Verif.Props.FirstRound
import Verif.Props.SharedParams
import Verif.Props.UnknownState
import Verif.Spec.OwnTests
/-!
C107: the repository's own test of single errors.
-/
namespace Qtc
open Spec Function

variable {cls : QClass} {q : TQubit} {dh dw : Int} {ops : List QOp} {w : World} {sz : Str → Nat} {key : Key} {code : Code} {name : Str}

/-! ### The circuit of the test -/

/-- The error as a pair: is it X, is it Z? -/
def TestErr.pair : TestErr → Bool × Bool
  | .x => (true, false)
  | .z => (false, true)

/-- The operations of the test, with identity gates where the error is. -/
def testOps (name : Str) (err : TestErr) (i : Int) : List (QOp × Errs) :=
  [(.stabilize, noErrs), (.idData, onlyOn (dataQ name i) err.pair), (.stabilize, noErrs)]

theorem testOps_memory {err : TestErr} {i : Int} : ∀ a ∈ testOps name err i, MemoryOp a.1 := by
  intro a ha
  simp only [testOps, List.mem_cons, List.not_mem_nil, or_false] at ha
  rcases ha with rfl | rfl | rfl <;> trivial

theorem withErrors_id_other {x y : Qubit} {v : Bool × Bool} (h : y ≠ x) (l : List Instr) :
    withErrors (onlyOn x v) (.gate1 .id y none :: l) = .gate1 .id y none :: withErrors (onlyOn x v) l := by
  rw [withErrors_cons]
  have : errorsAfter (onlyOn x v) (.gate1 .id y none) = [] := by
    show (if (onlyOn x v y).1 then _ else _) ++ (if (onlyOn x v y).2 then _ else _) = _
    unfold onlyOn
    rw [if_neg h]
    rfl
  rw [this, List.nil_append]

theorem run_id_none {x : Qubit} (s : QState) : Spec.Step sz (.gate1 .id x none) s s := Step.gate1 .id x s

theorem run_ids_other {x : Qubit} {v : Bool × Bool} {l : List Qubit} (h : x ∉ l) (s : QState) :
    Run sz (withErrors (onlyOn x v) (l.map fun y => Instr.gate1 .id y none)) s s := by
  induction l with
  | nil => rfl
  | cons y l ih =>
    rw [List.map_cons, withErrors_id_other (fun e => h (by rw [e]; simp))]
    exact ⟨s, run_id_none s, ih fun e => h (by simp [e])⟩

theorem run_ids_one {x : Qubit} {err : TestErr} {l : List Qubit} (hn : l.Nodup) (h : x ∈ l) {s s' : QState}
    (hR : Run sz [.gate1 err.gate x none] s s') : Run sz (withErrors (onlyOn x err.pair) (l.map fun y => Instr.gate1 .id y none)) s s' := by
  induction l with
  | nil => cases h
  | cons y l ih =>
    rw [List.nodup_cons] at hn
    by_cases e : y = x
    · subst e
      rw [List.map_cons, withErrors_cons]
      refine ⟨s, run_id_none s, ?_⟩
      have : errorsAfter (onlyOn y err.pair) (.gate1 .id y none) = [.gate1 err.gate y none] := by
        show (if (onlyOn y err.pair y).1 then _ else _) ++ (if (onlyOn y err.pair y).2 then _ else _) = _
        unfold onlyOn
        rw [if_pos rfl]
        cases err <;> rfl
      rw [this]
      exact Run.append.2 ⟨s', hR, run_ids_other hn.1 s'⟩
    · rw [List.map_cons, withErrors_id_other e]
      exact ⟨s, run_id_none s, ih hn.2 ((List.mem_cons.1 h).resolve_left fun h => e h.symm)⟩

theorem withErrors_barrier {e : Errs} : withErrors e [.barrier] = [.barrier] := rfl

/-- Identity gates do nothing: only the error remains. -/
theorem run_oneError {err : TestErr} {i : Int} (h0 : 0 ≤ i) (h1 : i < dh * dw) {s s' : QState}
    (hR : Run sz [.gate1 err.gate (dataQ name i) none] s s') :
    Run sz (withErrors (onlyOn (dataQ name i) err.pair) (((allQubits dh dw).map (dataQ name)).map (fun x => Instr.gate1 .id x none) ++ [.barrier])) s s' := by
  rw [withErrors_append]
  refine Run.append.2 ⟨s', run_ids_one ?_ (List.mem_map.2 ⟨i, mem_allQubits.2 ⟨h0, h1⟩, rfl⟩) hR, ⟨s', Step.barrier s', rfl⟩⟩
  refine List.Nodup.map_on (fun a ha b hb h => dataQ_inj (mem_allQubits.1 ha).1 (mem_allQubits.1 hb).1 h) ?_
  exact all_nodup

/-- The fault of the test's error: none, if the operators of the type do not notice it. -/
theorem test_faults (H : OddPos dh dw) {err : TestErr} {i : Int} (h0 : 0 ≤ i) (h1 : i < dh * dw) :
    faultsOf code key name dh dw 0 (testOps name err i) = if turnedBy code key i err.pair then [.data 0 (i / dw) (i % dw)] else [] := by
  have hdw := H.2.2.1
  show faultsIn code key name dh dw _ .stabilize noErrs ++ (faultsIn code key name dh dw _ .idData _ ++ (faultsIn code key name dh dw _ .stabilize noErrs ++ [])) = _
  rw [faultsIn_noErrs, faultsIn_noErrs, List.nil_append, List.append_nil, List.append_nil]
  have hl : (if turnedBy code key i err.pair then [.data 0 (i / dw) (i % dw)] else [] : List Fault).Nodup := by
    split
    · exact List.nodup_singleton _
    · exact List.nodup_nil
  have hp : (faultsIn code key name dh dw 0 .idData (onlyOn (dataQ name i) err.pair)).Perm
      (if turnedBy code key i err.pair then [.data 0 (i / dw) (i % dw)] else []) := by
    refine (List.perm_ext_iff_of_nodup (faultsIn_nodup hdw) hl).2 fun f => ?_
    show f ∈ faultsIn.dataFaults code key name dh dw 0 _ ↔ _
    rw [mem_dataFaults hdw]
    constructor
    · rintro ⟨r, c, rfl, h2, h3, h4, h5, h6⟩
      have hpos : 0 ≤ r * dw + c := by positivity
      have hi : r * dw + c = i := by
        by_contra hne
        rw [onlyOn, if_neg (fun h => hne (dataQ_inj hpos h0 h)), turnedBy_none] at h6
        cases h6
      rw [onlyOn, hi, if_pos rfl] at h6
      rw [h6, if_pos rfl, List.mem_singleton, ← hi]
      have hr : (r * dw + c) / dw = r := by
        rw [add_comm, Int.add_mul_ediv_right _ _ (by omega), Int.ediv_eq_zero_of_lt h4 h5, zero_add]
      have hc : (r * dw + c) % dw = c := by rw [add_comm, Int.add_mul_emod_self_right, Int.emod_eq_of_lt h4 h5]
      rw [hr, hc]
    · intro h
      split at h
      · next ht =>
        rw [List.mem_singleton] at h
        subst h
        have e : i / dw * dw + i % dw = i := by have := Int.mul_ediv_add_emod i dw; rw [mul_comm] at this; exact this
        refine ⟨i / dw, i % dw, rfl, Int.ediv_nonneg h0 (by omega), (Int.ediv_lt_iff_lt_mul hdw).2 h1, Int.emod_nonneg _ (by omega), Int.emod_lt_of_pos _ hdw, ?_⟩
        rw [e, onlyOn, if_pos rfl]
        exact ht
      · cases h
  show faultsIn code key name dh dw 0 .idData (onlyOn (dataQ name i) err.pair) = _
  by_cases ht : turnedBy code key i err.pair
  · rw [if_pos ht] at hp ⊢; exact List.perm_singleton.1 hp
  · rw [if_neg ht] at hp ⊢; exact List.perm_nil.1 hp

theorem test_op_ok (A : After cls q dh dw ops w) (hbig : 1 < dh * dw) (hc : CanRead cls dh dw key) {o : QOp}
    (ho : o = prepOp key ∨ o = .stabilize ∨ o = readOp key) : (q.op o w).1 = .ok () := by
  obtain ⟨W, O⟩ := A.own
  have P := O.placed
  obtain ⟨a, ha, -, hfa⟩ := O.readout
  have hcode := A.code
  rcases ho with rfl | rfl | rfl
  · cases key
    · show (q.lat.resetX w).1 = _
      rw [(P.emits_resetX (Or.inl hbig)).run]
    · show (q.lat.resetZ w).1 = _
      rw [P.emits_resetZ.run]
  · obtain ⟨w', h, -⟩ := C50_stabilize A; rw [h]
  · cases key
    · show (q.lat.readoutX none w).1 = _
      rw [P.readoutX_run (hc.symm.imp id fun h => by rw [hcode]; exact xzzx_code h) ha (hfa _ (by omega))]
    · show (q.lat.readoutZ none w).1 = _
      rw [P.readoutZ_run (hc.symm.imp id fun h => by rw [hcode]; exact xzzx_code h) ha (hfa _ (by omega))]

/-- The dictionary of the test fits. -/
def TestDict (dcls : DClass) (dh dw : Int) (p : Params) : Prop := Fitting dcls dh dw p ∧ p.d = some (.tup [.int dh, .int dw])

theorem testDict_repValidate {dcls : DClass} {p p' : Params} (h : TestDict dcls dh dw p) (hv : repValidate p = .ok p') : TestDict dcls dh dw p' := by
  refine ⟨fitting_repValidate h.1 hv, ?_⟩
  by_cases hc : (if p.pfp.getD false then (Num.int dh).EqOne else (Num.int dw).EqOne)
  · rw [(C12_pair p _ _ h.2).1 hc] at hv
    cases hv
    exact h.2
  · rw [(C12_pair p _ _ h.2).2 hc] at hv
    cases hv

theorem repTouched_pair {p : Params} (h : p.d = some (.tup [.int dh, .int dw])) : (repTouched p).d = some (.tup [.int dh, .int dw]) := by
  unfold repTouched
  by_cases hc : (if p.pfp.getD false then (Num.int dh).EqOne else (Num.int dw).EqOne)
  · rw [(C12_pair p _ _ h).1 hc]
    exact h
  · rw [(C12_pair p _ _ h).2 hc]
    exact h

theorem testDict_rotatedValidate {dcls : DClass} {p p' : Params} (h : TestDict dcls dh dw p) (hv : rotatedValidate p = .ok p') :
    TestDict dcls dh dw p' := ⟨fitting_rotatedValidate h.1 hv, (rotatedValidate_pair (Or.inl h.2) hv).1⟩

theorem testDict_counters {dcls : DClass} : CounterFree (TestDict dcls dh dw) := fun _ _ _ _ h => ⟨⟨h.1.d, h.1.rep⟩, h.2⟩

theorem testDict_simulate {dcls : DClass} {r : Nat} {err : TestErr} {i : Int} (hP : TestDict dcls dh dw (w.heap r)) (hr : r < w.next) :
    TestDict dcls dh dw ((simulateCircuit cls r err i key w).2.heap r) ∧ r < (simulateCircuit cls r err i key w).2.next := by
  have hs : KeepsP r (TestDict dcls dh dw) (simulateCircuit cls r err i key) := by
    unfold simulateCircuit
    refine (keepsP_newQubit (fun _ _ h => testDict_repValidate h) (fun _ _ h => testDict_rotatedValidate h)
      (fun _ h => ⟨fitting_repTouched h.1, repTouched_pair h.2⟩)
      (fun _ h => ⟨fitting_rotatedTouched h.1, (rotatedTouched_pair (Or.inl h.2)).1⟩)).bind fun q => ?_
    have ho : ∀ o, KeepsP r (TestDict dcls dh dw) (q.op o) := fun o => keepsP_op testDict_counters q o
    exact (ho _).bind fun _ => (ho .stabilize).bind fun _ => KeepsP.lift.bind fun _ => keepsP_gate1.bind fun _ => (ho .stabilize).bind fun _ =>
      (ho _).bind fun _ => KeepsP.pure
  exact hs w ⟨hP, hr⟩

theorem simulateCircuit_eq (cls : QClass) (r : Nat) (err : TestErr) (i : Int) (key : Key) : simulateCircuit cls r err i key = (do
    let q ← newQubit cls (some r) "tq".toList
    q.op (prepOp key)
    q.stabilize
    let x ← CM.lift (q.lat.data.at i)
    gate1 err.gate [x]
    q.stabilize
    q.op (readOp key)
    return q) := by cases key <;> rfl

/-- What `simulate` builds: for its executions it does not matter that the error is a gate of its own and not an error of an identity gate. -/
theorem simulateCircuit_ok (H : OddPos dh dw) (hbig : 1 < dh * dw) {r : Nat} (hd : (w.heap r).d = some (.tup [.int dh, .int dw]))
    (hw : w.circ = {}) (hcls : cls ≠ .rep) {err : TestErr} {i : Int} (h0 : 0 ≤ i) (h1 : i < dh * dw) (hc : CanRead cls dh dw key) :
    ∃ q w1 w', AfterAlone cls q dh dw [] w1 ∧ simulateCircuit cls r err i key w = (.ok q, w') ∧
      w'.circ.cregs = (q.ops (prepOp key :: (testOps q.lat.name err i).map Prod.fst ++ [readOp key]) w1).circ.cregs ∧
      (∀ j ∈ w'.circ.instrs, j.Proper) ∧ ∀ (sz : Str → Nat) (s s' : QState), Run sz w'.circ.instrs s s' →
        Run sz (noisyAll q ((prepOp key, noErrs) :: testOps q.lat.name err i ++ [(readOp key, noErrs)]) w1) s s' := by
  obtain ⟨q, W1, hq, B, -⟩ := built_of_size cls "tq".toList w r H hd (fun h => absurd h hcls) (by rw [hw]; intro g _ h; cases h)
  have A1 : AfterAlone cls q dh dw [] W1 := ⟨w, W1, hw, B, rfl⟩
  have hI : W1.circ.instrs = [] := by
    obtain ⟨-, -, ⟨p, u, hu, e, -⟩, -⟩ := B.inv
    rw [e]
    show u.circ.instrs = []
    rw [hu, hw]
  have A2 := A1.after.next (prepOp key)
  have A3 := A2.next .stabilize
  have A5 := A3.next .stabilize
  have e1 := test_op_ok A1.after hbig hc (o := prepOp key) (Or.inl rfl)
  have e2 := test_op_ok A2 hbig hc (key := key) (o := .stabilize) (Or.inr (Or.inl rfl))
  have e3 := test_op_ok A3 hbig hc (key := key) (o := .stabilize) (Or.inr (Or.inl rfl))
  have e5 := test_op_ok A5 hbig hc (o := readOp key) (Or.inr (Or.inr rfl))
  have i2 := A1.after.instrs (prepOp key)
  have i3 := A2.instrs .stabilize
  rw [hI, List.nil_append] at i2
  rw [i2] at i3
  have p1 := A1.after.proper (prepOp key)
  have p2 := A2.proper .stabilize
  have p3 := A3.proper .stabilize
  have p5 := A5.proper (readOp key)
  have hids := C53_id_data A3
  have hadd := added_idData A3
  have hat := A3.own.2.placed.dataAt ⟨h0, h1⟩
  have hg := (emits_gate1_one (g := err.gate) (A3.own.2.placed.dataQ_mem h0 h1)).run
  generalize hW2 : (q.op (prepOp key) W1).2 = W2 at *
  generalize hW3 : (q.op .stabilize W2).2 = W3 at *
  generalize hW5 : (q.op .stabilize W3).2 = W5 at *
  have hV4 : ({ W3 with circ := { W3.circ with instrs := W3.circ.instrs ++
      ((allQubits dh dw).map (fun i => Instr.gate1 .id (dataQ q.lat.name i) none) ++ [.barrier]) } } : World) = W3.setI (W3.circ.instrs ++
      ((allQubits dh dw).map (fun i => Instr.gate1 .id (dataQ q.lat.name i) none) ++ [.barrier])) := rfl
  refine ⟨q, W1, (q.op (readOp key) W5).2.setI (W3.circ.instrs ++ [.gate1 err.gate (dataQ q.lat.name i) none] ++ added q .stabilize W3 ++ added q (readOp key) W5), A1, ?_, ?_, ?_, ?_⟩
  · rw [simulateCircuit_eq, CM.bind_ok hq, CM.bind_ok (s' := W2) (a := ()) (by rw [← hW2]; exact Prod.ext e1 rfl), CM.bind_ok (s' := W3) (a := ()) (by rw [← hW3]; exact Prod.ext e2 rfl), CM.bind_ok (s' := W3) (a := dataQ q.lat.name i) (by
      rw [CM.lift_run, hat]), CM.bind_ok hg]
    have h5 : q.stabilize (W3.emit [.gate1 err.gate (dataQ q.lat.name i) none]) =
        (.ok (), W5.setI (W3.circ.instrs ++ [.gate1 err.gate (dataQ q.lat.name i) none] ++ added q .stabilize W3)) := by
      have := op_setI (q := q) .stabilize W3 (W3.circ.instrs ++ [.gate1 err.gate (dataQ q.lat.name i) none])
      rw [e3, hW5] at this
      exact this
    rw [CM.bind_ok h5]
    have h6 := op_setI (q := q) (readOp key) W5 (W3.circ.instrs ++ [.gate1 err.gate (dataQ q.lat.name i) none] ++ added q .stabilize W3)
    rw [e5] at h6
    rw [CM.bind_ok h6]
    rfl
  · show (q.op (readOp key) W5).2.circ.cregs = (q.op (readOp key) (q.op .stabilize (q.op .idData (q.op .stabilize (q.op (prepOp key) W1).2).2).2).2).2.circ.cregs
    rw [hW2, hW3, hids, hV4, op_setI, hW5, op_setI]
    rfl
  · intro j hj
    have hj' : j ∈ W3.circ.instrs ++ [.gate1 err.gate (dataQ q.lat.name i) none] ++ added q .stabilize W3 ++ added q (readOp key) W5 := hj
    rw [i3] at hj'
    simp only [List.mem_append, List.mem_singleton] at hj'
    rcases hj' with (((h | h) | h) | h) | h
    · exact p1 j h
    · exact p2 j h
    · rw [h]; trivial
    · exact p3 j h
    · exact p5 j h
  · intro sz s s' hR
    have hR' : Run sz (added q (prepOp key) W1 ++ added q .stabilize W2 ++ [.gate1 err.gate (dataQ q.lat.name i) none] ++ added q .stabilize W3 ++
      added q (readOp key) W5) s s' := by rw [← i3]; exact hR
    obtain ⟨t4, hR', r5⟩ := Run.append.1 hR'
    obtain ⟨t3, hR', r4⟩ := Run.append.1 hR'
    obtain ⟨t2, hR', r3⟩ := Run.append.1 hR'
    obtain ⟨t1, r1, r2⟩ := Run.append.1 hR'
    show Run sz (withErrors noErrs (added q (prepOp key) W1) ++ (withErrors noErrs (added q .stabilize (q.op (prepOp key) W1).2) ++
      (withErrors (onlyOn (dataQ q.lat.name i) err.pair) (added q .idData (q.op .stabilize (q.op (prepOp key) W1).2).2) ++
      (withErrors noErrs (added q .stabilize (q.op .idData (q.op .stabilize (q.op (prepOp key) W1).2).2).2) ++
      (withErrors noErrs (added q (readOp key) (q.op .stabilize (q.op .idData (q.op .stabilize (q.op (prepOp key) W1).2).2).2).2) ++ []))))) s s'
    rw [hW2, hW3, hids, hV4, op_setI, hW5, added_setI, added_setI, hadd, withErrors_noErrs, withErrors_noErrs, withErrors_noErrs, withErrors_noErrs,
      List.append_nil]
    exact Run.append.2 ⟨t1, r1, Run.append.2 ⟨t2, r2, Run.append.2 ⟨t3, run_oneError h0 h1 r3, Run.append.2 ⟨t4, r4, r5⟩⟩⟩⟩

/-! ### One call -/

theorem testType_eq : testType key = rtypeOf key := by cases key <;> rfl

/-- Without hits the decoder needs no graph: the value is the one that was read. -/
theorem correct_quiet (H : OddPos dh dw) (hbig : 1 < dh * dw) {D : Decoder} (hdh : D.dh = dh) (hdw : D.dw = dw) {m : Matcher} {T : Int}
    {ref : Int → Int → Bool} {rounds : List Str} (hlen : (rounds.length : Int) = T + 1) (hr : RoundsRead key dh dw ref [] rounds) (b : Bool) :
    correctString D m (joinSp ([if b then '1' else '0'] :: rounds.reverse)) (rtypeOf key) none = .ok (some (bit b)) := by
  have hp := C15_parse_is_changes dh dw H hbig (rtypeOf key) (if b then '1' else '0') (by split <;> decide) _ hr.1
  have hv : digitVal (if b then '1' else '0') = bit b := by cases b <;> decide
  rw [hv] at hp
  have hno : ∀ bits : List (Nat → Bool), bits = rounds.map (keyBits key dh dw) → changes (sitesOf key dh dw) bits = [] := by
    rintro bits rfl
    refine List.eq_nil_iff_forall_not_mem.2 fun n hn => ?_
    rw [changes_isHit (key := key) (ref := ref) (fs := []) (T := T) (by rw [List.length_map]; exact hlen) (fun t k a p ha hp => by
      rw [List.getElem?_map, Option.map_eq_some_iff] at ha
      obtain ⟨s, hs, rfl⟩ := ha
      exact hr.2 t k s p hs hp)] at hn
    exact absurd hn.2.2.2 (by simp)
  unfold correctString
  rw [hdh, hdw, hp]
  have hh : ∀ h : Hits, h.toDict (rtypeOf key) = some [] → correctHits D m h.toDict (rtypeOf key) (some (bit b)) none =
      .ok (some (bit b), fun k => if k = rtypeOf key then some [] else h.toDict k) := by
    intro h e
    unfold correctHits
    rw [e]
    rfl
  show (correctHits D m _ _ _ _ >>= fun q => pure q.1) = _
  rw [hh _ (by cases key; exacts [congrArg some (hno _ rfl), congrArg some (hno _ rfl)])]
  rfl

theorem takePlace_one {t r c : Int} {n : Int} {b : Bool} : takePlace n (if b then [.data t r c] else []) = if b then [.data t r c] else [] := by
  cases b <;> rfl

theorem even_index (H : OddPos dh dw) (i : Int) : i % 2 = (i / dw + i % dw) % 2 := by
  obtain ⟨k, hk⟩ : ∃ k, dw = 2 * k + 1 := ⟨dw / 2, by have := H.2.2.2; omega⟩
  have e := Int.mul_ediv_add_emod i dw
  generalize i / dw = r at *
  subst hk
  have : (2 * k + 1) * r = 2 * (k * r) + r := by ring
  omega

theorem isHit_one {fs : List Fault} {n : Node} {r c : Int} {b : Bool} (hfs : fs = if b then [.data 0 r c] else []) :
    IsHit key dh dw 1 fs n ↔ b = true ∧ n.t = 0 ∧ Site key dh dw n.r2 n.c2 ∧ (n.r2 = 2 * r - 1 ∨ n.r2 = 2 * r + 1) ∧ (n.c2 = 2 * c - 1 ∨ n.c2 = 2 * c + 1) := by
  subst hfs
  unfold IsHit
  cases b
  · simp
  · have : (List.countP (Fault.changes n) (if true = true then [.data 0 r c] else [])) % 2 = 1 ↔ Fault.changes n (.data 0 r c) = true := by
      rw [if_pos rfl, List.countP_singleton]
      split <;> simp [*]
    rw [this]
    unfold Fault.changes
    simp only [Bool.and_eq_true, Bool.or_eq_true, beq_iff_eq]
    constructor
    · rintro ⟨h1, h2, h3, ⟨h4, h5⟩, h6⟩
      exact ⟨trivial, h4, h3, h5, h6⟩
    · rintro ⟨-, h4, h3, h5, h6⟩
      exact ⟨by omega, by omega, h3, ⟨h4, h5⟩, h6⟩

/-- Where the test expects hits is, among the plaquettes, where the fault of the error makes hits. -/
theorem test_hits (H : OddPos dh dw) (hcls : cls ≠ .rep) {err : TestErr} {i : Int} (h0 : 0 ≤ i) (h1 : i < dh * dw) {F : Key → List Fault}
    (hF : ∀ key, F key = if turnedBy cls.code key i err.pair then [.data 0 (i / dw) (i % dw)] else []) (n : Node) :
    (IsHit .X dh dw 1 (F .X) n ∨ IsHit .Z dh dw 1 (F .Z) n) ↔
      n ∈ testNeighbors cls (dh, dw) dh dw i err ∧ (Site .X dh dw n.r2 n.c2 ∨ Site .Z dh dw n.r2 n.c2) := by
  have hdw := H.2.2.1
  rw [isHit_one (hF .X), isHit_one (hF .Z)]
  have hev := even_index H i
  have hr0 : 0 ≤ i / dw := Int.ediv_nonneg h0 (by omega)
  have hr1 : i / dw < dh := (Int.ediv_lt_iff_lt_mul hdw).2 h1
  have hc0 : 0 ≤ i % dw := Int.emod_nonneg _ (by omega)
  have hc1 : i % dw < dw := Int.emod_lt_of_pos _ hdw
  obtain ⟨t, r2, c2⟩ := n
  have hfd : i.fdiv dw = i / dw := Int.fdiv_eq_ediv_of_nonneg _ (by omega)
  have hfm : i.fmod dw = i % dw := Int.fmod_eq_emod_of_nonneg _ (by omega)
  have hf2 : i.fmod 2 = i % 2 := Int.fmod_eq_emod_of_nonneg _ (by omega)
  have hX : Site .X dh dw r2 c2 ↔ XSite dh dw r2 c2 := Iff.rfl
  have hZ : Site .Z dh dw r2 c2 ↔ ZSite dh dw r2 c2 := Iff.rfl
  simp only [hX, hZ]
  cases cls with
  | rep => exact absurd rfl hcls
  | xxzz =>
    have ht : ∀ key, turnedBy QClass.xxzz.code key i err.pair = match key with | .X => err.pair.2 | .Z => err.pair.1 := by
      intro key
      unfold turnedBy
      rw [if_neg (by rintro ⟨h, -⟩; cases h)]
      cases key <;> rfl
    rw [ht, ht]
    show _ ↔ _ ∈ neighborsBase dh dw i err ∧ _
    unfold neighborsBase
    rw [hfd, hfm, hf2]
    generalize i / dw = r at *
    generalize i % dw = c at *
    cases err
    · simp [TestErr.pair, XSite, ZSite, List.mem_filter]
      omega
    · simp [TestErr.pair, XSite, ZSite, List.mem_filter]
      omega
  | xzzx =>
    show _ ↔ _ ∈ neighborsXZZX (dh, dw) dw i err ∧ _
    unfold neighborsXZZX
    rw [hfd, hfm]
    generalize hr : i / dw = r at *
    generalize hc : i % dw = c at *
    by_cases h2 : i % 2 = 0
    · have ht : ∀ key, turnedBy QClass.xzzx.code key i err.pair = match key with | .X => err.pair.1 | .Z => err.pair.2 := by
        intro key
        unfold turnedBy
        rw [if_pos ⟨rfl, h2⟩]
        cases key <;> rfl
      rw [ht, ht]
      cases err
      · simp [TestErr.pair, XSite, ZSite, List.mem_filter, validSyndrome]
        omega
      · simp [TestErr.pair, XSite, ZSite, List.mem_filter, validSyndrome]
        omega
    · have ht : ∀ key, turnedBy QClass.xzzx.code key i err.pair = match key with | .X => err.pair.2 | .Z => err.pair.1 := by
        intro key
        unfold turnedBy
        rw [if_neg (by rintro ⟨-, h⟩; exact h2 h)]
        cases key <;> rfl
      rw [ht, ht]
      cases err
      · simp [TestErr.pair, XSite, ZSite, List.mem_filter, validSyndrome]
        omega
      · simp [TestErr.pair, XSite, ZSite, List.mem_filter, validSyndrome]
        omega

/-- The types that an error of the test turns have distance more than 1. -/
theorem turned_distance (H : OddPos dh dw) (hx : cls = .xzzx → 1 < dh ∧ 1 < dw) (hcls : cls ≠ .rep) {err : TestErr}
    (hs : ¬ (err = .x ∧ dh = 1) ∧ ¬ (err = .z ∧ dw = 1)) {i : Int} (ht : turnedBy cls.code key i err.pair = true) : 3 ≤ distance key dh dw := by
  unfold OddPos at H
  have : 1 < distance key dh dw := by
    cases cls with
    | rep => exact absurd rfl hcls
    | xzzx => have := hx rfl; cases key <;> simp only [distance] <;> omega
    | xxzz =>
      unfold turnedBy at ht
      rw [if_neg (by rintro ⟨h, -⟩; cases h)] at ht
      cases err <;> cases key <;> simp [TestErr.pair, distance] at * <;> omega
  have h2 : distance key dh dw % 2 = 1 := by cases key <;> simp only [distance] <;> omega
  omega

/-- The facts about the size, the encoder and the decoder that the test needs. -/
structure TestSize (cls : QClass) (dh dw : Int) (D : Decoder) : Prop where
  odd : OddPos dh dw
  big : 1 < dh * dw
  notRep : cls ≠ .rep
  xzzx : cls = .xzzx → 1 < dh ∧ 1 < dw
  made : Made D
  height : D.dh = dh
  width : D.dw = dw
  time : 1 ≤ D.T
  graph : ∀ key, 1 < distance key dh dw → ∃ g, D.S key = some g

/-- C107: one call of `simulate`, for any size, error, qubit and type of readout that the test tries: the circuit is built without exceptions
and can be executed; and whatever string the simulator returns, the decoded value is 0, and the syndrome nodes that are parsed are exactly the plaquettes among the
nodes the test expects. -/
theorem C107_simulate {D : Decoder} (Z : TestSize cls dh dw D) {m : Matcher} (hm : Contract m) {r : Nat}
    (hd : (w.heap r).d = some (.tup [.int dh, .int dw])) (hw : w.circ = {}) {err : TestErr} {i : Int} (h0 : 0 ≤ i) (h1 : i < dh * dw)
    (hs : ¬ (err = .x ∧ dh = 1) ∧ ¬ (err = .z ∧ dw = 1)) (key : Key) :
    ∃ q w', simulateCircuit cls r err i key w = (.ok q, w') ∧ (∃ str, Outcome w'.circ str) ∧ ∀ str, Outcome w'.circ str →
      correctString D m str (testType key) none = .ok (some 0) ∧
      ∃ (b : Bool) (hits : Hits), parseReadout dh dw str .none = .ok (bit b, hits) ∧ ∀ n, (n ∈ hits.X ∨ n ∈ hits.Z) ↔
        n ∈ testNeighbors cls (dh, dw) dh dw i err ∧ (Site .X dh dw n.r2 n.c2 ∨ Site .Z dh dw n.r2 n.c2) := by
  have H := Z.odd
  have hc : CanRead cls dh dw key := by
    by_cases h : cls = .xzzx
    · have := Z.xzzx h
      cases key
      · exact Or.inr this.1
      · exact Or.inr this.2
    · cases key <;> exact Or.inl h
  obtain ⟨q, w1, w', A, hq, hcr, hpr, hrun⟩ := simulateCircuit_ok (err := err) H Z.big hd hw Z.notRep h0 h1 hc
  refine ⟨q, w', hq, ?_, ?_⟩
  · obtain ⟨s', hs'⟩ := run_exists (sz := fun _ => 0) hpr ⟨ground, fun _ => false⟩ ground_ne_zero
    exact ⟨_, _, s', hs', rfl⟩
  rintro str ⟨sz, s', hR, rfl⟩
  have hR' := hrun sz _ _ hR
  have hF : ∀ key, takePlace (1 : Nat) (faultsOf cls.code key q.lat.name dh dw 0 (testOps q.lat.name err i)) =
      if turnedBy cls.code key i err.pair then [.data 0 (i / dw) (i % dw)] else [] := by
    intro key
    rw [test_faults H h0 h1, takePlace_one]
  have hT : ((testOps q.lat.name err i).map Prod.fst).count .stabilize = 1 + 1 := by rfl
  have hflip : decide (((testOps q.lat.name err i).map Prod.fst).count (flipGate key) % 2 = 1) = false := by cases key <;> rfl
  rw [hcr, testType_eq]
  refine ⟨?_, ?_⟩
  · by_cases ht : turnedBy cls.code key i err.pair = true
    · have hdist := turned_distance H Z.xzzx Z.notRep hs ht
      obtain ⟨g, hg⟩ := Z.graph key (by omega)
      have := C98_logical A (by simp) rfl Z.big hc testOps_memory hT Z.made Z.height Z.width hg Z.time hm (tolerable_of_correctable ⟨by
        rw [hF, if_pos ht]
        intro f hf
        rw [List.mem_singleton.1 hf]
        have hdw := H.2.2.1
        exact ⟨le_refl _, Int.one_pos, Int.ediv_nonneg h0 (by omega), (Int.ediv_lt_iff_lt_mul hdw).2 h1, Int.emod_nonneg _ (by omega),
          Int.emod_lt_of_pos _ hdw⟩, by rw [hF, if_pos ht]; simp only [List.length_singleton]; omega⟩) ground_ne_zero ground_synZero hR'
      rw [hflip] at this
      exact this
    · obtain ⟨rounds, hlen, hrr, hgr⟩ := endToEnd_strings A (by simp) rfl Z.big hc testOps_memory hT ground_ne_zero ground_synZero hR'
      rw [hF, if_neg ht] at hrr hgr
      rw [hgr, hflip]
      exact correct_quiet H Z.big Z.height Z.width hlen hrr false
  · obtain ⟨t, r1, r2⟩ := Run.append.1 (show Run sz (withErrors noErrs (added q (prepOp key) w1) ++
      noisyAll q (testOps q.lat.name err i ++ [(readOp key, noErrs)]) (q.op (prepOp key) w1).2) _ s' from hR')
    have hp := run_prep A.after Z.big ground_ne_zero r1
    have ht0 : t.psi ≠ 0 := by obtain ⟨o, e, hne, -⟩ := hp; exact hne
    obtain ⟨b, hits, g1, g2, g3⟩ := C105_hits (A.all_next [prepOp key]) (by cases key <;> decide) (by cases key <;> rfl) Z.big hc testOps_memory hT ht0
      (hp.synZero ground_synZero) r2 .none
    refine ⟨b, hits, g1, fun n => ?_⟩
    rw [g2, g3]
    exact test_hits H Z.notRep h0 h1 hF n

/-- C107: for the XXZZ code all positions that the test expects are plaquettes, so that the parsed nodes are exactly the expected ones. -/
theorem C107_expected (H : OddPos dh dw) {err : TestErr} {i : Int} (h0 : 0 ≤ i) (h1 : i < dh * dw) (n : Node)
    (h : n ∈ testNeighbors .xxzz (dh, dw) dh dw i err) : Site .X dh dw n.r2 n.c2 ∨ Site .Z dh dw n.r2 n.c2 := by
  have hdw := H.2.2.1
  have hev := even_index H i
  have hr0 : 0 ≤ i / dw := Int.ediv_nonneg h0 (by omega)
  have hr1 : i / dw < dh := (Int.ediv_lt_iff_lt_mul hdw).2 h1
  have hc0 : 0 ≤ i % dw := Int.emod_nonneg _ (by omega)
  have hc1 : i % dw < dw := Int.emod_lt_of_pos _ hdw
  obtain ⟨t, r2, c2⟩ := n
  have hfd : i.fdiv dw = i / dw := Int.fdiv_eq_ediv_of_nonneg _ (by omega)
  have hfm : i.fmod dw = i % dw := Int.fmod_eq_emod_of_nonneg _ (by omega)
  have hf2 : i.fmod 2 = i % 2 := Int.fmod_eq_emod_of_nonneg _ (by omega)
  show XSite dh dw r2 c2 ∨ ZSite dh dw r2 c2
  change _ ∈ neighborsBase dh dw i err at h
  unfold neighborsBase at h
  rw [hfd, hfm, hf2] at h
  generalize i / dw = r at *
  generalize i % dw = c at *
  cases err
  · simp [List.mem_filter] at h
    unfold XSite ZSite
    omega
  · simp [List.mem_filter] at h
    unfold XSite ZSite
    omega

/-- For the XZZX code the test expects a position without a plaquette: an X error on the data qubit of index 1 of the 3 by 3 lattice. -/
example : (⟨0, -1, 3⟩ : Node) ∈ testNeighbors .xzzx (3, 3) 3 3 1 .x ∧ ¬ (Site .X 3 3 (-1) 3 ∨ Site .Z 3 3 (-1) 3) := by
  unfold Site XSite ZSite
  decide

/-! ### The whole test -/

/-- The decoder of the test between calls. -/
def TestReady (dcls : DClass) (r : Nat) (D : Decoder) (o : DecoderObj) : Prop :=
  o.cls = dcls ∧ o.pref = r ∧ o.D = D ∧ (o.enc = none ∨ o.enc = some (D.dh, D.dw))

section
variable {dcls : DClass} {r : Nat} {D : Decoder} {o : DecoderObj} {m : Matcher}

theorem TestReady.encoder (h : TestReady dcls r D o) (H : OddPos D.dh D.dw) (hP : TestDict dcls D.dh D.dw (w.heap r)) : o.encoder w = .ok (D.dh, D.dw) := by
  obtain ⟨h1, h2, -, h4⟩ := h
  unfold DecoderObj.encoder
  rcases h4 with h4 | h4
  · rw [h4, h1, h2]
    exact makeEncoder_ok hP.1 H
  · rw [h4]

theorem TestReady.used (h : TestReady dcls r D o) : TestReady dcls r D { o with enc := some (D.dh, D.dw) } := ⟨h.1, h.2.1, h.2.2.1, Or.inr rfl⟩

theorem TestReady.correct (h : TestReady dcls r D o) (H : OddPos D.dh D.dw) (hP : TestDict dcls D.dh D.dw (w.heap r)) (s : Str) (rt : RType) :
    o.correct m s rt none w = (correctString D m s rt none, { o with enc := some (D.dh, D.dw) }) := by
  unfold DecoderObj.correct
  rw [h.encoder H hP, h.2.2.1]
  rfl

theorem TestReady.parse (h : TestReady dcls r D o) (H : OddPos D.dh D.dw) (hP : TestDict dcls D.dh D.dw (w.heap r)) (s : Str) :
    o.parse s w = (parseReadout D.dh D.dw s .none, { o with enc := some (D.dh, D.dw) }) := by
  unfold DecoderObj.parse
  rw [h.encoder H hP]

theorem rateLoop_ok (H : OddPos D.dh D.dw) (hP : TestDict dcls D.dh D.dw (w.heap r)) {rt : RType} {counts : List (Str × Nat)}
    (hc : ∀ c ∈ counts, correctString D m c.1 rt none = .ok (some 0)) (s : Nat × Nat) (h : TestReady dcls r D o) :
    ∃ o', testRateLoop m 0 rt w counts s o = (.ok (s.1 + (counts.map Prod.snd).sum, s.2), o') ∧ TestReady dcls r D o' := by
  induction counts generalizing s o with
  | nil => exact ⟨o, rfl, h⟩
  | cons c l ih =>
    obtain ⟨str, n⟩ := c
    obtain ⟨o', h1, h2⟩ := ih (fun c hc' => hc c (by simp [hc'])) (s.1 + n, s.2) h.used
    refine ⟨o', ?_, h2⟩
    unfold testRateLoop
    rw [h.correct H hP, hc (str, n) (by simp)]
    show testRateLoop m 0 rt w l (s.1 + n, if some (0 : Int) ≠ some 0 then _ else s.2) _ = _
    rw [if_neg (by simp), h1, List.map_cons, List.sum_cons, Nat.add_assoc]

theorem checkNodes_ok (H : OddPos D.dh D.dw) (hP : TestDict dcls D.dh D.dw (w.heap r)) {expected : List Node} {l : List Str}
    (hl : ∀ s ∈ l, ∃ v, parseReadout D.dh D.dw s .none = .ok v ∧ ∀ n, n ∈ v.2.X ∨ n ∈ v.2.Z → n ∈ expected) (h : TestReady dcls r D o) :
    ∃ o', checkNodes expected w l o = (.ok (), o') ∧ TestReady dcls r D o' := by
  induction l generalizing o with
  | nil => exact ⟨o, rfl, h⟩
  | cons s l ih =>
    obtain ⟨o', h1, h2⟩ := ih (fun s hs => hl s (by simp [hs])) h.used
    refine ⟨o', ?_, h2⟩
    obtain ⟨v, hv, hn⟩ := hl s (by simp)
    unfold checkNodes
    rw [h.parse H hP, hv]
    show (if (v.2.X ++ v.2.Z).all expected.contains then _ else _) = _
    rw [if_pos, h1]
    rw [List.all_eq_true]
    intro n hmem
    rw [List.contains_iff_mem]
    exact hn n (List.mem_append.1 hmem)

/-- The tests that are not skipped. -/
def Tried (dh dw : Int) (c : TestErr × Int × Key) : Prop :=
  0 ≤ c.2.1 ∧ c.2.1 < dh * dw ∧ ¬ (c.1 = .x ∧ dh = 1) ∧ ¬ (c.1 = .z ∧ dw = 1)

theorem testCalls_tried {errors : List TestErr} : ∀ c ∈ testCalls errors dh dw, Tried dh dw c := by
  intro c hc
  obtain ⟨i, hi, hc⟩ := List.mem_flatMap.1 hc
  obtain ⟨err, -, hc⟩ := List.mem_flatMap.1 hc
  rw [mem_pyRange] at hi
  split at hc
  · cases hc
  · next h1 =>
    split at hc
    · cases hc
    · next h2 =>
      simp only [Bool.and_eq_true, decide_eq_true_eq] at h1 h2
      simp only [List.mem_cons, List.not_mem_nil, or_false] at hc
      rcases hc with rfl | rfl <;> exact ⟨hi.1, hi.2, h1, h2⟩

/-- C107: any sequence of calls passes. -/
theorem C107_passes (Z : TestSize cls dh dw D) (hm : Contract m) (l : List (TestErr × Int × Key)) (hl : ∀ c ∈ l, Tried dh dw c) (w : World) (o : DecoderObj)
    (hP : TestDict dcls dh dw (w.heap r)) (hr : r < w.next) (h : TestReady dcls r D o) : TestPasses cls m r l w o := by
  induction l generalizing w o with
  | nil => trivial
  | cons c l ih =>
    obtain ⟨err, i, key⟩ := c
    obtain ⟨h0, h1, hs⟩ := hl (err, i, key) (by simp)
    obtain ⟨q, w', hq, -, hout⟩ := C107_simulate Z hm (w := { w with circ := {} }) hP.2 rfl h0 h1 hs key
    have hk := testDict_simulate (cls := cls) (key := key) (err := err) (i := i) (w := { w with circ := {} }) hP hr
    rw [hq] at hk
    refine ⟨q, w', hq, fun counts hc => ?_⟩
    have hZ := Z
    obtain ⟨H, -, -, -, -, rfl, rfl, -⟩ := hZ
    obtain ⟨o1, a1, a2⟩ := rateLoop_ok (m := m) (o := o) H hk.1 (rt := testType key) (fun c hc' => (hout c.1 (hc.1 c hc')).1) (0, 0) h
    have hrate : testErrorRate m 0 (testType key) w' counts o = (.ok 0, o1) := by
      unfold testErrorRate
      rw [a1]
      have := hc.2
      show (if 0 + (counts.map Prod.snd).sum = 0 then _ else _, _) = _
      rw [if_neg (by omega)]
      simp
    obtain ⟨o2, b1, b2⟩ := checkNodes_ok H hk.1 (expected := testNeighbors cls (D.dh, D.dw) D.dh D.dw i err) (l := counts.map Prod.fst) (by
      intro s hs
      obtain ⟨c, hc', rfl⟩ := List.mem_map.1 hs
      obtain ⟨-, b, hits, e1, e2⟩ := hout c.1 (hc.1 c hc')
      exact ⟨_, e1, fun n hn => ((e2 n).1 hn).1⟩) a2
    refine ⟨o2, ?_, ih (fun c hc => hl c (by simp [hc])) w' o2 hk.1 hk.2 b2⟩
    unfold simulateChecks
    rw [hrate]
    show (if (0 : ℚ) ≠ 0 then _ else _) = _
    rw [if_neg (by simp), dim_zero hk.1.2, dim_one hk.1.2, a2.2.2.1]
    exact b1

/-- C107: the whole test `test_single_errors`, with a decoder made from the dictionary of the test (`setUp`), passes for every size, whatever
the simulator returns: for `XXZZQubit` and, if no side is 1, for `XZZXQubit`; with `RotatedDecoder` and, for sizes it accepts, with
`RepetitionDecoder`. The dictionary has a pair `"d"` and a `"T"` that is at least 1. -/
theorem C107_test (H : OddPos dh dw) (hbig : 1 < dh * dw) (hcls : cls ≠ .rep) (hx : cls = .xzzx → 1 < dh ∧ 1 < dw) (hm : Contract m) {limit : Nat} {t : Int}
    (hr : r < w.next) (hd : (w.heap r).d = some (.tup [.int dh, .int dw])) (hT : (w.heap r).T = some t) (ht : 1 ≤ t) (hlim : sliceSize dh dw < limit)
    (hrep : dcls = .repetition → if (w.heap r).pfp.getD false then dh = 1 else dw = 1) (errors : List TestErr) :
    ∃ o w1, newDecoder dcls limit r w = (.ok o, w1) ∧ (w1.heap r).d = some (.tup [.int dh, .int dw]) ∧
      TestPasses cls m r (testCalls errors dh dw) w1 o := by
  obtain ⟨o, w1, h, rfl, rfl, rfl, hS⟩ := newDecoder_ok hd hT H hlim hrep
  obtain ⟨f1, f2, f3, f4, f5, f6⟩ := newDecoder_facts h
  have hd1 : (w1.heap r).d = some (.tup [.int o.D.dh, .int o.D.dw]) := by
    have hk := keepsP_newDecoder (r := r) (cls := dcls) (limit := limit) (k := r) (P := fun p => p.d = some (.tup [.int o.D.dh, .int o.D.dw])) (by
      intro p p' hp hv
      by_cases hc : (if p.pfp.getD false then (Num.int o.D.dh).EqOne else (Num.int o.D.dw).EqOne)
      · rw [(C12_pair p _ _ hp).1 hc] at hv
        cases hv
        exact hp
      · rw [(C12_pair p _ _ hp).2 hc] at hv
        cases hv) (fun p p' hp hv => by rw [decoderValidate_same (Or.inl hp) hv]; exact hp)
      (fun p hp => repTouched_pair hp) (fun p hp => by
        unfold rotatedDecoderTouched
        split
        · exact hp
        · simp only [hp]) w ⟨hd, hr⟩
    rw [h] at hk
    exact hk.1
  refine ⟨o, w1, h, hd1, ?_⟩
  refine C107_passes (dcls := dcls) (D := o.D) ⟨H, hbig, hcls, hx, f4, rfl, rfl, ht, fun key hk => hS key ?_⟩ hm _ testCalls_tried w1 o ⟨f5, hd1⟩ (by omega)
    ⟨f1, f2, rfl, Or.inl f3⟩
  cases dcls with
  | rotated => trivial
  | repetition =>
    have := hrep rfl
    show key = if (w.heap r).pfp.getD false then .X else .Z
    split
    · next hp =>
      rw [if_pos hp] at this
      cases key
      · rfl
      · simp only [distance] at hk; omega
    · next hp =>
      rw [if_neg hp] at this
      cases key
      · simp only [distance] at hk; omega
      · rfl

theorem setP_twice (w : World) (r : Nat) (p p' : Params) : (w.setP r p).setP r p' = w.setP r p' := by
  unfold World.setP
  simp only
  congr 1
  funext k
  by_cases h : k = r <;> simp [h]

/-- The pair that a number `"d"` becomes. -/
def pairOf (dcls : DClass) (pf : Bool) (n : Int) : Int × Int :=
  match dcls with
  | .rotated => (n, n)
  | .repetition => if pf then (1, n) else (n, 1)

theorem validate_num {p : Params} {n : Int} (hd : p.d = some (.num (.int n))) :
    dcls.validate p = dcls.validate { p with d := some (.tup [.int (pairOf dcls (p.pfp.getD false) n).1, .int (pairOf dcls (p.pfp.getD false) n).2]) } := by
  obtain ⟨d, T, pf⟩ := p
  simp only at hd
  subst hd
  cases dcls with
  | rotated => cases T <;> rfl
  | repetition => rcases pf with _ | _ | _ <;> rfl

/-- C107: the same for a dictionary with a number `"d"`, as in the tests of the repetition code. -/
theorem C107_test_num (hcls : cls ≠ .rep) (hm : Contract m) {limit : Nat} {t n : Int} (hn : 1 < n) (ho : n % 2 = 1) (hx : cls = .xzzx → dcls = .rotated)
    (hr : r < w.next) (hd : (w.heap r).d = some (.num (.int n))) (hT : (w.heap r).T = some t) (ht : 1 ≤ t)
    (hlim : sliceSize (pairOf dcls ((w.heap r).pfp.getD false) n).1 (pairOf dcls ((w.heap r).pfp.getD false) n).2 < limit) (errors : List TestErr) :
    ∃ o w1, newDecoder dcls limit r w = (.ok o, w1) ∧ TestPasses cls m r
      (testCalls errors (pairOf dcls ((w.heap r).pfp.getD false) n).1 (pairOf dcls ((w.heap r).pfp.getD false) n).2) w1 o := by
  generalize hp : pairOf dcls ((w.heap r).pfp.getD false) n = pr at *
  obtain ⟨dh, dw⟩ := pr
  have hcase : (dcls = .rotated ∧ dh = n ∧ dw = n) ∨
      (dcls = .repetition ∧ if (w.heap r).pfp.getD false then dh = 1 ∧ dw = n else dh = n ∧ dw = 1) := by
    cases dcls with
    | rotated => cases hp; exact Or.inl ⟨rfl, rfl, rfl⟩
    | repetition =>
      refine Or.inr ⟨rfl, ?_⟩
      unfold pairOf at hp
      simp only at hp
      split at hp
      · next h => rw [if_pos h]; cases hp; exact ⟨rfl, rfl⟩
      · next h => rw [if_neg h]; cases hp; exact ⟨rfl, rfl⟩
  have hsz : OddPos dh dw ∧ 1 < dh * dw := by
    rcases hcase with ⟨-, rfl, rfl⟩ | ⟨-, h⟩
    · exact ⟨⟨by omega, ho, by omega, ho⟩, by nlinarith⟩
    · split at h <;> obtain ⟨rfl, rfl⟩ := h
      · exact ⟨⟨by omega, by omega, by omega, ho⟩, by omega⟩
      · exact ⟨⟨by omega, ho, by omega, by omega⟩, by omega⟩
  let p' : Params := { w.heap r with d := some (.tup [.int dh, .int dw]) }
  have hheap : (w.setP r p').heap r = p' := World.setP_heap_self _ _ _
  have key := C107_test (cls := cls) (dcls := dcls) (w := w.setP r p') (m := m) (r := r) (limit := limit) hsz.1 hsz.2 hcls (by
    intro h
    rcases hcase with ⟨-, rfl, rfl⟩ | ⟨h', -⟩
    · exact ⟨hn, hn⟩
    · rw [hx h] at h'; cases h') hm hr (by rw [hheap]) (by rw [hheap]; exact hT) ht hlim (by
    intro h
    rw [hheap]
    rcases hcase with ⟨h', -⟩ | ⟨-, h'⟩
    · rw [h] at h'; cases h'
    · show if (w.heap r).pfp.getD false then dh = 1 else dw = 1
      split
      · next hp => rw [if_pos hp] at h'; exact h'.1
      · next hp => rw [if_neg hp] at h'; exact h'.2) errors
  obtain ⟨o, w1, h1, -, h2⟩ := key
  refine ⟨o, w1, ?_, h2⟩
  have hv := validate_num (dcls := dcls) hd
  rw [hp] at hv
  rw [← h1]
  unfold newDecoder at h1 ⊢
  rw [CM.bind_ok (getParams_run _ _), hheap, CM.bind_ok (setParams_run _ _ _)] at h1
  rw [CM.bind_ok (getParams_run _ _), CM.bind_ok (getParams_run _ _), hheap, hv, CM.bind_ok (setParams_run _ _ _), CM.bind_ok (setParams_run _ _ _)]
  rcases hv' : dcls.validate p' with e | v
  · rw [hv', CM.bind_run, CM.lift_run] at h1
    cases h1
  · rw [CM.bind_lift rfl, CM.bind_lift rfl, CM.bind_ok (setParams_run _ _ _), CM.bind_ok (setParams_run _ _ _), setP_twice, setP_twice, setP_twice]

end

/-- C107: the tests of wrong sizes (`TestRepExceptions`): a string, or a pair whose unprotected side is not 1, is rejected with `LatticeError` by the
repetition qubit and by the repetition decoder. -/
theorem C107_rejected {r limit : Nat} (h : (∃ s, (w.heap r).d = some (.str s)) ∨
      ∃ a b : Int, (w.heap r).d = some (.tup [.int a, .int b]) ∧ if (w.heap r).pfp.getD false then a ≠ 1 else b ≠ 1) :
    (newQubit .rep (some r) name w).1 = .error .latticeError ∧ (newDecoder .repetition limit r w).1 = .error .latticeError := by
  have hv : repValidate (w.heap r) = .error .latticeError := by
    rcases h with ⟨s, h⟩ | ⟨a, b, h, hc⟩
    · unfold repValidate
      simp only [h]
    · refine (C12_pair _ _ _ h).2 ?_
      split at hc <;> simp [Num.EqOne, *]
  have hne : (w.heap r).isEmpty = false := by
    unfold Params.isEmpty
    rcases h with ⟨s, h⟩ | ⟨a, b, h, -⟩ <;> rw [h] <;> rfl
  refine ⟨?_, ?_⟩
  · have hd : dictOrNew (some r) w = (.ok r, w) := by
      unfold dictOrNew
      simp only [hne]
      rfl
    have hck := checkRep_invalid (cls := .rep) rfl hv
    unfold newQubit
    rw [CM.bind_ok hd, CM.bind_error hck]
  · have hd : DClass.repetition.validate (w.heap r) = .error .latticeError := by
      show repDecoderValidate _ = _
      unfold repDecoderValidate
      rw [hv]
      rfl
    unfold newDecoder
    rw [CM.bind_ok (getParams_run _ _), CM.bind_ok (setParams_run _ _ _), hd]
    rfl

/-- `test_wrong_argument_type` and `test_wrong_width`. -/
example : (newQubit .rep (some 0) [] ⟨fun _ => { d := some (.str "3,1".toList), T := some 1 }, 1, {}⟩).1 = .error .latticeError ∧
    (newDecoder .repetition 1000 0 ⟨fun _ => { d := some (.tup [.int 3, .int 2]), T := some 1 }, 1, {}⟩).1 = .error .latticeError :=
  ⟨(C107_rejected (limit := 0) (Or.inl ⟨_, rfl⟩)).1, (C107_rejected (name := []) (Or.inr ⟨3, 2, rfl, by decide⟩)).2⟩

/-- `TestSquareXXZZ` and `TestRectangularXXZZ`: the dictionary `{"d": (dh, dw), "T": 1}`. -/
example {m : Matcher} (hm : Contract m) : ∃ o w1, newDecoder .rotated 1000 0 ⟨fun _ => { d := some (.tup [.int 3, .int 5]), T := some 1 }, 1, {}⟩ = (.ok o, w1) ∧
    TestPasses .xxzz m 0 (testCalls [.x, .z] 3 5) w1 o := by
  obtain ⟨o, w1, h, -, hp⟩ := C107_test (cls := .xxzz) (dcls := .rotated) (r := 0) (limit := 1000)
    (w := ⟨fun _ => { d := some (.tup [.int 3, .int 5]), T := some 1 }, 1, {}⟩) (dh := 3) (dw := 5) (by unfold OddPos; decide) (by decide) (by decide)
    (by simp) hm Nat.one_pos rfl rfl (le_refl _) (by decide) (by simp) [.x, .z]
  exact ⟨o, w1, h, hp⟩

/-- `TestPhaseFlipProtectedRep`: the dictionary `{"d": 5, "phase-flip-protected": True, "T": 1}`; the size becomes `(1, 5)`. -/
example {m : Matcher} (hm : Contract m) : ∃ o w1,
    newDecoder .repetition 1000 0 ⟨fun _ => { d := some (.num (.int 5)), T := some 1, pfp := some true }, 1, {}⟩ = (.ok o, w1) ∧
    TestPasses .xxzz m 0 (testCalls [.z] 1 5) w1 o :=
  C107_test_num (cls := .xxzz) (dcls := .repetition) (r := 0) (limit := 1000) (n := 5)
    (w := ⟨fun _ => { d := some (.num (.int 5)), T := some 1, pfp := some true }, 1, {}⟩) (by decide) hm (by decide) (by decide) (by simp) Nat.one_pos
    rfl rfl (le_refl _) (by decide) [.z]

/-- The calls of the smallest bit-flip test: three qubits, X errors, both readouts. -/
example : testCalls [.x, .z] 3 1 = [(.x, 0, .Z), (.x, 0, .X), (.x, 1, .Z), (.x, 1, .X), (.x, 2, .Z), (.x, 2, .X)] := by decide

/-- An X error of the middle qubit of 3 × 3 makes two nodes; one in a corner makes one. -/
example : testNeighbors .xxzz (3, 3) 3 3 4 .x = [⟨0, 1, 1⟩, ⟨0, 3, 3⟩] ∧ testNeighbors .xxzz (3, 3) 3 3 0 .x = [⟨0, 1, 1⟩] := by decide

/-- In the XZZX code the test also expects a node where there is no plaquette (left of qubit 0): that the hits are among the expected nodes is all
that the test can ask for. -/
example : testNeighbors .xzzx (3, 3) 3 3 0 .x = [⟨0, -1, 1⟩, ⟨0, 1, -1⟩] ∧ ¬ (Site .X 3 3 1 (-1) ∨ Site .Z 3 3 1 (-1)) := by
  refine ⟨by decide, ?_⟩
  unfold Site
  decide

end Qtc
