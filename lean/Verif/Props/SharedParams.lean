import Verif.Proof.KeepDict
import Verif.Proof.Born
import Verif.Props.Decoding
import Verif.Props.Circuit
import Verif.Props.EndToEnd
/-!
C95: decoders and qubits that share a parameter dictionary.
-/
namespace Qtc
open Spec

/-- All actions in order. -/
def DictAction.runAll (w : World) (l : List DictAction) : World := l.foldl DictAction.run w

/-- Whatever else the program does, it does not itself write another size or kind into the dictionary `r`. -/
def LeavesSize (r : Nat) : World → List DictAction → Prop
  | _, [] => True
  | w, a :: l => (∀ p, a = .write r p → p.d = (w.heap r).d ∧ p.pfp = (w.heap r).pfp) ∧ LeavesSize r (a.run w) l

/-- The dictionary is one an encoder of the size `dh × dw` can be made from. -/
structure Fitting (cls : DClass) (dh dw : Int) (p : Params) : Prop where
  d : p.d = some (.tup [.int dh, .int dw]) ∨ p.d = some (.lst [.int dh, .int dw])
  rep : cls = .repetition → p.d = some (.tup [.int dh, .int dw]) ∧ ∃ pf, p.pfp = some pf ∧ if pf then dh = 1 else dw = 1

variable {cls : DClass} {dh dw : Int} {p p' : Params} {r limit : Nat} {w w1 : World} {o : DecoderObj}

theorem fitting_counters : CounterFree (Fitting cls dh dw) := fun _ _ _ _ h => ⟨h.d, h.rep⟩

theorem fitting_same (h : Fitting cls dh dw p) (hd : p'.d = p.d) (hp : p'.pfp = p.pfp) : Fitting cls dh dw p' :=
  ⟨by rw [hd]; exact h.d, fun e => by rw [hd, hp]; exact h.rep e⟩

theorem fitting_repValidate (h : Fitting cls dh dw p) (hv : repValidate p = .ok p') : Fitting cls dh dw p' := by
  have key : p'.d = p.d ∧ p'.pfp = some (p.pfp.getD false) := by
    rcases h.d with hd | hd
    · by_cases hc : (if p.pfp.getD false then (Num.int dh).EqOne else (Num.int dw).EqOne)
      · rw [(C12_pair p _ _ hd).1 hc] at hv
        cases hv
        exact ⟨rfl, rfl⟩
      · rw [(C12_pair p _ _ hd).2 hc] at hv
        cases hv
    · unfold repValidate at hv
      simp only [hd] at hv
      cases hv
  refine ⟨by rw [key.1]; exact h.d, fun e => ?_⟩
  obtain ⟨h1, pf, h2, h3⟩ := h.rep e
  refine ⟨by rw [key.1]; exact h1, pf, ?_, h3⟩
  rw [key.2, h2]
  rfl

theorem rotatedValidate_pair (hd : p.d = some (.tup [.int dh, .int dw]) ∨ p.d = some (.lst [.int dh, .int dw]))
    (hv : rotatedValidate p = .ok p') : p'.d = some (.tup [.int dh, .int dw]) ∧ p'.pfp = p.pfp := by
  have e : rotatedSize p.d = .ok ([dh, dw], dh, dw) := by rcases hd with h | h <;> rw [h] <;> rfl
  unfold rotatedValidate at hv
  rw [e] at hv
  simp only [bind, Except.bind] at hv
  split at hv
  · cases hv
  · cases hv
    exact ⟨rfl, rfl⟩

theorem fitting_rotatedValidate (h : Fitting cls dh dw p) (hv : rotatedValidate p = .ok p') : Fitting cls dh dw p' := by
  obtain ⟨h1, h2⟩ := rotatedValidate_pair h.d hv
  refine ⟨Or.inl h1, fun e => ⟨h1, ?_⟩⟩
  rw [h2]
  exact (h.rep e).2

theorem fitting_repTouched (h : Fitting cls dh dw p) : Fitting cls dh dw (repTouched p) := by
  unfold repTouched
  split
  · rename_i hv
    exact fitting_repValidate h hv
  · refine ⟨h.d, fun e => ?_⟩
    obtain ⟨h1, pf, h2, h3⟩ := h.rep e
    exact ⟨h1, pf, by simp [h2], h3⟩

theorem rotatedTouched_pair (hd : p.d = some (.tup [.int dh, .int dw]) ∨ p.d = some (.lst [.int dh, .int dw])) :
    (rotatedTouched p).d = some (.tup [.int dh, .int dw]) ∧ (rotatedTouched p).pfp = p.pfp := by
  refine ⟨?_, rfl⟩
  unfold rotatedTouched
  rcases hd with h | h <;> simp only [h] <;> rfl

theorem fitting_rotatedTouched (h : Fitting cls dh dw p) : Fitting cls dh dw (rotatedTouched p) := by
  obtain ⟨h1, h2⟩ := rotatedTouched_pair h.d
  refine ⟨Or.inl h1, fun e => ⟨h1, ?_⟩⟩
  rw [h2]
  exact (h.rep e).2

theorem fitting_decoderTouched (h : Fitting cls dh dw p) : Fitting cls dh dw (rotatedDecoderTouched p) := by
  have e : rotatedDecoderTouched p = p := by
    unfold rotatedDecoderTouched
    rcases h.d with hd | hd <;> simp only [hd] <;> split <;> rfl
  rw [e]
  exact h

theorem decoderValidate_same (hd : p.d = some (.tup [.int dh, .int dw]) ∨ p.d = some (.lst [.int dh, .int dw]))
    (hv : rotatedDecoderValidate p = .ok p') : p' = p := by
  unfold rotatedDecoderValidate at hv
  obtain ⟨_, -, hv⟩ := except_bind_ok hv
  rcases hd with h | h <;>
  · simp only [h] at hv
    split at hv
    · cases hv
    · obtain ⟨a, -, hv⟩ := except_bind_ok hv
      obtain ⟨b, -, hv⟩ := except_bind_ok hv
      split at hv
      · cases hv
      · split at hv
        · cases hv
        · cases hv
          rfl

theorem fitting_decoderValidate (h : Fitting cls dh dw p) (hv : rotatedDecoderValidate p = .ok p') : Fitting cls dh dw p' :=
  decoderValidate_same h.d hv ▸ h

theorem sizes_pair {p : Params} {t : Int} (h : decoderSizes p = .ok (dh, dw, t)) :
    p.d = some (.tup [.int dh, .int dw]) ∨ p.d = some (.lst [.int dh, .int dw]) := by
  unfold decoderSizes at h
  split at h
  · rename_i h1 h2
    cases h
    exact Or.inl h1
  · rename_i h1 h2
    cases h
    exact Or.inr h1
  · cases h

/-- What is known about a new decoder. -/
theorem newDecoder_facts (h : newDecoder cls limit r w = (.ok o, w1)) : o.cls = cls ∧ o.pref = r ∧ o.enc = none ∧ Made o.D ∧
    Fitting cls o.D.dh o.D.dw (w1.heap r) ∧ w1.next = w.next := by
  unfold newDecoder at h
  rw [CM.bind_ok (getParams_run _ _), CM.bind_ok (setParams_run _ _ _)] at h
  rcases hv : cls.validate (w.heap r) with e | ⟨p', keys⟩
  · rw [hv, CM.bind_run, CM.lift_run] at h
    cases h
  rw [CM.bind_lift hv, CM.bind_ok (setParams_run _ _ _), setP_setP] at h
  rcases hD : decoderOf p' keys limit with e | D
  · rw [hD, CM.bind_run, CM.lift_run] at h
    cases h
  rw [CM.bind_lift hD] at h
  cases h
  obtain ⟨hs, -⟩ := decoderOf_facts hD
  refine ⟨rfl, rfl, rfl, ?_, ?_, rfl⟩
  · cases cls
    · unfold DClass.validate at hv
      obtain ⟨p1, h3, h4⟩ := except_bind_ok hv
      cases h4
      refine Or.inl ⟨limit, w.heap r, ?_⟩
      unfold rotatedDecoder
      rw [h3]
      exact hD
    · refine Or.inr ⟨limit, w.heap r, ?_⟩
      unfold repetitionDecoder
      have hv' : repDecoderValidate (w.heap r) = .ok (p', keys) := hv
      rw [hv']
      exact hD
  · rw [World.setP_heap_self]
    refine ⟨sizes_pair hs, ?_⟩
    rintro rfl
    unfold DClass.validate at hv
    have h1 := C13_decoder_then_encoder _ _ _ hv
    rcases sizes_pair hs with hd | hd
    · refine ⟨hd, ?_⟩
      by_cases hc : (if p'.pfp.getD false then (Num.int D.dh).EqOne else (Num.int D.dw).EqOne)
      · have h2 := (C12_pair p' _ _ hd).1 hc
        rw [h1] at h2
        exact ⟨_, congrArg Params.pfp (Except.ok.inj h2), hc⟩
      · rw [(C12_pair p' _ _ hd).2 hc] at h1
        cases h1
    · unfold repValidate at h1
      simp only [hd] at h1
      cases h1

/-- No action that leaves the size alone makes the dictionary unfit. -/
theorem fitting_action {a : DictAction} (hP : Fitting cls dh dw (w.heap r) ∧ r < w.next)
    (ha : ∀ p, a = .write r p → p.d = (w.heap r).d ∧ p.pfp = (w.heap r).pfp) :
    Fitting cls dh dw ((a.run w).heap r) ∧ r < (a.run w).next := by
  cases a with
  | qubit c d name =>
    exact keepsP_newQubit (fun _ _ h => fitting_repValidate h) (fun _ _ h => fitting_rotatedValidate h)
      (fun _ h => fitting_repTouched h) (fun _ h => fitting_rotatedTouched h) w hP
  | op q o => exact keepsP_op fitting_counters q o w hP
  | decoder c limit k =>
    exact keepsP_newDecoder (fun _ _ h => fitting_repValidate h) (fun _ _ h => fitting_decoderValidate h)
      (fun _ h => fitting_repTouched h) (fun _ h => fitting_decoderTouched h) w hP
  | write k p =>
    by_cases hk : k = r
    · subst hk
      obtain ⟨h1, h2⟩ := ha p rfl
      exact keepsP_setParams (fun _ => fitting_same hP.1 h1 h2) w hP
    · exact keepsP_setParams (fun e => absurd e hk) w hP

theorem fitting_actions : ∀ (l : List DictAction) (w : World), Fitting cls dh dw (w.heap r) ∧ r < w.next → LeavesSize r w l →
    Fitting cls dh dw ((DictAction.runAll w l).heap r)
  | [], _, hP, _ => hP.1
  | _ :: l, _, hP, hl => fitting_actions l _ (fitting_action hP hl.1) hl.2

/-- The encoder has the size of the dictionary. -/
theorem makeEncoder_ok (h : Fitting cls dh dw p) (H : OddPos dh dw) : cls.makeEncoder p = .ok (dh, dw) := by
  have key : ∀ c : QClass, (∃ q w, newQubit c (some 0) "tq".toList ⟨fun _ => p, 1, {}⟩ = (.ok q, w) ∧
      ∃ rest, (w.heap q.lat.pref).d = some (.tup (.int dh :: .int dw :: rest))) → cls.encoder = c → cls.makeEncoder p = .ok (dh, dw) := by
    rintro c ⟨q, w, h1, rest, h2⟩ rfl
    unfold DClass.makeEncoder
    rw [h1]
    simp only [dim_zero h2, dim_one h2]
    rfl
  cases cls with
  | repetition =>
    obtain ⟨hd, pf, h2, h3⟩ := h.rep rfl
    refine key .rep ?_ rfl
    obtain ⟨q, w, h4, ⟨_, _, rest, -, h5, -⟩, -⟩ := built_of_size .rep "tq".toList ⟨fun _ => p, 1, {}⟩ 0 H hd (fun _ => by
      simp only [h2]
      exact h3) (fun g _ h => by cases h)
    exact ⟨q, w, h4, rest, h5⟩
  | rotated =>
    refine key .xxzz ?_ rfl
    have e : rotatedSize p.d = .ok ([dh, dw], dh, dw) := by rcases h.d with h | h <;> rw [h] <;> rfl
    have H' := H
    unfold OddPos at H'
    obtain ⟨p', hp', V⟩ : ∃ p', rotatedValidate p = .ok p' ∧ Validated p' dh dw := by
      refine ⟨{ p with d := some (.tup [.int dh, .int dw]), T := some (-1), numReadout := some (-1), numLatticeReadout := some (-1)
                       numData := some (dh * dw), numSyn := some (numSynX dh dw, numSynZ dh dw) },
        ?_, ⟨⟨[], rfl⟩, H'.2.1, H'.2.2.2, rfl, rfl, rfl, rfl, rfl⟩⟩
      unfold rotatedValidate
      rw [e]
      simp only [bind, Except.bind]
      rw [if_neg (by simp only [fmod_pos_eq _ (show (0 : Int) ≤ 2 by decide)]; omega)]
      rfl
    have hl := newLattice_ok (code := QClass.xxzz.code) (name := "tq".toList) (pref := 0) (w := ⟨fun _ => p, 1, {}⟩) hp' V H.1 H.2.2.1
      (fun g _ h => by cases h)
    have hne : p.isEmpty = false := by
      unfold Params.isEmpty
      rcases h.d with h | h <;> rw [h] <;> rfl
    have hdict : dictOrNew (some 0) ⟨fun _ => p, 1, {}⟩ = (.ok 0, ⟨fun _ => p, 1, {}⟩) := by
      unfold dictOrNew
      simp only [hne]
      rfl
    refine ⟨⟨.xxzz, mkLattice QClass.xxzz.code dh dw "tq".toList 0⟩,
      World.addQs ((⟨fun _ => p, 1, {}⟩ : World).setP 0 p') (mkLattice QClass.xxzz.code dh dw "tq".toList 0).qregs, ?_, ?_⟩
    · unfold newQubit
      rw [CM.bind_ok hdict]
      have hc : checkRep .xxzz 0 ⟨fun _ => p, 1, {}⟩ = (.ok (), ⟨fun _ => p, 1, {}⟩) := rfl
      rw [CM.bind_ok hc, CM.bind_ok hl]
      rfl
    · obtain ⟨rest, hd⟩ := V.d
      refine ⟨rest, ?_⟩
      rw [World.addQs_heap]
      exact (congrArg Params.d (World.setP_heap_self _ 0 p')).trans hd

/-- C95: whatever is done with the dictionary of a decoder between its construction and its first use – making qubits and other
decoders from it, running their operations, all of which write to it –, as long as the program does not itself write another
`"d"` or `"phase-flip-protected"` into it: strings are decoded as by the decoder of the given size. -/
theorem C95_first_use_partial (h : newDecoder cls limit r w = (.ok o, w1)) (hr : r < w.next) (H : OddPos o.D.dh o.D.dw)
    (l : List DictAction) (hl : LeavesSize r w1 l) (m : Matcher) (s : Str) (rt : RType) (ep : Option ℝ) :
    o.correct m s rt ep (DictAction.runAll w1 l) = (correctString o.D m s rt ep, { o with enc := some (o.D.dh, o.D.dw) }) := by
  obtain ⟨h1, h2, h3, -, h5, h6⟩ := newDecoder_facts h
  have hF := fitting_actions l w1 ⟨h5, by omega⟩ hl
  have he : o.encoder (DictAction.runAll w1 l) = .ok (o.D.dh, o.D.dw) := by
    unfold DecoderObj.encoder
    rw [h3, h1, h2]
    exact makeEncoder_ok hF H
  unfold DecoderObj.correct
  rw [he]
  rfl

/-- C95: once a string has been decoded, the decoder no longer depends on the dictionary at all. -/
theorem C95_later_uses (o : DecoderObj) (ho : o.enc = some (o.D.dh, o.D.dw)) (m : Matcher) (s : Str) (rt : RType) (ep : Option ℝ) (w : World) :
    o.correct m s rt ep w = (correctString o.D m s rt ep, o) := by
  have he : o.encoder w = .ok (o.D.dh, o.D.dw) := by
    unfold DecoderObj.encoder
    rw [ho]
  unfold DecoderObj.correct
  rw [he]
  cases o
  simp only at ho
  subst ho
  rfl

/-- The graphs that are built. -/
def DClass.builds (cls : DClass) (p : Params) (key : Key) : Prop :=
  match cls with
  | .rotated => True
  | .repetition => key = if p.pfp.getD false then .X else .Z

/-- A decoder can be made from a dictionary with a pair of integers. -/
theorem newDecoder_ok {t : Int} (hd : (w.heap r).d = some (.tup [.int dh, .int dw])) (hT : (w.heap r).T = some t) (H : OddPos dh dw)
    (hlim : sliceSize dh dw < limit) (hrep : cls = .repetition → if (w.heap r).pfp.getD false then dh = 1 else dw = 1) :
    ∃ o w1, newDecoder cls limit r w = (.ok o, w1) ∧ o.D.dh = dh ∧ o.D.dw = dw ∧ o.D.T = t ∧
      ∀ key, cls.builds (w.heap r) key → ∃ g, o.D.S key = some g := by
  have H' := H
  unfold OddPos at H'
  have main : ∀ (p' : Params) (keys : List Key) (D : Decoder), cls.validate (w.heap r) = .ok (p', keys) → decoderOf p' keys limit = .ok D →
      newDecoder cls limit r w = (.ok ⟨cls, r, D, none⟩, w.setP r p') := by
    intro p' keys D h1 h2
    unfold newDecoder
    rw [CM.bind_ok (getParams_run _ _), CM.bind_ok (setParams_run _ _ _), CM.bind_lift h1, CM.bind_ok (setParams_run _ _ _), CM.bind_lift h2,
      setP_setP]
    rfl
  have hv := validate_pair (Or.inl hd) hT H'.2.1 H'.2.2.2
  cases cls with
  | rotated =>
    obtain ⟨D, sx, sz, h1, h2, h3, h4, h5, h6⟩ := C21_surface_built limit (w.heap r) dh dw t H (Or.inl hd) hT hlim
    have h7 : decoderOf (w.heap r) [.X, .Z] limit = .ok D := by
      unfold rotatedDecoder at h1
      rw [hv] at h1
      exact h1
    refine ⟨_, _, main (w.heap r) [.X, .Z] D ?_ h7, h2, h3, h4, ?_⟩
    · unfold DClass.validate
      simp only [hv]
      rfl
    · rintro (_ | _) -
      · exact ⟨_, h5⟩
      · exact ⟨_, h6⟩
  | repetition =>
    have h1 := hrep rfl
    have hr : repValidate (w.heap r) = .ok { w.heap r with pfp := some ((w.heap r).pfp.getD false) } := by
      refine (C12_pair (w.heap r) (.int dh) (.int dw) hd).1 ?_
      split at h1 <;> rename_i hb
      · rw [if_pos hb]; exact h1
      · rw [if_neg hb]; exact h1
    obtain ⟨g, hg⟩ := buildGraphs_ok (T := t) H hlim (if (w.heap r).pfp.getD false then .X else .Z)
    have hv' := validate_pair (p := { w.heap r with pfp := some ((w.heap r).pfp.getD false) }) (Or.inl hd) hT H'.2.1 H'.2.2.2
    have hk : (if (w.heap r).pfp.getD false then [Key.X] else [Key.Z]) = [if (w.heap r).pfp.getD false then .X else .Z] := by
      split <;> rfl
    refine ⟨_, _, main { w.heap r with pfp := some ((w.heap r).pfp.getD false) } _ _ ?_ (decoderOf_ok (by simp [decoderSizes, hd, hT])
      (buildGraphs_one hg)), rfl, rfl, rfl, ?_⟩
    · unfold DClass.validate repDecoderValidate
      simp only [hr, bind, Except.bind, hv', pure, Except.pure, Option.getD_some, hk]
    · rintro key rfl
      exact ⟨g, by simp⟩

/-- C95: a decoder made from the dictionary of a qubit after `n + 1` stabilizations fits the qubit: it has its size and decodes `n` comparisons
of rounds. -/
theorem C95_own_dictionary {c : QClass} {q : TQubit} {ops : List QOp} {n : Nat} (A : After c q dh dw ops w)
    (hd : (w.heap q.lat.pref).d = some (.tup [.int dh, .int dw])) (hn : ops.count .stabilize = n + 1) (hlim : sliceSize dh dw < limit)
    (hrep : cls = .repetition → if (w.heap q.lat.pref).pfp.getD false then dh = 1 else dw = 1) :
    ∃ o w1, newDecoder cls limit q.lat.pref w = (.ok o, w1) ∧ Made o.D ∧ o.D.dh = dh ∧ o.D.dw = dw ∧ o.D.T = n ∧
      ∀ key, cls.builds (w.heap q.lat.pref) key → ∃ g, o.D.S key = some g := by
  have O := A.own.2
  obtain ⟨o, w1, h1, h2, h3, h4, h5⟩ := newDecoder_ok (cls := cls) hd O.T O.placed.odd hlim hrep
  exact ⟨o, w1, h1, (newDecoder_facts h1).2.2.2.1, h2, h3, by rw [h4, hn]; push_cast; omega, h5⟩

/-- Operations of qubits keep the size and kind of every dictionary. -/
theorem ops_sameSize (q : TQubit) (d : Option DVal) (pf : Option Bool) : ∀ (l : List QOp) (w : World), r < w.next →
    (w.heap r).d = d → (w.heap r).pfp = pf → ((q.ops l w).heap r).d = d ∧ ((q.ops l w).heap r).pfp = pf
  | [], _, _, h1, h2 => ⟨h1, h2⟩
  | o :: l, w, h0, h1, h2 => by
    have h := keepsP_op (r := r) (P := fun p => p.d = d ∧ p.pfp = pf) (fun _ _ _ _ h => h) q o w ⟨⟨h1, h2⟩, h0⟩
    exact ops_sameSize q d pf l _ h.2 h.1.1 h.1.2

/-- C95: the natural way to work with one dictionary is right (C63): prepare a logical qubit, run a noisy memory with `n + 1`
stabilizations, read out, make a decoder from the very dictionary the qubit has counted in, and decode. -/
theorem C95_own_decodes {c : QClass} {q : TQubit} {ops : List QOp} {n : Nat} {key : Key} {sz : Str → Nat} (A : AfterAlone c q dh dw ops w)
    (hr : q.lat.pref < w.next) (hd : (w.heap q.lat.pref).d = some (.tup [.int dh, .int dw])) (hq : ∀ o ∈ ops, o.quiet = true)
    (hn : ops.count .stabilize = 0) (hbig : 1 < dh * dw) (hc : CanRead c dh dw key) {e0 e1 : Errs} {l : List (QOp × Errs)}
    (hl : ∀ a ∈ l, MemoryOp a.1) (hT : (l.map Prod.fst).count .stabilize = n + 1)
    (hf : Correctable key dh dw n (takePlace n (faultsOf c.code key q.lat.name dh dw 0 l))) {s s' : QState} (h0 : s.psi ≠ 0)
    (hs : SynZero q.lat.name dh dw s.psi) (hR : Run sz (noisyAll q ((prepOp key, e0) :: l ++ [(readOp key, e1)]) w) s s')
    (hlim : sliceSize dh dw < limit)
    (hrep : cls = .repetition → if (w.heap q.lat.pref).pfp.getD false then dh = 1 else dw = 1)
    (hkey : cls.builds (w.heap q.lat.pref) key) {w' : World} (hw : w' = q.ops (prepOp key :: l.map Prod.fst ++ [readOp key]) w) :
    ∃ o w1, newDecoder cls limit q.lat.pref w' = (.ok o, w1) ∧ ∀ m, Contract m →
      (o.correct m (joinSp (groups s'.mem w'.circ.cregs)) (rtypeOf key) none w1).1 =
        .ok (some (bit (decide ((l.map Prod.fst).count (flipGate key) % 2 = 1)))) := by
  obtain ⟨hd', hp'⟩ := ops_sameSize q _ _ (prepOp key :: l.map Prod.fst ++ [readOp key]) w hr hd rfl
  rw [← hw] at hd' hp'
  have A' := A.after.all_next (prepOp key :: l.map Prod.fst ++ [readOp key])
  rw [← hw] at A'
  have hb : cls.builds (w'.heap q.lat.pref) key := by
    unfold DClass.builds at hkey ⊢
    rw [hp']
    exact hkey
  have hr' : q.lat.pref < w'.next := by
    rw [hw]
    have : ∀ (l : List QOp) (w : World), q.lat.pref < w.next → q.lat.pref < (q.ops l w).next := by
      intro l
      induction l with
      | nil => intro w h; exact h
      | cons o l ih =>
        intro w h
        exact ih _ (keepsP_op (r := q.lat.pref) (P := fun _ => True) (fun _ _ _ _ h => h) q o w ⟨trivial, h⟩).2
    exact this _ _ hr
  obtain ⟨o, w1, h1, h2, h3, h4, h5, h6⟩ := C95_own_dictionary (cls := cls) (n := n) A' hd' (by
    simp only [List.count_append, List.count_cons, hn, hT]
    cases key <;> simp [prepOp, readOp]) hlim (by rw [hp']; exact hrep)
  obtain ⟨g, hg⟩ := h6 key hb
  refine ⟨o, w1, h1, fun m hm => ?_⟩
  have hu := C95_first_use_partial h1 hr' (by rw [h3, h4]; exact A.after.own.2.placed.odd) [] trivial m
    (joinSp (groups s'.mem w'.circ.cregs)) (rtypeOf key) none
  have hu' := congrArg Prod.fst hu
  refine hu'.trans ?_
  rw [hw]
  exact C98_logical A hq hn hbig hc hl hT h2 h3 h4 hg (by rw [h5]) hm (tolerable_of_correctable hf) h0 hs hR

/-! ### Not if the dictionary is given another size in between -/

/-- The dictionary of a decoder for `3 × 3`, and what is written into it for the next decoder. -/
def threeParams : Params := { d := some (.tup [.int 3, .int 3]), T := some 1 }
def fiveParams : Params := { d := some (.tup [.int 5, .int 5]), T := some 1 }

/-- C95 fails if the program writes another size into the dictionary before the first string is decoded (as a loop over
sizes with one dictionary does): then strings are cut at the wrong places, and a value comes out wrong without any exception. Here
a decoder for `3 × 3` corrects a phase error on the first data qubit if it is used at once, and does not notice it if `"d"` is set to
`(5, 5)` in between. -/
theorem C95_false_resized (m : Matcher) (hm : Contract m) :
    ∃ o w1, newDecoder .rotated 900 0 ⟨fun _ => threeParams, 1, {}⟩ = (.ok o, w1) ∧
      (o.correct m "1 00010000 00000000".toList .X none w1).1 = .ok (some 0) ∧
      (o.correct m "1 00010000 00000000".toList .X none (DictAction.runAll w1 [.write 0 fiveParams])).1 = .ok (some 1) := by
  obtain ⟨o, w1, h1, h2, h3, h4, h5⟩ := newDecoder_ok (cls := .rotated) (w := ⟨fun _ => threeParams, 1, {}⟩) (r := 0) (dh := 3) (dw := 3)
    (t := 1) (limit := 900) rfl rfl (by unfold OddPos; decide) (by decide) (fun h => by cases h)
  obtain ⟨f1, f2, f3, f4, f5, f6⟩ := newDecoder_facts h1
  have H : OddPos o.D.dh o.D.dw := by rw [h2, h3]; unfold OddPos; decide
  refine ⟨o, w1, h1, ?_, ?_⟩
  · refine (congrArg Prod.fst (C95_first_use_partial h1 (by decide) H [] trivial m _ _ none)).trans ?_
    obtain ⟨g, hg⟩ := h5 .X trivial
    have := C32_strings_single o.D f4 .X g hg H (by rw [h2, h3]; decide) m hm 1 (by rw [h4]) [.data 0 0 0]
      (by
        rw [h2, h3]
        refine ⟨?_, by decide⟩
        intro f hf
        rw [List.mem_singleton.1 hf]
        unfold Fault.Fits; decide) (fun _ _ => false) ["00000000".toList, "00010000".toList] rfl ?_ false
    · exact this
    · rw [h2, h3]
      refine ⟨by unfold IsBits; decide, ?_⟩
      intro t k s p hs hp
      have ht : t < 2 := by
        by_contra h
        rw [List.getElem?_eq_none (by simp; omega)] at hs
        cases hs
      have hk : k < 4 := by
        by_contra h
        rw [List.getElem?_eq_none (by
          have : (sitesOf .X 3 3).length = 4 := by decide
          omega)] at hp
        cases hp
      have key : ∀ t : Nat, t < 2 → ∀ k : Nat, k < 4 → ∀ s ∈ (["00000000".toList, "00010000".toList] : List Str)[t]?, ∀ p ∈ (sitesOf .X 3 3)[k]?,
          keyBits .X 3 3 s k = readBit (fun _ _ => false) [.data 0 0 0] t p.1 p.2 := by decide
      exact key t ht k hk s hs p hp
  · have he : o.encoder (DictAction.runAll w1 [.write 0 fiveParams]) = .ok (5, 5) := by
      unfold DecoderObj.encoder
      rw [f3, f1, f2]
      refine makeEncoder_ok ⟨Or.inl ?_, fun h => by cases h⟩ (by unfold OddPos; decide)
      rfl
    unfold DecoderObj.correct
    rw [he]
    have hp : parseReadout 5 5 "1 00010000 00000000".toList .X = .ok (1, { X := [], Z := (parseRounds 5 5 ["00010000".toList, "00000000".toList]).toOption.elim [] Hits.Z }) := by decide +kernel
    simp only [hp, bind, Except.bind]
    rw [C28_no_hits _ _ _ _ _ _ rfl]
    rfl

/-- One dictionary for a decoder and a qubit, which counts its rounds in it: strings are decoded as before. -/
example (m : Matcher) (s : Str) (q : TQubit) : ∃ o w1, newDecoder .rotated 900 0 ⟨fun _ => threeParams, 1, {}⟩ = (.ok o, w1) ∧
    (o.correct m s .Z none (DictAction.runAll w1 [.qubit .xxzz (some 0) "a".toList, .op q .stabilize, .op q .stabilize])).1 =
      correctString o.D m s .Z none := by
  obtain ⟨o, w1, h1, h2, h3, h4, h5⟩ := newDecoder_ok (cls := .rotated) (w := ⟨fun _ => threeParams, 1, {}⟩) (r := 0) (dh := 3) (dw := 3)
    (t := 1) (limit := 900) rfl rfl (by unfold OddPos; decide) (by decide) (fun h => by cases h)
  refine ⟨o, w1, h1, congrArg Prod.fst (C95_first_use_partial h1 (by decide) (by rw [h2, h3]; unfold OddPos; decide) _ ?_ m s .Z none)⟩
  exact ⟨(fun p h => by cases h), (fun p h => by cases h), (fun p h => by cases h), trivial⟩

/-- The qubit does write to the dictionary: `"T"` is no longer what the decoder was made for. -/
example : ((newQubit .xxzz (some 0) "a".toList ⟨fun _ => threeParams, 1, {}⟩).2.heap 0).T = some (-1) := by decide +kernel

/-- A qubit whose dictionary holds a pair, as `C95_own_dictionary` and `C95_own_decodes` ask for. -/
theorem pair_dictionary (c : QClass) (name : Str) (H : OddPos dh dw) (hrep : c = .rep → dw = 1) :
    ∃ q w, AfterAlone c q dh dw [] w ∧ q.lat.name = name ∧ q.lat.pref < w.next ∧ (w.heap q.lat.pref).d = some (.tup [.int dh, .int dw]) ∧
      (w.heap q.lat.pref).pfp.getD false = false := by
  let w0 : World := ⟨fun _ => { d := some (.tup [.int dh, .int dw]), pfp := some false }, 1, {}⟩
  obtain ⟨q, w, h1, B, hn⟩ := built_of_size c name w0 0 H rfl (fun h => hrep h) (by intro g _ h; cases h)
  have hp : q.lat.pref = 0 := by
    unfold newQubit at h1
    have hdict : dictOrNew (some 0) w0 = (.ok 0, w0) := rfl
    rw [CM.bind_ok hdict, CM.bind_run] at h1
    rcases h2 : checkRep c 0 w0 with ⟨e | u, w2⟩
    · rw [h2] at h1; cases h1
    · rw [h2] at h1
      simp only at h1
      rw [CM.bind_run] at h1
      rcases h3 : newLattice c.code name 0 w2 with ⟨e | L, w3⟩
      · rw [h3] at h1; cases h1
      · rw [h3] at h1
        obtain ⟨-, -, -, -, -, -, -, h4, -⟩ := newLattice_inv h3
        cases h1
        exact h4
  have hk := keepsP_newQubit (r := 0) (P := fun p => Fitting .rotated dh dw p ∧ p.pfp = some false)
    (fun p p' h hv => ⟨fitting_repValidate h.1 hv, by
      rcases h.1.d with hd | hd
      · by_cases hc : (if p.pfp.getD false then (Num.int dh).EqOne else (Num.int dw).EqOne)
        · rw [(C12_pair p _ _ hd).1 hc] at hv
          cases hv
          simp [h.2]
        · rw [(C12_pair p _ _ hd).2 hc] at hv
          cases hv
      · unfold repValidate at hv
        simp only [hd] at hv
        cases hv⟩)
    (fun p p' h hv => ⟨fitting_rotatedValidate h.1 hv, (rotatedValidate_pair h.1.d hv).2.trans h.2⟩)
    (fun p h => ⟨fitting_repTouched h.1, by
      unfold repTouched
      rcases h.1.d with hd | hd
      · by_cases hc : (if p.pfp.getD false then (Num.int dh).EqOne else (Num.int dw).EqOne)
        · rw [(C12_pair p _ _ hd).1 hc]
          simp [h.2]
        · rw [(C12_pair p _ _ hd).2 hc]
          simp [h.2]
      · have hv : repValidate p = .error .latticeError := by
          unfold repValidate
          simp only [hd]
        rw [hv]
        simp [h.2]⟩)
    (fun p h => ⟨fitting_rotatedTouched h.1, h.2⟩)
    (cls := c) (d := some 0) (name := name) w0 ⟨⟨⟨Or.inl rfl, fun h => by cases h⟩, rfl⟩, by show 0 < 1; decide⟩
  rw [h1] at hk
  refine ⟨q, w, ⟨w0, w, rfl, B, rfl⟩, hn, by rw [hp]; exact hk.2, ?_, by rw [hp, hk.1.2]; rfl⟩
  obtain ⟨_, _, rest, -, h5, -⟩ := B
  rw [hp] at h5 ⊢
  rcases hk.1.1.d with h | h
  · exact h
  · rw [h5] at h; cases h

example : ∃ q w o w1, AfterAlone .xxzz q 3 5 [.resetZ, .stabilize, .stabilize, .stabilize, .readoutZ none] w ∧
    newDecoder .rotated 900 q.lat.pref w = (.ok o, w1) ∧ o.D.dh = 3 ∧ o.D.dw = 5 ∧ o.D.T = 2 := by
  obtain ⟨q, w, A, -, hr, hd, -⟩ := pair_dictionary (dh := 3) (dw := 5) .xxzz "a".toList (by unfold OddPos; decide) (by simp)
  have A' := A.all_next [.resetZ, .stabilize, .stabilize, .stabilize, .readoutZ none]
  obtain ⟨o, w1, h1, -, h2, h3, h4, -⟩ := C95_own_dictionary (cls := .rotated) (n := 2) (limit := 900) A'.after (ops_sameSize q _ _ _ _ hr hd rfl).1 rfl
    (by decide) (fun h => by cases h)
  exact ⟨q, _, o, w1, A', h1, h2, h3, h4⟩

/-- An execution of the whole: one data error between two rounds. -/
example : ∃ q w s' o w1, AfterAlone .xxzz q 3 5 [] w ∧
    Run (fun _ => 0) (noisyAll q [(.resetZ, noErrs), (.stabilize, noErrs), (.idData, demoErrs), (.stabilize, noErrs), (.x, noErrs),
      (.stabilize, noErrs), (.readoutZ none, noErrs)] w) ⟨ground, fun _ => false⟩ s' ∧
    newDecoder .rotated 900 q.lat.pref (q.ops [.resetZ, .stabilize, .idData, .stabilize, .x, .stabilize, .readoutZ none] w) = (.ok o, w1) ∧
    ∀ m, Contract m → (o.correct m (joinSp (groups s'.mem (q.ops [.resetZ, .stabilize, .idData, .stabilize, .x, .stabilize, .readoutZ none] w).circ.cregs))
      .Z none w1).1 = .ok (some 1) := by
  obtain ⟨q, w, A, hn, hr, hd, -⟩ := pair_dictionary (dh := 3) (dw := 5) .xxzz "a".toList (by unfold OddPos; decide) (by simp)
  obtain ⟨s', hs'⟩ := noisy_exists (sz := fun _ => 0) A.after ⟨ground, fun _ => false⟩ ground_ne_zero
    (l := [(.resetZ, noErrs), (.stabilize, noErrs), (.idData, demoErrs), (.stabilize, noErrs), (.x, noErrs), (.stabilize, noErrs),
      (.readoutZ none, noErrs)])
  obtain ⟨o, w1, h1, h2⟩ := C95_own_decodes (cls := .rotated) (n := 2) (key := .Z) (limit := 900)
    (l := [(.stabilize, noErrs), (.idData, demoErrs), (.stabilize, noErrs), (.x, noErrs), (.stabilize, noErrs)]) A hr hd
    (fun o h => absurd h List.not_mem_nil) rfl (by decide) (Or.inl (by decide)) (by
      intro a ha
      simp only [List.mem_cons, List.not_mem_nil, or_false] at ha
      rcases ha with rfl | rfl | rfl | rfl | rfl <;> trivial) rfl (by
      rw [hn]
      have e : takePlace 2 (faultsOf .xxzz .Z "a".toList 3 5 0
        [(.stabilize, noErrs), (.idData, demoErrs), (.stabilize, noErrs), (.x, noErrs), (.stabilize, noErrs)]) = [.data 0 0 1] := by decide +kernel
      refine (congrArg (Correctable .Z 3 5 2) e).mpr ⟨?_, by decide⟩
      intro f hf
      rw [List.mem_singleton.1 hf]
      unfold Fault.Fits; decide) (s := ⟨ground, fun _ => false⟩) ground_ne_zero ground_synZero hs' (by decide) (fun h => by cases h) trivial rfl
  exact ⟨q, w, s', o, w1, A, hs', h1, h2⟩

end Qtc
