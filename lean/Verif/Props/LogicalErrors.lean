import Verif.Proof.SharedRun
import Verif.Props.LogicalQubit
import Verif.Spec.LogicalErrors
/-!
Property C140: Pauli errors on data qubits are gates to the logical qubit.
-/
namespace Qtc
open Spec Function

variable {dh dw : Int} {code : Code} {name : Str} {m : Nat → Bool} {φ : Psi} {p : ℂ × ℂ}

/-! ### One error -/

theorem pauliLine_passes (f : Int → Letter) (a : Letter) {i : Int} (hi : 0 ≤ i) : ∀ {L : List Int}, (∀ j ∈ L, 0 ≤ j) → L.Nodup →
    Passes (decide (i ∈ L) && decide (f i ≠ a)) (a.op (dataQ name i)) (pstr (L.map fun j => (f j, dataQ name j)))
  | [], _, _ => by
    rw [decide_eq_false (by simp), Bool.false_and]
    exact Passes.one_right _
  | j :: L, hL, hn => by
    rw [List.nodup_cons] at hn
    have ih := pauliLine_passes f a hi (fun k hk => hL k (by simp [hk])) hn.2
    have e : pstr ((j :: L).map fun j => (f j, dataQ name j)) = (f j).op (dataQ name j) * pstr (L.map fun j => (f j, dataQ name j)) := by
      simp [pstr]
    rw [e]
    have := (letter_passes (name := name) a (f j) hi (hL j (by simp))).mul_right ih
    have e' : (decide (i ∈ j :: L) && decide (f i ≠ a)) = ((decide (j = i) && decide (f j ≠ a)) ^^ (decide (i ∈ L) && decide (f i ≠ a))) := by
      by_cases hji : j = i
      · subst hji
        simp [hn.1]
      · simp [hji, Ne.symm hji]
    rw [e']
    exact this

theorem flipsLogX_passes (H : OddPos dh dw) (a : Letter) {i : Int} (hi : 0 ≤ i) :
    Passes (flipsLogX code dh dw a i) (a.op (dataQ name i)) (logX code name dh dw) :=
  pauliLine_passes (fun i => if code = .xzzx ∧ i % 2 = 0 then .Z else .X) a hi (fun j hj => (mem_allQubits.1 (col_all H j hj)).1) (col_nodup H)

theorem flipsLogZ_passes (H : OddPos dh dw) (a : Letter) {i : Int} (hi : 0 ≤ i) :
    Passes (flipsLogZ code dw a i) (a.op (dataQ name i)) (logZ code name dw) :=
  pauliLine_passes (fun i => if code = .xzzx ∧ i % 2 = 0 then .X else .Z) a hi (fun j hj => (mem_allQubits.1 (row_all H j hj)).1) row_nodup

theorem synZero_data (a : Letter) (i : Int) (h : SynZero name dh dw φ) : SynZero name dh dw (a.op (dataQ name i) φ) :=
  ⟨fun k hk => IsZero.of_comm (h.1 k hk) (letter_comm (dataQ_ne_mzQ k i) a .Z), fun k hk => IsZero.of_comm (h.2 k hk) (letter_comm (dataQ_ne_mxQ k i) a .Z)⟩

theorem logicalZero_logX (H : OddPos dh dw) {φ : Psi} (h0 : φ ≠ 0) (hb : Bounded φ) (hm : Syndrome code name dh dw m φ) (hz : SynZero name dh dw φ)
    (hv : HasValue (logZ code name dw) true φ) : LogicalZero code name dh dw m (logX code name dh dw φ) := by
  refine ⟨fun e => h0 ?_, keeping_logX.bounded φ hb, ?_, ?_, ?_⟩
  · rw [← logX_twice (code := code) (name := name) H φ, e, map_zero]
  · have := encoded_syndrome (p := (0, 1)) H hm
    unfold encoded at this
    simpa using this
  · have := encoded_synZero (code := code) (p := (0, 1)) hz
    unfold encoded at this
    simpa using this
  · have := hv.passes (logX_logZ (code := code) (name := name) H).symm
    simpa using this

theorem one_error (H : OddPos dh dw) (hφ : LogicalZero code name dh dw m φ) (a : Letter) {i : Int} (hi : 0 ≤ i) :
    ∃ φ', LogicalZero code name dh dw (fun k => m k ^^ flips code dh dw a i k) φ' ∧
      ∀ p, a.op (dataQ name i) (encoded code name dh dw φ p) = encoded code name dh dw φ'
        (qubitAfter ((if flipsLogX code dh dw a i then [.z] else []) ++ (if flipsLogZ code dw a i then [.x] else [])) p) := by
  obtain ⟨h0, hb, hm, hz, hv⟩ := hφ
  have a0 := fault_ne_zero a (dataQ name i) h0
  have ab := (keeping_letter a (dataQ name i)).bounded φ hb
  have am := syndrome_fault H a hi hm
  have az := synZero_data (dh := dh) (dw := dw) a i hz
  have av := hv.passes (flipsLogZ_passes (code := code) (name := name) (dw := dw) H a hi).symm
  have hX : a.op (dataQ name i) (logX code name dh dw φ) = sg (flipsLogX code dh dw a i) • logX code name dh dw (a.op (dataQ name i) φ) := by
    have := flipsLogX_passes (code := code) (name := name) H a hi
    unfold Passes at this
    have := congrArg (fun B : Op => B φ) this
    simpa only [Module.End.mul_apply, LinearMap.smul_apply] using this
  cases hf : flipsLogZ code dw a i
  · rw [hf] at av
    refine ⟨_, ⟨a0, ab, am, az, av⟩, fun p => ?_⟩
    unfold encoded
    rw [map_add, map_smul, map_smul, hX]
    cases flipsLogX code dh dw a i
    · simp [qubitAfter, sg]
    · simp [qubitAfter, sg]
  · rw [hf] at av
    refine ⟨_, logicalZero_logX H a0 ab am az av, fun p => ?_⟩
    unfold encoded
    rw [map_add, map_smul, map_smul, hX, logX_twice H]
    cases flipsLogX code dh dw a i
    · simp only [sg]
      simp [add_comm, qubitAfter]
    · simp only [sg]
      simp [add_comm, qubitAfter]

/-! ### Many errors -/

theorem qubitAfter_append : ∀ (l l' : List QOp) (p : ℂ × ℂ), qubitAfter (l ++ l') p = qubitAfter l' (qubitAfter l p)
  | [], _, _ => rfl
  | o :: l, l', p => by cases o <;> exact qubitAfter_append l l' _

/-- C140: Pauli errors on data qubits take logical states to logical states, with the amplitudes of a qubit after certain gates, and with the
syndromes changed where an odd number of errors is noticed. -/
theorem C140_errors (H : OddPos dh dw) {l : List (Letter × Int)} (hl : ∀ e ∈ l, e.2 ∈ allQubits dh dw) {m : Nat → Bool} {φ : Psi}
    (hφ : LogicalZero code name dh dw m φ) :
    ∃ m' φ', LogicalZero code name dh dw m' φ' ∧
      (∀ k p, (zSites dh dw)[k]? = some p → m' k = (m k ^^ xorAll (l.map fun e => detects code dh dw .Z e.1 e.2 p))) ∧
      (∀ k p, (xSites dh dw)[k]? = some p → m' ((zSites dh dw).length + k) =
        (m ((zSites dh dw).length + k) ^^ xorAll (l.map fun e => detects code dh dw .X e.1 e.2 p))) ∧
      ∀ p, afterPaulis name l (encoded code name dh dw φ p) = encoded code name dh dw φ' (qubitAfter (gatesOf code dh dw l) p) := by
  induction l generalizing m φ with
  | nil => exact ⟨m, φ, hφ, fun k p _ => by simp [xorAll], fun k p _ => by simp [xorAll], fun p => rfl⟩
  | cons e l ih =>
    obtain ⟨φ1, h1, h2⟩ := one_error H hφ e.1 (mem_allQubits.1 (hl e (by simp))).1
    obtain ⟨m', φ', h3, h4, h5, h6⟩ := ih (fun e h => hl e (by simp [h])) h1
    refine ⟨m', φ', h3, fun k p hk => ?_, fun k p hk => ?_, fun p => ?_⟩
    · rw [h4 k p hk, List.map_cons, xorAll_cons, ← Bool.xor_assoc]
      congr 2
      unfold flips
      rw [hk]
    · rw [h5 k p hk, List.map_cons, xorAll_cons, ← Bool.xor_assoc]
      congr 2
      unfold flips
      rw [List.getElem?_eq_none (by omega : (zSites dh dw).length ≤ (zSites dh dw).length + k), Nat.add_sub_cancel_left, hk]
    · show afterPaulis name l (e.1.op (dataQ name e.2) _) = _
      rw [h2, h6]
      exact congrArg _ (qubitAfter_append _ _ p).symm

theorem codeState_encoded {e : Key → Int × Int → Bool} (H : OddPos dh dw) (hφ : CodeState code name dh dw e φ) (p : ℂ × ℂ) :
    CodeState code name dh dw e (encoded code name dh dw φ p) := by
  have hX : CodeState code name dh dw e (logX code name dh dw φ) := codeState_of hφ
    (fun key p hp => (logX_check H (sites_sound hp)).symm) fun x hx => by rw [logX_eq]; exact fstr_other hx (col_all H)
  refine ⟨fun key s hs => ?_, fun x hx => ?_⟩
  · have h0 := hφ.1 key s hs
    have h1 := hX.1 key s hs
    unfold HasValue at h0 h1 ⊢
    unfold encoded
    rw [map_add, map_smul, map_smul, h0, h1, smul_add, smul_comm (sg _), smul_comm (sg _)]
  · have h0 := hφ.2 x hx
    have h1 := hX.2 x hx
    unfold IsZero at h0 h1 ⊢
    unfold encoded
    rw [map_add, map_smul, map_smul, h0, h1, smul_zero, smul_zero, add_zero]

theorem codeState_paulis (H : OddPos dh dw) : ∀ (l : List (Letter × Int)), (∀ e ∈ l, e.2 ∈ allQubits dh dw) →
    ∀ {u : Key → Int × Int → Bool} {ψ : Psi}, CodeState code name dh dw u ψ →
      CodeState code name dh dw (fun key s => u key s ^^ xorAll (l.map fun e => detects code dh dw key e.1 e.2 s)) (afterPaulis name l ψ)
  | [], _, u, ψ, h => by
    have e : (fun key s => u key s ^^ xorAll (([] : List (Letter × Int)).map fun e => detects code dh dw key e.1 e.2 s)) = u := by
      funext key s
      exact Bool.xor_false _
    rw [e]
    exact h
  | e :: l, hl, u, ψ, h => by
    have he := hl e (by simp)
    have h1 : CodeState code name dh dw (fun key s => u key s ^^ detects code dh dw key e.1 e.2 s) (e.1.op (dataQ name e.2) ψ) :=
      ⟨fun key s hs => (h.1 key s hs).passes (detects_passes H (sites_sound hs) e.1 (mem_allQubits.1 he).1).symm,
        fun x hx => IsZero.of_comm (h.2 x hx) (letter_comm (hx e.2 he).symm e.1 .Z)⟩
    have h2 := codeState_paulis H l (fun e h => hl e (by simp [h])) h1
    refine ⟨fun key s hs => ?_, h2.2⟩
    have := h2.1 key s hs
    simp only [List.map_cons, xorAll_cons]
    simp only [Bool.xor_assoc] at this
    exact this

theorem qubitAfter_back : ∀ (l : List QOp) (p : ℂ × ℂ), qubitAfter l (qubitAfter l.reverse p) = p
  | [], _ => rfl
  | o :: l, p => by
    rw [List.reverse_cons, qubitAfter_append]
    have : ∀ r : ℂ × ℂ, qubitAfter (o :: l) (qubitAfter [o] r) = qubitAfter l r := by
      intro r
      cases o <;> simp [qubitAfter]
    rw [this]
    exact qubitAfter_back l p

theorem norm2_paulis : ∀ (l : List (Letter × Int)) {ψ : Psi}, Bounded ψ → norm2 (afterPaulis name l ψ) = norm2 ψ
  | [], _, _ => rfl
  | e :: l, ψ, h => (norm2_paulis l ((keeping_letter e.1 (dataQ name e.2)).bounded ψ h)).trans ((keeping_letter e.1 (dataQ name e.2)).norm2 ψ h)

/-- C140: errors that the same plaquettes notice differ by gates on the logical qubit, and a factor of absolute value 1. -/
theorem C140_same (H : OddPos dh dw) {l l' : List (Letter × Int)} (hl : ∀ e ∈ l, e.2 ∈ allQubits dh dw) (hl' : ∀ e ∈ l', e.2 ∈ allQubits dh dw)
    (hs : ∀ key, ∀ s ∈ sitesOf key dh dw, xorAll (l.map fun e => detects code dh dw key e.1 e.2 s) = xorAll (l'.map fun e => detects code dh dw key e.1 e.2 s))
    {m : Nat → Bool} {φ : Psi} (h0 : φ ≠ 0) (hb : Bounded φ) (hφ : CodeState code name dh dw (told dh dw m) φ) (hv : HasValue (logZ code name dw) false φ) :
    ∃ c : ℂ, Complex.normSq c = 1 ∧ ∀ p, afterPaulis name l' (encoded code name dh dw φ p) =
      c • afterPaulis name l (encoded code name dh dw φ (qubitAfter (gatesOf code dh dw l' ++ (gatesOf code dh dw l).reverse) p)) := by
  have hz : LogicalZero code name dh dw m φ := ⟨h0, hb, told_syndrome hφ, synZero_of hφ.2, hv⟩
  obtain ⟨m1, φ1, a1, -, -, a2⟩ := C140_errors H hl hz
  obtain ⟨m2, φ2, b1, -, -, b2⟩ := C140_errors H hl' hz
  have key : ∀ {l : List (Letter × Int)} {φ1 : Psi}, (∀ e ∈ l, e.2 ∈ allQubits dh dw) →
      (∀ p, afterPaulis name l (encoded code name dh dw φ p) = encoded code name dh dw φ1 (qubitAfter (gatesOf code dh dw l) p)) →
      CodeState code name dh dw (fun key s => told dh dw m key s ^^ xorAll (l.map fun e => detects code dh dw key e.1 e.2 s)) φ1 := by
    intro l φ1 hl h
    have h1 := codeState_paulis H l hl (codeState_encoded H hφ (qubitAfter (gatesOf code dh dw l).reverse (1, 0)))
    rw [h, qubitAfter_back] at h1
    unfold encoded at h1
    simpa using h1
  have c1 := key hl a2
  have c2 := key hl' b2
  have c2' : CodeState code name dh dw (fun key s => told dh dw m key s ^^ xorAll (l.map fun e => detects code dh dw key e.1 e.2 s)) φ2 :=
    ⟨fun key s h => by simp only [hs key s h]; exact c2.1 key s h, c2.2⟩
  obtain ⟨c, hc⟩ := C137_unique_z H c2' c1 b1.2.2.2.2 a1.2.2.2.2 a1.1
  have hn : ∀ {l : List (Letter × Int)} {m1 : Nat → Bool} {φ1 : Psi}, LogicalZero code name dh dw m1 φ1 →
      (∀ p, afterPaulis name l (encoded code name dh dw φ p) = encoded code name dh dw φ1 (qubitAfter (gatesOf code dh dw l) p)) → norm2 φ1 = norm2 φ := by
    intro l m1 φ1 h1 h
    have := congrArg norm2 (h (1, 0))
    rw [norm2_paulis l (encoded_bounded hb), encoded_norm2 H hv hb, encoded_norm2 H h1.2.2.2.2 h1.2.1, qubitAfter_norm] at this
    simpa using this.symm
  have hcn : Complex.normSq c = 1 := by
    have h1 := hn b1 b2
    rw [hc, norm2_smul, hn a1 a2] at h1
    exact mul_right_cancel₀ (norm2_pos hb h0).ne' (h1.trans (one_mul _).symm)
  refine ⟨c, hcn, fun p => ?_⟩
  rw [a2, b2, qubitAfter_append, qubitAfter_back, hc]
  unfold encoded
  rw [map_smul, smul_add, smul_comm c, smul_comm c]

/-! ### Circuits -/

variable {cls : QClass} {q : TQubit} {ops : List QOp} {w : World} {sz : Str → Nat}

theorem qubitAfter_ne (l : List QOp) (hp : p ≠ 0) : qubitAfter l p ≠ 0 := by
  intro e
  have h := qubitAfter_norm l p
  rw [e] at h
  have a1 := Complex.normSq_nonneg p.1
  have a2 := Complex.normSq_nonneg p.2
  have : Complex.normSq p.1 + Complex.normSq p.2 = 0 := by rw [← h]; simp
  exact hp (Prod.ext (Complex.normSq_eq_zero.1 (by linarith)) (Complex.normSq_eq_zero.1 (by linarith)))

/-- C140: errors and then gates and stabilizations: `readout_z` gives a value with the probability with which a qubit gives it after the gates
that the errors are. -/
theorem C140_z (A : After cls q dh dw ops w) (hw : cls ≠ .xzzx ∨ 1 < dw) {l : List QOp} (hl : ∀ o ∈ l, MemoryOp o) :
    ∃ r, r ∉ (q.ops l w).circ.names ∧ (q.ops (l ++ [.readoutZ none]) w).circ.cregs = (q.ops l w).circ.cregs ++ [⟨r, 1⟩] ∧
      ∀ (es : List (Letter × Int)) (m : Nat → Bool) (φ : Psi) (p : ℂ × ℂ) (s : QState) (v : Bool), (∀ e ∈ es, e.2 ∈ allQubits dh dw) →
        LogicalZero cls.code q.lat.name dh dw m φ → p ≠ 0 → s.psi = afterPaulis q.lat.name es (encoded cls.code q.lat.name dh dw φ p) →
        bornProb sz (addedAll q (l ++ [.readoutZ none]) w) s (fun t => t.mem ⟨r, 0⟩ = v) =
          Complex.normSq (if v = false then (qubitAfter (gatesOf cls.code dh dw es ++ l) p).1 else (qubitAfter (gatesOf cls.code dh dw es ++ l) p).2) /
            (Complex.normSq p.1 + Complex.normSq p.2) := by
  obtain ⟨r, h1, h2, h⟩ := C139_z (sz := sz) A hw hl
  refine ⟨r, h1, h2, fun es m φ p s v he hφ hp hs => ?_⟩
  obtain ⟨m', φ', h3, -, -, h4⟩ := C140_errors A.own.2.placed.odd he hφ
  rw [h m' φ' _ s v h3 (qubitAfter_ne _ hp) (hs.trans (h4 p)), qubitAfter_append, qubitAfter_norm]

/-- C140: so does `readout_x`. -/
theorem C140_x (A : After cls q dh dw ops w) (hh : cls ≠ .xzzx ∨ 1 < dh) {l : List QOp} (hl : ∀ o ∈ l, MemoryOp o) :
    ∃ r, r ∉ (q.ops l w).circ.names ∧ (q.ops (l ++ [.readoutX none]) w).circ.cregs = (q.ops l w).circ.cregs ++ [⟨r, 1⟩] ∧
      ∀ (es : List (Letter × Int)) (m : Nat → Bool) (φ : Psi) (p : ℂ × ℂ) (s : QState) (v : Bool), (∀ e ∈ es, e.2 ∈ allQubits dh dw) →
        LogicalZero cls.code q.lat.name dh dw m φ → p ≠ 0 → s.psi = afterPaulis q.lat.name es (encoded cls.code q.lat.name dh dw φ p) →
        bornProb sz (addedAll q (l ++ [.readoutX none]) w) s (fun t => t.mem ⟨r, 0⟩ = v) =
          Complex.normSq (if v = false then (qubitAfter (gatesOf cls.code dh dw es ++ l) p).1 + (qubitAfter (gatesOf cls.code dh dw es ++ l) p).2
            else (qubitAfter (gatesOf cls.code dh dw es ++ l) p).1 - (qubitAfter (gatesOf cls.code dh dw es ++ l) p).2) /
            (2 * (Complex.normSq p.1 + Complex.normSq p.2)) := by
  obtain ⟨r, h1, h2, h⟩ := C139_x (sz := sz) A hh hl
  refine ⟨r, h1, h2, fun es m φ p s v he hφ hp hs => ?_⟩
  obtain ⟨m', φ', h3, -, -, h4⟩ := C140_errors A.own.2.placed.odd he hφ
  rw [h m' φ' _ s v h3 (qubitAfter_ne _ hp) (hs.trans (h4 p)), qubitAfter_append, qubitAfter_norm]

theorem happens_paulis (name : Str) : ∀ (es : List (Letter × Int)) {l : List Event} {s s' : QState},
    Happens sz (es.map (fun e => .blow (e.1.op (dataQ name e.2))) ++ l) s s' ↔ Happens sz l ⟨afterPaulis name es s.psi, s.mem⟩ s'
  | [], _, _, _ => Iff.rfl
  | e :: es, _, s, _ => happens_paulis name es (s := ⟨e.1.op (dataQ name e.2) s.psi, s.mem⟩)

theorem happens_only : ∀ (l : List Instr) {s s' : QState}, Happens sz (l.map .instr) s s' ↔ Run sz l s s'
  | [], _, _ => Iff.rfl
  | _ :: l, _, _ => exists_congr fun _ => and_congr_right fun _ => happens_only l

/-- C140: the same with errors between the gates and stabilizations: every execution ends in a logical state with the amplitudes of a qubit
after the gates and the gates that the errors are, in their order, and with the syndromes that all errors together make. -/
theorem C140_between (A : After cls q dh dw ops w) {l : List (List (Letter × Int) × QOp)} (hl : ∀ b ∈ l, MemoryOp b.2 ∧ ∀ e ∈ b.1, e.2 ∈ allQubits dh dw)
    {m : Nat → Bool} {φ : Psi} (hφ : LogicalZero cls.code q.lat.name dh dw m φ) :
    ∃ m' φ', LogicalZero cls.code q.lat.name dh dw m' φ' ∧
      (∀ k p, (zSites dh dw)[k]? = some p → m' k = (m k ^^ xorAll ((l.flatMap Prod.fst).map fun e => detects cls.code dh dw .Z e.1 e.2 p))) ∧
      (∀ k p, (xSites dh dw)[k]? = some p → m' ((zSites dh dw).length + k) =
        (m ((zSites dh dw).length + k) ^^ xorAll ((l.flatMap Prod.fst).map fun e => detects cls.code dh dw .X e.1 e.2 p))) ∧
      ∀ (p : ℂ × ℂ) (s t : QState), p ≠ 0 → s.psi = encoded cls.code q.lat.name dh dw φ p → Happens sz (hitEvents q l w) s t →
        t.psi = encoded cls.code q.lat.name dh dw φ' (qubitAfter (gatesOfAll cls.code dh dw l) p) := by
  induction l generalizing ops w m φ with
  | nil =>
    refine ⟨m, φ, hφ, fun k p _ => by simp [xorAll], fun k p _ => by simp [xorAll], fun p s t _ hs h => ?_⟩
    have e : t = s := h
    rw [e, hs]
    rfl
  | cons b l ih =>
    obtain ⟨es, o⟩ := b
    obtain ⟨ho, he⟩ := hl (es, o) (by simp)
    obtain ⟨m1, φ1, a1, a2, a3, a4⟩ := C140_errors A.own.2.placed.odd he hφ
    obtain ⟨m', φ', b1, b2, b3, b4⟩ := ih (A.next o) (fun b h => hl b (by simp [h])) a1
    refine ⟨m', φ', b1, fun k p hk => ?_, fun k p hk => ?_, fun p s t hp hs h => ?_⟩
    · rw [b2 k p hk, a2 k p hk, List.flatMap_cons, List.map_append, xorAll_append, Bool.xor_assoc]
    · rw [b3 k p hk, a3 k p hk, List.flatMap_cons, List.map_append, xorAll_append, Bool.xor_assoc]
    · obtain ⟨u, h1, h2⟩ := happens_split.1 ((happens_paulis q.lat.name es).1 h)
      have h1 := (happens_only _).1 h1
      have hu : u.psi = encoded cls.code q.lat.name dh dw φ1 (qubitAfter [o] (qubitAfter (gatesOf cls.code dh dw es) p)) := by
        refine C139_gates (sz := sz) A a1 (l := [o]) (by simpa using ho) (qubitAfter_ne _ hp) ?_ (by rw [A.all_single]; exact h1)
        show afterPaulis _ es s.psi = _
        rw [hs, a4]
      rw [b4 _ u t (qubitAfter_ne _ (qubitAfter_ne _ hp)) hu h2, ← qubitAfter_append, ← qubitAfter_append]
      unfold gatesOfAll
      rw [List.flatMap_cons, List.append_assoc]

/-- On the XZZX lattice of size 3 an error Z on qubit 0 is an X gate, an error Z on qubit 3 is a Z gate, and one on qubit 4 none. -/
example : gatesOf .xzzx 3 3 [(.Z, 0)] = [.x] ∧ gatesOf .xzzx 3 3 [(.Z, 3)] = [.z] ∧ gatesOf .xzzx 3 3 [(.Z, 4)] = [] := by decide

/-- Errors X on qubits 0 and 3 of the left column and an error X on qubit 6 are noticed alike, and differ by an X gate. -/
example : (∀ key, ∀ s ∈ sitesOf key 3 3, xorAll ([(Letter.X, (0 : Int)), (.X, 3)].map fun e => detects .xxzz 3 3 key e.1 e.2 s) =
    xorAll ([(Letter.X, (6 : Int))].map fun e => detects .xxzz 3 3 key e.1 e.2 s)) ∧
    gatesOf .xxzz 3 3 [(.X, 6)] ++ (gatesOf .xxzz 3 3 [(.X, 0), (.X, 3)]).reverse = [.x] := by
  refine ⟨fun key => ?_, by decide⟩
  cases key <;> decide

/-- A stabilization, an error X on qubit 1, and a logical X: the amplitudes come back. -/
example (p : ℂ × ℂ) : qubitAfter (gatesOfAll .xxzz 3 3 [([], .stabilize), ([(.X, 1)], .x)]) p = p := by
  have e : gatesOfAll .xxzz 3 3 [([], .stabilize), ([(.X, 1)], .x)] = [.stabilize, .x, .x] := by decide
  rw [e]
  rfl

/-- With amplitudes 3 and 4 and an error on qubit 1 of the top row `readout_z` gives 0 with probability 16/25. -/
example : ∃ q w r, AfterAlone .xxzz q 3 3 [] w ∧ ∃ (φ : Psi), LogicalZero .xxzz q.lat.name 3 3 (fun _ => false) φ ∧
    bornProb (fun _ => 0) (addedAll q [.stabilize, .readoutZ none] w) ⟨afterPaulis q.lat.name [(.X, 1)] (encoded .xxzz q.lat.name 3 3 φ (3, 4)), fun _ => false⟩
      (fun t => t.mem ⟨r, 0⟩ = false) = 16 / 25 := by
  obtain ⟨q, w, A, hn⟩ := afterAlone_exists (dh := 3) (dw := 3) .xxzz "a".toList (by unfold OddPos; decide) (by simp) []
  obtain ⟨φ, hφ, -⟩ := C139_all (dh := 3) (dw := 3) (by unfold OddPos; decide) .xxzz q.lat.name fun _ => false
  obtain ⟨r, -, -, h⟩ := C140_z (sz := fun _ => 0) A.after (Or.inl (by decide)) (l := [.stabilize]) (by intro o ho; simp at ho; rcases ho with rfl; exact trivial)
  refine ⟨q, w, r, A, φ, hφ, ?_⟩
  refine (h [(.X, 1)] _ φ (3, 4) _ false (by decide) hφ (by simp) rfl).trans ?_
  have e : gatesOf QClass.xxzz.code 3 3 [(.X, 1)] = [.x] := by decide
  rw [e]
  simp only [List.cons_append, List.nil_append, qubitAfter, if_true, Complex.normSq_ofNat]
  norm_num

end Qtc
