import Verif.Proof.QKeeps
/-!
Sequences of operations with errors.
-/
namespace Qtc
open Spec Function

variable {cls : QClass} {q : TQubit} {dh dw : Int} {ops : List QOp} {w : World} {sz : Str → Nat} {code : Code} {name : Str} {key : Key}

/-! ### Operations without identity gates -/

/-- Is it an identity gate? -/
def Instr.isIdGate : Instr → Bool
  | .gate1 .id _ none => true
  | _ => false

/-- No identity gates. -/
def noIds (l : List Instr) : Bool := l.all fun i => !Instr.isIdGate i

theorem noIds_append (l l' : List Instr) : noIds (l ++ l') = (noIds l && noIds l') := List.all_append

theorem noIds_map {α : Type} {f : α → Instr} (h : ∀ a, Instr.isIdGate (f a) = false) (l : List α) : noIds (l.map f) = true := by
  unfold noIds
  rw [List.all_map, List.all_eq_true]
  intro a _
  rw [comp_apply, h]; rfl

theorem noIds_flatMap {α : Type} {f : α → List Instr} (h : ∀ a, noIds (f a) = true) (l : List α) : noIds (l.flatMap f) = true := by
  unfold noIds
  rw [List.all_flatMap, List.all_eq_true]
  exact fun a _ => h a

theorem withErrors_noIds {e : Errs} {l : List Instr} (h : noIds l = true) : withErrors e l = l := by
  refine withErrors_none fun i hi x hx => ?_
  have := List.all_eq_true.1 h i hi
  subst hx
  cases this

theorem noIds_cornerX (s : Qubit) (i : Option Int) : noIds (cornerX name s i) = true := by cases i <;> rfl
theorem noIds_cornerZ (s : Qubit) (i : Option Int) : noIds (cornerZ name s i) = true := by cases i <;> rfl

theorem noIds_xzzx (s : Qubit) (c : List (Option Int)) : noIds (xzzxGates name s c) = true := by
  unfold xzzxGates
  split
  · simp only [noIds_append, noIds_cornerX, noIds_cornerZ, Bool.and_self]
  · rfl

theorem noIds_xGates (s : Qubit) (c : List (Option Int)) : noIds (xGates code name s c) = true := by
  cases code
  · show noIds (xxxxGates name s c) = true
    unfold xxxxGates
    split
    · rw [noIds_append, noIds_append, noIds_map fun _ => rfl]; rfl
    · rfl
  · exact noIds_xzzx s c

theorem noIds_zGates (s : Qubit) (c : List (Option Int)) : noIds (zGates code name s c) = true := by
  cases code
  · show noIds (zzzzGates name s c) = true
    unfold zzzzGates
    split
    · exact noIds_map (fun _ => rfl) _
    · rfl
  · exact noIds_xzzx s c

theorem noIds_round {creg : Str} : noIds (roundInstrs code name dh dw creg) = true := by
  unfold roundInstrs entangleXGates entangleZGates measureSyn resetSyn
  rw [noIds_append, noIds_append, noIds_append, noIds_append, noIds_append, noIds_append, noIds_map fun _ => rfl, noIds_map fun _ => rfl,
    noIds_map fun _ => rfl, noIds_map fun _ => rfl, noIds_flatMap, noIds_flatMap]
  · rfl
  · intro a; rw [noIds_append, noIds_zGates]; rfl
  · intro a; rw [noIds_append, noIds_xGates]; rfl

theorem noIds_logicalX (is : List Int) : noIds (logicalInstrs code.gateX name none is) = true := by
  unfold logicalInstrs
  rw [noIds_append, noIds_map]
  · rfl
  · intro i
    unfold Code.gateX
    split
    · rfl
    · split <;> rfl

theorem noIds_logicalZ (is : List Int) : noIds (logicalInstrs code.gateZ name none is) = true := by
  unfold logicalInstrs
  rw [noIds_append, noIds_map]
  · rfl
  · intro i
    unfold Code.gateZ
    split
    · rfl
    · split <;> rfl

theorem noIds_reset : noIds (resetInstrs code name dh dw key) = true := by
  unfold resetInstrs turns
  rw [noIds_append, noIds_append, noIds_map fun _ => rfl, noIds_map fun _ => rfl]
  cases code <;> rfl

theorem noIds_lattice {l : List Qubit} {r : Str} : noIds (latticeInstrs l name dh dw r) = true := by
  unfold latticeInstrs measureData
  rw [noIds_append, noIds_append, noIds_map fun _ => rfl, noIds_map fun _ => rfl]
  rfl

theorem noIds_intoX : noIds (intoAncillaX code name dh dw) = true := by
  unfold intoAncillaX cxFrom cxTo
  split
  · rw [noIds_append, noIds_append, noIds_map fun _ => rfl]; rfl
  · rw [noIds_append, noIds_append, noIds_append, noIds_map fun _ => rfl, noIds_map fun _ => rfl]; rfl

theorem noIds_intoZ : noIds (intoAncillaZ code name dh dw) = true := by
  unfold intoAncillaZ cxFrom cxTo
  split
  · rw [noIds_append, noIds_map fun _ => rfl]; rfl
  · rw [noIds_append, noIds_append, noIds_append, noIds_map fun _ => rfl, noIds_map fun _ => rfl]; rfl

theorem noIds_read {l : List Instr} (h : noIds l = true) {r : Reg} : noIds (readInstrs l name r) = true := by
  unfold readInstrs
  rw [noIds_append, noIds_append, h, noIds_map fun _ => rfl]
  rfl

/-! ### Logical gates -/

/-- The gate that flips a logical operator. -/
def flipGate : Key → QOp
  | .X => .z
  | .Z => .x

theorem Keeps.gate {v u : Bool} {n : Nat} {fs : List Fault} {s : QState} (h : Keeps code key name dh dw v n fs s) {B : Op}
    (hB : OnData name B) (hs : B * B = 1) (hc : ∀ C ∈ checks code name dh dw, Commute B C) (hu : Passes u (logOp code key name dh dw) B) :
    Keeps code key name dh dw (v ^^ u) n fs ⟨B s.psi, s.mem⟩ := by
  obtain ⟨e, he, he'⟩ := h.syn
  refine ⟨ne_zero_of_sq hs h.ne, h.time, fun p hp => (h.check p hp).of_comm (hc _ ?_).symm,
    ⟨e, fun x hx => (he x hx).of_comm (hB x (synQs_ne_data hx) .Z).symm, he'⟩, ?_, h.mem⟩
  · obtain ⟨k, hk⟩ := List.getElem?_of_mem (site_mem_iff.1 hp)
    exact List.mem_of_getElem? (check_index hk)
  · have := h.log.passes hu
    rwa [Bool.xor_assoc, Bool.xor_comm _ u, ← Bool.xor_assoc] at this

theorem Keeps.x (A : After cls q dh dw ops w) {v : Bool} {n : Nat} {fs : List Fault} {s s' : QState}
    (h : Keeps cls.code key q.lat.name dh dw v n fs s) (hR : Run sz (added q .x w) s s') :
    Keeps cls.code key q.lat.name dh dw (v ^^ decide (QOp.x = flipGate key)) n fs s' := by
  have H := A.own.2.placed.odd
  rw [run_x A] at hR
  subst hR
  refine h.gate logX_onData (logX_sq H) (fun C hC => logX_checks H hC) ?_
  cases key
  · rw [decide_eq_false (by simp [flipGate]), passes_false]
    unfold logOp lineOf
    rw [logX_eq]
  · rw [decide_eq_true (show QOp.x = flipGate .Z from rfl)]
    have := (logX_logZ (code := cls.code) (name := q.lat.name) H).symm
    rwa [logZ_eq] at this

theorem Keeps.z (A : After cls q dh dw ops w) {v : Bool} {n : Nat} {fs : List Fault} {s s' : QState}
    (h : Keeps cls.code key q.lat.name dh dw v n fs s) (hR : Run sz (added q .z w) s s') :
    Keeps cls.code key q.lat.name dh dw (v ^^ decide (QOp.z = flipGate key)) n fs s' := by
  have H := A.own.2.placed.odd
  rw [run_z A] at hR
  subst hR
  refine h.gate logZ_onData logZ_sq (fun C hC => logZ_checks H hC) ?_
  cases key
  · rw [decide_eq_true (show QOp.z = flipGate .X from rfl)]
    have := logX_logZ (code := cls.code) (name := q.lat.name) H
    rwa [logX_eq] at this
  · rw [decide_eq_false (by simp [flipGate]), passes_false]
    unfold logOp lineOf
    rw [logZ_eq]

theorem noErr_x (A : After cls q dh dw ops w) (e : Errs) : withErrors e (added q .x w) = added q .x w := by
  refine withErrors_noIds ?_
  rw [Emits.added (o := .x) A.own.2.placed.emits_x]
  exact noIds_logicalX _

theorem noErr_z (A : After cls q dh dw ops w) (e : Errs) : withErrors e (added q .z w) = added q .z w := by
  refine withErrors_noIds ?_
  rw [Emits.added (o := .z) A.own.2.placed.emits_z]
  exact noIds_logicalZ _

theorem noErr_stabilize (A : After cls q dh dw ops w) (e : Errs) : withErrors e (added q .stabilize w) = added q .stabilize w := by
  refine withErrors_noIds ?_
  rw [added_stabilize A]
  exact noIds_round

/-- One operation of a memory. -/
theorem Keeps.op (A : After cls q dh dw ops w) {o : QOp} (ho : MemoryOp o) {v : Bool} {n : Nat} {fs : List Fault} {s s' : QState} {e : Errs}
    (hn : ops.count .stabilize = n) (h : Keeps cls.code key q.lat.name dh dw v n fs s) (hR : Run sz (withErrors e (added q o w)) s s') :
    Keeps cls.code key q.lat.name dh dw (v ^^ decide (o = flipGate key)) (if o = .stabilize then n + 1 else n)
      (fs ++ faultsIn cls.code key q.lat.name dh dw (n - 1) o e) s' := by
  have hd : ∀ o : QOp, o ≠ .x → o ≠ .z → decide (o = flipGate key) = false := by
    intro o h1 h2
    rw [decide_eq_false_iff_not]
    cases key
    · exact h2
    · exact h1
  cases o with
  | stabilize =>
    rw [noErr_stabilize A] at hR
    rw [hd _ (by simp) (by simp), Bool.xor_false, if_pos rfl]
    exact (List.append_nil fs).symm ▸ h.stabilize A hn hR
  | id =>
    rw [hd _ (by simp) (by simp), Bool.xor_false, if_neg (by simp)]
    exact h.id A hR
  | idData =>
    rw [hd _ (by simp) (by simp), Bool.xor_false, if_neg (by simp)]
    exact h.idData A hR
  | x =>
    rw [noErr_x A] at hR
    rw [if_neg (by simp)]
    exact (List.append_nil fs).symm ▸ h.x A hR
  | z =>
    rw [noErr_z A] at hR
    rw [if_neg (by simp)]
    exact (List.append_nil fs).symm ▸ h.z A hR
  | _ => exact ho.elim

theorem noisyAll_append (l l' : List (QOp × Errs)) (w : World) :
    noisyAll q (l ++ l') w = noisyAll q l w ++ noisyAll q l' (q.ops (l.map Prod.fst) w) := by
  induction l generalizing w with
  | nil => rfl
  | cons a l ih =>
    show withErrors a.2 (added q a.1 w) ++ noisyAll q (l ++ l') (q.op a.1 w).2 = withErrors a.2 (added q a.1 w) ++ noisyAll q l (q.op a.1 w).2 ++ _
    rw [ih, List.append_assoc]
    rfl

/-- A memory. -/
theorem Keeps.all (A : After cls q dh dw ops w) {l : List (QOp × Errs)} (hl : ∀ a ∈ l, MemoryOp a.1) {v : Bool} {n : Nat} {fs : List Fault}
    {s s' : QState} (hn : ops.count .stabilize = n) (h : Keeps cls.code key q.lat.name dh dw v n fs s) (hR : Run sz (noisyAll q l w) s s') :
    Keeps cls.code key q.lat.name dh dw (v ^^ decide ((l.map Prod.fst).count (flipGate key) % 2 = 1)) (n + (l.map Prod.fst).count .stabilize)
      (fs ++ faultsOf cls.code key q.lat.name dh dw n l) s' := by
  induction l generalizing ops w v n fs s with
  | nil =>
    have : s' = s := hR
    subst this
    simpa [faultsOf] using h
  | cons a l ih =>
    obtain ⟨o, e⟩ := a
    obtain ⟨t, h1, h2⟩ := Run.append.1 (show Run sz (withErrors e (added q o w) ++ noisyAll q l (q.op o w).2) s s' from hR)
    have ht := h.op A (hl (o, e) (by simp)) hn h1
    have := ih (A.next o) (fun a ha => hl a (by simp [ha])) (n := if o = .stabilize then n + 1 else n) (by
      rw [List.count_append, hn, List.count_cons, List.count_nil]
      by_cases ho : o = .stabilize
      · rw [if_pos ho, if_pos (by simp [ho])]
      · rw [if_neg ho, if_neg (by simp [ho]), Nat.add_zero]) ht h2
    rw [List.append_assoc] at this
    have e1 : (v ^^ decide (o = flipGate key) ^^ decide ((l.map Prod.fst).count (flipGate key) % 2 = 1)) =
        (v ^^ decide (((((o, e) :: l).map Prod.fst).count (flipGate key)) % 2 = 1)) := by
      rw [List.map_cons, List.count_cons, Bool.xor_assoc]
      congr 1
      by_cases ho : o = flipGate key
      · rw [decide_eq_true ho, if_pos (by simp [ho]), Bool.true_xor, ← decide_not, decide_eq_decide]
        omega
      · rw [decide_eq_false ho, if_neg (by simp [ho]), Bool.false_xor, Nat.add_zero]
    have e2 : (if o = .stabilize then n + 1 else n) + (l.map Prod.fst).count .stabilize = n + (((o, e) :: l).map Prod.fst).count .stabilize := by
      rw [List.map_cons, List.count_cons]
      by_cases ho : o = .stabilize
      · rw [if_pos ho, if_pos (by simp [ho])]; omega
      · rw [if_neg ho, if_neg (by simp [ho])]; omega
    rw [e1, e2] at this
    exact this

/-! ### Preparation -/

theorem Prepares.held (H : OddPos dh dw) {s s' : QState} (h : Prepares code name dh dw key s s') (hz : SynZero name dh dw s.psi) :
    Keeps code key name dh dw false 0 [] s' := by
  refine ⟨?_, by simp, fun p hp => ?_, ⟨fun _ => false, synZero_values (h.synZero hz), fun k p _ => rfl⟩, ?_, fun t ht => absurd ht (by omega)⟩
  · obtain ⟨o, e, hne, -⟩ := h; exact hne
  · rw [checkOp_eq H code name hp]
    exact h.string around_all
  · exact h.string (line_all H)

/-- An XXZZ lattice whose data qubits are all 0 needs no preparation of type Z. -/
theorem zeros_held (H : OddPos dh dw) {s : QState} (h0 : s.psi ≠ 0) (hz : SynZero name dh dw s.psi)
    (hd : ∀ i ∈ allQubits dh dw, IsZero (dataQ name i) s.psi) : Keeps .xxzz .Z name dh dw false 0 [] s := by
  have hs : ∀ l : List Int, (∀ i ∈ l, i ∈ allQubits dh dw) → HasValue (fstr .xxzz .Z name l) false s.psi := by
    intro l
    induction l with
    | nil => exact fun _ => hasValue_one _
    | cons i l ih =>
      intro hl
      rw [fstr_cons]
      exact (isZero_value.1 (hd i (hl i (by simp)))).mul (ih fun j hj => hl j (by simp [hj]))
  refine ⟨h0, by simp, fun p hp => ?_, ⟨fun _ => false, synZero_values hz, fun k p _ => rfl⟩, hs _ (line_all H), fun t ht => absurd ht (by omega)⟩
  rw [checkOp_eq H .xxzz name hp]
  exact hs _ around_all

/-- The preparation of a type. -/
def prepOp : Key → QOp
  | .X => .resetX
  | .Z => .resetZ

theorem run_prep (A : After cls q dh dw ops w) (hb : 1 < dh * dw) {e : Errs} {s s' : QState} (h0 : s.psi ≠ 0) (hR : Run sz (withErrors e (added q (prepOp key) w)) s s') :
    Prepares cls.code q.lat.name dh dw key s s' := by
  cases key
  · have : withErrors e (added q .resetX w) = added q .resetX w := by
      refine withErrors_noIds ?_
      rw [Emits.added (o := .resetX) (A.own.2.placed.emits_resetX (Or.inl hb))]
      exact noIds_reset (key := .X)
    exact (run_resetX A (Or.inr hb) h0).1 (this ▸ hR)
  · have : withErrors e (added q .resetZ w) = added q .resetZ w := by
      refine withErrors_noIds ?_
      rw [Emits.added (o := .resetZ) A.own.2.placed.emits_resetZ]
      exact noIds_reset (key := .Z)
    exact (run_resetZ A h0).1 (this ▸ hR)

/-- Preparation and memory. -/
theorem held_run (A : After cls q dh dw ops w) (hb : 1 < dh * dw) (hn : ops.count .stabilize = 0) {e0 : Errs} {l : List (QOp × Errs)} (hl : ∀ a ∈ l, MemoryOp a.1)
    {s s' : QState} (h0 : s.psi ≠ 0) (hz : SynZero q.lat.name dh dw s.psi) (hR : Run sz (noisyAll q ((prepOp key, e0) :: l) w) s s') :
    Keeps cls.code key q.lat.name dh dw (decide ((l.map Prod.fst).count (flipGate key) % 2 = 1)) ((l.map Prod.fst).count .stabilize)
      (faultsOf cls.code key q.lat.name dh dw 0 l) s' := by
  obtain ⟨t, h1, h2⟩ := Run.append.1 (show Run sz (withErrors e0 (added q (prepOp key) w) ++ noisyAll q l (q.op (prepOp key) w).2) s s' from hR)
  have hp := (run_prep A hb h0 h1).held A.own.2.placed.odd hz
  have := hp.all (A.next (prepOp key)) hl (by rw [List.count_append, hn]; cases key <;> rfl) h2
  rwa [Bool.false_xor, Nat.zero_add, List.nil_append] at this

/-! ### Readout -/

theorem xorAll_filter {α : Type} (c f : α → Bool) (l : List α) : xorAll ((l.filter c).map f) = xorAll (l.map fun a => c a && f a) := by
  induction l with
  | nil => rfl
  | cons a l ih =>
    rw [List.map_cons, xorAll_cons, ← ih]
    by_cases h : c a
    · rw [List.filter_cons_of_pos h, List.map_cons, xorAll_cons, h, Bool.true_and]
    · rw [List.filter_cons_of_neg h, (by simpa using h : c a = false), Bool.false_and, Bool.false_xor]

theorem reading_takePlace {fs : List Fault} {last t : Int} (h : t ≤ last) (p : Int × Int) : reading (takePlace last fs) t p = reading fs t p := by
  unfold reading takePlace
  rw [xorAll_filter]
  refine xorAll_congr fun f _ => ?_
  cases f with
  | data t r c => exact Bool.true_and _
  | meas t' r c =>
    simp only [Fault.affects]
    by_cases h' : t = t' + 1
    · rw [decide_eq_true (by omega), Bool.true_and]
    · rw [beq_eq_false_iff_ne.2 h', Bool.and_false, Bool.and_false]

theorem reading_takePlace_end {fs : List Fault} {n : Nat} (h : ∀ f ∈ fs, Fault.time f < n) (p : Int × Int) :
    reading (takePlace (n - 1) fs) n p = reading fs (n + 1) p := by
  unfold reading takePlace
  rw [xorAll_filter]
  refine xorAll_congr fun f hf => ?_
  have := h f hf
  cases f with
  | data t r c =>
    replace this : t < n := this
    simp only [Fault.affects, decide_eq_true this, decide_eq_true (show t < (n : Int) + 1 by omega), Bool.true_and]
  | meas t r c =>
    replace this : t < n := this
    simp only [Fault.affects]
    rw [beq_eq_false_iff_ne.2 (show (n : Int) + 1 ≠ t + 1 by omega)]
    by_cases h' : (n : Int) = t + 1
    · rw [decide_eq_false (by omega), Bool.false_and, Bool.and_false]
    · rw [beq_eq_false_iff_ne.2 h', Bool.and_false, Bool.and_false]

theorem readoutFlipped_takePlace {fs : List Fault} {last : Int} : readoutFlipped key (takePlace last fs) = readoutFlipped key fs := by
  unfold readoutFlipped takePlace
  rw [xorAll_filter]
  refine xorAll_congr fun f _ => ?_
  cases f with
  | data t r c => exact Bool.true_and _
  | meas t' r c => exact Bool.and_false _

/-- The logical readout of a type. -/
def readOp : Key → QOp
  | .X => .readoutX none
  | .Z => .readoutZ none

/-- The code can do the readout of a type (C62). -/
def CanRead (cls : QClass) (dh dw : Int) : Key → Prop
  | .X => cls ≠ .xzzx ∨ 1 < dh
  | .Z => cls ≠ .xzzx ∨ 1 < dw

theorem run_readKey (A : After cls q dh dw ops w) (h : CanRead cls dh dw key) {e : Errs} {s s' : QState} (h0 : s.psi ≠ 0)
    (hR : Run sz (withErrors e (added q (readOp key) w)) s s') : Reads q.lat.name (logOp cls.code key q.lat.name dh dw) (nextReadout q w) 1 s s' := by
  cases key
  · have : withErrors e (added q (.readoutX none) w) = added q (.readoutX none) w := by
      refine withErrors_noIds ?_
      rw [added_readoutX A h]
      exact noIds_read noIds_intoX
    have := (run_readoutX A h h0).1 (this ▸ hR)
    rwa [logX_eq] at this
  · have : withErrors e (added q (.readoutZ none) w) = added q (.readoutZ none) w := by
      refine withErrors_noIds ?_
      rw [added_readoutZ A h]
      exact noIds_read noIds_intoZ
    have := (run_readoutZ A h h0).1 (this ▸ hR)
    rwa [logZ_eq] at this

theorem noErr_lattice (A : After cls q dh dw ops w) (e : Errs) : withErrors e (added q .latticeReadoutZ w) = added q .latticeReadoutZ w := by
  obtain ⟨W, O⟩ := A.own
  obtain ⟨a, ha, h1, hf⟩ := O.lattice
  have e' : nextLattice q w = latticeName q.lat.name (a + 1) := by unfold nextLattice; rw [ha]; rfl
  have hadd : added q .latticeReadoutZ w = latticeInstrs (turned cls.code q.lat.name dh dw .Z) q.lat.name dh dw (nextLattice q w) := by
    refine added_eq ?_
    show (q.lat.latticeReadoutZ w).2.circ.instrs = _
    rw [O.placed.latticeReadoutZ_run ha (hf _ (by omega)), e', A.code]
    rfl
  refine withErrors_noIds ?_
  rw [hadd]
  exact noIds_lattice

theorem memoryOp_quiet {o : QOp} (h : MemoryOp o) : o.quiet = true := by
  cases o <;> first | rfl | exact h.elim

/-- The strings of the rounds. -/
theorem rounds_read {mem : Mem} {fs : List Fault} {n : Nat} (hpos : 0 < (xSites dh dw).length + (zSites dh dw).length)
    {ref : Int → Int → Bool} (h : ∀ t : Nat, t < n → ∀ (k : Nat) p, (sitesOf key dh dw)[k]? = some p →
      mem ⟨roundName name t, offsetOf key dh dw + k⟩ = readBit ref fs t p.1 p.2) :
    RoundsRead key dh dw ref fs ((List.range n).map fun (t : Nat) => groupString mem
      ⟨name ++ "_c".toList ++ strNat t, (xSites dh dw).length + (zSites dh dw).length⟩) := by
  refine ⟨fun s hs => ?_, fun t k s p hs hp => ?_⟩
  · obtain ⟨t, -, rfl⟩ := List.mem_map.1 hs
    exact groupString_isBits mem hpos
  · rw [List.getElem?_map, Option.map_eq_some_iff] at hs
    obtain ⟨t', ht', rfl⟩ := hs
    obtain ⟨hlt, e⟩ := List.getElem?_eq_some_iff.1 ht'
    rw [List.length_range] at hlt
    rw [List.getElem_range] at e
    subst e
    rw [← h t hlt k p hp]
    have e2 : roundName name t = name ++ "_c".toList ++ strNat t := by unfold roundName; rw [strInt_nat]
    rw [e2]
    have hb : ∀ i, i < (xSites dh dw).length + (zSites dh dw).length → bitFromRight (groupString mem
      ⟨name ++ "_c".toList ++ strNat t, (xSites dh dw).length + (zSites dh dw).length⟩) i = mem ⟨name ++ "_c".toList ++ strNat t, i⟩ :=
      fun i hi => groupString_bit mem _ hi
    cases key
    · exact hb _ (index_lt (key := .X) hp)
    · have := index_lt (key := .Z) hp
      unfold offsetOf at this ⊢
      rw [Nat.zero_add] at this ⊢
      exact hb _ this

end Qtc
