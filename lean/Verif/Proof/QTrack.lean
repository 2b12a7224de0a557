import Verif.Proof.QPrep
/-!
What operations do to the values of observables.
-/
namespace Qtc
open Spec Function

variable {cls : QClass} {q : TQubit} {dh dw : Int} {ops : List QOp} {w : World} {sz : Str → Nat} {code : Code} {name : Str}

/-- An operator on the data qubits of a lattice. -/
def OnData (name : Str) (B : Op) : Prop := ∀ x, (∀ i, dataQ name i ≠ x) → ∀ a : Letter, Commute B (a.op x)

theorem check_onData (H : OddPos dh dw) {key : Key} {p : Int × Int} (hp : SiteOf dh dw key p) : OnData name (checkOp code name dh dw key p) :=
  fun _ hx a => check_comm_letter H hp hx a

theorem checks_onData (H : OddPos dh dw) {B : Op} (h : B ∈ checks code name dh dw) : OnData name B := by
  obtain ⟨key, p, hp, rfl⟩ := mem_checks h
  exact check_onData H hp

theorem logX_onData : OnData name (logX code name dh dw) := fun _ hx a => logX_comm_letter hx a

theorem logZ_onData : OnData name (logZ code name dw) := fun _ hx a => logZ_comm_letter hx a

theorem fop_onData {key : Key} {i : Int} : OnData name (fop code key name i) := fun _ hx a => fop_comm_letter key i hx a

theorem letter_onData {a : Letter} {i : Int} : OnData name (a.op (dataQ name i)) := fun _ hx b => letter_comm (hx i) a b

theorem OnData.one : OnData name 1 := fun _ _ _ => Commute.one_left _

theorem OnData.mul {B C : Op} (hB : OnData name B) (hC : OnData name C) : OnData name (B * C) :=
  fun x hx a => (hB x hx a).mul_left (hC x hx a)

theorem OnData.pstr {l : List (Letter × Int)} : OnData name (pstr (l.map fun p => (p.1, dataQ name p.2))) := by
  induction l with
  | nil => exact OnData.one
  | cons p l ih =>
    have : Spec.pstr ((p :: l).map fun p => (p.1, dataQ name p.2)) = p.1.op (dataQ name p.2) * Spec.pstr (l.map fun p => (p.1, dataQ name p.2)) := rfl
    rw [this]
    exact letter_onData.mul ih

theorem OnData.anc {B : Op} (h : OnData name B) (v : Bool) : Commute B (clear v (ancQ name)) :=
  clear_comm (h _ dataQ_ne_ancQ .X) v

theorem OnData.ancP {B : Op} (h : OnData name B) (v : Bool) : Commute B (opP v (ancQ name)) :=
  Commute.opP (h _ dataQ_ne_ancQ .Z) v

/-- The ancilla part of a readout. -/
theorem reads_eq {L : Op} {r : Str} {n : Nat} {s s' : QState} : Reads name L r n s s' ↔ ∃ c m,
    s'.psi = (clear m (ancQ name) * projOf L m * clear c (ancQ name) * opP c (ancQ name)) s.psi ∧ s'.psi ≠ 0 ∧
      s'.mem = writeReg s.mem r n fun _ => m := Iff.rfl

theorem reads_track {B L : Op} (hB : OnData name B) (hL : Commute B L) {r : Str} {n : Nat} {v : Bool} {s s' : QState}
    (h : Reads name L r n s s') (hv : HasValue B v s.psi) : HasValue B v s'.psi := by
  obtain ⟨c, m, e, -, -⟩ := reads_eq.1 h
  rw [e]
  exact hv.of_comm ((((hB.anc m).mul_right (Commute.proj hL m)).mul_right (hB.anc c)).mul_right (hB.ancP c))

/-- A readout of an observable that has a value gives that value. -/
theorem reads_value {L : Op} (hL : OnData name L) {r : Str} {n : Nat} {v : Bool} {s s' : QState} (h : Reads name L r n s s')
    (hv : HasValue L v s.psi) : s'.mem = writeReg s.mem r n fun _ => v := by
  obtain ⟨c, m, e, hne, hm⟩ := h
  have : HasValue L v (clear c (ancQ name) (opP c (ancQ name) s.psi)) := (hv.of_comm (hL.ancP c)).of_comm (hL.anc c)
  have : m = v := this.outcome fun h0 => hne (by rw [e, h0, map_zero])
  rw [hm, this]

/-- After a readout the observable has the value that was read. -/
theorem reads_after {L : Op} (hL : OnData name L) (hs : L * L = 1) {r : Str} {n : Nat} {s s' : QState} (h : Reads name L r n s s') :
    ∃ v, s'.mem = writeReg s.mem r n (fun _ => v) ∧ HasValue L v s'.psi := by
  obtain ⟨c, m, e, hne, hm⟩ := h
  refine ⟨m, hm, ?_⟩
  rw [e]
  exact (hasValue_proj hs m _).of_comm (hL.anc m)

theorem reads_synZero {L : Op} (hL : OnData name L) {r : Str} {n : Nat} {s s' : QState} (h : Reads name L r n s s')
    (hz : SynZero name dh dw s.psi) : SynZero name dh dw s'.psi := by
  obtain ⟨c, m, e, -, -⟩ := reads_eq.1 h
  rw [e]
  have key : ∀ x, x ≠ ancQ name → (∀ i, dataQ name i ≠ x) →
      Commute (clear m (ancQ name) * projOf L m * clear c (ancQ name) * opP c (ancQ name)) (opZ x) := by
    intro x hx hd
    have h1 : ∀ v, Commute (clear v (ancQ name)) (opZ x) := fun v =>
      (clear_comm (letter_comm hx .Z .X) v).symm
    have h2 : ∀ v, Commute (opP v (ancQ name)) (opZ x) := fun v =>
      (Commute.opP (opZ_comm _ _) v).symm
    exact (((h1 m).mul_left (Commute.proj (hL x hd .Z).symm m).symm).mul_left (h1 c)).mul_left (h2 c)
  exact hz.of_comm (fun k => key _ (ancQ_ne_mz k).symm (dataQ_ne_mzQ k)) fun k => key _ (ancQ_ne_mx k).symm (dataQ_ne_mxQ k)

/-- Stabilization, whatever the syndrome qubits are. -/
theorem stabilize_track (A : After cls q dh dw ops w) {B : Op} (hB : OnData q.lat.name B)
    (hc : ∀ C ∈ checks cls.code q.lat.name dh dw, Commute B C) {v : Bool} {s s' : QState} (h0 : s.psi ≠ 0)
    (hR : Run sz (added q .stabilize w) s s') (hv : HasValue B v s.psi) : HasValue B v s'.psi := by
  have H := A.own.2.placed.odd
  have hp := A.proper .stabilize
  rw [added_stabilize A] at hp hR
  obtain ⟨K, hK, e, -⟩ := (run_iff hp h0).1 hR
  obtain ⟨o, r, rfl, -⟩ := (kraus_round H).1 hK
  rw [e]
  have hq : ∀ x ∈ synQs q.lat.name (xSites dh dw).length (zSites dh dw).length, ∀ i, dataQ q.lat.name i ≠ x := by
    intro x hx
    unfold synQs at hx
    rcases List.mem_append.1 hx with hx | hx
    all_goals
      obtain ⟨k, -, rfl⟩ := List.mem_map.1 hx
      first | exact dataQ_ne_mzQ k | exact dataQ_ne_mxQ k
  refine hv.of_comm (((clears_comm fun x hx => ⟨hB x (hq x hx) .X, hB x (hq x hx) .Z⟩).mul_right
    (projs_comm fun x hx => hB x (hq x hx) .Z)).mul_right (copies_comm fun p hp => ?_))
  obtain ⟨h1, -, key, s, hs, e⟩ := mem_gadgets hp
  refine ⟨?_, hB _ h1 .X⟩
  rw [e]
  refine hc _ ?_
  unfold checks
  cases key
  · exact List.mem_append_right _ (List.mem_map_of_mem (mem_xSites.2 hs))
  · exact List.mem_append_left _ (List.mem_map_of_mem (mem_zSites.2 hs))

/-- The value of an observable on the data after a gentle operation. -/
theorem track (A : After cls q dh dw ops w) {o : QOp} (hg : Gentle cls dh dw o) {B : Op} (hB : OnData q.lat.name B)
    (hc : ∀ C ∈ checks cls.code q.lat.name dh dw, Commute B C) {ux uz : Bool} (hx : Passes ux B (logX cls.code q.lat.name dh dw))
    (hz : Passes uz B (logZ cls.code q.lat.name dw)) (bx : ux = true → o.blursZ = false) (bz : uz = true → o.blursX = false)
    {v : Bool} {s s' : QState} (h0 : s.psi ≠ 0) (hR : Run sz (added q o w) s s') (hv : HasValue B v s.psi) :
    HasValue B (v ^^ (ux && decide (o = .x)) ^^ (uz && decide (o = .z))) s'.psi := by
  cases o with
  | stabilize => simpa using stabilize_track A hB hc h0 hR hv
  | id => rw [(run_id A).1 hR]; simpa using hv
  | idData => rw [(run_idData A).1 hR]; simpa using hv
  | x => rw [(run_x A).1 hR]; simpa using hv.passes hx
  | z => rw [(run_z A).1 hR]; simpa using hv.passes hz
  | xCIf r val =>
    rw [(run_xCIf A hg).1 hR]
    have : ux = false := by
      cases ux
      · rfl
      · cases bx rfl
    subst this
    split
    · simpa using hv.passes hx
    · simpa using hv
  | zCIf r val =>
    rw [(run_zCIf A hg).1 hR]
    have : uz = false := by
      cases uz
      · rfl
      · cases bz rfl
    subst this
    split
    · simpa using hv.passes hz
    · simpa using hv
  | readoutX r =>
    cases r with
    | some r => exact hg.elim
    | none =>
      have : ux = false := by
        cases ux
        · rfl
        · cases bx rfl
      subst this
      simpa using reads_track hB (passes_false.1 hx) ((run_readoutX A hg h0).1 hR) hv
  | readoutZ r =>
    cases r with
    | some r => exact hg.elim
    | none =>
      have : uz = false := by
        cases uz
        · rfl
        · cases bz rfl
      subst this
      simpa using reads_track hB (passes_false.1 hz) ((run_readoutZ A hg h0).1 hR) hv
  | _ => exact hg.elim

/-- The value of an observable on the data after gentle operations. -/
theorem track_all {l : List QOp} (A : After cls q dh dw ops w) (hg : ∀ o ∈ l, Gentle cls dh dw o) {B : Op} (hB : OnData q.lat.name B)
    (hc : ∀ C ∈ checks cls.code q.lat.name dh dw, Commute B C) {ux uz : Bool} (hx : Passes ux B (logX cls.code q.lat.name dh dw))
    (hz : Passes uz B (logZ cls.code q.lat.name dw)) (bx : ux = true → ∀ o ∈ l, o.blursZ = false)
    (bz : uz = true → ∀ o ∈ l, o.blursX = false)
    {v : Bool} {s s' : QState} (h0 : s.psi ≠ 0) (hR : Run sz (addedAll q l w) s s') (hv : HasValue B v s.psi) :
    HasValue B (v ^^ (ux && decide (l.count .x % 2 = 1)) ^^ (uz && decide (l.count .z % 2 = 1))) s'.psi := by
  induction l generalizing ops w v s with
  | nil =>
    rw [addedAll_nil] at hR
    have : s' = s := hR
    subst this
    simpa using hv
  | cons o l ih =>
    obtain ⟨t, h1, h2⟩ := A.run_cons.1 hR
    have := ih (A.next o) (fun o' h => hg o' (by simp [h])) (fun h o' h' => bx h o' (by simp [h'])) (fun h o' h' => bz h o' (by simp [h']))
      (A.ne_zero h0 h1) h2 (track A (hg o (by simp)) hB hc hx hz (fun h => bx h o (by simp)) (fun h => bz h o (by simp)) h0 h1 hv)
    convert this using 1
    have par : ∀ a : QOp, decide ((o :: l).count a % 2 = 1) = (decide (o = a) ^^ decide (l.count a % 2 = 1)) := by
      intro a
      rw [List.count_cons]
      by_cases e : o = a
      · simp only [e, BEq.rfl, if_true, decide_true, Bool.true_xor]
        rw [← decide_not]
        congr 1
        exact propext (by omega)
      · simp [e]
    rw [par, par]
    cases ux <;> cases uz <;> cases v <;> cases decide (o = .x) <;> cases decide (o = .z) <;> cases decide (l.count .x % 2 = 1) <;>
      cases decide (l.count .z % 2 = 1) <;> rfl

theorem ne_zero_all {l : List QOp} (A : After cls q dh dw ops w) {s s' : QState} (h0 : s.psi ≠ 0) (hR : Run sz (addedAll q l w) s s') :
    s'.psi ≠ 0 := by
  induction l generalizing ops w s with
  | nil =>
    rw [addedAll_nil] at hR
    have : s' = s := hR
    subst this
    exact h0
  | cons o l ih =>
    obtain ⟨t, h1, h2⟩ := A.run_cons.1 hR
    exact ih (A.next o) (A.ne_zero h0 h1) h2

theorem run_all_exists {l : List QOp} (A : After cls q dh dw ops w) (s : QState) (h0 : s.psi ≠ 0) : ∃ s', Run sz (addedAll q l w) s s' := by
  induction l generalizing ops w s with
  | nil => rw [addedAll_nil]; exact ⟨s, rfl⟩
  | cons o l ih =>
    obtain ⟨t, h1⟩ := run_exists (sz := sz) (A.proper o) s h0
    obtain ⟨s', h2⟩ := ih (A.next o) t (A.ne_zero h0 h1)
    exact ⟨s', A.run_cons.2 ⟨t, h1, h2⟩⟩

/-! ### Syndrome qubits and syndrome registers -/

theorem OnData.synZero {B : Op} (hB : OnData name B) {ψ : Psi} (h : SynZero name dh dw ψ) : SynZero name dh dw (B ψ) :=
  h.of_comm (fun k => hB _ (dataQ_ne_mzQ k) .Z) fun k => hB _ (dataQ_ne_mxQ k) .Z

theorem gentle_synZero (A : After cls q dh dw ops w) {o : QOp} (hg : Gentle cls dh dw o) {s s' : QState} (h0 : s.psi ≠ 0)
    (hR : Run sz (added q o w) s s') (hz : SynZero q.lat.name dh dw s.psi) : SynZero q.lat.name dh dw s'.psi := by
  cases o with
  | stabilize =>
    obtain ⟨m, e, -, -⟩ := (run_stabilize A h0 hz).1 hR
    rw [e]
    exact hz.joint A.own.2.placed.odd m
  | id => rw [(run_id A).1 hR]; exact hz
  | idData => rw [(run_idData A).1 hR]; exact hz
  | x => rw [(run_x A).1 hR]; exact logX_onData.synZero hz
  | z => rw [(run_z A).1 hR]; exact logZ_onData.synZero hz
  | xCIf r val =>
    rw [(run_xCIf A hg).1 hR]
    split
    · exact logX_onData.synZero hz
    · exact hz
  | zCIf r val =>
    rw [(run_zCIf A hg).1 hR]
    split
    · exact logZ_onData.synZero hz
    · exact hz
  | readoutX r =>
    cases r with
    | some r => exact hg.elim
    | none => exact reads_synZero logX_onData ((run_readoutX A hg h0).1 hR) hz
  | readoutZ r =>
    cases r with
    | some r => exact hg.elim
    | none => exact reads_synZero logZ_onData ((run_readoutZ A hg h0).1 hR) hz
  | _ => exact hg.elim

theorem writeReg_other {m : Mem} {r : Str} {n : Nat} {f : Nat → Bool} {b : Clbit} (h : b.reg ≠ r) : writeReg m r n f b = m b := by
  unfold writeReg
  rw [if_neg fun h' => h h'.1]

theorem writeReg_mem {m : Mem} {r : Str} {n : Nat} {f : Nat → Bool} {k : Nat} (h : k < n) : writeReg m r n f ⟨r, k⟩ = f k := by
  unfold writeReg
  rw [if_pos ⟨rfl, h⟩]

/-- Syndrome registers of earlier rounds are left alone. -/
theorem gentle_mem (A : After cls q dh dw ops w) {o : QOp} (hg : Gentle cls dh dw o) {s s' : QState} (h0 : s.psi ≠ 0)
    (hR : Run sz (added q o w) s s') (hz : SynZero q.lat.name dh dw s.psi) {t : Int} (ht : o = .stabilize → t < ops.count .stabilize) (k : Nat) :
    s'.mem ⟨roundName q.lat.name t, k⟩ = s.mem ⟨roundName q.lat.name t, k⟩ := by
  cases o with
  | stabilize =>
    obtain ⟨m, -, -, e⟩ := (run_stabilize A h0 hz).1 hR
    rw [e]
    refine writeReg_other fun h => ?_
    have := roundName_inj h
    have := ht rfl
    omega
  | id => rw [(run_id A).1 hR]
  | idData => rw [(run_idData A).1 hR]
  | x => rw [(run_x A).1 hR]
  | z => rw [(run_z A).1 hR]
  | xCIf r val => rw [(run_xCIf A hg).1 hR]; split <;> rfl
  | zCIf r val => rw [(run_zCIf A hg).1 hR]; split <;> rfl
  | readoutX r =>
    cases r with
    | some r => exact hg.elim
    | none =>
      obtain ⟨c, m, -, -, e⟩ := (run_readoutX A hg h0).1 hR
      rw [e]
      exact writeReg_other round_ne_readout
  | readoutZ r =>
    cases r with
    | some r => exact hg.elim
    | none =>
      obtain ⟨c, m, -, -, e⟩ := (run_readoutZ A hg h0).1 hR
      rw [e]
      exact writeReg_other round_ne_readout
  | _ => exact hg.elim

theorem checks_length : (checks code name dh dw).length = (xSites dh dw).length + (zSites dh dw).length := by
  unfold checks
  rw [List.length_append, List.length_map, List.length_map, Nat.add_comm]

theorem syndrome_joint (H : OddPos dh dw) (m : Nat → Bool) (ψ : Psi) : Syndrome code name dh dw m (jointProj (checks code name dh dw) m ψ) := by
  have : ∀ (l : List Op) (m : Nat → Bool), (∀ A ∈ l, ∀ B ∈ l, Commute A B) → (∀ A ∈ l, A * A = 1) → ∀ ψ k C, l[k]? = some C →
      HasValue C (m k) (jointProj l m ψ) := by
    intro l
    induction l with
    | nil => intro m _ _ ψ k C h; cases k <;> cases h
    | cons A l ih =>
      intro m hc hs ψ k C h
      show HasValue C (m k) ((projOf A (m 0) * jointProj l fun k => m (k + 1)) ψ)
      cases k with
      | zero =>
        have : A = C := by simpa using h
        subst this
        exact hasValue_proj (hs A (by simp)) _ _
      | succ k =>
        have h' : l[k]? = some C := by simpa using h
        have hC : C ∈ l := List.mem_of_getElem? h'
        exact (ih _ (fun a ha b hb => hc a (by simp [ha]) b (by simp [hb])) (fun a ha => hs a (by simp [ha])) ψ k C h').of_comm
          (Commute.proj (hc C (by simp [hC]) A (by simp)) _)
  intro k C h
  exact this _ m (fun A hA B hB => checks_comm H hA hB) (fun A hA => checks_sq H hA) ψ k C h

/-- In a state with a syndrome a stabilization measures it. -/
theorem syndrome_outcome (H : OddPos dh dw) {m m' : Nat → Bool} {ψ : Psi} (h : Syndrome code name dh dw m ψ)
    (hne : jointProj (checks code name dh dw) m' ψ ≠ 0) : ∀ k < (xSites dh dw).length + (zSites dh dw).length, m' k = m k := by
  intro k hk
  rw [← checks_length (code := code) (name := name)] at hk
  have hC := List.getElem?_eq_getElem hk
  have h1 := syndrome_joint H m' ψ k _ hC
  have h2 := (h k _ hC).of_comm (jointProj_comm (fun A hA => checks_comm H (List.mem_of_getElem? hC) hA) m')
  exact h1.unique h2 hne

theorem syndrome_track (A : After cls q dh dw ops w) {o : QOp} (hg : Gentle cls dh dw o) {m : Nat → Bool} {s s' : QState} (h0 : s.psi ≠ 0)
    (hR : Run sz (added q o w) s s') (hs : Syndrome cls.code q.lat.name dh dw m s.psi) : Syndrome cls.code q.lat.name dh dw m s'.psi := by
  have H := A.own.2.placed.odd
  intro k C hC
  have hm := List.mem_of_getElem? hC
  simpa using track A hg (checks_onData H hm) (fun D hD => checks_comm H hm hD) (passes_false.2 (logX_checks H hm).symm)
    (passes_false.2 (logZ_checks H hm).symm) (by simp) (by simp) h0 hR (hs k C hC)

/-- Through gentle operations the syndrome stays the same and is measured in every round. -/
theorem syndrome_all {l : List QOp} (A : After cls q dh dw ops w) (hg : ∀ o ∈ l, Gentle cls dh dw o) {m : Nat → Bool} {s s' : QState}
    (h0 : s.psi ≠ 0) (hz : SynZero q.lat.name dh dw s.psi) (hs : Syndrome cls.code q.lat.name dh dw m s.psi)
    (hR : Run sz (addedAll q l w) s s') : SynZero q.lat.name dh dw s'.psi ∧ Syndrome cls.code q.lat.name dh dw m s'.psi ∧
      (∀ t : Nat, t < ops.count .stabilize → ∀ k, s'.mem ⟨roundName q.lat.name t, k⟩ = s.mem ⟨roundName q.lat.name t, k⟩) ∧
      ∀ t : Nat, ops.count .stabilize ≤ t → t < ops.count .stabilize + l.count .stabilize →
        ∀ k < (xSites dh dw).length + (zSites dh dw).length, s'.mem ⟨roundName q.lat.name t, k⟩ = m k := by
  induction l generalizing ops w s with
  | nil =>
    rw [addedAll_nil] at hR
    have : s' = s := hR
    subst this
    exact ⟨hz, hs, fun t ht k => rfl, fun t h1 h2 => absurd h2 (by simp; omega)⟩
  | cons o l ih =>
    obtain ⟨t, h1, h2⟩ := A.run_cons.1 hR
    have hgo := hg o (by simp)
    obtain ⟨i1, i2, i3, i4⟩ := ih (A.next o) (fun o' h => hg o' (by simp [h])) (A.ne_zero h0 h1) (gentle_synZero A hgo h0 h1 hz)
      (syndrome_track A hgo h0 h1 hs) h2
    have hcnt : (ops ++ [o]).count .stabilize = ops.count .stabilize + if o = .stabilize then 1 else 0 := by
      rw [List.count_append, List.count_singleton]
      simp
    have hcnt2 : (o :: l).count .stabilize = l.count .stabilize + if o = .stabilize then 1 else 0 := by
      rw [List.count_cons]
      simp
    rw [hcnt] at i3 i4
    refine ⟨i1, i2, ?_, ?_⟩
    · intro j hj k
      rw [i3 j (by omega), gentle_mem A hgo h0 h1 hz (fun _ => by omega)]
    · intro j hj1 hj2 k hk
      rw [hcnt2] at hj2
      by_cases e : o = .stabilize
      · rw [if_pos e] at hj2 i3 i4
        subst e
        rcases Nat.lt_or_ge (ops.count .stabilize) j with h | h
        · exact i4 j (by omega) (by omega) k hk
        · have hje : j = ops.count .stabilize := by omega
          subst hje
          rw [i3 _ (by omega)]
          obtain ⟨m', e1, e2, e3⟩ := (run_stabilize A h0 hz).1 h1
          rw [e3, writeReg_mem hk]
          exact syndrome_outcome A.own.2.placed.odd hs (e1 ▸ e2) k hk
      · rw [if_neg e] at hj2 i3 i4
        exact i4 j (by omega) (by omega) k hk

end Qtc
