import Verif.Proof.TInv
/-!
Sane histories keep the invariant.
-/
namespace Qtc
open Spec

variable {s : TState} {w' : World}

/-! ### Additions -/

theorem OwnDict.after (T : TInv s) (sub ctype : Str) {p p' : Option Nat} (hp : OwnDict s p) (hp' : OwnDict s p')
    (hne : ∀ r, p' = some r → p ≠ some r) : OwnDict (addTqubit sub ctype p s).2 p' := by
  obtain ⟨-, -, hheap, hnext, -, -, -, hold⟩ := T.addTqubit sub ctype hp
  intro r e
  obtain ⟨h1, h2, h3⟩ := hp' r e
  refine ⟨Nat.lt_of_lt_of_le h1 hnext, by rw [hheap r (hne r e) h1]; exact h2, ?_⟩
  intro k q hk
  rcases hold k q hk with hk | ⟨-, h⟩
  · exact h3 k q hk
  · rcases h with h | h
    · exact fun e' => hne r e (by rw [h, e'])
    · omega

theorem TInv.addAll (T : TInv s) (sub : Str) (l : List (Str × Option Nat)) (hp : ∀ e ∈ l, OwnDict s e.2)
    (hn : (l.filterMap Prod.snd).Nodup) : TInv (addAll sub l s).2 ∧ (addAll sub l s).1 ≠ .error .nameTaken := by
  induction l generalizing s with
  | nil => exact ⟨T, fun e => by cases e⟩
  | cons e l ih =>
    obtain ⟨T1, h1, -⟩ := T.addTqubit sub e.1 (hp e (by simp))
    unfold Qtc.addAll
    rw [CM.forEach_cons, CM.bind_run]
    rcases hr : Qtc.addTqubit sub e.1 e.2 s with ⟨err | u, s1⟩
    · rw [hr] at T1 h1
      exact ⟨T1, fun e' => h1 (by cases e'; rfl)⟩
    · have hs1 : (Qtc.addTqubit sub e.1 e.2 s).2 = s1 := by rw [hr]
      rw [hr] at T1 h1
      refine ih T1 ?_ ?_
      · intro x hx
        rw [← hs1]
        refine OwnDict.after T sub e.1 (hp e (by simp)) (hp x (by simp [hx])) ?_
        intro r hxr her
        rw [List.filterMap_cons, her] at hn
        simp only [List.nodup_cons] at hn
        exact hn.1 (List.mem_filterMap.2 ⟨x, hx, hxr⟩)
      · rw [List.filterMap_cons] at hn
        split at hn
        · exact hn
        · exact (List.nodup_cons.1 hn).2

theorem zip_snd_filterMap_sublist {α β : Type} (l : List α) (m : List (Option β)) :
    ((l.zip m).filterMap Prod.snd).Sublist (m.filterMap id) := by
  induction l generalizing m with
  | nil => simp
  | cons a l ih =>
    cases m with
    | nil => simp
    | cons b m =>
      rw [List.zip_cons_cons]
      cases b with
      | none => simpa using ih m
      | some b => simpa using (ih m).cons_cons b

/-! ### The body of `cx` -/

/-- What holds while the body of `cx` runs. -/
structure During (P : Prop) (b s : TState) : Prop where
  inv : P → TInv s
  syncC : ∀ h ∈ helperC, (s.creg.get? h = none ∧ h ∉ s.world.circ.names) ∨ (s.creg.get? h = some ⟨h, 1⟩ ∧ ⟨h, 1⟩ ∈ s.world.circ.cregs)
  syncQ : (s.qreg.get? helperQ = none ∧ helperQ ∉ s.world.circ.names) ∨
    (s.qreg.get? helperQ = some ⟨helperQ, 1⟩ ∧ ⟨helperQ, 1⟩ ∈ s.world.circ.qregs)
  treg : s.treg = b.treg
  heap : s.world.heap = b.world.heap
  next : s.world.next = b.world.next
  qregs : ∃ ext, s.world.circ.qregs = b.world.circ.qregs ++ ext ∧ ∀ r ∈ ext, r = ⟨helperQ, 1⟩
  cregs : ∃ ext, s.world.circ.cregs = b.world.circ.cregs ++ ext ∧ ∀ r ∈ ext, r.name ∈ helperC ∧ r.size = 1

variable {P : Prop}

theorem During.adds {b : TState} (D : During P b s) {A : Instr → Prop} (h : Adds A s.world w') : During P b { s with world := w' } :=
  ⟨fun p => (D.inv p).adds h, by simp only [h.names, h.cregs]; exact D.syncC, by simp only [h.names, h.qregs]; exact D.syncQ,
    D.treg, h.heap.trans D.heap, h.next.trans D.next, by simp only [h.qregs]; exact D.qregs, by simp only [h.cregs]; exact D.cregs⟩

theorem safe_good {b : TState} {A : Instr → Prop} {x : WM Unit} (h : Good A x fun _ => True) :
    Safe (During P b) (· ≠ .nameTaken) (onWorld x) fun _ => True := by
  intro s D
  obtain ⟨h1, -, h3⟩ := h s.world
  refine ⟨D.adds h1, fun _ _ => trivial, ?_⟩
  rintro e he rfl
  exact h3 he

theorem addCregT_known {n : Int} {name : Str} {r : Reg} (h : s.creg.get? name = some r) : addCregT n name false s = (.ok (), s) := by
  unfold addCregT
  rw [h]
  rfl

theorem addQregT_known {n : Int} {name : Str} {r : Reg} (h : s.qreg.get? name = some r) : addQregT n name false s = (.ok (), s) := by
  unfold addQregT
  rw [h]
  rfl

theorem addCregT_new {name : Str} {b : Bool} (h : s.creg.get? name = none) (hn : name ∉ s.world.circ.names) :
    addCregT 1 name b s = (.ok (), { s with creg := s.creg.set name ⟨name, 1⟩, world := s.world.addC ⟨name, 1⟩ }) := by
  unfold addCregT
  rw [h]
  simp only [Option.isSome_none, Bool.false_and, Bool.false_eq_true, if_false]
  have : newReg 1 name = .ok ⟨name, 1⟩ := rfl
  simp only [this, onWorld]
  have e := addCreg_ok (w := s.world) (r := ⟨name, 1⟩) hn
  rw [e]

theorem addQregT_new {name : Str} {b : Bool} (h : s.qreg.get? name = none) (hn : name ∉ s.world.circ.names) :
    addQregT 1 name b s = (.ok (), { s with qreg := s.qreg.set name ⟨name, 1⟩, world := s.world.addQs [⟨name, 1⟩] }) := by
  unfold addQregT
  rw [h]
  simp only [Option.isSome_none, Bool.false_and, Bool.false_eq_true, if_false]
  have : newReg 1 name = .ok ⟨name, 1⟩ := rfl
  simp only [this, onWorld]
  have e := addQreg_ok (w := s.world) (r := ⟨name, 1⟩) hn
  rw [e]

/-- The invariant after a new helper register. -/
theorem TInv.helperReg (T : TInv s) {x : Str} (hx : Helper x) {s' : TState} (ht : s'.treg = s.treg) (hh : s'.world.heap = s.world.heap)
    (hnext : s'.world.next = s.world.next) (W : WellFormed s'.world.circ) (hq : ∀ r ∈ s.world.circ.qregs, r ∈ s'.world.circ.qregs)
    (hm : ∀ y ∈ s'.world.circ.names, y = x ∨ y ∈ s.world.circ.names)
    (hC : ∀ h ∈ helperC, (s'.creg.get? h = none ∧ h ∉ s'.world.circ.names) ∨ (s'.creg.get? h = some ⟨h, 1⟩ ∧ ⟨h, 1⟩ ∈ s'.world.circ.cregs))
    (hQ : (s'.qreg.get? helperQ = none ∧ helperQ ∉ s'.world.circ.names) ∨
      (s'.qreg.get? helperQ = some ⟨helperQ, 1⟩ ∧ ⟨helperQ, 1⟩ ∈ s'.world.circ.qregs)) : TInv s' := by
  refine ⟨W, by rw [ht]; exact T.agrees, ?_, by rw [ht, hnext]; exact T.ref, by rw [ht]; exact T.sep, ?_, hC, hQ⟩
  · intro k q hk
    rw [ht] at hk ⊢
    obtain ⟨h1, h2, dh, dw, t, O⟩ := T.held k q hk
    refine ⟨h1, h2, dh, dw, t, O.frame (by rw [hh]) hq ?_⟩
    intro y hy hym
    rcases hm y hym with rfl | hym
    · exfalso
      obtain ⟨rest, e⟩ := ownCreg_reserved hy
      rw [h1] at e
      exact helper_ne hx e
    · exact hym
  · intro i rest hi hmem
    rw [ht] at hi hmem
    rcases hm _ hmem with e | hmem
    · exact helper_ne hx e.symm
    · exact T.free i rest hi hmem

theorem safe_addCregT {b : TState} {n : Str} (hn : n ∈ helperC) : Safe (During P b) (· ≠ .nameTaken) (addCregT 1 n false) fun _ => True := by
  intro s D
  rcases D.syncC n hn with ⟨h1, h2⟩ | ⟨h1, h2⟩
  · rw [addCregT_new h1 h2]
    refine ⟨?_, fun _ _ => trivial, fun e he => by cases he⟩
    have hC : ∀ h ∈ helperC, ((s.creg.set n ⟨n, 1⟩).get? h = none ∧ h ∉ (s.world.addC ⟨n, 1⟩).circ.names) ∨
        ((s.creg.set n ⟨n, 1⟩).get? h = some ⟨h, 1⟩ ∧ ⟨h, 1⟩ ∈ (s.world.addC ⟨n, 1⟩).circ.cregs) := by
      intro h hh
      by_cases e : h = n
      · subst e
        refine Or.inr ⟨Dict.get?_set_self _ _ _, ?_⟩
        rw [World.addC_cregs]
        exact List.mem_append_right _ (List.mem_singleton.2 rfl)
      · simp only [Dict.get?_set_ne _ _ e, names_addC, e, false_or]
        rcases D.syncC h hh with ⟨h1, h2⟩ | ⟨h1, h2⟩
        · exact Or.inl ⟨h1, h2⟩
        · refine Or.inr ⟨h1, ?_⟩
          rw [World.addC_cregs]
          exact List.mem_append_left _ h2
    have hQ : (s.qreg.get? helperQ = none ∧ helperQ ∉ (s.world.addC ⟨n, 1⟩).circ.names) ∨
        (s.qreg.get? helperQ = some ⟨helperQ, 1⟩ ∧ ⟨helperQ, 1⟩ ∈ (s.world.addC ⟨n, 1⟩).circ.qregs) := by
      have hne : helperQ ≠ n := by
        rintro rfl
        exact absurd hn (by decide)
      rcases D.syncQ with ⟨h1, h2⟩ | ⟨h1, h2⟩
      · refine Or.inl ⟨h1, ?_⟩
        simp only [names_addC, not_or]
        exact ⟨hne, h2⟩
      · exact Or.inr ⟨h1, h2⟩
    refine ⟨fun p => ?_, hC, hQ, D.treg, D.heap, D.next, D.qregs, ?_⟩
    · exact (D.inv p).helperReg (x := n) (Or.inl hn) rfl rfl rfl (WellFormed.addC (D.inv p).wf h2) (fun r hr => hr)
        (fun y hy => (names_addC _ _ _).1 hy) hC hQ
    · obtain ⟨ext, e, he⟩ := D.cregs
      refine ⟨ext ++ [⟨n, 1⟩], ?_, ?_⟩
      · rw [World.addC_cregs, e, List.append_assoc]
      · intro r hr
        rcases List.mem_append.1 hr with hr | hr
        · exact he r hr
        · rw [List.mem_singleton.1 hr]; exact ⟨hn, rfl⟩
  · rw [addCregT_known h1]
    exact ⟨D, fun _ _ => trivial, fun e he => by cases he⟩

theorem safe_addQregT {b : TState} : Safe (During P b) (· ≠ .nameTaken) (addQregT 1 helperQ false) fun _ => True := by
  intro s D
  rcases D.syncQ with ⟨h1, h2⟩ | ⟨h1, h2⟩
  · rw [addQregT_new h1 h2]
    refine ⟨?_, fun _ _ => trivial, fun e he => by cases he⟩
    have hC : ∀ h ∈ helperC, (s.creg.get? h = none ∧ h ∉ (s.world.addQs [⟨helperQ, 1⟩]).circ.names) ∨
        (s.creg.get? h = some ⟨h, 1⟩ ∧ ⟨h, 1⟩ ∈ (s.world.addQs [⟨helperQ, 1⟩]).circ.cregs) := by
      intro h hh
      have hne : h ≠ helperQ := by
        rintro rfl
        exact absurd hh (by decide)
      rcases D.syncC h hh with ⟨h1, h2⟩ | ⟨h1, h2⟩
      · refine Or.inl ⟨h1, ?_⟩
        simp only [names_addQs, not_or]
        exact ⟨hne, h2⟩
      · exact Or.inr ⟨h1, h2⟩
    have hQ : ((s.qreg.set helperQ ⟨helperQ, 1⟩).get? helperQ = none ∧ helperQ ∉ (s.world.addQs [⟨helperQ, 1⟩]).circ.names) ∨
        ((s.qreg.set helperQ ⟨helperQ, 1⟩).get? helperQ = some ⟨helperQ, 1⟩ ∧ ⟨helperQ, 1⟩ ∈ (s.world.addQs [⟨helperQ, 1⟩]).circ.qregs) := by
      refine Or.inr ⟨Dict.get?_set_self _ _ _, ?_⟩
      rw [World.addQs_qregs]
      exact List.mem_append_right _ (List.mem_singleton.2 rfl)
    refine ⟨fun p => ?_, hC, hQ, D.treg, D.heap, D.next, ?_, D.cregs⟩
    · refine (D.inv p).helperReg (x := helperQ) (Or.inr rfl) rfl rfl rfl ?_ ?_ (fun y hy => (names_addQs _ _ _).1 hy) hC hQ
      · exact WellFormed.addQs (D.inv p).wf (by simpa using h2) (by simp)
      · intro r hr
        rw [World.addQs_qregs]
        exact List.mem_append_left _ hr
    · obtain ⟨ext, e, he⟩ := D.qregs
      refine ⟨ext ++ [⟨helperQ, 1⟩], ?_, ?_⟩
      · rw [World.addQs_qregs, e, List.append_assoc]
      · intro r hr
        rcases List.mem_append.1 hr with hr | hr
        · exact he r hr
        · exact List.mem_singleton.1 hr
  · rw [addQregT_known h1]
    exact ⟨D, fun _ _ => trivial, fun e he => by cases he⟩

theorem safe_cregOf {b : TState} {n : Str} (hn : n ∈ helperC) : Safe (During P b) (· ≠ .nameTaken) (cregOf n) fun r => r = ⟨n, 1⟩ := by
  intro s D
  unfold cregOf
  rcases D.syncC n hn with ⟨h1, -⟩ | ⟨h1, -⟩
  · rw [h1]
    exact ⟨D, fun a e => (by cases e), fun e he => by cases he; decide⟩
  · rw [h1]
    exact ⟨D, fun a e => (by cases e; rfl), fun e he => by cases he⟩

theorem safe_qregBit {b : TState} : Safe (During P b) (· ≠ .nameTaken) (qregBit helperQ) fun _ => True := by
  intro s D
  unfold qregBit
  split
  · exact ⟨D, fun _ _ => trivial, fun e he => by cases he; decide⟩
  · refine ⟨D, fun _ _ => trivial, ?_⟩
    rintro e he rfl
    rename_i r _
    have he : pyIdx r.qubits 0 = .error .nameTaken := he
    exact pyIdx_ne_taken he

theorem safe_cregBit {b : TState} {n : Str} (hn : n ∈ helperC) : Safe (During P b) (· ≠ .nameTaken) (cregBit n) fun _ => True := by
  refine (safe_cregOf hn).bind fun r _ => Safe.lift (fun _ _ => trivial) ?_
  rintro e he rfl
  exact pyIdx_ne_taken he

/-- Everything a lattice may add. -/
abbrev AnyOf (L : Lattice) : Instr → Prop := Allowed L (fun _ => True) (fun _ => True) (fun _ _ => True)

theorem good_readoutZ_given {L : Lattice} (S : Shaped L) (n : Str) (k : Nat) : Good (AnyOf L) (L.readoutZ (some ⟨n, k + 1⟩)) fun _ => True := by
  unfold Lattice.readoutZ
  have : L.readoutReg (some ⟨n, k + 1⟩) = pure ⟨n, k + 1⟩ := rfl
  rw [this]
  exact (Good.pure (Q := fun _ => True) trivial).bind fun _ _ => S.good_readoutZIntoAncilla.bind fun _ _ =>
    (S.good_measAnc fun _ _ => trivial).bind fun _ _ => good_barrier trivial

theorem safe_body {b : TState} {c t a : TQubit} (Sc : Shaped c.lat) (St : Shaped t.lat) (Sa : Shaped a.lat) :
    Safe (During P b) (· ≠ .nameTaken) (cxBody c t a) fun _ => True := by
  have triv : ∀ {g : WM Unit}, Good (fun _ => True) g (fun _ => True) → Safe (During P b) (· ≠ .nameTaken) (onWorld g) fun _ => True :=
    fun h => safe_good h
  refine safe_cxBody (R := fun _ => True) (B := fun _ => True) (fun n hn => safe_addCregT hn) safe_addQregT safe_qregBit
    (fun n hn => safe_cregBit hn) (fun n hn => safe_cregOf hn) (safe_good (A := AnyOf a.lat) Sa.good_resetX)
    (fun r _ => triv (good_reset fun _ _ => trivial)) (fun r _ => triv (good_gate1 fun _ _ => trivial))
    (fun r _ b _ => triv (good_measure fun _ _ _ _ => trivial))
    (fun r _ => safe_good (A := AnyOf c.lat) (Sc.good_qcx (fun _ _ => trivial) fun _ _ => trivial))
    (fun r _ => safe_good (A := AnyOf a.lat) (Sa.good_qcx (fun _ _ => trivial) fun _ _ => trivial))
    (fun r _ => safe_good (A := AnyOf t.lat) (St.good_qcx (fun _ _ => trivial) fun _ _ => trivial))
    (fun r _ => safe_good (A := AnyOf a.lat) (Sa.good_qcx (fun _ _ => trivial) fun _ _ => trivial))
    (safe_good (good_readoutZ_given Sa "m3".toList 0)) (safe_good (A := AnyOf c.lat) (Sc.good_zCIf trivial))
    fun n _ => safe_good (A := AnyOf t.lat) (St.good_xCIf trivial)

theorem TInv.shaped (T : TInv s) {k : Int} {q : TQubit} (h : s.treg.find? k = some q) : Shaped q.lat := by
  obtain ⟨-, -, dh, dw, t, O⟩ := T.held k q h
  exact O.placed.shaped

/-! ### The whole of `cx` -/

theorem getIndex_inside {a : QArg} (h : Inside s a) : (∃ k q, s.treg.find? k = some q ∧ getIndex a s = (.ok q, s)) ∨ getIndex a s = (.error .valueError, s) := by
  cases a with
  | idx k =>
    unfold getIndex
    cases hf : s.treg.find? k with
    | none => right; simp only [hf]
    | some q => left; exact ⟨k, q, hf, by simp only [hf]⟩
  | obj q =>
    obtain ⟨k, hk⟩ := h
    exact Or.inl ⟨k, q, hk, rfl⟩

/-- The state after the ancilla has been made, if necessary. -/
theorem TInv.lastAncilla (T : TInv s) : (∃ k q, s.treg.find? k = some q ∧ lastAncilla s = (.ok q, s)) ∨
    ∃ e, lastAncilla s = (.error e, s) ∧ e ≠ .nameTaken := by
  obtain ⟨log, tried, A⟩ := T.agrees
  unfold Qtc.lastAncilla
  have hg := A.get "ancilla".toList
  split
  · exact Or.inr ⟨_, rfl, by decide⟩
  · rename_i d hd
    split
    · rename_i e he
      left
      rw [hd] at hg
      split at hg
      · cases hg
        have hm := mem_entriesOf.1 (List.mem_of_getLast? he : (e.1, e.2) ∈ _)
        refine ⟨e.1, e.2, ?_, rfl⟩
        rw [A.find, if_pos (by omega)]
        simp [hm]
      · cases hg
    · exact Or.inr ⟨_, rfl, by decide⟩

theorem During.refl (T : TInv s) : During True s s := ⟨fun _ => T, T.syncC, T.syncQ, rfl, rfl, rfl, ⟨[], by simp, by simp⟩, ⟨[], by simp, by simp⟩⟩

/-- The states from which the body of `cx` may start. -/
def Before (s : TState) (p : Option Nat) (b : TState) : Prop :=
  b = s ∨ s.treg.tqubits.get? "ancilla".toList = none ∧ OwnDict s p ∧ p.isSome ∧ ∃ ctype, b = (addTqubit "ancilla".toList ctype p s).2

/-- What `cx` does in a sane state: it makes an ancilla if there is none, and then keeps the dictionaries. -/
def CxRes (s : TState) (p : Option Nat) (r : Py Unit × TState) : Prop :=
  r.1 ≠ .error .nameTaken ∧ ∃ b, Before s p b ∧ During True b r.2

theorem TInv.before (T : TInv s) {p : Option Nat} {b : TState} (h : Before s p b) : TInv b ∧ ∀ k q, s.treg.find? k = some q → b.treg.find? k = some q := by
  rcases h with rfl | ⟨-, hp, -, ctype, rfl⟩
  · exact ⟨T, fun _ _ h => h⟩
  · obtain ⟨h1, -, -, -, -, -, h2, -⟩ := T.addTqubit "ancilla".toList ctype hp
    exact ⟨h1, h2⟩

theorem TInv.cxTail (T : TInv s) {p : Option Nat} {b : TState} (h : Before s p b) {kc kt : Int} {c t : TQubit}
    (hc : s.treg.find? kc = some c) (ht : s.treg.find? kt = some t) :
    CxRes s p ((Qtc.lastAncilla >>= fun a => cxBody c t a) b) := by
  obtain ⟨Tb, keep⟩ := T.before h
  rcases Tb.lastAncilla with ⟨k, a, hk, hr⟩ | ⟨e, hr, he⟩
  · rw [CM.bind_ok hr]
    obtain ⟨h1, -, h3⟩ := safe_body (b := b) (Tb.shaped (keep _ _ hc)) (Tb.shaped (keep _ _ ht)) (Tb.shaped hk) b (During.refl Tb)
    exact ⟨fun e => h3 _ e rfl, b, h, h1⟩
  · rw [CM.bind_error hr]
    exact ⟨fun e' => he (by cases e'; rfl), b, h, During.refl Tb⟩

theorem TInv.cx (T : TInv s) {c t : QArg} {k : Option Str} {p : Option Nat} (h : Sane s (.cx c t k p)) : CxRes s p (cxT c t k p s) := by
  obtain ⟨hc, ht, ha⟩ := h
  have stop : ∀ e, e ≠ .nameTaken → CxRes s p (.error e, s) := fun e he =>
    ⟨fun e' => he (by cases e'; rfl), s, Or.inl rfl, During.refl T⟩
  have main : ∀ kind : Str × Option Nat, (s.treg.tqubits.get? "ancilla".toList = none → kind.2 = p) →
      CxRes s p ((getIndex c >>= fun c => getIndex t >>= fun t => ensureAncilla kind >>= fun _ => Qtc.lastAncilla >>= fun a => cxBody c t a) s) := by
    intro kind hk
    rcases getIndex_inside hc with ⟨kc, qc, fc, gc⟩ | gc
    swap
    · rw [CM.bind_error gc]; exact stop _ (by decide)
    rw [CM.bind_ok gc]
    rcases getIndex_inside ht with ⟨kt, qt, ft, gt⟩ | gt
    swap
    · rw [CM.bind_error gt]; exact stop _ (by decide)
    rw [CM.bind_ok gt]
    cases hanc : s.treg.tqubits.get? "ancilla".toList with
    | some d =>
      have he : ensureAncilla kind s = (.ok (), s) := by unfold ensureAncilla; rw [hanc]
      rw [CM.bind_ok he]
      exact T.cxTail (Or.inl rfl) fc ft
    | none =>
      have he : ensureAncilla kind s = Qtc.addTqubit "ancilla".toList kind.1 p s := by unfold ensureAncilla; rw [hanc, hk hanc]
      obtain ⟨hsome, hp⟩ := ha hanc
      have hb : Before s p (Qtc.addTqubit "ancilla".toList kind.1 p s).2 := Or.inr ⟨hanc, hp, hsome, kind.1, rfl⟩
      obtain ⟨T1, hne, -⟩ := T.addTqubit "ancilla".toList kind.1 hp
      rw [CM.bind_run, he]
      rcases hr : Qtc.addTqubit "ancilla".toList kind.1 p s with ⟨e | u, s1⟩
      · rw [hr] at hne hb T1
        exact ⟨fun e' => hne (by cases e'; rfl), s1, hb, During.refl T1⟩
      · rw [hr] at hb
        exact T.cxTail hb fc ft
  rw [cxT_eq]
  unfold ancillaKind
  match k, p, ha, stop, main with
  | some k, some p, ha, stop, main => exact main (k, some p) fun _ => rfl
  | some k, none, ha, stop, main => exact stop _ (by decide)
  | none, some p, ha, stop, main => exact stop _ (by decide)
  | none, none, ha, stop, main =>
    show CxRes s none (((getIndex c >>= fun q => pure (q.cls.ctype, some q.lat.pref)) >>= fun kind => getIndex c >>= fun c => getIndex t >>= fun t =>
      ensureAncilla kind >>= fun _ => Qtc.lastAncilla >>= fun a => cxBody c t a) s)
    rcases getIndex_inside hc with ⟨kc, qc, fc, gc⟩ | gc
    · have e : (getIndex c >>= fun q => pure (q.cls.ctype, some q.lat.pref) : TM (Str × Option Nat)) s = (.ok (qc.cls.ctype, some qc.lat.pref), s) := by
        rw [CM.bind_ok gc]; rfl
      rw [CM.bind_ok e]
      refine main (qc.cls.ctype, some qc.lat.pref) fun h => ?_
      have := (ha h).1
      simp at this
    · rw [CM.bind_error (CM.bind_error gc)]; exact stop _ (by decide)

/-! ### Everything -/

theorem TInv.fresh {name : Str} {w : World} (h : FreshFor name w) : TInv (TState.fresh name w) := by
  obtain ⟨W, hn⟩ := h
  refine ⟨W, ⟨[], [], (Log.start rfl).agrees⟩, fun _ _ h => (by cases h), fun _ _ h => (by cases h), fun _ _ _ _ h => (by cases h), ?_, ?_, ?_⟩
  · intro i rest _ hm
    exact (hn _ hm).1 (reserved_iff.2 ⟨i, rest, rfl⟩)
  · intro x hx
    exact Or.inl ⟨rfl, fun hm => (hn _ hm).2.1 hx⟩
  · exact Or.inl ⟨rfl, fun hm => (hn _ hm).2.2 rfl⟩

theorem TInv.setC (T : TInv s) {x : Str} {r : Reg} (hx : x ∉ helperC) : TInv { s with creg := s.creg.set x r } := by
  refine ⟨T.wf, T.agrees, T.held, T.ref, T.sep, T.free, ?_, T.syncQ⟩
  intro y hy
  have : y ≠ x := by rintro rfl; exact hx hy
  simp only [Dict.get?_set_ne _ _ this]
  exact T.syncC y hy

theorem TInv.setQ (T : TInv s) {x : Str} {r : Reg} (hx : x ≠ helperQ) : TInv { s with qreg := s.qreg.set x r } := by
  refine ⟨T.wf, T.agrees, T.held, T.ref, T.sep, T.free, T.syncC, ?_⟩
  simp only [Dict.get?_set_ne _ _ hx.symm]
  exact T.syncQ

theorem TInv.step (T : TInv s) {o : TOp} (h : Sane s o) : TInv (o.run s).2 := by
  cases o with
  | addQubits sub cs ps =>
    show TInv (addTqubits sub cs ps s).2
    unfold addTqubits
    split
    · exact T
    · split
      · exact T
      · refine (T.addAll sub _ ?_ ?_).1
        · intro e he; exact h.1 _ (List.of_mem_zip he).2
        · exact (zip_snd_filterMap_sublist _ _).nodup h.2
  | addQubit sub c p => exact (T.addTqubit sub c h).1
  | on a o =>
    show TInv (onQubit a o s).2
    unfold onQubit
    rcases getIndex_inside h with ⟨k, q, hk, hr⟩ | hr
    · rw [CM.bind_ok hr]; exact (T.op hk o).1
    · rw [CM.bind_error hr]; exact T
  | cx c t k p => obtain ⟨-, b, -, D⟩ := T.cx h; exact D.inv trivial
  | addCreg n x b =>
    obtain ⟨h1, h2, h3⟩ := h
    show TInv (addCregT n x b s).2
    unfold addCregT
    split
    · exact T
    · split
      · exact T
      · rename_i r hr
        have hx : r.name = x := by rw [(newReg_eq_ok hr).2]
        have hh : ¬ Helper r.name := by rw [hx]; exact fun h => h.elim h2 h3
        have T' := T.setC (r := r) h2
        by_cases hm : r.name ∈ s.world.circ.names
        · show TInv { s with creg := s.creg.set x r, world := (addCreg r s.world).2 }
          rw [addCreg_taken hm]; exact T'
        · show TInv { s with creg := s.creg.set x r, world := (addCreg r s.world).2 }
          rw [addCreg_ok hm]
          refine T'.newName (n := r.name) (WellFormed.addC T.wf hm) rfl rfl (fun _ h => h) (fun g hg => ?_) ?_ (by rw [hx]; exact h1) hh
          · rw [World.addC_cregs]; exact List.mem_append_left _ hg
          · intro y hy
            exact ((names_addC _ _ _).1 hy).symm
  | addQreg n x b =>
    obtain ⟨h1, h2, h3⟩ := h
    show TInv (addQregT n x b s).2
    unfold addQregT
    split
    · exact T
    · split
      · exact T
      · rename_i r hr
        have hx : r.name = x := by rw [(newReg_eq_ok hr).2]
        have hh : ¬ Helper r.name := by rw [hx]; exact fun h => h.elim h2 h3
        have T' := T.setQ (r := r) h3
        by_cases hm : r.name ∈ s.world.circ.names
        · show TInv { s with qreg := s.qreg.set x r, world := (addQreg r s.world).2 }
          rw [addQreg_taken hm]; exact T'
        · show TInv { s with qreg := s.qreg.set x r, world := (addQreg r s.world).2 }
          rw [addQreg_ok hm]
          refine T'.newName (n := r.name) (WellFormed.addQs T.wf (by simpa using hm) (by simp)) rfl rfl (fun g hg => ?_) (fun _ h => h) ?_ (by rw [hx]; exact h1) hh
          · rw [World.addQs_qregs]; exact List.mem_append_left _ hg
          · intro y hy
            exact ((names_addQs _ _ _).1 hy).symm

/-- The operations that are not a direct request for a register do not run into a taken name. -/
theorem TInv.ne_taken (T : TInv s) {o : TOp} (h : Sane s o) (hc : ∀ n x b, o ≠ .addCreg n x b) (hq : ∀ n x b, o ≠ .addQreg n x b) :
    (o.run s).1 ≠ .error .nameTaken := by
  cases o with
  | addQubits sub cs ps =>
    show (addTqubits sub cs ps s).1 ≠ _
    unfold addTqubits
    split
    · exact fun e => by cases e
    · split
      · exact fun e => by cases e
      · refine (T.addAll sub _ ?_ ?_).2
        · intro e he; exact h.1 _ (List.of_mem_zip he).2
        · exact (zip_snd_filterMap_sublist _ _).nodup h.2
  | addQubit sub c p => exact (T.addTqubit sub c h).2.1
  | on a o =>
    show (onQubit a o s).1 ≠ _
    unfold onQubit
    rcases getIndex_inside h with ⟨k, q, hk, hr⟩ | hr
    · rw [CM.bind_ok hr]; exact (T.op hk o).2.1
    · rw [CM.bind_error hr]; exact fun e => by cases e
  | cx c t k p => exact (T.cx h).1
  | addCreg n x b => exact absurd rfl (hc n x b)
  | addQreg n x b => exact absurd rfl (hq n x b)

theorem TInv.runOps (T : TInv s) {l : List TOp} (h : SaneRun l s) : TInv (runOps l s) := by
  induction l generalizing s with
  | nil => exact T
  | cons o l ih => exact ih (T.step h.1) h.2

theorem Spec.SaneState.inv (h : SaneState s) : TInv s := by
  obtain ⟨name, w, ops, hf, hr, rfl⟩ := h
  exact (TInv.fresh hf).runOps hr

end Qtc
