import Verif.Proof.TFair
/-!
Fair histories: every qubit keeps its place, also when dictionaries are shared.
-/
namespace Qtc
open Spec

variable {P : Str → Prop} {s b : TState} {w' : World}

theorem TameM.weaken {α : Type} {Q : Str → Prop} {x : WM α} (h : TameM P x) (hPQ : ∀ n, P n → Q n) : TameM Q x := fun w =>
  let X := h w
  ⟨X.next, X.heap, X.qregs, X.cregs, fun n hn => (X.names n hn).imp_right (hPQ n)⟩

theorem Placed.dims {L : Lattice} {dh dw : Int} {w : World} (p : Placed L dh dw w) : (w.heap L.pref).Dims dh dw := ⟨p.d, p.nd, p.ns⟩

theorem Tame.placed {L : Lattice} {dh dw : Int} {w w' : World} (X : Tame P w w') (h : L.pref < w.next) (p : Placed L dh dw w) : Placed L dh dw w' := by
  obtain ⟨h1, h2, h3⟩ := (X.heap _ h).dims dh dw p.dims
  exact ⟨p.eq, p.odd, fun r hr => X.qregs r (p.qregs r hr), h1, h2, h3⟩

/-- A qubit of the register in its place. -/
structure Held (R : Str) (w : World) (k : Int) (q : TQubit) : Prop where
  name : q.lat.name = qname R k.toNat
  code : q.lat.code = q.cls.code
  ref : q.lat.pref < w.next
  nonneg : NonNeg (w.heap q.lat.pref).d
  placed : ∃ dh dw, Placed q.lat dh dw w
  rep : q.cls = .rep → (w.heap q.lat.pref).RepFits

theorem Held.tame {R : Str} {w w' : World} {k : Int} {q : TQubit} (H : Held R w k q) (X : Tame P w w') : Held R w' k q := by
  obtain ⟨dh, dw, p⟩ := H.placed
  exact ⟨H.name, H.code, Nat.lt_of_lt_of_le H.ref X.next, (X.heap _ H.ref).nonneg H.nonneg, ⟨dh, dw, X.placed H.ref p⟩,
    fun h => (X.heap _ H.ref).rep (H.rep h)⟩

/-- The invariant. -/
structure FInv (s : TState) : Prop where
  wf : WellFormed s.world.circ
  agrees : ∃ log tried, Agrees s.treg.name s.treg log tried
  held : ∀ k q, s.treg.find? k = some q → Held s.treg.name s.world k q
  free : ∀ i rest, s.treg.n ≤ i → qname s.treg.name i ++ '_' :: rest ∉ s.world.circ.names
  syncC : ∀ h ∈ helperC, (s.creg.get? h = none ∧ h ∉ s.world.circ.names) ∨ (s.creg.get? h = some ⟨h, 1⟩ ∧ ⟨h, 1⟩ ∈ s.world.circ.cregs)
  syncQ : (s.qreg.get? helperQ = none ∧ helperQ ∉ s.world.circ.names) ∨
    (s.qreg.get? helperQ = some ⟨helperQ, 1⟩ ∧ ⟨helperQ, 1⟩ ∈ s.world.circ.qregs)

theorem FInv.find_range (F : FInv s) {k : Int} {q : TQubit} (h : s.treg.find? k = some q) : 0 ≤ k ∧ k.toNat < s.treg.n := by
  obtain ⟨log, tried, A⟩ := F.agrees
  rw [A.find] at h
  split at h
  · rename_i h0
    rw [A.n]
    refine ⟨h0, ?_⟩
    cases hl : log[k.toNat]? with
    | none => rw [hl] at h; cases h
    | some e => exact (List.getElem?_eq_some_iff.1 hl).1
  · cases h

theorem FInv.tame (F : FInv s) (W : WellFormed w'.circ) (X : Tame P s.world w')
    (hP : ∀ n, P n → ¬ Helper n ∧ ∀ i rest, s.treg.n ≤ i → n ≠ qname s.treg.name i ++ '_' :: rest) : FInv { s with world := w' } := by
  refine ⟨W, F.agrees, fun k q h => (F.held k q h).tame X, ?_, ?_, ?_⟩
  · intro i rest hi hm
    rcases X.names _ hm with hm | hm
    · exact F.free i rest hi hm
    · exact (hP _ hm).2 i rest hi rfl
  · intro h hh
    rcases F.syncC h hh with ⟨h1, h2⟩ | ⟨h1, h2⟩
    · refine Or.inl ⟨h1, fun hm => ?_⟩
      rcases X.names _ hm with hm | hm
      · exact h2 hm
      · exact (hP _ hm).1 (Or.inl hh)
    · exact Or.inr ⟨h1, X.cregs _ h2⟩
  · rcases F.syncQ with ⟨h1, h2⟩ | ⟨h1, h2⟩
    · refine Or.inl ⟨h1, fun hm => ?_⟩
      rcases X.names _ hm with hm | hm
      · exact h2 hm
      · exact (hP _ hm).1 (Or.inr rfl)
    · exact Or.inr ⟨h1, X.qregs _ h2⟩

theorem nameOf_qname {R x : Str} {i n : Nat} (h : NameOf (qname R i) x) (hi : i < n) : ¬ Helper x ∧ ∀ j rest, n ≤ j → x ≠ qname R j ++ '_' :: rest := by
  obtain ⟨rest, rfl⟩ := h
  refine ⟨fun h => helper_ne h rfl, fun j rest' hj e => ?_⟩
  have := (qname_inj e).1
  omega

/-- An operation of a qubit of the register. -/
theorem FInv.op (F : FInv s) {k : Int} {q : TQubit} (hk : s.treg.find? k = some q) (o : QOp) : FInv { s with world := (q.op o s.world).2 } := by
  refine F.tame (keepsWF_op q o s.world F.wf) (tame_op q o s.world) fun n hn => ?_
  rw [(F.held k q hk).name] at hn
  exact nameOf_qname hn (F.find_range hk).2

/-! ### Additions -/

theorem FInv.touched_find (F : FInv s) (sub : Str) (k : Int) : (s.treg.touched sub).find? k = s.treg.find? k := by
  obtain ⟨log, tried, A⟩ := F.agrees
  rw [A.find, (A.touched sub).find]

theorem FInv.touched (F : FInv s) (sub : Str) : FInv { s with treg := s.treg.touched sub } := by
  obtain ⟨log, tried, A⟩ := F.agrees
  have hf := F.touched_find sub
  refine ⟨F.wf, ⟨log, tried ++ [sub], ?_⟩, ?_, ?_, F.syncC, F.syncQ⟩
  · have := A.touched sub
    rw [← touched_name s.treg sub] at this
    exact this
  · intro k q h
    simp only [hf] at h
    simp only [touched_name]
    exact F.held k q h
  · simp only [touched_name, touched_n]
    exact F.free

theorem FInv.stored_find (F : FInv s) (sub : Str) (q : TQubit) (p : Option Nat) (k : Int) :
    ((s.treg.touched sub).stored sub q p).find? k = if k = s.treg.n then some q else s.treg.find? k := by
  obtain ⟨log, tried, A⟩ := F.agrees
  have hn := A.n
  rw [A.find, ((A.touched sub).stored (by simp) q p).find]
  split
  · rename_i h0
    split
    · rename_i hk
      rw [List.getElem?_append_right (by omega), show k.toNat - log.length = 0 by omega]
      rfl
    · rename_i hk
      by_cases hlt : k.toNat < log.length
      · rw [List.getElem?_append_left hlt]
      · rw [List.getElem?_eq_none (by rw [List.length_append, List.length_singleton]; omega), List.getElem?_eq_none (by omega)]
  · rw [if_neg (by omega)]

/-- What `add_tqubit` does in a fair state. -/
structure Grown (s s' : TState) : Prop where
  inv : FInv s'
  name : s'.treg.name = s.treg.name
  next : s.world.next ≤ s'.world.next
  heap : ∀ k, k < s.world.next → SameSize (s.world.heap k) (s'.world.heap k)
  instrs : s'.world.circ.instrs = s.world.circ.instrs
  cregs : s'.world.circ.cregs = s.world.circ.cregs
  keep : ∀ k q, s.treg.find? k = some q → s'.treg.find? k = some q

theorem FInv.addTqubit (F : FInv s) (sub ctype : Str) {p : Option Nat} (hp : GivenDict s p) : Grown s (addTqubit sub ctype p s).2 := by
  have hfree : ∀ rest, s.treg.qubitName ++ '_' :: rest ∉ s.world.circ.names := fun rest => F.free _ rest (Nat.le_refl _)
  rcases addTqubit_run sub ctype p s with ⟨-, hr⟩ | ⟨cls, hc, h⟩
  · rw [hr]
    refine ⟨F.touched sub, touched_name _ _, Nat.le_refl _, fun _ _ => SameSize.refl _, rfl, rfl, fun k q h => ?_⟩
    show (s.treg.touched sub).find? k = some q
    rw [F.touched_find]; exact h
  obtain ⟨r, w', -, hr, -, -, ho⟩ := newQubit_outcome (cls := cls) (params := p) (name := s.treg.qubitName) (w := s.world) hp hfree
  have X := tame_newQubit (cls := cls) (p := p) (name := s.treg.qubitName) s.world
  have W := keepsWF_newQubit (cls := cls) (p := p) (name := s.treg.qubitName) s.world F.wf
  rcases ho with ⟨q, dh, dw, hq, B, hname, hpref, hcls⟩ | ⟨e, hq, -, hcirc⟩
  · -- made
    rcases h with ⟨q', w'', hq', hrun⟩ | ⟨e, w'', hq', -⟩
    swap
    · rw [hq] at hq'; cases hq'
    rw [hq] at hq'
    cases hq'
    rw [hq] at X W
    replace X : Tame _ s.world w' := X
    replace W : WellFormed w'.circ := W
    have hnonneg : NonNeg (w'.heap r).d ∧ (cls = .rep → (w'.heap r).RepFits) := by
      have hq0 := hq
      unfold newQubit at hq0
      obtain ⟨r', w1, h1, hq0⟩ := CM.bind_eq_ok hq0
      obtain ⟨r2, w2, e1, -, -, -, hr2, ho⟩ := dictOrNew_ref p s.world fun r e => (hp r e).1
      rw [e1] at h1
      cases h1
      obtain ⟨u, w3, h3, hq0⟩ := CM.bind_eq_ok hq0
      obtain ⟨L, w4, h4, hq0⟩ := CM.bind_eq_ok hq0
      cases hq0
      have hrr : L.pref = r' := by
        obtain ⟨-, -, -, -, -, -, -, -, hr, -⟩ := newLattice_shaped h4
        exact hr
      have hd1 : NonNeg (w1.heap r').d := by
        rcases ho with ⟨e, rfl⟩ | ⟨-, e⟩
        · exact (hp r' e).2
        · rw [e]; trivial
      have X3 := tame_checkRep (P := fun _ => False) (cls := cls) (r := r') w1
      rw [h3] at X3
      have X4 := tame_newLattice (code := cls.code) (name := s.treg.qubitName) (r := r') w3
      rw [h4] at X4
      have e : r = r' := by rw [← hpref]; exact hrr
      rw [e]
      have S4 := X4.heap r' (Nat.lt_of_lt_of_le hr2 X3.next)
      refine ⟨S4.nonneg ((X3.heap r' hr2).nonneg hd1), fun hcls => S4.rep ?_⟩
      rcases checkRep_inv h3 with ⟨hn, -⟩ | ⟨-, p', h6, rfl⟩
      · exact absurd hcls hn
      show Params.RepFits (World.heap (World.setP w1 r' p') r')
      rw [World.setP_heap_self]
      exact repValidate_fits h6
    obtain ⟨W', O'⟩ := B.own F.wf (by
      intro x hx
      obtain ⟨rest, rfl⟩ := ownCreg_reserved hx
      rw [hname]; exact hfree rest)
    obtain ⟨H, hL, ⟨pp, w1, hc1, hw', V, -, -⟩, hnq, -⟩ := B.inv
    have hcr : w'.circ.cregs = s.world.circ.cregs := by rw [hw', World.addQs_cregs]; show w1.circ.cregs = _; rw [hc1]
    have hir : w'.circ.instrs = s.world.circ.instrs := by rw [hw', World.addQs_instrs]; show w1.circ.instrs = _; rw [hc1]
    have hfind := F.stored_find sub q p
    rw [hrun]
    have hst : ((s.treg.touched sub).stored sub q p).name = s.treg.name := touched_name _ _
    have hsn : ((s.treg.touched sub).stored sub q p).n = s.treg.n + 1 := congrArg (· + 1) (touched_n s.treg sub)
    refine ⟨?_, hst, X.next, X.heap, hir, hcr, ?_⟩
    · have F' : FInv { s with world := w', treg := (s.treg.touched sub).stored sub q p } := by
        obtain ⟨log, tried, A⟩ := F.agrees
        have A' := (A.touched sub).stored (sub := sub) (by simp) q p
        rw [← hst] at A'
        refine ⟨W, ⟨_, _, A'⟩, ?_, ?_, ?_, ?_⟩
        · intro k q' hk
          simp only [hfind] at hk
          simp only [hst]
          split at hk
          · rename_i hkn
            cases hk
            refine ⟨?_, by rw [B.name_eq, hcls], by rw [hpref]; exact hr, by rw [hpref]; exact hnonneg.1, ⟨dh, dw, O'.placed⟩,
              fun h => by rw [hpref]; exact hnonneg.2 (hcls ▸ h)⟩
            rw [hname, qubitName_eq, hkn]; rfl
          · exact (F.held k q' hk).tame X
        · intro i rest hi hm
          simp only [hst, hsn] at hi hm
          rcases X.names _ hm with hm | ⟨rest', hm⟩
          · exact F.free i rest (by omega) hm
          · have := (qname_inj hm).1
            omega
        · intro x hx
          rcases F.syncC x hx with ⟨h1, h2⟩ | ⟨h1, h2⟩
          · refine Or.inl ⟨h1, fun hm => ?_⟩
            rcases X.names _ hm with hm | ⟨rest', hm⟩
            · exact h2 hm
            · exact helper_ne (Or.inl hx) hm
          · exact Or.inr ⟨h1, X.cregs _ h2⟩
        · rcases F.syncQ with ⟨h1, h2⟩ | ⟨h1, h2⟩
          · refine Or.inl ⟨h1, fun hm => ?_⟩
            rcases X.names _ hm with hm | ⟨rest', hm⟩
            · exact h2 hm
            · exact helper_ne (Or.inr rfl) hm
          · exact Or.inr ⟨h1, X.qregs _ h2⟩
      exact F'
    · intro k q' hk
      simp only [hfind]
      rw [if_neg]
      · exact hk
      · have := F.find_range hk; omega
  · -- not made
    rcases h with ⟨q', w'', hq', -⟩ | ⟨e', w'', hq', hrun⟩
    · rw [hq] at hq'; cases hq'
    rw [hq] at hq'
    cases hq'
    rw [hq] at X W
    replace X : Tame _ s.world w' := X
    replace W : WellFormed w'.circ := W
    rw [hrun]
    have X' : Tame (fun _ => False) s.world w' :=
      ⟨X.next, X.heap, X.qregs, X.cregs, fun n hn => Or.inl (by rw [hcirc] at hn; exact hn)⟩
    refine ⟨(F.touched sub).tame (P := fun _ => False) W X' fun _ h => h.elim, touched_name _ _, X.next, X.heap, by simp only [hcirc], by simp only [hcirc], ?_⟩
    intro k q' hk
    show (s.treg.touched sub).find? k = some q'
    rw [F.touched_find]; exact hk

theorem Grown.given {s' : TState} (G : Grown s s') {p : Option Nat} (h : GivenDict s p) : GivenDict s' p := fun r e =>
  ⟨Nat.lt_of_lt_of_le (h r e).1 G.next, (G.heap r (h r e).1).nonneg (h r e).2⟩

theorem FInv.addAll (F : FInv s) (sub : Str) (l : List (Str × Option Nat)) (hp : ∀ e ∈ l, GivenDict s e.2) : FInv (addAll sub l s).2 := by
  induction l generalizing s with
  | nil => exact F
  | cons e l ih =>
    have G := F.addTqubit sub e.1 (hp e (by simp))
    unfold Qtc.addAll
    rw [CM.forEach_cons, CM.bind_run]
    rcases hr : Qtc.addTqubit sub e.1 e.2 s with ⟨err | u, s1⟩
    · rw [hr] at G; exact G.inv
    · rw [hr] at G
      exact ih G.inv fun x hx => G.given (hp x (by simp [hx]))

/-! ### `cx` -/

theorem FInv.start (F : FInv s) : During False s s :=
  ⟨fun h => h.elim, F.syncC, F.syncQ, rfl, rfl, rfl, ⟨[], by simp, by simp⟩, ⟨[], by simp, by simp⟩⟩

theorem FInv.during (F : FInv b) (D : During False b s) (W : WellFormed s.world.circ) : FInv s := by
  obtain ⟨e1, h1, hq⟩ := D.qregs
  obtain ⟨e2, h2, hc⟩ := D.cregs
  have names : ∀ n ∈ s.world.circ.names, n ∈ b.world.circ.names ∨ Helper n := by
    intro n hn
    simp only [Circ.names, h1, h2, List.map_append, List.mem_append] at hn
    rcases hn with (hn | hn) | hn | hn
    · exact Or.inl (List.mem_append_left _ hn)
    · obtain ⟨g, hg, rfl⟩ := List.mem_map.1 hn
      rw [hq g hg]; exact Or.inr (Or.inr rfl)
    · exact Or.inl (List.mem_append_right _ hn)
    · obtain ⟨g, hg, rfl⟩ := List.mem_map.1 hn
      exact Or.inr (Or.inl (hc g hg).1)
  have X : Tame Helper b.world s.world := by
    refine ⟨by rw [D.next], fun k _ => by rw [D.heap]; exact SameSize.refl _, ?_, ?_, names⟩
    · rw [h1]; exact fun r hr => List.mem_append_left _ hr
    · rw [h2]; exact fun r hr => List.mem_append_left _ hr
  refine ⟨W, by rw [D.treg]; exact F.agrees, ?_, ?_, D.syncC, D.syncQ⟩
  · intro k q hk
    rw [D.treg] at hk ⊢
    exact (F.held k q hk).tame X
  · intro i rest hi hm
    rw [D.treg] at hi hm
    rcases names _ hm with hm | hm
    · exact F.free i rest hi hm
    · exact helper_ne hm rfl

theorem FInv.shaped (F : FInv s) {k : Int} {q : TQubit} (h : s.treg.find? k = some q) : Shaped q.lat := by
  obtain ⟨dh, dw, p⟩ := (F.held k q h).placed
  exact p.shaped

theorem FInv.cxBody (F : FInv b) {kc kt ka : Int} {c t a : TQubit} (hc : b.treg.find? kc = some c) (ht : b.treg.find? kt = some t)
    (ha : b.treg.find? ka = some a) : During False b (cxBody c t a b).2 ∧ FInv (cxBody c t a b).2 := by
  obtain ⟨D, -, -⟩ := safe_body (P := False) (b := b) (F.shaped hc) (F.shaped ht) (F.shaped ha) b F.start
  exact ⟨D, F.during D (loose_wf.cxBody b F.wf).1⟩

/-- The qubit `cx` takes as its ancilla. -/
theorem FInv.lastAncilla (F : FInv s) : (∃ (d : Dict Nat TQubit) (k : Nat) (q : TQubit), s.treg.tqubits.get? "ancilla".toList = some d ∧ (k, q) ∈ d ∧
      s.treg.find? k = some q ∧ lastAncilla s = (.ok q, s)) ∨ ∃ e, lastAncilla s = (.error e, s) := by
  obtain ⟨log, tried, A⟩ := F.agrees
  unfold Qtc.lastAncilla
  have hg := A.get "ancilla".toList
  split
  · exact Or.inr ⟨_, rfl⟩
  · rename_i d hd
    split
    · rename_i e he
      left
      rw [hd] at hg
      split at hg
      · have hm := List.mem_of_getLast? he
        refine ⟨d, e.1, e.2, hd, hm, ?_, rfl⟩
        cases hg
        have hm := mem_entriesOf.1 (List.mem_of_getLast? he : (e.1, e.2) ∈ _)
        rw [A.find, if_pos (by omega)]
        simp [hm]
      · cases hg
    · exact Or.inr ⟨_, rfl⟩

/-- The state after the ancilla has been made, if necessary. -/
theorem FInv.ensure (F : FInv s) {kind : Str × Option Nat} (h : GivenDict s kind.2) : Grown s (ensureAncilla kind s).2 := by
  unfold ensureAncilla
  split
  · exact ⟨F, rfl, Nat.le_refl _, fun _ _ => SameSize.refl _, rfl, rfl, fun _ _ h => h⟩
  · exact F.addTqubit _ _ h

/-- How `cx` goes in a fair state. -/
inductive CxWay (s : TState) (kc kt : Int) (c t : TQubit) (r : Py Unit × TState) : Prop
  | stop (e : PyErr) : r.1 = .error e → FInv r.2 → CxWay s kc kt c t r
  | body (kind : Str × Option Nat) (b : TState) (d : Dict Nat TQubit) (ka : Nat) (a : TQubit) : ensureAncilla kind s = (.ok (), b) → Grown s b →
      b.treg.tqubits.get? "ancilla".toList = some d → (ka, a) ∈ d → b.treg.find? ka = some a → r = Qtc.cxBody c t a b → CxWay s kc kt c t r

theorem FInv.cxFound (F : FInv s) {ca ta : QArg} {kc kt : Int} {c t : TQubit} (fc : s.treg.find? kc = some c) (gc : getIndex ca s = (.ok c, s))
    (gt : getIndex ta s = (.ok t, s)) {ctype : Option Str} {p : Option Nat} (hp : GivenDict s p) : CxWay s kc kt c t (cxT ca ta ctype p s) := by
  have main : ∀ kind : Str × Option Nat, GivenDict s kind.2 →
      CxWay s kc kt c t ((getIndex ca >>= fun c => getIndex ta >>= fun t => ensureAncilla kind >>= fun _ => Qtc.lastAncilla >>= fun a => Qtc.cxBody c t a) s) := by
    intro kind hk
    have G := F.ensure hk
    rw [CM.bind_ok gc, CM.bind_ok gt, CM.bind_run]
    rcases he : ensureAncilla kind s with ⟨e | u, b⟩
    · rw [he] at G
      exact .stop e rfl G.inv
    · rw [he] at G
      simp only
      rcases G.inv.lastAncilla with ⟨d, k, a, hd, hm, hf, hr⟩ | ⟨e, hr⟩
      · rw [CM.bind_ok hr]
        exact .body kind b d k a he G hd hm hf rfl
      · rw [CM.bind_error hr]
        exact .stop e rfl G.inv
  rw [cxT_eq]
  unfold ancillaKind
  match ctype, p, hp with
  | some k, some p, hp => exact main (k, some p) hp
  | some k, none, hp => exact .stop _ rfl F
  | none, some p, hp => exact .stop _ rfl F
  | none, none, hp =>
    have e : (getIndex ca >>= fun q => pure (q.cls.ctype, some q.lat.pref) : TM (Str × Option Nat)) s = (.ok (c.cls.ctype, some c.lat.pref), s) := by
      rw [CM.bind_ok gc]; rfl
    simp only
    rw [CM.bind_ok e]
    refine main (c.cls.ctype, some c.lat.pref) fun r hr => ?_
    cases hr
    exact ⟨(F.held kc c fc).ref, (F.held kc c fc).nonneg⟩

theorem FInv.cx (F : FInv s) {ca ta : QArg} {ctype : Option Str} {p : Option Nat} (hc : Inside s ca) (ht : Inside s ta) (hp : GivenDict s p) :
    FInv (cxT ca ta ctype p s).2 := by
  have stop : ∀ {kind : TM (Str × Option Nat)} {f : Str × Option Nat → TM Unit}, (∀ k, (f k s).2 = s) → (kind s).2 = s → FInv ((kind >>= f) s).2 := by
    intro kind f hf hk
    rw [CM.bind_run]
    rcases hr : kind s with ⟨e | k, s1⟩
    · rw [hr] at hk; replace hk : s1 = s := hk; subst hk; exact F
    · rw [hr] at hk; replace hk : s1 = s := hk; subst hk
      show FInv (f k s1).2
      rw [hf]; exact F
  have kind2 : (ancillaKind ca ctype p s).2 = s := by
    unfold ancillaKind
    split
    · rfl
    · rcases getIndex_inside hc with ⟨k, q, -, h⟩ | h
      · rw [CM.bind_ok h]; rfl
      · rw [CM.bind_error h]
    · rfl
  rcases getIndex_inside hc with ⟨kc, qc, fc, gc⟩ | gc
  swap
  · rw [cxT_eq]
    exact stop (fun k => by rw [CM.bind_error gc]) kind2
  rcases getIndex_inside ht with ⟨kt, qt, ft, gt⟩ | gt
  swap
  · rw [cxT_eq]
    exact stop (fun k => by rw [CM.bind_ok gc, CM.bind_error gt]) kind2
  rcases F.cxFound (kt := kt) fc gc gt (ctype := ctype) hp with ⟨e, -, h⟩ | ⟨kind, b, d, ka, a, -, G, -, -, hf, hr⟩
  · exact h
  · rw [hr]
    exact (G.inv.cxBody (G.keep _ _ fc) (G.keep _ _ ft) hf).2

/-! ### Everything -/

theorem FInv.fresh {name : Str} {w : World} (h : FreshFor name w) : FInv (TState.fresh name w) := by
  obtain ⟨W, hn⟩ := h
  refine ⟨W, ⟨[], [], (Log.start rfl).agrees⟩, fun _ _ h => (by cases h), ?_, ?_, ?_⟩
  · intro i rest _ hm
    exact (hn _ hm).1 (reserved_iff.2 ⟨i, rest, rfl⟩)
  · intro x hx
    exact Or.inl ⟨rfl, fun hm => (hn _ hm).2.1 hx⟩
  · exact Or.inl ⟨rfl, fun hm => (hn _ hm).2.2 rfl⟩

theorem FInv.setC (F : FInv s) {x : Str} {r : Reg} (hx : x ∉ helperC) : FInv { s with creg := s.creg.set x r } := by
  refine ⟨F.wf, F.agrees, F.held, F.free, ?_, F.syncQ⟩
  intro y hy
  have : y ≠ x := by rintro rfl; exact hx hy
  simp only [Dict.get?_set_ne _ _ this]
  exact F.syncC y hy

theorem FInv.setQ (F : FInv s) {x : Str} {r : Reg} (hx : x ≠ helperQ) : FInv { s with qreg := s.qreg.set x r } := by
  refine ⟨F.wf, F.agrees, F.held, F.free, F.syncC, ?_⟩
  simp only [Dict.get?_set_ne _ _ hx.symm]
  exact F.syncQ

theorem FInv.step (F : FInv s) {o : TOp} (h : Fair s o) : FInv (o.run s).2 := by
  have other : ∀ {n x : Str}, ¬ Reserved s.treg.name x → x ∉ helperC → x ≠ helperQ → n = x →
      ¬ Helper n ∧ ∀ i rest, s.treg.n ≤ i → n ≠ qname s.treg.name i ++ '_' :: rest := by
    rintro n x h1 h2 h3 rfl
    exact ⟨fun h => h.elim h2 h3, fun i rest _ e => h1 (reserved_iff.2 ⟨i, rest, e⟩)⟩
  cases o with
  | addQubits sub cs ps =>
    show FInv (addTqubits sub cs ps s).2
    unfold addTqubits
    split
    · exact F
    · split
      · exact F
      · exact F.addAll sub _ fun e he => h _ (List.of_mem_zip he).2
  | addQubit sub c p => exact (F.addTqubit sub c h).inv
  | on a o =>
    show FInv (onQubit a o s).2
    unfold onQubit
    rcases getIndex_inside h with ⟨k, q, hk, hr⟩ | hr
    · rw [CM.bind_ok hr]; exact F.op hk o
    · rw [CM.bind_error hr]; exact F
  | cx c t k p => exact F.cx h.1 h.2.1 h.2.2
  | addCreg n x b =>
    obtain ⟨h1, h2, h3⟩ := h
    show FInv (addCregT n x b s).2
    unfold addCregT
    split
    · exact F
    · split
      · exact F
      · rename_i r hr
        have hx : r.name = x := by rw [(newReg_eq_ok hr).2]
        exact (F.setC (r := r) h2).tame (P := fun n => n = x) (keepsWF_addCreg s.world F.wf) (tame_addCreg hx s.world) fun n => other h1 h2 h3
  | addQreg n x b =>
    obtain ⟨h1, h2, h3⟩ := h
    show FInv (addQregT n x b s).2
    unfold addQregT
    split
    · exact F
    · split
      · exact F
      · rename_i r hr
        have hx : r.name = x := by rw [(newReg_eq_ok hr).2]
        exact (F.setQ (r := r) h3).tame (P := fun n => n = x) (keepsWF_addQreg s.world F.wf) (tame_addQreg hx s.world) fun n => other h1 h2 h3

theorem FInv.runOps (F : FInv s) {l : List TOp} (h : FairRun l s) : FInv (runOps l s) := by
  induction l generalizing s with
  | nil => exact F
  | cons o l ih => exact ih (F.step h.1) h.2

theorem Spec.FairState.inv (h : FairState s) : FInv s := by
  obtain ⟨name, w, ops, hf, hr, rfl⟩ := h
  exact (FInv.fresh hf).runOps hr

end Qtc
