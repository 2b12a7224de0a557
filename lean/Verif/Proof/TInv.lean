import Verif.Proof.TNames
/-!
The invariant of sane histories.
-/
namespace Qtc
open Spec

variable {s : TState} {w' : World}

/-- The invariant. -/
structure TInv (s : TState) : Prop where
  wf : WellFormed s.world.circ
  agrees : ∃ log tried, Agrees s.treg.name s.treg log tried
  held : ∀ k q, s.treg.find? k = some q → q.lat.name = qname s.treg.name k.toNat ∧ q.lat.code = q.cls.code ∧
    ∃ dh dw t, Own q.lat dh dw t s.world
  ref : ∀ k q, s.treg.find? k = some q → q.lat.pref < s.world.next
  sep : ∀ k q j q', s.treg.find? k = some q → s.treg.find? j = some q' → k ≠ j → q.lat.pref ≠ q'.lat.pref
  free : ∀ i rest, s.treg.n ≤ i → qname s.treg.name i ++ '_' :: rest ∉ s.world.circ.names
  syncC : ∀ h ∈ helperC, (s.creg.get? h = none ∧ h ∉ s.world.circ.names) ∨ (s.creg.get? h = some ⟨h, 1⟩ ∧ ⟨h, 1⟩ ∈ s.world.circ.cregs)
  syncQ : (s.qreg.get? helperQ = none ∧ helperQ ∉ s.world.circ.names) ∨
    (s.qreg.get? helperQ = some ⟨helperQ, 1⟩ ∧ ⟨helperQ, 1⟩ ∈ s.world.circ.qregs)

theorem TInv.find_range (T : TInv s) {k : Int} {q : TQubit} (h : s.treg.find? k = some q) : 0 ≤ k ∧ k.toNat < s.treg.n := by
  obtain ⟨log, tried, A⟩ := T.agrees
  rw [A.find] at h
  split at h
  · rename_i h0
    rw [A.n]
    refine ⟨h0, ?_⟩
    cases hl : log[k.toNat]? with
    | none => rw [hl] at h; cases h
    | some e => exact (List.getElem?_eq_some_iff.1 hl).1
  · cases h

/-- A change of the physical circuit. -/
structure Ext (P : Str → Prop) (w w' : World) : Prop where
  wf : WellFormed w'.circ
  qregs : ∀ r ∈ w.circ.qregs, r ∈ w'.circ.qregs
  cregs : ∀ r ∈ w.circ.cregs, r ∈ w'.circ.cregs
  next : w.next ≤ w'.next
  names : ∀ s ∈ w'.circ.names, s ∈ w.circ.names ∨ P s

theorem TInv.ext (T : TInv s) {P : Str → Prop} (X : Ext P s.world w') (hP : ∀ n, P n → ¬ Helper n ∧ ∀ i rest, s.treg.n ≤ i → n ≠ qname s.treg.name i ++ '_' :: rest)
    (hO : ∀ k q, s.treg.find? k = some q → ∃ dh dw t, Own q.lat dh dw t w') : TInv { s with world := w' } := by
  refine ⟨X.wf, T.agrees, fun k q h => ⟨(T.held k q h).1, (T.held k q h).2.1, hO k q h⟩, ?_, T.sep, ?_, ?_, ?_⟩
  · intro k q h
    exact Nat.lt_of_lt_of_le (T.ref k q h) X.next
  · intro i rest hi hm
    rcases X.names _ hm with hm | hm
    · exact T.free i rest hi hm
    · exact (hP _ hm).2 i rest hi rfl
  · intro h hh
    rcases T.syncC h hh with ⟨h1, h2⟩ | ⟨h1, h2⟩
    · refine Or.inl ⟨h1, fun hm => ?_⟩
      rcases X.names _ hm with hm | hm
      · exact h2 hm
      · exact (hP _ hm).1 (Or.inl hh)
    · exact Or.inr ⟨h1, X.cregs _ h2⟩
  · rcases T.syncQ with ⟨h1, h2⟩ | ⟨h1, h2⟩
    · refine Or.inl ⟨h1, fun hm => ?_⟩
      rcases X.names _ hm with hm | hm
      · exact h2 hm
      · exact (hP _ hm).1 (Or.inr rfl)
    · exact Or.inr ⟨h1, X.qregs _ h2⟩

/-- Adding instructions only. -/
theorem TInv.adds (T : TInv s) {A : Instr → Prop} (h : Adds A s.world w') : TInv { s with world := w' } := by
  refine T.ext (P := fun _ => False) ⟨h.wellFormed T.wf, ?_, ?_, ?_, ?_⟩ (fun _ h => h.elim) ?_
  · rw [h.qregs]; exact fun r hr => hr
  · rw [h.cregs]; exact fun r hr => hr
  · rw [h.next]
  · rw [h.names]; exact fun _ h => Or.inl h
  · intro k q hk
    obtain ⟨-, -, dh, dw, t, O⟩ := T.held k q hk
    exact ⟨dh, dw, t, h.own O⟩

/-- An operation of a qubit of the register. -/
theorem TInv.op (T : TInv s) {k : Int} {q : TQubit} (hk : s.treg.find? k = some q) (o : QOp) :
    TInv { s with world := (q.op o s.world).2 } ∧ (q.op o s.world).1 ≠ .error .nameTaken ∧ Steps q.lat (q.mayAdd o) s.world (q.op o s.world).2 := by
  obtain ⟨hname, hcode, dh, dw, t, O⟩ := T.held k q hk
  have F := fine o T.wf O
  obtain ⟨extra, hex, hown⟩ := F.steps.cregs
  refine ⟨?_, F.name, F.steps⟩
  have names : ∀ n ∈ (q.op o s.world).2.circ.names, n ∈ s.world.circ.names ∨ OwnCreg q.lat.name n := by
    intro n hn
    simp only [Circ.names, F.steps.qregs, hex, List.map_append, List.mem_append] at hn
    rcases hn with hn | hn | hn
    · exact Or.inl (List.mem_append_left _ hn)
    · exact Or.inl (List.mem_append_right _ hn)
    · obtain ⟨r, hr, rfl⟩ := List.mem_map.1 hn
      exact Or.inr (hown r hr)
  refine T.ext (P := OwnCreg q.lat.name) ⟨F.wf, ?_, ?_, ?_, names⟩ ?_ ?_
  · rw [F.steps.qregs]; exact fun r hr => hr
  · rw [hex]; exact fun r hr => List.mem_append_left _ hr
  · rw [F.steps.next]
  · intro n hn
    obtain ⟨x, rfl⟩ := ownCreg_reserved hn
    rw [hname]
    refine ⟨fun h => helper_ne h rfl, fun i rest hi e => ?_⟩
    have := (qname_inj e).1
    have := (T.find_range hk).2
    omega
  · intro j q' hj
    by_cases e : j = k
    · subst e
      rw [hk] at hj
      cases hj
      exact ⟨dh, dw, _, F.own⟩
    · obtain ⟨hname', -, dh', dw', t', O'⟩ := T.held j q' hj
      refine ⟨dh', dw', t', O'.frame (F.steps.heap _ (T.sep j q' k q hj hk e)) (by rw [F.steps.qregs]; exact fun r hr => hr) ?_⟩
      intro n hn hm
      rcases names n hm with hm | hm
      · exact hm
      · rw [hname'] at hn
        rw [hname] at hm
        have := ownCreg_inj hn hm
        have h1 := T.find_range hk
        have h2 := T.find_range hj
        omega

/-- Adding a register with a name of its own. -/
theorem TInv.newName (T : TInv s) {n : Str} (hw : WellFormed w'.circ) (hh : w'.heap = s.world.heap) (hnext : w'.next = s.world.next)
    (hq : ∀ r ∈ s.world.circ.qregs, r ∈ w'.circ.qregs) (hc : ∀ r ∈ s.world.circ.cregs, r ∈ w'.circ.cregs)
    (hm : ∀ x ∈ w'.circ.names, x ∈ s.world.circ.names ∨ x = n) (h1 : ¬ Reserved s.treg.name n) (h2 : ¬ Helper n) :
    TInv { s with world := w' } := by
  refine T.ext (P := fun x => x = n) ⟨hw, hq, hc, by rw [hnext], hm⟩ ?_ ?_
  · rintro x rfl
    exact ⟨h2, fun i rest _ e => h1 (reserved_iff.2 ⟨i, rest, e⟩)⟩
  · intro k q hk
    obtain ⟨hname, -, dh, dw, t, O⟩ := T.held k q hk
    refine ⟨dh, dw, t, O.frame (by rw [hh]) hq ?_⟩
    intro x hx hxm
    rcases hm x hxm with hxm | rfl
    · exact hxm
    · exfalso
      obtain ⟨rest, e⟩ := ownCreg_reserved hx
      rw [hname] at e
      exact h1 (reserved_iff.2 ⟨_, rest, e⟩)

/-! ### Additions -/

theorem touched_find (T : TInv s) (sub : Str) (k : Int) : (s.treg.touched sub).find? k = s.treg.find? k := by
  obtain ⟨log, tried, A⟩ := T.agrees
  rw [A.find, (A.touched sub).find]

theorem TInv.touched (T : TInv s) (sub : Str) : TInv { s with treg := s.treg.touched sub } := by
  obtain ⟨log, tried, A⟩ := T.agrees
  have hf := touched_find T sub
  refine ⟨T.wf, ⟨log, tried ++ [sub], ?_⟩, ?_, ?_, ?_, ?_, T.syncC, T.syncQ⟩
  · have := A.touched sub
    rw [← touched_name s.treg sub] at this
    exact this
  · intro k q h
    simp only [hf] at h
    simp only [touched_name]
    exact T.held k q h
  · intro k q h
    simp only [hf] at h
    exact T.ref k q h
  · intro k q j q' h h'
    simp only [hf] at h h'
    exact T.sep k q j q' h h'
  · simp only [touched_name, touched_n]
    exact T.free

theorem stored_find (T : TInv s) (sub : Str) (q : TQubit) (p : Option Nat) (k : Int) :
    ((s.treg.touched sub).stored sub q p).find? k = if k = s.treg.n then some q else s.treg.find? k := by
  obtain ⟨log, tried, A⟩ := T.agrees
  have hn := A.n
  rw [A.find, ((A.touched sub).stored (by simp) q p).find]
  split
  · rename_i h0
    split
    · rename_i hk
      rw [List.getElem?_append_right (by omega), show k.toNat - log.length = 0 by omega]
      rfl
    · rename_i hk
      by_cases hlt : k.toNat < log.length
      · rw [List.getElem?_append_left hlt]
      · rw [List.getElem?_eq_none (by rw [List.length_append, List.length_singleton]; omega), List.getElem?_eq_none (by omega)]
  · rw [if_neg (by omega)]

/-- What `add_tqubit` does in a sane state. -/
theorem TInv.addTqubit (T : TInv s) (sub ctype : Str) {p : Option Nat} (hp : OwnDict s p) :
    TInv (addTqubit sub ctype p s).2 ∧ (addTqubit sub ctype p s).1 ≠ .error .nameTaken ∧
      (∀ k, p ≠ some k → k < s.world.next → (addTqubit sub ctype p s).2.world.heap k = s.world.heap k) ∧
      s.world.next ≤ (addTqubit sub ctype p s).2.world.next ∧
      (addTqubit sub ctype p s).2.world.circ.instrs = s.world.circ.instrs ∧
      (addTqubit sub ctype p s).2.world.circ.cregs = s.world.circ.cregs ∧
      (∀ k q, s.treg.find? k = some q → (addTqubit sub ctype p s).2.treg.find? k = some q) ∧
      (∀ k q, (addTqubit sub ctype p s).2.treg.find? k = some q → s.treg.find? k = some q ∨ k = s.treg.n ∧ (p = some q.lat.pref ∨ s.world.next ≤ q.lat.pref)) := by
  rcases addTqubit_run sub ctype p s with ⟨-, hr⟩ | ⟨cls, hc, h⟩
  · rw [hr]
    refine ⟨T.touched sub, fun e => (by cases e), fun _ _ _ => rfl, Nat.le_refl _, rfl, rfl, ?_, ?_⟩
    · intro k q h
      show (s.treg.touched sub).find? k = some q
      rw [touched_find T]; exact h
    · intro k q h
      have h : (s.treg.touched sub).find? k = some q := h
      rw [touched_find T] at h; exact Or.inl h
  · have hfree : ∀ rest, s.treg.qubitName ++ '_' :: rest ∉ s.world.circ.names := fun rest => T.free _ rest (Nat.le_refl _)
    obtain ⟨r, w', hor, hr, hn, hh, ho⟩ := newQubit_outcome (cls := cls) (params := p) (name := s.treg.qubitName) (w := s.world)
      (fun r e => ⟨(hp r e).1, (hp r e).2.1⟩) hfree
    have hheap : ∀ k, p ≠ some k → k < s.world.next → w'.heap k = s.world.heap k := by
      intro k hk hlt
      refine hh k ?_
      rintro rfl
      rcases hor with e | e
      · exact hk e
      · omega
    have hsep : ∀ k q, s.treg.find? k = some q → q.lat.pref ≠ r := by
      intro k q hk
      rcases hor with e | e
      · exact (hp r e).2.2 k q hk
      · have := T.ref k q hk; omega
    rcases ho with ⟨q, dh, dw, hq, B, hname, hpref, hcls⟩ | ⟨e, hq, hne, hcirc⟩
    · -- made
      rcases h with ⟨q', w'', hq', hrun⟩ | ⟨e, w'', hq', -⟩
      swap
      · rw [hq] at hq'; cases hq'
      rw [hq] at hq'
      cases hq'
      obtain ⟨W', O'⟩ := B.own T.wf (by
        intro x hx
        obtain ⟨rest, rfl⟩ := ownCreg_reserved hx
        rw [hname]; exact hfree rest)
      obtain ⟨H, hL, ⟨pp, w1, hc1, hw', V, -, -⟩, hnq, -⟩ := B.inv
      have hqr : w'.circ.qregs = s.world.circ.qregs ++ q.lat.qregs := by
        rw [hw', World.addQs_qregs]; show w1.circ.qregs ++ _ = _; rw [hc1]
      have hcr : w'.circ.cregs = s.world.circ.cregs := by rw [hw', World.addQs_cregs]; show w1.circ.cregs = _; rw [hc1]
      have hir : w'.circ.instrs = s.world.circ.instrs := by rw [hw', World.addQs_instrs]; show w1.circ.instrs = _; rw [hc1]
      have hqn : ∀ g ∈ q.lat.qregs, OwnQreg (qname s.treg.name s.treg.n) g.name := by
        intro g hg
        rw [hL] at hg
        rw [← qubitName_eq, ← hname]
        exact qregs_ownQreg hg
      have hnames : ∀ n ∈ w'.circ.names, n ∈ s.world.circ.names ∨ ∃ rest, n = qname s.treg.name s.treg.n ++ '_' :: rest := by
        intro n hn
        simp only [Circ.names, hqr, hcr, List.map_append, List.mem_append] at hn
        rcases hn with (hn | hn) | hn
        · exact Or.inl (List.mem_append_left _ hn)
        · obtain ⟨g, hg, rfl⟩ := List.mem_map.1 hn
          exact Or.inr (ownQreg_reserved (hqn g hg))
        · exact Or.inl (List.mem_append_right _ hn)
      have Tt := T.touched sub
      have hfind := stored_find T sub q p
      rw [hrun]
      have hst : ((s.treg.touched sub).stored sub q p).name = s.treg.name := touched_name _ _
      have hsn : ((s.treg.touched sub).stored sub q p).n = s.treg.n + 1 := congrArg (· + 1) (touched_n s.treg sub)
      refine ⟨?_, fun e => (by cases e), hheap, hn, hir, hcr, ?_, ?_⟩
      · obtain ⟨log, tried, A⟩ := T.agrees
        have A' := (A.touched sub).stored (sub := sub) (by simp) q p
        rw [← hst] at A'
        refine ⟨W', ⟨_, _, A'⟩, ?_, ?_, ?_, ?_, ?_, ?_⟩
        · intro k q' hk
          simp only [hfind] at hk
          simp only [hst]
          split at hk
          · rename_i hkn
            cases hk
            refine ⟨?_, by rw [B.name_eq, hcls], dh, dw, -1, O'⟩
            rw [hname, qubitName_eq, hkn]; rfl
          · rename_i hkn
            obtain ⟨h1, h2, dh', dw', t', O⟩ := T.held k q' hk
            refine ⟨h1, h2, dh', dw', t', O.frame ?_ ?_ ?_⟩
            · exact hh _ (hsep k q' hk)
            · rw [hqr]; exact fun g hg => List.mem_append_left _ hg
            · intro n hn hm
              rcases hnames n hm with hm | ⟨rest, hm⟩
              · exact hm
              · exfalso
                obtain ⟨rest', e⟩ := ownCreg_reserved hn
                rw [h1, hm] at e
                have := (qname_inj e).1
                have := T.find_range hk
                omega
        · intro k q' hk
          simp only [hfind] at hk
          split at hk
          · cases hk; rw [hpref]; exact hr
          · exact Nat.lt_of_lt_of_le (T.ref k q' hk) hn
        · intro k q1 j q2 h1 h2 hkj
          simp only [hfind] at h1 h2
          split at h1 <;> split at h2
          · omega
          · cases h1
            rw [hpref]
            exact (hsep j q2 h2).symm
          · cases h2
            rw [hpref]
            exact hsep k q1 h1
          · exact T.sep k q1 j q2 h1 h2 hkj
        · intro i rest hi hm
          simp only [hst, hsn] at hi hm
          rcases hnames _ hm with hm | ⟨rest', hm⟩
          · exact T.free i rest (by omega) hm
          · have := (qname_inj hm).1
            omega
        · intro x hx
          rcases T.syncC x hx with ⟨h1, h2⟩ | ⟨h1, h2⟩
          · refine Or.inl ⟨h1, fun hm => ?_⟩
            rcases hnames _ hm with hm | ⟨rest', hm⟩
            · exact h2 hm
            · exact helper_ne (Or.inl hx) hm
          · exact Or.inr ⟨h1, by simp only [hcr]; exact h2⟩
        · rcases T.syncQ with ⟨h1, h2⟩ | ⟨h1, h2⟩
          · refine Or.inl ⟨h1, fun hm => ?_⟩
            rcases hnames _ hm with hm | ⟨rest', hm⟩
            · exact h2 hm
            · exact helper_ne (Or.inr rfl) hm
          · exact Or.inr ⟨h1, by simp only [hqr]; exact List.mem_append_left _ h2⟩
      · intro k q' hk
        simp only [hfind]
        rw [if_neg]
        · exact hk
        · have := T.find_range hk; omega
      · intro k q' hk
        simp only [hfind] at hk
        split at hk
        · rename_i hkn
          cases hk
          refine Or.inr ⟨hkn, ?_⟩
          rw [hpref]
          rcases hor with e | e
          · exact Or.inl e
          · exact Or.inr (by omega)
        · exact Or.inl hk
    · -- not made
      rcases h with ⟨q', w'', hq', -⟩ | ⟨e', w'', hq', hrun⟩
      · rw [hq] at hq'; cases hq'
      rw [hq] at hq'
      cases hq'
      rw [hrun]
      have Tt := T.touched sub
      have hfind := touched_find T sub
      refine ⟨?_, fun e' => hne (by cases e'; rfl), hheap, hn, by simp only [hcirc], by simp only [hcirc], ?_, ?_⟩
      · refine Tt.ext (P := fun _ => False) ⟨by rw [hcirc]; exact T.wf, by rw [hcirc]; exact fun _ h => h, by rw [hcirc]; exact fun _ h => h, hn,
          by rw [hcirc]; exact fun _ h => Or.inl h⟩ (fun _ h => h.elim) ?_
        intro k q' hk
        have hk : (s.treg.touched sub).find? k = some q' := hk
        rw [hfind] at hk
        obtain ⟨h1, h2, dh', dw', t', O⟩ := T.held k q' hk
        exact ⟨dh', dw', t', O.frame (hh _ (hsep k q' hk)) (by rw [hcirc]; exact fun _ h => h) (by rw [hcirc]; exact fun _ _ h => h)⟩
      · intro k q' hk
        simp only [hfind]; exact hk
      · intro k q' hk
        simp only [hfind] at hk
        exact Or.inl hk

end Qtc
