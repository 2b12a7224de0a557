import Verif.Proof.TCnot
/-!
When `cx` raises.
-/
namespace Qtc
open Spec

variable {s b : TState} {c t a : TQubit} {ch cw th tw ah aw dh dw : Int} {w : World}

/-- From lattices whose logical Z can be read, the body of `cx` does not raise. -/
theorem cxBody_ok (R : HelperReady b) (Pc : Placed c.lat ch cw b.world) (Pt : Placed t.lat th tw b.world) (Pa : Placed a.lat ah aw b.world)
    (oc : Outside c.lat.name ⟨helperQ, 0⟩) (ot : Outside t.lat.name ⟨helperQ, 0⟩) (oa : Outside a.lat.name ⟨helperQ, 0⟩)
    (hc : Wide c cw) (ha : Wide a aw) : (cxBody c t a b).1 = .ok () := by
  have hsmall : 1 < ah * aw ∨ a.lat.code = .xxzz := by
    refine ha.imp_left fun h => ?_
    have H := Pa.odd
    unfold OddPos at H
    nlinarith
  obtain ⟨b', g1, o, hC, hQ⟩ := prepareCx_goes R Pa hsmall
  have S : Stage b' c t a ch cw th tw ah aw := ⟨o.placed _ _ _ Pc, o.placed _ _ _ Pt, o.placed _ _ _ Pa, hC, hQ, oc, ot, oa⟩
  have g := g1.bind (f := fun r => (do measureZZ c a r; measureXX t a r; correctCx c t a)) ((measureZZ_goes S hc ha).bind (f := fun _ => _)
    ((measureXX_goes S).bind (f := fun _ => _) (correctCx_goes S ha)))
  have e := g []
  rw [TState.emit_nil] at e
  have e : cxBody c t a b = _ := e
  rw [e]

theorem rotatedSize_tup (a b : Int) (rest : List Num) :
    rotatedSize (some (.tup (.int a :: .int b :: rest))) = .ok (a :: b :: rest.map Num.toInt, a, b) := rfl

theorem rotatedValidate_again {p : Params} (h : p.Dims dh dw) (H : OddPos dh dw) : ∃ p', rotatedValidate p = .ok p' ∧ Validated p' dh dw := by
  obtain ⟨⟨rest, hd⟩, -, -⟩ := h
  unfold OddPos at H
  refine ⟨{ p with
      d := some (.tup ((dh :: dw :: rest.map Num.toInt).map .int))
      T := some (-1)
      numReadout := some (-1)
      numLatticeReadout := some (-1)
      numData := some (dh * dw)
      numSyn := some (numSynX dh dw, numSynZ dh dw) }, ?_, ⟨(rest.map Num.toInt).map Num.int, rfl⟩, H.2.1, H.2.2.2, rfl, rfl, rfl, rfl, rfl⟩
  unfold rotatedValidate
  rw [hd, rotatedSize_tup]
  simp only [bind, Except.bind, fmod_pos_eq _ (show (0 : Int) ≤ 2 by decide)]
  rw [if_neg (by omega)]
  rfl

theorem repValidate_again {p : Params} (h : p.RepFits) : ∃ p', repValidate p = .ok p' := by
  obtain ⟨l, n, hd, hl, h1⟩ := h
  unfold repValidate
  simp only [hd, bind, Except.bind, pure, Except.pure]
  cases hp : p.pfp.getD false <;> rw [hp] at hl
  · have : pyIdx l 1 = .ok n := pyIdx_nat (by omega) hl
    rw [this]
    simp only [h1, Bool.not_false, Bool.not_true, if_true, if_false, Bool.false_eq_true]
    exact ⟨_, rfl⟩
  · have : pyIdx l 0 = .ok n := pyIdx_nat (by omega) hl
    rw [this]
    simp only [h1, Bool.not_true, if_false, Bool.false_eq_true]
    exact ⟨_, rfl⟩

/-- A second qubit of the same class can be made from the dictionary of a qubit. -/
theorem newQubit_again {cls : QClass} {r : Nat} {name : Str} (hd : (w.heap r).Dims dh dw) (H : OddPos dh dw) (hr : cls = .rep → (w.heap r).RepFits)
    (hf : ∀ rest, name ++ '_' :: rest ∉ w.circ.names) :
    ∃ w', newQubit cls (some r) name w = (.ok ⟨cls, mkLattice cls.code dh dw name r⟩, w') := by
  have hne : (w.heap r).isEmpty = false := by
    obtain ⟨⟨rest, hd⟩, -⟩ := hd
    unfold Params.isEmpty
    rw [hd]; rfl
  have hdict : dictOrNew (some r) w = (.ok r, w) := by unfold dictOrNew; simp [hne]
  have main : ∀ w2 : World, w2.circ = w.circ → (w2.heap r).Dims dh dw →
      ∃ w', newLattice cls.code name r w2 = (.ok (mkLattice cls.code dh dw name r), w') := by
    intro w2 hc hd2
    obtain ⟨p, hp, V⟩ := rotatedValidate_again hd2 H
    have H' := H
    unfold OddPos at H'
    exact ⟨_, newLattice_ok hp V (by omega) (by omega) (by
      intro g hg
      obtain ⟨rest, e⟩ := ownQreg_reserved (qregs_ownQreg hg)
      rw [hc, e]
      exact hf rest)⟩
  unfold newQubit
  rw [CM.bind_ok hdict]
  by_cases hcls : cls = .rep
  · obtain ⟨p, hp⟩ := repValidate_again (hr hcls)
    have hch := checkRep_valid hcls hp
    rw [CM.bind_ok hch]
    obtain ⟨w', hw⟩ := main (w.setP r p) rfl (by
      rw [World.setP_heap_self]
      exact (repValidate_sameSize hp).dims dh dw hd)
    exact ⟨w', by rw [CM.bind_ok hw]; rfl⟩
  · rw [CM.bind_ok (checkRep_not hcls r)]
    obtain ⟨w', hw⟩ := main w rfl hd
    exact ⟨w', by rw [CM.bind_ok hw]; rfl⟩

theorem Placed.of_size {L : Lattice} (P : Placed L dh dw w) {h v : Int} {rest : List Num} (hd : (w.heap L.pref).d = some (.tup (.int h :: .int v :: rest))) :
    h = dh ∧ v = dw := by
  obtain ⟨rest', hd'⟩ := P.d
  rw [hd] at hd'
  simp only [Option.some.injEq, DVal.tup.injEq, List.cons.injEq, Num.int.injEq] at hd'
  exact ⟨hd'.1, hd'.2.1⟩

/-- The default ancilla can always be made. -/
theorem FInv.ensure_default (F : FInv s) {k : Int} {c : TQubit} (fc : s.treg.find? k = some c) (hn : s.treg.tqubits.get? "ancilla".toList = none)
    (Pc : Placed c.lat ch cw s.world) : ∃ b, ensureAncilla (c.cls.ctype, some c.lat.pref) s = (.ok (), b) ∧
      b.treg.tqubits.get? "ancilla".toList = some [(s.treg.n, ⟨c.cls, mkLattice c.cls.code ch cw s.treg.qubitName c.lat.pref⟩)] := by
  obtain ⟨w', hw⟩ := newQubit_again (cls := c.cls) (name := s.treg.qubitName) Pc.dims Pc.odd (F.held k c fc).rep
    fun rest => F.free _ rest (Nat.le_refl _)
  unfold ensureAncilla
  rw [hn]
  simp only
  rcases addTqubit_run "ancilla".toList c.cls.ctype (some c.lat.pref) s with ⟨h, -⟩ | ⟨cls, hc, h⟩
  · rw [str2qtype_ctype] at h; cases h
  rw [str2qtype_ctype] at hc
  cases hc
  rw [hw] at h
  rcases h with ⟨q, w, hq, h⟩ | ⟨e, w, hq, -⟩
  swap
  · cases hq
  cases hq
  refine ⟨_, h, ?_⟩
  show Dict.get? (Dict.set _ _ _) _ = _
  rw [Dict.get?_set_self, touched_get, hn, touched_n]
  rfl

theorem outside_helper {R : Str} {q : TQubit} {k : Nat} (h : q.lat.name = qname R k) : Outside q.lat.name ⟨helperQ, 0⟩ := by
  intro y e
  rw [h] at e
  exact helper_ne (Or.inr rfl) e

theorem lastAncilla_of {d : Dict Nat TQubit} {e : Nat × TQubit} (hd : s.treg.tqubits.get? "ancilla".toList = some d) (he : d.getLast? = some e) :
    lastAncilla s = (.ok e.2, s) := by
  unfold lastAncilla
  simp only [hd, he]

/-- The body of `cx` raises if and only if a logical Z cannot be read. -/
theorem FInv.cxBody_iff (F : FInv b) {kc kt ka : Int} (hc : b.treg.find? kc = some c) (ht : b.treg.find? kt = some t) (ha : b.treg.find? ka = some a)
    (Pc : Placed c.lat ch cw b.world) (Pa : Placed a.lat ah aw b.world) : (Qtc.cxBody c t a b).1 = .ok () ↔ Wide c cw ∧ Wide a aw := by
  obtain ⟨th, tw, Pt⟩ := (F.held _ _ ht).placed
  have oc := outside_helper (F.held _ _ hc).name
  have ot := outside_helper (F.held _ _ ht).name
  have oa := outside_helper (F.held _ _ ha).name
  constructor
  · intro h
    rcases hr : Qtc.cxBody c t a b with ⟨r, s'⟩
    rw [hr] at h
    replace h : r = .ok () := h
    subst h
    have := cxBody_closed F.ready Pc Pt Pa oc ot oa hr
    exact ⟨this.1, this.2.1⟩
  · rintro ⟨h1, h2⟩
    exact cxBody_ok F.ready Pc Pt Pa oc ot oa h1 h2

end Qtc
