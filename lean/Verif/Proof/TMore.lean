import Verif.Proof.TRun
import Mathlib.Tactic.Ring
/-!
Lattices of any size, and the default ancilla of `cx`.
-/
namespace Qtc
open Spec

variable {L : Lattice} {w w' : World} {s : TState}

theorem cornerQubit_reg {data : Reg} {c : Option Int} {q : Qubit} (h : cornerQubit data c = .ok (some q)) : q.reg = data.name := by
  cases c with
  | none => cases h
  | some i =>
    have h : (data.at i >>= fun q => pure (some q)) = Except.ok (some q) := h
    cases hq : data.at i with
    | error e => rw [hq] at h; cases h
    | ok q' =>
      rw [hq] at h
      cases h
      exact (Reg.mem_qubits.1 (pyIdx_mem hq)).1

theorem qplaq_reg {data : Reg} {syns : Option Reg} {p : Plaq} {x : QPlaq} (h : qplaq data syns p = .ok x) :
    (∃ r, syns = some r ∧ x.syn.reg = r.name) ∧ ∀ q, some q ∈ [x.tl, x.tr, x.bl, x.br] → q.reg = data.name := by
  unfold qplaq at h
  cases hk : key syns with
  | error e => rw [hk] at h; cases h
  | ok r =>
    rw [hk] at h
    have h : (r.at p.syn >>= fun syn => cornerQubit data p.tl >>= fun tl => cornerQubit data p.tr >>= fun tr => cornerQubit data p.bl >>= fun bl =>
      cornerQubit data p.br >>= fun br => pure ({ syn, tl, tr, bl, br } : QPlaq)) = .ok x := h
    cases h1 : r.at p.syn with
    | error e => rw [h1] at h; cases h
    | ok syn =>
      cases h2 : cornerQubit data p.tl with
      | error e => rw [h1, h2] at h; cases h
      | ok tl =>
        cases h3 : cornerQubit data p.tr with
        | error e => rw [h1, h2, h3] at h; cases h
        | ok tr =>
          cases h4 : cornerQubit data p.bl with
          | error e => rw [h1, h2, h3, h4] at h; cases h
          | ok bl =>
            cases h5 : cornerQubit data p.br with
            | error e => rw [h1, h2, h3, h4, h5] at h; cases h
            | ok br =>
              rw [h1, h2, h3, h4, h5] at h
              cases h
              refine ⟨⟨r, key_eq_ok hk, (Reg.mem_qubits.1 (pyIdx_mem h1)).1⟩, ?_⟩
              intro q hq
              simp only [List.mem_cons, List.not_mem_nil, or_false] at hq
              rcases hq with e | e | e | e
              · exact cornerQubit_reg (h2.trans (by rw [e]))
              · exact cornerQubit_reg (h3.trans (by rw [e]))
              · exact cornerQubit_reg (h4.trans (by rw [e]))
              · exact cornerQubit_reg (h5.trans (by rw [e]))

theorem genPlaqs_reg {code : Code} {dh dw : Int} {data : Reg} {mx mz : Option Reg} {pl : List QPlaq × List Stab}
    (h : genPlaqs code dh dw data mx mz = .ok pl) : ∀ x ∈ pl.1, (∃ r, (mx = some r ∨ mz = some r) ∧ x.syn.reg = r.name) ∧
      ∀ q, some q ∈ [x.tl, x.tr, x.bl, x.br] → q.reg = data.name := by
  unfold genPlaqs at h
  cases h1 : (geometryX dh dw).mapM (qplaq data mx) with
  | error e => rw [h1] at h; cases h
  | ok xs =>
    cases h2 : (geometryZ dh dw).mapM (qplaq data mz) with
    | error e => rw [h1, h2] at h; cases h
    | ok zs =>
      rw [h1, h2] at h
      cases h
      intro x hx
      rcases List.mem_append.1 hx with hx | hx
      · obtain ⟨a, -, ha⟩ := mapM_mem h1 x hx
        obtain ⟨⟨r, e, e'⟩, h'⟩ := qplaq_reg ha
        exact ⟨⟨r, Or.inl e, e'⟩, h'⟩
      · obtain ⟨a, -, ha⟩ := mapM_mem h2 x hx
        obtain ⟨⟨r, e, e'⟩, h'⟩ := qplaq_reg ha
        exact ⟨⟨r, Or.inr e, e'⟩, h'⟩

theorem optReg_name {n : Int} {name : Str} {r : Reg} (h : optReg n name = some r) : r.name = name := by
  unfold optReg at h
  split at h
  · cases h; rfl
  · cases h

/-- Every lattice that is made, of whatever size, has registers with names of its own. -/
theorem newLattice_shaped {code : Code} {name : Str} {pref : Nat} (h : newLattice code name pref w = (.ok L, w')) : Shaped L ∧
    (∀ r ∈ L.qregs, OwnQreg name r.name) ∧ ∃ p dh dw, Validated p dh dw ∧ w'.heap pref = p ∧ 0 ≤ dh * dw ∧ L.pref = pref ∧
      w'.circ.qregs = w.circ.qregs ++ L.qregs ∧ w'.circ.cregs = w.circ.cregs := by
  unfold newLattice at h
  obtain ⟨p0, w1, h1, h⟩ := CM.bind_eq_ok h
  cases h1
  obtain ⟨p, hp, h⟩ := CM.lift_eq_ok h
  obtain ⟨dh, dw, V⟩ := rotatedValidate_inv hp
  obtain ⟨rest, hd⟩ := V.d
  rw [CM.bind_ok (setParams_run _ _ _), CM.bind_lift (dim_zero hd), CM.bind_lift (dim_one hd), CM.bind_lift (key_ok V.nd),
    CM.bind_lift (key_ok V.ns)] at h
  obtain ⟨data, hdata, h⟩ := CM.lift_eq_ok h
  obtain ⟨hn0, rfl⟩ := newReg_eq_ok hdata
  obtain ⟨_, w2, h2, h⟩ := CM.bind_eq_ok h
  obtain ⟨rfl, -, -⟩ := addQregs_inv h2
  obtain ⟨pl, hpl, h⟩ := CM.lift_eq_ok h
  rw [CM.pure_run, Prod.mk.injEq] at h
  obtain ⟨hL, hw⟩ := h
  cases hL
  refine ⟨⟨rfl, fun r => optReg_name, fun r => optReg_name, rfl, ?_⟩, ?_, p, dh, dw, V, ?_, hn0, rfl, ?_⟩
  · intro x hx
    obtain ⟨⟨r, hr, e⟩, h'⟩ := genPlaqs_reg hpl x hx
    constructor
    · rw [e]
      rcases hr with hr | hr
      · rw [optReg_name hr]; exact Or.inr (Or.inr (Or.inl rfl))
      · rw [optReg_name hr]; exact Or.inr (Or.inl rfl)
    · intro q hq
      rw [h' q hq]
      exact Or.inl rfl
  · intro r hr
    unfold Lattice.qregs at hr
    simp only [List.mem_append, List.mem_singleton, Option.mem_toList] at hr
    rcases hr with ((rfl | hr) | hr) | rfl
    · exact Or.inl rfl
    · rw [optReg_name hr]; exact Or.inr (Or.inl rfl)
    · rw [optReg_name hr]; exact Or.inr (Or.inr (Or.inl rfl))
    · exact Or.inr (Or.inr (Or.inr rfl))
  · rw [← hw]
    exact if_pos rfl
  · rw [← hw]
    exact ⟨rfl, rfl⟩

/-- The qubits in the log have their names and registers by number. -/
theorem Spec.Log.named {name : Str} {log : List (Str × TQubit)} {tried : List Str} (L : Log name s log tried) {k : Nat} {e : Str × TQubit}
    (h : log[k]? = some e) : e.2.lat.name = qname name k ∧ Shaped e.2.lat ∧ ∀ r ∈ e.2.lat.qregs, OwnQreg (qname name k) r.name := by
  induction L generalizing k e with
  | start h' => cases h
  | other _ _ ih => exact ih h
  | @added s s' log tried sub ctype params cls q w hL hadd hcls hq ih =>
    by_cases hk : k < log.length
    · rw [List.getElem?_append_left hk] at h
      exact ih h
    · rw [List.getElem?_append_right (by omega)] at h
      have hk' : k = log.length := by
        have := (List.getElem?_eq_some_iff.1 h).1
        simp only [List.length_singleton] at this
        omega
      subst hk'
      rw [Nat.sub_self] at h
      cases h
      obtain ⟨r, w1, hl, -⟩ := newQubit_inv hq
      obtain ⟨h1, h2, -⟩ := newLattice_shaped hl
      obtain ⟨p, dh, dw, -, -, -, -, -, hn, -⟩ := newLattice_inv hl
      exact ⟨hn, h1, h2⟩
  | failed _ _ ih => exact ih h

/-! ### The default ancilla -/

theorem str2qtype_ctype (c : QClass) : str2qtype c.ctype = some c := by cases c <;> decide

theorem numSyn_sum {dh dw : Int} (h1 : dh % 2 = 1) (h2 : dw % 2 = 1) (h : 0 ≤ dh * dw) : 0 ≤ numSynX dh dw + numSynZ dh dw := by
  obtain ⟨a, rfl⟩ : ∃ a, dh = 2 * a + 1 := ⟨dh / 2, by omega⟩
  obtain ⟨b, rfl⟩ : ∃ b, dw = 2 * b + 1 := ⟨dw / 2, by omega⟩
  rw [numSynX_odd, numSynZ_odd]
  have e1 : (2 * a + 1) * (2 * b + 1) = 2 * (2 * (a * b) + a + b) + 1 := by ring
  have e2 : (a + 1) * (2 * b) + (b + 1) * (2 * a) = 2 * (2 * (a * b) + a + b) := by ring
  omega

/-- A dictionary that is not empty is used as it is. -/
theorem newQubit_shared {cls : QClass} {r : Nat} {name : Str} {q : TQubit} (h : newQubit cls (some r) name w = (.ok q, w'))
    (he : (w.heap r).isEmpty = false) : q.lat.pref = r ∧ Shaped q.lat ∧ (∃ dh dw, Validated (w'.heap r) dh dw ∧ 0 ≤ dh * dw) ∧
      (∀ g ∈ q.lat.qregs, OwnQreg name g.name) ∧ w'.circ.qregs = w.circ.qregs ++ q.lat.qregs ∧ w'.circ.cregs = w.circ.cregs := by
  unfold newQubit at h
  have hd : dictOrNew (some r) w = (.ok r, w) := by unfold dictOrNew; simp [he]
  rw [CM.bind_ok hd] at h
  obtain ⟨u, w2, h2, h⟩ := CM.bind_eq_ok h
  obtain ⟨L, w4, h4, h⟩ := CM.bind_eq_ok h
  rw [CM.pure_run, Prod.mk.injEq] at h
  obtain ⟨h5, rfl⟩ := h
  cases h5
  have hc : w2.circ = w.circ := by
    unfold checkRep at h2
    split at h2
    · obtain ⟨p, w3, h3, h2⟩ := CM.bind_eq_ok h2
      cases h3
      obtain ⟨p', -, h2⟩ := CM.lift_eq_ok h2
      cases h2
      rfl
    · cases h2; rfl
  obtain ⟨h1, h1', p, dh, dw, V, hp, h0, hr, hq, hcr⟩ := newLattice_shaped h4
  exact ⟨hr, h1, ⟨dh, dw, by rw [hp]; exact V, h0⟩, h1', by rw [hq, hc], by rw [hcr, hc]⟩

theorem wf_names {c : Circ} (W : WellFormed c) : c.names.Nodup := by
  unfold Circ.names
  refine List.nodup_append.2 ⟨W.qnames, W.cnames, ?_⟩
  intro a ha b hb
  obtain ⟨x, hx, rfl⟩ := List.mem_map.1 ha
  obtain ⟨y, hy, rfl⟩ := List.mem_map.1 hb
  exact W.disjoint x hx y hy

/-! ### The number of ancillas -/

/-- There is at most one ancilla. -/
def OneAncilla (s : TState) : Prop := ∀ d, s.treg.tqubits.get? "ancilla".toList = some d → d.length ≤ 1

theorem addTqubit_other {sub ctype : Str} {p : Option Nat} {s : TState} {sub' : Str} (h : sub' ≠ sub) :
    (addTqubit sub ctype p s).2.treg.tqubits.get? sub' = s.treg.tqubits.get? sub' := by
  rcases addTqubit_run sub ctype p s with ⟨-, hr⟩ | ⟨cls', -, ⟨q', w', -, hr⟩ | ⟨e, w', -, hr⟩⟩ <;> rw [hr]
  · exact touched_get_ne _ h
  · simp only [TReg.stored]
    rw [Dict.get?_set_ne _ _ h]
    exact touched_get_ne _ h
  · exact touched_get_ne _ h

theorem oneAncilla_new {ctype : Str} {p : Option Nat} {s : TState} (h : s.treg.tqubits.get? "ancilla".toList = none) :
    OneAncilla (addTqubit "ancilla".toList ctype p s).2 := by
  intro d hd
  have ht : (s.treg.touched "ancilla".toList).tqubits.get? "ancilla".toList = some [] := by rw [touched_get, h]; rfl
  rcases addTqubit_run "ancilla".toList ctype p s with ⟨-, hr⟩ | ⟨cls', -, ⟨q', w', -, hr⟩ | ⟨e, w', -, hr⟩⟩ <;> rw [hr] at hd
  · simp only [ht, Option.some.injEq] at hd
    simp [← hd]
  · simp only [TReg.stored, Dict.get?_set_self, ht, Option.getD, Option.some.injEq] at hd
    rw [← hd]
    exact Nat.le_refl 1
  · simp only [ht, Option.some.injEq] at hd
    simp [← hd]

theorem oneAncilla_run {o : TOp} (h1 : ∀ sub cs ps, o = .addQubits sub cs ps → sub ≠ "ancilla".toList)
    (h2 : ∀ sub c p, o = .addQubit sub c p → sub ≠ "ancilla".toList) {s : TState} (hs : OneAncilla s) : OneAncilla (o.run s).2 := by
  have H : Loose OneAncilla := loose_treg fun t => ∀ d, t.tqubits.get? "ancilla".toList = some d → d.length ≤ 1
  have add : ∀ sub c p, sub ≠ "ancilla".toList → ∀ s, OneAncilla s → OneAncilla (addTqubit sub c p s).2 := by
    intro sub c p hne s hs d hd
    rw [addTqubit_other (Ne.symm hne)] at hd
    exact hs d hd
  cases o with
  | addQubits sub cs ps =>
    have hne := h1 _ _ _ rfl
    show OneAncilla (addTqubits sub cs ps s).2
    unfold addTqubits
    split
    · exact hs
    · split
      · exact hs
      · exact (Safe.forEach (E := fun _ => True) (fun e _ => Safe.any (fun s hs => add sub e.1 e.2 hne s hs) fun _ => trivial) s hs).1
  | addQubit sub c p => exact add sub c p (h2 _ _ _ rfl) s hs
  | on a o => exact (H.onQubit s hs).1
  | cx c t k p =>
    show OneAncilla (cxT c t k p s).2
    rw [cxT_eq]
    have ens : ∀ kind, Safe OneAncilla (fun _ => True) (ensureAncilla kind) fun _ => True := by
      intro kind
      refine Safe.any (fun s hs => ?_) fun _ => trivial
      unfold ensureAncilla
      split
      · exact hs
      · exact oneAncilla_new (by assumption)
    exact ((loose_ancillaKind.bind fun kind _ => loose_getIndex.bind fun c _ => loose_getIndex.bind fun t _ => (ens kind).bind fun _ _ =>
      loose_lastAncilla.bind fun a _ => H.cxBody) s hs).1
  | addCreg n name b => exact (H.addCregT s hs).1
  | addQreg n name b => exact (H.addQregT s hs).1

theorem oneAncilla_runOps (ops : List TOp) (h1 : ∀ sub cs ps, TOp.addQubits sub cs ps ∈ ops → sub ≠ "ancilla".toList)
    (h2 : ∀ sub c p, TOp.addQubit sub c p ∈ ops → sub ≠ "ancilla".toList) (s : TState) (hs : OneAncilla s) : OneAncilla (runOps ops s) := by
  induction ops generalizing s with
  | nil => exact hs
  | cons o l ih =>
    exact ih (fun _ _ _ h => h1 _ _ _ (List.mem_cons_of_mem _ h)) (fun _ _ _ h => h2 _ _ _ (List.mem_cons_of_mem _ h)) _
      (oneAncilla_run (fun sub cs ps h => h1 sub cs ps (by rw [h]; simp)) (fun sub c p h => h2 sub c p (by rw [h]; simp)) hs)

end Qtc
