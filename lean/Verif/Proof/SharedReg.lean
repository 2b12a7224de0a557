import Verif.Proof.SharedRun
import Verif.Proof.TRun
/-!
The qubits of a register leave each other alone.
-/
namespace Qtc
open Spec

variable {s s' : TState} {q q' : TQubit} {j k : Int} {w w' w'' : World}

theorem Spec.Elsewhere.refl (q : TQubit) (w : World) : Elsewhere q w w :=
  ⟨rfl, fun _ h => h, ⟨[], (List.append_nil _).symm, fun _ h => (List.not_mem_nil h).elim⟩, fun _ h _ => h,
    ⟨[], (List.append_nil _).symm, fun _ h => (List.not_mem_nil h).elim⟩⟩

theorem Spec.Elsewhere.trans (h : Elsewhere q w w') (h' : Elsewhere q w' w'') : Elsewhere q w w'' := by
  obtain ⟨n1, e1, g1⟩ := h.cregs
  obtain ⟨n2, e2, g2⟩ := h'.cregs
  obtain ⟨i1, d1, f1⟩ := h.instrs
  obtain ⟨i2, d2, f2⟩ := h'.instrs
  refine ⟨h'.heap.trans h.heap, fun r hr => h'.qregs r (h.qregs r hr), ⟨n1 ++ n2, by rw [e2, e1, List.append_assoc], ?_⟩,
    fun n hn ho => h.names n (h'.names n hn ho) ho, ⟨i1 ++ i2, by rw [d2, d1, List.append_assoc], ?_⟩⟩
  · exact fun r hr => (List.mem_append.1 hr).elim (g1 r) (g2 r)
  · exact fun i hi => (List.mem_append.1 hi).elim (f1 i) (f2 i)

theorem Only.mono {Q Q' : Qubit → Prop} {C C' : Clbit → Prop} {K K' : Str → Int → Prop} {i : Instr} (hQ : ∀ x, Q x → Q' x) (hC : ∀ x, C x → C' x)
    (hK : ∀ r v, K r v → K' r v) (h : Only Q C K i) : Only Q' C' K' i := by
  rcases i with ⟨g, y, _ | ⟨r, v⟩⟩ | ⟨g, a, b⟩ | ⟨y, b⟩ | ⟨y⟩ | _
  · exact hQ _ h
  · exact ⟨hQ _ h.1, hK _ _ h.2⟩
  · exact ⟨hQ _ h.1, hQ _ h.2⟩
  · exact ⟨hQ _ h.1, hC _ h.2⟩
  · exact hQ _ h
  · trivial

theorem TInv.apart (T : TInv s) (hj : s.treg.find? j = some q) (hk : s.treg.find? k = some q') (hjk : j ≠ k) {x : Str}
    (hx : OwnName q'.lat.name x) : ¬OwnName q.lat.name x := by
  rintro ⟨r, e⟩
  obtain ⟨r', e'⟩ := hx
  rw [(T.held _ _ hj).1] at e
  rw [(T.held _ _ hk).1] at e'
  have := (qname_inj (e.symm.trans e')).1
  have h1 := (T.find_range hj).1
  have h2 := (T.find_range hk).1
  omega

/-- The operations of one qubit of a register have nothing to do with another one. -/
theorem TInv.op_elsewhere (T : TInv s) (hj : s.treg.find? j = some q) (hk : s.treg.find? k = some q') (hjk : j ≠ k) (o : QOp)
    (ha : ∀ x, o.args x → ¬OwnName q.lat.name x.reg) (hc : ∀ r, o.creg r → ¬OwnName q.lat.name r) : Elsewhere q s.world (q'.op o s.world).2 := by
  obtain ⟨-, -, st⟩ := T.op hk o
  obtain ⟨new, e, hn⟩ := st.cregs
  have hown : ∀ r ∈ new, ¬OwnName q.lat.name r.name := fun r hr => T.apart hj hk hjk (ownCreg_reserved (hn r hr))
  obtain ⟨is, e', hi⟩ := st.instrs
  refine ⟨st.heap _ (T.sep _ _ _ _ hj hk hjk), fun r hr => by rw [st.qregs]; exact hr, ⟨new, e, hown⟩, ?_, ⟨is, e', fun i h => ?_⟩⟩
  · intro n hm ho
    unfold Circ.names at hm ⊢
    rw [st.qregs, e, List.map_append, ← List.append_assoc] at hm
    rcases List.mem_append.1 hm with hm | hm
    · exact hm
    · obtain ⟨r, hr, rfl⟩ := List.mem_map.1 hm
      exact (hown r hr ho).elim
  · refine Only.mono ?_ ?_ (fun _ _ _ => trivial) (hi i h)
    · rintro x (hx | hx)
      · exact T.apart hj hk hjk (ownQreg_reserved hx)
      · exact ha x hx
    · rintro x (hx | hx)
      · exact T.apart hj hk hjk (ownCreg_reserved hx)
      · exact hc _ hx

/-- A new register with a name that is not the qubit's. -/
theorem elsewhere_addC {r : Reg} (h : ¬OwnName q.lat.name r.name) (w : World) : Elsewhere q w (w.addC r) := by
  refine ⟨rfl, fun _ h => h, ⟨[r], rfl, fun x hx => by rw [List.mem_singleton.1 hx]; exact h⟩, fun n hn ho => ?_,
    ⟨[], (List.append_nil _).symm, fun _ h => (List.not_mem_nil h).elim⟩⟩
  rcases (names_addC _ _ _).1 hn with rfl | hn
  · exact (h ho).elim
  · exact hn

theorem elsewhere_addQs {l : List Reg} (h : ∀ r ∈ l, ¬OwnName q.lat.name r.name) {w w' : World} (hc : w'.circ = (w.addQs l).circ)
    (hh : w'.heap q.lat.pref = w.heap q.lat.pref) : Elsewhere q w w' := by
  refine ⟨hh, fun r hr => by rw [hc]; exact List.mem_append_left _ hr, ⟨[], by rw [hc]; exact (List.append_nil _).symm, fun _ h => (List.not_mem_nil h).elim⟩, ?_,
    ⟨[], by rw [hc]; exact (List.append_nil _).symm, fun _ h => (List.not_mem_nil h).elim⟩⟩
  intro n hn ho
  rw [hc] at hn
  unfold Circ.names at hn ⊢
  rcases List.mem_append.1 hn with hn | hn
  · rw [World.addQs_qregs, List.map_append] at hn
    rcases List.mem_append.1 hn with hn | hn
    · exact List.mem_append_left _ hn
    · obtain ⟨r, hr, rfl⟩ := List.mem_map.1 hn
      exact (h r hr ho).elim
  · exact List.mem_append_right _ hn

theorem Adds.elsewhere {A : Instr → Prop} (h : Adds A w w') (hA : ∀ i, A i → Alien q.lat.name i) : Elsewhere q w w' := by
  obtain ⟨new, e, hn⟩ := h.instrs
  exact ⟨by rw [h.heap], fun r hr => by rw [h.qregs]; exact hr, ⟨[], by rw [h.cregs, List.append_nil], fun _ h => (List.not_mem_nil h).elim⟩,
    fun n hn _ => by rw [← h.names]; exact hn, ⟨new, e, fun i hi => hA i (hn i hi).1⟩⟩

/-! ### New qubits -/

/-- A qubit that has just been added to a register waits, and the others do not notice. -/
theorem add_elsewhere (T : TInv s) (sub ctype : Str) {p : Option Nat} (hp : OwnDict s p) :
    (∀ j q, s.treg.find? j = some q → Elsewhere q s.world (addTqubit sub ctype p s).2.world) ∧
    ((addTqubit sub ctype p s).1 = .ok () → ∃ q dh dw, (addTqubit sub ctype p s).2.treg.find? s.treg.n = some q ∧
      Waiting q.cls q dh dw (addTqubit sub ctype p s).2.world) := by
  rcases addTqubit_run sub ctype p s with ⟨-, hr⟩ | ⟨cls, hc, h⟩
  · rw [hr]
    exact ⟨fun j q _ => Elsewhere.refl q _, fun h => by cases h⟩
  · have hfree : ∀ rest, s.treg.qubitName ++ '_' :: rest ∉ s.world.circ.names := fun rest => T.free _ rest (Nat.le_refl _)
    obtain ⟨r, w', hor, hr, hn, hh, ho⟩ := newQubit_outcome (cls := cls) (params := p) (name := s.treg.qubitName) (w := s.world)
      (fun r e => ⟨(hp r e).1, (hp r e).2.1⟩) hfree
    have hsep : ∀ k q, s.treg.find? k = some q → q.lat.pref ≠ r := by
      intro k q hk
      rcases hor with e | e
      · exact (hp r e).2.2 k q hk
      · have := T.ref k q hk; omega
    rcases ho with ⟨q, dh, dw, hq, B, hname, hpref, hcls⟩ | ⟨e, hq, hne, hcirc⟩
    · rcases h with ⟨q', w'', hq', hrun⟩ | ⟨e, w'', hq', -⟩
      swap
      · rw [hq] at hq'; cases hq'
      rw [hq] at hq'
      cases hq'
      obtain ⟨-, hc1, hi⟩ := built_blank B
      rw [hrun]
      refine ⟨fun j q1 hj => elsewhere_addQs ?_ hc1 (hh _ (hsep _ _ hj)), fun _ => ⟨q, dh, dw, ?_, s.world, w', ?_, ?_, Elsewhere.refl _ _⟩⟩
      · rintro x hx ⟨rest, e⟩
        rw [hi] at hx
        obtain ⟨rest', e'⟩ := ownName_qreg hx
        rw [(T.held _ _ hj).1] at e
        rw [hname, qubitName_eq] at e'
        have := (qname_inj (e.symm.trans e')).1
        have := T.find_range hj
        omega
      · show ((s.treg.touched sub).stored sub q p).find? s.treg.n = some q
        rw [stored_find T, if_pos rfl]
      · rintro n hn ⟨rest, e⟩
        rw [hname] at e
        exact hfree rest (e ▸ hn)
      · rw [hcls]; exact B
    · rcases h with ⟨q', w'', hq', hrun⟩ | ⟨e, w'', hq', hrun⟩
      · rw [hq] at hq'; cases hq'
      rw [hq] at hq'
      cases hq'
      rw [hrun]
      refine ⟨fun j q1 hj => elsewhere_addQs (l := []) (fun _ h => (List.not_mem_nil h).elim) ?_ (hh _ (hsep _ _ hj)), fun h => by cases h⟩
      show w'.circ = { s.world.circ with qregs := s.world.circ.qregs ++ [] }
      rw [hcirc, List.append_nil]

/-! ### Logical CNOTs of other qubits -/

/-- What holds while the body of a `cx` of other qubits runs. -/
def Spared (q : TQubit) (b s : TState) : Prop := During True b s ∧ Elsewhere q b.world s.world

theorem Safe.spared {α : Type} {b : TState} {E : PyErr → Prop} {x : TM α} {Q : α → Prop} (h : Safe (During True b) E x Q)
    (hx : ∀ s, During True b s → Elsewhere q s.world (x s).2.world) : Safe (Spared q b) E x Q := by
  intro s ⟨D, hE⟩
  obtain ⟨h1, h2⟩ := h s D
  exact ⟨⟨h1, hE.trans (hx s D)⟩, h2⟩

theorem TInv.body_elsewhere {b : TState} (T : TInv b) {kc kt ka : Int} {c t a : TQubit} (hj : b.treg.find? j = some q) (hc : b.treg.find? kc = some c)
    (ht : b.treg.find? kt = some t) (ha : b.treg.find? ka = some a) (jc : j ≠ kc) (jt : j ≠ kt) (ja : j ≠ ka) :
    Safe (Spared q b) (· ≠ .nameTaken) (cxBody c t a) fun _ => True := by
  have hname := (T.held _ _ hj).1
  have hhelp : ∀ {x : Str}, Helper x → ¬OwnName q.lat.name x := by
    rintro x hx ⟨rest, e⟩
    rw [hname] at e
    exact helper_ne hx e
  have Sc := T.shaped hc
  have St := T.shaped ht
  have Sa := T.shaped ha
  have good : ∀ {A : Instr → Prop} {x : WM Unit}, Good A x (fun _ => True) → (∀ i, A i → Alien q.lat.name i) →
      Safe (Spared q b) (· ≠ .nameTaken) (onWorld x) fun _ => True := fun h hA =>
    (safe_good h).spared fun s _ => (h s.world).1.elsewhere hA
  have allowed : ∀ {k : Int} {d : TQubit}, b.treg.find? k = some d → j ≠ k → ∀ i,
      Allowed d.lat (fun x => x.reg = helperQ) (fun x => x.reg ∈ helperC) (fun _ _ => True) i → Alien q.lat.name i := by
    intro k d hk hjk i h
    refine Only.mono ?_ (fun x hx => hhelp (Or.inl hx)) (fun _ _ _ => trivial) h
    rintro x (hx | hx)
    · exact T.apart hj hk hjk (ownQreg_reserved hx)
    · exact hhelp (Or.inr hx)
  have keep : ∀ {α : Type} {x : TM α} {Q : α → Prop}, Safe (During True b) (· ≠ .nameTaken) x Q → (∀ s, (x s).2 = s) →
      Safe (Spared q b) (· ≠ .nameTaken) x Q := fun h hx => h.spared fun s _ => by rw [hx]; exact Elsewhere.refl _ _
  refine safe_cxBody (R := fun x => x.reg = helperQ) (B := fun x => x.reg ∈ helperC) (fun n hn => (safe_addCregT hn).spared fun s D => ?_)
    (safe_addQregT.spared fun s D => ?_) ?_ (fun n hn => keep ?_ ?_) (fun n hn => keep (safe_cregOf hn) ?_) (good Sa.good_resetX (allowed ha ja))
    (fun r hr => good (good_reset fun x hx => ?_) fun i h => h) (fun r hr => good (good_gate1 fun x hx => ?_) fun i h => h)
    (fun r hr d hd => good (good_measure fun x hx y hy => ?_) fun i h => h)
    (fun r hr => good (Sc.good_qcx (fun x e => by cases e) (fun x e => by cases e; exact hr)) (allowed hc jc))
    (fun r hr => good (Sa.good_qcx (fun x e => by cases e) (fun x e => by cases e; exact hr)) (allowed ha ja))
    (fun r hr => good (St.good_qcx (fun x e => by cases e; exact hr) (fun x e => by cases e)) (allowed ht jt))
    (fun r hr => good (Sa.good_qcx (fun x e => by cases e; exact hr) (fun x e => by cases e)) (allowed ha ja))
    (good ?_ (allowed ha ja)) (good (Sc.good_zCIf trivial) (allowed hc jc)) fun n _ => good (St.good_xCIf trivial) (allowed ht jt)
  · rcases D.syncC n hn with ⟨h1, h2⟩ | ⟨h1, h2⟩
    · rw [addCregT_new h1 h2]
      exact elsewhere_addC (hhelp (Or.inl hn)) _
    · rw [addCregT_known h1]
      exact Elsewhere.refl _ _
  · rcases D.syncQ with ⟨h1, h2⟩ | ⟨h1, h2⟩
    · rw [addQregT_new h1 h2]
      exact elsewhere_addQs (fun r hr => by rw [List.mem_singleton.1 hr]; exact hhelp (Or.inr rfl)) rfl rfl
    · rw [addQregT_known h1]
      exact Elsewhere.refl _ _
  · rintro s ⟨D, hE⟩
    unfold qregBit
    rcases D.syncQ with ⟨h1, -⟩ | ⟨h1, -⟩
    · rw [h1]
      exact ⟨⟨D, hE⟩, fun a e => (by cases e), fun e he => by cases he; decide⟩
    · rw [h1]
      refine ⟨⟨D, hE⟩, fun a e => ?_, fun e he => by cases he⟩
      cases e
      rfl
  · refine (safe_cregOf hn).bind fun r hr => Safe.lift (fun d hd => ?_) ?_
    · rw [hr] at hd
      cases hd
      exact hn
    · rintro e he rfl
      exact pyIdx_ne_taken he
  · intro s
    unfold cregBit
    rw [CM.bind_run]
    unfold cregOf
    cases s.creg.get? n <;> rfl
  · intro s
    unfold cregOf
    cases s.creg.get? n <;> rfl
  · rw [List.mem_singleton.1 hx]
    show ¬OwnName _ _
    rw [hr]
    exact hhelp (Or.inr rfl)
  · rw [List.mem_singleton.1 hx]
    show ¬OwnName _ _
    rw [hr]
    exact hhelp (Or.inr rfl)
  · rw [List.mem_singleton.1 hx, List.mem_singleton.1 hy]
    refine ⟨?_, hhelp (Or.inl hd)⟩
    show ¬OwnName _ _
    rw [hr]
    exact hhelp (Or.inr rfl)
  · unfold Lattice.readoutZ
    have : a.lat.readoutReg (some ⟨"m3".toList, 1⟩) = pure ⟨"m3".toList, 1⟩ := rfl
    rw [this]
    refine (Good.pure (Q := fun r => r = ⟨"m3".toList, 1⟩) rfl).bind fun r hr => Sa.good_readoutZIntoAncilla.bind fun _ _ =>
      (Sa.good_measAnc fun y hy => ?_).bind fun _ _ => good_barrier trivial
    rw [hr] at hy
    obtain ⟨i, -, rfl⟩ := List.mem_map.1 hy
    exact (by decide : "m3".toList ∈ helperC)

/-- The ancilla that is made, if any, gets a new number. -/
theorem ensure_other {kind : Str × Option Nat} {b : TState} (T : TInv s) (he : ensureAncilla kind s = (.ok (), b)) (hk : s.treg.find? k = some q)
    (hn : ∀ d, s.treg.tqubits.get? "ancilla".toList = some d → ∀ e ∈ d, (e.1 : Int) ≠ k) :
    ∀ d, b.treg.tqubits.get? "ancilla".toList = some d → ∀ e ∈ d, (e.1 : Int) ≠ k := by
  cases ho : s.treg.tqubits.get? "ancilla".toList with
  | some d' =>
    have : b = s := by
      have := he
      unfold ensureAncilla at this
      rw [ho] at this
      cases this
      rfl
    subst this
    exact hn
  | none =>
    rintro d hd ⟨ka, a⟩ hm rfl
    obtain ⟨log, tried, A⟩ := T.agrees
    have hlt := (T.find_range hk).2
    have hnot : "ancilla".toList ∉ tried := by
      intro hh
      have := A.get "ancilla".toList
      rw [ho, if_pos hh] at this
      cases this
    unfold ensureAncilla at he
    rw [ho] at he
    have he : addTqubit "ancilla".toList kind.1 kind.2 s = (.ok (), b) := he
    rcases addTqubit_run "ancilla".toList kind.1 kind.2 s with ⟨-, h⟩ | ⟨cls, -, ⟨q', w', -, h⟩ | ⟨e', w', -, h⟩⟩
    · rw [h] at he; cases he
    · rw [h] at he
      cases he
      have hin : "ancilla".toList ∈ tried ++ ["ancilla".toList] := List.mem_append_right _ (List.mem_singleton.2 rfl)
      have A' := (A.touched "ancilla".toList).stored hin q' kind.2
      have hg := A'.get "ancilla".toList
      rw [hd, if_pos hin] at hg
      cases hg
      have hm := mem_entriesOf.1 hm
      rw [A.n] at hlt
      rw [List.getElem?_append_left (by simpa using hlt)] at hm
      exact hnot (A.used _ (List.mem_of_getElem? hm))
    · rw [h] at he; cases he

theorem ensure_elsewhere (T : TInv s) {kind : Str × Option Nat} (hp : s.treg.tqubits.get? "ancilla".toList = none → OwnDict s kind.2)
    (hj : s.treg.find? j = some q) : TInv (ensureAncilla kind s).2 ∧ (∀ k q, s.treg.find? k = some q → (ensureAncilla kind s).2.treg.find? k = some q) ∧
    Elsewhere q s.world (ensureAncilla kind s).2.world := by
  unfold ensureAncilla
  split
  · exact ⟨T, fun _ _ h => h, Elsewhere.refl _ _⟩
  · rename_i h
    obtain ⟨h1, -, -, -, -, -, h2, -⟩ := T.addTqubit "ancilla".toList kind.1 (hp h)
    exact ⟨h1, h2, (add_elsewhere T _ _ (hp h)).1 _ _ hj⟩

/-- A `cx` of two qubits does not concern a third one that is no ancilla. -/
theorem cx_elsewhere (T : TInv s) {kc kt : Int} {k : Option Str} {p : Option Nat} (h : Sane s (.cx (.idx kc) (.idx kt) k p)) (hj : s.treg.find? j = some q)
    (jc : j ≠ kc) (jt : j ≠ kt) (hn : ∀ d, s.treg.tqubits.get? "ancilla".toList = some d → ∀ e ∈ d, (e.1 : Int) ≠ j) :
    Elsewhere q s.world (cxT (.idx kc) (.idx kt) k p s).2.world := by
  obtain ⟨-, -, ha⟩ := h
  have stop : Elsewhere q s.world s.world := Elsewhere.refl _ _
  have gi : ∀ i : Int, (∃ d, s.treg.find? i = some d ∧ getIndex (.idx i) s = (.ok d, s)) ∨ ∃ e, getIndex (.idx i) s = (.error e, s) := by
    intro i
    unfold getIndex
    cases h : s.treg.find? i with
    | none => exact Or.inr ⟨.valueError, by simp only [h]⟩
    | some d => exact Or.inl ⟨d, rfl, by simp only [h]⟩
  have main : ∀ kind : Str × Option Nat, (s.treg.tqubits.get? "ancilla".toList = none → kind.2 = p) →
      Elsewhere q s.world ((getIndex (.idx kc) >>= fun c => getIndex (.idx kt) >>= fun t => ensureAncilla kind >>= fun _ => Qtc.lastAncilla >>= fun a =>
        cxBody c t a) s).2.world := by
    intro kind hk
    rcases gi kc with ⟨c, fc, gc⟩ | ⟨e, gc⟩
    swap
    · rw [CM.bind_error gc]; exact stop
    rw [CM.bind_ok gc]
    rcases gi kt with ⟨t, ft, gt⟩ | ⟨e, gt⟩
    swap
    · rw [CM.bind_error gt]; exact stop
    rw [CM.bind_ok gt]
    obtain ⟨Tb, keep, hE⟩ := ensure_elsewhere T (kind := kind) (fun h => by rw [hk h]; exact (ha h).2) hj
    rw [CM.bind_run]
    rcases he : ensureAncilla kind s with ⟨e | u, b⟩
    · rw [he] at hE
      exact hE
    · rw [he] at hE Tb keep
      have hb := ensure_other T he hj hn
      simp only
      obtain ⟨log, tried, A⟩ := Tb.agrees
      rw [CM.bind_run]
      unfold lastAncilla
      have hg := A.get "ancilla".toList
      cases hd : b.treg.tqubits.get? "ancilla".toList with
      | none => exact hE
      | some d =>
        cases hl : d.getLast? with
        | none => simp only [hl]; exact hE
        | some e =>
          simp only [hl]
          have hm := List.mem_of_getLast? hl
          have hf : b.treg.find? e.1 = some e.2 := by
            rw [hd] at hg
            split at hg
            · cases hg
              have hm := mem_entriesOf.1 (hm : (e.1, e.2) ∈ _)
              rw [A.find, if_pos (by omega)]
              simp [hm]
            · cases hg
          exact hE.trans ((Tb.body_elsewhere (keep _ _ hj) (keep _ _ fc) (keep _ _ ft) hf jc jt (hb _ hd _ hm).symm b
            ⟨During.refl Tb, Elsewhere.refl _ _⟩).1.2)
  rw [cxT_eq]
  unfold ancillaKind
  match k, p, ha, main with
  | some k, some p, ha, main => exact main (k, some p) fun _ => rfl
  | some k, none, ha, main => exact stop
  | none, some p, ha, main => exact stop
  | none, none, ha, main =>
    show Elsewhere q s.world ((((getIndex (.idx kc) >>= fun q => pure (q.cls.ctype, some q.lat.pref)) >>= fun kind => getIndex (.idx kc) >>= fun c =>
      getIndex (.idx kt) >>= fun t => ensureAncilla kind >>= fun _ => Qtc.lastAncilla >>= fun a => cxBody c t a) : TM Unit) s).2.world
    rcases gi kc with ⟨c, fc, gc⟩ | ⟨e, gc⟩
    · have e : (getIndex (.idx kc) >>= fun q => pure (q.cls.ctype, some q.lat.pref) : TM (Str × Option Nat)) s = (.ok (c.cls.ctype, some c.lat.pref), s) := by
        rw [CM.bind_ok gc]; rfl
      rw [CM.bind_ok e]
      refine main (c.cls.ctype, some c.lat.pref) fun h => ?_
      have := (ha h).1
      simp at this
    · rw [CM.bind_error (CM.bind_error gc)]; exact stop

end Qtc
