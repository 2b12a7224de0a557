import Verif.Proof.ProgSteps
/-!
Programs on the logical qubits of a topological circuit: a call of `cx`.
-/
namespace Qtc
open Spec Function

variable {s s1 : TState} {q : TQubit} {dh dw k : Int} {key : Key}

/-- Only measurements change classical bits. -/
theorem run_mem {sz : Str → Nat} {l : List Instr} {φ φ' : QState} {c : Clbit} (h : Run sz l φ φ') (hl : ∀ i ∈ l, ∀ x, i ≠ .measure x c) : φ'.mem c = φ.mem c := by
  induction l generalizing φ with
  | nil => rw [h]
  | cons i l ih =>
    obtain ⟨t, h1, h2⟩ := h
    rw [ih h2 fun i hi => hl i (by simp [hi])]
    cases h1 with
    | measure x b v _ _ =>
      have : c ≠ b := by rintro rfl; exact hl _ (by simp) x rfl
      exact update_of_ne this _ _
    | _ => rfl

theorem logical_mem {g : Int → G1} {n : Str} {c : Option (Str × Int)} {l : List Int} {x : Qubit} {b : Clbit} : Instr.measure x b ∉ logicalInstrs g n c l := by
  intro h
  rcases List.mem_append.1 h with h | h
  · obtain ⟨i, -, e⟩ := List.mem_map.1 h; cases e
  · rw [List.mem_singleton] at h; cases h

theorem intoZ_mem {code : Code} {n : Str} {x : Qubit} {b : Clbit} : Instr.measure x b ∉ intoAncillaZ code n dh dw := by
  intro h
  obtain ⟨l, e, hC⟩ := into_copiesZ (code := code) (name := n) (dh := dh) (dw := dw)
  rw [e] at h
  rcases List.mem_cons.1 h with h | h
  · cases h
  · exact hC.1 _ h

theorem cnot_mem {c t a : Patch} {y x : Qubit} {b : Clbit} (h : Instr.measure x b ∈ cnotInstrs c t a y) : b.reg ∈ helperC := by
  have r1 : Instr.measure x b ∉ resetXInstrs a.code a.name a.dh a.dw := by
    intro h
    unfold resetXInstrs at h
    rcases List.mem_append.1 h with h | h
    · rcases List.mem_append.1 h with h | h
      · obtain ⟨i, -, e⟩ := List.mem_map.1 h; cases e
      · obtain ⟨i, -, e⟩ := List.mem_map.1 h; cases e
    · cases e : a.code
      · rw [e, List.mem_singleton] at h; cases h
      · rw [e] at h; cases h
  unfold cnotInstrs at h
  simp only [List.mem_append, logical_mem, r1, or_false, false_or] at h
  rcases h with (h | h) | h
  · unfold zzInstrs at h
    simp only [List.mem_append, intoZ_mem, List.mem_singleton, reduceCtorEq, or_false, false_or] at h
    cases h
    exact List.mem_cons_self
  · unfold xxInstrs at h
    have r2 : ∀ p : Patch, Instr.measure x b ∉ cxInstrs p.code p.name p.dh p.dw y := fun p h => cxInstrs_gates _ h
    simp only [List.mem_append, r2, List.mem_singleton, reduceCtorEq, or_false, false_or] at h
    cases h
    exact List.mem_cons_of_mem _ List.mem_cons_self
  · unfold readInstrs at h
    simp only [List.mem_append, intoZ_mem, List.mem_singleton, reduceCtorEq, or_false, false_or] at h
    obtain ⟨i, hi, e⟩ := List.mem_map.1 h
    cases e
    rw [(Reg.mem_clbits.1 hi).1]
    exact List.mem_cons_of_mem _ (List.mem_cons_of_mem _ List.mem_cons_self)

/-- The ancilla that is made, if any, gets a new number. -/
theorem ensure_apart {kind : Str × Option Nat} {b : TState} (F : FInv s) (he : ensureAncilla kind s = (.ok (), b)) (hk : s.treg.find? k = some q)
    (hn : ∀ d, s.treg.tqubits.get? "ancilla".toList = some d → ∀ e ∈ d, (e.1 : Int) ≠ k) :
    ∀ d, b.treg.tqubits.get? "ancilla".toList = some d → ∀ e ∈ d, (e.1 : Int) ≠ k := by
  cases ho : s.treg.tqubits.get? "ancilla".toList with
  | some d' =>
    have : b = s := by
      have := he
      unfold ensureAncilla at this
      rw [ho] at this
      cases this
      rfl
    subst this
    exact hn
  | none =>
    rintro d hd ⟨ka, a⟩ hm rfl
    obtain ⟨log, tried, A⟩ := F.agrees
    have hlt := (F.find_range hk).2
    have hnot : "ancilla".toList ∉ tried := by
      intro hh
      have := A.get "ancilla".toList
      rw [ho, if_pos hh] at this
      cases this
    unfold ensureAncilla at he
    rw [ho] at he
    have he : addTqubit "ancilla".toList kind.1 kind.2 s = (.ok (), b) := he
    rcases addTqubit_run "ancilla".toList kind.1 kind.2 s with ⟨-, h⟩ | ⟨cls, -, ⟨q', w', -, h⟩ | ⟨e', w', -, h⟩⟩
    · rw [h] at he; cases he
    · rw [h] at he
      cases he
      have hin : "ancilla".toList ∈ tried ++ ["ancilla".toList] := List.mem_append_right _ (List.mem_singleton.2 rfl)
      have A' := (A.touched "ancilla".toList).stored hin q' kind.2
      have hg := A'.get "ancilla".toList
      rw [hd, if_pos hin] at hg
      cases hg
      have hm := mem_entriesOf.1 hm
      rw [A.n] at hlt
      rw [List.getElem?_append_left (by simpa using hlt)] at hm
      exact hnot (A.used _ (List.mem_of_getElem? hm))
    · rw [h] at he; cases he

/-- What a call of `cx` does to the register and the circuit. -/
theorem cx_grows {i j : Int} {c t : TQubit} {ch cw th tw : Int} {kind : Option Str} {p : Option Nat} (F : FairState s) (Lc : Logical s i c ch cw)
    (Lt : Logical s j t th tw) (hp : GivenDict s p) (h : cxT (.idx i) (.idx j) kind p s = (.ok (), s1)) :
    FairState s1 ∧ (∀ k q dh dw, Logical s k q dh dw → Logical s1 k q dh dw) ∧ (∀ p, GivenDict s p → GivenDict s1 p) ∧
    (∃ is, s1.world.circ.instrs = s.world.circ.instrs ++ is) ∧ (∀ r ∈ s.world.circ.cregs, r ∈ s1.world.circ.cregs) := by
  have I := F.inv
  have F1 : FairState s1 := by
    have := F.step (o := .cx (.idx i) (.idx j) kind p) ⟨trivial, trivial, hp⟩
    rw [show (TOp.cx (.idx i) (.idx j) kind p).run s = _ from h] at this
    exact this
  have gi : ∀ {k : Int} {q : TQubit}, s.treg.find? k = some q → getIndex (.idx k) s = (.ok q, s) := by
    intro k q h
    unfold getIndex
    simp only [h]
  rcases I.cxFound (kt := j) Lc.1 (gi Lc.1) (gi Lt.1) (ctype := kind) hp with ⟨e, h', -⟩ | ⟨kind', b, d, ka, a, he, G, hd, hm, hf, hr⟩
  · rw [h] at h'; cases h'
  have hb : cxBody c t a b = (.ok (), s1) := hr.symm.trans h
  have Ib := G.inv
  have D : During False b s1 := by
    have := (Ib.cxBody (G.keep _ _ Lc.1) (G.keep _ _ Lt.1) hf).1
    rw [hb] at this
    exact this
  obtain ⟨ext, hc, -⟩ := D.cregs
  have sized : ∀ k q dh dw, Logical s k q dh dw → Placed q.lat dh dw b.world := fun k q dh dw L =>
    G.sized (I.held _ _ L.1).ref (L.placed I) ⟨k, G.keep _ _ L.1⟩
  obtain ⟨ah, aw, Pa⟩ := (Ib.held _ _ hf).placed
  have out : ∀ k q, b.treg.find? k = some q → Outside q.lat.name ⟨helperQ, 0⟩ := by
    intro k q h y e
    rw [(Ib.held k q h).name] at e
    exact helper_ne (Or.inr rfl) e
  obtain ⟨-, -, hi, -⟩ := cxBody_closed Ib.ready (sized _ _ _ _ Lc) (sized _ _ _ _ Lt) Pa (out _ _ (G.keep _ _ Lc.1)) (out _ _ (G.keep _ _ Lt.1)) (out _ _ hf) hb
  refine ⟨F1, ?_, ?_, ⟨_, by rw [hi, G.instrs]⟩, ?_⟩
  · intro k q dh dw L
    refine ⟨by rw [D.treg]; exact G.keep _ _ L.1, ?_, ?_⟩
    · unfold HasSize
      rw [D.heap]
      exact (sized _ _ _ _ L).d
    · rw [D.treg]
      exact ensure_apart I he L.1 L.2.2
  · intro p hp r hr
    rw [D.heap, D.next]
    exact G.given hp r hr
  · intro r hr
    rw [hc, G.cregs]
    exact List.mem_append_left _ hr

theorem Away.untouched {c t a : Patch} {x : Qubit} {B : Op} (hc : Away c.name B) (ht : Away t.name B) (ha : Away a.name B)
    (hx : ∀ l : Letter, Commute B (l.op x)) : Untouched c t a x B :=
  ⟨hc.Z, ht.X, ha.1, hx, hc.2, ha.2⟩

theorem Outside.ne_syn {n : Str} {x : Qubit} (h : Outside n x) (j : Nat) : mzQ n j ≠ x ∧ mxQ n j ≠ x :=
  ⟨fun e => h "mz".toList (congrArg Qubit.reg e.symm), fun e => h "mx".toList (congrArg Qubit.reg e.symm)⟩

theorem cx_took {i j : Int} {c t : TQubit} {ch cw th tw : Int} {kind : Option (Str × Nat)} (F : FairState s) (Lc : Logical s i c ch cw)
    (Lt : Logical s j t th tw) (hne : i ≠ j) (hp : GivenDict s (kind.map Prod.snd)) (h : ((LOp.cx i j kind).call.run s).1 = .ok ()) :
    ∃ is, Took key (.cx i j kind) s ((LOp.cx i j kind).next s) is := by
  unfold LOp.next
  generalize hs : (LOp.cx i j kind).call.run s = r at h
  obtain ⟨r, s1⟩ := r
  simp only at h
  subst h
  have hs : cxT (.idx i) (.idx j) (kind.map Prod.fst) (kind.map Prod.snd) s = (.ok (), s1) := hs
  obtain ⟨F1, logical, given, ⟨is, hi⟩, cregs⟩ := cx_grows F Lc Lt hp hs
  refine ⟨is, F1, logical, given, hi, cregs, (by intro k hk; cases key <;> cases hk), ?_⟩
  intro sz φ φ' hsz h0 hq hr
  have I := F.inv
  have R : CxRun s i j c t s1 φ φ' := ⟨F, ⟨_, _, _, _, ⟨Lc.1, Or.inl rfl⟩, ⟨Lt.1, Or.inl rfl⟩, hp, hs⟩, hne,
    fun d hd e he => ⟨Lc.2.2 d hd e he, Lt.2.2 d hd e he⟩, h0, ⟨sz, hsz, by rw [hi, List.drop_left]; exact hr⟩⟩
  obtain ⟨a, W, h1, -, -, h0'⟩ := R.facts Lc.2.1 Lt.2.1
  have syn : ∀ k q dh dw, Logical s k q dh dw → SynZero q.lat.name dh dw φ.psi → SynZero q.lat.name dh dw φ'.psi := by
    intro k q dh dw L hz
    have key : ∀ (n : Str), n = c.lat.name ∨ Far n c.lat.name → n = t.lat.name ∨ Far n t.lat.name → Far n a.name → Outside n ⟨helperQ, 0⟩ →
        SynZero n dh dw φ.psi → SynZero n dh dw φ'.psi := by
      intro n nc nt na nx hz
      refine SynZero.keep hz (fun j => h1 _ _ ?_) (fun j => h1 _ _ ?_)
      · exact Away.untouched (away_syn nc j).1 (away_syn nt j).1 (away_syn (Or.inr na) j).1 fun l => letter_comm (nx.ne_syn j).1 .Z l
      · exact Away.untouched (away_syn nc j).2 (away_syn nt j).2 (away_syn (Or.inr na) j).2 fun l => letter_comm (nx.ne_syn j).2 .Z l
    by_cases ei : k = i
    · subst ei
      obtain ⟨rfl, rfl, rfl⟩ := Lc.unique L
      exact key _ (Or.inl rfl) (Or.inr W.sep.ct) W.sep.ca W.sep.c hz
    by_cases ej : k = j
    · subst ej
      obtain ⟨rfl, rfl, rfl⟩ := Lt.unique L
      exact key _ (Or.inr W.sep.ct.symm) (Or.inl rfl) W.sep.ta W.sep.t hz
    obtain ⟨f1, f2, f3, f4⟩ := W.other k q L.1 ei ej L.2.2
    exact key _ (Or.inr f1) (Or.inr f2) f3 f4 hz
  have other : ∀ k q dh dw v, Logical s k q dh dw → k ≠ i → k ≠ j → HasValue (logicalOf key q dh dw) v φ.psi →
      HasValue (logicalOf key q dh dw) v φ'.psi := by
    intro k q dh dw v L ei ej hv
    obtain ⟨f1, f2, f3, f4⟩ := W.other k q L.1 ei ej L.2.2
    have D : OnData q.lat.name (logicalOf key q dh dw) := logicalOf_onData
    exact h1 _ _ (Away.untouched (D.away f1) (D.away f2) (D.away f3) fun l => D _ (fun _ e => f4 _ (congrArg Qubit.reg e.symm)) l) hv
  refine ⟨h0', syn, ?_, ?_⟩
  · intro b _ hb
    obtain ⟨sz', -, hr'⟩ := W.run
    exact run_mem hr' fun i hi x e => hb (cnot_mem (e ▸ hi))
  · intro b hb
    have mine : ∀ k u q dh dw, Logical s k q dh dw → b k = some u → HasValue (logicalOf key q dh dw) u φ.psi := by
      intro k u q dh dw L hu
      obtain ⟨q', dh', dw', L', h⟩ := hb k u hu
      obtain ⟨rfl, rfl, rfl⟩ := L'.unique L
      exact h
    refine ⟨?_, by intro k v hk; cases key <;> cases hk⟩
    intro k v hw
    cases key with
    | X =>
      replace hw : update b i none k = some v := hw
      by_cases ei : k = i
      · subst ei; rw [update_self] at hw; cases hw
      rw [update_of_ne ei] at hw
      by_cases ej : k = j
      · subst ej
        exact ⟨t, th, tw, logical _ _ _ _ Lt, (C66_z_partial R Lc.2.1 Lt.2.1).2.2.2.1 (mine _ _ _ _ _ Lt hw)⟩
      obtain ⟨q, dh, dw, L, h⟩ := hb k v hw
      exact ⟨q, dh, dw, logical _ _ _ _ L, other _ _ _ _ _ L ei ej h⟩
    | Z =>
      replace hw : update b j (match b i, b j with
        | some u, some v => some (u ^^ v)
        | _, _ => none) k = some v := hw
      by_cases ej : k = j
      · subst ej
        rw [update_self] at hw
        cases hbi : b i with
        | none => rw [hbi] at hw; cases hw
        | some u =>
          cases hbj : b k with
          | none => rw [hbi, hbj] at hw; cases hw
          | some w =>
            rw [hbi, hbj] at hw
            cases hw
            exact ⟨t, th, tw, logical _ _ _ _ Lt, (C65_truth R Lc.2.1 Lt.2.1 (mine _ _ _ _ _ Lc hbi) (mine _ _ _ _ _ Lt hbj)).2⟩
      rw [update_of_ne ej] at hw
      by_cases ei : k = i
      · subst ei
        exact ⟨c, ch, cw, logical _ _ _ _ Lc, (C66_z_partial R Lc.2.1 Lt.2.1).2.2.1 (mine _ _ _ _ _ Lc hw)⟩
      obtain ⟨q, dh, dw, L, h⟩ := hb k v hw
      exact ⟨q, dh, dw, logical _ _ _ _ L, other _ _ _ _ _ L ei ej h⟩

/-! ### All calls -/

theorem LOp.took {o : LOp} (F : FairState s) (hs : o.Sound s) (hq : ∀ k ∈ o.qubits, ∃ q dh dw, Logical s k q dh dw) (h : (o.call.run s).1 = .ok ()) :
    ∃ is, Took key o s (o.next s) is := by
  rcases single_or_cx o with ⟨k, qo, S⟩ | ⟨i, j, kind, rfl⟩
  · obtain ⟨q, dh, dw, L⟩ := hq k (by rw [S.qubits]; exact List.mem_singleton.2 rfl)
    exact S.took F L h
  · obtain ⟨c, ch, cw, Lc⟩ := hq i (by simp [LOp.qubits])
    obtain ⟨t, th, tw, Lt⟩ := hq j (by simp [LOp.qubits])
    exact cx_took F Lc Lt hs.1 hs.2 h

theorem LOp.known_out {o : LOp} (h : o.reads key = none) (b : Known) (u v : Bool) : o.known u b key = o.known v b key := by
  cases key <;> cases o <;> first
    | rfl
    | cases h

/-- All calls of a program and the instructions they add. -/
theorem took_all (l : List LOp) : ∀ s : TState, FairState s → (∀ o ∈ l, o.Sound s) → (∀ o ∈ l, ∀ k ∈ o.qubits, ∃ q dh dw, Logical s k q dh dw) →
    Succeeds l s → FairState (runOps (l.map LOp.call) s) ∧ (∀ k q dh dw, Logical s k q dh dw → Logical (runOps (l.map LOp.call) s) k q dh dw) ∧
    (∀ r ∈ s.world.circ.cregs, r ∈ (runOps (l.map LOp.call) s).world.circ.cregs) ∧
    ∃ is, (runOps (l.map LOp.call) s).world.circ.instrs = s.world.circ.instrs ++ is ∧
    ∀ sz φ φ', (∀ r ∈ (runOps (l.map LOp.call) s).world.circ.cregs, sz r.name = r.size) → φ.psi ≠ 0 →
    (∀ o ∈ l, ∀ k ∈ o.qubits, ∃ q dh dw, Logical s k q dh dw ∧ SynZero q.lat.name dh dw φ.psi) → Run sz is φ φ' →
    φ'.psi ≠ 0 ∧ (∀ k q dh dw, Logical s k q dh dw → SynZero q.lat.name dh dw φ.psi → SynZero q.lat.name dh dw φ'.psi) ∧
    (∀ c : Clbit, c.reg ∈ s.world.circ.cregs.map Reg.name → c.reg ∉ helperC → φ'.mem c = φ.mem c) ∧
    ∀ b, Holds key s b φ.psi → (∀ e ∈ predicted key φ'.mem l s b, φ'.mem ⟨e.1, 0⟩ = e.2) ∧
      Holds key (runOps (l.map LOp.call) s) (knownAfter key φ'.mem l s b) φ'.psi := by
  induction l with
  | nil =>
    intro s F _ _ _
    refine ⟨F, fun _ _ _ _ h => h, fun _ h => h, [], (List.append_nil _).symm, ?_⟩
    rintro sz φ φ' - h0 - rfl
    exact ⟨h0, fun _ _ _ _ _ h => h, fun _ _ _ => rfl, fun b hb => ⟨(fun e he => by cases he), hb⟩⟩
  | cons o l ih =>
    intro s F hs hq hS
    obtain ⟨is, T⟩ := LOp.took (key := key) F (hs o (by simp)) (hq o (by simp)) hS.1
    have hs1 : ∀ o' ∈ l, o'.Sound (o.next s) := by
      intro o' ho'
      have := hs o' (by simp [ho'])
      cases o' with
      | cx i j kind => exact ⟨this.1, T.given _ this.2⟩
      | _ => trivial
    obtain ⟨F', log', cregs', is', hi', E'⟩ := ih (o.next s) T.fair hs1
      (fun o' ho' k hk => let ⟨q, dh, dw, L⟩ := hq o' (by simp [ho']) k hk; ⟨q, dh, dw, T.logical _ _ _ _ L⟩) hS.2
    refine ⟨F', fun k q dh dw L => log' _ _ _ _ (T.logical _ _ _ _ L), fun r hr => cregs' r (T.cregs r hr), is ++ is', ?_, ?_⟩
    · show (runOps (l.map LOp.call) (o.next s)).world.circ.instrs = _
      rw [hi', T.instrs, List.append_assoc]
    · intro sz φ φ' hsz h0 hz hr
      obtain ⟨φ1, r1, r2⟩ := Run.append.1 hr
      obtain ⟨n1, z1, m1, e1⟩ := T.eff sz φ φ1 (fun r hr => hsz r (cregs' r hr)) h0 (hz o (by simp)) r1
      obtain ⟨n2, z2, m2, e2⟩ := E' sz φ1 φ' hsz n1 (fun o' ho' k hk => by
        obtain ⟨q, dh, dw, L, z⟩ := hz o' (by simp [ho']) k hk
        exact ⟨q, dh, dw, T.logical _ _ _ _ L, z1 _ _ _ _ L z⟩) r2
      refine ⟨n2, fun k q dh dw L z => z2 _ _ _ _ (T.logical _ _ _ _ L) (z1 _ _ _ _ L z), fun c h h' => ?_, fun b hb => ?_⟩
      · rw [m2 c ?_ h', m1 c h h']
        obtain ⟨r, hr, e⟩ := List.mem_map.1 h
        exact List.mem_map.2 ⟨r, T.cregs r hr, e⟩
      · obtain ⟨H1, P1⟩ := e1 b hb
        have same : ∀ k, o.reads key = some k → φ'.mem ⟨newest (o.next s), 0⟩ = φ1.mem ⟨newest (o.next s), 0⟩ := by
          intro k hk
          obtain ⟨h, h'⟩ := T.newest k hk
          exact m2 _ h h'
        have kn : o.known (φ1.mem ⟨newest (o.next s), 0⟩) b key = o.known (φ'.mem ⟨newest (o.next s), 0⟩) b key := by
          cases hk : o.reads key with
          | none => exact LOp.known_out hk _ _ _
          | some k => rw [same k hk]
        rw [kn] at H1
        obtain ⟨P2, H2⟩ := e2 _ H1
        refine ⟨?_, H2⟩
        intro e he
        rcases List.mem_append.1 he with he | he
        · cases hk : o.reads key with
          | none => rw [hk] at he; cases he
          | some k =>
            cases hb : b k with
            | none => rw [hk] at he; simp only [Option.bind_some, hb] at he; cases he
            | some v =>
              rw [hk] at he
              simp only [Option.bind_some, hb, List.mem_singleton] at he
              subst he
              rw [← P1 k v hk hb]
              exact same k hk
        · exact P2 e he

end Qtc
