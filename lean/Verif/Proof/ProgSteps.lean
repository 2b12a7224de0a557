import Verif.Proof.Programs
/-!
Programs on the logical qubits of a topological circuit: one call.
-/
namespace Qtc
open Spec Function

variable {s s1 : TState} {q : TQubit} {dh dw k : Int} {key : Key}

/-- One call of a program and the instructions it adds. -/
structure Took (key : Key) (o : LOp) (s s1 : TState) (is : List Instr) : Prop where
  fair : FairState s1
  logical : ∀ k q dh dw, Logical s k q dh dw → Logical s1 k q dh dw
  given : ∀ p, GivenDict s p → GivenDict s1 p
  instrs : s1.world.circ.instrs = s.world.circ.instrs ++ is
  cregs : ∀ r ∈ s.world.circ.cregs, r ∈ s1.world.circ.cregs
  newest : ∀ k, o.reads key = some k → newest s1 ∈ s1.world.circ.cregs.map Reg.name ∧ newest s1 ∉ helperC
  eff : ∀ sz φ φ', (∀ r ∈ s1.world.circ.cregs, sz r.name = r.size) → φ.psi ≠ 0 →
    (∀ k ∈ o.qubits, ∃ q dh dw, Logical s k q dh dw ∧ SynZero q.lat.name dh dw φ.psi) → Run sz is φ φ' →
    φ'.psi ≠ 0 ∧ (∀ k q dh dw, Logical s k q dh dw → SynZero q.lat.name dh dw φ.psi → SynZero q.lat.name dh dw φ'.psi) ∧
    (∀ c : Clbit, c.reg ∈ s.world.circ.cregs.map Reg.name → c.reg ∉ helperC → φ'.mem c = φ.mem c) ∧
    ∀ b, Holds key s b φ.psi → Holds key s1 (o.known (φ'.mem ⟨Spec.newest s1, 0⟩) b key) φ'.psi ∧
      ∀ k v, o.reads key = some k → b k = some v → φ'.mem ⟨Spec.newest s1, 0⟩ = v

/-! ### Calls for one qubit -/

/-- Calls for one qubit. -/
structure Single (o : LOp) (k : Int) (qo : QOp) : Prop where
  call : o.call = .on (.idx k) qo
  qubits : o.qubits = [k]
  known : ∀ out b key, o.known out b key = update b k (Spec.QOp.turn out (b k) key qo)
  reads : ∀ key k', o.reads key = some k' → k' = k ∧ qo = readsIn key
  did : ∀ (q : TQubit) (dh dw : Int) (w w' : World), Placed q.lat dh dw w → q.op qo w = (.ok (), w') →
    ∃ is new, Did q dh dw qo w w' is new ∧ ((∃ key, qo = readsIn key) → new ≠ [])

theorem single_or_cx (o : LOp) : (∃ k qo, Single o k qo) ∨ ∃ i j kind, o = .cx i j kind := by
  cases o with
  | resetX k =>
    refine Or.inl ⟨k, _, rfl, rfl, ?_, ?_, ?_⟩
    · intro out b key
      cases key <;> rfl
    · intro key k' h
      cases key <;> cases h
    · intro q dh dw w w' P h
      obtain ⟨is, new, D⟩ := did_resetX P h
      exact ⟨is, new, D, fun ⟨key, e⟩ => by cases key <;> cases e⟩
  | resetZ k =>
    refine Or.inl ⟨k, _, rfl, rfl, ?_, ?_, ?_⟩
    · intro out b key
      cases key <;> rfl
    · intro key k' h
      cases key <;> cases h
    · intro q dh dw w w' P h
      obtain ⟨is, new, D⟩ := did_resetZ P h
      exact ⟨is, new, D, fun ⟨key, e⟩ => by cases key <;> cases e⟩
  | x k =>
    refine Or.inl ⟨k, _, rfl, rfl, ?_, ?_, ?_⟩
    · intro out b key
      cases key
      · exact (update_eq_self k b).symm
      · rfl
    · intro key k' h
      cases key <;> cases h
    · intro q dh dw w w' P h
      obtain ⟨is, new, D⟩ := did_x P h
      exact ⟨is, new, D, fun ⟨key, e⟩ => by cases key <;> cases e⟩
  | z k =>
    refine Or.inl ⟨k, _, rfl, rfl, ?_, ?_, ?_⟩
    · intro out b key
      cases key
      · rfl
      · exact (update_eq_self k b).symm
    · intro key k' h
      cases key <;> cases h
    · intro q dh dw w w' P h
      obtain ⟨is, new, D⟩ := did_z P h
      exact ⟨is, new, D, fun ⟨key, e⟩ => by cases key <;> cases e⟩
  | id k =>
    refine Or.inl ⟨k, _, rfl, rfl, ?_, ?_, ?_⟩
    · intro out b key
      cases key <;> exact (update_eq_self k b).symm
    · intro key k' h
      cases key <;> cases h
    · intro q dh dw w w' P h
      obtain ⟨is, new, D⟩ := did_id P h
      exact ⟨is, new, D, fun ⟨key, e⟩ => by cases key <;> cases e⟩
  | idData k =>
    refine Or.inl ⟨k, _, rfl, rfl, ?_, ?_, ?_⟩
    · intro out b key
      cases key <;> exact (update_eq_self k b).symm
    · intro key k' h
      cases key <;> cases h
    · intro q dh dw w w' P h
      obtain ⟨is, new, D⟩ := did_idData P h
      exact ⟨is, new, D, fun ⟨key, e⟩ => by cases key <;> cases e⟩
  | stabilize k =>
    refine Or.inl ⟨k, _, rfl, rfl, ?_, ?_, ?_⟩
    · intro out b key
      cases key <;> exact (update_eq_self k b).symm
    · intro key k' h
      cases key <;> cases h
    · intro q dh dw w w' P h
      obtain ⟨is, new, D⟩ := did_stabilize P h
      exact ⟨is, new, D, fun ⟨key, e⟩ => by cases key <;> cases e⟩
  | readX k =>
    refine Or.inl ⟨k, _, rfl, rfl, ?_, ?_, ?_⟩
    · intro out b key
      cases key <;> rfl
    · intro key k' h
      cases key <;> cases h
      exact ⟨rfl, rfl⟩
    · intro q dh dw w w' P h
      obtain ⟨is, r, D⟩ := did_readoutX P h
      exact ⟨is, [r], D, fun _ => by simp⟩
  | readZ k =>
    refine Or.inl ⟨k, _, rfl, rfl, ?_, ?_, ?_⟩
    · intro out b key
      cases key <;> rfl
    · intro key k' h
      cases key <;> cases h
      exact ⟨rfl, rfl⟩
    · intro q dh dw w w' P h
      obtain ⟨is, r, D⟩ := did_readoutZ P h
      exact ⟨is, [r], D, fun _ => by simp⟩
  | cx i j kind => exact Or.inr ⟨i, j, kind, rfl⟩

theorem Single.took {o : LOp} {qo : QOp} (S : Single o k qo) (F : FairState s) (L : Logical s k q dh dw) (h : (o.call.run s).1 = .ok ()) :
    ∃ is, Took key o s (o.next s) is := by
  have I := F.inv
  have P := L.placed I
  have H := I.held _ _ L.1
  unfold LOp.next
  rw [S.call] at h ⊢
  have hrun : (TOp.on (.idx k) qo).run s = ((q.op qo s.world).1, { s with world := (q.op qo s.world).2 }) := by
    show onQubit (.idx k) qo s = _
    unfold onQubit
    rw [CM.bind_ok (x := getIndex (.idx k)) (a := q) (s' := s) (by unfold getIndex; simp only [L.1])]
    rfl
  have F1 : FairState ((TOp.on (.idx k) qo).run s).2 := F.step trivial
  rw [hrun] at h F1 ⊢
  simp only at h F1 ⊢
  generalize hw : (q.op qo s.world) = r at h F1
  obtain ⟨r, w'⟩ := r
  simp only at h F1 ⊢
  subst h
  obtain ⟨is, new, D, hn⟩ := S.did q dh dw s.world w' P hw
  have X := tame_op q qo s.world
  rw [hw] at X
  have fresh : ∀ r ∈ new, r.name ∉ helperC := by
    intro r hr hh
    obtain ⟨-, x, e⟩ := D.fresh r hr
    rw [e, H.name] at hh
    exact helper_ne (Or.inl hh) rfl
  have last : new ≠ [] → ∃ r ∈ new, Spec.newest { s with world := w' } = r.name ∧ lastName new = r.name := by
    intro hne
    obtain ⟨l, r, rfl⟩ : ∃ l r, new = l ++ [r] := ⟨_, _, (List.dropLast_append_getLast hne).symm⟩
    refine ⟨r, by simp, ?_, ?_⟩
    · unfold Spec.newest; simp only; rw [D.cregs, ← List.append_assoc, List.getLast?_concat]; rfl
    · unfold lastName; rw [List.getLast?_concat]; rfl
  have logical : ∀ k q dh dw, Logical s k q dh dw → Logical { s with world := w' } k q dh dw := by
    intro k q dh dw L
    exact ⟨L.1, (X.placed (I.held _ _ L.1).ref (L.placed I)).d, L.2.2⟩
  refine ⟨is, F1, logical, ?_, D.instrs, X.cregs, ?_, ?_⟩
  · intro p hp r hr
    exact ⟨Nat.lt_of_lt_of_le (hp r hr).1 X.next, (X.heap r (hp r hr).1).nonneg (hp r hr).2⟩
  · intro k' hk'
    obtain ⟨-, e⟩ := S.reads key k' hk'
    obtain ⟨r, hr, e1, -⟩ := last (hn ⟨key, e⟩)
    rw [e1]
    refine ⟨?_, fresh r hr⟩
    show r.name ∈ w'.circ.cregs.map Reg.name
    rw [D.cregs]
    exact List.mem_map.2 ⟨r, List.mem_append_right _ hr, rfl⟩
  · intro sz φ φ' hsz h0 hq hr
    have proper : ∀ i ∈ is, i.Proper := by
      intro i hi
      refine proper_of_fits (F1.inv.wf.fits i ?_)
      show i ∈ w'.circ.instrs
      rw [D.instrs]
      exact List.mem_append_right _ hi
    obtain ⟨q', dh', dw', L', hz⟩ := hq k (by rw [S.qubits]; exact List.mem_singleton.2 rfl)
    obtain ⟨rfl, rfl, rfl⟩ := L'.unique L
    have E := D.eff sz φ φ' proper h0 hz hr
    have far : ∀ k' q' dh' dw', Logical s k' q' dh' dw' → q'.lat.name = q.lat.name ∨ Far q'.lat.name q.lat.name := by
      intro k' q' dh' dw' M
      by_cases e : k' = k
      · subst e; exact Or.inl (by rw [(M.unique L).1])
      · exact Or.inr (M.far L I e)
    refine ⟨Run.ne_zero proper h0 hr, ?_, ?_, ?_⟩
    · intro k' q' dh' dw' L' hz
      exact SynZero.keep hz (fun j h => E.away P.odd (away_syn (far _ _ _ _ L') j).1 h) fun j h => E.away P.odd (away_syn (far _ _ _ _ L') j).2 h
    · intro c hc _
      refine E.mem fun r hr e => ?_
      exact (D.fresh r hr).1 (List.mem_append_right _ (e ▸ hc))
    · intro b hb
      have mine : ∀ u, b k = some u → HasValue (logicalOf key q dh dw) u φ.psi := by
        intro u hu
        obtain ⟨q', dh', dw', L', h⟩ := hb k u hu
        obtain ⟨rfl, rfl, rfl⟩ := L'.unique L
        exact h
      refine ⟨?_, ?_⟩
      · intro k' v hv
        rw [S.known] at hv
        by_cases e : k' = k
        · subst e
          rw [update_self] at hv
          refine ⟨q, dh, dw, logical _ _ _ _ L, ?_⟩
          by_cases hne : new = []
          · refine E.value (key := key) P.odd H.code mine (u := v) ?_
            rw [← hv]
            by_cases hqo : qo = readsIn key
            · exact absurd hne (hn ⟨key, hqo⟩)
            · cases key <;> cases qo <;> first
                | rfl
                | (rename_i r; cases r
                   · first
                      | rfl
                      | exact absurd rfl hqo
                   · exact E.elim)
          · obtain ⟨r, -, e1, e2⟩ := last hne
            refine E.value (key := key) P.odd H.code mine (u := v) ?_
            rw [e2, ← e1]
            exact hv
        · rw [update_of_ne e] at hv
          obtain ⟨q', dh', dw', L', h⟩ := hb k' v hv
          exact ⟨q', dh', dw', logical _ _ _ _ L', E.away P.odd (logicalOf_onData.away (L'.far L I e)) h⟩
      · intro k' v hk' hv
        obtain ⟨rfl, rfl⟩ := S.reads key k' hk'
        obtain ⟨r, -, e1, e2⟩ := last (hn ⟨key, rfl⟩)
        rw [e1, ← e2]
        exact E.outcome H.code (mine v hv)

end Qtc
