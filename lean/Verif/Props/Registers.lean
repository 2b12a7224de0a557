import Verif.Proof.TMore
import Verif.Proof.Checks
/-!
Properties C67 to C73: registers of topological qubits and circuits on them.
-/
namespace Qtc
open Spec

variable {s : TState} {name : Str} {q : TQubit} {k : Int}

/-! ### C67 -/

/-- C67: `treg[k]` is the `k`-th qubit ever added; `treg[name]` is the dictionary of that sub-register, for every sub-register to
which an addition was tried; every other key raises. -/
theorem C67_indexing {log : List (Str × TQubit)} {tried : List Str} (L : Log name s log tried) :
    (∀ (k : Nat) (e : Str × TQubit), log[k]? = some e → s.treg.getItem (.int k) = .ok (.qubit e.2)) ∧
    (∀ k : Int, k < 0 ∨ log.length ≤ k → s.treg.getItem (.int k) = .error .valueError) ∧
    (∀ sub ∈ tried, s.treg.getItem (.str sub) = .ok (.dict (entriesOf log sub))) ∧
    (∀ sub, sub ∉ tried → s.treg.getItem (.str sub) = .error .keyError) ∧
    s.treg.getItem .other = .error .valueError := by
  have A := L.agrees
  refine ⟨?_, ?_, ?_, ?_, rfl⟩
  · intro k e h
    have := A.find k
    rw [if_pos (Int.natCast_nonneg _), Int.toNat_natCast, h] at this
    show (match s.treg.find? k with | some q => Except.ok (TItem.qubit q) | none => Except.error PyErr.valueError) = _
    rw [this]; rfl
  · intro k h
    have : s.treg.find? k = none := by
      rw [A.find]
      split
      · rw [List.getElem?_eq_none (by omega)]; rfl
      · rfl
    show (match s.treg.find? k with | some q => Except.ok (TItem.qubit q) | none => Except.error PyErr.valueError) = _
    rw [this]
  · intro sub h
    have := A.get sub
    rw [if_pos h] at this
    show (match s.treg.tqubits.get? sub with | some d => Except.ok (TItem.dict d) | none => Except.error PyErr.keyError) = _
    rw [this]
  · intro sub h
    have := A.get sub
    rw [if_neg h] at this
    show (match s.treg.tqubits.get? sub with | some d => Except.ok (TItem.dict d) | none => Except.error PyErr.keyError) = _
    rw [this]

/-- C67: every history of a register and a circuit on it, with whatever arguments, has such a record. -/
theorem C67_every_history (name : Str) (w : World) (ops : List TOp) : ∃ log tried, Log name (runOps ops (TState.fresh name w)) log tried :=
  (loose_log name).runOps (fun s sub ctype p h => by obtain ⟨_, _, h⟩ := h; exact h.addTqubit sub ctype p) ops ⟨[], [], Log.start rfl⟩

/-- C67, what an entry of the record is: the qubit made by the constructor when it was added, named after its number. -/
theorem C67_named {log : List (Str × TQubit)} {tried : List Str} (L : Log name s log tried) {k : Nat} {e : Str × TQubit} (h : log[k]? = some e) :
    e.2.lat.name = name ++ "_".toList ++ strNat k := (L.named h).1

/-- The dictionaries with one size, the empty circuit. -/
def oneSize (d : DVal) : World := ⟨fun _ => { d := some d }, 2, {}⟩

/-- Two additions to different sub-registers, and one that fails. -/
def threeAdds : TState := runOps [.addQubits "data".toList (some ["Repetition".toList]) (some [some 0]), .addQubit "spare".toList "XXZZ".toList (some 1),
  .addQubit "other".toList "nonsense".toList none] (TState.fresh "r".toList (oneSize (.tup [.int 3, .int 1])))

example : (match threeAdds.treg.getItem (.int 1) with | .ok (.qubit q) => some q.lat.name | _ => none) = some "r_1".toList := by decide
example : (match threeAdds.treg.getItem (.str "spare".toList) with | .ok (.dict d) => some (d.map Prod.fst) | _ => none) = some [1] := by decide
example : (match threeAdds.treg.getItem (.str "other".toList) with | .ok (.dict d) => some (d.map Prod.fst) | _ => none) = some [] := by decide
example : (match threeAdds.treg.getItem (.str "missing".toList) with | .error e => some e | _ => none) = some .keyError := by decide
example : (match threeAdds.treg.getItem (.int 2) with | .error e => some e | _ => none) = some .valueError := by decide

/-! ### C68 -/

/-- C68: lists of different lengths or an unknown type are a `ValueError`, and nothing is changed; all other arguments are
added one after the other. -/
theorem C68_rejected (sub : Str) (ctypes : Option (List Str)) (params : Option (List (Option Nat))) (s : TState) :
    ((params.getD []).length ≠ (ctypes.getD []).length ∨
        (∃ c ∈ ctypes.getD [], c ≠ "Repetition".toList ∧ c ≠ "XXZZ".toList ∧ c ≠ "XZZX".toList) →
      addTqubits sub ctypes params s = (.error .valueError, s)) ∧
    ((params.getD []).length = (ctypes.getD []).length →
        (∀ c ∈ ctypes.getD [], c = "Repetition".toList ∨ c = "XXZZ".toList ∨ c = "XZZX".toList) →
      addTqubits sub ctypes params s =
        CM.forEach ((ctypes.getD []).zip (params.getD [])) (fun e => addTqubit sub e.1 e.2) s) := by
  have hnone : ∀ c, (str2qtype c).isNone = true ↔ (c ≠ "Repetition".toList ∧ c ≠ "XXZZ".toList ∧ c ≠ "XZZX".toList) := by
    intro c
    unfold str2qtype
    by_cases h1 : c = "Repetition".toList
    · rw [if_pos h1]; simp [h1]
    · rw [if_neg h1]
      by_cases h2 : c = "XXZZ".toList
      · rw [if_pos h2]; simp [h2]
      · rw [if_neg h2]
        by_cases h3 : c = "XZZX".toList
        · rw [if_pos h3]; simp [h3]
        · rw [if_neg h3]; exact ⟨fun _ => ⟨h1, h2, h3⟩, fun _ => rfl⟩
  constructor
  · intro h
    unfold addTqubits
    rcases h with h | ⟨c, hc, h⟩
    · rw [if_pos h]; rfl
    · split
      · rfl
      · rw [if_pos (List.any_eq_true.2 ⟨c, hc, (hnone c).2 h⟩)]; rfl
  · intro h h'
    unfold addTqubits
    rw [if_neg (by simp [h]), if_neg]
    · rfl
    · intro e
      obtain ⟨c, hc, e⟩ := List.any_eq_true.1 e
      obtain ⟨h1, h2, h3⟩ := (hnone c).1 e
      rcases h' c hc with h | h | h
      · exact h1 h
      · exact h2 h
      · exact h3 h

example (s : TState) : addTqubits "data".toList (some ["XXZZ".toList, "Steane".toList]) (some [none, none]) s = (.error .valueError, s) :=
  (C68_rejected _ _ _ s).1 (Or.inr ⟨"Steane".toList, by decide, by decide⟩)

example (s : TState) : addTqubits "data".toList (some ["XXZZ".toList]) none s = (.error .valueError, s) :=
  (C68_rejected _ _ _ s).1 (Or.inl (by decide))

/-! ### C69 -/

/-- C69: after any sequence of additions, operations, logical gates and requests for registers, with whatever arguments, all
register names of the circuit are distinct. -/
theorem C69_names_distinct (name : Str) (w : World) (hw : WellFormed w.circ) (ops : List TOp) :
    (runOps ops (TState.fresh name w)).world.circ.names.Nodup := by
  have W : WellFormed (runOps ops (TState.fresh name w)).world.circ := loose_wf.runOps wf_addTqubit ops hw
  exact wf_names W

/-- C69: the quantum registers of different qubits of a register have different names, after any history. -/
theorem C69_qubit_registers {log : List (Str × TQubit)} {tried : List Str} (L : Log name s log tried) {i j : Nat} {a b : Str × TQubit}
    (hi : log[i]? = some a) (hj : log[j]? = some b) (hij : i ≠ j) : ∀ r ∈ a.2.lat.qregs, ∀ r' ∈ b.2.lat.qregs, r.name ≠ r'.name := by
  intro r hr r' hr' e
  obtain ⟨x, hx⟩ := ownQreg_reserved ((L.named hi).2.2 r hr)
  obtain ⟨y, hy⟩ := ownQreg_reserved ((L.named hj).2.2 r' hr')
  rw [e, hy] at hx
  exact hij (qname_inj hx).1.symm

/-- C69: no name of a quantum or classical register of one qubit is one of another qubit of the same register. -/
theorem C69_names_disjoint (name : Str) {i j : Nat} (hij : i ≠ j) (x : Str)
    (hi : OwnQreg (name ++ "_".toList ++ strNat i) x ∨ OwnCreg (name ++ "_".toList ++ strNat i) x) :
    ¬ (OwnQreg (name ++ "_".toList ++ strNat j) x ∨ OwnCreg (name ++ "_".toList ++ strNat j) x) := by
  intro hj
  obtain ⟨a, ha⟩ : ∃ rest, x = qname name i ++ '_' :: rest := hi.elim ownQreg_reserved ownCreg_reserved
  obtain ⟨b, hb⟩ : ∃ rest, x = qname name j ++ '_' :: rest := hj.elim ownQreg_reserved ownCreg_reserved
  rw [ha] at hb
  exact hij (qname_inj hb).1

/-- C69, partial: in histories in which qubits do not share parameter dictionaries no addition, operation or logical gate fails
because a name is taken. What is missing (and false, see `C69_false_shared`): qubits made from one dictionary. -/
theorem C69_no_collision_partial (S : SaneState s) {o : TOp} (h : Sane s o) (hc : ∀ n x b, o ≠ .addCreg n x b) (hq : ∀ n x b, o ≠ .addQreg n x b) :
    (o.run s).1 ≠ .error .nameTaken := S.inv.ne_taken h hc hq

/-- Two qubits made from one dictionary: the first is stabilized, then the second is added. -/
def sharedPair : TState := runOps [.addQubit "data".toList "Repetition".toList (some 0), .on (.idx 0) .stabilize,
  .addQubit "data".toList "Repetition".toList (some 0)] (TState.fresh "r".toList (oneSize (.num (.int 3))))

/-- C69 fails with a shared dictionary: the second construction has reset the round counter of the first qubit, whose next
round asks for a register that is already there. -/
theorem C69_false_shared : ((TOp.on (.idx 0) .stabilize).run sharedPair).1 = .error .nameTaken := by decide +kernel

/-! ### C70 -/

/-- C70, partial: in histories in which qubits do not share parameter dictionaries an operation on one qubit leaves the
register, all quantum registers and the dictionaries of all other qubits as they are; new classical registers have names of
its own; new instructions only touch its own quantum registers (and qubits given as arguments), only write to its own
classical registers (and a register given as argument) and are only conditioned as asked for. What is missing (and false,
see `C70_false_shared`): qubits made from one dictionary. -/
theorem C70_own_registers_partial (S : SaneState s) (hk : s.treg.find? k = some q) (o : QOp) :
    q.lat.name = s.treg.name ++ "_".toList ++ strNat k.toNat ∧
    (onQubit (.idx k) o s).2.treg = s.treg ∧
    (∀ j q', s.treg.find? j = some q' → j ≠ k → (onQubit (.idx k) o s).2.world.heap q'.lat.pref = s.world.heap q'.lat.pref) ∧
    (onQubit (.idx k) o s).2.world.circ.qregs = s.world.circ.qregs ∧
    (∃ new, (onQubit (.idx k) o s).2.world.circ.cregs = s.world.circ.cregs ++ new ∧ ∀ r ∈ new, OwnCreg q.lat.name r.name) ∧
    (∃ new, (onQubit (.idx k) o s).2.world.circ.instrs = s.world.circ.instrs ++ new ∧ ∀ i ∈ new,
      Only (fun x => OwnQreg q.lat.name x.reg ∨ o.args x) (fun c => OwnCreg q.lat.name c.reg ∨ o.creg c.reg) o.cond i) := by
  have T := S.inv
  obtain ⟨-, -, st⟩ := T.op hk o
  have e : onQubit (.idx k) o s = ((q.op o s.world).1, { s with world := (q.op o s.world).2 }) := by
    unfold onQubit
    have : getIndex (.idx k) s = (.ok q, s) := by unfold getIndex; simp only [hk]
    rw [CM.bind_ok this]; rfl
  rw [e]
  exact ⟨(T.held k q hk).1, rfl, fun j q' hj hjk => st.heap _ (T.sep j q' k q hj hk hjk), st.qregs, st.cregs, st.instrs⟩

/-- C70 fails with a shared dictionary: stabilizing one of two qubits made from one dictionary advances the round counter of
both. -/
theorem C70_false_shared :
    (sharedPair.treg.find? 1).map (fun q => (sharedPair.world.heap q.lat.pref).T) = some (some (-1)) ∧
    (sharedPair.treg.find? 1).map (fun q => (((TOp.on (.idx 0) .stabilize).run sharedPair).2.world.heap q.lat.pref).T) = some (some 0) := by
  decide +kernel

/-! ### C71 -/

/-- C71, partial: in histories in which qubits do not share parameter dictionaries (so an ancilla with its own parameters was
given to the first `cx`) `cx` leaves the dictionaries of all qubits as they are, and every qubit can be stabilized afterwards.
What is missing (and false, see `C71_false`): the ancilla that `cx` makes by default. -/
theorem C71_continues_partial (S : SaneState s) {c t : QArg} {ctype : Option Str} {p : Option Nat} (h : Sane s (.cx c t ctype p))
    (hk : s.treg.find? k = some q) :
    (cxT c t ctype p s).2.treg.find? k = some q ∧
    (cxT c t ctype p s).2.world.heap q.lat.pref = s.world.heap q.lat.pref ∧
    (onQubit (.idx k) .stabilize (cxT c t ctype p s).2).1 = .ok () := by
  have T := S.inv
  obtain ⟨-, b, hb, D⟩ := T.cx h
  obtain ⟨Tb, keep⟩ := T.before hb
  have hf : (cxT c t ctype p s).2.treg.find? k = some q := by
    rw [D.treg]; exact keep k q hk
  refine ⟨hf, ?_, ?_⟩
  · rw [D.heap]
    rcases hb with rfl | ⟨-, hp, -, ctype', rfl⟩
    · rfl
    · refine (T.addTqubit "ancilla".toList ctype' hp).2.2.1 _ ?_ (T.ref k q hk)
      intro e
      exact (hp _ e).2.2 k q hk rfl
  · obtain ⟨-, -, dh, dw, tt, O⟩ := (D.inv trivial).held k q hf
    unfold onQubit
    have : getIndex (.idx k) (cxT c t ctype p s).2 = (.ok q, (cxT c t ctype p s).2) := by unfold getIndex; simp only [hf]
    rw [CM.bind_ok this]
    show (q.op .stabilize _).1 = _
    rw [O.stabilize_run]

/-- C71 fails: whenever the first `cx` of a circuit is made without parameters for the ancilla and succeeds, a control qubit
that has been stabilized before can no longer be stabilized, because its round counter has been set back and the register of
its round 0 is already there. -/
theorem C71_false (S : SaneState s) (hk : s.treg.find? k = some q) (hround : q.lat.name ++ "_c0".toList ∈ s.world.circ.names)
    (hanc : s.treg.tqubits.get? "ancilla".toList = none) {t : QArg} (ht : Inside s t) {s' : TState}
    (h : cxT (.idx k) t none none s = (.ok (), s')) : (onQubit (.idx k) .stabilize s').1 = .error .nameTaken := by
  have T := S.inv
  obtain ⟨hname, -, dh, dw, tt, O⟩ := T.held k q hk
  have hne : (s.world.heap q.lat.pref).isEmpty = false := by
    unfold Params.isEmpty
    rw [O.T]; simp
  have gk : getIndex (.idx k) s = (.ok q, s) := by unfold getIndex; simp only [hk]
  -- the ancilla
  rw [cxT_eq] at h
  have e1 : ancillaKind (.idx k) none none s = (.ok (q.cls.ctype, some q.lat.pref), s) := by
    show (getIndex (.idx k) >>= fun q => pure (q.cls.ctype, some q.lat.pref) : TM (Str × Option Nat)) s = _
    rw [CM.bind_ok gk]; rfl
  rw [CM.bind_ok e1, CM.bind_ok gk] at h
  rcases getIndex_inside ht with ⟨kt, qt, ft, gt⟩ | gt
  swap
  · rw [CM.bind_error gt] at h; cases h
  rw [CM.bind_ok gt] at h
  have e2 : ensureAncilla (q.cls.ctype, some q.lat.pref) s = addTqubit "ancilla".toList q.cls.ctype (some q.lat.pref) s := by
    unfold ensureAncilla; rw [hanc]
  obtain ⟨u, b, h1, h⟩ := CM.bind_eq_ok h
  rw [e2] at h1
  rcases addTqubit_run "ancilla".toList q.cls.ctype (some q.lat.pref) s with ⟨hc, -⟩ | ⟨cls, hc, ⟨a, w, ha, hr⟩ | ⟨e, w, ha, hr⟩⟩
  · rw [str2qtype_ctype] at hc; cases hc
  swap
  · rw [hr] at h1; cases h1
  rw [hr, Prod.mk.injEq] at h1
  obtain ⟨-, rfl⟩ := h1
  obtain ⟨hpref, Sa, ⟨dh', dw', V, h0⟩, hown, hqr, hcr⟩ := newQubit_shared ha hne
  -- its place
  have hfind := stored_find T "ancilla".toList a (some q.lat.pref)
  have hkf : ((s.treg.touched "ancilla".toList).stored "ancilla".toList a (some q.lat.pref)).find? k = some q := by
    rw [hfind, if_neg]
    · exact hk
    · have := T.find_range hk; omega
  have hnames : ∀ n ∈ w.circ.names, n ∈ s.world.circ.names ∨ ∃ rest, n = qname s.treg.name s.treg.n ++ '_' :: rest := by
    intro n hn
    simp only [Circ.names, hqr, hcr, List.map_append, List.mem_append] at hn
    rcases hn with (hn | hn) | hn
    · exact Or.inl (List.mem_append_left _ hn)
    · obtain ⟨g, hg, rfl⟩ := List.mem_map.1 hn
      exact Or.inr (ownQreg_reserved (hown g hg))
    · exact Or.inl (List.mem_append_right _ hn)
  have hmem : ∀ n ∈ s.world.circ.names, n ∈ w.circ.names := by
    intro n hn
    simp only [Circ.names, List.mem_append] at hn
    simp only [Circ.names, hqr, hcr, List.map_append, List.mem_append]
    rcases hn with hn | hn
    · exact Or.inl (Or.inl hn)
    · exact Or.inr hn
  generalize hb : ({ s with world := w, treg := (s.treg.touched "ancilla".toList).stored "ancilla".toList a (some q.lat.pref) } : TState) = b at h
  have D0 : During False b b := by
    subst hb
    refine ⟨fun h => h.elim, ?_, ?_, rfl, rfl, rfl, ⟨[], by simp, by simp⟩, ⟨[], by simp, by simp⟩⟩
    · intro x hx
      rcases T.syncC x hx with ⟨h1, h2⟩ | ⟨h1, h2⟩
      · refine Or.inl ⟨h1, fun hm => ?_⟩
        rcases hnames _ hm with hm | ⟨rest', hm⟩
        · exact h2 hm
        · exact helper_ne (Or.inl hx) hm
      · exact Or.inr ⟨h1, by simp only [hcr]; exact h2⟩
    · rcases T.syncQ with ⟨h1, h2⟩ | ⟨h1, h2⟩
      · refine Or.inl ⟨h1, fun hm => ?_⟩
        rcases hnames _ hm with hm | ⟨rest', hm⟩
        · exact h2 hm
        · exact helper_ne (Or.inr rfl) hm
      · exact Or.inr ⟨h1, by simp only [hqr]; exact List.mem_append_left _ h2⟩
  -- it is the one `cx` takes
  have hlast : lastAncilla b = (.ok a, b) := by
    subst hb
    unfold lastAncilla
    have e : ((s.treg.touched "ancilla".toList).stored "ancilla".toList a (some q.lat.pref)).tqubits.get? "ancilla".toList = some [(s.treg.n, a)] := by
      have h1 : ((s.treg.touched "ancilla".toList).tqubits.get? "ancilla".toList) = some [] := by rw [touched_get, hanc]; rfl
      unfold TReg.stored
      rw [h1]
      simp only [Dict.get?_set_self, touched_n]
      rfl
    simp only [e]
    rfl
  rw [CM.bind_ok hlast] at h
  obtain ⟨D, -, -⟩ := safe_body (P := False) (b := b) (T.shaped hk) (T.shaped ft) Sa b D0
  rw [h] at D
  replace D : During False b s' := D
  -- the next round
  have hk' : s'.treg.find? k = some q := by rw [D.treg, ← hb]; exact hkf
  have hheap : s'.world.heap q.lat.pref = w.heap q.lat.pref := by rw [D.heap, ← hb]
  have htaken : q.lat.name ++ "_c0".toList ∈ s'.world.circ.names := by
    obtain ⟨e1, h1, -⟩ := D.qregs
    obtain ⟨e2, h2, -⟩ := D.cregs
    have := hmem _ hround
    have hbw : b.world = w := by rw [← hb]
    rw [hbw] at h1 h2
    simp only [Circ.names, List.mem_append] at this
    simp only [Circ.names, h1, h2, List.map_append, List.mem_append]
    rcases this with h | h
    · exact Or.inl (Or.inl h)
    · exact Or.inr (Or.inl h)
  unfold onQubit
  have : getIndex (.idx k) s' = (.ok q, s') := by unfold getIndex; simp only [hk']
  rw [CM.bind_ok this]
  show (q.stabilize s'.world).1 = _
  unfold TQubit.stabilize
  have n1 : q.lat.numSyn s'.world = (.ok (numSynX dh' dw', numSynZ dh' dw'), s'.world) := by
    unfold Lattice.numSyn Lattice.params
    rw [CM.bind_ok (getParams_run _ _), hheap]
    show (key _, _) = _
    rw [key_ok V.ns]
  unfold Lattice.params
  rw [CM.bind_ok n1, CM.bind_ok (getParams_run _ _), hheap, CM.bind_lift (key_ok V.T), CM.bind_ok (setParams_run _ _ _),
    CM.bind_lift (newReg_ok (numSyn_sum V.oddH V.oddW h0) _)]
  have : (q.lat.name ++ "_c".toList ++ strInt (-1 + 1)) = q.lat.name ++ "_c0".toList := by rw [List.append_assoc]; rfl
  rw [this, CM.bind_error (addCreg_taken ?_)]
  exact htaken

/-- Two qubits with dictionaries of their own; the first is stabilized. -/
def addThenStabilize : List TOp := [.addQubits "data".toList (some ["Repetition".toList, "XXZZ".toList]) (some [some 0, some 1]),
  .on (.idx 0) .stabilize]

/-- See `addThenStabilize`. -/
def stabilizedThenCx : TState := runOps addThenStabilize (TState.fresh "r".toList (oneSize (.tup [.int 3, .int 1])))

/-- The history is one the theorems above are about. -/
theorem stabilizedThenCx_sane : SaneState stabilizedThenCx := by
  refine ⟨"r".toList, oneSize (.tup [.int 3, .int 1]), addThenStabilize, ⟨⟨List.nodup_nil, List.nodup_nil, ?_, ?_⟩, ?_⟩, ⟨⟨?_, by decide⟩, trivial, trivial⟩, rfl⟩
  · intro q hq; cases hq
  · intro i hi; cases hi
  · intro n hn; cases hn
  · intro p hp r hr
    refine ⟨?_, ?_, ?_⟩
    · subst hr
      rcases List.mem_cons.1 hp with h | h
      · cases h; decide
      · rcases List.mem_cons.1 h with h | h
        · cases h; decide
        · cases h
    · intro n hn
      rcases List.mem_cons.1 hn with h | h
      · subst h; decide
      · rcases List.mem_cons.1 h with h | h
        · subst h; decide
        · cases h
    · intro k q hk; cases hk

example : (cxT (.idx 0) (.idx 1) none none stabilizedThenCx).1 = .ok () ∧
    (onQubit (.idx 0) .stabilize (cxT (.idx 0) (.idx 1) none none stabilizedThenCx).2).1 = .error .nameTaken := by decide +kernel

/-! ### C72 -/

/-- C72: a helper register with a known name is not made again, unless that is asked for. -/
theorem C72_known_names (s : TState) (n : Int) (x : Str) :
    ((s.creg.get? x).isSome → addCregT n x false s = (.ok (), s)) ∧ ((s.qreg.get? x).isSome → addQregT n x false s = (.ok (), s)) := by
  constructor
  · intro h
    obtain ⟨r, hr⟩ := Option.isSome_iff_exists.1 h
    exact addCregT_known hr
  · intro h
    obtain ⟨r, hr⟩ := Option.isSome_iff_exists.1 h
    exact addQregT_known hr

/-- C72: with an ancilla there, `cx` does not change the register of qubits, whatever its arguments and outcome. -/
theorem C72_ancilla_kept (s : TState) (c t : QArg) (ctype : Option Str) (p : Option Nat) {d : Dict Nat TQubit}
    (h : s.treg.tqubits.get? "ancilla".toList = some d) : (cxT c t ctype p s).2.treg = s.treg := by
  have H : Loose fun s' : TState => s'.treg = s.treg := loose_treg fun t => t = s.treg
  have ens : ∀ kind, Safe (fun s' => s'.treg = s.treg) (fun _ => True) (ensureAncilla kind) fun _ => True := by
    intro kind
    refine Safe.any (fun s' hs => ?_) fun _ => trivial
    have hd : s'.treg.tqubits.get? "ancilla".toList = some d := by rw [hs]; exact h
    unfold ensureAncilla
    simp only [hd]
    exact hs
  rw [cxT_eq]
  exact ((loose_ancillaKind.bind fun kind _ => loose_getIndex.bind fun c _ => loose_getIndex.bind fun t _ => (ens kind).bind fun _ _ =>
    loose_lastAncilla.bind fun a _ => H.cxBody) s rfl).1

/-- C72: any number of `cx` calls, with whatever arguments and outcomes, mixed with anything but direct additions to the
"ancilla" sub-register, makes at most one ancilla. -/
theorem C72_one_ancilla (ops : List TOp) (s : TState) (hs : s.treg.tqubits.get? "ancilla".toList = none)
    (h1 : ∀ cs ps, TOp.addQubits "ancilla".toList cs ps ∉ ops) (h2 : ∀ c p, TOp.addQubit "ancilla".toList c p ∉ ops) :
    ∀ d, (runOps ops s).treg.tqubits.get? "ancilla".toList = some d → d.length ≤ 1 := by
  refine oneAncilla_runOps ops ?_ ?_ s ?_
  · intro sub cs ps hm e; exact h1 cs ps (e ▸ hm)
  · intro sub c p hm e; exact h2 c p (e ▸ hm)
  · intro d hd; rw [hs] at hd; cases hd

/-- C72: with an ancilla there, `cx` adds no register but the helper registers it needs and that are not yet on the circuit, each of
them with one bit. -/
theorem C72_helper_registers (S : SaneState s) {c t : QArg} {ctype : Option Str} {p : Option Nat} (h : Sane s (.cx c t ctype p))
    {d : Dict Nat TQubit} (ha : s.treg.tqubits.get? "ancilla".toList = some d) :
    (cxT c t ctype p s).2.world.circ.names.Nodup ∧
    (∃ ext, (cxT c t ctype p s).2.world.circ.qregs = s.world.circ.qregs ++ ext ∧ ∀ r ∈ ext, r = ⟨helperQ, 1⟩ ∧ helperQ ∉ s.world.circ.names) ∧
    (∃ ext, (cxT c t ctype p s).2.world.circ.cregs = s.world.circ.cregs ++ ext ∧
      ∀ r ∈ ext, r.name ∈ helperC ∧ r.size = 1 ∧ r.name ∉ s.world.circ.names) := by
  obtain ⟨-, b, hb, D⟩ := S.inv.cx h
  have hb : b = s := by
    rcases hb with rfl | ⟨hn, -⟩
    · rfl
    · rw [ha] at hn; cases hn
  subst hb
  have N := wf_names (D.inv trivial).wf
  obtain ⟨e1, h1, g1⟩ := D.qregs
  obtain ⟨e2, h2, g2⟩ := D.cregs
  refine ⟨N, ⟨e1, h1, fun r hr => ⟨g1 r hr, ?_⟩⟩, ⟨e2, h2, fun r hr => ⟨(g2 r hr).1, (g2 r hr).2, ?_⟩⟩⟩
  · have hm : helperQ ∈ e1.map Reg.name := List.mem_map.2 ⟨r, hr, by rw [g1 r hr]⟩
    simp only [Circ.names, h1, h2, List.map_append, List.nodup_append, List.mem_append] at N
    simp only [Circ.names, List.mem_append, not_or]
    exact ⟨fun hx => N.1.2.2 _ hx _ hm rfl, fun hx => N.2.2 _ (Or.inr hm) _ (Or.inl hx) rfl⟩
  · have hm : r.name ∈ e2.map Reg.name := List.mem_map.2 ⟨r, hr, rfl⟩
    simp only [Circ.names, h1, h2, List.map_append, List.nodup_append, List.mem_append] at N
    simp only [Circ.names, List.mem_append, not_or]
    exact ⟨fun hx => N.2.2 _ (Or.inl hx) _ (Or.inr hm) rfl, fun hx => N.2.1.2.2 _ hx _ hm rfl⟩

/-- Two `cx` calls after each other. -/
def twoCx : TState := runOps [.addQubits "data".toList (some ["Repetition".toList, "XXZZ".toList]) (some [some 0, some 1]),
  .cx (.idx 0) (.idx 1) none none, .cx (.idx 1) (.idx 0) none none] (TState.fresh "r".toList (oneSize (.tup [.int 3, .int 1])))

example : ((twoCx.treg.tqubits.get? "ancilla".toList).map List.length) = some 1 ∧ twoCx.world.circ.cregs.map Reg.name = helperC ∧
    (twoCx.world.circ.qregs.map Reg.name).count helperQ = 1 := by decide +kernel

/-! ### C73 -/

/-- C73: `cx` raises `ValueError` and changes nothing if exactly one of type and parameters of the ancilla is given. -/
theorem C73_arguments (s : TState) (c t : QArg) (ctype : Option Str) (p : Option Nat) (h : ctype.isSome ≠ p.isSome) :
    cxT c t ctype p s = (.error .valueError, s) := by
  rw [cxT_eq]
  match ctype, p, h with
  | some _, some _, h => exact absurd rfl h
  | none, none, h => exact absurd rfl h
  | some _, none, _ => rfl
  | none, some _, _ => rfl

example (s : TState) : cxT (.idx 0) (.idx 1) (some "XXZZ".toList) none s = (.error .valueError, s) := C73_arguments s _ _ _ _ (by decide)

end Qtc
