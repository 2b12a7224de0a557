import Verif.Proof.Ops
/-!
Closed forms of the remaining operations, and what construction of a qubit leaves behind.
-/
namespace Qtc
open Spec

variable {L : Lattice} {dh dw : Int} {w : World}

/-! ### Partial stabilization, identities, controlled gates -/

theorem geometryX_length (dh dw : Int) : (geometryX dh dw).length = (numSynX dh dw).toNat := by
  simp [geometryX, pyRange]

theorem geometryZ_length (dh dw : Int) : (geometryZ dh dw).length = (numSynZ dh dw).toNat := by
  simp [geometryZ, pyRange]

theorem Placed.mx_some (P : Placed L dh dw w) (h : 0 < numSynX dh dw) :
    L.mx = some ⟨L.name ++ "_mx".toList, (numSynX dh dw).toNat⟩ := by
  rw [P.code_mx]
  exact if_pos h

theorem Placed.mz_some (P : Placed L dh dw w) (h : 0 < numSynZ dh dw) :
    L.mz = some ⟨L.name ++ "_mz".toList, (numSynZ dh dw).toNat⟩ := by
  rw [P.code_mz]
  exact if_pos h

theorem Placed.mx_none (P : Placed L dh dw w) (h : ¬ 0 < numSynX dh dw) : L.mx = none := by
  rw [P.code_mx]
  exact if_neg h

theorem Placed.mz_none (P : Placed L dh dw w) (h : ¬ 0 < numSynZ dh dw) : L.mz = none := by
  rw [P.code_mz]
  exact if_neg h

theorem zip_take_both {α β : Type} (l : List α) (m : List β) (n : Nat) : (l.take n).zip (m.take n) = (l.zip m).take n := by
  induction n generalizing l m with
  | zero => simp
  | succ n ih => cases l <;> cases m <;> simp [ih]

theorem zip_drop_both {α β : Type} (l : List α) (m : List β) (n : Nat) : (l.drop n).zip (m.drop n) = (l.zip m).drop n := by
  induction n generalizing l m with
  | zero => simp
  | succ n ih => cases l <;> cases m <;> simp [ih]

theorem Placed.emits_entangleX (P : Placed L dh dw w) (h : 0 < numSynX dh dw) :
    Emits w L.entangleX () (instrsChecks (xChecks L.code L.name dh dw)) := by
  unfold Lattice.entangleX
  have hn : L.numX = .ok (numSynX dh dw).toNat := by
    unfold Lattice.numX
    rw [P.mx_some h]
    rfl
  refine (Emits.lift hn).bind0 ?_
  have hz : (L.stabilizers.take (numSynX dh dw).toNat).zip (L.qubitIndices.take (numSynX dh dw).toNat) =
      xChecks L.code L.name dh dw := by
    rw [zip_take_both, P.checks]
    exact List.take_left' (by simp [xChecks, geometryX_length])
  have := emits_entangle_lists (w := w) (L := L) (st := L.stabilizers.take (numSynX dh dw).toNat)
    (qi := L.qubitIndices.take (numSynX dh dw).toNat) (by rw [P.code_stabs, P.code_plaqs]; simp)
    (by rw [hz]; exact P.xChecks_ok) (by
      rw [P.code_plaqs, List.take_left' (by simp [geometryX_length])]
      intro e
      have := congrArg List.length e
      rw [List.length_map, geometryX_length] at this
      simp at this
      omega)
  unfold instrsAll at this
  rwa [hz] at this

theorem Placed.emits_entangleZ (P : Placed L dh dw w) (h : 0 < numSynX dh dw) (h' : 0 < numSynZ dh dw) :
    Emits w L.entangleZ () (instrsChecks (zChecks L.code L.name dh dw)) := by
  unfold Lattice.entangleZ
  have hn : L.numX = .ok (numSynX dh dw).toNat := by
    unfold Lattice.numX
    rw [P.mx_some h]
    rfl
  refine (Emits.lift hn).bind0 ?_
  have hz : (L.stabilizers.drop (numSynX dh dw).toNat).zip (L.qubitIndices.drop (numSynX dh dw).toNat) =
      zChecks L.code L.name dh dw := by
    rw [zip_drop_both, P.checks]
    exact List.drop_left' (by simp [xChecks, geometryX_length])
  have := emits_entangle_lists (w := w) (L := L) (st := L.stabilizers.drop (numSynX dh dw).toNat)
    (qi := L.qubitIndices.drop (numSynX dh dw).toNat) (by rw [P.code_stabs, P.code_plaqs]; simp)
    (by rw [hz]; exact P.zChecks_ok) (by
      rw [P.code_plaqs, List.drop_left' (by simp [geometryX_length])]
      intro e
      have := congrArg List.length e
      rw [List.length_map, geometryZ_length] at this
      simp at this
      omega)
  unfold instrsAll at this
  rwa [hz] at this

/-- Instructions of `id`. -/
def idInstrs (L : Lattice) : List Instr := (L.qregs.flatMap Reg.qubits).map (fun q => .gate1 .id q none) ++ [.barrier]

theorem optReg_pos {n : Int} {name : Str} {r : Reg} (h : r ∈ (optReg n name).toList) : 0 < r.size := by
  unfold optReg at h
  split at h
  · simp at h
    subst h
    simpa
  · simp at h

theorem Placed.reg_pos (P : Placed L dh dw w) {r : Reg} (h : r ∈ L.qregs) : 0 < r.size := by
  unfold Lattice.qregs at h
  simp only [List.mem_append, List.mem_singleton] at h
  rcases h with ((h | h) | h) | h
  · rw [h, P.code_data]
    have := P.size_pos
    show 0 < (dh * dw).toNat
    omega
  · rw [P.code_mz] at h; exact optReg_pos h
  · rw [P.code_mx] at h; exact optReg_pos h
  · rw [h, P.code_anc]; exact Nat.zero_lt_one

theorem Placed.emits_id {q : TQubit} (P : Placed q.lat dh dw w) : Emits w q.id () (idInstrs q.lat) := by
  unfold TQubit.id idInstrs
  refine Emits.bind (a := ()) ?_ Emits.barrier
  rw [List.map_flatMap]
  refine Emits.forEach fun r hr => emits_gate1 ?_ fun x hx => mem_qubits_of_reg (P.qregs r hr) hx
  exact List.ne_nil_of_mem (Reg.mem_qubits.2 ⟨(rfl : (⟨r.name, 0⟩ : Qubit).reg = r.name), P.reg_pos hr⟩)

theorem Placed.emits_idData {q : TQubit} (P : Placed q.lat dh dw w) :
    Emits w q.idData () ((dataQs q.lat.name dh dw).map (fun x => .gate1 .id x none) ++ [.barrier]) := by
  unfold TQubit.idData
  rw [P.data_qubits]
  exact (emits_gate1 (dataQs_ne_nil P) (mem_dataQs P)).bind Emits.barrier

/-- Instructions of `cx(control=c)`. -/
def cxInstrs (code : Code) (name : Str) (dh dw : Int) (c : Qubit) : List Instr :=
  (colQubits dh dw 0).map (fun i => .gate2 (code.ctrlX i) c (dataQ name i)) ++ [.barrier]

theorem Placed.emits_cx_control (P : Placed L dh dw w) {c : Qubit} (t : Option Qubit) (hc : c ∈ w.circ.qubits)
    (hn : c ∉ dataQs L.name dh dw) : Emits w (L.cx (some c) t) () (cxInstrs L.code L.name dh dw c) := by
  unfold Lattice.cx cxInstrs
  refine P.columnIdx.bind0 (Emits.bind (a := ()) ?_ Emits.barrier)
  rw [← flatMap_single]
  refine Emits.forEach fun i hi => ?_
  have hr := col_range P.odd i hi
  refine (P.emits_dataAt hr).bind0 (emits_gate2_one hc (P.dataQ_mem hr.1 hr.2) ?_)
  rintro rfl
  exact hn (List.mem_map_of_mem (mem_allQubits.2 hr))

theorem Placed.emits_cx_target (P : Placed L dh dw w) (h : 1 < dw ∨ L.code = .xxzz) {t : Qubit} (ht : t ∈ w.circ.qubits)
    (hn : t ≠ ancQ L.name) :
    Emits w (L.cx none (some t)) () (intoAncillaZ L.code L.name dh dw ++ [.gate2 .cx (ancQ L.name) t]) := by
  unfold Lattice.cx
  simp only
  rw [P.anc_qubits]
  exact (P.emits_readoutZIntoAncilla h).bind (emits_gate2_one P.ancQ_mem ht (Ne.symm hn))

/-! ### Construction -/

theorem CM.bind_eq_ok {σ α β : Type} {x : CM σ α} {f : α → CM σ β} {s s'' : σ} {b : β}
    (h : (x >>= f) s = (.ok b, s'')) : ∃ a s', x s = (.ok a, s') ∧ f a s' = (.ok b, s'') := by
  rw [CM.bind_run] at h
  rcases hx : x s with ⟨_ | a, s'⟩
  · rw [hx] at h; simp at h
  · rw [hx] at h; exact ⟨a, s', rfl, h⟩

theorem CM.lift_eq_ok {σ α β : Type} {x : Py α} {f : α → CM σ β} {s s'' : σ} {b : β}
    (h : (CM.lift x >>= f) s = (.ok b, s'')) : ∃ a, x = .ok a ∧ f a s = (.ok b, s'') := by
  obtain ⟨a, s', h1, h2⟩ := CM.bind_eq_ok h
  rw [CM.lift_run, Prod.mk.injEq] at h1
  exact ⟨a, h1.1, h1.2 ▸ h2⟩

theorem key_eq_ok {α : Type} {v : Option α} {a : α} (h : key v = .ok a) : v = some a := by
  cases v with
  | none => cases h
  | some b => cases h; rfl

theorem newReg_eq_ok {n : Int} {name : Str} {r : Reg} (h : newReg n name = .ok r) : 0 ≤ n ∧ r = ⟨name, n.toNat⟩ := by
  unfold newReg at h
  split at h
  · cases h
  · cases h; exact ⟨by omega, rfl⟩

/-- The world after adding quantum registers. -/
def World.addQs (w : World) (l : List Reg) : World := { w with circ := { w.circ with qregs := w.circ.qregs ++ l } }

@[simp] theorem World.addQs_heap (w : World) (l : List Reg) : (w.addQs l).heap = w.heap := rfl
@[simp] theorem World.addQs_next (w : World) (l : List Reg) : (w.addQs l).next = w.next := rfl
@[simp] theorem World.addQs_qregs (w : World) (l : List Reg) : (w.addQs l).circ.qregs = w.circ.qregs ++ l := rfl
@[simp] theorem World.addQs_cregs (w : World) (l : List Reg) : (w.addQs l).circ.cregs = w.circ.cregs := rfl
@[simp] theorem World.addQs_instrs (w : World) (l : List Reg) : (w.addQs l).circ.instrs = w.circ.instrs := rfl

theorem addQreg_ok {r : Reg} (h : r.name ∉ w.circ.names) : addQreg r w = (.ok (), w.addQs [r]) := by
  unfold addQreg
  rw [if_neg (by simpa using h)]
  rfl

theorem addQreg_taken {r : Reg} (h : r.name ∈ w.circ.names) : addQreg r w = (.error .nameTaken, w) := by
  unfold addQreg
  rw [if_pos (by simpa using h)]

theorem names_addQs (w : World) (r : Reg) (n : Str) : n ∈ (w.addQs [r]).circ.names ↔ n = r.name ∨ n ∈ w.circ.names := by
  simp only [Circ.names, World.addQs_qregs, World.addQs_cregs, List.map_append, List.mem_append, List.map_cons, List.map_nil,
    List.mem_singleton]
  tauto

theorem addQs_addQs (w : World) (l m : List Reg) : (w.addQs l).addQs m = w.addQs (l ++ m) := by
  unfold World.addQs
  simp

theorem addQregs_ok {l : List Reg} (h1 : ∀ r ∈ l, r.name ∉ w.circ.names) (h2 : (l.map Reg.name).Nodup) :
    CM.forEach l addQreg w = (.ok (), w.addQs l) := by
  induction l generalizing w with
  | nil => simp [CM.forEach_nil, CM.pure_run, World.addQs]
  | cons r l ih =>
    rw [CM.forEach_cons, CM.bind_ok (addQreg_ok (h1 r (by simp))), ih, addQs_addQs, List.singleton_append]
    · intro s hs
      rw [names_addQs]
      rintro (e | e)
      · rw [List.map_cons, List.nodup_cons] at h2
        exact h2.1 (e ▸ List.mem_map_of_mem hs)
      · exact h1 s (by simp [hs]) e
    · rw [List.map_cons, List.nodup_cons] at h2
      exact h2.2

theorem addQregs_inv {l : List Reg} {w' : World} (h : CM.forEach l addQreg w = (.ok (), w')) :
    w' = w.addQs l ∧ (∀ r ∈ l, r.name ∉ w.circ.names) ∧ (l.map Reg.name).Nodup := by
  induction l generalizing w with
  | nil =>
    rw [CM.forEach_nil, CM.pure_run, Prod.mk.injEq] at h
    refine ⟨?_, by simp, by simp⟩
    rw [← h.2]
    simp [World.addQs]
  | cons r l ih =>
    rw [CM.forEach_cons] at h
    obtain ⟨_, w1, h1, h2⟩ := CM.bind_eq_ok h
    by_cases hr : r.name ∈ w.circ.names
    · rw [addQreg_taken hr, Prod.mk.injEq] at h1
      cases h1.1
    · rw [addQreg_ok hr, Prod.mk.injEq] at h1
      obtain ⟨-, rfl⟩ := h1
      obtain ⟨e, e1, e2⟩ := ih h2
      refine ⟨by rw [e, addQs_addQs]; rfl, ?_, ?_⟩
      · intro s hs
        rcases List.mem_cons.1 hs with rfl | hs
        · exact hr
        · intro hm
          exact e1 s hs ((names_addQs w r _).2 (Or.inr hm))
      · rw [List.map_cons, List.nodup_cons]
        refine ⟨?_, e2⟩
        intro hm
        obtain ⟨s, hs, e'⟩ := List.mem_map.1 hm
        exact e1 s hs ((names_addQs w r _).2 (Or.inl e'))

theorem mapM_all_ok {α β : Type} {f : α → Py β} {g : α → β} {l : List α} (h : ∀ a ∈ l, f a = .ok (g a)) :
    l.mapM f = .ok (l.map g) := by
  induction l with
  | nil => rfl
  | cons a l ih =>
    rw [List.mapM_cons, h a (by simp), ih fun b hb => h b (by simp [hb])]
    rfl

theorem cornerQubit_ok {name : Str} {o : Option Int} (h : ∀ i, o = some i → 0 ≤ i ∧ i < dh * dw) :
    cornerQubit ⟨name ++ "_data".toList, (dh * dw).toNat⟩ o = .ok (o.map (dataQ name)) := by
  cases o with
  | none => rfl
  | some i =>
    have := h i rfl
    have e : Reg.at ⟨name ++ "_data".toList, (dh * dw).toNat⟩ i = .ok ⟨name ++ "_data".toList, i.toNat⟩ :=
      Reg.at_ok this.1 (by show i < ((dh * dw).toNat : Int); omega)
    simp only [cornerQubit, e, bind, Except.bind, pure, Except.pure]
    rfl

theorem qplaq_ok {name : Str} {p : Plaq} {n : Int} {s : Str} {syn : Str → Int → Qubit} (hsyn : ∀ i, syn name i = ⟨name ++ s, i.toNat⟩)
    (hp : ∀ i, some i ∈ p.corners → 0 ≤ i ∧ i < dh * dw) (hs : 0 ≤ p.syn ∧ p.syn < n) :
    qplaq ⟨name ++ "_data".toList, (dh * dw).toNat⟩ (optReg n (name ++ s)) p = .ok (plaqOf name syn p) := by
  have q1 : ∀ i, p.tl = some i → 0 ≤ i ∧ i < dh * dw := fun i e => hp i (by simp [Plaq.corners, e])
  have q2 : ∀ i, p.tr = some i → 0 ≤ i ∧ i < dh * dw := fun i e => hp i (by simp [Plaq.corners, e])
  have q3 : ∀ i, p.bl = some i → 0 ≤ i ∧ i < dh * dw := fun i e => hp i (by simp [Plaq.corners, e])
  have q4 : ∀ i, p.br = some i → 0 ≤ i ∧ i < dh * dw := fun i e => hp i (by simp [Plaq.corners, e])
  unfold qplaq optReg
  rw [if_pos (by omega), cornerQubit_ok q1, cornerQubit_ok q2, cornerQubit_ok q3, cornerQubit_ok q4]
  have e : Reg.at ⟨name ++ s, n.toNat⟩ p.syn = .ok ⟨name ++ s, p.syn.toNat⟩ :=
    Reg.at_ok hs.1 (by show p.syn < (n.toNat : Int); omega)
  simp only [key, e, bind, Except.bind, pure, Except.pure, plaqOf, hsyn]

theorem genPlaqs_ok (H : OddPos dh dw) (code : Code) (name : Str) :
    genPlaqs code dh dw ⟨name ++ "_data".toList, (dh * dw).toNat⟩ (optReg (numSynX dh dw) (name ++ "_mx".toList))
      (optReg (numSynZ dh dw) (name ++ "_mz".toList)) =
    .ok ((mkLattice code dh dw name 0).qubitIndices, (mkLattice code dh dw name 0).stabilizers) := by
  unfold genPlaqs
  rw [mapM_all_ok (g := plaqOf name mxQ) fun p hp => qplaq_ok (fun _ => rfl) (plaqX_idx_range H p hp) (geometryX_syn hp),
    mapM_all_ok (g := plaqOf name mzQ) fun p hp => qplaq_ok (fun _ => rfl) (plaqZ_idx_range H p hp) (geometryZ_syn hp)]
  simp only [bind, Except.bind, pure, Except.pure, mkLattice, List.map_map]
  rfl

theorem rotatedSize_shape {d : Option DVal} {l : List Int} {a b : Int} (h : rotatedSize d = .ok (l, a, b)) :
    ∃ rest, l = a :: b :: rest := by
  unfold rotatedSize at h
  simp only [bind, Except.bind, pure, Except.pure] at h
  split at h
  · cases h
  · rename_i l' _
    rcases l' with _ | ⟨x, _ | ⟨y, l''⟩⟩
    · simp [pyIdx] at h
    · simp [pyIdx] at h
    · simp [pyIdx] at h
      obtain ⟨rfl, rfl, rfl⟩ := h
      exact ⟨l'', rfl⟩

/-- What a validated dictionary holds. -/
structure Validated (p : Params) (dh dw : Int) : Prop where
  d : ∃ rest, p.d = some (.tup (.int dh :: .int dw :: rest))
  oddH : dh % 2 = 1
  oddW : dw % 2 = 1
  nd : p.numData = some (dh * dw)
  ns : p.numSyn = some (numSynX dh dw, numSynZ dh dw)
  T : p.T = some (-1)
  nr : p.numReadout = some (-1)
  nl : p.numLatticeReadout = some (-1)

theorem rotatedValidate_inv {p p' : Params} (h : rotatedValidate p = .ok p') : ∃ dh dw, Validated p' dh dw := by
  unfold rotatedValidate at h
  rcases hs : rotatedSize p.d with e | ⟨l, a, b⟩
  · rw [hs] at h; cases h
  · rw [hs] at h
    obtain ⟨rest, rfl⟩ := rotatedSize_shape hs
    simp only [bind, Except.bind] at h
    split at h
    · cases h
    · rename_i hn
      simp only [fmod_pos_eq _ (show (0 : Int) ≤ 2 by decide), not_or, not_not] at hn
      cases h
      exact ⟨a, b, ⟨_, rfl⟩, hn.1, hn.2, rfl, rfl, rfl, rfl, rfl⟩

theorem setP_setP (r : Nat) (p p' : Params) : (w.setP r p).setP r p' = w.setP r p' := by
  unfold World.setP
  congr 1
  funext k
  simp only
  split <;> rfl

theorem newLattice_valid {code : Code} {name : Str} {pref : Nat} {p : Params} (hp : rotatedValidate (w.heap pref) = .ok p) :
    newLattice code name pref w = (do
      let dh ← CM.lift (p.dim 0)
      let dw ← CM.lift (p.dim 1)
      let nd ← CM.lift (key p.numData)
      let ns ← CM.lift (key p.numSyn)
      let data ← CM.lift (newReg nd (name ++ "_data".toList))
      let mz := optReg ns.2 (name ++ "_mz".toList)
      let mx := optReg ns.1 (name ++ "_mx".toList)
      let ancilla : Reg := ⟨name ++ "_ancilla".toList, 1⟩
      CM.forEach ([data] ++ mz.toList ++ mx.toList ++ [ancilla]) addQreg
      let pl ← CM.lift (genPlaqs code dh dw data mx mz)
      return { code, name, pref, data, mz, mx, ancilla, qubitIndices := pl.1, stabilizers := pl.2 } : WM Lattice) (w.setP pref p) := by
  unfold newLattice
  rw [CM.bind_ok (getParams_run _ _), CM.bind_ok (setParams_run _ _ _), CM.bind_lift hp, CM.bind_ok (setParams_run _ _ _), setP_setP]

/-- A rejected dictionary. -/
theorem newLattice_invalid {code : Code} {name : Str} {pref : Nat} {e : PyErr} (hp : rotatedValidate (w.heap pref) = .error e) :
    newLattice code name pref w = (.error e, w.setP pref (rotatedTouched (w.heap pref))) := by
  unfold newLattice
  rw [CM.bind_ok (getParams_run _ _), CM.bind_ok (setParams_run _ _ _), hp]
  rfl

theorem checkRep_not {cls : QClass} (h : cls ≠ .rep) (r : Nat) : checkRep cls r w = (.ok (), w) := by
  unfold checkRep
  rw [if_neg h, CM.pure_run]

theorem checkRep_valid {cls : QClass} {r : Nat} {p : Params} (h : cls = .rep) (hp : repValidate (w.heap r) = .ok p) :
    checkRep cls r w = (.ok (), w.setP r p) := by
  unfold checkRep
  rw [if_pos h, CM.bind_ok (getParams_run _ _), CM.bind_ok (setParams_run _ _ _), CM.bind_lift hp, setParams_run, setP_setP]

theorem checkRep_invalid {cls : QClass} {r : Nat} {e : PyErr} (h : cls = .rep) (hp : repValidate (w.heap r) = .error e) :
    checkRep cls r w = (.error e, w.setP r (repTouched (w.heap r))) := by
  unfold checkRep
  rw [if_pos h, CM.bind_ok (getParams_run _ _), CM.bind_ok (setParams_run _ _ _), hp]
  rfl

theorem checkRep_inv {cls : QClass} {r : Nat} {w' : World} {u : Unit} (h : checkRep cls r w = (.ok u, w')) :
    (cls ≠ .rep ∧ w' = w) ∨ (cls = .rep ∧ ∃ p, repValidate (w.heap r) = .ok p ∧ w' = w.setP r p) := by
  by_cases hc : cls = .rep
  · rcases hp : repValidate (w.heap r) with e | p
    · rw [checkRep_invalid hc hp] at h; cases h
    · rw [checkRep_valid hc hp] at h; cases h
      exact Or.inr ⟨hc, p, rfl, rfl⟩
  · rw [checkRep_not hc] at h; cases h
    exact Or.inl ⟨hc, rfl⟩

/-- Inversion of construction. -/
theorem newLattice_inv {code : Code} {name : Str} {pref : Nat} {w' : World} (h : newLattice code name pref w = (.ok L, w')) :
    ∃ p dh dw, rotatedValidate (w.heap pref) = .ok p ∧ Validated p dh dw ∧
      (0 < dh → 0 < dw → L = mkLattice code dh dw name pref ∧ w' = (w.setP pref p).addQs L.qregs ∧
        (∀ r ∈ L.qregs, r.name ∉ w.circ.names) ∧ (L.qregs.map Reg.name).Nodup) ∧ w'.heap = (w.setP pref p).heap ∧
      L.pref = pref ∧ L.name = name ∧ L.code = code := by
  rcases hp : rotatedValidate (w.heap pref) with e | p
  · rw [newLattice_invalid hp] at h; cases h
  rw [newLattice_valid hp] at h
  obtain ⟨dh, dw, V⟩ := rotatedValidate_inv hp
  obtain ⟨rest, hd⟩ := V.d
  rw [CM.bind_lift (dim_zero hd), CM.bind_lift (dim_one hd), CM.bind_lift (key_ok V.nd),
    CM.bind_lift (key_ok V.ns)] at h
  obtain ⟨data, hdata, h⟩ := CM.lift_eq_ok h
  obtain ⟨hn0, rfl⟩ := newReg_eq_ok hdata
  obtain ⟨_, w2, h2, h⟩ := CM.bind_eq_ok h
  obtain ⟨rfl, hf, hnd⟩ := addQregs_inv h2
  obtain ⟨pl, hpl, h⟩ := CM.lift_eq_ok h
  rw [CM.pure_run, Prod.mk.injEq] at h
  obtain ⟨hL, hw⟩ := h
  cases hL
  refine ⟨p, dh, dw, rfl, V, ?_, ?_, rfl, rfl, rfl⟩
  · intro h0 h0'
    rw [genPlaqs_ok ⟨h0, V.oddH, h0', V.oddW⟩] at hpl
    cases hpl
    exact ⟨rfl, hw.symm, hf, hnd⟩
  · rw [← hw]; rfl

theorem mkLattice_qregs_nodup (code : Code) (dh dw : Int) (name : Str) (pref : Nat) :
    ((mkLattice code dh dw name pref).qregs.map Reg.name).Nodup := by
  unfold Lattice.qregs mkLattice optReg
  split <;> split <;> simp

/-- Construction succeeds when the size is valid and positive and the names are free. -/
theorem newLattice_ok {code : Code} {name : Str} {pref : Nat} {p : Params} (hp : rotatedValidate (w.heap pref) = .ok p)
    (V : Validated p dh dw) (h0 : 0 < dh) (h1 : 0 < dw)
    (hf : ∀ r ∈ (mkLattice code dh dw name pref).qregs, r.name ∉ w.circ.names) :
    newLattice code name pref w = (.ok (mkLattice code dh dw name pref),
      (w.setP pref p).addQs (mkLattice code dh dw name pref).qregs) := by
  obtain ⟨rest, hd⟩ := V.d
  rw [newLattice_valid hp, CM.bind_lift (dim_zero hd),
    CM.bind_lift (dim_one hd), CM.bind_lift (key_ok V.nd), CM.bind_lift (key_ok V.ns),
    CM.bind_lift (newReg_ok (Int.mul_nonneg (by omega) (by omega)) _)]
  have := addQregs_ok (w := w.setP pref p) (l := (mkLattice code dh dw name pref).qregs) hf (mkLattice_qregs_nodup _ _ _ _ _)
  refine (CM.bind_ok this).trans ((CM.bind_lift (genPlaqs_ok ⟨h0, V.oddH, h1, V.oddW⟩ _ _)).trans ?_)
  rfl

end Qtc
