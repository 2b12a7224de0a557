import Verif.Proof.TMore
/-!
Histories in which qubits may share dictionaries: sizes and names stay in order.
-/
namespace Qtc
open Spec

variable {α β : Type} {P : Str → Prop} {L : Lattice} {w w' : World} {s : TState}

/-! ### Sizes in dictionaries -/

/-- The dictionary holds the size `dh`, `dw` and what is made from it. -/
def Params.Dims (p : Params) (dh dw : Int) : Prop :=
  (∃ rest, p.d = some (.tup (.int dh :: .int dw :: rest))) ∧ p.numData = some (dh * dw) ∧ p.numSyn = some (numSynX dh dw, numSynZ dh dw)

/-- The dictionary holds a tuple that a repetition code can be made from. -/
def Params.RepFits (p : Params) : Prop :=
  ∃ l n, p.d = some (.tup l) ∧ l[if p.pfp.getD false then 0 else 1]? = some n ∧ n.isOne = true

/-- The size stays. -/
structure SameSize (p p' : Params) : Prop where
  dims : ∀ dh dw, p.Dims dh dw → p'.Dims dh dw
  nonneg : NonNeg p.d → NonNeg p'.d
  rep : p.RepFits → p'.RepFits

theorem SameSize.refl (p : Params) : SameSize p p := ⟨fun _ _ h => h, id, id⟩

theorem SameSize.trans {p p' p'' : Params} (h : SameSize p p') (h' : SameSize p' p'') : SameSize p p'' :=
  ⟨fun dh dw x => h'.dims dh dw (h.dims dh dw x), fun x => h'.nonneg (h.nonneg x), fun x => h'.rep (h.rep x)⟩

theorem SameSize.of_dims {p p' : Params} (h : SameDims p p') (hp : p'.pfp = p.pfp) : SameSize p p' := by
  obtain ⟨h1, h2, h3⟩ := h
  exact ⟨fun dh dw x => by unfold Params.Dims; rw [h1, h2, h3]; exact x, fun x => by rw [h1]; exact x,
    fun x => by unfold Params.RepFits; rw [h1, hp]; exact x⟩

theorem Num.isOne_toInt {n : Num} (h : n.isOne = true) : n.toInt = 1 := by
  cases n with
  | int n => exact eq_of_beq h
  | flt q => rw [show q = 1 from eq_of_beq h]; rfl

theorem repValidate_fits {p p' : Params} (h : repValidate p = .ok p') : p'.RepFits := by
  have sub : ∀ {l : List Num} {k : Nat} {n : Num}, pyIdx l k = .ok n → l[k]? = some n := by
    intro l k n h
    by_cases hk : k < l.length
    · rw [pyIdx_nat (by omega) (List.getElem?_eq_getElem (i := k) hk)] at h
      rw [List.getElem?_eq_getElem hk, ← Except.ok.inj h]
    · exfalso
      unfold pyIdx at h
      simp only [show ¬ ((k : Int) < 0) by omega, if_false, Int.toNat_natCast, List.getElem?_eq_none (Nat.not_lt.1 hk)] at h
      cases h
  unfold repValidate at h
  simp only [bind, Except.bind, pure, Except.pure] at h
  cases hpf : p.pfp.getD false <;> rw [hpf] at h <;> simp only [Bool.not_false, Bool.not_true, if_true, if_false, Bool.false_eq_true] at h
  all_goals
    split at h
    · cases h
      exact ⟨_, _, rfl, rfl, rfl⟩
    · cases h
      exact ⟨_, _, rfl, rfl, rfl⟩
    · rename_i l hl
      split at h
      · cases h
      · rename_i n hn
        split at h
        · cases h
        · rename_i h1
          cases h
          exact ⟨l, n, hl, sub hn, by simpa using h1⟩
    · cases h

theorem toIntTuple_nonneg {v : DVal} (hv : NonNeg (some v)) {l : List Int} (hl : toIntTuple v = .ok l) : ∀ x ∈ l, 0 ≤ x := by
  intro x hx
  cases v with
  | num n => cases hl
  | tup m =>
    cases hl
    obtain ⟨n, hn, rfl⟩ := List.mem_map.1 hx
    exact hv n hn
  | lst m =>
    cases hl
    obtain ⟨n, hn, rfl⟩ := List.mem_map.1 hx
    exact hv n hn
  | str s =>
    obtain ⟨c, -, e⟩ := mapM_mem hl x hx
    exact intOfChar_nonneg e
  | other => cases hl

theorem rotatedSize_nonneg_all {d : Option DVal} {l : List Int} {a b : Int} (h : rotatedSize d = .ok (l, a, b)) (hd : NonNeg d) : ∀ x ∈ l, 0 ≤ x := by
  unfold rotatedSize at h
  simp only [bind, Except.bind, pure, Except.pure] at h
  split at h
  · cases h
  · rename_i l' hl'
    have hall : ∀ x ∈ l', 0 ≤ x := by
      refine toIntTuple_nonneg ?_ hl'
      cases d with
      | none => simp only [Option.getD]; intro n hn; simp only [List.mem_cons, List.not_mem_nil, or_false] at hn; rcases hn with rfl | rfl <;> decide
      | some v =>
        simp only [Option.getD]
        cases v with
        | num n =>
          intro m hm
          simp only [List.mem_cons, List.not_mem_nil, or_false] at hm
          rcases hm with rfl | rfl <;> exact hd
        | _ => exact hd
    split at h
    · cases h
    · split at h
      · cases h
      · cases h
        exact hall

theorem rotatedValidate_sameSize {p p' : Params} (h : rotatedValidate p = .ok p') : SameSize p p' := by
  unfold rotatedValidate at h
  rcases hs : rotatedSize p.d with e | ⟨l, a, b⟩
  · rw [hs] at h; cases h
  rw [hs] at h
  simp only [bind, Except.bind] at h
  split at h
  · cases h
  cases h
  constructor
  · rintro dh dw ⟨⟨rest, hd⟩, h1, h2⟩
    rw [hd] at hs
    cases hs
    exact ⟨⟨(rest.map Num.toInt).map .int, rfl⟩, rfl, rfl⟩
  · intro hn m hm
    obtain ⟨x, hx, rfl⟩ := List.mem_map.1 hm
    exact rotatedSize_nonneg_all hs hn x hx
  · rintro ⟨l', n, hd, hl, h1⟩
    rw [hd] at hs
    unfold rotatedSize at hs
    simp only [Option.getD, toIntTuple, bind, Except.bind, pure, Except.pure] at hs
    split at hs
    · cases hs
    · split at hs
      · cases hs
      · cases hs
        refine ⟨_, .int n.toInt, rfl, ?_, ?_⟩
        · show ((l'.map Num.toInt).map Num.int)[_]? = _
          rw [List.getElem?_map, List.getElem?_map]
          exact congrArg (fun x => (x.map Num.toInt).map Num.int) hl
        · rw [Num.isOne_toInt h1]; rfl

theorem repValidate_sameSize {p p' : Params} (h : repValidate p = .ok p') : SameSize p p' := by
  refine ⟨?_, repValidate_nonneg h, fun _ => repValidate_fits h⟩
  rintro dh dw ⟨⟨rest, hd⟩, h1, h2⟩
  unfold repValidate at h
  simp only [hd, bind, Except.bind, pure, Except.pure] at h
  split at h
  · split at h
    · cases h
    · split at h
      · cases h
      · cases h; exact ⟨⟨rest, rfl⟩, h1, h2⟩
  · split at h
    · cases h
    · split at h
      · cases h
      · cases h; exact ⟨⟨rest, rfl⟩, h1, h2⟩

theorem rotatedTouched_sameSize (p : Params) : SameSize p (rotatedTouched p) := by
  refine ⟨?_, ?_, ?_⟩
  · rintro dh dw ⟨⟨rest, hd⟩, h1, h2⟩
    refine ⟨⟨(rest.map Num.toInt).map .int, ?_⟩, h1, h2⟩
    unfold rotatedTouched
    rw [hd]
    rfl
  · intro hn
    unfold rotatedTouched
    cases hd : p.d with
    | none => intro m hm; simp only [List.map_cons, List.map_nil, List.mem_cons, List.not_mem_nil, or_false] at hm; rcases hm with rfl | rfl <;> decide
    | some v =>
      rw [hd] at hn
      cases v with
      | num n =>
        intro m hm
        simp only [List.mem_cons, List.not_mem_nil, or_false] at hm
        rcases hm with rfl | rfl <;> exact hn
      | other => trivial
      | str s =>
        simp only [Option.getD_some]
        rcases hl : toIntTuple (.str s) with e | l
        · trivial
        · intro m hm
          obtain ⟨x, hx, rfl⟩ := List.mem_map.1 hm
          exact toIntTuple_nonneg hn hl x hx
      | tup l =>
        intro m hm
        obtain ⟨x, hx, rfl⟩ := List.mem_map.1 hm
        exact toIntTuple_nonneg hn rfl x hx
      | lst l =>
        intro m hm
        obtain ⟨x, hx, rfl⟩ := List.mem_map.1 hm
        exact toIntTuple_nonneg hn rfl x hx
  · rintro ⟨l', n, hd, hl, h1⟩
    refine ⟨(l'.map Num.toInt).map Num.int, .int n.toInt, ?_, ?_, ?_⟩
    · unfold rotatedTouched
      rw [hd]
      rfl
    · show ((l'.map Num.toInt).map Num.int)[_]? = _
      rw [List.getElem?_map, List.getElem?_map]
      exact congrArg (fun x => (x.map Num.toInt).map Num.int) hl
    · rw [Num.isOne_toInt h1]; rfl

theorem repTouched_sameSize (p : Params) : SameSize p (repTouched p) := by
  unfold repTouched
  split
  · exact repValidate_sameSize ‹_›
  · exact ⟨fun _ _ h => h, fun h => h, fun h => h⟩

/-! ### Tame methods -/

/-- Registers and sizes stay; names that come in satisfy `P`. -/
structure Tame (P : Str → Prop) (w w' : World) : Prop where
  next : w.next ≤ w'.next
  heap : ∀ k, k < w.next → SameSize (w.heap k) (w'.heap k)
  qregs : ∀ r ∈ w.circ.qregs, r ∈ w'.circ.qregs
  cregs : ∀ r ∈ w.circ.cregs, r ∈ w'.circ.cregs
  names : ∀ n ∈ w'.circ.names, n ∈ w.circ.names ∨ P n

theorem Tame.refl (P : Str → Prop) (w : World) : Tame P w w := ⟨Nat.le_refl _, fun _ _ => SameSize.refl _, fun _ h => h, fun _ h => h, fun _ h => Or.inl h⟩

theorem Tame.trans {w w' w'' : World} (h : Tame P w w') (h' : Tame P w' w'') : Tame P w w'' := by
  refine ⟨Nat.le_trans h.next h'.next, fun k hk => (h.heap k hk).trans (h'.heap k (Nat.lt_of_lt_of_le hk h.next)), fun r hr => h'.qregs r (h.qregs r hr),
    fun r hr => h'.cregs r (h.cregs r hr), ?_⟩
  intro n hn
  rcases h'.names n hn with hn | hn
  · exact h.names n hn
  · exact Or.inr hn

/-- The method is tame. -/
def TameM (P : Str → Prop) (x : WM α) : Prop := ∀ w, Tame P w (x w).2

theorem TameM.pure {a : α} : TameM P (pure a) := fun w => Tame.refl P w
theorem TameM.throw {e : PyErr} : TameM P (CM.throw e : WM α) := fun w => Tame.refl P w
theorem TameM.lift {x : Py α} : TameM P (CM.lift x) := fun w => Tame.refl P w

theorem TameM.bind {x : WM α} {f : α → WM β} (hx : TameM P x) (hf : ∀ a, TameM P (f a)) : TameM P (x >>= f) := by
  intro w
  have h := hx w
  rw [CM.bind_run]
  rcases hr : x w with ⟨e | a, w1⟩
  · rw [hr] at h; exact h
  · rw [hr] at h; exact h.trans (hf a w1)

theorem TameM.forEach {l : List α} {f : α → WM Unit} (h : ∀ a ∈ l, TameM P (f a)) : TameM P (CM.forEach l f) := by
  induction l with
  | nil => exact TameM.pure
  | cons a l ih => exact (h a (by simp)).bind fun _ => ih fun b hb => h b (by simp [hb])

theorem TameM.when {b : Bool} {x : WM Unit} (h : TameM P x) : TameM P (CM.when b x) := by
  unfold CM.when
  split
  · exact h
  · exact TameM.pure

theorem TameM.ite {c : Prop} [Decidable c] {x y : WM α} (hx : TameM P x) (hy : TameM P y) : TameM P (if c then x else y) := by
  split
  · exact hx
  · exact hy

theorem tame_append {i : Instr} : TameM P (append i) := by
  intro w
  by_cases hf : Fits w i
  · rw [append_fits hf]
    exact ⟨Nat.le_refl _, fun _ _ => SameSize.refl _, fun _ h => h, fun _ h => h, fun _ h => Or.inl h⟩
  · rw [append_not_fits hf]
    exact Tame.refl P w

theorem tame_addQreg {r : Reg} (hr : P r.name) : TameM P (addQreg r) := by
  intro w
  by_cases h : r.name ∈ w.circ.names
  · rw [addQreg_taken h]; exact Tame.refl P w
  · rw [addQreg_ok h]
    refine ⟨Nat.le_refl _, fun _ _ => SameSize.refl _, fun r hr => ?_, fun _ h => h, fun n hn => ?_⟩
    · rw [World.addQs_qregs]; exact List.mem_append_left _ hr
    · rcases (names_addQs _ _ _).1 hn with rfl | hn
      · exact Or.inr hr
      · exact Or.inl hn

theorem tame_addCreg {r : Reg} (hr : P r.name) : TameM P (addCreg r) := by
  intro w
  by_cases h : r.name ∈ w.circ.names
  · rw [addCreg_taken h]; exact Tame.refl P w
  · rw [addCreg_ok h]
    refine ⟨Nat.le_refl _, fun _ _ => SameSize.refl _, fun _ h => h, fun r hr => ?_, fun n hn => ?_⟩
    · rw [World.addC_cregs]; exact List.mem_append_left _ hr
    · rcases (names_addC _ _ _).1 hn with rfl | hn
      · exact Or.inr hr
      · exact Or.inl hn

theorem tame_params : TameM P L.params := fun w => Tame.refl P w

theorem tame_dictOrNew {p : Option Nat} : TameM P (dictOrNew p) := by
  intro w
  have fresh : Tame P w { w with heap := fun k => if k = w.next then {} else w.heap k, next := w.next + 1 } := by
    refine ⟨Nat.le_succ _, fun k hk => ?_, fun _ h => h, fun _ h => h, fun _ h => Or.inl h⟩
    simp only [if_neg (show k ≠ w.next by omega)]
    exact SameSize.refl _
  unfold dictOrNew
  rcases p with _ | r
  · exact fresh
  · simp only
    split
    · exact fresh
    · exact Tame.refl P w

/-- Reading a dictionary, computing a new one from it and storing it. -/
theorem tame_setP {r : Nat} {p : Params} (h : SameSize (w.heap r) p) : Tame P w (w.setP r p) := by
  refine ⟨Nat.le_refl _, fun k hk => ?_, fun _ h => h, fun _ h => h, fun _ h => Or.inl h⟩
  by_cases e : k = r
  · subst e
    rw [World.setP_heap_self]
    exact h
  · rw [World.setP_heap_ne _ _ e]
    exact SameSize.refl _

/-- A dictionary is changed and then replaced, or an exception comes in between. -/
theorem tame_touch {r : Nat} {t : Params → Params} {g : Params → Py Params} {f : Params → Params → WM α} (ht : ∀ p, SameSize p (t p))
    (hs : ∀ p b, g p = .ok b → SameSize p b) (hf : ∀ p b, TameM P (f p b)) :
    TameM P (getParams r >>= fun p => setParams r (t p) >>= fun _ => CM.lift (g p) >>= fun b => setParams r b >>= fun _ => f p b) := by
  intro w
  rw [CM.bind_ok (getParams_run _ _), CM.bind_ok (setParams_run _ _ _)]
  rcases hg : g (w.heap r) with e | b
  · rw [CM.bind_error (e := e) (s' := w.setP r (t (w.heap r))) (by rw [CM.lift_run])]
    exact tame_setP (ht _)
  · rw [CM.bind_ok (a := b) (s' := w.setP r (t (w.heap r))) (by rw [CM.lift_run]), CM.bind_ok (setParams_run _ _ _), setP_setP]
    exact Tame.trans (tame_setP (hs _ _ hg)) (hf _ _ _)

theorem tame_modify {γ : Type} {r : Nat} {g : Params → Py γ} {h : Params → γ → Params} {f : Params → γ → WM α}
    (hs : ∀ p b, g p = .ok b → SameSize p (h p b)) (hf : ∀ p b, TameM P (f p b)) :
    TameM P (getParams r >>= fun p => CM.lift (g p) >>= fun b => setParams r (h p b) >>= fun _ => f p b) := by
  intro w
  rw [CM.bind_ok (getParams_run _ _)]
  rcases hg : g (w.heap r) with e | b
  · rw [CM.bind_error (e := e) (s' := w) (by rw [CM.lift_run])]
    exact Tame.refl P w
  · rw [CM.bind_ok (a := b) (s' := w) (by rw [CM.lift_run]), CM.bind_ok (setParams_run _ _ _)]
    refine Tame.trans (w' := w.setP r (h (w.heap r) b)) ⟨Nat.le_refl _, fun k hk => ?_, fun _ h => h, fun _ h => h, fun _ h => Or.inl h⟩ (hf _ _ _)
    by_cases e : k = r
    · subst e
      rw [World.setP_heap_self]
      exact hs _ _ hg
    · rw [World.setP_heap_ne _ _ e]
      exact SameSize.refl _

theorem tame_gate1 {g : G1} {qs : List Qubit} : TameM P (gate1 g qs) := by
  unfold gate1
  split
  · exact TameM.throw
  · exact TameM.forEach fun _ _ => tame_append

theorem tame_gate1If {g : G1} {q : Qubit} {c : Str} {v : Int} : TameM P (gate1If g q c v) := by
  unfold gate1If
  split
  · exact tame_append.bind fun _ => TameM.throw
  · exact tame_append

theorem tame_gate2 {g : G2} {as bs : List Qubit} : TameM P (gate2 g as bs) := by
  unfold gate2
  split
  · exact TameM.throw
  · split
    · exact TameM.forEach fun _ _ => tame_append
    · split
      · exact TameM.forEach fun _ _ => tame_append
      · exact TameM.forEach fun _ _ => tame_append
      · exact TameM.throw

theorem tame_measure {qs : List Qubit} {cs : List Clbit} : TameM P (measure qs cs) := by
  unfold measure
  split
  · exact TameM.forEach fun _ _ => tame_append
  · split
    · split
      · exact TameM.throw
      · exact TameM.forEach fun _ _ => tame_append
    · exact TameM.throw

theorem tame_reset {qs : List Qubit} : TameM P (reset qs) := TameM.forEach fun _ _ => tame_append

theorem tame_barrier : TameM P barrier := tame_append

/-- Take a method apart. -/
macro "tame_step" : tactic => `(tactic| first
  | exact TameM.pure
  | exact TameM.throw
  | exact TameM.lift
  | exact tame_append
  | exact tame_params
  | exact tame_gate1
  | exact tame_gate1If
  | exact tame_gate2
  | exact tame_measure
  | exact tame_reset
  | exact tame_barrier
  | refine TameM.when ?_
  | refine TameM.forEach fun _ _ => ?_
  | refine TameM.bind ?_ fun _ => ?_
  | refine TameM.ite ?_ ?_
  | split)

theorem tame_numData : TameM P L.numData := by unfold Lattice.numData; repeat' tame_step
theorem tame_numSyn : TameM P L.numSyn := by unfold Lattice.numSyn; repeat' tame_step
theorem tame_width : TameM P L.width := by unfold Lattice.width; repeat' tame_step
theorem tame_dataAt {i : Int} : TameM P (L.dataAt i) := TameM.lift
theorem tame_columnIdx : TameM P L.columnIdx := by
  unfold Lattice.columnIdx
  refine tame_numData.bind fun _ => tame_width.bind fun _ => ?_
  repeat' tame_step
theorem tame_rowIdx : TameM P L.rowIdx := tame_width.bind fun _ => TameM.pure

theorem tame_entangleOne {s : Stab} {p : QPlaq} : TameM P (entangleOne s p) := by
  have hx : ∀ s a b, TameM P (entangleRowX s a b) := by
    intro s a b; unfold entangleRowX; repeat' tame_step
  have hz : ∀ s a b, TameM P (entangleColZ s a b) := by
    intro s a b; unfold entangleColZ; repeat' tame_step
  have cx : ∀ s a, TameM P (entangleCornerX s a) := by
    intro s a; unfold entangleCornerX; repeat' tame_step
  have cz : ∀ s a, TameM P (entangleCornerZ s a) := by
    intro s a; unfold entangleCornerZ; repeat' tame_step
  cases s
  · unfold entangleOne entangleXXXX
    repeat' first | exact hx _ _ _ | tame_step
  · unfold entangleOne entangleZZZZ
    repeat' first | exact hz _ _ _ | tame_step
  · unfold entangleOne entangleXZZX
    repeat' first | exact cx _ _ | exact cz _ _ | tame_step

theorem tame_entangle {qi : Option (List QPlaq)} {st : Option (List Stab)} : TameM P (L.entangle qi st) := by
  unfold Lattice.entangle
  exact TameM.forEach fun _ _ => TameM.lift.bind fun _ => tame_entangleOne.bind fun _ => tame_barrier

theorem tame_resetX : TameM P L.resetX := by unfold Lattice.resetX; repeat' tame_step
theorem tame_resetZ : TameM P L.resetZ := by unfold Lattice.resetZ; repeat' tame_step
theorem tame_x : TameM P L.x := by
  unfold Lattice.x; repeat' first | exact tame_columnIdx | exact tame_dataAt | tame_step
theorem tame_z : TameM P L.z := by
  unfold Lattice.z; repeat' first | exact tame_rowIdx | exact tame_dataAt | tame_step
theorem tame_xCIf {c : Str} {v : Int} : TameM P (L.xCIf c v) := by
  unfold Lattice.xCIf; repeat' first | exact tame_columnIdx | exact tame_dataAt | tame_step
theorem tame_zCIf {c : Str} {v : Int} : TameM P (L.zCIf c v) := by
  unfold Lattice.zCIf; repeat' first | exact tame_rowIdx | exact tame_dataAt | tame_step
theorem tame_intoX : TameM P L.readoutXIntoAncilla := by
  unfold Lattice.readoutXIntoAncilla
  repeat' first | exact tame_columnIdx | exact tame_dataAt | tame_step
theorem tame_intoZ : TameM P L.readoutZIntoAncilla := by
  unfold Lattice.readoutZIntoAncilla
  repeat' first | exact tame_rowIdx | exact tame_dataAt | tame_step
theorem tame_latCx {c t : Option Qubit} : TameM P (L.cx c t) := by
  unfold Lattice.cx
  repeat' first | exact tame_columnIdx | exact tame_dataAt | exact tame_intoZ | tame_step
theorem tame_turnX : TameM P L.turnX := by unfold Lattice.turnX; repeat' tame_step
theorem tame_turnZ : TameM P L.turnZ := by unfold Lattice.turnZ; repeat' tame_step

/-- The names of registers that belong to a qubit called `n`. -/
def NameOf (n : Str) (s : Str) : Prop := ∃ rest, s = n ++ '_' :: rest

/-- A new register with a name that belongs to the lattice. -/
theorem tame_newCreg {n : Int} {name nm : Str} (h : NameOf name nm) {f : Reg → WM α} (hf : ∀ r, TameM (NameOf name) (f r)) :
    TameM (NameOf name) (CM.lift (newReg n nm) >>= fun r => addCreg r >>= fun _ => f r) := by
  intro w
  by_cases h0 : 0 ≤ n
  · rw [CM.bind_lift (newReg_ok h0 nm)]
    exact ((tame_addCreg (P := NameOf name) (r := ⟨nm, n.toNat⟩) h).bind fun _ => hf _) w
  · have : newReg n nm = .error .circuitError := if_pos (by omega)
    rw [CM.bind_error (e := .circuitError) (s' := w) (by rw [CM.lift_run, this])]
    exact Tame.refl _ w

theorem nameOf_round (name x : Str) : NameOf name (name ++ "_c".toList ++ x) := ⟨'c' :: x, by rw [List.append_assoc]; rfl⟩
theorem nameOf_readout (name x : Str) : NameOf name (name ++ "_readout_".toList ++ x) := ⟨"readout_".toList ++ x, by rw [List.append_assoc]; rfl⟩
theorem nameOf_lattice (name x : Str) : NameOf name (name ++ "_lattice_readout_".toList ++ x) :=
  ⟨"lattice_readout_".toList ++ x, by rw [List.append_assoc]; rfl⟩

theorem tame_readoutReg {r : Option Reg} : TameM (NameOf L.name) (L.readoutReg r) := by
  have h : TameM (NameOf L.name) (getParams L.pref >>= fun p => CM.lift (key p.numReadout) >>= fun k =>
      setParams L.pref { p with numReadout := some (k + 1) } >>= fun _ =>
        CM.lift (newReg 1 (L.name ++ "_readout_".toList ++ strInt (k + 1))) >>= fun r => addCreg r >>= fun _ => pure r) :=
    tame_modify (g := fun p => key p.numReadout) (h := fun p k => { p with numReadout := some (k + 1) }) (fun p k _ => SameSize.of_dims ⟨rfl, rfl, rfl⟩ rfl)
      fun p k => tame_newCreg (nameOf_readout _ _) fun _ => TameM.pure
  unfold Lattice.readoutReg
  split
  · exact TameM.pure
  · exact h

theorem tame_latticeReg : TameM (NameOf L.name) L.latticeReg :=
  tame_modify (g := fun p => key p.numLatticeReadout) (h := fun p k => { p with numLatticeReadout := some (k + 1) })
    (fun _ _ _ => SameSize.of_dims ⟨rfl, rfl, rfl⟩ rfl)
    fun _ _ => TameM.lift.bind fun _ => tame_newCreg (nameOf_lattice _ _) fun _ => TameM.pure

/-- The operations of a qubit are tame. -/
theorem tame_op (q : TQubit) (o : QOp) : TameM (NameOf q.lat.name) (q.op o) := by
  cases o with
  | stabilize =>
    refine tame_numSyn.bind fun ns => ?_
    refine tame_modify (g := fun p => key p.T) (h := fun p k => { p with T := some (k + 1) }) (fun p k _ => SameSize.of_dims ⟨rfl, rfl, rfl⟩ rfl)
      fun p k => tame_newCreg (nameOf_round _ _) fun r => tame_entangle.bind fun _ => ?_
    repeat' tame_step
  | entangleX => exact TameM.lift.bind fun _ => tame_entangle
  | entangleZ => exact TameM.lift.bind fun _ => tame_entangle
  | id => unfold TQubit.op TQubit.id; repeat' tame_step
  | idData => unfold TQubit.op TQubit.idData; repeat' tame_step
  | resetX => exact tame_resetX
  | resetZ => exact tame_resetZ
  | x => exact tame_x
  | z => exact tame_z
  | xCIf c v => exact tame_xCIf
  | zCIf c v => exact tame_zCIf
  | cx c t =>
    unfold TQubit.op TQubit.cx
    simp only
    split
    · exact TameM.throw.bind fun _ => tame_latCx
    · exact tame_latCx
  | readoutX r => exact tame_readoutReg.bind fun _ => tame_intoX.bind fun _ => tame_measure.bind fun _ => tame_barrier
  | readoutZ r => exact tame_readoutReg.bind fun _ => tame_intoZ.bind fun _ => tame_measure.bind fun _ => tame_barrier
  | latticeReadoutX => exact tame_latticeReg.bind fun _ => tame_turnX.bind fun _ => tame_measure.bind fun _ => tame_barrier
  | latticeReadoutZ => exact tame_latticeReg.bind fun _ => tame_turnZ.bind fun _ => tame_measure.bind fun _ => tame_barrier

theorem tame_checkRep {cls : QClass} {r : Nat} : TameM P (checkRep cls r) := by
  unfold checkRep
  split
  · exact tame_touch (t := repTouched) (g := repValidate) (f := fun _ _ => pure ()) repTouched_sameSize (fun _ _ h => repValidate_sameSize h) fun _ _ => TameM.pure
  · exact TameM.pure

theorem tame_newLattice {code : Code} {name : Str} {r : Nat} : TameM (NameOf name) (newLattice code name r) := by
  refine tame_touch (t := rotatedTouched) (g := rotatedValidate) rotatedTouched_sameSize (fun _ _ h => rotatedValidate_sameSize h) fun _ p => ?_
  refine TameM.lift.bind fun dh => TameM.lift.bind fun dw => TameM.lift.bind fun nd => TameM.lift.bind fun ns => ?_
  intro w
  by_cases h0 : 0 ≤ nd
  · rw [CM.bind_lift (newReg_ok h0 _)]
    refine ((TameM.forEach fun g hg => tame_addQreg ?_).bind fun _ => TameM.lift.bind fun _ => TameM.pure) w
    simp only [List.mem_append, List.mem_singleton, Option.mem_toList] at hg
    rcases hg with ((rfl | hg) | hg) | rfl
    · exact ⟨"data".toList, rfl⟩
    · rw [optReg_name hg]; exact ⟨"mz".toList, rfl⟩
    · rw [optReg_name hg]; exact ⟨"mx".toList, rfl⟩
    · exact ⟨"ancilla".toList, rfl⟩
  · have : newReg nd (name ++ "_data".toList) = .error .circuitError := if_pos (by omega)
    rw [CM.bind_error (e := .circuitError) (s' := w) (by rw [CM.lift_run, this])]
    exact Tame.refl _ w

/-- Making a qubit is tame. -/
theorem tame_newQubit {cls : QClass} {p : Option Nat} {name : Str} : TameM (NameOf name) (newQubit cls p name) :=
  tame_dictOrNew.bind fun _ => tame_checkRep.bind fun _ => tame_newLattice.bind fun _ => TameM.pure

end Qtc
