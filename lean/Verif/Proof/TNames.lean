import Verif.Proof.Safe
/-!
Names of the registers of different qubits, and the construction of qubits on a circuit where their names are free.
-/
namespace Qtc
open Spec

variable {R : Str} {L : Lattice} {dh dw : Int} {w w' : World}

/-! ### Names -/

/-- The name of qubit `k` of a register called `R`. -/
def qname (R : Str) (k : Nat) : Str := R ++ "_".toList ++ strNat k

theorem qubitName_eq (t : TReg) : t.qubitName = qname t.name t.n := rfl

theorem split_underscore {a b x y : Str} (ha : '_' ∉ a) (hb : '_' ∉ b) (h : a ++ '_' :: x = b ++ '_' :: y) : a = b ∧ x = y := by
  induction a generalizing b with
  | nil =>
    cases b with
    | nil => simpa using h
    | cons c b =>
      simp only [List.nil_append, List.cons_append, List.cons.injEq] at h
      exact absurd (h.1 ▸ List.mem_cons_self) hb
  | cons c a ih =>
    cases b with
    | nil =>
      simp only [List.nil_append, List.cons_append, List.cons.injEq] at h
      exact absurd (h.1 ▸ List.mem_cons_self) ha
    | cons d b =>
      simp only [List.cons_append, List.cons.injEq] at h
      obtain ⟨h1, h2⟩ := ih (fun e => ha (List.mem_cons_of_mem _ e)) (fun e => hb (List.mem_cons_of_mem _ e)) h.2
      exact ⟨by rw [h.1, h1], h2⟩

theorem strNat_no_underscore (n : Nat) : '_' ∉ strNat n := fun h => (mem_strNat h).1 rfl

theorem qname_inj {i j : Nat} {x y : Str} (h : qname R i ++ '_' :: x = qname R j ++ '_' :: y) : i = j ∧ x = y := by
  unfold qname at h
  simp only [List.append_assoc] at h
  have h := List.append_cancel_left (List.append_cancel_left h)
  obtain ⟨h1, h2⟩ := split_underscore (strNat_no_underscore i) (strNat_no_underscore j) h
  exact ⟨strNat_inj h1, h2⟩

theorem reserved_iff {s : Str} : Reserved R s ↔ ∃ k rest, s = qname R k ++ '_' :: rest := by
  unfold Reserved qname
  simp only [List.append_assoc]
  rfl

theorem ownCreg_reserved {name s : Str} (h : OwnCreg name s) : ∃ rest, s = name ++ '_' :: rest := by
  obtain ⟨k, rfl | rfl | rfl⟩ := h
  · exact ⟨'c' :: strNat k, by rw [List.append_assoc]; rfl⟩
  · exact ⟨"readout_".toList ++ strNat k, by rw [List.append_assoc]; rfl⟩
  · exact ⟨"lattice_readout_".toList ++ strNat k, by rw [List.append_assoc]; rfl⟩

theorem ownQreg_reserved {name s : Str} (h : OwnQreg name s) : ∃ rest, s = name ++ '_' :: rest := by
  rcases h with rfl | rfl | rfl | rfl
  · exact ⟨"data".toList, rfl⟩
  · exact ⟨"mz".toList, rfl⟩
  · exact ⟨"mx".toList, rfl⟩
  · exact ⟨"ancilla".toList, rfl⟩

theorem qregs_ownQreg {code : Code} {name : Str} {pref : Nat} {r : Reg} (h : r ∈ (mkLattice code dh dw name pref).qregs) :
    OwnQreg name r.name := mkLattice_qreg_name h

theorem ownCreg_inj {i j : Nat} {s : Str} (h : OwnCreg (qname R i) s) (h' : OwnCreg (qname R j) s) : i = j := by
  obtain ⟨x, rfl⟩ := ownCreg_reserved h
  obtain ⟨y, e⟩ := ownCreg_reserved h'
  exact (qname_inj e).1

theorem count_reserved {s : Str} (h : Reserved R s) : 2 ≤ s.count '_' := by
  obtain ⟨k, rest, rfl⟩ := h
  simp only [List.count_append]
  have : ("_".toList).count '_' = 1 := by decide
  omega

/-- The names of the helper registers. -/
def Helper (s : Str) : Prop := s ∈ helperC ∨ s = helperQ

theorem helper_not_reserved {s : Str} (h : Helper s) : ¬ Reserved R s := by
  intro hr
  have h2 := count_reserved hr
  have : s.count '_' ≤ 1 := by
    rcases h with h | h
    · unfold helperC at h
      simp only [List.mem_cons, List.not_mem_nil, or_false] at h
      rcases h with rfl | rfl | rfl <;> decide
    · rw [h]; decide
  omega

theorem helper_ne {k : Nat} {s rest : Str} (h : Helper s) : s ≠ qname R k ++ '_' :: rest :=
  fun e => helper_not_reserved h (reserved_iff.2 ⟨k, rest, e⟩)

/-! ### Frames -/

/-- A qubit's registers and counters stay in order if its dictionary is left alone and no name of its own is used. -/
theorem Own.frame {t : Int} (O : Own L dh dw t w) (hh : w'.heap L.pref = w.heap L.pref) (hq : ∀ r ∈ w.circ.qregs, r ∈ w'.circ.qregs)
    (hn : ∀ s, OwnCreg L.name s → s ∈ w'.circ.names → s ∈ w.circ.names) : Own L dh dw t w' := by
  obtain ⟨a, a1, a2, a3⟩ := O.readout
  obtain ⟨b, b1, b2, b3⟩ := O.lattice
  have := O.tge
  refine ⟨⟨O.placed.eq, O.placed.odd, fun r hr => hq r (O.placed.qregs r hr), ?_, ?_, ?_⟩, ?_, O.tge, ?_, ⟨a, ?_, a2, ?_⟩, ⟨b, ?_, b2, ?_⟩⟩
  · rw [hh]; exact O.placed.d
  · rw [hh]; exact O.placed.nd
  · rw [hh]; exact O.placed.ns
  · rw [hh]; exact O.T
  · exact fun k hk h => O.round k hk (hn _ (ownCreg_round (by omega)) h)
  · rw [hh]; exact a1
  · exact fun k hk h => a3 k hk (hn _ (ownCreg_readout (by omega)) h)
  · rw [hh]; exact b1
  · exact fun k hk h => b3 k hk (hn _ (ownCreg_lattice (by omega)) h)

/-! ### Construction -/

/-- The exceptions raised by validation. -/
theorem rotatedValidate_ne_taken {p : Params} : rotatedValidate p ≠ .error .nameTaken := by
  have h1 : ∀ d, toIntTuple d ≠ .error .nameTaken := by
    intro d
    cases d with
    | str s =>
      show s.mapM intOfChar ≠ _
      refine mapM_ne_taken fun c => ?_
      unfold intOfChar
      split <;> exact fun e => by cases e
    | _ => exact fun e => by cases e
  intro h
  unfold rotatedValidate at h
  rcases hs : rotatedSize p.d with e | ⟨l, a, b⟩
  · rw [hs] at h
    simp only [bind, Except.bind, Except.error.injEq] at h
    subst h
    unfold rotatedSize at hs
    simp only [bind, Except.bind] at hs
    split at hs
    · rename_i e he
      cases hs
      exact h1 _ he
    · split at hs
      · rename_i e he
        cases hs
        exact pyIdx_ne_taken he
      · split at hs
        · rename_i e he
          cases hs
          exact pyIdx_ne_taken he
        · cases hs
  · rw [hs] at h
    simp only [bind, Except.bind] at h
    split at h
    · cases h
    · cases h

theorem repValidate_ne_taken {p : Params} : repValidate p ≠ .error .nameTaken := by
  unfold repValidate
  simp only
  split
  · exact fun e => by cases e
  · exact fun e => by cases e
  · rename_i l _
    split
    · rcases h : pyIdx l 1 with e | a
      · intro e'
        simp only [bind, Except.bind] at e'
        cases e'; exact pyIdx_ne_taken h
      · simp only [bind, Except.bind, pure, Except.pure]
        split <;> exact fun e => by cases e
    · rcases h : pyIdx l 0 with e | a
      · intro e'
        simp only [bind, Except.bind] at e'
        cases e'; exact pyIdx_ne_taken h
      · simp only [bind, Except.bind, pure, Except.pure]
        split <;> exact fun e => by cases e
  · exact fun e => by cases e

theorem intOfChar_nonneg {c : Char} {n : Int} (h : intOfChar c = .ok n) : 0 ≤ n := by
  unfold intOfChar at h
  split at h
  · cases h; exact Int.natCast_nonneg _
  · cases h

/-- Sizes without negative numbers stay so. -/
theorem rotatedSize_nonneg {d : Option DVal} {l : List Int} {a b : Int} (h : rotatedSize d = .ok (l, a, b)) (hd : NonNeg d) :
    0 ≤ a ∧ 0 ≤ b := by
  have key : ∀ v : DVal, NonNeg (some v) → ∀ l, toIntTuple v = .ok l → ∀ x ∈ l, 0 ≤ x := by
    intro v hv l hl x hx
    cases v with
    | num n => cases hl
    | tup m =>
      cases hl
      obtain ⟨n, hn, rfl⟩ := List.mem_map.1 hx
      exact hv n hn
    | lst m =>
      cases hl
      obtain ⟨n, hn, rfl⟩ := List.mem_map.1 hx
      exact hv n hn
    | str s =>
      obtain ⟨c, -, e⟩ := mapM_mem hl x hx
      exact intOfChar_nonneg e
    | other => cases hl
  unfold rotatedSize at h
  simp only [bind, Except.bind, pure, Except.pure] at h
  split at h
  · cases h
  · rename_i l' hl'
    have hall : ∀ x ∈ l', 0 ≤ x := by
      refine key _ ?_ l' hl'
      cases d with
      | none => simp only [Option.getD]; intro n hn; simp only [List.mem_cons, List.not_mem_nil, or_false] at hn; rcases hn with rfl | rfl <;> decide
      | some v =>
        simp only [Option.getD]
        cases v with
        | num n =>
          intro m hm
          simp only [List.mem_cons, List.not_mem_nil, or_false] at hm
          rcases hm with rfl | rfl <;> exact hd
        | _ => exact hd
    split at h
    · cases h
    · rename_i x hx
      split at h
      · cases h
      · rename_i y hy
        cases h
        exact ⟨hall _ (pyIdx_mem hx), hall _ (pyIdx_mem hy)⟩

theorem repValidate_nonneg {p p' : Params} (h : repValidate p = .ok p') (hd : NonNeg p.d) : NonNeg p'.d := by
  unfold repValidate at h
  simp only at h
  split at h
  · cases h
    simp only
    split
    · intro n hn; simp only [List.mem_cons, List.not_mem_nil, or_false] at hn; rcases hn with rfl | rfl <;> decide
    · intro n hn; simp only [List.mem_cons, List.not_mem_nil, or_false] at hn; rcases hn with rfl | rfl <;> decide
  · rename_i n hn
    rw [hn] at hd
    have h1 : (0 : Int) ≤ 1 := by decide
    cases h
    simp only
    split
    · intro m hm; simp only [List.mem_cons, List.not_mem_nil, or_false] at hm; rcases hm with rfl | rfl
      · exact h1
      · exact hd
    · intro m hm; simp only [List.mem_cons, List.not_mem_nil, or_false] at hm; rcases hm with rfl | rfl
      · exact hd
      · exact h1
  · rename_i l hl
    split at h
    · rcases hx : pyIdx l 1 with e | a
      · rw [hx] at h; cases h
      · rw [hx] at h
        simp only [bind, Except.bind, pure, Except.pure] at h
        split at h
        · cases h
        · cases h; exact hd
    · rcases hx : pyIdx l 0 with e | a
      · rw [hx] at h; cases h
      · rw [hx] at h
        simp only [bind, Except.bind, pure, Except.pure] at h
        split at h
        · cases h
        · cases h; exact hd
  · cases h

theorem dictOrNew_ref (params : Option Nat) (w : World) (h : ∀ r, params = some r → r < w.next) :
    ∃ r w1, dictOrNew params w = (.ok r, w1) ∧ w1.circ = w.circ ∧ (∀ k, k ≠ r → w1.heap k = w.heap k) ∧ w.next ≤ w1.next ∧ r < w1.next ∧
      ((params = some r ∧ w1 = w) ∨ r = w.next ∧ w1.heap r = {}) := by
  unfold dictOrNew
  rcases params with _ | r
  · exact ⟨w.next, _, rfl, rfl, fun k hk => if_neg hk, Nat.le_succ _, Nat.lt_succ_self _, Or.inr ⟨rfl, if_pos rfl⟩⟩
  · simp only
    split
    · exact ⟨w.next, _, rfl, rfl, fun k hk => if_neg hk, Nat.le_succ _, Nat.lt_succ_self _, Or.inr ⟨rfl, if_pos rfl⟩⟩
    · exact ⟨r, w, rfl, rfl, fun _ _ => rfl, Nat.le_refl _, h r rfl, Or.inl ⟨rfl, rfl⟩⟩

/-- All outcomes of the construction of a qubit on a circuit where its names are free, with a size that is not negative. -/
theorem newQubit_outcome {cls : QClass} {params : Option Nat} {name : Str} (hp : ∀ r, params = some r → r < w.next ∧ NonNeg (w.heap r).d)
    (hf : ∀ rest, name ++ '_' :: rest ∉ w.circ.names) : ∃ r w', (params = some r ∨ r = w.next) ∧ r < w'.next ∧ w.next ≤ w'.next ∧
      (∀ k, k ≠ r → w'.heap k = w.heap k) ∧
      ((∃ q dh dw, newQubit cls params name w = (.ok q, w') ∧ Built cls w q dh dw w' ∧ q.lat.name = name ∧ q.lat.pref = r ∧ q.cls = cls) ∨
        ∃ e, newQubit cls params name w = (.error e, w') ∧ e ≠ .nameTaken ∧ w'.circ = w.circ) := by
  obtain ⟨r, w1, h1, hc, hh, hn, hr, ho⟩ := dictOrNew_ref params w fun r e => (hp r e).1
  have hd1 : NonNeg (w1.heap r).d := by
    rcases ho with ⟨e, rfl⟩ | ⟨-, e⟩
    · exact (hp r e).2
    · rw [e]; trivial
  have hor : params = some r ∨ r = w.next := by
    rcases ho with ⟨e, -⟩ | ⟨e, -⟩
    · exact Or.inl e
    · exact Or.inr e
  -- the rest, after the dictionary has been checked
  have main : ∀ w2 : World, w2.circ = w.circ → (∀ k, k ≠ r → w2.heap k = w.heap k) → w2.next = w1.next → NonNeg (w2.heap r).d →
      newQubit cls params name w = (do
        let lat ← newLattice cls.code name r
        pure (⟨cls, lat⟩ : TQubit)) w2 →
      ∃ r w', (params = some r ∨ r = w.next) ∧ r < w'.next ∧ w.next ≤ w'.next ∧ (∀ k, k ≠ r → w'.heap k = w.heap k) ∧
        ((∃ q dh dw, newQubit cls params name w = (.ok q, w') ∧ Built cls w q dh dw w' ∧ q.lat.name = name ∧ q.lat.pref = r ∧ q.cls = cls) ∨
          ∃ e, newQubit cls params name w = (.error e, w') ∧ e ≠ .nameTaken ∧ w'.circ = w.circ) := by
    intro w2 hc2 hh2 hn2 hd2 hq
    rcases hv : rotatedValidate (w2.heap r) with e | p
    · rw [CM.bind_error (newLattice_invalid hv)] at hq
      exact ⟨r, w2.setP r (rotatedTouched (w2.heap r)), hor, by show r < w2.next; omega, by show w.next ≤ w2.next; omega,
        fun k hk => (World.setP_heap_ne _ _ hk).trans (hh2 k hk), Or.inr ⟨e, hq, fun e' => rotatedValidate_ne_taken (hv.trans (by rw [e'])), hc2⟩⟩
    · obtain ⟨dh, dw, V⟩ := rotatedValidate_inv hv
      have hpos : 0 ≤ dh ∧ 0 ≤ dw := by
        unfold rotatedValidate at hv
        rcases hs : rotatedSize (w2.heap r).d with e | ⟨l, a, b⟩
        · rw [hs] at hv; cases hv
        · have := rotatedSize_nonneg hs hd2
          obtain ⟨rest', rfl⟩ := rotatedSize_shape hs
          rw [hs] at hv
          simp only [bind, Except.bind] at hv
          split at hv
          · cases hv
          · cases hv
            obtain ⟨rest, hd⟩ := V.d
            simp only [Option.some.injEq, DVal.tup.injEq, List.map_cons, List.cons.injEq, Num.int.injEq] at hd
            rw [← hd.1, ← hd.2.1]
            exact this
      have h0 : 0 < dh := by have := V.oddH; omega
      have h0' : 0 < dw := by have := V.oddW; omega
      have hl := newLattice_ok (code := cls.code) (name := name) hv V h0 h0' (by
        intro g hg
        obtain ⟨rest, e⟩ := ownQreg_reserved (qregs_ownQreg hg)
        rw [hc2, e]
        exact hf rest)
      rw [CM.bind_ok hl] at hq
      obtain ⟨rest, hd⟩ := V.d
      refine ⟨r, (w2.setP r p).addQs (mkLattice cls.code dh dw name r).qregs, hor, ?_, ?_, ?_,
        Or.inl ⟨⟨cls, mkLattice cls.code dh dw name r⟩, dh, dw, hq, ⟨params, name, rest, hq, ?_, h0, h0'⟩, rfl, rfl, rfl⟩⟩
      · show r < w2.next; omega
      · show w.next ≤ w2.next; omega
      · intro k hk
        rw [World.addQs_heap, World.setP_heap_ne _ _ hk]
        exact hh2 k hk
      · rw [World.addQs_heap]
        exact (congrArg Params.d (World.setP_heap_self w2 r p)).trans hd
  by_cases hcls : cls = .rep
  · rcases hv : repValidate (w1.heap r) with e | p
    · refine ⟨r, w1.setP r (repTouched (w1.heap r)), hor, hr, hn, fun k hk => (World.setP_heap_ne _ _ hk).trans (hh k hk),
        Or.inr ⟨e, ?_, fun e' => repValidate_ne_taken (hv.trans (by rw [e'])), hc⟩⟩
      unfold newQubit
      rw [CM.bind_ok h1]
      exact CM.bind_error (checkRep_invalid hcls hv)
    · refine main (w1.setP r p) hc ?_ rfl ?_ ?_
      · intro k hk
        rw [World.setP_heap_ne _ _ hk]
        exact hh k hk
      · rw [World.setP_heap_self]
        exact repValidate_nonneg hv hd1
      · unfold newQubit
        rw [CM.bind_ok h1]
        exact CM.bind_ok (checkRep_valid hcls hv)
  · refine main w1 hc hh rfl hd1 ?_
    unfold newQubit
    rw [CM.bind_ok h1]
    exact CM.bind_ok (checkRep_not hcls r)

end Qtc
