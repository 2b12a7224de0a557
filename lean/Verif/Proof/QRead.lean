import Verif.Proof.QOps
/-!
Preparations and readouts as quantum operations.
-/
namespace Qtc
open Spec Function

variable {cls : QClass} {q : TQubit} {dh dw : Int} {ops : List QOp} {w : World} {sz : Str → Nat} {code : Code} {name : Str}

/-! ### Logical operators -/

theorem col_nodup (H : OddPos dh dw) : (colQubits dh dw 0).Nodup := by
  unfold colQubits
  refine List.nodup_range.map fun a b h => ?_
  unfold OddPos at H
  have h' : (a : Int) * dw = b * dw := by omega
  have := Int.eq_of_mul_eq_mul_right (by omega) h'
  omega

theorem row_nodup : (rowQubits dw 0).Nodup := by
  unfold rowQubits
  refine List.nodup_range.map fun a b h => ?_
  omega

theorem col_nonneg (H : OddPos dh dw) : ∀ i ∈ colQubits dh dw 0, 0 ≤ i := fun i hi => (col_range H i hi).1
theorem row_nonneg : ∀ i ∈ rowQubits dw 0, 0 ≤ i := by
  intro i hi
  unfold rowQubits at hi
  obtain ⟨k, -, rfl⟩ := List.mem_map.1 hi
  omega

theorem logX_sq (H : OddPos dh dw) : logX code name dh dw * logX code name dh dw = 1 := by
  rw [logX_eq]; exact fstr_sq .X (col_nonneg H)

theorem logZ_sq : logZ code name dw * logZ code name dw = 1 := by
  rw [logZ_eq]; exact fstr_sq .Z row_nonneg

theorem xorAll_decide_comm {l m : List Int} (hl : l.Nodup) (hm : m.Nodup) :
    xorAll (l.map fun i => decide (i ∈ m)) = xorAll (m.map fun i => decide (i ∈ l)) := by
  have h : ∀ (l m : List Int), xorAll (l.map fun i => decide (i ∈ m)) = decide (((l.filter fun i => decide (i ∈ m)).length) % 2 = 1) := by
    intro l m
    induction l with
    | nil => rfl
    | cons a l ih =>
      rw [List.map_cons]
      show (decide (a ∈ m) ^^ xorAll (l.map fun i => decide (i ∈ m))) = _
      rw [ih]
      by_cases ha : a ∈ m
      · rw [List.filter_cons_of_pos (by simpa using ha), List.length_cons]
        simp only [ha, decide_true, Bool.true_xor]
        rw [← decide_not, decide_eq_decide]
        omega
      · rw [List.filter_cons_of_neg (by simpa using ha)]
        simp [ha]
  rw [h, h]
  have : (l.filter fun i => decide (i ∈ m)).Perm (m.filter fun i => decide (i ∈ l)) := by
    refine (List.perm_ext_iff_of_nodup (hl.filter _) (hm.filter _)).2 fun a => ?_
    simp [and_comm]
  rw [this.length_eq]

theorem logX_check (H : OddPos dh dw) {key : Key} {p : Int × Int} (hp : SiteOf dh dw key p) :
    Commute (logX code name dh dw) (checkOp code name dh dw key p) := by
  rw [logX_eq, checkOp_eq H code name hp]
  cases key
  · exact fstr_comm_same .X (col_nonneg H) around_nonneg
  · have := fstr_passes (code := code) (name := name) (col_nonneg H) (around_nonneg (dh := dh) (dw := dw) (p := p)) (around_nodup H hp)
    rw [xorAll_decide_comm (col_nodup H) (around_nodup H hp)] at this
    have e := column_commutes H hp
    rw [parityOn_filterMap] at e
    rw [show around dh dw p = (cornersOf dh dw p.1 p.2).filterMap id from rfl, e, passes_false] at this
    exact this

theorem logZ_check (H : OddPos dh dw) {key : Key} {p : Int × Int} (hp : SiteOf dh dw key p) :
    Commute (logZ code name dw) (checkOp code name dh dw key p) := by
  rw [logZ_eq, checkOp_eq H code name hp]
  cases key
  · have := fstr_passes (code := code) (name := name) (around_nonneg (dh := dh) (dw := dw) (p := p)) (row_nonneg (dw := dw)) row_nodup
    have e := row_commutes H hp
    rw [parityOn_filterMap] at e
    rw [show around dh dw p = (cornersOf dh dw p.1 p.2).filterMap id from rfl, e, passes_false] at this
    exact this.symm
  · exact fstr_comm_same .Z row_nonneg around_nonneg

theorem logX_checks (H : OddPos dh dw) {A : Op} (h : A ∈ checks code name dh dw) : Commute (logX code name dh dw) A := by
  obtain ⟨key, p, hp, rfl⟩ := mem_checks h
  exact logX_check H hp

theorem logZ_checks (H : OddPos dh dw) {A : Op} (h : A ∈ checks code name dh dw) : Commute (logZ code name dw) A := by
  obtain ⟨key, p, hp, rfl⟩ := mem_checks h
  exact logZ_check H hp

theorem logX_logZ (H : OddPos dh dw) : Passes true (logX code name dh dw) (logZ code name dw) := by
  rw [logX_eq, logZ_eq]
  have := fstr_passes (code := code) (name := name) (col_nonneg H) (row_nonneg (dw := dw)) row_nodup
  have e : xorAll ((colQubits dh dw 0).map fun i => decide (i ∈ rowQubits dw 0)) = true := by
    unfold OddPos at H
    obtain ⟨n, hn⟩ : ∃ n, dh.toNat = n + 1 := ⟨dh.toNat - 1, by omega⟩
    unfold colQubits
    rw [hn, List.range_succ_eq_map, List.map_cons, List.map_cons, List.map_map, List.map_map]
    have h0 : decide ((((0 : Nat) : Int) * dw + 0) ∈ rowQubits dw 0) = true := by
      rw [decide_eq_true_eq]
      unfold rowQubits
      exact List.mem_map.2 ⟨0, List.mem_range.2 (by omega), by simp⟩
    have h1 : ∀ l : List Nat, xorAll (l.map (((fun i => decide (i ∈ rowQubits dw 0)) ∘ (fun (r : Nat) => (r : Int) * dw + 0)) ∘ Nat.succ)) = false := by
      intro l
      induction l with
      | nil => rfl
      | cons a l ih =>
        rw [List.map_cons]
        show (_ ^^ xorAll (l.map _)) = false
        rw [ih]
        simp only [comp, Bool.xor_false, decide_eq_false_iff_not]
        unfold rowQubits
        rw [List.mem_map]
        rintro ⟨k, hk, e⟩
        rw [List.mem_range] at hk
        have : dw ≤ ((a + 1 : Nat) : Int) * dw := by
          have : (1 : Int) ≤ ((a + 1 : Nat) : Int) := by omega
          nlinarith
        have e' : ((a + 1 : Nat) : Int) * dw + 0 = 0 * dw + k := by
          rw [Nat.succ_eq_add_one] at e; exact e.symm
        omega
    show (decide _ ^^ xorAll _) = true
    rw [h0, h1]; rfl
  rw [e] at this
  exact this

theorem logX_comm_letter {x : Qubit} (h : ∀ i, dataQ name i ≠ x) (a : Letter) : Commute (logX code name dh dw) (a.op x) := by
  rw [logX_eq]; exact fstr_comm_letter .X _ h a

theorem logZ_comm_letter {x : Qubit} (h : ∀ i, dataQ name i ≠ x) (a : Letter) : Commute (logZ code name dw) (a.op x) := by
  rw [logZ_eq]; exact fstr_comm_letter .Z _ h a

/-! ### The ancilla -/

theorem dataQ_ne_ancQ : ∀ i, dataQ name i ≠ ancQ name := dataQ_ne_anc name

theorem ancQ_ne_mz (k : Int) : ancQ name ≠ mzQ name k := by
  intro e
  exact name_ne (by decide) (congrArg Qubit.reg e)

theorem ancQ_ne_mx (k : Int) : ancQ name ≠ mxQ name k := by
  intro e
  exact name_ne (by decide) (congrArg Qubit.reg e)

theorem letter_prod {code : Code} {key : Key} (e : Letter) (l : List Int) (h : ∀ i ∈ l, kind code key i = e) :
    ((l.map (dataQ name)).map fun x => e.op x).prod = fstr code key name l := by
  unfold fstr fop
  rw [List.map_map]
  congr 1
  exact List.map_congr_left fun i hi => by simp only [Function.comp]; rw [h i hi]

theorem fstr_reverse (key : Key) {l : List Int} (h : ∀ i ∈ l, 0 ≤ i) : fstr code key name l.reverse = fstr code key name l :=
  (fstr_perm key h (List.reverse_perm l).symm).symm

/-- The gates after the reset. -/
def intoGates (code : Code) (name : Str) (dh dw : Int) (key : Key) : List Instr :=
  (match key with
  | .X => intoAncillaX code name dh dw
  | .Z => intoAncillaZ code name dh dw).tail

theorem copies_x (l : List Int) {key : Key} (h : ∀ i ∈ l, kind code key i = .X) (hl : ∀ i ∈ l, 0 ≤ i) :
    Copies (ancQ name) ([.gate1 .h (ancQ name) none] ++ cxFrom (ancQ name) (l.map (dataQ name)) ++ [.gate1 .h (ancQ name) none])
      (fstr code key name l) := by
  have := copies_cxFrom (s := ancQ name) (l.map (dataQ name)) (by
    intro x hx
    obtain ⟨i, -, rfl⟩ := List.mem_map.1 hx
    exact Ne.symm (dataQ_ne_anc name i))
  rw [← List.map_reverse] at this
  have e := letter_prod (name := name) (code := code) (key := key) .X l.reverse (fun i hi => h i (List.mem_reverse.1 hi))
  rw [fstr_reverse key hl] at e
  rw [← e]
  exact this

theorem copies_z (l : List Int) {key : Key} (h : ∀ i ∈ l, kind code key i = .Z) (hl : ∀ i ∈ l, 0 ≤ i) :
    Copies (ancQ name) (cxTo (ancQ name) (l.map (dataQ name))) (fstr code key name l) := by
  have := copies_cxTo (s := ancQ name) (l.map (dataQ name)) (by
    intro x hx
    obtain ⟨i, -, rfl⟩ := List.mem_map.1 hx
    exact dataQ_ne_anc name i)
  rw [← List.map_reverse] at this
  have e := letter_prod (name := name) (code := code) (key := key) .Z l.reverse (fun i hi => h i (List.mem_reverse.1 hi))
  rw [fstr_reverse key hl] at e
  rw [← e]
  exact this

theorem filter_perm (l : List Int) : ((l.filter fun i => decide (i % 2 = 0)) ++ l.filter fun i => decide (i % 2 = 1)).Perm l := by
  have e : (l.filter fun i => decide (i % 2 = 1)) = l.filter fun i => !decide (i % 2 = 0) :=
    List.filter_congr fun i _ => by
      rw [← decide_not, decide_eq_decide]
      omega
  rw [e]
  exact List.filter_append_perm _ l

theorem kind_xz_X {i : Int} : (i % 2 = 0 → kind .xzzx .X i = .Z) ∧ (i % 2 = 1 → kind .xzzx .X i = .X) :=
  ⟨fun h => if_pos h, fun h => if_neg (by omega)⟩

theorem kind_xz_Z {i : Int} : (i % 2 = 0 → kind .xzzx .Z i = .X) ∧ (i % 2 = 1 → kind .xzzx .Z i = .Z) :=
  ⟨fun h => if_pos h, fun h => if_neg (by omega)⟩

theorem into_copiesX (H : OddPos dh dw) :
    ∃ l, intoAncillaX code name dh dw = .reset (ancQ name) :: l ∧ Copies (ancQ name) l (logX code name dh dw) := by
  have hn := col_nonneg H
  rw [logX_eq]
  cases code
  · refine ⟨_, rfl, ?_⟩
    exact copies_x (code := .xxzz) (key := .X) _ (fun _ _ => rfl) hn
  · refine ⟨_, rfl, ?_⟩
    have h1 := copies_x (name := name) (code := .xzzx) (key := .X) ((colQubits dh dw 0).filter fun i => decide (i % 2 = 1))
      (fun i hi => by
        have := (List.mem_filter.1 hi).2
        simp only [decide_eq_true_eq] at this
        exact kind_xz_X.2 this) (fun i hi => hn i (List.mem_of_mem_filter hi))
    have h2 := copies_z (name := name) (code := .xzzx) (key := .X) ((colQubits dh dw 0).filter fun i => decide (i % 2 = 0))
      (fun i hi => by
        have := (List.mem_filter.1 hi).2
        simp only [decide_eq_true_eq] at this
        exact kind_xz_X.1 this) (fun i hi => hn i (List.mem_of_mem_filter hi))
    have := h1.append h2
    rw [← fstr_append, fstr_perm (l' := colQubits dh dw 0) .X (fun i hi => hn i ((filter_perm _).subset hi)) (filter_perm _)] at this
    exact this

theorem into_copiesZ :
    ∃ l, intoAncillaZ code name dh dw = .reset (ancQ name) :: l ∧ Copies (ancQ name) l (logZ code name dw) := by
  have hn := row_nonneg (dw := dw)
  rw [logZ_eq]
  cases code
  · refine ⟨_, rfl, ?_⟩
    exact copies_z (code := .xxzz) (key := .Z) _ (fun _ _ => rfl) hn
  · refine ⟨_, rfl, ?_⟩
    have h1 := copies_x (name := name) (code := .xzzx) (key := .Z) ((rowQubits dw 0).filter fun i => decide (i % 2 = 0))
      (fun i hi => by
        have := (List.mem_filter.1 hi).2
        simp only [decide_eq_true_eq] at this
        exact kind_xz_Z.1 this) (fun i hi => hn i (List.mem_of_mem_filter hi))
    have h2 := copies_z (name := name) (code := .xzzx) (key := .Z) ((rowQubits dw 0).filter fun i => decide (i % 2 = 1))
      (fun i hi => by
        have := (List.mem_filter.1 hi).2
        simp only [decide_eq_true_eq] at this
        exact kind_xz_Z.2 this) (fun i hi => hn i (List.mem_of_mem_filter hi))
    have := h1.append h2
    rw [← fstr_append, fstr_perm (l' := rowQubits dw 0) .Z (fun i hi => hn i ((List.perm_append_comm.trans (filter_perm _)).subset hi))
      (List.perm_append_comm.trans (filter_perm _))] at this
    exact this

/-! ### Logical readout -/

/-- Measuring the same qubit into all bits of a register. -/
theorem kraus_measure_reg {x : Qubit} {r : Str} {n : Nat} (hn : 0 < n) {m m' : Mem} {A : Op} (hA : A ≠ 0) :
    Kraus sz ((Reg.clbits ⟨r, n⟩).map fun c => .measure x c) m A m' ↔ ∃ v, A = opP v x ∧ m' = writeReg m r n fun _ => v := by
  obtain ⟨n, rfl⟩ : ∃ k, n = k + 1 := ⟨n - 1, by omega⟩
  clear hn
  induction n generalizing m' A with
  | zero =>
    have e : ∀ v, writeReg m r (0 + 1) (fun _ => v) = update m ⟨r, 0⟩ v := by
      intro v
      funext b
      unfold writeReg update
      obtain ⟨s, k⟩ := b
      by_cases h : s = r ∧ k = 0
      · obtain ⟨rfl, rfl⟩ := h
        simp
      · rw [if_neg (by simpa using h), dif_neg (by simpa using h)]
    constructor
    · rintro ⟨B, m1, C, ⟨v, rfl, rfl⟩, ⟨rfl, rfl⟩, rfl⟩
      exact ⟨v, one_mul _, (e v).symm⟩
    · rintro ⟨v, rfl, rfl⟩
      exact ⟨_, _, 1, ⟨v, rfl, rfl⟩, ⟨rfl, e v⟩, (one_mul _).symm⟩
  | succ n ih =>
    have es : (Reg.clbits ⟨r, n + 1 + 1⟩).map (fun c => Instr.measure x c) =
        (Reg.clbits ⟨r, n + 1⟩).map (fun c => Instr.measure x c) ++ [.measure x ⟨r, n + 1⟩] := by
      unfold Reg.clbits
      rw [List.range_succ, List.map_append, List.map_append]
      rfl
    have ew : ∀ v u, update (writeReg m r (n + 1) fun _ => v) ⟨r, n + 1⟩ u = writeReg m r (n + 1 + 1) fun k => if k = n + 1 then u else v := by
      intro v u
      funext b
      unfold writeReg update
      obtain ⟨s, k⟩ := b
      by_cases h : s = r ∧ k = n + 1
      · obtain ⟨rfl, rfl⟩ := h
        simp
      · rw [dif_neg (by simpa using h)]
        show (if s = r ∧ k < n + 1 then v else m ⟨s, k⟩) = if s = r ∧ k < n + 1 + 1 then (if k = n + 1 then u else v) else m ⟨s, k⟩
        by_cases h' : s = r ∧ k < n + 1
        · rw [if_pos h', if_pos ⟨h'.1, by omega⟩, if_neg (by omega)]
        · rw [if_neg h', if_neg]
          rintro ⟨h1, h2⟩
          by_cases h3 : k = n + 1
          · exact h ⟨h1, h3⟩
          · exact h' ⟨h1, by omega⟩
    rw [es]
    constructor
    · intro h
      obtain ⟨B, m1, C, h1, h2, rfl⟩ := Kraus.append.1 h
      obtain ⟨v, rfl, rfl⟩ := (ih fun e => hA (by rw [e, mul_zero])).1 h1
      obtain ⟨D, m2, E, ⟨u, rfl, rfl⟩, ⟨rfl, rfl⟩, rfl⟩ := h2
      by_cases huv : u = v
      · subst huv
        refine ⟨u, by rw [one_mul, opP_sq], ?_⟩
        rw [ew]
        simp
      · exact absurd (by rw [one_mul, opP_mul x huv]) hA
    · rintro ⟨v, rfl, rfl⟩
      have k1 := (ih hA).2 ⟨v, rfl, rfl⟩
      have k2 : Kraus sz [.measure x ⟨r, n + 1⟩] (writeReg m r (n + 1) fun _ => v) (opP v x) (writeReg m r (n + 1 + 1) fun _ => v) := by
        refine ⟨_, _, 1, ⟨v, rfl, rfl⟩, ⟨rfl, ?_⟩, (one_mul _).symm⟩
        rw [ew]; simp
      have := k1.comp k2
      rw [opP_sq] at this
      exact this

theorem run_read {into l : List Instr} {L : Op} (hi : into = .reset (ancQ name) :: l) (hC : Copies (ancQ name) l L)
    (hz : Commute L (opZ (ancQ name))) {r : Str} {n : Nat} (hn : 0 < n) (hp : ∀ i ∈ readInstrs into name ⟨r, n⟩, i.Proper)
    {s s' : QState} (h0 : s.psi ≠ 0) : Run sz (readInstrs into name ⟨r, n⟩) s s' ↔
      ∃ c m, s'.psi = clear m (ancQ name) (projOf L m (clear c (ancQ name) (opP c (ancQ name) s.psi))) ∧ s'.psi ≠ 0 ∧
        s'.mem = writeReg s.mem r n fun _ => m := by
  have key : ∀ c m, opP m (ancQ name) * (copy (ancQ name) L * (clear c (ancQ name) * opP c (ancQ name))) =
      clear m (ancQ name) * (projOf L m * (clear c (ancQ name) * opP c (ancQ name))) := by
    intro c m
    have := measure_copy hC.2.2 hz m
    rw [clear_opP, ← mul_assoc, ← mul_assoc, ← mul_assoc, ← mul_assoc, this]
  have hb : ∀ m (A : Op) m', Kraus sz [.barrier] m A m' ↔ A = 1 ∧ m' = m := by
    intro m A m'
    rw [kraus_gates (by intro i hi; rw [List.mem_singleton] at hi; subst hi; trivial)]
    rw [show circOp [.barrier] = 1 from one_mul _]
  rw [run_iff hp h0]
  constructor
  · rintro ⟨A, hA, e, hne⟩
    have hA0 : A ≠ 0 := by
      rintro rfl
      exact hne (by rw [e]; rfl)
    unfold readInstrs at hA
    rw [hi] at hA
    obtain ⟨B, m1, C, g1, h1, rfl⟩ := Kraus.append.1 hA
    obtain ⟨D, m2, E, g2, h2, rfl⟩ := Kraus.append.1 g1
    obtain ⟨rfl, h1'⟩ := (hb _ _ _).1 h1
    have hE : E ≠ 0 := by
      rintro rfl
      exact hA0 (by rw [zero_mul, mul_zero])
    obtain ⟨m, rfl, rfl⟩ := (kraus_measure_reg hn hE).1 h2
    obtain ⟨F, m3, G, ⟨⟨c, rfl⟩, rfl⟩, h3, rfl⟩ := g2
    obtain ⟨rfl, rfl⟩ := (kraus_gates hC.1).1 h3
    refine ⟨c, m, ?_, hne, h1'⟩
    rw [e, one_mul, hC.2.1, key]
    rfl
  · rintro ⟨c, m, e, hne, hm⟩
    refine ⟨clear m (ancQ name) * (projOf L m * (clear c (ancQ name) * opP c (ancQ name))), ?_, e, hne⟩
    have k1 : Kraus sz into s.mem (copy (ancQ name) L * (clear c (ancQ name) * opP c (ancQ name))) s.mem := by
      rw [hi]
      exact ⟨_, _, _, ⟨⟨c, rfl⟩, rfl⟩, (kraus_gates hC.1).2 ⟨hC.2.1.symm, rfl⟩, rfl⟩
    have hE : opP m (ancQ name) ≠ 0 := by
      intro h
      refine hne ?_
      rw [e]
      have : opP m (ancQ name) * (copy (ancQ name) L * (clear c (ancQ name) * opP c (ancQ name))) = 0 := by rw [h, zero_mul]
      rw [key] at this
      exact congrArg (fun A : Op => A s.psi) this
    have k2 := (kraus_measure_reg (sz := sz) (x := ancQ name) (r := r) hn (m := s.mem) hE).2 ⟨m, rfl, rfl⟩
    have := (k1.comp k2).comp ((hb _ _ _).2 ⟨rfl, rfl⟩)
    rw [one_mul, key] at this
    rw [hm]
    exact this

/-- The next readout register. -/
def nextReadout (q : TQubit) (w : World) : Str := readoutName q.lat.name ((w.heap q.lat.pref).numReadout.getD 0 + 1)

theorem xzzx_code {cls : QClass} (h : cls ≠ .xzzx) : cls.code = .xxzz := by
  cases cls <;> first | rfl | exact absurd rfl h

theorem added_readoutX (A : After cls q dh dw ops w) (h : cls ≠ .xzzx ∨ 1 < dh) : added q (.readoutX none) w =
    readInstrs (intoAncillaX cls.code q.lat.name dh dw) q.lat.name ⟨nextReadout q w, 1⟩ := by
  obtain ⟨W, O⟩ := A.own
  obtain ⟨a, ha, h1, hf⟩ := O.readout
  have e : nextReadout q w = readoutName q.lat.name (a + 1) := by unfold nextReadout; rw [ha]; rfl
  refine added_eq ?_
  show (q.lat.readoutX none w).2.circ.instrs = _
  rw [O.placed.readoutX_run (h.symm.imp id fun h => by rw [A.code]; exact xzzx_code h) ha (hf _ (by omega)), e, A.code]
  rfl

theorem added_readoutZ (A : After cls q dh dw ops w) (h : cls ≠ .xzzx ∨ 1 < dw) : added q (.readoutZ none) w =
    readInstrs (intoAncillaZ cls.code q.lat.name dh dw) q.lat.name ⟨nextReadout q w, 1⟩ := by
  obtain ⟨W, O⟩ := A.own
  obtain ⟨a, ha, h1, hf⟩ := O.readout
  have e : nextReadout q w = readoutName q.lat.name (a + 1) := by unfold nextReadout; rw [ha]; rfl
  refine added_eq ?_
  show (q.lat.readoutZ none w).2.circ.instrs = _
  rw [O.placed.readoutZ_run (h.symm.imp id fun h => by rw [A.code]; exact xzzx_code h) ha (hf _ (by omega)), e, A.code]
  rfl

theorem run_readoutX (A : After cls q dh dw ops w) (h : cls ≠ .xzzx ∨ 1 < dh) {s s' : QState} (h0 : s.psi ≠ 0) :
    Run sz (added q (.readoutX none) w) s s' ↔ Reads q.lat.name (logX cls.code q.lat.name dh dw) (nextReadout q w) 1 s s' := by
  obtain ⟨l, hl, hC⟩ := into_copiesX (code := cls.code) (name := q.lat.name) A.own.2.placed.odd
  have hp := A.proper (.readoutX none)
  rw [added_readoutX A h] at hp ⊢
  exact run_read hl hC (logX_comm_letter dataQ_ne_ancQ .Z) Nat.one_pos hp h0

theorem run_readoutZ (A : After cls q dh dw ops w) (h : cls ≠ .xzzx ∨ 1 < dw) {s s' : QState} (h0 : s.psi ≠ 0) :
    Run sz (added q (.readoutZ none) w) s s' ↔ Reads q.lat.name (logZ cls.code q.lat.name dw) (nextReadout q w) 1 s s' := by
  obtain ⟨l, hl, hC⟩ := into_copiesZ (code := cls.code) (name := q.lat.name) (dh := dh) (dw := dw)
  have hp := A.proper (.readoutZ none)
  rw [added_readoutZ A h] at hp ⊢
  exact run_read hl hC (logZ_comm_letter dataQ_ne_ancQ .Z) Nat.one_pos hp h0

theorem run_readoutX_to (A : After cls q dh dw ops w) (h : cls ≠ .xzzx ∨ 1 < dh) {r : Reg} (hr : r ∈ w.circ.cregs) (hs : 0 < r.size)
    {s s' : QState} (h0 : s.psi ≠ 0) :
    Run sz (added q (.readoutX (some r)) w) s s' ↔ Reads q.lat.name (logX cls.code q.lat.name dh dw) r.name r.size s s' := by
  obtain ⟨l, hl, hC⟩ := into_copiesX (code := cls.code) (name := q.lat.name) A.own.2.placed.odd
  have hp := A.proper (.readoutX (some r))
  rw [Emits.added (o := .readoutX (some r)) (A.own.2.placed.emits_readoutX (h.symm.imp id fun h => by rw [A.code]; exact xzzx_code h) hr hs),
    A.code] at hp ⊢
  exact run_read hl hC (logX_comm_letter dataQ_ne_ancQ .Z) hs hp h0

theorem run_readoutZ_to (A : After cls q dh dw ops w) (h : cls ≠ .xzzx ∨ 1 < dw) {r : Reg} (hr : r ∈ w.circ.cregs) (hs : 0 < r.size)
    {s s' : QState} (h0 : s.psi ≠ 0) :
    Run sz (added q (.readoutZ (some r)) w) s s' ↔ Reads q.lat.name (logZ cls.code q.lat.name dw) r.name r.size s s' := by
  obtain ⟨l, hl, hC⟩ := into_copiesZ (code := cls.code) (name := q.lat.name) (dh := dh) (dw := dw)
  have hp := A.proper (.readoutZ (some r))
  rw [Emits.added (o := .readoutZ (some r)) (A.own.2.placed.emits_readoutZ (h.symm.imp id fun h => by rw [A.code]; exact xzzx_code h) hr hs),
    A.code] at hp ⊢
  exact run_read hl hC (logZ_comm_letter dataQ_ne_ancQ .Z) hs hp h0

end Qtc
