import Verif.Proof.QFrame
import Verif.Proof.Strings
import Verif.Spec.Noise
/-!
Rounds with syndrome qubits that are not 0, and errors after identity gates.
-/
namespace Qtc
open Spec Function

variable {cls : QClass} {q : TQubit} {dh dw : Int} {ops : List QOp} {w : World} {sz : Str → Nat} {code : Code} {name : Str}

/-! ### Syndrome qubits with values -/

theorem isZero_value {x : Qubit} {ψ : Psi} : IsZero x ψ ↔ HasValue (opZ x) false ψ := by
  rw [isZero_iff, opP_projOf]
  unfold HasValue projOf
  simp only [LinearMap.smul_apply, LinearMap.add_apply, Module.End.one_apply, sg, Bool.false_eq_true, if_false, one_smul]
  constructor
  · intro h
    have h2 : ψ + opZ x ψ = (2 : ℂ) • ψ := by
      calc ψ + opZ x ψ = (2 : ℂ) • ((1 / 2 : ℂ) • (ψ + opZ x ψ)) := by rw [smul_smul]; norm_num
        _ = _ := by rw [h]
    rw [two_smul] at h2
    exact add_left_cancel h2
  · intro h
    rw [h, ← two_smul ℂ ψ, smul_smul]
    norm_num

/-- Bring qubits with given values to 0. -/
def flipAll (e : Qubit → Bool) (l : List Qubit) : Op := (l.map fun x => clear (e x) x).prod

theorem flipAll_cons (e : Qubit → Bool) (x : Qubit) (l : List Qubit) : flipAll e (x :: l) = clear (e x) x * flipAll e l := by
  simp [flipAll]

theorem flipAll_comm {A : Op} {e : Qubit → Bool} {l : List Qubit} (h : ∀ x ∈ l, Commute A (opX x)) : Commute A (flipAll e l) := by
  refine Commute.list_prod_right _ _ fun B hB => ?_
  obtain ⟨x, hx, rfl⟩ := List.mem_map.1 hB
  exact clear_comm (h x hx) _

theorem flipAll_sq (e : Qubit → Bool) (l : List Qubit) : flipAll e l * flipAll e l = 1 := by
  induction l with
  | nil => exact one_mul _
  | cons x l ih =>
    have hc : Commute (clear (e x) x) (flipAll e l) := flipAll_comm fun y _ => (clear_comm (opX_comm y x) _).symm
    rw [flipAll_cons, mul_assoc, ← mul_assoc (flipAll e l), ← hc.eq, mul_assoc, ih, mul_one, clear_sq]

theorem clear_passes_self (v : Bool) (x : Qubit) : Passes v (clear v x) (opZ x) := by
  cases v
  · exact passes_false.2 (Commute.one_left _)
  · exact passes_XZ x

theorem flipAll_passes {e : Qubit → Bool} {l : List Qubit} (hn : l.Nodup) {x : Qubit} (hx : x ∈ l) : Passes (e x) (flipAll e l) (opZ x) := by
  induction l with
  | nil => cases hx
  | cons y l ih =>
    rw [List.nodup_cons] at hn
    rw [flipAll_cons]
    by_cases h : x = y
    · subst h
      have := (clear_passes_self (e x) x).mul_left (passes_false.2 (flipAll_comm (A := opZ x) (e := e) (l := l) fun z hz =>
        (opX_opZ_comm (by rintro rfl; exact hn.1 hz)).symm).symm)
      rwa [Bool.xor_false] at this
    · have := (passes_false.2 (clear_comm (opX_opZ_comm (Ne.symm h)).symm (e y)).symm).mul_left (ih hn.2 ((List.mem_cons.1 hx).resolve_left h))
      rwa [Bool.false_xor] at this

theorem flipAll_projs {e o : Qubit → Bool} {E : Op} {l : List Qubit} (h : ∀ x ∈ l, Passes (e x) E (opZ x)) :
    projs o l * E = E * projs (fun x => o x ^^ e x) l := by
  induction l with
  | nil => exact (one_mul _).trans (mul_one _).symm
  | cons x l ih =>
    have e1 : opP (o x) x * E = E * opP (o x ^^ e x) x := by
      rw [opP_projOf, opP_projOf, (h x (by simp)).proj, Bool.xor_assoc, Bool.xor_self, Bool.xor_false]
    rw [projs_cons, projs_cons, mul_assoc, ih fun y hy => h y (by simp [hy]), ← mul_assoc, e1, mul_assoc]

theorem clear_clear (v u : Bool) (x : Qubit) : clear v x * clear u x = clear (v ^^ u) x := by
  cases v <;> cases u <;> simp [clear]

theorem clears_flipAll {e r : Qubit → Bool} {l : List Qubit} (hn : l.Nodup) : clears r l * flipAll e l = clears (fun x => r x ^^ e x) l := by
  induction l with
  | nil => exact one_mul _
  | cons x l ih =>
    rw [List.nodup_cons] at hn
    have hc : Commute (clear (e x) x) (clears r l) := clears_comm fun y hy =>
      ⟨(clear_comm (opX_comm y x) _).symm, (clear_comm (opX_opZ_comm (by rintro rfl; exact hn.1 hy)).symm _).symm⟩
    have e1 : opP (r x) x * clear (e x) x = clear (e x) x * opP (r x ^^ e x) x := by
      rw [opP_projOf, opP_projOf, (clear_passes_self (e x) x).proj, Bool.xor_assoc, Bool.xor_self, Bool.xor_false]
    rw [clears_cons, flipAll_cons, clears_cons, ← ih hn.2, ← clear_clear]
    calc clear (r x) x * opP (r x) x * clears r l * (clear (e x) x * flipAll e l)
        = clear (r x) x * opP (r x) x * (clears r l * clear (e x) x) * flipAll e l := by simp only [mul_assoc]
      _ = clear (r x) x * (opP (r x) x * clear (e x) x) * clears r l * flipAll e l := by rw [← hc.eq]; simp only [mul_assoc]
      _ = _ := by rw [e1]; simp only [mul_assoc]

theorem bitsOf_xor (nz : Nat) (o e : Qubit → Bool) (k : Nat) :
    bitsOf name nz (fun x => o x ^^ e x) k = (bitsOf name nz o k ^^ bitsOf name nz e k) := by
  unfold bitsOf
  split <;> rfl

theorem synQs_ne_data {nx nz : Nat} {x : Qubit} (hx : x ∈ synQs name nx nz) : ∀ i, dataQ name i ≠ x := by
  unfold synQs at hx
  rcases List.mem_append.1 hx with hx | hx
  · obtain ⟨k, -, rfl⟩ := List.mem_map.1 hx
    exact dataQ_ne_mzQ k
  · obtain ⟨k, -, rfl⟩ := List.mem_map.1 hx
    exact dataQ_ne_mxQ k

theorem writeReg_inj {m : Mem} {r : Str} {n : Nat} {f g : Nat → Bool} (h : writeReg m r n f = writeReg m r n g) : ∀ k < n, f k = g k := by
  intro k hk
  have := congrFun h ⟨r, k⟩
  rwa [writeReg_mem hk, writeReg_mem hk] at this

/-- A round in which the syndrome qubits have values: what is written are the values of the checks, flipped by those values. -/
theorem run_round_values (H : OddPos dh dw) {creg : Str} (hp : ∀ i ∈ roundInstrs code name dh dw creg, i.Proper) {s s' : QState} (h0 : s.psi ≠ 0)
    {e : Qubit → Bool} (hs : ∀ x ∈ synQs name (xSites dh dw).length (zSites dh dw).length, HasValue (opZ x) (e x) s.psi)
    (hR : Run sz (roundInstrs code name dh dw creg) s s') :
    ∃ m, s'.psi = jointProj (checks code name dh dw) (fun k => m k ^^ bitsOf name (zSites dh dw).length e k)
        (flipAll e (synQs name (xSites dh dw).length (zSites dh dw).length) s.psi) ∧ s'.psi ≠ 0 ∧
      SynZero name dh dw s'.psi ∧ s'.mem = writeReg s.mem creg ((xSites dh dw).length + (zSites dh dw).length) m := by
  obtain ⟨A, hA, e1, hne⟩ := (run_iff hp h0).1 hR
  obtain ⟨o, r, rfl, hm⟩ := (kraus_round H).1 hA
  have hnd := synQs_nodup (name := name) (xSites dh dw).length (zSites dh dw).length
  generalize hS : synQs name (xSites dh dw).length (zSites dh dw).length = S at *
  have hE := flipAll_sq e S
  have hz : SynZero name dh dw (flipAll e S s.psi) := by
    have : ∀ x ∈ S, IsZero x (flipAll e S s.psi) := by
      intro x hx
      rw [isZero_value]
      have := (hs x hx).passes (flipAll_passes (e := e) hnd hx).symm
      rwa [Bool.xor_self] at this
    refine ⟨fun k hk => this _ ?_, fun k hk => this _ ?_⟩
    · rw [← hS]; exact List.mem_append_left _ (List.mem_map.2 ⟨k, List.mem_range.2 hk, rfl⟩)
    · rw [← hS]; exact List.mem_append_right _ (List.mem_map.2 ⟨k, List.mem_range.2 hk, rfl⟩)
  have hcop : Commute (flipAll e S) (copies (gadgets code name dh dw)) := by
    refine copies_comm fun p hp => ?_
    obtain ⟨h1, h2, key, s, hs, h3⟩ := mem_gadgets hp
    refine ⟨?_, (flipAll_comm fun x _ => opX_comm _ _).symm⟩
    rw [h3]
    refine (flipAll_comm fun x hx => ?_).symm
    rw [← hS] at hx
    exact check_comm_letter H hs (synQs_ne_data hx) .X
  have hop : clears (fun x => r x ^^ e x) S * projs (fun x => o x ^^ e x) S * copies (gadgets code name dh dw) * flipAll e S =
      clears r S * projs o S * copies (gadgets code name dh dw) := by
    rw [mul_assoc, ← hcop.eq, ← clears_flipAll hnd]
    calc clears r S * flipAll e S * projs (fun x => o x ^^ e x) S * (flipAll e S * copies (gadgets code name dh dw))
        = clears r S * (flipAll e S * projs (fun x => o x ^^ e x) S) * (flipAll e S * copies (gadgets code name dh dw)) := by simp only [mul_assoc]
      _ = clears r S * projs o S * (flipAll e S * flipAll e S) * copies (gadgets code name dh dw) := by
        rw [← flipAll_projs fun x hx => flipAll_passes hnd hx]; simp only [mul_assoc]
      _ = _ := by rw [hE, mul_one]
  have hrun : Run sz (roundInstrs code name dh dw creg) ⟨flipAll e S s.psi, s.mem⟩ ⟨s'.psi,
      writeReg s.mem creg ((xSites dh dw).length + (zSites dh dw).length) (bitsOf name (zSites dh dw).length fun x => o x ^^ e x)⟩ := by
    refine (run_iff hp (s := ⟨flipAll e S s.psi, s.mem⟩) (ne_zero_of_sq hE h0)).2 ⟨_, (kraus_round H).2 ⟨fun x => o x ^^ e x, fun x => r x ^^ e x, rfl, rfl⟩, ?_, hne⟩
    rw [hS]
    show s'.psi = _
    rw [e1, ← hop]
    rfl
  obtain ⟨m', g1, g2, g3⟩ := (run_round H hp (s := ⟨flipAll e S s.psi, s.mem⟩) (ne_zero_of_sq hE h0) hz).1 hrun
  simp only at g1 g2 g3
  have hm' := writeReg_inj g3
  refine ⟨bitsOf name (zSites dh dw).length o, ?_, hne, ?_, hm⟩
  · rw [g1]
    refine congrArg (fun F : Op => F _) (jointProj_congr fun k hk => ?_)
    rw [checks_length] at hk
    rw [← hm' k hk, bitsOf_xor]
  · rw [g1]
    exact hz.joint H m'

/-! ### Errors -/

theorem withErrors_append (e : Errs) (l l' : List Instr) : withErrors e (l ++ l') = withErrors e l ++ withErrors e l' :=
  List.flatMap_append

theorem withErrors_cons (e : Errs) (i : Instr) (l : List Instr) : withErrors e (i :: l) = i :: (errorsAfter e i ++ withErrors e l) := rfl

theorem errorsAfter_none {e : Errs} {i : Instr} (h : ∀ x, i ≠ .gate1 .id x none) : errorsAfter e i = [] := by
  unfold errorsAfter
  split
  · next x => exact absurd rfl (h x)
  · rfl

theorem withErrors_none {e : Errs} {l : List Instr} (h : ∀ i ∈ l, ∀ x, i ≠ Instr.gate1 .id x none) : withErrors e l = l := by
  induction l with
  | nil => rfl
  | cons i l ih =>
    rw [withErrors_cons, errorsAfter_none (h i (by simp)), ih fun j hj => h j (by simp [hj]), List.nil_append]

theorem errorsAfter_id (e : Errs) (x : Qubit) : errorsAfter e (.gate1 .id x none) =
    (if (e x).1 then [.gate1 .x x none] else []) ++ if (e x).2 then [.gate1 .z x none] else [] := rfl

/-- The errors of one qubit. -/
def err1 (e : Bool × Bool) (x : Qubit) : Op := (if e.2 then opZ x else 1) * (if e.1 then opX x else 1)

/-- The errors of a list of qubits. -/
def errOp (e : Errs) : List Qubit → Op
  | [] => 1
  | x :: l => errOp e l * err1 (e x) x

theorem errOp_append (e : Errs) (l l' : List Qubit) : errOp e (l ++ l') = errOp e l' * errOp e l := by
  induction l with
  | nil => exact (mul_one _).symm
  | cons x l ih => rw [List.cons_append, errOp, ih, errOp, mul_assoc]

theorem run_errOp {e : Errs} {l : List Qubit} {s s' : QState} :
    Run sz (withErrors e (l.map (fun x => .gate1 .id x none) ++ [.barrier])) s s' ↔ s' = ⟨errOp e l s.psi, s.mem⟩ := by
  have hg : ∀ i ∈ withErrors e (l.map (fun x => .gate1 .id x none) ++ [.barrier]), i.IsGate := by
    induction l with
    | nil =>
      intro i hi
      replace hi := List.mem_singleton.1 hi
      subst hi; trivial
    | cons x l ih =>
      intro i hi
      rw [List.map_cons, List.cons_append, withErrors_cons, errorsAfter_id] at hi
      simp only [List.mem_append, List.mem_cons] at hi
      rcases hi with rfl | ((hi | hi) | hi)
      · trivial
      · split at hi
        · rw [List.mem_singleton] at hi; subst hi; trivial
        · cases hi
      · split at hi
        · rw [List.mem_singleton] at hi; subst hi; trivial
        · cases hi
      · exact ih i hi
  rw [run_gates hg]
  have key : circOp (withErrors e (l.map (fun x => .gate1 .id x none) ++ [.barrier])) = errOp e l := by
    clear hg
    induction l with
    | nil => exact one_mul _
    | cons x l ih =>
      rw [List.map_cons, List.cons_append, errOp, ← ih, err1]
      have h1 : circOp (Instr.gate1 .id x none :: ([] : List Instr)) = 1 := one_mul _
      have h2 : circOp (if (e x).1 then [Instr.gate1 .x x none] else []) = if (e x).1 then opX x else 1 := by
        split
        · exact mul_one (opX x)
        · rfl
      have h3 : circOp (if (e x).2 then [Instr.gate1 .z x none] else []) = if (e x).2 then opZ x else 1 := by
        split
        · exact mul_one (opZ x)
        · rfl
      have ha : ∀ a b, circOp (a ++ b) = circOp b * circOp a := by
        intro a b
        unfold circOp
        rw [List.reverse_append, List.map_append, List.prod_append]
      have hw : withErrors e (.gate1 .id x none :: (l.map (fun x => Instr.gate1 .id x none) ++ [.barrier])) =
          [.gate1 .id x none] ++ ((if (e x).1 then [.gate1 .x x none] else []) ++ ((if (e x).2 then [.gate1 .z x none] else []) ++
            withErrors e (l.map (fun x => Instr.gate1 .id x none) ++ [.barrier]))) := by
        rw [withErrors_cons, errorsAfter_id]; simp only [List.append_assoc, List.cons_append, List.nil_append]
      rw [hw, ha, ha, ha, h1, h2, h3, mul_one, mul_assoc]
  rw [key]

theorem err1_ne {e : Bool × Bool} {x : Qubit} {ψ : Psi} (h : ψ ≠ 0) : err1 e x ψ ≠ 0 := by
  obtain ⟨a, b⟩ := e
  have key : ∀ c : Bool, ∀ A : Op, A * A = 1 → ∀ φ : Psi, φ ≠ 0 → (if c then A else 1) φ ≠ 0 := by
    intro c A hA φ hφ
    cases c
    · exact hφ
    · exact ne_zero_of_sq hA hφ
  exact key b _ (opZ_sq x) _ (key a _ (opX_sq x) _ h)

theorem errOp_ne {e : Errs} {l : List Qubit} {ψ : Psi} (h : ψ ≠ 0) : errOp e l ψ ≠ 0 := by
  induction l generalizing ψ with
  | nil => exact h
  | cons x l ih => exact ih (err1_ne h)

theorem err1_passes {B : Op} {e : Bool × Bool} {x : Qubit} {hx hz : Bool} (h : Passes hx (opX x) B) (h' : Passes hz (opZ x) B) :
    Passes ((e.1 && hx) ^^ (e.2 && hz)) (err1 e x) B := by
  have key : ∀ (c u : Bool) (A : Op), Passes u A B → Passes (c && u) (if c then A else 1) B := by
    intro c u A hA
    cases c
    · exact (Passes.one_right B).symm
    · rw [Bool.true_and]; exact hA
  rw [Bool.xor_comm]
  exact (key _ _ _ h').mul_left (key _ _ _ h)

theorem errOp_passes {α : Type} {B : Op} {e : Errs} {l : List α} {g : α → Qubit} {f : α → Bool}
    (h : ∀ a ∈ l, Passes (f a) (err1 (e (g a)) (g a)) B) : Passes (xorAll (l.map f)) (errOp e (l.map g)) B := by
  induction l with
  | nil => exact (Passes.one_right B).symm
  | cons a l ih =>
    rw [List.map_cons, List.map_cons, errOp, xorAll_cons, Bool.xor_comm]
    exact (ih fun b hb => h b (by simp [hb])).mul_left (h a (by simp))

theorem errOp_comm {B : Op} {e : Errs} {l : List Qubit} (h : ∀ x ∈ l, Commute (opX x) B ∧ Commute (opZ x) B) : Commute (errOp e l) B := by
  have := errOp_passes (B := B) (e := e) (l := l) (g := id) (f := fun _ => false) fun x hx => by
    have := err1_passes (e := e x) (passes_false.2 (h x hx).1) (passes_false.2 (h x hx).2)
    simpa using this
  rw [xorAll_map_false, List.map_id, passes_false] at this
  exact this

theorem fop_same {key : Key} {a : Letter} {i : Int} : Passes (decide (a ≠ kind code key i)) (a.op (dataQ name i)) (fop code key name i) := by
  by_cases h : a = kind code key i
  · rw [decide_eq_false (by simpa using h), passes_false, h]
    exact Commute.refl _
  · rw [decide_eq_true h]
    exact letter_anti h _

theorem letter_fstr_passes {key : Key} {a : Letter} {i : Int} (hi : 0 ≤ i) {m : List Int} (hm : ∀ j ∈ m, 0 ≤ j) (hn : m.Nodup) :
    Passes (decide (a ≠ kind code key i) && decide (i ∈ m)) (a.op (dataQ name i)) (fstr code key name m) := by
  induction m with
  | nil => rw [decide_eq_false (by simp : i ∉ []), Bool.and_false]; exact Passes.one_right _
  | cons j m ih =>
    rw [List.nodup_cons] at hn
    rw [fstr_cons]
    have ih' := ih (fun j hj => hm j (by simp [hj])) hn.2
    by_cases h1 : i = j
    · subst h1
      rw [decide_eq_false hn.1, Bool.and_false] at ih'
      have := (fop_same (code := code) (name := name) (key := key) (a := a) (i := i)).mul_right ih'
      simpa using this
    · have : Passes false (a.op (dataQ name i)) (fop code key name j) :=
        passes_false.2 (letter_comm (fun e => h1 (dataQ_inj hi (hm j (by simp)) e)) _ _)
      have := this.mul_right ih'
      simpa [h1] using this

theorem turned_passes {key : Key} {e : Bool × Bool} {i : Int} (hi : 0 ≤ i) {m : List Int} (hm : ∀ j ∈ m, 0 ≤ j) (hn : m.Nodup) :
    Passes (turnedBy code key i e && decide (i ∈ m)) (err1 e (dataQ name i)) (fstr code key name m) := by
  have := err1_passes (e := e) (letter_fstr_passes (code := code) (key := key) (a := .X) hi hm hn)
    (letter_fstr_passes (code := code) (key := key) (name := name) (a := .Z) hi hm hn)
  have h : (turnedBy code key i e && decide (i ∈ m)) = ((e.1 && (decide (Letter.X ≠ kind code key i) && decide (i ∈ m))) ^^
      (e.2 && (decide (Letter.Z ≠ kind code key i) && decide (i ∈ m)))) := by
    unfold turnedBy
    cases code <;> cases key <;> by_cases h2 : i % 2 = 0 <;> simp [kind, h2]
  rw [h]
  exact this

end Qtc
