import Verif.Proof.QFrame
/-!
The measurements of a logical CNOT.
-/
namespace Qtc
open Spec Function

variable {sz : Str → Nat} {code : Code} {name : Str} {dh dw : Int}

/-! ### Values and copies -/

theorem clear_opP_comm {A : Op} {x : Qubit} (h : ∀ l : Letter, Commute A (l.op x)) (v : Bool) : Commute A (clear v x * opP v x) :=
  (clear_comm (h .X) v).mul_right (Commute.opP (h .Z) v)

theorem hasValue_reset (x : Qubit) (v : Bool) (ψ : Psi) : HasValue (opZ x) false ((clear v x * opP v x) ψ) := by
  rw [clear_opP, Module.End.mul_apply, opP_projOf]
  exact hasValue_proj (opZ_sq x) false _

/-- Copying turns the value of an operator that contains Z on the copy into the value of its product with the original. -/
theorem Spec.HasValue.copy {A D : Op} {x : Qubit} {v : Bool} {ψ : Psi} (h : HasValue D v ψ) (hA : A * A = 1) (hD : Passes true D (opX x))
    (hc : Commute D A) : HasValue (A * D) v (Qtc.copy x A ψ) := by
  have e : A * D * Qtc.copy x A = Qtc.copy x A * D := by
    have hx : D * opX x = sg true • (opX x * D) := hD
    have h0 : A * projOf A false = sg false • projOf A false := mul_projOf hA false
    have h1 : A * projOf A true = sg true • projOf A true := mul_projOf hA true
    have c0 : D * projOf A false = projOf A false * D := (Commute.proj hc false).eq
    have c1 : D * projOf A true = projOf A true * D := (Commute.proj hc true).eq
    unfold Qtc.copy
    rw [mul_add, add_mul, mul_assoc A D, c0, ← mul_assoc A, h0, mul_assoc A D, ← mul_assoc D, c1, mul_assoc (projOf A true), hx,
      ← mul_assoc A, h1, mul_assoc (projOf A true)]
    simp only [smul_mul_assoc, mul_smul_comm, sg_false, sg_true]
    module
  unfold HasValue at h ⊢
  rw [← Module.End.mul_apply, e, Module.End.mul_apply, h, map_smul]

theorem opH_conj_cz {s q : Qubit} (h : s ≠ q) : opH s * opCZ s q * opH s = copy s (opZ q) := by
  have c : opZ q * opH s = opH s * opZ q := Commute.hadamard (opX_opZ_comm h).symm (opZ_comm q s)
  have z : opZ s * opH s = opH s * opX s := (opH_opX s).symm
  have x : opZ q * opX s = opX s * opZ q := (opX_opZ_comm h).symm
  rw [opCZ_eq, opP_projOf, opP_projOf]
  unfold copy projOf
  simp only [sg_false, sg_true, one_smul, smul_mul_assoc, mul_smul_comm, add_mul, mul_add, one_mul, mul_one,
    mul_assoc, c, z, x, opH_mul_opH, opH_sq]
  rw [← mul_assoc (opZ s), z, mul_assoc, opH_mul_opH]
  module

/-- The controlled logical X, between Hadamard gates on the control. -/
theorem copies_cxInstrs (H : OddPos dh dw) {x : Qubit} (hx : ∀ i, dataQ name i ≠ x) :
    opH x * circOp (cxInstrs code name dh dw x) * opH x = copy x (logX code name dh dw) := by
  have key : ∀ l : List Int, (∀ i ∈ l, 0 ≤ i) → opH x * circOp (l.map fun i => .gate2 (code.ctrlX i) x (dataQ name i)) * opH x =
      copy x (fstr code .X name l) := by
    intro l hl
    induction l with
    | nil =>
      rw [show circOp (List.map (fun i => Instr.gate2 (code.ctrlX i) x (dataQ name i)) []) = 1 from rfl, mul_one, opH_sq]
      exact (copy_one x).symm
    | cons i l ih =>
      have h1 : opH x * gateOp (.gate2 (code.ctrlX i) x (dataQ name i)) * opH x = copy x (fop code .X name i) := by
        cases code
        · exact opH_conj_copy (hx i).symm
        · show opH x * gate2Op (if i.fmod 2 = 1 then .cx else .cz) x (dataQ name i) * opH x = _
          rw [fmod_pos_eq _ (by decide)]
          by_cases h : i % 2 = 1
          · rw [if_pos h, show fop .xzzx .X name i = opX (dataQ name i) by unfold fop; rw [kind_xz_X.2 h]; rfl]
            exact opH_conj_copy (hx i).symm
          · rw [if_neg h, show fop .xzzx .X name i = opZ (dataQ name i) by unfold fop; rw [kind_xz_X.1 (by omega)]; rfl]
            exact opH_conj_cz (hx i).symm
      have h2 := ih fun j hj => hl j (by simp [hj])
      have hc : Commute (fop code .X name i) (fstr code .X name l) := fstr_comm fun j hj => fop_comm .X (hl i (by simp)) (hl j (by simp [hj]))
      rw [List.map_cons, circOp_cons, fstr_cons, hc.eq, ← copy_mul (fop_comm_letter .X i hx .X), ← h1, ← h2]
      simp only [mul_assoc, opH_mul_opH]
  rw [logX_eq, ← key _ (col_nonneg H)]
  unfold cxInstrs
  rw [circOp_append]
  rw [show circOp [Instr.barrier] = 1 from one_mul _, one_mul]

/-! ### Patches -/

/-- A lattice. -/
structure Patch where
  code : Code
  name : Str
  dh : Int
  dw : Int

/-- Its logical X. -/
noncomputable def Patch.X (p : Patch) : Op := logX p.code p.name p.dh p.dw

/-- Its logical Z. -/
noncomputable def Patch.Z (p : Patch) : Op := logZ p.code p.name p.dw

/-- Its ancilla qubit. -/
def Patch.anc (p : Patch) : Qubit := ancQ p.name

/-- Names with which no name of a register in common can be formed. -/
def Far (n n' : Str) : Prop := ∀ x y : Str, n ++ '_' :: x ≠ n' ++ '_' :: y

theorem Far.symm {n n' : Str} (h : Far n n') : Far n' n := fun x y e => h y x e.symm

theorem Far.data {n n' : Str} (h : Far n n') (i j : Int) : dataQ n i ≠ dataQ n' j :=
  fun e => h "data".toList "data".toList (congrArg Qubit.reg e)

theorem Far.anc {n n' : Str} (h : Far n n') (i : Int) : dataQ n i ≠ ancQ n' :=
  fun e => h "data".toList "ancilla".toList (congrArg Qubit.reg e)

theorem Far.ancs {n n' : Str} (h : Far n n') : ancQ n ≠ ancQ n' :=
  fun e => h "ancilla".toList "ancilla".toList (congrArg Qubit.reg e)

/-- The qubit is in no register whose name begins with `n` and an underscore. -/
def Outside (n : Str) (x : Qubit) : Prop := ∀ y : Str, x.reg ≠ n ++ '_' :: y

theorem Outside.data {n : Str} {x : Qubit} (h : Outside n x) (i : Int) : dataQ n i ≠ x := fun e => h "data".toList (congrArg Qubit.reg e.symm)

theorem Outside.anc {n : Str} {x : Qubit} (h : Outside n x) : ancQ n ≠ x := fun e => h "ancilla".toList (congrArg Qubit.reg e.symm)

theorem OnData.fstr_comm {n n' : Str} (h : Far n n') {A : Op} (hA : OnData n A) (key : Key) (l : List Int) : Commute A (fstr code key n' l) :=
  Qtc.fstr_comm fun i _ => hA _ (fun j => h.data j i) (kind code key i)

theorem OnData.X_comm {p : Patch} {n : Str} (h : Far n p.name) {A : Op} (hA : OnData n A) : Commute A p.X := by
  unfold Patch.X; rw [logX_eq]; exact hA.fstr_comm h _ _

theorem OnData.Z_comm {p : Patch} {n : Str} (h : Far n p.name) {A : Op} (hA : OnData n A) : Commute A p.Z := by
  unfold Patch.Z; rw [logZ_eq]; exact hA.fstr_comm h _ _

theorem Patch.X_onData (p : Patch) : OnData p.name p.X := logX_onData
theorem Patch.Z_onData (p : Patch) : OnData p.name p.Z := logZ_onData
theorem Patch.Z_sq (p : Patch) : p.Z * p.Z = 1 := logZ_sq

/-- The letters at a qubit commute with logical operators of which it is no data qubit. -/
theorem letter_comm_on {n : Str} {A : Op} (hA : OnData n A) {x : Qubit} (h : ∀ i, dataQ n i ≠ x) (l : Letter) : Commute (l.op x) A := (hA x h l).symm

theorem prepares_comm {p : Patch} {key : Key} {s s' : QState} (h : Prepares p.code p.name p.dh p.dw key s s') {B : Op}
    (hB : ∀ i (l : Letter), Commute B (l.op (dataQ p.name i))) {v : Bool} (hv : HasValue B v s.psi) : HasValue B v s'.psi := by
  obtain ⟨o, e, -, -⟩ := h
  rw [e]
  refine HasValue.of_comm (hv.of_comm ?_) ?_
  · refine clears_comm fun y hy => ?_
    obtain ⟨i, -, rfl⟩ := List.mem_map.1 hy
    exact ⟨hB i .X, hB i .Z⟩
  · refine turns_comm fun y hy => ?_
    obtain ⟨i, hi⟩ := turned_sub _ y hy
    rw [hi]
    exact ⟨hB i .X, hB i .Z⟩

/-! ### The joint measurement of Z -/

/-- The instructions of the ZZ measurement. -/
def zzInstrs (c a : Patch) (x : Qubit) (b : Clbit) : List Instr :=
  [.reset x] ++ (intoAncillaZ c.code c.name c.dh c.dw ++ [.gate2 .cx c.anc x]) ++ (intoAncillaZ a.code a.name a.dh a.dw ++ [.gate2 .cx a.anc x]) ++
    [.measure x b]

theorem kraus_into {p : Patch} {x : Qubit} {m m' : Mem} {A : Op}
    (h : Kraus sz (intoAncillaZ p.code p.name p.dh p.dw ++ [.gate2 .cx p.anc x]) m A m') :
    m' = m ∧ ∃ v, A = copy x (opZ p.anc) * (copy p.anc p.Z * (clear v p.anc * opP v p.anc)) := by
  obtain ⟨l, hl, hC⟩ := into_copiesZ (code := p.code) (name := p.name) (dh := p.dh) (dw := p.dw)
  rw [hl, List.cons_append] at h
  obtain ⟨B, m1, C, ⟨⟨v, rfl⟩, rfl⟩, h2, rfl⟩ := h
  obtain ⟨D, m2, E, h3, h4, rfl⟩ := Kraus.append.1 h2
  obtain ⟨rfl, rfl⟩ := (kraus_gates hC.1).1 h3
  obtain ⟨F, m3, G, ⟨rfl, rfl⟩, ⟨rfl, rfl⟩, rfl⟩ := h4
  refine ⟨rfl, v, ?_⟩
  rw [hC.2.1, one_mul, show gate2Op .cx p.anc x = opCX p.anc x from rfl, opCX_copy, mul_assoc]
  rfl

theorem passes_opZ_X (x : Qubit) : Passes true (opZ x) (opX x) := (passes_XZ x).symm

theorem run_zz {c a : Patch} {x : Qubit} {b : Clbit} (hp : ∀ i ∈ zzInstrs c a x b, i.Proper) (hca : Far c.name a.name)
    (hc : Outside c.name x) (ha : Outside a.name x) {s s' : QState} (h0 : s.psi ≠ 0) (hR : Run sz (zzInstrs c a x b) s s') :
    ∃ m, s'.mem = update s.mem b m ∧ HasValue (a.Z * c.Z) m s'.psi ∧ HasValue (c.Z * opZ c.anc) false s'.psi ∧
      ∀ B v, (∀ l : Letter, Commute B (l.op x) ∧ Commute B (l.op c.anc) ∧ Commute B (l.op a.anc)) → Commute B c.Z → Commute B a.Z →
        HasValue B v s.psi → HasValue B v s'.psi := by
  obtain ⟨A, hA, e, -⟩ := (run_iff hp h0).1 hR
  unfold zzInstrs at hA
  obtain ⟨A1, m1, A2, g1, g2, rfl⟩ := Kraus.append.1 hA
  obtain ⟨A3, m2, A4, g3, g4, rfl⟩ := Kraus.append.1 g1
  obtain ⟨A5, m3, A6, g5, g6, rfl⟩ := Kraus.append.1 g3
  obtain ⟨B1, n1, B2, ⟨⟨o, rfl⟩, rfl⟩, ⟨rfl, rfl⟩, rfl⟩ := g5
  obtain ⟨rfl, vc, rfl⟩ := kraus_into g6
  obtain ⟨rfl, va, rfl⟩ := kraus_into g4
  obtain ⟨C1, n2, C2, ⟨m, rfl, hm⟩, ⟨rfl, hm'⟩, rfl⟩ := g2
  simp only [one_mul] at e
  have na : c.anc ≠ a.anc := hca.ancs
  have nca : c.anc ≠ x := hc.anc
  have naa : a.anc ≠ x := ha.anc
  have hcZ : ∀ {y : Qubit}, (∀ i, dataQ c.name i ≠ y) → ∀ l : Letter, Commute c.Z (l.op y) := fun h l => c.Z_onData _ h l
  have haZ : ∀ {y : Qubit}, (∀ i, dataQ a.name i ≠ y) → ∀ l : Letter, Commute a.Z (l.op y) := fun h l => a.Z_onData _ h l
  have hZZ : Commute c.Z a.Z := c.Z_onData.Z_comm hca
  have zl : ∀ {y z : Qubit}, y ≠ z → ∀ l : Letter, Commute (opZ y) (l.op z) := fun h l => letter_comm h .Z l
  simp only [Module.End.mul_apply] at e
  generalize e1 : clear o x (opP o x s.psi) = ψ1 at e
  have v1 : HasValue (opZ x) false ψ1 := e1 ▸ hasValue_reset x o s.psi
  generalize e2 : clear vc c.anc (opP vc c.anc ψ1) = ψ2 at e
  have v2 : HasValue (opZ c.anc) false ψ2 := e2 ▸ hasValue_reset c.anc vc ψ1
  have v2' : HasValue (opZ x) false ψ2 := e2 ▸ v1.of_comm (clear_opP_comm (zl nca.symm) vc)
  generalize e3 : copy c.anc c.Z ψ2 = ψ3 at e
  have v3 : HasValue (c.Z * opZ c.anc) false ψ3 := e3 ▸ v2.copy c.Z_sq (passes_opZ_X _) (hcZ (dataQ_ne_ancQ) .Z).symm
  have v3' : HasValue (opZ x) false ψ3 := e3 ▸ v2'.of_comm (Commute.copy (hcZ hc.data .Z).symm (zl nca.symm .X))
  generalize e4 : copy x (opZ c.anc) ψ3 = ψ4 at e
  have v4 : HasValue (c.Z * opZ c.anc) false ψ4 := e4 ▸ v3.of_comm (Commute.copy ((hcZ dataQ_ne_ancQ .Z).mul_left (Commute.refl _))
    ((hcZ hc.data .X).mul_left (zl nca .X)))
  have v4' : HasValue (opZ c.anc * opZ x) false ψ4 := e4 ▸ v3'.copy (opZ_sq _) (passes_opZ_X _) (opZ_comm _ _)
  generalize e5 : clear va a.anc (opP va a.anc ψ4) = ψ5 at e
  have v5 : HasValue (c.Z * opZ c.anc) false ψ5 := e5 ▸ v4.of_comm (clear_opP_comm (fun l => (hcZ (fun i => hca.anc i) l).mul_left (zl na l)) va)
  have v5' : HasValue (opZ c.anc * opZ x) false ψ5 := e5 ▸ v4'.of_comm (clear_opP_comm (fun l => (zl na l).mul_left (zl naa.symm l)) va)
  have v5'' : HasValue (opZ a.anc) false ψ5 := e5 ▸ hasValue_reset a.anc va ψ4
  generalize e6 : copy a.anc a.Z ψ5 = ψ6 at e
  have v6 : HasValue (c.Z * opZ c.anc) false ψ6 := e6 ▸ v5.of_comm (Commute.copy (hZZ.mul_left (haZ (fun i => hca.symm.anc i) .Z).symm)
    ((hcZ (fun i => hca.anc i) .X).mul_left (zl na .X)))
  have v6' : HasValue (opZ c.anc * opZ x) false ψ6 := e6 ▸ v5'.of_comm (Commute.copy ((haZ (fun i => hca.symm.anc i) .Z).symm.mul_left (haZ ha.data .Z).symm)
    ((zl na .X).mul_left (zl naa.symm .X)))
  have v6'' : HasValue (a.Z * opZ a.anc) false ψ6 := e6 ▸ v5''.copy a.Z_sq (passes_opZ_X _) (haZ dataQ_ne_ancQ .Z).symm
  generalize e7 : copy x (opZ a.anc) ψ6 = ψ7 at e
  have v7 : HasValue (c.Z * opZ c.anc) false ψ7 := e7 ▸ v6.of_comm (Commute.copy ((hcZ (fun i => hca.anc i) .Z).mul_left (opZ_comm _ _))
    ((hcZ hc.data .X).mul_left (zl nca .X)))
  have v7' : HasValue (opZ a.anc * (opZ c.anc * opZ x)) false ψ7 := e7 ▸ v6'.copy (opZ_sq _)
    ((passes_false.2 (zl nca .X)).mul_left (passes_opZ_X x)) ((opZ_comm _ _).mul_left (opZ_comm _ _))
  have v7'' : HasValue (a.Z * opZ a.anc) false ψ7 := e7 ▸ v6''.of_comm (Commute.copy ((haZ dataQ_ne_ancQ .Z).mul_left (Commute.refl _))
    ((haZ ha.data .X).mul_left (zl naa .X)))
  have v8 : HasValue (c.Z * opZ c.anc) false s'.psi := e ▸ v7.of_comm (Commute.opP ((hcZ hc.data .Z).mul_left (opZ_comm _ _)) m)
  have v8' : HasValue (opZ a.anc * (opZ c.anc * opZ x)) false s'.psi :=
    e ▸ v7'.of_comm (Commute.opP ((opZ_comm _ _).mul_left ((opZ_comm _ _).mul_left (Commute.refl _))) m)
  have v8'' : HasValue (a.Z * opZ a.anc) false s'.psi := e ▸ v7''.of_comm (Commute.opP ((haZ ha.data .Z).mul_left (opZ_comm _ _)) m)
  have v8z : HasValue (opZ x) m s'.psi := by rw [e, opP_projOf]; exact hasValue_proj (opZ_sq x) m _
  refine ⟨m, by rw [hm', hm], ?_, v8, ?_⟩
  · have := v8''.mul (v8'.mul (v8z.mul v8))
    simp only [Bool.false_xor, Bool.xor_false] at this
    have e : a.Z * opZ a.anc * (opZ a.anc * (opZ c.anc * opZ x) * (opZ x * (c.Z * opZ c.anc))) = a.Z * c.Z := by
      have z1 : ∀ y (A : Op), opZ y * (opZ y * A) = A := fun y A => by rw [← mul_assoc, opZ_sq, one_mul]
      have z2 : c.Z * opZ c.anc = opZ c.anc * c.Z := (hcZ dataQ_ne_ancQ .Z).eq
      simp only [mul_assoc, z1, z2]
    rwa [e] at this
  · intro B v hB hc ha hv
    have b1 : HasValue B v ψ1 := e1 ▸ hv.of_comm (clear_opP_comm (fun l => (hB l).1) o)
    have b2 : HasValue B v ψ2 := e2 ▸ b1.of_comm (clear_opP_comm (fun l => (hB l).2.1) vc)
    have b3 : HasValue B v ψ3 := e3 ▸ b2.of_comm (Commute.copy hc (hB .X).2.1)
    have b4 : HasValue B v ψ4 := e4 ▸ b3.of_comm (Commute.copy (s := x) (hB .Z).2.1 (hB .X).1)
    have b5 : HasValue B v ψ5 := e5 ▸ b4.of_comm (clear_opP_comm (fun l => (hB l).2.2) va)
    have b6 : HasValue B v ψ6 := e6 ▸ b5.of_comm (Commute.copy ha (hB .X).2.2)
    have b7 : HasValue B v ψ7 := e7 ▸ b6.of_comm (Commute.copy (s := x) (hB .Z).2.2 (hB .X).1)
    exact e ▸ b7.of_comm (Commute.opP (hB .Z).1 m)

/-! ### The joint measurement of X -/

/-- The instructions of the XX measurement. -/
def xxInstrs (t a : Patch) (x : Qubit) (b : Clbit) : List Instr :=
  [.reset x] ++ [.gate1 .h x none] ++ cxInstrs t.code t.name t.dh t.dw x ++ cxInstrs a.code a.name a.dh a.dw x ++ [.gate1 .h x none] ++
    [.measure x b]

theorem cxInstrs_gates {p : Patch} {x : Qubit} : ∀ i ∈ cxInstrs p.code p.name p.dh p.dw x, i.IsGate := by
  intro i hi
  rcases List.mem_append.1 hi with hi | hi
  · obtain ⟨j, -, rfl⟩ := List.mem_map.1 hi; trivial
  · rw [List.mem_singleton] at hi; subst hi; trivial

theorem run_xx {t a : Patch} {x : Qubit} {b : Clbit} (hp : ∀ i ∈ xxInstrs t a x b, i.Proper) (Ht : OddPos t.dh t.dw) (Ha : OddPos a.dh a.dw)
    (ht : Outside t.name x) (ha : Outside a.name x) {s s' : QState} (h0 : s.psi ≠ 0) (hR : Run sz (xxInstrs t a x b) s s') :
    ∃ m, s'.mem = update s.mem b m ∧ ∀ B v, (∀ l : Letter, Commute B (l.op x)) → Commute B (a.X * t.X) →
        HasValue B v s.psi → HasValue B v s'.psi := by
  obtain ⟨A, hA, e, -⟩ := (run_iff hp h0).1 hR
  unfold xxInstrs at hA
  simp only [List.append_assoc] at hA
  obtain ⟨B1, n1, B2, ⟨⟨o, rfl⟩, rfl⟩, g1, rfl⟩ := hA
  change Kraus sz ([Instr.gate1 .h x none] ++ _) _ _ _ at g1
  rw [← List.append_assoc, ← List.append_assoc, ← List.append_assoc] at g1
  obtain ⟨A1, m1, A2, g2, g3, rfl⟩ := Kraus.append.1 g1
  have hg : ∀ i ∈ [Instr.gate1 .h x none] ++ cxInstrs t.code t.name t.dh t.dw x ++ cxInstrs a.code a.name a.dh a.dw x ++ [.gate1 .h x none], i.IsGate := by
    intro i hi
    simp only [List.mem_append, List.mem_singleton] at hi
    rcases hi with ((rfl | hi) | hi) | rfl
    · trivial
    · exact cxInstrs_gates i hi
    · exact cxInstrs_gates i hi
    · trivial
  obtain ⟨rfl, rfl⟩ := (kraus_gates hg).1 g2
  obtain ⟨C1, n2, C2, ⟨m, rfl, hm⟩, ⟨rfl, hm'⟩, rfl⟩ := g3
  have hop : circOp ([Instr.gate1 .h x none] ++ cxInstrs t.code t.name t.dh t.dw x ++ cxInstrs a.code a.name a.dh a.dw x ++ [.gate1 .h x none]) =
      copy x (a.X * t.X) := by
    have e1 : circOp [Instr.gate1 .h x none] = opH x := by rw [circOp_cons, circOp_nil, one_mul]; rfl
    rw [circOp_append, circOp_append, circOp_append, e1, ← copy_mul (t.X_onData x ht.data .X)]
    unfold Patch.X
    rw [← copies_cxInstrs Ht ht.data, ← copies_cxInstrs Ha ha.data]
    simp only [mul_assoc, opH_mul_opH]
  rw [hop] at e
  simp only [one_mul, Module.End.mul_apply] at e
  refine ⟨m, by rw [hm', hm], ?_⟩
  intro B v hB hx hv
  rw [e]
  exact ((hv.of_comm (clear_opP_comm hB o)).of_comm (Commute.copy hx (hB .X))).of_comm (Commute.opP (hB .Z) m)

/-! ### The whole circuit -/

/-- The instructions of a logical CNOT. -/
def cnotInstrs (c t a : Patch) (x : Qubit) : List Instr :=
  resetXInstrs a.code a.name a.dh a.dw ++ zzInstrs c a x ⟨"m1".toList, 0⟩ ++ xxInstrs t a x ⟨"m2".toList, 0⟩ ++
    readInstrs (intoAncillaZ a.code a.name a.dh a.dw) a.name ⟨"m3".toList, 1⟩ ++
    logicalInstrs c.code.gateZ c.name (some ("m2".toList, 1)) (rowQubits c.dw 0) ++
    logicalInstrs t.code.gateX t.name (some ("m1".toList, 1)) (colQubits t.dh t.dw 0) ++
    logicalInstrs t.code.gateX t.name (some ("m3".toList, 1)) (colQubits t.dh t.dw 0)

/-- The lattices and the qubit a logical CNOT works on. -/
structure Separate (c t a : Patch) (x : Qubit) : Prop where
  Ht : OddPos t.dh t.dw
  Ha : OddPos a.dh a.dw
  ct : Far c.name t.name
  ca : Far c.name a.name
  ta : Far t.name a.name
  c : Outside c.name x
  t : Outside t.name x
  a : Outside a.name x

/-- An operator that commutes with all a logical CNOT does. -/
structure Untouched (c t a : Patch) (x : Qubit) (B : Op) : Prop where
  Z : Commute B c.Z
  X : Commute B t.X
  data : ∀ i, ∀ l : Letter, Commute B (l.op (dataQ a.name i))
  x : ∀ l : Letter, Commute B (l.op x)
  c : ∀ l : Letter, Commute B (l.op c.anc)
  a : ∀ l : Letter, Commute B (l.op a.anc)

theorem Untouched.mul {c t a : Patch} {x : Qubit} {B D : Op} (h : Untouched c t a x B) (h' : Untouched c t a x D) : Untouched c t a x (B * D) :=
  ⟨h.Z.mul_left h'.Z, h.X.mul_left h'.X, fun i l => (h.data i l).mul_left (h'.data i l), fun l => (h.x l).mul_left (h'.x l),
    fun l => (h.c l).mul_left (h'.c l), fun l => (h.a l).mul_left (h'.a l)⟩

theorem Untouched.one {c t a : Patch} {x : Qubit} : Untouched c t a x 1 :=
  ⟨Commute.one_left _, Commute.one_left _, fun _ _ => Commute.one_left _, fun _ => Commute.one_left _, fun _ => Commute.one_left _,
    fun _ => Commute.one_left _⟩

theorem Untouched.aZ {c t a : Patch} {x : Qubit} {B : Op} (h : Untouched c t a x B) : Commute B a.Z := by
  unfold Patch.Z; rw [logZ_eq]; exact fstr_comm fun i _ => h.data i _

theorem Untouched.aX {c t a : Patch} {x : Qubit} {B : Op} (h : Untouched c t a x B) : Commute B a.X := by
  unfold Patch.X; rw [logX_eq]; exact fstr_comm fun i _ => h.data i _

theorem Patch.Z_X {p : Patch} (H : OddPos p.dh p.dw) : Passes true p.Z p.X := (logX_logZ H).symm

/-- An operator on data qubits of the control. -/
theorem Separate.untouched_c {c t a : Patch} {x : Qubit} (S : Separate c t a x) {B : Op} (hB : OnData c.name B) (hZ : Commute B c.Z) :
    Untouched c t a x B :=
  ⟨hZ, hB.X_comm S.ct, fun j => hB _ fun i => S.ca.data i j, hB _ S.c.data, hB _ dataQ_ne_ancQ, hB _ fun i => S.ca.anc i⟩

/-- An operator on data qubits of the target. -/
theorem Separate.untouched_t {c t a : Patch} {x : Qubit} (S : Separate c t a x) {B : Op} (hB : OnData t.name B) (hX : Commute B t.X) :
    Untouched c t a x B :=
  ⟨hB.Z_comm S.ct.symm, hX, fun j => hB _ fun i => S.ta.data i j, hB _ S.t.data, hB _ fun i => S.ct.symm.anc i, hB _ fun i => S.ta.anc i⟩

theorem regValue_one (m : Mem) (r : Str) : (regValue m r 1 : Int) = if m ⟨r, 0⟩ then 1 else 0 := by
  simp [regValue]

theorem run_condX {p : Patch} (H : OddPos p.dh p.dw) {r : Str} (hr : sz r = 1) {s s' : QState}
    (h : Run sz (logicalInstrs p.code.gateX p.name (some (r, 1)) (colQubits p.dh p.dw 0)) s s') :
    s'.mem = s.mem ∧ s'.psi = if s.mem ⟨r, 0⟩ then p.X s.psi else s.psi := by
  rw [run_cond, circOp_logical (fun i => gateX_op _ _ i none) (fun i hi => (col_range H i hi).1), ← logX_eq, hr, regValue_one] at h
  cases e : s.mem ⟨r, 0⟩
  · rw [e] at h; simp at h; subst h; exact ⟨rfl, rfl⟩
  · rw [e] at h; simp at h; subst h; exact ⟨rfl, rfl⟩

theorem run_condZ {p : Patch} {r : Str} (hr : sz r = 1) {s s' : QState}
    (h : Run sz (logicalInstrs p.code.gateZ p.name (some (r, 1)) (rowQubits p.dw 0)) s s') :
    s'.mem = s.mem ∧ s'.psi = if s.mem ⟨r, 0⟩ then p.Z s.psi else s.psi := by
  rw [run_cond, circOp_logical (fun i => gateZ_op _ _ i none) row_nonneg, ← logZ_eq, hr, regValue_one] at h
  cases e : s.mem ⟨r, 0⟩
  · rw [e] at h; simp at h; subst h; exact ⟨rfl, rfl⟩
  · rw [e] at h; simp at h; subst h; exact ⟨rfl, rfl⟩

theorem Spec.HasValue.cond {A B : Op} {v u m : Bool} {ψ : Psi} (h : HasValue A v ψ) (hB : Passes u A B) :
    HasValue A (v ^^ (m && u)) (if m then B ψ else ψ) := by
  cases m
  · simpa using h
  · simpa using h.passes hB

theorem run_cnot {c t a : Patch} {x : Qubit} (S : Separate c t a x) (hp : ∀ i ∈ cnotInstrs c t a x, i.Proper)
    (h1 : sz "m1".toList = 1) (h2 : sz "m2".toList = 1) (h3 : sz "m3".toList = 1) {s s' : QState} (h0 : s.psi ≠ 0)
    (hR : Run sz (cnotInstrs c t a x) s s') :
    (∀ B v, Untouched c t a x B → HasValue B v s.psi → HasValue B v s'.psi) ∧
    (∀ B v, Untouched c t a x B → HasValue (B * t.Z) v s.psi → HasValue (B * (c.Z * t.Z)) v s'.psi) ∧
    HasValue (c.Z * opZ c.anc) false s'.psi := by
  unfold cnotInstrs at hR hp
  simp only [List.mem_append, or_imp, forall_and] at hp
  obtain ⟨⟨⟨⟨⟨⟨p1, p2⟩, p3⟩, p4⟩, p5⟩, p6⟩, p7⟩ := hp
  obtain ⟨s6, hR, r7⟩ := Run.append.1 hR
  obtain ⟨s5, hR, r6⟩ := Run.append.1 hR
  obtain ⟨s4, hR, r5⟩ := Run.append.1 hR
  obtain ⟨s3, hR, r4⟩ := Run.append.1 hR
  obtain ⟨s2, hR, r3⟩ := Run.append.1 hR
  obtain ⟨s1, r1, r2⟩ := Run.append.1 hR
  have n1 : s1.psi ≠ 0 := ((run_iff p1 h0).1 r1).choose_spec.2.2
  have n2 : s2.psi ≠ 0 := ((run_iff p2 n1).1 r2).choose_spec.2.2
  have n3 : s3.psi ≠ 0 := ((run_iff p3 n2).1 r3).choose_spec.2.2
  have k1 := (run_reset .X p1 h0).1 r1
  obtain ⟨b1, e2, k2, q2, u2⟩ := run_zz p2 S.ca S.c S.a n1 r2
  obtain ⟨b2, e3, u3⟩ := run_xx p3 S.Ht S.Ha S.t S.a n2 r3
  obtain ⟨l, hl, hC⟩ := into_copiesZ (code := a.code) (name := a.name) (dh := a.dh) (dw := a.dw)
  obtain ⟨o, b3, k4, -, e4⟩ := (run_read hl hC (logZ_comm_letter dataQ_ne_ancQ .Z) Nat.one_pos p4 n3).1 r4
  obtain ⟨e5, k5⟩ := run_condZ h2 r5
  obtain ⟨e6, k6⟩ := run_condX S.Ht h1 r6
  obtain ⟨e7, k7⟩ := run_condX S.Ht h3 r7
  have w1 : s5.mem ⟨"m1".toList, 0⟩ = b1 := by
    rw [e5, e4, writeReg_other (by decide), e3, update_of_ne (by decide), e2, update_self]
  have w3 : s6.mem ⟨"m3".toList, 0⟩ = b3 := by
    rw [e6, e5, e4, writeReg_mem Nat.one_pos]
  rw [w1] at k6
  rw [w3] at k7
  have haZ : ∀ l : Letter, Commute a.Z (l.op a.anc) := fun l => a.Z_onData _ dataQ_ne_ancQ l
  -- the readout keeps what commutes with it
  have u4 : ∀ B v, (∀ l : Letter, Commute B (l.op a.anc)) → Commute B a.Z → HasValue B v s3.psi → HasValue B v s4.psi := by
    intro B v hB hZ hv
    rw [k4]
    exact ((hv.of_comm (clear_opP_comm hB o)).of_comm (Commute.proj hZ b3)).of_comm (clear_comm (hB .X) b3)
  have q4 : HasValue a.Z b3 s4.psi := by
    rw [k4]
    exact (hasValue_proj a.Z_sq b3 _).of_comm (clear_comm (haZ .X) b3)
  have hct : Commute c.Z t.X := c.Z_onData.X_comm S.ct
  have hcZ : ∀ {y : Qubit}, (∀ i, dataQ c.name i ≠ y) → ∀ l : Letter, Commute c.Z (l.op y) := fun h l => c.Z_onData _ h l
  have zl : ∀ {y z : Qubit}, y ≠ z → ∀ l : Letter, Commute (opZ y) (l.op z) := fun h l => letter_comm h .Z l
  refine ⟨?_, ?_, ?_⟩
  · intro B v hB hv
    have v1 := prepares_comm k1 hB.data hv
    have v2 := u2 B v (fun l => ⟨hB.x l, hB.c l, hB.a l⟩) hB.Z hB.aZ v1
    have v3 := u3 B v hB.x (hB.aX.mul_right hB.X) v2
    have v4 := u4 B v hB.a hB.aZ v3
    have v5 : HasValue B v s5.psi := by rw [k5]; simpa using v4.cond (passes_false.2 hB.Z)
    have v6 : HasValue B v s6.psi := by rw [k6]; simpa using v5.cond (passes_false.2 hB.X)
    rw [k7]; simpa using v6.cond (passes_false.2 hB.X)
  · intro B v hB hv
    have htx := t.Z_onData _ S.t.data
    have htc := t.Z_onData _ fun i => S.ct.symm.anc i
    have hta := t.Z_onData _ fun i => S.ta.anc i
    have htZ : Commute t.Z c.Z := t.Z_onData.Z_comm S.ct.symm
    have htaZ : Commute t.Z a.Z := t.Z_onData.Z_comm S.ta
    have hcaZ : Commute c.Z a.Z := c.Z_onData.Z_comm S.ca
    have v1 := prepares_comm k1 (fun i l => (hB.data i l).mul_left (t.Z_onData _ (fun j => S.ta.data j i) l)) hv
    have v2 := u2 (B * t.Z) v (fun l => ⟨(hB.x l).mul_left (htx l), (hB.c l).mul_left (htc l), (hB.a l).mul_left (hta l)⟩)
      (hB.Z.mul_left htZ) (hB.aZ.mul_left htaZ) v1
    have v2' := v2.mul k2
    have cX : Commute (B * t.Z * (a.Z * c.Z)) (a.X * t.X) := by
      have d1 : Passes (false ^^ false) (B * t.Z) a.X := (passes_false.2 hB.aX).mul_left (passes_false.2 (t.Z_onData.X_comm S.ta))
      have d2 : Passes (false ^^ true) (B * t.Z) t.X := (passes_false.2 hB.X).mul_left (Patch.Z_X S.Ht)
      have d3 : Passes (true ^^ false) (a.Z * c.Z) a.X := (Patch.Z_X S.Ha).mul_left (passes_false.2 (c.Z_onData.X_comm S.ca))
      have d4 : Passes (false ^^ false) (a.Z * c.Z) t.X := (passes_false.2 (a.Z_onData.X_comm S.ta.symm)).mul_left (passes_false.2 hct)
      exact passes_false.1 ((d1.mul_left d3).mul_right (d2.mul_left d4))
    have v3 := u3 _ _ (fun l => ((hB.x l).mul_left (htx l)).mul_left ((a.Z_onData _ S.a.data l).mul_left (hcZ S.c.data l))) cX v2'
    have v4 := u4 _ _ (fun l => ((hB.a l).mul_left (hta l)).mul_left ((haZ l).mul_left (hcZ (fun i => S.ca.anc i) l)))
      ((hB.aZ.mul_left htaZ).mul_left ((Commute.refl _).mul_left hcaZ)) v3
    have v4' := v4.mul q4
    have e : B * t.Z * (a.Z * c.Z) * a.Z = B * (c.Z * t.Z) := by
      rw [mul_assoc, mul_assoc a.Z, hcaZ.eq, ← mul_assoc a.Z, a.Z_sq, one_mul, mul_assoc, htZ.eq]
    rw [e] at v4'
    have v5 : HasValue (B * (c.Z * t.Z)) (v ^^ b1 ^^ b3) s5.psi := by
      rw [k5]
      simpa using v4'.cond (passes_false.2 (hB.Z.mul_left ((Commute.refl _).mul_left htZ)))
    have hX : Passes (false ^^ (false ^^ true)) (B * (c.Z * t.Z)) t.X :=
      (passes_false.2 hB.X).mul_left ((passes_false.2 hct).mul_left (Patch.Z_X S.Ht))
    have v6 := v5.cond (m := b1) hX
    rw [← k6] at v6
    have v7 := v6.cond (m := b3) hX
    rw [← k7] at v7
    convert v7 using 1
    cases v <;> cases b1 <;> cases b3 <;> rfl
  · have v3 := u3 (c.Z * opZ c.anc) false (fun l => (hcZ S.c.data l).mul_left (zl S.c.anc l))
      (((c.Z_onData.X_comm S.ca).mul_right hct).mul_left
        ((a.X_onData _ (fun i => S.ca.symm.anc i) .Z).symm.mul_right (t.X_onData _ (fun i => S.ct.symm.anc i) .Z).symm)) q2
    have v4 := u4 _ _ (fun l => (hcZ (fun i => S.ca.anc i) l).mul_left (zl S.ca.ancs l))
      ((c.Z_onData.Z_comm S.ca).mul_left (a.Z_onData _ (fun i => S.ca.symm.anc i) .Z).symm) v3
    have cX : Commute (c.Z * opZ c.anc) t.X := hct.mul_left (t.X_onData _ (fun i => S.ct.symm.anc i) .Z).symm
    have cc : Commute (c.Z * opZ c.anc) c.Z := (Commute.refl c.Z).mul_left (hcZ dataQ_ne_ancQ .Z).symm
    have v5 : HasValue (c.Z * opZ c.anc) false s5.psi := by
      have v5 := v4.cond (m := s4.mem ⟨"m2".toList, 0⟩) (passes_false.2 cc)
      rw [Bool.and_false, Bool.xor_false] at v5
      rw [k5]; exact v5
    have v6 : HasValue (c.Z * opZ c.anc) false s6.psi := by rw [k6]; simpa using v5.cond (passes_false.2 cX)
    rw [k7]; simpa using v6.cond (passes_false.2 cX)

end Qtc
