import Verif.Proof.QCode
import Verif.Props.Circuit
/-!
Stabilization as a measurement.
-/
namespace Qtc
open Spec Function

variable {sz : Str → Nat} {code : Code} {name : Str} {dh dw : Int}

theorem parityOn_filterMap (f : Int → Bool) (l : List (Option Int)) : parityOn f l = xorAll ((l.filterMap id).map f) := by
  unfold parityOn
  induction l with
  | nil => rfl
  | cons a l ih =>
    rcases a with _ | a
    · rw [List.filterMap_cons_none rfl, ← ih]
      simp [xorAll, optFlip]
    · rw [List.filterMap_cons_some (f := id) (b := a) rfl]
      simp only [xorAll, List.map_cons, List.foldr_cons, optFlip] at *
      rw [ih]

/-! ### The observables commute -/

theorem check_sq (H : OddPos dh dw) {key : Key} {p : Int × Int} (hp : SiteOf dh dw key p) :
    checkOp code name dh dw key p * checkOp code name dh dw key p = 1 := by
  rw [checkOp_eq H code name hp]
  exact fstr_sq key around_nonneg

theorem check_comm (H : OddPos dh dw) {key key' : Key} {p p' : Int × Int} (hp : SiteOf dh dw key p) (hp' : SiteOf dh dw key' p') :
    Commute (checkOp code name dh dw key p) (checkOp code name dh dw key' p') := by
  rw [checkOp_eq H code name hp, checkOp_eq H code name hp']
  have main : ∀ p p', SiteOf dh dw .X p → SiteOf dh dw .Z p' →
      Commute (fstr code .X name (around dh dw p)) (fstr code .Z name (around dh dw p')) := by
    intro p p' hx hz
    have := fstr_passes (code := code) (name := name) (around_nonneg (dh := dh) (dw := dw) (p := p))
      (around_nonneg (dh := dh) (dw := dw) (p := p')) (around_nodup H hz)
    have e := plaq_commute H hx hz
    rw [parityOn_filterMap] at e
    have e' : xorAll ((around dh dw p).map fun i => decide (i ∈ around dh dw p')) = false := by
      rw [← e]
      congr 1
      refine List.map_congr_left fun i _ => ?_
      rw [decide_eq_decide]
      exact mem_around
    rw [e', passes_false] at this
    exact this
  cases key <;> cases key'
  · exact fstr_comm_same .X around_nonneg around_nonneg
  · exact main p p' hp hp'
  · exact (main p' p hp' hp).symm
  · exact fstr_comm_same .Z around_nonneg around_nonneg

theorem mem_checks {A : Op} (h : A ∈ checks code name dh dw) : ∃ key p, SiteOf dh dw key p ∧ A = checkOp code name dh dw key p := by
  unfold checks at h
  rcases List.mem_append.1 h with h | h
  · obtain ⟨p, hp, rfl⟩ := List.mem_map.1 h
    exact ⟨.Z, p, mem_zSites.1 hp, rfl⟩
  · obtain ⟨p, hp, rfl⟩ := List.mem_map.1 h
    exact ⟨.X, p, mem_xSites.1 hp, rfl⟩

theorem checks_comm (H : OddPos dh dw) {A B : Op} (hA : A ∈ checks code name dh dw) (hB : B ∈ checks code name dh dw) : Commute A B := by
  obtain ⟨k, p, hp, rfl⟩ := mem_checks hA
  obtain ⟨k', p', hp', rfl⟩ := mem_checks hB
  exact check_comm H hp hp'

theorem checks_sq (H : OddPos dh dw) {A : Op} (hA : A ∈ checks code name dh dw) : A * A = 1 := by
  obtain ⟨k, p, hp, rfl⟩ := mem_checks hA
  exact check_sq H hp

theorem check_comm_letter (H : OddPos dh dw) {key : Key} {p : Int × Int} (hp : SiteOf dh dw key p) {q : Qubit} (h : ∀ i, dataQ name i ≠ q)
    (a : Letter) : Commute (checkOp code name dh dw key p) (a.op q) := by
  rw [checkOp_eq H code name hp]
  exact fstr_comm_letter key _ h a

/-! ### Joint projections -/

theorem jointProj_append (l l' : List Op) (m : Nat → Bool) :
    jointProj (l ++ l') m = jointProj l m * jointProj l' fun k => m (l.length + k) := by
  induction l generalizing m with
  | nil =>
    rw [List.nil_append]
    simp [jointProj]
  | cons A l ih =>
    simp only [List.cons_append, jointProj, ih, List.length_cons]
    rw [mul_assoc]
    congr 3
    funext k
    congr 1
    omega

theorem jointProj_congr {l : List Op} {m m' : Nat → Bool} (h : ∀ k < l.length, m k = m' k) : jointProj l m = jointProj l m' := by
  induction l generalizing m m' with
  | nil => rfl
  | cons A l ih =>
    simp only [jointProj]
    rw [h 0 (by simp), ih fun k hk => h (k + 1) (by simpa using hk)]

theorem jointProj_comm {B : Op} {l : List Op} (h : ∀ A ∈ l, Commute B A) (m : Nat → Bool) : Commute B (jointProj l m) := by
  induction l generalizing m with
  | nil => exact Commute.one_right B
  | cons A l ih =>
    exact (Commute.proj (h A (by simp)) _).mul_right (ih (fun A hA => h A (by simp [hA])) _)

theorem jointProj_map {α : Type} (f : α → Op) (l : List α) (m : Nat → Bool) (j : Nat) :
    jointProj (l.map f) (fun k => m (j + k)) = ((l.zipIdx j).map fun p => projOf (f p.1) (m p.2)).prod := by
  induction l generalizing j with
  | nil => rfl
  | cons a l ih =>
    simp only [List.map_cons, jointProj, List.zipIdx_cons, List.prod_cons]
    rw [← ih, Nat.add_zero]
    congr 2
    funext k
    congr 1
    omega

/-- Measuring again. -/
theorem jointProj_mul {l : List Op} (hc : ∀ A ∈ l, ∀ B ∈ l, Commute A B) (hs : ∀ A ∈ l, A * A = 1) (m m' : Nat → Bool) :
    jointProj l m * jointProj l m' = if (∀ k < l.length, m k = m' k) then jointProj l m else 0 := by
  induction l generalizing m m' with
  | nil => rw [if_pos (by simp)]; exact one_mul _
  | cons A l ih =>
    have ih' := ih (fun B hB C hC => hc B (by simp [hB]) C (by simp [hC])) (fun B hB => hs B (by simp [hB]))
      (fun k => m (k + 1)) (fun k => m' (k + 1))
    simp only [jointProj]
    have e : Commute (projOf A (m' 0)) (jointProj l fun k => m (k + 1)) :=
      jointProj_comm (fun B hB => (Commute.proj (hc A (by simp) B (by simp [hB])).symm _).symm) _
    rw [mul_assoc, ← mul_assoc (jointProj l _), ← e.eq, mul_assoc, ih', ← mul_assoc]
    by_cases h0 : m 0 = m' 0
    · rw [← h0, projOf_sq (hs A (by simp))]
      by_cases h : ∀ k < l.length, m (k + 1) = m' (k + 1)
      · rw [if_pos h, if_pos]
        intro k hk
        rcases k with _ | k
        · exact h0
        · exact h k (by simpa using hk)
      · rw [if_neg h, if_neg, mul_zero]
        exact fun h' => h fun k hk => h' (k + 1) (by simpa using hk)
    · rw [projOf_mul (hs A (by simp)) h0, zero_mul, if_neg]
      exact fun h' => h0 (h' 0 (by simp))

/-- An operator that commutes or anticommutes with every observable changes the outcomes accordingly. -/
theorem jointProj_passes {B : Op} {l : List Op} {v : Nat → Bool} (h : ∀ k A, l[k]? = some A → Passes (v k) B A) (m : Nat → Bool) :
    B * jointProj l m = jointProj l (fun k => m k ^^ v k) * B := by
  induction l generalizing m v with
  | nil => simp [jointProj]
  | cons A l ih =>
    simp only [jointProj]
    rw [← mul_assoc, (h 0 A rfl).proj, mul_assoc, ih (v := fun k => v (k + 1)) fun k A hA => h (k + 1) A hA, mul_assoc]

/-! ### The circuit of a round -/

/-- The gadgets of the plaquettes, in the order of the circuit. -/
def gadgets (code : Code) (name : Str) (dh dw : Int) : List (Qubit × Op) :=
  ((xSites dh dw).zipIdx.map fun p => (mxQ name p.2, checkOp code name dh dw .X p.1)) ++
    (zSites dh dw).zipIdx.map fun p => (mzQ name p.2, checkOp code name dh dw .Z p.1)

theorem dataQ_ne_mxQ (k : Nat) : ∀ i, dataQ name i ≠ mxQ name k := fun i => dataQ_ne_mx name i k
theorem dataQ_ne_mzQ (k : Nat) : ∀ i, dataQ name i ≠ mzQ name k := fun i => dataQ_ne_mz name i k

theorem circOp_flatMap {α : Type} {l : List α} {f : α → List Instr} {g : α → Qubit × Op} (h : ∀ a ∈ l, circOp (f a) = copy (g a).1 (g a).2) :
    circOp (l.flatMap f) = copies (l.map g) := by
  induction l with
  | nil => rfl
  | cons a l ih =>
    rw [List.flatMap_cons, circOp_append, List.map_cons, copies_cons, h a (by simp), ih fun b hb => h b (by simp [hb])]

theorem mem_zipIdx_site {l : List (Int × Int)} {p : (Int × Int) × Nat} (h : p ∈ l.zipIdx) : p.1 ∈ l ∧ p.2 < l.length := by
  obtain ⟨a, k⟩ := p
  rw [List.mem_zipIdx_iff_getElem?] at h
  exact ⟨List.mem_of_getElem? h, (List.getElem?_eq_some_iff.1 h).1⟩

theorem entangle_circOp (H : OddPos dh dw) : circOp (entangleXGates code name dh dw ++ entangleZGates code name dh dw) =
    copies (gadgets code name dh dw) := by
  unfold gadgets
  rw [circOp_append, copies_append]
  congr 1
  · refine circOp_flatMap fun p hp => ?_
    exact (copies_check (key := .Z) H (mem_zSites.1 (mem_zipIdx_site hp).1) (dataQ_ne_mzQ p.2)).barrier.2.1
  · refine circOp_flatMap fun p hp => ?_
    exact (copies_check (key := .X) H (mem_xSites.1 (mem_zipIdx_site hp).1) (dataQ_ne_mxQ p.2)).barrier.2.1

theorem entangle_gates (H : OddPos dh dw) : ∀ i ∈ entangleXGates code name dh dw ++ entangleZGates code name dh dw, i.IsGate := by
  intro i hi
  rcases List.mem_append.1 hi with hi | hi
  · obtain ⟨p, hp, hi⟩ := List.mem_flatMap.1 hi
    exact (copies_check (key := .X) H (mem_xSites.1 (mem_zipIdx_site hp).1) (dataQ_ne_mxQ p.2)).barrier.1 i hi
  · obtain ⟨p, hp, hi⟩ := List.mem_flatMap.1 hi
    exact (copies_check (key := .Z) H (mem_zSites.1 (mem_zipIdx_site hp).1) (dataQ_ne_mzQ p.2)).barrier.1 i hi

/-- The syndrome qubits, in the order of measurement. -/
def synQs (name : Str) (nx nz : Nat) : List Qubit :=
  (List.range nz).map (fun (k : Nat) => mzQ name k) ++ (List.range nx).map fun (k : Nat) => mxQ name k

theorem zipIdx_map_snd {α β : Type} (l : List α) (f : Nat → β) : (l.zipIdx.map fun p => f p.2) = (List.range l.length).map f := by
  refine List.ext_getElem? fun i => ?_
  rw [List.getElem?_map, List.getElem?_map, List.getElem?_zipIdx]
  rcases Nat.lt_or_ge i l.length with h | h
  · rw [List.getElem?_range h, List.getElem?_eq_getElem h]; simp
  · rw [List.getElem?_eq_none h, List.getElem?_eq_none (by simpa using h)]; rfl

theorem gadgets_qubits : (gadgets code name dh dw).map Prod.fst =
    (List.range (xSites dh dw).length).map (fun (k : Nat) => mxQ name k) ++ (List.range (zSites dh dw).length).map fun (k : Nat) => mzQ name k := by
  unfold gadgets
  rw [List.map_append, List.map_map, List.map_map]
  congr 1
  · exact zipIdx_map_snd _ fun (k : Nat) => mxQ name k
  · exact zipIdx_map_snd _ fun (k : Nat) => mzQ name k

theorem mzQ_inj {i j : Nat} (h : mzQ name i = mzQ name j) : i = j := by
  unfold mzQ at h
  simpa using h

theorem mxQ_inj {i j : Nat} (h : mxQ name i = mxQ name j) : i = j := by
  unfold mxQ at h
  simpa using h

theorem synQs_nodup (nx nz : Nat) : (synQs name nx nz).Nodup := by
  unfold synQs
  refine List.nodup_append.2 ⟨List.nodup_range.map fun _ _ => mzQ_inj, List.nodup_range.map fun _ _ => mxQ_inj, ?_⟩
  intro a ha b hb
  obtain ⟨i, -, rfl⟩ := List.mem_map.1 ha
  obtain ⟨j, -, rfl⟩ := List.mem_map.1 hb
  exact Ne.symm (mxQ_ne_mz name _ _)

theorem synQs_perm : ((gadgets code name dh dw).map Prod.fst).Perm (synQs name (xSites dh dw).length (zSites dh dw).length) := by
  rw [gadgets_qubits]
  exact List.perm_append_comm

theorem mem_gadgets {p : Qubit × Op} (h : p ∈ gadgets code name dh dw) :
    (∀ i, dataQ name i ≠ p.1) ∧ p.1 ∈ synQs name (xSites dh dw).length (zSites dh dw).length ∧
      ∃ key s, SiteOf dh dw key s ∧ p.2 = checkOp code name dh dw key s := by
  refine ⟨?_, synQs_perm.subset (List.mem_map_of_mem h), ?_⟩
  · unfold gadgets at h
    rcases List.mem_append.1 h with h | h
    · obtain ⟨s, hs, rfl⟩ := List.mem_map.1 h
      exact dataQ_ne_mxQ _
    · obtain ⟨s, hs, rfl⟩ := List.mem_map.1 h
      exact dataQ_ne_mzQ _
  · unfold gadgets at h
    rcases List.mem_append.1 h with h | h
    · obtain ⟨s, hs, rfl⟩ := List.mem_map.1 h
      exact ⟨.X, s.1, mem_xSites.1 (mem_zipIdx_site hs).1, rfl⟩
    · obtain ⟨s, hs, rfl⟩ := List.mem_map.1 h
      exact ⟨.Z, s.1, mem_zSites.1 (mem_zipIdx_site hs).1, rfl⟩

theorem gadgets_apart (H : OddPos dh dw) : Apart (gadgets code name dh dw) := by
  refine ⟨synQs_perm.nodup_iff.2 (synQs_nodup _ _), ?_, ?_⟩
  · intro p hp q hq
    obtain ⟨-, -, key, s, hs, e⟩ := mem_gadgets hp
    rw [e]
    exact check_comm_letter H hs (mem_gadgets hq).1 .X
  · intro p hp q hq
    obtain ⟨-, -, key, s, hs, e⟩ := mem_gadgets hp
    rw [e]
    exact check_comm_letter H hs (mem_gadgets hq).1 .Z

/-- The outcomes in the order of the register. -/
def bitsOf (name : Str) (nz : Nat) (o : Qubit → Bool) (k : Nat) : Bool := if k < nz then o (mzQ name k) else o (mxQ name (k - nz : Nat))

theorem measures_joint (H : OddPos dh dw) (o : Qubit → Bool) :
    measures o (gadgets code name dh dw) = jointProj (checks code name dh dw) (bitsOf name (zSites dh dw).length o) := by
  unfold checks
  rw [jointProj_append, List.length_map]
  have hz : jointProj ((zSites dh dw).map (checkOp code name dh dw .Z)) (bitsOf name (zSites dh dw).length o) =
      ((zSites dh dw).zipIdx.map fun p => projOf (checkOp code name dh dw .Z p.1) (o (mzQ name p.2))).prod := by
    rw [← jointProj_map _ _ (fun k => o (mzQ name k)) 0]
    refine jointProj_congr fun k hk => ?_
    rw [List.length_map] at hk
    simp [bitsOf, hk]
  have hx : jointProj ((xSites dh dw).map (checkOp code name dh dw .X)) (fun k => bitsOf name (zSites dh dw).length o ((zSites dh dw).length + k)) =
      ((xSites dh dw).zipIdx.map fun p => projOf (checkOp code name dh dw .X p.1) (o (mxQ name p.2))).prod := by
    rw [← jointProj_map _ _ (fun k => o (mxQ name k)) 0]
    refine jointProj_congr fun k hk => ?_
    simp [bitsOf]
  rw [hz, hx, ← List.prod_append]
  unfold measures
  refine List.Perm.prod_eq' ?_ ?_
  · refine ((List.reverse_perm _).map _).trans ?_
    unfold gadgets
    rw [List.map_append, List.map_map, List.map_map]
    exact List.perm_append_comm
  · refine List.pairwise_map.2 (List.pairwise_iff_forall_sublist.2 fun {a b} hab => ?_)
    obtain ⟨-, -, k, p, hp, e⟩ := mem_gadgets (List.mem_reverse.1 (hab.subset (by simp : a ∈ [a, b])))
    obtain ⟨-, -, k', p', hp', e'⟩ := mem_gadgets (List.mem_reverse.1 (hab.subset (by simp : b ∈ [a, b])))
    rw [e, e']
    exact Commute.proj (Commute.proj (check_comm H hp hp').symm _).symm _

/-- Syndrome qubits and the bits they are measured to. -/
def synBits (name : Str) (nx nz : Nat) (creg : Str) : List (Qubit × Clbit) :=
  (List.range nz).map (fun (k : Nat) => (mzQ name k, ⟨creg, k⟩)) ++ (List.range nx).map fun (k : Nat) => (mxQ name k, ⟨creg, nz + k⟩)

theorem synBits_fst (nx nz : Nat) (creg : Str) : (synBits name nx nz creg).map Prod.fst = synQs name nx nz := by
  unfold synBits synQs
  rw [List.map_append, List.map_map, List.map_map]
  rfl

theorem synBits_snd (nx nz : Nat) (creg : Str) :
    (synBits name nx nz creg).map Prod.snd = (List.range (nz + nx)).map fun (k : Nat) => (⟨creg, k⟩ : Clbit) := by
  unfold synBits
  rw [List.map_append, List.map_map, List.map_map, List.range_add, List.map_append, List.map_map]
  rfl

theorem measureSyn_eq (nx nz : Nat) (creg : Str) : measureSyn name nx nz creg = (synBits name nx nz creg).map fun p => .measure p.1 p.2 := by
  unfold measureSyn synBits
  rw [List.map_append, List.map_map, List.map_map]
  rfl

theorem resetSyn_eq (nx nz : Nat) : resetSyn name nx nz = (synQs name nx nz).map .reset := by
  unfold resetSyn synQs
  rw [List.map_append, List.map_map, List.map_map]
  rfl

theorem writes_syn (o : Qubit → Bool) (nx nz : Nat) (creg : Str) (m : Mem) :
    writes o (synBits name nx nz creg) m = writeReg m creg (nx + nz) (bitsOf name nz o) := by
  have hn : ((synBits name nx nz creg).map Prod.snd).Nodup := by
    rw [synBits_snd]
    exact List.nodup_range.map fun a b h => by simpa using h
  funext b
  unfold writeReg
  split
  · next h =>
    obtain ⟨r, k⟩ := b
    obtain ⟨h1, h2⟩ := h
    simp only at h1 h2
    subst h1
    by_cases hk : k < nz
    · rw [writes_mem hn (q := mzQ name k) (List.mem_append_left _ (List.mem_map.2 ⟨k, List.mem_range.2 hk, rfl⟩))]
      simp [bitsOf, hk]
    · rw [writes_mem hn (q := mxQ name (k - nz : Nat)) (List.mem_append_right _ (List.mem_map.2 ⟨k - nz, List.mem_range.2 (by omega), by
        simp only [Prod.mk.injEq, Clbit.mk.injEq, true_and]; omega⟩))]
      simp [bitsOf, hk]
  · next h =>
    refine writes_other fun hb => h ?_
    rw [synBits_snd] at hb
    obtain ⟨k, hk, rfl⟩ := List.mem_map.1 hb
    rw [List.mem_range] at hk
    exact ⟨rfl, by simp only; omega⟩

/-- The instructions of a round. -/
def roundInstrs (code : Code) (name : Str) (dh dw : Int) (creg : Str) : List Instr :=
  entangleXGates code name dh dw ++ entangleZGates code name dh dw ++
    measureSyn name (xSites dh dw).length (zSites dh dw).length creg ++
    resetSyn name (xSites dh dw).length (zSites dh dw).length ++ [.barrier]

theorem kraus_round (H : OddPos dh dw) {creg : Str} {m m' : Mem} {A : Op} : Kraus sz (roundInstrs code name dh dw creg) m A m' ↔
    ∃ o r, A = clears r (synQs name (xSites dh dw).length (zSites dh dw).length) *
        projs o (synQs name (xSites dh dw).length (zSites dh dw).length) * copies (gadgets code name dh dw) ∧
      m' = writeReg m creg ((xSites dh dw).length + (zSites dh dw).length) (bitsOf name (zSites dh dw).length o) := by
  unfold roundInstrs
  have hb : ∀ m (A : Op) m', Kraus sz [.barrier] m A m' ↔ A = 1 ∧ m' = m := by
    intro m A m'
    rw [kraus_gates (by intro i hi; rw [List.mem_singleton] at hi; subst hi; trivial)]
    rw [show circOp [.barrier] = 1 from one_mul _]
  have hnd := synQs_nodup (name := name) (xSites dh dw).length (zSites dh dw).length
  constructor
  · intro h
    obtain ⟨B, m1, C, g1, h1, rfl⟩ := Kraus.append.1 h
    obtain ⟨D, m2, E, g2, h2, rfl⟩ := Kraus.append.1 g1
    obtain ⟨F, m3, G, g3, h3, rfl⟩ := Kraus.append.1 g2
    obtain ⟨rfl, rfl⟩ := (kraus_gates (entangle_gates H)).1 g3
    rw [measureSyn_eq] at h3
    obtain ⟨o, rfl, rfl⟩ := (kraus_measures (by rw [synBits_fst]; exact hnd)).1 h3
    rw [resetSyn_eq] at h2
    obtain ⟨⟨r, rfl⟩, rfl⟩ := (kraus_resets hnd).1 h2
    obtain ⟨rfl, rfl⟩ := (hb _ _ _).1 h1
    refine ⟨o, r, ?_, writes_syn _ _ _ _ _⟩
    rw [one_mul, entangle_circOp H, synBits_fst, mul_assoc]
  · rintro ⟨o, r, rfl, rfl⟩
    have k1 : Kraus sz (entangleXGates code name dh dw ++ entangleZGates code name dh dw) m (copies (gadgets code name dh dw)) m :=
      (kraus_gates (entangle_gates H)).2 ⟨(entangle_circOp H).symm, rfl⟩
    have k2 : Kraus sz (measureSyn name (xSites dh dw).length (zSites dh dw).length creg) m
        (projs o (synQs name (xSites dh dw).length (zSites dh dw).length))
        (writeReg m creg ((xSites dh dw).length + (zSites dh dw).length) (bitsOf name (zSites dh dw).length o)) := by
      rw [measureSyn_eq]
      refine (kraus_measures (by rw [synBits_fst]; exact hnd)).2 ⟨o, ?_, (writes_syn _ _ _ _ _).symm⟩
      rw [synBits_fst]
    have k3 : ∀ m, Kraus sz (resetSyn name (xSites dh dw).length (zSites dh dw).length) m
        (clears r (synQs name (xSites dh dw).length (zSites dh dw).length)) m := by
      intro m
      rw [resetSyn_eq]
      exact (kraus_resets hnd).2 ⟨⟨r, rfl⟩, rfl⟩
    have := ((k1.comp k2).comp (k3 _)).comp ((hb _ _ _).2 ⟨rfl, rfl⟩)
    rw [one_mul, ← mul_assoc] at this
    exact this

theorem Spec.SynZero.gadgets {ψ : Psi} (h : SynZero name dh dw ψ) : ∀ p ∈ gadgets code name dh dw, IsZero p.1 ψ := by
  intro p hp
  have := (mem_gadgets hp).2.1
  unfold synQs at this
  rcases List.mem_append.1 this with h' | h'
  · obtain ⟨k, hk, e⟩ := List.mem_map.1 h'
    rw [← e]; exact h.1 k (List.mem_range.1 hk)
  · obtain ⟨k, hk, e⟩ := List.mem_map.1 h'
    rw [← e]; exact h.2 k (List.mem_range.1 hk)

theorem Spec.SynZero.of_comm {ψ : Psi} {A : Op} (h : SynZero name dh dw ψ) (hz : ∀ k : Nat, Commute A (opZ (mzQ name k)))
    (hx : ∀ k : Nat, Commute A (opZ (mxQ name k))) : SynZero name dh dw (A ψ) :=
  ⟨fun k hk => IsZero.of_comm (h.1 k hk) (hz k), fun k hk => IsZero.of_comm (h.2 k hk) (hx k)⟩

theorem Spec.SynZero.joint (H : OddPos dh dw) {ψ : Psi} (h : SynZero name dh dw ψ) (m : Nat → Bool) :
    SynZero name dh dw (jointProj (checks code name dh dw) m ψ) := by
  refine SynZero.of_comm h (fun k => (jointProj_comm (fun A hA => ?_) _).symm) (fun k => (jointProj_comm (fun A hA => ?_) _).symm)
  · obtain ⟨key, p, hp, rfl⟩ := mem_checks hA
    exact (check_comm_letter H hp (dataQ_ne_mzQ k) .Z).symm
  · obtain ⟨key, p, hp, rfl⟩ := mem_checks hA
    exact (check_comm_letter H hp (dataQ_ne_mxQ k) .Z).symm

/-- The outcome function for given contents of the register. -/
def outcomes (name : Str) (nz : Nat) (m : Nat → Bool) (q : Qubit) : Bool := if q.reg = name ++ "_mz".toList then m q.idx else m (nz + q.idx)

theorem bitsOf_outcomes (nz : Nat) (m : Nat → Bool) : bitsOf name nz (outcomes name nz m) = m := by
  funext k
  unfold bitsOf outcomes mzQ mxQ
  split
  · simp
  · next h =>
    rw [if_neg (by simp)]
    simp only [Int.toNat_natCast]
    congr 1
    omega

/-- A round is the joint measurement of the checks. -/
theorem run_round (H : OddPos dh dw) {creg : Str} (hp : ∀ i ∈ roundInstrs code name dh dw creg, i.Proper) {s s' : QState} (h0 : s.psi ≠ 0)
    (hs : SynZero name dh dw s.psi) : Run sz (roundInstrs code name dh dw creg) s s' ↔
      ∃ m, s'.psi = jointProj (checks code name dh dw) m s.psi ∧ s'.psi ≠ 0 ∧
        s'.mem = writeReg s.mem creg ((xSites dh dw).length + (zSites dh dw).length) m := by
  rw [run_iff hp h0]
  have hkey : ∀ o r, (clears r (synQs name (xSites dh dw).length (zSites dh dw).length) *
      projs o (synQs name (xSites dh dw).length (zSites dh dw).length) * copies (gadgets code name dh dw)) s.psi =
      if (∀ p ∈ gadgets code name dh dw, r p.1 = o p.1) then jointProj (checks code name dh dw) (bitsOf name (zSites dh dw).length o) s.psi else 0 := by
    intro o r
    rw [← projs_perm (synQs_perm (code := code)), ← clears_perm (synQs_perm (code := code)) (gadgets_apart H).nodup,
      measure_copies (gadgets_apart H) o r hs.gadgets, measures_joint H]
  constructor
  · rintro ⟨A, hA, e, hne⟩
    obtain ⟨o, r, rfl, hm⟩ := (kraus_round H).1 hA
    rw [hkey] at e
    split at e
    · exact ⟨_, e, hne, hm⟩
    · exact absurd e hne
  · rintro ⟨m, e, hne, hm⟩
    refine ⟨_, (kraus_round H).2 ⟨outcomes name (zSites dh dw).length m, outcomes name (zSites dh dw).length m, rfl, ?_⟩, ?_, hne⟩
    · rw [bitsOf_outcomes]; exact hm
    · rw [hkey, if_pos (fun _ _ => rfl), bitsOf_outcomes]; exact e

end Qtc
