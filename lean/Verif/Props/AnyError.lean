import Verif.Proof.AnyError
import Verif.Props.CircuitNoiseXZZX
/-!
C124: errors that are not Pauli errors.
-/
namespace Qtc
open Spec Function

variable {cls : QClass} {q : TQubit} {dh dw : Int} {ops : List QOp} {w : World} {sz : Str → Nat} {key : Key}

/-! ### Operators on one or two qubits -/

theorem OnQubits.letterX {xs : List Qubit} {x : Qubit} (h : x ∈ xs) : OnQubits xs (opX x) := Algebra.subset_adjoin ⟨x, h, Or.inl rfl⟩

theorem OnQubits.letterZ {xs : List Qubit} {x : Qubit} (h : x ∈ xs) : OnQubits xs (opZ x) := Algebra.subset_adjoin ⟨x, h, Or.inr rfl⟩

theorem matOp_eq (x : Qubit) (M : Bool → Bool → ℂ) : matOp x M =
    ((M false false + M true true) / 2) • (1 : Op) + ((M false false - M true true) / 2) • opZ x +
    ((M false true + M true false) / 2) • opX x + ((M false true - M true false) / 2) • (opZ x * opX x) := by
  refine LinearMap.ext fun ψ => funext fun c => ?_
  show M (c x) false * ψ (update c x false) + M (c x) true * ψ (update c x true) =
    (M false false + M true true) / 2 * ψ c + (M false false - M true true) / 2 * (sg (c x) * ψ c) +
      (M false true + M true false) / 2 * ψ (update c x (!c x)) + (M false true - M true false) / 2 * (sg (c x) * ψ (update c x (!c x)))
  cases h : c x
  · have : update c x false = c := by rw [← h, update_eq_self]
    rw [this, sg_false, Bool.not_false]
    ring
  · have : update c x true = c := by rw [← h, update_eq_self]
    rw [this, sg_true, Bool.not_true]
    ring

/-- C124: every matrix gives an operator on the qubit. -/
theorem C124_matrix {xs : List Qubit} {x : Qubit} (h : x ∈ xs) (M : Bool → Bool → ℂ) : OnQubits xs (matOp x M) := by
  rw [matOp_eq]
  refine Subalgebra.add_mem _ (Subalgebra.add_mem _ (Subalgebra.add_mem _ ?_ ?_) ?_) ?_
  · exact Subalgebra.smul_mem _ (Subalgebra.one_mem _) _
  · exact Subalgebra.smul_mem _ (OnQubits.letterZ h) _
  · exact Subalgebra.smul_mem _ (OnQubits.letterX h) _
  · exact Subalgebra.smul_mem _ (Subalgebra.mul_mem _ (OnQubits.letterZ h) (OnQubits.letterX h)) _

/-- C124: every matrix for two qubits gives an operator on them. -/
theorem C124_matrix2 {xs : List Qubit} {x y : Qubit} (hx : x ∈ xs) (hy : y ∈ xs) (hxy : x ≠ y) (M : Bool → Bool → Bool → Bool → ℂ) :
    OnQubits xs (matOp2 x y M) := by
  have e : matOp2 x y M = ∑ i : Bool, ∑ a : Bool, matOp x (fun i' a' => if i' = i ∧ a' = a then 1 else 0) * matOp y (fun j b => M i j a b) := by
    refine LinearMap.ext fun ψ => funext fun c => ?_
    simp only [Fintype.sum_bool, LinearMap.add_apply, Pi.add_apply, Module.End.mul_apply]
    simp only [matOp, matOp2, LinearMap.coe_mk, AddHom.coe_mk, update_of_ne hxy.symm]
    cases c x <;> simp <;> ring
  rw [e]
  exact Subalgebra.sum_mem _ fun i _ => Subalgebra.sum_mem _ fun a _ => Subalgebra.mul_mem _ (C124_matrix hx _) (C124_matrix hy _)

/-! ### Their errors are Pauli errors -/

/-- C124: whatever the operations of a logical qubit may write into the classical bits when arbitrary operators act between their
instructions, they may write when Pauli errors happen instead: the same number in each operation as qubits are acted on. -/
theorem C124_pauli {l : List (QOp × List Blow)} (hl : ∀ a ∈ l, ∀ b ∈ a.2, OnQubits b.qubits b.op) {s s' : QState}
    (hR : Happens sz (struckAll q l w) s s') (h0 : s'.psi ≠ 0) :
    ∃ L : List (QOp × List Slip), L.map Prod.fst = l.map Prod.fst ∧
      L.map (fun a => a.2.length) = l.map (fun a => (a.2.map fun b => b.qubits.length).sum) ∧
      ∃ t', Run sz (slippedAll q L w) s t' ∧ t'.mem = s'.mem := by
  obtain ⟨L, hL, h⟩ := happens_slipped hl hR h0
  exact ⟨L, hL.fst, hL.len, h⟩

/-- C124: the logical qubit of any code is prepared in |0⟩, and after at least one round of stabilization without errors there are
stabilizations, identity gates and logical gates with any operators on any qubits between any instructions: small rotations, the Kraus
operators of a damping, correlated errors of several qubits. All data qubits are then measured. If operators act on fewer than a third
of the height qubits, counted with repetition, the decoded value is the one that would be measured without errors: for every outcome of the
measurements that is possible and every optimal matching. -/
theorem C124_lattice_z (A : AfterAlone cls q dh dw ops w) (hq : ∀ o ∈ ops, o.quiet = true) (hn : ops.count .stabilize = 0) (hbig : 1 < dh * dw)
    {l0 : List QOp} (hl0 : ∀ o ∈ l0, MemoryOp o) (h1 : 1 ≤ l0.count .stabilize) {l : List (QOp × List Blow)}
    (hl : ∀ a ∈ l, MemoryOp a.1) (hb : ∀ a ∈ l, ∀ b ∈ a.2, OnQubits b.qubits b.op) {T : Nat} (hT : (l0 ++ l.map Prod.fst).count .stabilize = T + 1)
    {D : Decoder} (hD : Made D) (hdh : D.dh = dh) (hdw : D.dw = dw) {g : SGraph} (hg : D.S .Z = some g) (hDT : (T : Int) + 1 ≤ D.T)
    {m : Matcher} (hm : Contract m) (hf : 3 * (blowCount l : Int) < dh) {s s' : QState} (h0 : s.psi ≠ 0) (hs : SynZero q.lat.name dh dw s.psi)
    (hR : Happens sz (struckAll q ((.resetZ :: l0).map (fun o => (o, [])) ++ l ++ [(.latticeReadoutZ, [])]) w) s s') (h0' : s'.psi ≠ 0) :
    correctString D m (joinSp (groups s'.mem (q.ops (.resetZ :: (l0 ++ l.map Prod.fst) ++ [.latticeReadoutZ]) w).circ.cregs)) .Z none =
      .ok (some (if (l0 ++ l.map Prod.fst).count .x % 2 = 1 then 1 else 0)) := by
  obtain ⟨L, hL, t', r1, r2⟩ := happens_slipped (on_clean hb (.resetZ :: l0) [.latticeReadoutZ]) hR h0'
  obtain ⟨L', hL', rfl⟩ := hL.middle
  clear hL
  rename' L' => L, hL' => hL
  rw [← r2, ← hL.fst]
  refine lattice_slips A hq hn hbig hl0 h1 (hL.memory hl) (by rw [hL.fst]; exact hT) hD hdh hdw hg hDT hm ?_ h0 hs r1
  rw [hL.count, show slipCost cls.code .Z = 3 by cases cls.code <;> rfl]
  exact hf

/-- Which part of the distance the errors of a memory must be fewer than: a third; for the readout of X from the XZZX code a quarter. -/
def partTolerated (cls : QClass) (key : Key) : Int := if cls = .xzzx ∧ key = .X then 4 else 3

/-- C124: the same with a readout of the logical operator of either type after two more rounds without errors, on lattices where the code can
read this operator (C69): if operators act on fewer than a third of the distance qubits; for the readout of X from the XZZX code a quarter. -/
theorem C124_logical (A : AfterAlone cls q dh dw ops w) (hq : ∀ o ∈ ops, o.quiet = true) (hn : ops.count .stabilize = 0) (hbig : 1 < dh * dw)
    (hcan : CanRead cls dh dw key) {l0 l1 : List QOp} (hl0 : ∀ o ∈ l0, MemoryOp o) (h1 : 1 ≤ l0.count .stabilize) {l : List (QOp × List Blow)}
    (hl : ∀ a ∈ l, MemoryOp a.1) (hb : ∀ a ∈ l, ∀ b ∈ a.2, OnQubits b.qubits b.op) (hl1 : ∀ o ∈ l1, MemoryOp o) (h2 : 2 ≤ l1.count .stabilize) {T : Nat}
    (hT : (l0 ++ l.map Prod.fst ++ l1).count .stabilize = T + 1)
    {D : Decoder} (hD : Made D) (hdh : D.dh = dh) (hdw : D.dw = dw) {g : SGraph} (hg : D.S key = some g) (hDT : (T : Int) ≤ D.T)
    {m : Matcher} (hm : Contract m) (hf : partTolerated cls key * (blowCount l : Int) < distance key dh dw) {s s' : QState} (h0 : s.psi ≠ 0)
    (hs : SynZero q.lat.name dh dw s.psi)
    (hR : Happens sz (struckAll q ((prepOp key :: l0).map (fun o => (o, [])) ++ l ++ (l1 ++ [readOp key]).map (fun o => (o, []))) w) s s')
    (h0' : s'.psi ≠ 0) :
    correctString D m (joinSp (groups s'.mem (q.ops (prepOp key :: (l0 ++ l.map Prod.fst ++ l1) ++ [readOp key]) w).circ.cregs)) (rtypeOf key) none =
      .ok (some (bit (decide ((l0 ++ l.map Prod.fst ++ l1).count (flipGate key) % 2 = 1)))) := by
  obtain ⟨L, hL, t', r1, r2⟩ := happens_slipped (on_clean hb (prepOp key :: l0) (l1 ++ [readOp key])) hR h0'
  obtain ⟨L', hL', rfl⟩ := hL.middle
  clear hL
  rename' L' => L, hL' => hL
  rw [← r2, ← hL.fst]
  refine logical_slips A hq hn hbig hcan hl0 h1 (hL.memory hl) hl1 h2 (by rw [hL.fst]; exact hT) hD hdh hdw hg hDT hm ?_ h0 hs r1
  rw [hL.count, show (slipCost cls.code key : Int) = partTolerated cls key by cases cls <;> cases key <;> rfl]
  exact hf

/-- A rotation about the Z axis by 90°, which is no Pauli operator. -/
noncomputable def quarterTurn (x : Qubit) : Op := matOp x fun i j => if i = j then (if i then Complex.I else 1) else 0

theorem quarterTurn_inv (x : Qubit) : ∃ B : Op, B * quarterTurn x = 1 := by
  refine ⟨matOp x fun i j => if i = j then (if i then -Complex.I else 1) else 0, LinearMap.ext fun ψ => funext fun c => ?_⟩
  rw [Module.End.mul_apply]
  simp only [matOp, quarterTurn, LinearMap.coe_mk, AddHom.coe_mk, update_self, update_idem]
  cases h : c x
  · have : update c x false = c := by rw [← h, update_eq_self]
    simp [this]
  · have : update c x true = c := by rw [← h, update_eq_self]
    simp [this, ← mul_assoc]

/-- A syndrome qubit is turned by 90° in the middle of the entangling gates of the second round, on a 5 × 3 lattice of either surface
code. -/
example (cls : QClass) (hc : cls ≠ .rep) : ∃ q w, AfterAlone cls q 5 3 [] w ∧ ∃ D m s',
    Happens (fun _ => 0) (struckAll q [(.resetZ, []), (.stabilize, []), (.stabilize, [⟨8, [mxQ "a".toList 1], quarterTurn (mxQ "a".toList 1)⟩]), (.x, []),
      (.latticeReadoutZ, [])] w) ⟨ground, fun _ => false⟩ s' ∧ s'.psi ≠ 0 ∧
    correctString D m (joinSp (groups s'.mem (q.ops [.resetZ, .stabilize, .stabilize, .x, .latticeReadoutZ] w).circ.cregs)) .Z none =
      .ok (some 1) := by
  obtain ⟨q, w, A, hn⟩ := afterAlone_exists (dh := 5) (dw := 3) cls "a".toList (by unfold OddPos; decide) (by simp [hc]) []
  obtain ⟨D, sx, sz, h, h1, h2, h3, h4, h5⟩ := C21_surface_built 900 { d := some (.tup [.int 5, .int 3]), T := some 2 } 5 3 2
    (by unfold OddPos; decide) (Or.inl rfl) rfl (by decide)
  obtain ⟨m, hm⟩ := contract_exists
  obtain ⟨s', hs', h0'⟩ := struck_exists (sz := fun _ => 0) A.after (l := [(.resetZ, []), (.stabilize, []),
    (.stabilize, [⟨8, [mxQ "a".toList 1], quarterTurn (mxQ "a".toList 1)⟩]), (.x, []), (.latticeReadoutZ, [])]) (by
      intro a ha b hb
      simp only [List.mem_cons, List.not_mem_nil, or_false] at ha
      rcases ha with rfl | rfl | rfl | rfl | rfl
      · cases hb
      · cases hb
      · rw [List.mem_singleton.1 hb]
        exact quarterTurn_inv _
      · cases hb
      · cases hb) ⟨ground, fun _ => false⟩ ground_ne_zero
  refine ⟨q, w, A, D, m, s', hs', h0', C124_lattice_z (T := 1) (l0 := [.stabilize])
    (l := [(.stabilize, [⟨8, [mxQ "a".toList 1], quarterTurn (mxQ "a".toList 1)⟩]), (.x, [])]) A
    (fun o h => absurd h List.not_mem_nil) rfl (by decide) ?_ (by decide) ?_ ?_ rfl (Or.inl ⟨_, _, h⟩) h1 h2 h5 (by rw [h3]; decide) hm
    (by decide) (s := ⟨ground, fun _ => false⟩) ground_ne_zero ground_synZero hs' h0'⟩
  · intro o ho
    rw [List.mem_singleton.1 ho]; trivial
  · intro a ha
    simp only [List.mem_cons, List.not_mem_nil, or_false] at ha
    rcases ha with rfl | rfl <;> trivial
  · intro a ha b hb
    simp only [List.mem_cons, List.not_mem_nil, or_false] at ha
    rcases ha with rfl | rfl
    · rw [List.mem_singleton.1 hb]
      show OnQubits [mxQ "a".toList 1] (quarterTurn (mxQ "a".toList 1))
      unfold quarterTurn
      exact C124_matrix List.mem_cons_self _
    · cases hb

/-- The operators of a qubit that has decayed from |1⟩ to |0⟩ with probability 1/5, and of one that has not, are such errors, and so is a gate
between two qubits nobody asked for. -/
example (x y : Qubit) (h : x ≠ y) :
    OnQubits [x] (matOp x fun i j => if !i && j then (Real.sqrt (1 / 5) : ℝ) else 0) ∧
    OnQubits [x] (matOp x fun i j => if i = j then (if i then (Real.sqrt (4 / 5) : ℝ) else 1) else 0) ∧ OnQubits [x, y] (opCZ x y) := by
  refine ⟨C124_matrix List.mem_cons_self _, C124_matrix List.mem_cons_self _, ?_⟩
  have : opCZ x y = matOp2 x y fun i j a b => if i = a ∧ j = b then (if i && j then -1 else 1) else 0 := by
    refine LinearMap.ext fun ψ => funext fun c => ?_
    have hu : update (update c x (c x)) y (c y) = c := by rw [update_eq_self, update_eq_self]
    show (if c x && c y then -ψ c else ψ c) = _
    simp only [matOp2, LinearMap.coe_mk, AddHom.coe_mk]
    cases hx : c x <;> cases hy : c y <;> rw [hx, hy] at hu <;> simp [hu]
  rw [this]
  exact C124_matrix2 List.mem_cons_self (List.mem_cons_of_mem _ List.mem_cons_self) h _

end Qtc
