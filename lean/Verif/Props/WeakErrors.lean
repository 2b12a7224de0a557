import Verif.Proof.WeakErrors
import Verif.Props.AnyError
import Verif.Props.Chance
/-!
C126: errors everywhere that are weak.
-/
namespace Qtc
open Spec Function Classical

variable {cls : QClass} {q : TQubit} {dh dw : Int} {ops : List QOp} {w : World} {sz : Str → Nat} {key : Key}

/-! ### Which operators are weak errors -/

theorem norm2_pairs {ψ : Psi} (h : Bounded ψ) (x : Qubit) :
    2 * norm2 ψ = ∑ᶠ c, (Complex.normSq (ψ (update c x false)) + Complex.normSq (ψ (update c x true))) := by
  have e := (keeping_X x).norm2 ψ h
  rw [two_mul]
  conv_lhs => lhs; rw [← e]
  unfold norm2
  rw [← finsum_add_distrib ((keeping_X x).bounded ψ h).normSq h.normSq]
  refine finsum_congr fun c => ?_
  show Complex.normSq (ψ (update c x (!c x))) + Complex.normSq (ψ c) = _
  cases hc : c x
  · have : update c x false = c := by rw [← hc, update_eq_self]
    rw [this, Bool.not_false, add_comm]
  · have : update c x true = c := by rw [← hc, update_eq_self]
    rw [this, Bool.not_true]

theorem pairs_finite {ψ : Psi} (h : Bounded ψ) (x : Qubit) :
    (Function.support fun c => Complex.normSq (ψ (update c x false)) + Complex.normSq (ψ (update c x true))).Finite := by
  refine (h.union ((keeping_X x).bounded ψ h)).subset fun c hc => ?_
  by_contra hn
  rw [Set.mem_union, not_or, Function.notMem_support, Function.notMem_support] at hn
  have h2 : ψ (update c x (!c x)) = 0 := hn.2
  refine hc ?_
  cases hx : c x
  · have : update c x false = c := by rw [← hx, update_eq_self]
    rw [hx, Bool.not_false] at h2
    simp only [this, hn.1, h2, map_zero, add_zero]
  · have : update c x true = c := by rw [← hx, update_eq_self]
    rw [hx, Bool.not_true] at h2
    simp only [this, hn.1, h2, map_zero, add_zero]

/-- C126: an operator on one qubit whose matrix differs from the identity by at most `ε` changes all states by at most `ε`. -/
theorem C126_near {M : Bool → Bool → ℂ} {ε : ℝ} (hM : ∀ a b : ℂ, Complex.normSq ((M false false - 1) * a + M false true * b) +
    Complex.normSq (M true false * a + (M true true - 1) * b) ≤ ε ^ 2 * (Complex.normSq a + Complex.normSq b)) (x : Qubit) :
    NearOne ε (matOp x M) := by
  intro ψ h
  have hb : Bounded (matOp x M ψ - ψ) := (onQubits_bounded (C124_matrix (List.mem_singleton.2 rfl) M) ψ h).sub h
  have h1 := norm2_pairs h x
  have h2 := norm2_pairs hb x
  have h3 : (∑ᶠ c, (Complex.normSq ((matOp x M ψ - ψ) (update c x false)) + Complex.normSq ((matOp x M ψ - ψ) (update c x true)))) ≤
      ∑ᶠ c, ε ^ 2 * (Complex.normSq (ψ (update c x false)) + Complex.normSq (ψ (update c x true))) := by
    rw [← sub_nonneg, ← finsum_sub_distrib ((pairs_finite h x).subset fun c hc hz => hc (by simp only [hz, mul_zero])) (pairs_finite hb x)]
    refine finsum_nonneg fun c => sub_nonneg.2 ?_
    refine le_trans (le_of_eq ?_) (hM (ψ (update c x false)) (ψ (update c x true)))
    simp only [Pi.sub_apply, matOp, LinearMap.coe_mk, AddHom.coe_mk, update_self, update_idem]
    congr 2 <;> ring
  rw [← mul_finsum, ← h1, ← h2] at h3
  linarith

/-- C126: an operator on one qubit with a unitary matrix keeps the norm. -/
theorem C126_unitary {M : Bool → Bool → ℂ} (hM : ∀ a b : ℂ, Complex.normSq (M false false * a + M false true * b) +
    Complex.normSq (M true false * a + M true true * b) = Complex.normSq a + Complex.normSq b) (x : Qubit) : Isometric (matOp x M) := by
  intro ψ h
  have hb : Bounded (matOp x M ψ) := onQubits_bounded (C124_matrix (List.mem_singleton.2 rfl) M) ψ h
  have h1 := norm2_pairs h x
  have h2 := norm2_pairs hb x
  have h3 : (∑ᶠ c, (Complex.normSq ((matOp x M ψ) (update c x false)) + Complex.normSq ((matOp x M ψ) (update c x true)))) =
      ∑ᶠ c, (Complex.normSq (ψ (update c x false)) + Complex.normSq (ψ (update c x true))) := by
    refine finsum_congr fun c => ?_
    refine Eq.trans ?_ (hM (ψ (update c x false)) (ψ (update c x true)))
    simp only [matOp, LinearMap.coe_mk, AddHom.coe_mk, update_self, update_idem]
  linarith

/-! ### Probabilities -/

theorem eventBranches_norm2 {L : List (Instr ⊕ Blow)} (hL : Orderly L) (hi : ∀ b, .inr b ∈ L → Isometric b.op) {s : QState} (h : Bounded s.psi) :
    ((eventBranches sz (L.map eventOf) s).map fun t => norm2 t.psi).sum = norm2 s.psi := by
  induction L generalizing s with
  | nil => simp [eventBranches]
  | cons a L ih =>
    have hi' : ∀ b, .inr b ∈ L → Isometric b.op := fun b hb => hi b (List.mem_cons_of_mem _ hb)
    cases a with
    | inl i =>
      rw [List.map_cons, eventOf, eventBranches, sum_flatMap, ← forks_norm2 (sz := sz) (hL.proper i List.mem_cons_self) h]
      refine congrArg List.sum (List.map_congr_left fun t ht => ?_)
      exact ih hL.tail hi' (forks_bounded (hL.proper i List.mem_cons_self) h t ht)
    | inr b =>
      rw [← hi b List.mem_cons_self s.psi h]
      exact ih (s := ⟨b.op s.psi, s.mem⟩) hL.tail hi' (hL.acts b List.mem_cons_self s.psi h)

/-- C126: if the errors are unitary, the probabilities of a property and of its opposite add up to one. -/
theorem C126_total (A : After cls q dh dw ops w) {l : List (QOp × List Blow)} (hb : ∀ a ∈ l, ∀ b ∈ a.2, OnQubits b.qubits b.op)
    (hi : ∀ a ∈ l, ∀ b ∈ a.2, Isometric b.op) {s : QState} (hs : Bounded s.psi) (h0 : s.psi ≠ 0) (E : QState → Prop) :
    eventProb sz (struckAll q l w) s E + eventProb sz (struckAll q l w) s (fun t => ¬E t) = 1 := by
  have hp : 0 < norm2 s.psi := norm2_pos hs h0
  have key := eventBranches_norm2 (sz := sz) (L := struckByAll q l w) ⟨struckByAll_proper A, fun b h => by
    obtain ⟨a, ha, h⟩ := struckByAll_mem h
    exact onQubits_bounded (hb a ha b h)⟩ (fun b h => by
    obtain ⟨a, ha, h⟩ := struckByAll_mem h
    exact hi a ha b h) hs
  rw [struckByAll_events] at key
  rw [eventProb, eventProb, ← add_div, div_eq_one_iff_eq hp.ne', ← key]
  clear key
  generalize eventBranches sz (struckAll q l w) s = L
  induction L with
  | nil => simp
  | cons a L ih =>
    by_cases hE : E a
    · simp only [List.filter_cons, hE, decide_true, if_true, List.map_cons, List.sum_cons, not_true, decide_false] at ih ⊢
      simp only [Bool.false_eq_true, if_false]
      linarith
    · simp only [List.filter_cons, hE, decide_true, if_true, List.map_cons, List.sum_cons, not_false_eq_true, decide_false, Bool.false_eq_true, if_false] at ih ⊢
      linarith

/-- C126: how large the sum of the bounds below is at most. -/
theorem C126_tail {ε : ℝ} (hε : 0 ≤ ε) {N K : Nat} (hK : K ≤ N) :
    ∑ n ∈ (Finset.range (N + 1)).filter (fun n => K ≤ n), (N.choose n : ℝ) * ε ^ n ≤ (N.choose K : ℝ) * ε ^ K * (1 + ε) ^ (N - K) := by
  have e : (Finset.range (N + 1)).filter (fun n => K ≤ n) = (Finset.range (N - K + 1)).map (addLeftEmbedding K) := by
    ext n
    simp only [Finset.mem_filter, Finset.mem_range, Finset.mem_map, addLeftEmbedding_apply]
    constructor
    · rintro ⟨h1, h2⟩
      exact ⟨n - K, by omega, by omega⟩
    · rintro ⟨j, h1, rfl⟩
      omega
  rw [e, Finset.sum_map, add_comm (1 : ℝ) ε, add_pow, Finset.mul_sum]
  refine Finset.sum_le_sum fun j hj => ?_
  rw [addLeftEmbedding_apply, one_pow, mul_one, pow_add]
  have h1 : N.choose (K + j) ≤ N.choose K * (N - K).choose j := by
    have := Nat.choose_mul (n := N) (k := K + j) (s := K) (Nat.le_add_right _ _)
    rw [Nat.add_sub_cancel_left] at this
    rw [← this]
    exact Nat.le_mul_of_pos_right _ (Nat.choose_pos (Nat.le_add_right _ _))
  have h2 : (N.choose (K + j) : ℝ) ≤ (N.choose K : ℝ) * ((N - K).choose j : ℝ) := by exact_mod_cast h1
  calc (N.choose (K + j) : ℝ) * (ε ^ K * ε ^ j) ≤ ((N.choose K : ℝ) * ((N - K).choose j : ℝ)) * (ε ^ K * ε ^ j) :=
        mul_le_mul_of_nonneg_right h2 (by positivity)
    _ = _ := by ring

/-! ### Weak errors everywhere -/

/-- C126: the logical qubit of any code is prepared in |0⟩, and after at least one round of stabilization without errors there are
stabilizations, identity gates and logical gates. In these, operators act everywhere: `N` of them, each on at most `r` qubits and each
changing states by at most `ε`. All data qubits are then measured. The probability that the decoded value is not the one that would be measured
without errors is at most the square of the sum of `C(N, n) εⁿ` over the numbers `n` of errors that could be too many. -/
theorem C126_lattice_z (A : AfterAlone cls q dh dw ops w) (hq : ∀ o ∈ ops, o.quiet = true) (hn : ops.count .stabilize = 0) (hbig : 1 < dh * dw)
    {l0 : List QOp} (hl0 : ∀ o ∈ l0, MemoryOp o) (h1 : 1 ≤ l0.count .stabilize) {l : List (QOp × List Blow)}
    (hl : ∀ a ∈ l, MemoryOp a.1) (hb : ∀ a ∈ l, ∀ b ∈ a.2, OnQubits b.qubits b.op) {ε : ℝ} (hε : 0 ≤ ε) (hnear : ∀ a ∈ l, ∀ b ∈ a.2, NearOne ε b.op)
    {r : Nat} (hr : ∀ a ∈ l, ∀ b ∈ a.2, b.qubits.length ≤ r) {T : Nat} (hT : (l0 ++ l.map Prod.fst).count .stabilize = T + 1)
    {D : Decoder} (hD : Made D) (hdh : D.dh = dh) (hdw : D.dw = dw) {g : SGraph} (hg : D.S .Z = some g) (hDT : (T : Int) + 1 ≤ D.T)
    {m : Matcher} (hm : Contract m) {s : QState} (hbd : Bounded s.psi) (h0 : s.psi ≠ 0) (hs : SynZero q.lat.name dh dw s.psi) :
    eventProb sz (struckAll q ((.resetZ :: l0).map (fun o => (o, [])) ++ l ++ [(.latticeReadoutZ, [])]) w) s (fun t =>
      correctString D m (joinSp (groups t.mem (q.ops (.resetZ :: (l0 ++ l.map Prod.fst) ++ [.latticeReadoutZ]) w).circ.cregs)) .Z none ≠
        .ok (some (if (l0 ++ l.map Prod.fst).count .x % 2 = 1 then 1 else 0))) ≤
      (∑ n ∈ (Finset.range (strikes l + 1)).filter (fun n => dh ≤ 3 * (r * n : Nat)), ((strikes l).choose n : ℝ) * ε ^ n) ^ 2 := by
  have hclean : ∀ (R : Blow → Prop), (∀ a ∈ l, ∀ b ∈ a.2, R b) →
      ∀ a ∈ (.resetZ :: l0).map (fun o => (o, [])) ++ l ++ [(.latticeReadoutZ, [])], ∀ b ∈ a.2, R b := fun R hR =>
    all_clean hR (.resetZ :: l0) [.latticeReadoutZ]
  have key := weak_prob (sz := sz) (w := w) (P := fun t => correctString D m
      (joinSp (groups t (q.ops (.resetZ :: (l0 ++ l.map Prod.fst) ++ [.latticeReadoutZ]) w).circ.cregs)) .Z none ≠
        .ok (some (if (l0 ++ l.map Prod.fst).count .x % 2 = 1 then 1 else 0)))
    (l := (.resetZ :: l0).map (fun o => (o, [])) ++ l ++ [(.latticeReadoutZ, [])]) A.after hε
    (hclean (fun b => ∀ ψ, Bounded ψ → Bounded (b.op ψ)) fun a ha b h => onQubits_bounded (hb a ha b h)) (hclean (fun b => NearOne ε b.op) hnear) (hclean (fun b => b.qubits.length ≤ r) hr) hbd h0
    (fun n => ¬dh ≤ 3 * (r * n : Nat)) (by
      intro n l' hfew hlike hcount s' hs' h0'
      obtain ⟨l'', hl'', rfl⟩ := Like.middle (os := .resetZ :: l0) (os' := [.latticeReadoutZ]) hlike
      rw [not_not, ← hl''.fst]
      refine C124_lattice_z A hq hn hbig hl0 h1 (hl''.memory hl) (hl''.on hb) (by rw [hl''.fst]; exact hT) hD hdh hdw hg hDT hm ?_ h0 hs hs' h0'
      rw [blowCount_clean (.resetZ :: l0) l'' [.latticeReadoutZ]] at hcount
      omega)
  rw [show strikes ((.resetZ :: l0).map (fun o => (o, [])) ++ l ++ [(.latticeReadoutZ, [])]) = strikes l from
    strikes_clean (.resetZ :: l0) l [.latticeReadoutZ]] at key
  simpa only [not_not] using key

/-- C126: the same with a readout of the logical operator of either type after two more rounds without errors, on lattices where the code can
read this operator (C69). -/
theorem C126_logical (A : AfterAlone cls q dh dw ops w) (hq : ∀ o ∈ ops, o.quiet = true) (hn : ops.count .stabilize = 0) (hbig : 1 < dh * dw)
    (hcan : CanRead cls dh dw key) {l0 l1 : List QOp} (hl0 : ∀ o ∈ l0, MemoryOp o) (h1 : 1 ≤ l0.count .stabilize) {l : List (QOp × List Blow)}
    (hl : ∀ a ∈ l, MemoryOp a.1) (hb : ∀ a ∈ l, ∀ b ∈ a.2, OnQubits b.qubits b.op) {ε : ℝ} (hε : 0 ≤ ε) (hnear : ∀ a ∈ l, ∀ b ∈ a.2, NearOne ε b.op)
    {r : Nat} (hr : ∀ a ∈ l, ∀ b ∈ a.2, b.qubits.length ≤ r) (hl1 : ∀ o ∈ l1, MemoryOp o) (h2 : 2 ≤ l1.count .stabilize) {T : Nat}
    (hT : (l0 ++ l.map Prod.fst ++ l1).count .stabilize = T + 1)
    {D : Decoder} (hD : Made D) (hdh : D.dh = dh) (hdw : D.dw = dw) {g : SGraph} (hg : D.S key = some g) (hDT : (T : Int) ≤ D.T)
    {m : Matcher} (hm : Contract m) {s : QState} (hbd : Bounded s.psi) (h0 : s.psi ≠ 0) (hs : SynZero q.lat.name dh dw s.psi) :
    eventProb sz (struckAll q ((prepOp key :: l0).map (fun o => (o, [])) ++ l ++ (l1 ++ [readOp key]).map (fun o => (o, []))) w) s (fun t =>
      correctString D m (joinSp (groups t.mem (q.ops (prepOp key :: (l0 ++ l.map Prod.fst ++ l1) ++ [readOp key]) w).circ.cregs)) (rtypeOf key) none ≠
        .ok (some (bit (decide ((l0 ++ l.map Prod.fst ++ l1).count (flipGate key) % 2 = 1))))) ≤
      (∑ n ∈ (Finset.range (strikes l + 1)).filter (fun n => distance key dh dw ≤ partTolerated cls key * (r * n : Nat)),
        ((strikes l).choose n : ℝ) * ε ^ n) ^ 2 := by
  have hclean : ∀ (R : Blow → Prop), (∀ a ∈ l, ∀ b ∈ a.2, R b) →
      ∀ a ∈ (prepOp key :: l0).map (fun o => (o, [])) ++ l ++ (l1 ++ [readOp key]).map (fun o => (o, [])), ∀ b ∈ a.2, R b := fun R hR =>
    all_clean hR (prepOp key :: l0) (l1 ++ [readOp key])
  have hpos : 0 ≤ partTolerated cls key := by unfold partTolerated; split <;> decide
  have key' := weak_prob (sz := sz) (w := w) (P := fun t => correctString D m
      (joinSp (groups t (q.ops (prepOp key :: (l0 ++ l.map Prod.fst ++ l1) ++ [readOp key]) w).circ.cregs)) (rtypeOf key) none ≠
        .ok (some (bit (decide ((l0 ++ l.map Prod.fst ++ l1).count (flipGate key) % 2 = 1)))))
    (l := (prepOp key :: l0).map (fun o => (o, [])) ++ l ++ (l1 ++ [readOp key]).map (fun o => (o, []))) A.after hε
    (hclean (fun b => ∀ ψ, Bounded ψ → Bounded (b.op ψ)) fun a ha b h => onQubits_bounded (hb a ha b h)) (hclean (fun b => NearOne ε b.op) hnear) (hclean (fun b => b.qubits.length ≤ r) hr) hbd h0
    (fun n => ¬distance key dh dw ≤ partTolerated cls key * (r * n : Nat)) (by
      intro n l' hfew hlike hcount s' hs' h0'
      obtain ⟨l'', hl'', rfl⟩ := Like.middle (os := prepOp key :: l0) (os' := l1 ++ [readOp key]) hlike
      rw [not_not, ← hl''.fst]
      refine C124_logical A hq hn hbig hcan hl0 h1 (hl''.memory hl) (hl''.on hb) hl1 h2 (by rw [hl''.fst]; exact hT) hD hdh hdw hg hDT hm ?_ h0 hs
        hs' h0'
      rw [blowCount_clean (prepOp key :: l0) l'' (l1 ++ [readOp key])] at hcount
      have : (blowCount l'' : Int) ≤ ((r * n : Nat) : Int) := by exact_mod_cast hcount
      have := mul_le_mul_of_nonneg_left this hpos
      omega)
  rw [strikes_clean (prepOp key :: l0) l (l1 ++ [readOp key])] at key'
  simpa only [not_not] using key'

/-! ### Examples -/

/-- A rotation about the X axis: the identity on `|+⟩`, the phase `z` on `|−⟩`. -/
noncomputable def tilt (z : ℂ) (x : Qubit) : Op := matOp x fun i j => if i = j then (1 + z) / 2 else (1 - z) / 2

theorem tilt_near (z : ℂ) (x : Qubit) : NearOne ‖z - 1‖ (tilt z x) := by
  unfold tilt
  refine C126_near (fun a b => ?_) x
  have e1 : ((1 + z) / 2 - 1) * a + (1 - z) / 2 * b = (z - 1) * ((a - b) / 2) := by ring
  have e2 : (1 - z) / 2 * a + ((1 + z) / 2 - 1) * b = -((z - 1) * ((a - b) / 2)) := by ring
  simp only [if_true, Bool.false_eq_true, if_false, Bool.true_eq_false]
  rw [e1, e2, Complex.normSq_neg, Complex.normSq_mul, ← two_mul, Complex.sq_norm]
  have h : 2 * Complex.normSq ((a - b) / 2) ≤ Complex.normSq a + Complex.normSq b := by
    rw [Complex.normSq_div]
    simp only [Complex.normSq_apply, Complex.sub_re, Complex.sub_im, Complex.re_ofNat, Complex.im_ofNat]
    nlinarith [sq_nonneg (a.re + b.re), sq_nonneg (a.im + b.im)]
  have := mul_le_mul_of_nonneg_left h (Complex.normSq_nonneg (z - 1))
  linarith

theorem tilt_unitary {z : ℂ} (hz : Complex.normSq z = 1) (x : Qubit) : Isometric (tilt z x) := by
  unfold tilt
  refine C126_unitary (fun a b => ?_) x
  simp only [if_true, Bool.false_eq_true, if_false, Bool.true_eq_false]
  have e1 : (1 + z) / 2 * a + (1 - z) / 2 * b = (a + b) / 2 + z * ((a - b) / 2) := by ring
  have e2 : (1 - z) / 2 * a + (1 + z) / 2 * b = (a + b) / 2 - z * ((a - b) / 2) := by ring
  rw [e1, e2]
  have h := Complex.normSq_mul z ((a - b) / 2)
  have par : ∀ u v : ℂ, Complex.normSq (u + v) + Complex.normSq (u - v) = 2 * Complex.normSq u + 2 * Complex.normSq v := by
    intro u v
    simp only [Complex.normSq_apply, Complex.add_re, Complex.add_im, Complex.sub_re, Complex.sub_im]
    ring
  rw [par, h, hz, one_mul, ← par]
  congr 2 <;> ring

/-- Each of the 25 data qubits of a 5 × 5 lattice of either surface code is turned about the X axis by an angle of a thousandth or less before the
second round of stabilization: the probability to decode a wrong value is less than one in ten million. -/
example (cls : QClass) (hc : cls ≠ .rep) (z : ℂ) (hz : ‖z - 1‖ ≤ 1 / 1000) : ∃ q w, AfterAlone cls q 5 5 [] w ∧ ∃ D m,
    eventProb (fun _ => 0) (struckAll q [(.resetZ, []), (.stabilize, []),
      (.stabilize, (List.range 25).map fun i => ⟨0, [dataQ "a".toList i], tilt z (dataQ "a".toList i)⟩), (.latticeReadoutZ, [])] w)
      ⟨ground, fun _ => false⟩ (fun t =>
        correctString D m (joinSp (groups t.mem (q.ops [.resetZ, .stabilize, .stabilize, .latticeReadoutZ] w).circ.cregs)) .Z none ≠ .ok (some 0)) <
      1 / 10 ^ 7 := by
  obtain ⟨q, w, A, hn⟩ := afterAlone_exists (dh := 5) (dw := 5) cls "a".toList (by unfold OddPos; decide) (by simp [hc]) []
  obtain ⟨D, sx, sz, h, h1, h2, h3, h4, h5⟩ := C21_surface_built 900 { d := some (.tup [.int 5, .int 5]), T := some 2 } 5 5 2
    (by unfold OddPos; decide) (Or.inl rfl) rfl (by decide)
  obtain ⟨m, hm⟩ := contract_exists
  refine ⟨q, w, A, D, m, ?_⟩
  have hmem : ∀ {R : Blow → Prop}, (∀ i : Nat, R ⟨0, [dataQ "a".toList i], tilt z (dataQ "a".toList i)⟩) →
      ∀ a ∈ [((.stabilize : QOp), (List.range 25).map fun i : Nat => (⟨0, [dataQ "a".toList i], tilt z (dataQ "a".toList i)⟩ : Blow))], ∀ b ∈ a.2, R b := by
    intro R hR a ha b hb
    obtain rfl := List.mem_singleton.1 ha
    obtain ⟨i, -, rfl⟩ := List.mem_map.1 hb
    exact hR i
  have key := C126_lattice_z (sz := fun _ => 0) (T := 1) (l0 := [.stabilize])
    (l := [(.stabilize, (List.range 25).map fun i : Nat => ⟨0, [dataQ "a".toList i], tilt z (dataQ "a".toList i)⟩)]) A
    (fun o h => absurd h List.not_mem_nil) rfl (by decide) (by intro o ho; rw [List.mem_singleton.1 ho]; trivial) (by decide)
    (by intro a ha; rw [List.mem_singleton.1 ha]; trivial) (hmem fun i => by
      show OnQubits [dataQ "a".toList i] (tilt z (dataQ "a".toList i))
      unfold tilt
      exact C124_matrix List.mem_cons_self _) (norm_nonneg (z - 1)) (hmem fun i => tilt_near z _) (r := 1) (hmem fun i => le_refl 1) rfl
    (Or.inl ⟨_, _, h⟩) h1 h2 h5 (by rw [h3]; decide) hm (s := ⟨ground, fun _ => false⟩) ground_bounded ground_ne_zero ground_synZero
  refine lt_of_le_of_lt key ?_
  have e : ∀ n : Nat, ((5 : Int) ≤ 3 * (1 * n : Nat)) ↔ 2 ≤ n := fun n => by omega
  simp only [e]
  have hst : strikes [((.stabilize : QOp), (List.range 25).map fun i : Nat => (⟨0, [dataQ "a".toList i], tilt z (dataQ "a".toList i)⟩ : Blow))] = 25 := by
    simp [strikes]
  rw [hst]
  have ht := C126_tail (norm_nonneg (z - 1)) (N := 25) (K := 2) (by decide)
  have hm' : ((25 : Nat).choose 2 : ℝ) * ‖z - 1‖ ^ 2 * (1 + ‖z - 1‖) ^ (25 - 2) ≤ 300 * (1 / 1000) ^ 2 * (1 + 1 / 1000) ^ 23 := by
    have h2 : ‖z - 1‖ ^ 2 ≤ (1 / 1000) ^ 2 := pow_le_pow_left₀ (norm_nonneg _) hz 2
    have h23 : (1 + ‖z - 1‖) ^ (25 - 2) ≤ (1 + 1 / 1000) ^ 23 := pow_le_pow_left₀ (by positivity) (by linarith) 23
    rw [show ((25 : Nat).choose 2 : ℝ) = 300 by norm_num [Nat.choose]]
    refine mul_le_mul ?_ h23 (by positivity) (by norm_num)
    linarith
  have hnn : 0 ≤ ∑ n ∈ (Finset.range (25 + 1)).filter (fun n => 2 ≤ n), ((25 : Nat).choose n : ℝ) * ‖z - 1‖ ^ n :=
    Finset.sum_nonneg fun n _ => by positivity
  calc _ ≤ (300 * (1 / 1000) ^ 2 * (1 + 1 / 1000) ^ 23 : ℝ) ^ 2 := pow_le_pow_left₀ hnn (ht.trans hm') 2
    _ < _ := by norm_num

end Qtc
