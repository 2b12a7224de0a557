import Verif.Proof.Environment
import Verif.Props.WeakErrors
/-!
C127: errors through an environment.
-/
namespace Qtc
open Spec Function Classical

variable {cls : QClass} {q : TQubit} {dh dw : Int} {ops : List QOp} {w : World} {sz : Str → Nat} {key : Key}

/-! ### Few errors -/

/-- C127: as C124, but the operators may also act on any qubits that are not in the circuit, an environment in which errors may
leave traces and by which one error may depend on another. Only the qubits of the circuit are counted. -/
theorem C127_lattice_z (A : AfterAlone cls q dh dw ops w) (hq : ∀ o ∈ ops, o.quiet = true) (hn : ops.count .stabilize = 0) (hbig : 1 < dh * dw)
    {l0 : List QOp} (hl0 : ∀ o ∈ l0, MemoryOp o) (h1 : 1 ≤ l0.count .stabilize) {l : List (QOp × List Blow)}
    (hl : ∀ a ∈ l, MemoryOp a.1) (hb : ∀ a ∈ l, ∀ b ∈ a.2, WithEnv w.circ b.qubits b.op) {T : Nat}
    (hT : (l0 ++ l.map Prod.fst).count .stabilize = T + 1)
    {D : Decoder} (hD : Made D) (hdh : D.dh = dh) (hdw : D.dw = dw) {g : SGraph} (hg : D.S .Z = some g) (hDT : (T : Int) + 1 ≤ D.T)
    {m : Matcher} (hm : Contract m) (hf : 3 * (blowCount l : Int) < dh) {s s' : QState} (hs : SynZero q.lat.name dh dw s.psi)
    (hR : Happens sz (struckAll q ((.resetZ :: l0).map (fun o => (o, [])) ++ l ++ [(.latticeReadoutZ, [])]) w) s s') (h0' : s'.psi ≠ 0) :
    correctString D m (joinSp (groups s'.mem (q.ops (.resetZ :: (l0 ++ l.map Prod.fst) ++ [.latticeReadoutZ]) w).circ.cregs)) .Z none =
      .ok (some (if (l0 ++ l.map Prod.fst).count .x % 2 = 1 then 1 else 0)) := by
  obtain ⟨L, hL, C, hC, hne, t', r1, r2⟩ := happens_outside A.after
    (all_clean (R := fun b => WithEnv w.circ b.qubits b.op) hb (.resetZ :: l0) [.latticeReadoutZ]) hR h0'
  obtain ⟨L', hL', rfl⟩ := hL.middle
  clear hL
  rename' L' => L, hL' => hL
  rw [← r2, ← hL.fst]
  refine lattice_slips A hq hn hbig hl0 h1 (hL.memory hl) (by rw [hL.fst]; exact hT) hD hdh hdw hg hDT hm ?_ hne (apart_synZero A.after hC hs) r1
  rw [hL.count, show slipCost cls.code .Z = 3 by cases cls.code <;> rfl]
  exact hf

/-- C127: the same with a readout of the logical operator of either type after two more rounds without errors. -/
theorem C127_logical (A : AfterAlone cls q dh dw ops w) (hq : ∀ o ∈ ops, o.quiet = true) (hn : ops.count .stabilize = 0) (hbig : 1 < dh * dw)
    (hcan : CanRead cls dh dw key) {l0 l1 : List QOp} (hl0 : ∀ o ∈ l0, MemoryOp o) (h1 : 1 ≤ l0.count .stabilize) {l : List (QOp × List Blow)}
    (hl : ∀ a ∈ l, MemoryOp a.1) (hb : ∀ a ∈ l, ∀ b ∈ a.2, WithEnv w.circ b.qubits b.op) (hl1 : ∀ o ∈ l1, MemoryOp o)
    (h2 : 2 ≤ l1.count .stabilize) {T : Nat} (hT : (l0 ++ l.map Prod.fst ++ l1).count .stabilize = T + 1)
    {D : Decoder} (hD : Made D) (hdh : D.dh = dh) (hdw : D.dw = dw) {g : SGraph} (hg : D.S key = some g) (hDT : (T : Int) ≤ D.T)
    {m : Matcher} (hm : Contract m) (hf : partTolerated cls key * (blowCount l : Int) < distance key dh dw) {s s' : QState}
    (hs : SynZero q.lat.name dh dw s.psi)
    (hR : Happens sz (struckAll q ((prepOp key :: l0).map (fun o => (o, [])) ++ l ++ (l1 ++ [readOp key]).map (fun o => (o, []))) w) s s')
    (h0' : s'.psi ≠ 0) :
    correctString D m (joinSp (groups s'.mem (q.ops (prepOp key :: (l0 ++ l.map Prod.fst ++ l1) ++ [readOp key]) w).circ.cregs)) (rtypeOf key) none =
      .ok (some (bit (decide ((l0 ++ l.map Prod.fst ++ l1).count (flipGate key) % 2 = 1)))) := by
  obtain ⟨L, hL, C, hC, hne, t', r1, r2⟩ := happens_outside A.after
    (all_clean (R := fun b => WithEnv w.circ b.qubits b.op) hb (prepOp key :: l0) (l1 ++ [readOp key])) hR h0'
  obtain ⟨L', hL', rfl⟩ := hL.middle
  clear hL
  rename' L' => L, hL' => hL
  rw [← r2, ← hL.fst]
  refine logical_slips A hq hn hbig hcan hl0 h1 (hL.memory hl) hl1 h2 (by rw [hL.fst]; exact hT) hD hdh hdw hg hDT hm ?_ hne
    (apart_synZero A.after hC hs) r1
  rw [hL.count, show (slipCost cls.code key : Int) = partTolerated cls key by cases cls <;> cases key <;> rfl]
  exact hf

/-! ### Weak errors -/

/-- C127: as C126, but the operators may also act on any qubits that are not in the circuit. Every channel on `r` qubits that is close to doing
nothing is such an operator: a decay, a dephasing, a depolarization. -/
theorem C127_weak_lattice_z (A : AfterAlone cls q dh dw ops w) (hq : ∀ o ∈ ops, o.quiet = true) (hn : ops.count .stabilize = 0) (hbig : 1 < dh * dw)
    {l0 : List QOp} (hl0 : ∀ o ∈ l0, MemoryOp o) (h1 : 1 ≤ l0.count .stabilize) {l : List (QOp × List Blow)}
    (hl : ∀ a ∈ l, MemoryOp a.1) (hb : ∀ a ∈ l, ∀ b ∈ a.2, WithEnv w.circ b.qubits b.op) {ε : ℝ} (hε : 0 ≤ ε)
    (hnear : ∀ a ∈ l, ∀ b ∈ a.2, NearOne ε b.op) {r : Nat} (hr : ∀ a ∈ l, ∀ b ∈ a.2, b.qubits.length ≤ r) {T : Nat}
    (hT : (l0 ++ l.map Prod.fst).count .stabilize = T + 1)
    {D : Decoder} (hD : Made D) (hdh : D.dh = dh) (hdw : D.dw = dw) {g : SGraph} (hg : D.S .Z = some g) (hDT : (T : Int) + 1 ≤ D.T)
    {m : Matcher} (hm : Contract m) {s : QState} (hbd : Bounded s.psi) (h0 : s.psi ≠ 0) (hs : SynZero q.lat.name dh dw s.psi) :
    eventProb sz (struckAll q ((.resetZ :: l0).map (fun o => (o, [])) ++ l ++ [(.latticeReadoutZ, [])]) w) s (fun t =>
      correctString D m (joinSp (groups t.mem (q.ops (.resetZ :: (l0 ++ l.map Prod.fst) ++ [.latticeReadoutZ]) w).circ.cregs)) .Z none ≠
        .ok (some (if (l0 ++ l.map Prod.fst).count .x % 2 = 1 then 1 else 0))) ≤
      (∑ n ∈ (Finset.range (strikes l + 1)).filter (fun n => dh ≤ 3 * (r * n : Nat)), ((strikes l).choose n : ℝ) * ε ^ n) ^ 2 := by
  have hclean : ∀ (R : Blow → Prop), (∀ a ∈ l, ∀ b ∈ a.2, R b) →
      ∀ a ∈ (.resetZ :: l0).map (fun o => (o, [])) ++ l ++ [(.latticeReadoutZ, [])], ∀ b ∈ a.2, R b := fun R hR =>
    all_clean hR (.resetZ :: l0) [.latticeReadoutZ]
  have key := weak_prob (sz := sz) (w := w) (P := fun t => correctString D m
      (joinSp (groups t (q.ops (.resetZ :: (l0 ++ l.map Prod.fst) ++ [.latticeReadoutZ]) w).circ.cregs)) .Z none ≠
        .ok (some (if (l0 ++ l.map Prod.fst).count .x % 2 = 1 then 1 else 0)))
    (l := (.resetZ :: l0).map (fun o => (o, [])) ++ l ++ [(.latticeReadoutZ, [])]) A.after hε
    (hclean (fun b => ∀ ψ, Bounded ψ → Bounded (b.op ψ)) fun a ha b h => withEnv_bounded (hb a ha b h)) (hclean (fun b => NearOne ε b.op) hnear)
    (hclean (fun b => b.qubits.length ≤ r) hr) hbd h0
    (fun n => ¬dh ≤ 3 * (r * n : Nat)) (by
      intro n l' hfew hlike hcount s' hs' h0'
      obtain ⟨l'', hl'', rfl⟩ := Like.middle (os := .resetZ :: l0) (os' := [.latticeReadoutZ]) hlike
      rw [not_not, ← hl''.fst]
      refine C127_lattice_z A hq hn hbig hl0 h1 (hl''.memory hl) (hl''.env hb) (by rw [hl''.fst]; exact hT) hD hdh hdw hg hDT hm ?_ hs hs' h0'
      rw [blowCount_clean (.resetZ :: l0) l'' [.latticeReadoutZ]] at hcount
      omega)
  rw [show strikes ((.resetZ :: l0).map (fun o => (o, [])) ++ l ++ [(.latticeReadoutZ, [])]) = strikes l from
    strikes_clean (.resetZ :: l0) l [.latticeReadoutZ]] at key
  simpa only [not_not] using key

/-- C127: the same with a readout of the logical operator. -/
theorem C127_weak_logical (A : AfterAlone cls q dh dw ops w) (hq : ∀ o ∈ ops, o.quiet = true) (hn : ops.count .stabilize = 0) (hbig : 1 < dh * dw)
    (hcan : CanRead cls dh dw key) {l0 l1 : List QOp} (hl0 : ∀ o ∈ l0, MemoryOp o) (h1 : 1 ≤ l0.count .stabilize) {l : List (QOp × List Blow)}
    (hl : ∀ a ∈ l, MemoryOp a.1) (hb : ∀ a ∈ l, ∀ b ∈ a.2, WithEnv w.circ b.qubits b.op) {ε : ℝ} (hε : 0 ≤ ε)
    (hnear : ∀ a ∈ l, ∀ b ∈ a.2, NearOne ε b.op) {r : Nat} (hr : ∀ a ∈ l, ∀ b ∈ a.2, b.qubits.length ≤ r) (hl1 : ∀ o ∈ l1, MemoryOp o)
    (h2 : 2 ≤ l1.count .stabilize) {T : Nat} (hT : (l0 ++ l.map Prod.fst ++ l1).count .stabilize = T + 1)
    {D : Decoder} (hD : Made D) (hdh : D.dh = dh) (hdw : D.dw = dw) {g : SGraph} (hg : D.S key = some g) (hDT : (T : Int) ≤ D.T)
    {m : Matcher} (hm : Contract m) {s : QState} (hbd : Bounded s.psi) (h0 : s.psi ≠ 0) (hs : SynZero q.lat.name dh dw s.psi) :
    eventProb sz (struckAll q ((prepOp key :: l0).map (fun o => (o, [])) ++ l ++ (l1 ++ [readOp key]).map (fun o => (o, []))) w) s (fun t =>
      correctString D m (joinSp (groups t.mem (q.ops (prepOp key :: (l0 ++ l.map Prod.fst ++ l1) ++ [readOp key]) w).circ.cregs)) (rtypeOf key) none ≠
        .ok (some (bit (decide ((l0 ++ l.map Prod.fst ++ l1).count (flipGate key) % 2 = 1))))) ≤
      (∑ n ∈ (Finset.range (strikes l + 1)).filter (fun n => distance key dh dw ≤ partTolerated cls key * (r * n : Nat)),
        ((strikes l).choose n : ℝ) * ε ^ n) ^ 2 := by
  have hclean : ∀ (R : Blow → Prop), (∀ a ∈ l, ∀ b ∈ a.2, R b) →
      ∀ a ∈ (prepOp key :: l0).map (fun o => (o, [])) ++ l ++ (l1 ++ [readOp key]).map (fun o => (o, [])), ∀ b ∈ a.2, R b := fun R hR =>
    all_clean hR (prepOp key :: l0) (l1 ++ [readOp key])
  have hpos : 0 ≤ partTolerated cls key := by unfold partTolerated; split <;> decide
  have key' := weak_prob (sz := sz) (w := w) (P := fun t => correctString D m
      (joinSp (groups t (q.ops (prepOp key :: (l0 ++ l.map Prod.fst ++ l1) ++ [readOp key]) w).circ.cregs)) (rtypeOf key) none ≠
        .ok (some (bit (decide ((l0 ++ l.map Prod.fst ++ l1).count (flipGate key) % 2 = 1)))))
    (l := (prepOp key :: l0).map (fun o => (o, [])) ++ l ++ (l1 ++ [readOp key]).map (fun o => (o, []))) A.after hε
    (hclean (fun b => ∀ ψ, Bounded ψ → Bounded (b.op ψ)) fun a ha b h => withEnv_bounded (hb a ha b h)) (hclean (fun b => NearOne ε b.op) hnear)
    (hclean (fun b => b.qubits.length ≤ r) hr) hbd h0
    (fun n => ¬distance key dh dw ≤ partTolerated cls key * (r * n : Nat)) (by
      intro n l' hfew hlike hcount s' hs' h0'
      obtain ⟨l'', hl'', rfl⟩ := Like.middle (os := prepOp key :: l0) (os' := l1 ++ [readOp key]) hlike
      rw [not_not, ← hl''.fst]
      refine C127_logical A hq hn hbig hcan hl0 h1 (hl''.memory hl) (hl''.env hb) hl1 h2 (by rw [hl''.fst]; exact hT) hD hdh hdw hg hDT hm ?_ hs
        hs' h0'
      rw [blowCount_clean (prepOp key :: l0) l'' (l1 ++ [readOp key])] at hcount
      have : (blowCount l'' : Int) ≤ ((r * n : Nat) : Int) := by exact_mod_cast hcount
      have := mul_le_mul_of_nonneg_left this hpos
      omega)
  rw [strikes_clean (prepOp key :: l0) l (l1 ++ [readOp key])] at key'
  simpa only [not_not] using key'

/-! ### Operators on two qubits -/

theorem finsum_pairs {f : Config → ℝ} (hf : (Function.support f).Finite) (x : Qubit) :
    2 * ∑ᶠ c, f c = ∑ᶠ c, (f (update c x false) + f (update c x true)) ∧
      (Function.support fun c => f (update c x false) + f (update c x true)).Finite := by
  have hf' : (Function.support fun c => f (flipQ x c)).Finite := Set.Finite.preimage (flipQ x).injective.injOn hf
  have e : ∀ c, f (update c x false) + f (update c x true) = f (flipQ x c) + f c := by
    intro c
    show _ = f (update c x (!c x)) + f c
    cases hc : c x
    · have : update c x false = c := by rw [← hc, update_eq_self]
      rw [this, Bool.not_false, add_comm]
    · have : update c x true = c := by rw [← hc, update_eq_self]
      rw [this, Bool.not_true]
  simp only [e]
  refine ⟨?_, (hf'.union hf).subset (Function.support_add _ _)⟩
  rw [finsum_add_distrib hf' hf, finsum_comp_equiv (flipQ x), two_mul]

theorem norm2_quads {ψ : Psi} (h : Bounded ψ) (x y : Qubit) :
    4 * norm2 ψ = ∑ᶠ c, ((Complex.normSq (ψ (update (update c x false) y false)) + Complex.normSq (ψ (update (update c x false) y true))) +
      (Complex.normSq (ψ (update (update c x true) y false)) + Complex.normSq (ψ (update (update c x true) y true)))) ∧
    (Function.support fun c => (Complex.normSq (ψ (update (update c x false) y false)) + Complex.normSq (ψ (update (update c x false) y true))) +
      (Complex.normSq (ψ (update (update c x true) y false)) + Complex.normSq (ψ (update (update c x true) y true)))).Finite := by
  obtain ⟨e1, f1⟩ := finsum_pairs h.normSq y
  obtain ⟨e2, f2⟩ := finsum_pairs f1 x
  refine ⟨?_, f2⟩
  rw [← e2, ← e1]
  unfold norm2
  ring

/-- C127: an operator on two qubits whose matrix differs from the identity by at most `ε` changes all states by at most `ε`. -/
theorem C127_near2 {M : Bool → Bool → Bool → Bool → ℂ} {ε : ℝ} (hM : ∀ v : Bool → Bool → ℂ,
    ∑ i : Bool, ∑ j : Bool, Complex.normSq (∑ a : Bool, ∑ b : Bool, M i j a b * v a b - v i j) ≤ ε ^ 2 * ∑ i : Bool, ∑ j : Bool, Complex.normSq (v i j))
    {x y : Qubit} (hxy : x ≠ y) : NearOne ε (matOp2 x y M) := by
  intro ψ h
  have hb : Bounded (matOp2 x y M ψ - ψ) :=
    (onQubits_bounded (C124_matrix2 (xs := [x, y]) List.mem_cons_self (List.mem_cons_of_mem _ List.mem_cons_self) hxy M) ψ h).sub h
  obtain ⟨h1, f1⟩ := norm2_quads h x y
  obtain ⟨h2, f2⟩ := norm2_quads hb x y
  have h3 : 0 ≤ ε ^ 2 * (4 * norm2 ψ) - 4 * norm2 (matOp2 x y M ψ - ψ) := by
    rw [h1, h2, mul_finsum, ← finsum_sub_distrib (f1.subset fun c hc hz => hc (by simp only [hz, mul_zero])) f2]
    refine finsum_nonneg fun c => sub_nonneg.2 ?_
    have := hM fun a b => ψ (update (update c x a) y b)
    simp only [Fintype.sum_bool] at this
    refine le_trans (le_of_eq ?_) (this.trans (le_of_eq ?_))
    · have u : ∀ a b a' b' : Bool, update (update (update (update c x a) y b) x a') y b' = update (update c x a') y b' := by
        intro a b a' b'
        rw [update_comm hxy.symm, update_idem, update_idem]
      have ux : ∀ a b : Bool, update (update c x a) y b x = a := by
        intro a b
        rw [update_of_ne hxy, update_self]
      simp only [Pi.sub_apply, matOp2, LinearMap.coe_mk, AddHom.coe_mk, u, ux, update_self]
      have e : ∀ p q r s p' q' r' s' : ℝ, p = s' → q = r' → r = q' → s = p' → p + q + (r + s) = p' + q' + (r' + s') := by
        intros; subst_vars; ring
      apply e <;> (congr 1; ring)
    · ring
  nlinarith

/-- C127: if the matrix is unitary, the operator keeps the norm of all states. -/
theorem C127_unitary2 {M : Bool → Bool → Bool → Bool → ℂ} (hM : ∀ v : Bool → Bool → ℂ,
    ∑ i : Bool, ∑ j : Bool, Complex.normSq (∑ a : Bool, ∑ b : Bool, M i j a b * v a b) = ∑ i : Bool, ∑ j : Bool, Complex.normSq (v i j))
    {x y : Qubit} (hxy : x ≠ y) : Isometric (matOp2 x y M) := by
  intro ψ h
  have hb : Bounded (matOp2 x y M ψ) :=
    onQubits_bounded (C124_matrix2 (xs := [x, y]) List.mem_cons_self (List.mem_cons_of_mem _ List.mem_cons_self) hxy M) ψ h
  have h1 := (norm2_quads h x y).1
  have h2 := (norm2_quads hb x y).1
  have h3 : 4 * norm2 (matOp2 x y M ψ) = 4 * norm2 ψ := by
    rw [h1, h2]
    refine finsum_congr fun c => ?_
    have := hM fun a b => ψ (update (update c x a) y b)
    simp only [Fintype.sum_bool] at this
    refine Eq.trans ?_ (this.trans ?_)
    · have u : ∀ a b a' b' : Bool, update (update (update (update c x a) y b) x a') y b' = update (update c x a') y b' := by
        intro a b a' b'
        rw [update_comm hxy.symm, update_idem, update_idem]
      have ux : ∀ a b : Bool, update (update c x a) y b x = a := by
        intro a b
        rw [update_of_ne hxy, update_self]
      simp only [matOp2, LinearMap.coe_mk, AddHom.coe_mk, u, ux, update_self]
      have e : ∀ p q r s p' q' r' s' : ℝ, p = s' → q = r' → r = q' → s = p' → p + q + (r + s) = p' + q' + (r' + s') := by
        intros; subst_vars; ring
      apply e <;> (congr 1; ring)
    · ring
  linarith

/-- C127: there is always an environment: infinitely many qubits that are not in the circuit. -/
theorem C127_outside (c : Circ) : ∃ reg, ∀ i, ¬HasQubit c ⟨reg, i⟩ := by
  have h : ∃ n : Nat, ∀ r ∈ c.qregs, r.name.length < n := by
    induction c.qregs with
    | nil => exact ⟨0, fun r hr => (List.not_mem_nil hr).elim⟩
    | cons a l ih =>
      obtain ⟨n, hn⟩ := ih
      refine ⟨n + a.name.length + 1, fun r hr => ?_⟩
      rcases List.mem_cons.1 hr with rfl | hr
      · omega
      · have := hn r hr
        omega
  obtain ⟨n, hn⟩ := h
  refine ⟨List.replicate n 'e', fun i hi => ?_⟩
  obtain ⟨r, hr, h, -⟩ := hi
  have := hn r hr
  rw [← h, List.length_replicate] at this
  exact lt_irrefl _ this

/-! ### Examples -/

/-- A decay of the qubit `x` from |1⟩ to |0⟩ that leaves a trace in the qubit `e` of the environment, |0⟩ before: with amplitude `sin` there is one. -/
noncomputable def decay (cos sin : ℝ) (x e : Qubit) : Op := matOp2 x e fun i j a b =>
  if i = j then (if a = i ∧ b = j then 1 else 0) else (if a = i ∧ b = j then (cos : ℂ) else if a = b then 0 else if i then -(sin : ℂ) else (sin : ℂ))

theorem decay_near {cos sin ε : ℝ} (h : (cos - 1) ^ 2 + sin ^ 2 ≤ ε ^ 2) {x e : Qubit} (hxe : x ≠ e) : NearOne ε (decay cos sin x e) := by
  unfold decay
  refine C127_near2 (fun v => ?_) hxe
  simp only [Fintype.sum_bool]
  simp
  have e1 : Complex.normSq ((cos : ℂ) * v true false + -((sin : ℂ) * v false true) - v true false) +
      Complex.normSq ((sin : ℂ) * v true false + (cos : ℂ) * v false true - v false true) =
      ((cos - 1) ^ 2 + sin ^ 2) * (Complex.normSq (v true false) + Complex.normSq (v false true)) := by
    simp only [Complex.normSq_apply, Complex.add_re, Complex.add_im, Complex.sub_re, Complex.sub_im, Complex.mul_re, Complex.mul_im,
      Complex.neg_re, Complex.neg_im, Complex.ofReal_re, Complex.ofReal_im]
    ring
  have h2 := mul_le_mul_of_nonneg_right h (add_nonneg (Complex.normSq_nonneg (v true false)) (Complex.normSq_nonneg (v false true)))
  have h3 := mul_nonneg (sq_nonneg ε) (Complex.normSq_nonneg (v true true))
  have h4 := mul_nonneg (sq_nonneg ε) (Complex.normSq_nonneg (v false false))
  nlinarith

theorem decay_unitary {cos sin : ℝ} (h : cos ^ 2 + sin ^ 2 = 1) {x e : Qubit} (hxe : x ≠ e) : Isometric (decay cos sin x e) := by
  unfold decay
  refine C127_unitary2 (fun v => ?_) hxe
  simp only [Fintype.sum_bool]
  simp
  have e1 : Complex.normSq ((cos : ℂ) * v true false + -((sin : ℂ) * v false true)) +
      Complex.normSq ((sin : ℂ) * v true false + (cos : ℂ) * v false true) =
      (cos ^ 2 + sin ^ 2) * (Complex.normSq (v true false) + Complex.normSq (v false true)) := by
    simp only [Complex.normSq_apply, Complex.add_re, Complex.add_im, Complex.mul_re, Complex.mul_im,
      Complex.neg_re, Complex.neg_im, Complex.ofReal_re, Complex.ofReal_im]
    ring
  rw [h, one_mul] at e1
  linarith

/-- The decay takes |1⟩ of the qubit, with |0⟩ in the environment, to `cos` times itself plus `sin` times |0⟩ with a trace. -/
example (cos sin : ℝ) (x e : Qubit) (hxe : x ≠ e) (ψ : Psi) (c : Config) :
    decay cos sin x e ψ (update (update c x true) e false) =
      cos * ψ (update (update c x true) e false) - sin * ψ (update (update c x false) e true) := by
  have u : ∀ a b a' b' : Bool, update (update (update (update c x a) e b) x a') e b' = update (update c x a') e b' := by
    intro a b a' b'
    rw [update_comm hxe.symm, update_idem, update_idem]
  have ux : ∀ a b : Bool, update (update c x a) e b x = a := by
    intro a b
    rw [update_of_ne hxe, update_self]
  simp [decay, matOp2, u, ux]
  ring

/-- All 25 data qubits of a lattice of height and width 5 may decay in a round, each with probability up to one in a million (`sin ^ 2`), each into an
environment of its own: the probability of a wrong value is less than one in ten million. -/
example (cls : QClass) (hc : cls ≠ .rep) (cos sin : ℝ) (hu : cos ^ 2 + sin ^ 2 = 1) (h : (cos - 1) ^ 2 + sin ^ 2 ≤ (1 / 1000) ^ 2) :
    ∃ q w, AfterAlone cls q 5 5 [] w ∧ ∃ reg, (∀ i, ¬HasQubit w.circ ⟨reg, i⟩) ∧
    (∀ i : Nat, i < 25 → Isometric (decay cos sin (dataQ "a".toList i) ⟨reg, i⟩)) ∧ ∃ D m,
    eventProb (fun _ => 0) (struckAll q [(.resetZ, []), (.stabilize, []),
      (.stabilize, (List.range 25).map fun i : Nat => ⟨0, [dataQ "a".toList i], decay cos sin (dataQ "a".toList i) ⟨reg, i⟩⟩), (.latticeReadoutZ, [])] w)
      ⟨ground, fun _ => false⟩ (fun t =>
        correctString D m (joinSp (groups t.mem (q.ops [.resetZ, .stabilize, .stabilize, .latticeReadoutZ] w).circ.cregs)) .Z none ≠ .ok (some 0)) <
      1 / 10 ^ 7 := by
  obtain ⟨q, w, A, hn⟩ := afterAlone_exists (dh := 5) (dw := 5) cls "a".toList (by unfold OddPos; decide) (by simp [hc]) []
  obtain ⟨D, sx, sz, h0, h1, h2, h3, h4, h5⟩ := C21_surface_built 900 { d := some (.tup [.int 5, .int 5]), T := some 2 } 5 5 2
    (by unfold OddPos; decide) (Or.inl rfl) rfl (by decide)
  obtain ⟨m, hm⟩ := contract_exists
  obtain ⟨reg, hreg⟩ := C127_outside w.circ
  obtain ⟨W, O⟩ := A.after.own
  have hdata : ∀ i : Nat, i < 25 → HasQubit w.circ (dataQ "a".toList i) := fun i hi => by
    rw [← hn]
    exact mem_circ_qubits.1 (O.placed.dataQ_mem (by omega) (by omega))
  have hne : ∀ i : Nat, i < 25 → dataQ "a".toList i ≠ ⟨reg, i⟩ := fun i hi e => hreg i (e ▸ hdata i hi)
  refine ⟨q, w, A, reg, hreg, fun i hi => decay_unitary hu (hne i hi), D, m, ?_⟩
  have hmem : ∀ {R : Blow → Prop}, (∀ i : Nat, i < 25 → R ⟨0, [dataQ "a".toList i], decay cos sin (dataQ "a".toList i) ⟨reg, i⟩⟩) →
      ∀ a ∈ [((.stabilize : QOp), (List.range 25).map fun i : Nat => (⟨0, [dataQ "a".toList i], decay cos sin (dataQ "a".toList i) ⟨reg, i⟩⟩ : Blow))],
        ∀ b ∈ a.2, R b := by
    intro R hR a ha b hb
    obtain rfl := List.mem_singleton.1 ha
    obtain ⟨i, hi, rfl⟩ := List.mem_map.1 hb
    exact hR i (List.mem_range.1 hi)
  have key := C127_weak_lattice_z (sz := fun _ => 0) (T := 1) (l0 := [.stabilize]) (ε := 1 / 1000)
    (l := [(.stabilize, (List.range 25).map fun i : Nat => ⟨0, [dataQ "a".toList i], decay cos sin (dataQ "a".toList i) ⟨reg, i⟩⟩)]) A
    (fun o h => absurd h List.not_mem_nil) rfl (by decide) (by intro o ho; rw [List.mem_singleton.1 ho]; trivial) (by decide)
    (by intro a ha; rw [List.mem_singleton.1 ha]; trivial) (hmem fun i hi => by
      refine ⟨fun x hx => (List.mem_singleton.1 hx) ▸ hdata i hi, [⟨reg, i⟩], fun x hx => (List.mem_singleton.1 hx) ▸ hreg i, ?_⟩
      show OnQubits _ (decay cos sin _ _)
      unfold decay
      exact C124_matrix2 List.mem_cons_self (List.mem_cons_of_mem _ List.mem_cons_self) (hne i hi) _)
    (by norm_num) (hmem fun i hi => decay_near h (hne i hi)) (r := 1) (hmem fun i _ => le_refl 1) rfl
    (Or.inl ⟨_, _, h0⟩) h1 h2 h5 (by rw [h3]; decide) hm (s := ⟨ground, fun _ => false⟩) ground_bounded ground_ne_zero ground_synZero
  refine lt_of_le_of_lt key ?_
  have e : ∀ n : Nat, ((5 : Int) ≤ 3 * (1 * n : Nat)) ↔ 2 ≤ n := fun n => by omega
  simp only [e]
  have hst : strikes [((.stabilize : QOp), (List.range 25).map fun i : Nat =>
      (⟨0, [dataQ "a".toList i], decay cos sin (dataQ "a".toList i) ⟨reg, i⟩⟩ : Blow))] = 25 := by
    simp [strikes]
  rw [hst]
  have ht := C126_tail (ε := 1 / 1000) (by norm_num) (N := 25) (K := 2) (by decide)
  have hnn : 0 ≤ ∑ n ∈ (Finset.range (25 + 1)).filter (fun n => 2 ≤ n), ((25 : Nat).choose n : ℝ) * (1 / 1000) ^ n :=
    Finset.sum_nonneg fun n _ => by positivity
  calc _ ≤ (((25 : Nat).choose 2 : ℝ) * (1 / 1000) ^ 2 * (1 + 1 / 1000) ^ (25 - 2) : ℝ) ^ 2 := pow_le_pow_left₀ hnn ht 2
    _ < _ := by norm_num [Nat.choose]

end Qtc
