import Verif.Proof.Chances
import Verif.Proof.QTrack
import Verif.Proof.QCnot
import Verif.Proof.QFault
/-!
Born's rule for the operations: the probabilities of the results of readouts and stabilizations.
-/
namespace Qtc
open Spec Function Classical

variable {cls : QClass} {q : TQubit} {dh dw : Int} {ops : List QOp} {w : World} {sz : Str → Nat} {l l' : List Instr} {s t : QState}
  {name : Str} {code : Code}

/-! ### Parts of executions -/

theorem share_append (E : QState → Prop) : share sz (l ++ l') s E = ((branches sz l s).map fun t => share sz l' t E).sum := by
  induction l generalizing s with
  | nil => simp [branches]
  | cons i l ih =>
    rw [List.cons_append, share_cons, branches, sum_flatMap]
    exact congrArg List.sum (List.map_congr_left fun t _ => ih)

/-- A result that has the same probability after all executions of a first part. -/
theorem share_after (hl : ∀ i ∈ l, i.Proper) (h : Bounded s.psi) {E : QState → Prop} {p : ℝ}
    (hp : ∀ t, Run sz l s t → Bounded t.psi → share sz l' t E = p * norm2 t.psi) : share sz (l ++ l') s E = p * norm2 s.psi := by
  rw [share_append, ← branches_norm2 (sz := sz) hl h, ← List.sum_map_mul_left]
  refine congrArg List.sum (List.map_congr_left fun t ht => ?_)
  by_cases hz : t.psi = 0
  · rw [share_zero hz, hz, norm2_zero, mul_zero]
  · exact hp t (branches_run ht hz) (branches_bounded hl h t ht)

theorem bornProb_share (E : QState → Prop) : bornProb sz l s E = share sz l s E / norm2 s.psi := rfl

theorem bornProb_of_share (h : Bounded s.psi) (h0 : s.psi ≠ 0) {E : QState → Prop} {p : ℝ} (hm : share sz l s E = p * norm2 s.psi) :
    bornProb sz l s E = p := by
  rw [bornProb_share, hm, mul_div_assoc, div_self (norm2_pos h h0).ne', mul_one]

/-! ### Readouts -/

theorem opP_add (x : Qubit) : opP false x + opP true x = 1 := by
  refine LinearMap.ext fun ψ => funext fun c => ?_
  show opP false x ψ c + opP true x ψ c = ψ c
  rw [opP_apply, opP_apply]
  cases c x <;> simp

theorem run_reset_zero {x : Qubit} (hz : IsZero x t.psi) (h0 : t.psi ≠ 0) {s' : QState} : Run sz (.reset x :: l) t s' ↔ Run sz l t s' := by
  have e : opP false x t.psi = t.psi := by
    have h1 : opP false x t.psi + opP true x t.psi = t.psi := congrArg (fun A : Op => A t.psi) (opP_add x)
    unfold IsZero at hz
    rwa [hz, add_zero] at h1
  have e' : (⟨clear false x (opP false x t.psi), t.mem⟩ : QState) = t := by
    rw [e]; rfl
  constructor
  · rintro ⟨u, h1, h2⟩
    cases h1 with
    | reset x v s h =>
      cases v
      · rwa [e'] at h2
      · exact absurd hz h
  · intro h
    refine ⟨t, ?_, h⟩
    have := Step.reset (sz := sz) x false t (by rw [e]; exact h0)
    rwa [e'] at this

theorem writeReg_at {mem : Mem} {r : Str} {n k : Nat} (h : k < n) (m : Nat → Bool) : writeReg mem r n m ⟨r, k⟩ = m k := by
  unfold writeReg
  rw [if_pos ⟨rfl, h⟩]

/-- Born's rule for a readout with the ancilla. -/
theorem share_reads {L : Op} {r : Str} {n : Nat} (hn : 0 < n) (hK : Keeping L) (hL : ∀ a : Letter, Commute L (a.op (ancQ name)))
    (hp : ∀ i ∈ .reset (ancQ name) :: l, i.Proper)
    (hR : ∀ s s', s.psi ≠ 0 → (Run sz (.reset (ancQ name) :: l) s s' ↔ Reads name L r n s s')) (h : Bounded s.psi) (v : Bool) :
    share sz (.reset (ancQ name) :: l) s (fun t => t.mem ⟨r, 0⟩ = v) = norm2 (projOf L v s.psi) := by
  have hpl : ∀ i ∈ l, i.Proper := fun i hi => hp i (List.mem_cons_of_mem _ hi)
  have part : ∀ t : QState, Bounded t.psi → IsZero (ancQ name) t.psi → share sz l t (fun t => t.mem ⟨r, 0⟩ = v) = norm2 (projOf L v t.psi) := by
    intro t ht hz
    by_cases h0 : t.psi = 0
    · rw [share_zero h0, h0, map_zero, norm2_zero]
    have e : opP false (ancQ name) t.psi = t.psi := by
      have h1 : opP false (ancQ name) t.psi + opP true (ancQ name) t.psi = t.psi := congrArg (fun A : Op => A t.psi) (opP_add (ancQ name))
      unfold IsZero at hz
      rwa [hz, add_zero] at h1
    have hk : ∀ m, norm2 (clear m (ancQ name) (projOf L m t.psi)) = norm2 (projOf L m t.psi) := fun m =>
      (keeping_clear m _).norm2 _ (bounded_proj hK ht m)
    rw [share_eq (F := fun m : Bool => ⟨clear m (ancQ name) (projOf L m t.psi), writeReg t.mem r n fun _ => m⟩) hpl ht ?_ ?_ ?_]
    · simp only [writeReg_at hn, Fintype.sum_bool, hk]
      cases v <;> simp
    · intro m m' hm
      have := congrFun (congrArg QState.mem hm) ⟨r, 0⟩
      simpa only [writeReg_at hn] using this
    · intro m hne
      refine (run_reset_zero hz h0).1 ((hR _ _ h0).2 ⟨false, m, ?_, hne, rfl⟩)
      rw [e]; rfl
    · simp only [Fintype.sum_bool, hk]
      rw [add_comm]
      exact norm2_split hK ht
  rw [share_cons]
  have hb : ∀ c, Bounded (clear c (ancQ name) (opP c (ancQ name) s.psi)) := fun c => (keeping_clear _ _).bounded _ (bounded_P h _ _)
  have hz : ∀ c, IsZero (ancQ name) (clear c (ancQ name) (opP c (ancQ name) s.psi)) := by
    intro c
    have : opP true (ancQ name) * (clear c (ancQ name) * opP c (ancQ name)) = 0 := by
      rw [clear_opP, ← mul_assoc, opP_mul _ (by decide), zero_mul]
    exact congrArg (fun A : Op => A s.psi) this
  have hc : ∀ c, norm2 (projOf L v (clear c (ancQ name) (opP c (ancQ name) s.psi))) = norm2 (opP c (ancQ name) (projOf L v s.psi)) := by
    intro c
    have e1 : projOf L v * (clear c (ancQ name) * opP c (ancQ name)) = clear c (ancQ name) * (opP c (ancQ name) * projOf L v) := by
      rw [← mul_assoc (clear c _), (Commute.proj (clear_opP_comm hL c).symm v).eq]
    have e2 : projOf L v (clear c (ancQ name) (opP c (ancQ name) s.psi)) = clear c (ancQ name) (opP c (ancQ name) (projOf L v s.psi)) :=
      congrArg (fun A : Op => A s.psi) e1
    rw [e2, (keeping_clear _ _).norm2 _ (bounded_P (bounded_proj hK h v) _ _)]
  simp only [forks, List.map_cons, List.map_nil, List.sum_cons, List.sum_nil, add_zero]
  rw [part _ (hb false) (hz false), part _ (hb true) (hz true)]
  simp only [hc]
  exact norm2_splitP (bounded_proj hK h v) _

theorem share_readoutX (A : After cls q dh dw ops w) (h : cls ≠ .xzzx ∨ 1 < dh) (hs : Bounded s.psi) (v : Bool) :
    share sz (added q (.readoutX none) w) s (fun t => t.mem ⟨nextReadout q w, 0⟩ = v) =
      norm2 (projOf (logX cls.code q.lat.name dh dw) v s.psi) := by
  obtain ⟨l, hl, hC⟩ := into_copiesX (code := cls.code) (name := q.lat.name) A.own.2.placed.odd
  have hp := A.proper (.readoutX none)
  have hR : ∀ s s' : QState, s.psi ≠ 0 → _ := fun s s' h0 => run_readoutX (sz := sz) (s' := s') A h h0
  rw [added_readoutX A h] at hp hR ⊢
  unfold readInstrs at hp hR ⊢
  rw [hl, List.append_assoc, List.cons_append] at hp hR ⊢
  exact share_reads Nat.one_pos (by unfold logX; exact keeping_pstr _) (logX_comm_letter dataQ_ne_ancQ) hp hR hs v

theorem share_readoutZ (A : After cls q dh dw ops w) (h : cls ≠ .xzzx ∨ 1 < dw) (hs : Bounded s.psi) (v : Bool) :
    share sz (added q (.readoutZ none) w) s (fun t => t.mem ⟨nextReadout q w, 0⟩ = v) =
      norm2 (projOf (logZ cls.code q.lat.name dw) v s.psi) := by
  obtain ⟨l, hl, hC⟩ := into_copiesZ (code := cls.code) (name := q.lat.name) (dh := dh) (dw := dw)
  have hp := A.proper (.readoutZ none)
  have hR : ∀ s s' : QState, s.psi ≠ 0 → _ := fun s s' h0 => run_readoutZ (sz := sz) (s' := s') A h h0
  rw [added_readoutZ A h] at hp hR ⊢
  unfold readInstrs at hp hR ⊢
  rw [hl, List.append_assoc, List.cons_append] at hp hR ⊢
  exact share_reads Nat.one_pos (by unfold logZ; exact keeping_pstr _) (logZ_comm_letter dataQ_ne_ancQ) hp hR hs v

/-- A value of an observable is a fair coin if one that anticommutes with it is certain. -/
theorem norm2_half {L R : Op} {ψ : Psi} (hL : Keeping L) (hR : Keeping R) (ha : Passes true R L) {u : Bool} (hu : HasValue R u ψ)
    (h : Bounded ψ) (v : Bool) : norm2 (projOf L v ψ) = 1 / 2 * norm2 ψ := by
  have key : norm2 (projOf L true ψ) = norm2 (projOf L false ψ) := by
    have h1 : R * projOf L false = projOf L true * R := by
      unfold projOf
      unfold Passes at ha
      rw [sg_false, sg_true, one_smul, mul_smul_comm, smul_mul_assoc, mul_add, add_mul, ha, mul_one, one_mul, smul_mul_assoc, sg_true]
    have h2 : R (projOf L false ψ) = projOf L true (R ψ) := congrArg (fun A : Op => A ψ) h1
    unfold HasValue at hu
    rw [hu, map_smul] at h2
    have h3 := congrArg norm2 h2
    rw [hR.norm2 _ (bounded_proj hL h _), norm2_smul, normSq_sg, one_mul] at h3
    exact h3.symm
  have h4 := norm2_split hL h
  cases v <;> linarith

/-! ### Stabilizations -/

theorem bounded_joint {l : List Op} (hl : ∀ A ∈ l, Keeping A) {ψ : Psi} (h : Bounded ψ) (m : Nat → Bool) : Bounded (jointProj l m ψ) := by
  induction l generalizing m with
  | nil => exact h
  | cons A l ih => exact bounded_proj (hl A (by simp)) (ih (fun B hB => hl B (by simp [hB])) _) _

theorem jointProj_cons (A : Op) (l : List Op) (m : Fin (l.length + 1) → Bool) :
    jointProj (A :: l) (outcomesOf m) = projOf A (m 0) * jointProj l (outcomesOf (Fin.tail m)) := by
  show projOf A (outcomesOf m 0) * jointProj l (fun k => outcomesOf m (k + 1)) = _
  congr 1
  refine jointProj_congr fun k hk => ?_
  unfold outcomesOf
  rw [dif_pos (by omega), dif_pos hk]
  rfl

/-- The values of several observables split the norm. -/
theorem norm2_joint {l : List Op} (hl : ∀ A ∈ l, Keeping A) {ψ : Psi} (h : Bounded ψ) :
    ∑ m : Fin l.length → Bool, norm2 (jointProj l (outcomesOf m) ψ) = norm2 ψ := by
  induction l with
  | nil => simp [jointProj]
  | cons A l ih =>
    show ∑ m : Fin (l.length + 1) → Bool, norm2 (jointProj (A :: l) (outcomesOf m) ψ) = norm2 ψ
    simp only [jointProj_cons]
    have hl' : ∀ B ∈ l, Keeping B := fun B hB => hl B (by simp [hB])
    rw [← (Fin.consEquiv fun _ => Bool).sum_comp, Fintype.sum_prod_type, Finset.sum_comm, ← ih hl']
    refine Finset.sum_congr rfl fun m _ => ?_
    rw [Fintype.sum_bool, add_comm]
    exact norm2_split (hl A (by simp)) (bounded_joint hl' h _)

theorem keeping_checks {A : Op} (h : A ∈ checks code name dh dw) : Keeping A := by
  obtain ⟨key, p, -, rfl⟩ := mem_checks h
  unfold checkOp
  exact keeping_pstr _

/-- Born's rule for stabilizations. -/
theorem share_stabilize (A : After cls q dh dw ops w) (h : Bounded s.psi) (hz : SynZero q.lat.name dh dw s.psi) (m : Nat → Bool) :
    share sz (added q .stabilize w) s (fun t => ∀ k < (xSites dh dw).length + (zSites dh dw).length,
      t.mem ⟨roundName q.lat.name (ops.count .stabilize), k⟩ = m k) = norm2 (jointProj (checks cls.code q.lat.name dh dw) m s.psi) := by
  by_cases h0 : s.psi = 0
  · rw [share_zero h0, h0, map_zero, norm2_zero]
  have hk : ∀ B ∈ checks cls.code q.lat.name dh dw, Keeping B := fun B hB => keeping_checks hB
  have hn := checks_length (code := cls.code) (name := q.lat.name) (dh := dh) (dw := dw)
  rw [share_eq (F := fun i : Fin (checks cls.code q.lat.name dh dw).length → Bool =>
    ⟨jointProj (checks cls.code q.lat.name dh dw) (outcomesOf i) s.psi,
      writeReg s.mem (roundName q.lat.name (ops.count .stabilize)) ((xSites dh dw).length + (zSites dh dw).length) (outcomesOf i)⟩)
    (A.proper _) h ?_ ?_ (norm2_joint hk h)]
  · rw [Finset.sum_eq_single (fun k : Fin (checks cls.code q.lat.name dh dw).length => m k)]
    · rw [if_pos]
      · congr 1
        refine congrArg (fun B : Op => B s.psi) (jointProj_congr fun k hk => ?_)
        unfold outcomesOf
        rw [dif_pos hk]
      · intro k hk
        show writeReg _ _ _ _ _ = _
        rw [writeReg_at hk]
        unfold outcomesOf
        rw [dif_pos (by omega)]
    · intro i _ hi
      rw [if_neg]
      intro hE
      refine hi (funext fun k => ?_)
      have hk := k.isLt
      have := hE k (by omega)
      change writeReg _ _ _ _ _ = _ at this
      rw [writeReg_at (by omega)] at this
      unfold outcomesOf at this
      rw [dif_pos hk] at this
      exact this
    · intro hi
      exact absurd (Finset.mem_univ _) hi
  · intro i i' hi
    funext k
    have hk := k.isLt
    have := congrFun (congrArg QState.mem hi) ⟨roundName q.lat.name (ops.count .stabilize), k⟩
    simp only at this
    rw [writeReg_at (by omega), writeReg_at (by omega)] at this
    unfold outcomesOf at this
    rw [dif_pos hk, dif_pos hk] at this
    exact this
  · intro i hne
    exact (run_stabilize A h0 hz).2 ⟨_, rfl, hne, rfl⟩

/-- Independent fair coins: each observable has a companion with certain value that anticommutes with it and commutes with the
others. -/
theorem norm2_coins {l : List Op} (hl : ∀ A ∈ l, Keeping A) {ψ : Psi} (h : Bounded ψ)
    (hR : ∀ k < l.length, ∃ R u, Keeping R ∧ HasValue R u ψ ∧ ∀ j (hj : j < l.length), Passes (decide (j = k)) R l[j]) (m : Nat → Bool) :
    norm2 (jointProj l m ψ) = (1 / 2) ^ l.length * norm2 ψ := by
  induction l generalizing m with
  | nil => simp [jointProj]
  | cons A l ih =>
    have hl' : ∀ B ∈ l, Keeping B := fun B hB => hl B (by simp [hB])
    have h1 := ih hl' (fun k hk => by
      obtain ⟨R, u, a1, a2, a3⟩ := hR (k + 1) (by simp; omega)
      refine ⟨R, u, a1, a2, fun j hj => ?_⟩
      have := a3 (j + 1) (by simp; omega)
      simpa using this) fun k => m (k + 1)
    obtain ⟨R, u, a1, a2, a3⟩ := hR 0 (by simp)
    have hRA : Passes true R A := by
      have := a3 0 (by simp)
      rw [decide_eq_true rfl] at this
      exact this
    have hc : ∀ B ∈ l, Commute R B := by
      intro B hB
      obtain ⟨j, hj, rfl⟩ := List.getElem_of_mem hB
      have := a3 (j + 1) (by simp; omega)
      rw [decide_eq_false (by omega)] at this
      exact passes_false.1 (by simpa using this)
    show norm2 (projOf A (m 0) (jointProj l (fun k => m (k + 1)) ψ)) = _
    rw [norm2_half (hl A (by simp)) a1 hRA (a2.of_comm (jointProj_comm hc _)) (bounded_joint hl' h _), h1, List.length_cons, pow_succ]
    ring

/-- Observables with certain values. -/
theorem joint_certain {l : List Op} {ψ : Psi} (h : ∀ A ∈ l, HasValue A false ψ) (m : Nat → Bool) :
    jointProj l m ψ = if ∀ k < l.length, m k = false then ψ else 0 := by
  induction l generalizing m with
  | nil => simp [jointProj]
  | cons A l ih =>
    show projOf A (m 0) (jointProj l (fun k => m (k + 1)) ψ) = _
    rw [ih fun B hB => h B (by simp [hB])]
    have hA : A ψ = ψ := by
      have := h A (by simp)
      unfold HasValue at this
      rwa [sg_false, one_smul] at this
    have e : ∀ v, projOf A v ψ = if v = false then ψ else 0 := by
      intro v
      have e : projOf A v ψ = (1 / 2 : ℂ) • (ψ + sg v • A ψ) := rfl
      rw [e, hA]
      cases v
      · rw [sg_false, one_smul, if_pos rfl, ← two_smul ℂ ψ, smul_smul]; norm_num
      · rw [sg_true, if_neg (by decide)]; simp
    by_cases h1 : ∀ k < l.length, m (k + 1) = false
    · rw [if_pos h1, e]
      by_cases h0 : m 0 = false
      · rw [if_pos h0, if_pos]
        intro k hk
        cases k with
        | zero => exact h0
        | succ k => exact h1 k (by simpa using hk)
      · rw [if_neg h0, if_neg fun hk => h0 (hk 0 (by simp))]
    · rw [if_neg h1, map_zero, if_neg fun hk => h1 fun k hk' => hk (k + 1) (by simpa using hk')]

end Qtc
