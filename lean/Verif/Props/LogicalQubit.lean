import Verif.Props.Chance
import Verif.Props.Detect
import Verif.Spec.LogicalQubit
/-!
Property C139: a logical qubit has the amplitudes, gates and measurements of a qubit.
-/
namespace Qtc
open Spec Function

variable {dh dw : Int} {code : Code} {name : Str} {m : Nat → Bool} {φ : Psi} {p : ℂ × ℂ}

/-! ### Logical states -/

theorem keeping_logX : Keeping (logX code name dh dw) := by
  unfold logX
  exact keeping_pstr _

theorem keeping_logZ : Keeping (logZ code name dw) := by
  unfold logZ
  exact keeping_pstr _

theorem logX_twice (H : OddPos dh dw) (φ : Psi) : logX code name dh dw (logX code name dh dw φ) = φ := by
  have hsq : logX code name dh dw * logX code name dh dw = 1 := by
    rw [logX_eq]
    exact fstr_sq .X fun i hi => (mem_allQubits.1 (col_all H i hi)).1
  exact congrArg (fun A : Op => A φ) hsq

/-- The image of a logical |0⟩ under the logical X has value -1. -/
theorem logical_one (H : OddPos dh dw) (h : HasValue (logZ code name dw) false φ) : HasValue (logZ code name dw) true (logX code name dh dw φ) := by
  have hp := (logX_logZ (code := code) (name := name) H).symm
  unfold Passes at hp
  have := congrArg (fun A : Op => A φ) hp
  simp only [Module.End.mul_apply, LinearMap.smul_apply] at this
  unfold HasValue at h ⊢
  rw [this, h, map_smul, sg_false, one_smul]

theorem encoded_x (H : OddPos dh dw) : logX code name dh dw (encoded code name dh dw φ p) = encoded code name dh dw φ (p.2, p.1) := by
  unfold encoded
  rw [map_add, map_smul, map_smul, logX_twice H, add_comm]

theorem encoded_z (H : OddPos dh dw) (h : HasValue (logZ code name dw) false φ) :
    logZ code name dw (encoded code name dh dw φ p) = encoded code name dh dw φ (p.1, -p.2) := by
  have h1 := logical_one H h
  unfold HasValue at h h1
  unfold encoded
  rw [map_add, map_smul, map_smul, h, h1, sg_false, sg_true]
  module

theorem encoded_bounded (h : Bounded φ) : Bounded (encoded code name dh dw φ p) := (h.smul _).add ((keeping_logX.bounded φ h).smul _)

theorem encoded_syndrome (H : OddPos dh dw) (h : Syndrome code name dh dw m φ) : Syndrome code name dh dw m (encoded code name dh dw φ p) := by
  intro k C hC
  have h0 := h k C hC
  have h1 : HasValue C (m k) (logX code name dh dw φ) := HasValue.of_comm h0 (by
    obtain ⟨key, q, hq, rfl⟩ := mem_checks (List.mem_of_getElem? hC)
    exact (logX_check H hq).symm)
  unfold HasValue at h0 h1 ⊢
  unfold encoded
  rw [map_add, map_smul, map_smul, h0, h1, smul_add, smul_comm (sg (m k)), smul_comm (sg (m k))]

theorem encoded_synZero (h : SynZero name dh dw φ) : SynZero name dh dw (encoded code name dh dw φ p) := by
  have key : ∀ x : Qubit, (∀ i, dataQ name i ≠ x) → IsZero x φ → IsZero x (encoded code name dh dw φ p) := by
    intro x hx h0
    have h1 : IsZero x (logX code name dh dw φ) := IsZero.of_comm h0 (by rw [logX_eq]; exact fstr_comm_Z .X _ hx)
    unfold IsZero at h0 h1 ⊢
    unfold encoded
    rw [map_add, map_smul, map_smul, h0, h1, smul_zero, smul_zero, add_zero]
  exact ⟨fun k hk => key _ (fun i => dataQ_ne_mzQ k i) (h.1 k hk), fun k hk => key _ (fun i => dataQ_ne_mxQ k i) (h.2 k hk)⟩

theorem encoded_projZ (H : OddPos dh dw) (h : HasValue (logZ code name dw) false φ) (v : Bool) :
    projOf (logZ code name dw) v (encoded code name dh dw φ p) = if v = false then p.1 • φ else p.2 • logX code name dh dw φ := by
  unfold encoded
  rw [map_add, map_smul, map_smul, HasValue.proj h, HasValue.proj (logical_one H h)]
  cases v <;> simp

theorem encoded_norm2 (H : OddPos dh dw) (h : HasValue (logZ code name dw) false φ) (hb : Bounded φ) :
    norm2 (encoded code name dh dw φ p) = (Complex.normSq p.1 + Complex.normSq p.2) * norm2 φ := by
  rw [← norm2_split (keeping_logZ (code := code) (name := name) (dw := dw)) (encoded_bounded hb), encoded_projZ H h, encoded_projZ H h, if_pos rfl,
    if_neg (by simp), norm2_smul, norm2_smul, keeping_logX.norm2 φ hb, add_mul]

theorem encoded_projX (H : OddPos dh dw) (v : Bool) : projOf (logX code name dh dw) v (encoded code name dh dw φ p) =
    encoded code name dh dw φ ((p.1 + sg v * p.2) / 2, (p.2 + sg v * p.1) / 2) := by
  show (1 / 2 : ℂ) • (encoded code name dh dw φ p + sg v • logX code name dh dw (encoded code name dh dw φ p)) = _
  rw [encoded_x H]
  unfold encoded
  module

theorem encoded_ne (H : OddPos dh dw) (h : HasValue (logZ code name dw) false φ) (hb : Bounded φ) (h0 : φ ≠ 0) (hp : p ≠ 0) :
    encoded code name dh dw φ p ≠ 0 := by
  intro e
  have h1 := encoded_norm2 (dh := dh) (p := p) H h hb
  rw [e, norm2_zero] at h1
  have h2 := norm2_pos hb h0
  rcases mul_eq_zero.1 h1.symm with h3 | h3
  · have a1 := Complex.normSq_nonneg p.1
    have a2 := Complex.normSq_nonneg p.2
    exact hp (Prod.ext (Complex.normSq_eq_zero.1 (by linarith)) (Complex.normSq_eq_zero.1 (by linarith)))
  · exact h2.ne' h3

theorem qubitAfter_norm : ∀ (l : List QOp) (p : ℂ × ℂ), Complex.normSq (qubitAfter l p).1 + Complex.normSq (qubitAfter l p).2 = Complex.normSq p.1 + Complex.normSq p.2
  | [], _ => rfl
  | o :: l, p => by
    unfold qubitAfter
    split
    · rename_i h; cases h
    · rename_i h; cases h; rw [qubitAfter_norm]; exact add_comm _ _
    · rename_i h; cases h; rw [qubitAfter_norm]; simp
    · rename_i h; cases h; exact qubitAfter_norm _ _

/-! ### Circuits -/

variable {cls : QClass} {q : TQubit} {ops : List QOp} {w : World} {sz : Str → Nat}

/-- C139: logical gates, identities and stabilizations change the amplitudes of a logical state as gates change those of a qubit. -/
theorem C139_gates (A : After cls q dh dw ops w) (hφ : LogicalZero cls.code q.lat.name dh dw m φ) {l : List QOp} (hl : ∀ o ∈ l, MemoryOp o) {p : ℂ × ℂ}
    (hp : p ≠ 0) {s t : QState} (hs : s.psi = encoded cls.code q.lat.name dh dw φ p) (h : Run sz (addedAll q l w) s t) :
    t.psi = encoded cls.code q.lat.name dh dw φ (qubitAfter l p) := by
  have H := A.own.2.placed.odd
  obtain ⟨h0, hb, hm, hz, hv⟩ := id hφ
  induction l generalizing ops w p s with
  | nil =>
    have e : t = s := by rwa [addedAll_nil, Run] at h
    rw [e, hs]
    rfl
  | cons o l ih =>
    obtain ⟨u, hu, ht⟩ := A.run_cons.1 h
    have ho := hl o (by simp)
    have hl' : ∀ o ∈ l, MemoryOp o := fun o h => hl o (by simp [h])
    have hsame : u.psi = s.psi → qubitAfter (o :: l) p = qubitAfter l p → t.psi = encoded cls.code q.lat.name dh dw φ (qubitAfter (o :: l) p) := by
      intro e e'
      rw [e']
      exact ih (A.next o) hl' hp (e.trans hs) ht
    cases o with
    | stabilize =>
      refine hsame ?_ rfl
      have hne : s.psi ≠ 0 := by rw [hs]; exact encoded_ne H hv hb h0 hp
      obtain ⟨m', e, hne', -⟩ := (run_stabilize A hne (by rw [hs]; exact encoded_synZero hz)).1 hu
      have hfix : jointProj (checks cls.code q.lat.name dh dw) m s.psi = s.psi := by
        rw [hs]
        exact joint_fixed _ m (encoded_syndrome H hm)
      have := jointProj_mul (fun A hA B hB => checks_comm (code := cls.code) (name := q.lat.name) H hA hB) (fun A hA => checks_sq H hA) m' m
      have := congrArg (fun B : Op => B s.psi) this
      simp only [Module.End.mul_apply, hfix] at this
      split at this
      · rename_i hk
        rw [e, jointProj_congr hk, hfix]
      · rw [e, this] at hne'
        exact absurd rfl hne'
    | id => exact hsame (by rw [(run_id A).1 hu]) rfl
    | idData => exact hsame (by rw [(run_idData A).1 hu]) rfl
    | x =>
      refine ih (A.next .x) hl' (p := (p.2, p.1)) ?_ (s := u) ?_ ht
      · exact fun e => hp (Prod.ext (congrArg Prod.snd e) (congrArg Prod.fst e))
      · rw [(run_x A).1 hu]
        show logX _ _ _ _ s.psi = _
        rw [hs, encoded_x H]
    | z =>
      refine ih (A.next .z) hl' (p := (p.1, -p.2)) ?_ (s := u) ?_ ht
      · exact fun e => hp (Prod.ext (show p.1 = 0 from congrArg Prod.fst e) (neg_eq_zero.1 (show -p.2 = 0 from congrArg Prod.snd e)))
      · rw [(run_z A).1 hu]
        show logZ _ _ _ s.psi = _
        rw [hs, encoded_z H hv]
    | _ => exact absurd ho (by simp [MemoryOp])

/-- C139: after gates `readout_z` gives a value with the probability with which a qubit gives it. -/
theorem C139_z (A : After cls q dh dw ops w) (hw : cls ≠ .xzzx ∨ 1 < dw) {l : List QOp} (hl : ∀ o ∈ l, MemoryOp o) :
    ∃ r, r ∉ (q.ops l w).circ.names ∧ (q.ops (l ++ [.readoutZ none]) w).circ.cregs = (q.ops l w).circ.cregs ++ [⟨r, 1⟩] ∧
      ∀ (m : Nat → Bool) (φ : Psi) (p : ℂ × ℂ) (s : QState) (v : Bool), LogicalZero cls.code q.lat.name dh dw m φ → p ≠ 0 →
        s.psi = encoded cls.code q.lat.name dh dw φ p →
        bornProb sz (addedAll q (l ++ [.readoutZ none]) w) s (fun t => t.mem ⟨r, 0⟩ = v) =
          Complex.normSq (if v = false then (qubitAfter l p).1 else (qubitAfter l p).2) / (Complex.normSq p.1 + Complex.normSq p.2) := by
  have A' := A.all_next l
  have H := A.own.2.placed.odd
  obtain ⟨h1, h2⟩ := readout_new A' (Or.inr rfl : (.readoutZ none : QOp) = .readoutX none ∨ _)
  refine ⟨_, h1, by rw [ops_snoc]; exact h2, fun m φ p s v hφ hp hs => ?_⟩
  obtain ⟨h0, hb, hm, hz, hv⟩ := id hφ
  have hne : s.psi ≠ 0 := by rw [hs]; exact encoded_ne H hv hb h0 hp
  have hsb : Bounded s.psi := by rw [hs]; exact encoded_bounded hb
  refine bornProb_of_share hsb hne ?_
  rw [A.all_append, A'.all_single]
  refine share_after (proper_all A _) hsb fun t hR ht => ?_
  have ht' := C139_gates A hφ hl hp hs hR
  have hN := qubitAfter_norm l p
  have hpos : Complex.normSq p.1 + Complex.normSq p.2 ≠ 0 := fun e => by
    have a1 := Complex.normSq_nonneg p.1
    have a2 := Complex.normSq_nonneg p.2
    exact hp (Prod.ext (Complex.normSq_eq_zero.1 (by linarith)) (Complex.normSq_eq_zero.1 (by linarith)))
  rw [share_readoutZ A' hw ht, ht', encoded_projZ H hv, encoded_norm2 H hv hb, hN]
  cases v
  · rw [if_pos rfl, if_pos rfl, norm2_smul]
    field_simp
  · rw [if_neg (by simp), if_neg (by simp), norm2_smul, keeping_logX.norm2 φ hb]
    field_simp

/-- C139: so does `readout_x`. -/
theorem C139_x (A : After cls q dh dw ops w) (hh : cls ≠ .xzzx ∨ 1 < dh) {l : List QOp} (hl : ∀ o ∈ l, MemoryOp o) :
    ∃ r, r ∉ (q.ops l w).circ.names ∧ (q.ops (l ++ [.readoutX none]) w).circ.cregs = (q.ops l w).circ.cregs ++ [⟨r, 1⟩] ∧
      ∀ (m : Nat → Bool) (φ : Psi) (p : ℂ × ℂ) (s : QState) (v : Bool), LogicalZero cls.code q.lat.name dh dw m φ → p ≠ 0 →
        s.psi = encoded cls.code q.lat.name dh dw φ p →
        bornProb sz (addedAll q (l ++ [.readoutX none]) w) s (fun t => t.mem ⟨r, 0⟩ = v) =
          Complex.normSq (if v = false then (qubitAfter l p).1 + (qubitAfter l p).2 else (qubitAfter l p).1 - (qubitAfter l p).2) /
            (2 * (Complex.normSq p.1 + Complex.normSq p.2)) := by
  have A' := A.all_next l
  have H := A.own.2.placed.odd
  obtain ⟨h1, h2⟩ := readout_new A' (Or.inl rfl : (.readoutX none : QOp) = .readoutX none ∨ _)
  refine ⟨_, h1, by rw [ops_snoc]; exact h2, fun m φ p s v hφ hp hs => ?_⟩
  obtain ⟨h0, hb, hm, hz, hv⟩ := id hφ
  have hne : s.psi ≠ 0 := by rw [hs]; exact encoded_ne H hv hb h0 hp
  have hsb : Bounded s.psi := by rw [hs]; exact encoded_bounded hb
  refine bornProb_of_share hsb hne ?_
  rw [A.all_append, A'.all_single]
  refine share_after (proper_all A _) hsb fun t hR ht => ?_
  have ht' := C139_gates A hφ hl hp hs hR
  have hN := qubitAfter_norm l p
  have hpos : Complex.normSq p.1 + Complex.normSq p.2 ≠ 0 := fun e => by
    have a1 := Complex.normSq_nonneg p.1
    have a2 := Complex.normSq_nonneg p.2
    exact hp (Prod.ext (Complex.normSq_eq_zero.1 (by linarith)) (Complex.normSq_eq_zero.1 (by linarith)))
  rw [share_readoutX A' hh ht, ht', encoded_projX H, encoded_norm2 H hv hb, encoded_norm2 H hv hb, hN]
  generalize qubitAfter l p = r
  have n2 : Complex.normSq 2 = 4 := by rw [Complex.normSq_ofNat]; norm_num
  cases v
  · rw [if_pos rfl, sg_false, one_mul, one_mul, Complex.normSq_div, Complex.normSq_div, add_comm r.2 r.1, n2]
    field_simp
    ring
  · rw [if_neg (by simp), sg_true, Complex.normSq_div, Complex.normSq_div, show r.2 + -1 * r.1 = -(r.1 - r.2) by ring, Complex.normSq_neg,
      show r.1 + -1 * r.2 = r.1 - r.2 by ring, n2]
    field_simp
    ring

/-! ### After a readout -/

/-- What a readout does to its own ancilla. -/
noncomputable def ancOp (name : Str) (c v : Bool) : Op := clear v (ancQ name) * clear c (ancQ name) * opP c (ancQ name)

theorem ancOp_comm {B : Op} (h : ∀ a : Letter, Commute B (a.op (ancQ name))) (c v : Bool) : Commute B (ancOp name c v) :=
  ((clear_comm (h .X) v).mul_right (clear_comm (h .X) c)).mul_right (Commute.opP (h .Z) c)

theorem bounded_clear (h : Bounded φ) (v : Bool) (x : Qubit) : Bounded (clear v x φ) := by
  unfold clear
  cases v
  · exact h
  · exact (keeping_X x).bounded φ h

theorem ancOp_zero (H : OddPos dh dw) (hφ : LogicalZero code name dh dw m φ) {c v : Bool} (h0 : ancOp name c v φ ≠ 0) :
    LogicalZero code name dh dw m (ancOp name c v φ) := by
  obtain ⟨-, hb, hm, hz, hv⟩ := hφ
  refine ⟨h0, bounded_clear (bounded_clear (bounded_P hb c _) c _) v _, ?_, ⟨fun k hk => ?_, fun k hk => ?_⟩, ?_⟩
  · intro k C hC
    refine HasValue.of_comm (hm k C hC) (ancOp_comm (fun a => ?_) c v)
    obtain ⟨key, q, hq, rfl⟩ := mem_checks (List.mem_of_getElem? hC)
    exact check_comm_letter H hq dataQ_ne_ancQ a
  · exact IsZero.of_comm (hz.1 k hk) (ancOp_comm (fun a => letter_comm (ancQ_ne_mz (k : Int)).symm .Z a) c v).symm
  · exact IsZero.of_comm (hz.2 k hk) (ancOp_comm (fun a => letter_comm (ancQ_ne_mx (k : Int)).symm .Z a) c v).symm
  · exact HasValue.of_comm hv (ancOp_comm (logZ_comm_letter dataQ_ne_ancQ) c v)

theorem ancOp_encoded (c v : Bool) : ancOp name c v (encoded code name dh dw φ p) = encoded code name dh dw (ancOp name c v φ) p := by
  have := congrArg (fun B : Op => B φ) (ancOp_comm (logX_comm_letter (code := code) (dh := dh) (dw := dw) (dataQ_ne_ancQ (name := name))) c v).eq
  simp only [Module.End.mul_apply] at this
  unfold encoded
  rw [map_add, map_smul, map_smul, ← this]

theorem reads_encoded (H : OddPos dh dw) {L : Op} (hL : ∀ a : Letter, Commute L (a.op (ancQ name))) {r : Str} {n : Nat} {s t : QState} (hn : 0 < n)
    (hφ : LogicalZero code name dh dw m φ) (hs : s.psi = encoded code name dh dw φ p) (h : Reads name L r n s t) :
    ∃ φ', LogicalZero code name dh dw m φ' ∧ t.psi = projOf L (t.mem ⟨r, 0⟩) (encoded code name dh dw φ' p) ∧ ∀ b, b.reg ≠ r → t.mem b = s.mem b := by
  obtain ⟨c, v, h1, h2, h3⟩ := h
  have hv : t.mem ⟨r, 0⟩ = v := by rw [h3, writeReg_at (mem := s.mem) hn (fun _ => v)]
  have he : t.psi = projOf L v (encoded code name dh dw (ancOp name c v φ) p) := by
    have hc := (clear_comm (Commute.proj (hL .X).symm v).symm v).eq
    have := congrArg (fun B : Op => B (clear c (ancQ name) (opP c (ancQ name) s.psi))) hc
    simp only [Module.End.mul_apply] at this
    rw [h1, ← this, hs, ← ancOp_encoded]
    rfl
  refine ⟨ancOp name c v φ, ancOp_zero H hφ fun e => h2 ?_, by rw [hv, he], fun b hb => by rw [h3, writeReg_other hb]⟩
  rw [he, e]
  unfold encoded
  simp

/-- C139: after `readout_z` the amplitudes are those of a measured qubit: the amplitude of the value that was not read is gone. -/
theorem C139_collapse_z (A : After cls q dh dw ops w) (hw : cls ≠ .xzzx ∨ 1 < dw) :
    ∃ r, r ∉ w.circ.names ∧ (q.op (.readoutZ none) w).2.circ.cregs = w.circ.cregs ++ [⟨r, 1⟩] ∧
      ∀ (m : Nat → Bool) (φ : Psi) (p : ℂ × ℂ) (s t : QState), LogicalZero cls.code q.lat.name dh dw m φ → p ≠ 0 →
        s.psi = encoded cls.code q.lat.name dh dw φ p → Run sz (added q (.readoutZ none) w) s t →
        ∃ φ', LogicalZero cls.code q.lat.name dh dw m φ' ∧
          t.psi = encoded cls.code q.lat.name dh dw φ' (if t.mem ⟨r, 0⟩ = false then (p.1, 0) else (0, p.2)) ∧
          ∀ b, b.reg ≠ r → t.mem b = s.mem b := by
  have H := A.own.2.placed.odd
  obtain ⟨r, h1, h2, h3⟩ := C59_readout_z (sz := sz) A hw
  refine ⟨r, h1, h2, fun m φ p s t hφ hp hs hR => ?_⟩
  have hne : s.psi ≠ 0 := by rw [hs]; exact encoded_ne H hφ.2.2.2.2 hφ.2.1 hφ.1 hp
  obtain ⟨φ', a1, a2, a3⟩ := reads_encoded H (logZ_comm_letter dataQ_ne_ancQ) Nat.one_pos hφ hs ((h3 s t hne).1 hR)
  refine ⟨φ', a1, ?_, a3⟩
  rw [a2, encoded_projZ H a1.2.2.2.2]
  unfold encoded
  split <;> simp

/-- C139: after `readout_x` both amplitudes are equal, or opposite, as the value read says. -/
theorem C139_collapse_x (A : After cls q dh dw ops w) (hh : cls ≠ .xzzx ∨ 1 < dh) :
    ∃ r, r ∉ w.circ.names ∧ (q.op (.readoutX none) w).2.circ.cregs = w.circ.cregs ++ [⟨r, 1⟩] ∧
      ∀ (m : Nat → Bool) (φ : Psi) (p : ℂ × ℂ) (s t : QState), LogicalZero cls.code q.lat.name dh dw m φ → p ≠ 0 →
        s.psi = encoded cls.code q.lat.name dh dw φ p → Run sz (added q (.readoutX none) w) s t →
        ∃ φ', LogicalZero cls.code q.lat.name dh dw m φ' ∧
          t.psi = encoded cls.code q.lat.name dh dw φ'
            (if t.mem ⟨r, 0⟩ = false then ((p.1 + p.2) / 2, (p.1 + p.2) / 2) else ((p.1 - p.2) / 2, -((p.1 - p.2) / 2))) ∧
          ∀ b, b.reg ≠ r → t.mem b = s.mem b := by
  have H := A.own.2.placed.odd
  obtain ⟨r, h1, h2, h3⟩ := C59_readout_x (sz := sz) A hh
  refine ⟨r, h1, h2, fun m φ p s t hφ hp hs hR => ?_⟩
  have hne : s.psi ≠ 0 := by rw [hs]; exact encoded_ne H hφ.2.2.2.2 hφ.2.1 hφ.1 hp
  obtain ⟨φ', a1, a2, a3⟩ := reads_encoded H (logX_comm_letter dataQ_ne_ancQ) Nat.one_pos hφ hs ((h3 s t hne).1 hR)
  refine ⟨φ', a1, ?_, a3⟩
  rw [a2, encoded_projX H]
  congr 1
  cases t.mem ⟨r, 0⟩
  · rw [if_pos rfl, sg_false]
    ext <;> ring
  · rw [if_neg (by simp), sg_true]
    ext <;> ring

/-- C139: these are all logical states: with given syndromes, a state of the data qubits (all other qubits 0) is the logical state with
some amplitudes. -/
theorem C139_all (H : OddPos dh dw) (code : Code) (name : Str) (m : Nat → Bool) :
    ∃ φ, LogicalZero code name dh dw m φ ∧ ∀ ψ, CodeState code name dh dw (told dh dw m) ψ → ∃! p, ψ = encoded code name dh dw φ p := by
  obtain ⟨φ, h0, hb, h1, h2, -, -, h3⟩ := C137_one_qubit H code name (told dh dw m)
  exact ⟨φ, ⟨h0, hb, told_syndrome h1, synZero_of h1.2, h2⟩, h3⟩

/-! ### The start -/

theorem logicalZero_smul {a : ℂ} (ha : a ≠ 0) (h : LogicalZero code name dh dw m φ) : LogicalZero code name dh dw m (a • φ) := by
  obtain ⟨h0, hb, hm, hz, hv⟩ := h
  have hI : ∀ x : Qubit, IsZero x φ → IsZero x (a • φ) := by
    intro x h
    unfold IsZero at h ⊢
    rw [map_smul, h, smul_zero]
  have hV : ∀ (B : Op) (v : Bool), HasValue B v φ → HasValue B v (a • φ) := by
    intro B v h
    unfold HasValue at h ⊢
    rw [map_smul, h, smul_comm]
  exact ⟨smul_ne_zero ha h0, hb.smul a, fun k C hC => hV C _ (hm k C hC), ⟨fun k hk => hI _ (hz.1 k hk), fun k hk => hI _ (hz.2 k hk)⟩, hV _ _ hv⟩

theorem start_ne (A : After cls q dh dw ops w) {o : QOp} {s t : QState} (h0 : s.psi ≠ 0) (h : Run sz (addedAll q [o, .stabilize] w) s t) : t.psi ≠ 0 := by
  obtain ⟨u, ha, hd⟩ := A.run_cons.1 h
  rw [(A.next o).all_single] at hd
  exact (A.next o).ne_zero (A.ne_zero h0 ha) hd

/-- C139: `reset_z` and a stabilization give a logical state with amplitudes 1 and 0 and the recorded syndromes. -/
theorem C139_start_z (A : After cls q dh dw ops w) {s t : QState} (h0 : s.psi ≠ 0)
    (hs : ∀ x : Qubit, (∀ i ∈ allQubits dh dw, x ≠ dataQ q.lat.name i) → IsZero x s.psi)
    (h : Run sz (addedAll q [.resetZ, .stabilize] w) s t) :
    ∃ φ, LogicalZero cls.code q.lat.name dh dw (fun k => t.mem ⟨q.lat.name ++ "_c".toList ++ strNat (ops.count .stabilize), k⟩) φ ∧
      t.psi = encoded cls.code q.lat.name dh dw φ (1, 0) := by
  obtain ⟨h1, h2, -⟩ := C137_prepared_z A h0 h0 hs hs h h fun _ _ => rfl
  obtain ⟨φ, hφ, hall⟩ := C139_all A.own.2.placed.odd cls.code q.lat.name fun k =>
    t.mem ⟨q.lat.name ++ "_c".toList ++ strNat (ops.count .stabilize), k⟩
  obtain ⟨p, hp, -⟩ := hall _ h1
  refine ⟨t.psi, ⟨start_ne A h0 h, ?_, told_syndrome h1, synZero_of h1.2, h2⟩, ?_⟩
  · rw [hp]
    exact encoded_bounded hφ.2.1
  · unfold encoded
    simp

/-- C139: `reset_x` and a stabilization give a logical state with equal amplitudes and the recorded syndromes. -/
theorem C139_start_x (A : After cls q dh dw ops w) (hh : cls ≠ .xzzx ∨ 1 < dh * dw) {s t : QState} (h0 : s.psi ≠ 0)
    (hs : ∀ x : Qubit, (∀ i ∈ allQubits dh dw, x ≠ dataQ q.lat.name i) → IsZero x s.psi)
    (h : Run sz (addedAll q [.resetX, .stabilize] w) s t) :
    ∃ φ, LogicalZero cls.code q.lat.name dh dw (fun k => t.mem ⟨q.lat.name ++ "_c".toList ++ strNat (ops.count .stabilize), k⟩) φ ∧
      t.psi = encoded cls.code q.lat.name dh dw φ (1, 1) := by
  have H := A.own.2.placed.odd
  obtain ⟨h1, h2, -⟩ := C137_prepared_x A hh h0 h0 hs hs h h fun _ _ => rfl
  obtain ⟨φ, hφ, hall⟩ := C139_all H cls.code q.lat.name fun k =>
    t.mem ⟨q.lat.name ++ "_c".toList ++ strNat (ops.count .stabilize), k⟩
  obtain ⟨p, hp, hu⟩ := hall _ h1
  have e : (p.2, p.1) = p := hu _ (by
    unfold HasValue at h2
    rw [sg_false, one_smul] at h2
    show t.psi = _
    rw [← encoded_x H, ← hp, h2])
  have e1 : p.2 = p.1 := congrArg Prod.fst e
  have ha : p.1 ≠ 0 := fun e0 => start_ne A h0 h (by rw [hp]; unfold encoded; rw [e1, e0, zero_smul, zero_smul, add_zero])
  refine ⟨p.1 • φ, logicalZero_smul ha hφ, ?_⟩
  rw [hp]
  unfold encoded
  rw [map_smul, e1, one_smul, one_smul]

/-- A qubit with amplitudes 3/5 and 4/5 turned by X: `readout_z` gives 0 with probability 16/25. -/
example : ∃ q w r, AfterAlone .xzzx q 3 3 [] w ∧ ∃ s : QState, bornProb (fun _ => 0) (addedAll q [.stabilize, .x, .readoutZ none] w) s
    (fun t => t.mem ⟨r, 0⟩ = false) = 16 / 25 := by
  obtain ⟨q, w, A, hn⟩ := afterAlone_exists (dh := 3) (dw := 3) .xzzx "a".toList (by unfold OddPos; decide) (by simp) []
  obtain ⟨φ, hφ, -⟩ := C139_all (dh := 3) (dw := 3) (by unfold OddPos; decide) .xzzx q.lat.name fun _ => false
  obtain ⟨r, -, -, h⟩ := C139_z (sz := fun _ => 0) A.after (Or.inr (by decide)) (l := [.stabilize, .x]) (by intro o ho; simp at ho; rcases ho with rfl | rfl <;> exact trivial)
  refine ⟨q, w, r, A, ⟨encoded .xzzx q.lat.name 3 3 φ (3, 4), fun _ => false⟩, ?_⟩
  have := h _ φ (3, 4) ⟨encoded .xzzx q.lat.name 3 3 φ (3, 4), fun _ => false⟩ false hφ (by simp) rfl
  refine this.trans ?_
  simp only [qubitAfter, if_true, Complex.normSq_ofNat]
  norm_num

/-- With amplitudes 3 and 4, a `readout_z` that gives 1 leaves amplitudes 0 and 4; there is a run of the readout. -/
example : ∃ q w r, AfterAlone .xzzx q 3 3 [] w ∧ ∃ (φ : Psi) (t : QState), t.psi ≠ 0 ∧
    Run (fun _ => 0) (added q (.readoutZ none) w) ⟨encoded .xzzx q.lat.name 3 3 φ (3, 4), fun _ => false⟩ t ∧
    (t.mem ⟨r, 0⟩ = true → ∃ φ', t.psi = encoded .xzzx q.lat.name 3 3 φ' (0, 4)) := by
  obtain ⟨q, w, A, hn⟩ := afterAlone_exists (dh := 3) (dw := 3) .xzzx "a".toList (by unfold OddPos; decide) (by simp) []
  obtain ⟨φ, hφ, -⟩ := C139_all (dh := 3) (dw := 3) (by unfold OddPos; decide) .xzzx q.lat.name fun _ => false
  obtain ⟨r, -, -, h⟩ := C139_collapse_z (sz := fun _ => 0) A.after (Or.inr (by decide))
  have hne : encoded .xzzx q.lat.name 3 3 φ (3, 4) ≠ 0 := encoded_ne (by unfold OddPos; decide) hφ.2.2.2.2 hφ.2.1 hφ.1 (by simp)
  obtain ⟨t, ht⟩ := run_exists (sz := fun _ => 0) (A.after.proper (.readoutZ none)) ⟨encoded .xzzx q.lat.name 3 3 φ (3, 4), fun _ => false⟩ hne
  refine ⟨q, w, r, A, φ, t, A.after.ne_zero hne ht, ht, fun hv => ?_⟩
  obtain ⟨φ', -, h2, -⟩ := h _ φ (3, 4) _ t hφ (by simp) rfl ht
  exact ⟨φ', by rw [h2, hv, if_neg (by simp)]; rfl⟩

/-- After `reset_x` and a stabilization of a new lattice: equal amplitudes. -/
example : ∃ q w t φ, AfterAlone .xxzz q 3 5 [] w ∧ Run (fun _ => 0) (addedAll q [.resetX, .stabilize] w) ⟨ground, fun _ => false⟩ t ∧
    t.psi = encoded .xxzz q.lat.name 3 5 φ (1, 1) := by
  obtain ⟨q, w, A, hn⟩ := afterAlone_exists (dh := 3) (dw := 5) .xxzz "a".toList (by unfold OddPos; decide) (by simp) []
  obtain ⟨t, ht⟩ := run_exists (sz := fun _ => 0) (proper_all A.after [.resetX, .stabilize]) ⟨ground, fun _ => false⟩ ground_ne_zero
  obtain ⟨φ, -, h⟩ := C139_start_x A.after (Or.inl (by decide)) ground_ne_zero (fun x _ => ground_isZero x) ht
  exact ⟨q, w, t, φ, A, ht, h⟩

end Qtc
