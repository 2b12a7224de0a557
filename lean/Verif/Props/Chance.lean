import Verif.Proof.Segments
import Verif.Props.Quantum
/-!
C123: with which probabilities the operations give their results.
-/
namespace Qtc
open Spec Function

variable {cls : QClass} {q : TQubit} {dh dw : Int} {ops : List QOp} {w : World} {sz : Str → Nat}

theorem proper_all (A : After cls q dh dw ops w) (l : List QOp) : ∀ i ∈ addedAll q l w, i.Proper := by
  induction l generalizing ops w with
  | nil => rw [addedAll_nil]; simp
  | cons o l ih =>
    rw [A.all_cons]
    intro i hi
    rcases List.mem_append.1 hi with hi | hi
    · exact A.proper o i hi
    · exact ih (A.next o) i hi

/-! ### Probabilities and executions -/

/-- C123: the probabilities of a property and of its opposite add up to one. -/
theorem C123_total (A : After cls q dh dw ops w) (l : List QOp) {s : QState} (hb : Bounded s.psi) (h0 : s.psi ≠ 0) (E : QState → Prop) :
    0 ≤ bornProb sz (addedAll q l w) s E ∧ bornProb sz (addedAll q l w) s E + bornProb sz (addedAll q l w) s (fun t => ¬E t) = 1 := by
  have hw := norm2_pos hb h0
  refine ⟨div_nonneg (share_nonneg E) hw.le, ?_⟩
  rw [bornProb_share, bornProb_share, ← add_div, share_add (proper_all A l) hb, div_self hw.ne']

/-- C123: a property has a probability that is not zero exactly if there is an execution with it. -/
theorem C123_possible (A : After cls q dh dw ops w) (l : List QOp) {s : QState} (hb : Bounded s.psi) (h0 : s.psi ≠ 0) (E : QState → Prop) :
    0 < bornProb sz (addedAll q l w) s E ↔ ∃ s', Run sz (addedAll q l w) s s' ∧ E s' := by
  have hw := norm2_pos hb h0
  rw [bornProb_share, div_pos_iff_of_pos_right hw]
  constructor
  · intro h
    by_contra hn
    have h1 := share_certain (sz := sz) (proper_all A l) hb (E := fun t => ¬E t) fun s' hR hE => hn ⟨s', hR, hE⟩
    have h2 := share_add (sz := sz) (proper_all A l) hb E
    linarith
  · rintro ⟨s', hR, hE⟩
    have h1 := share_ge (sz := sz) (l := addedAll q l w) (s := s) (F := fun _ : Unit => s') (fun _ _ _ => rfl) (fun _ _ => hR) E
    have h2 : 0 < norm2 s'.psi :=
      norm2_pos (branches_bounded (proper_all A l) hb s' (run_branches hR)) (ne_zero_all A h0 hR)
    simp only [hE, if_true, Finset.univ_unique, Finset.sum_const, Finset.card_singleton, one_smul] at h1
    linarith

/-- C123: a property has probability one exactly if all executions have it. -/
theorem C123_certain (A : After cls q dh dw ops w) (l : List QOp) {s : QState} (hb : Bounded s.psi) (h0 : s.psi ≠ 0) (E : QState → Prop) :
    bornProb sz (addedAll q l w) s E = 1 ↔ ∀ s', Run sz (addedAll q l w) s s' → E s' := by
  have h1 := C123_total (sz := sz) A l hb h0 E
  have h2 := C123_total (sz := sz) A l hb h0 fun t => ¬E t
  have h3 := C123_possible (sz := sz) A l hb h0 fun t => ¬E t
  constructor
  · intro h s' hR
    by_contra hn
    have := h3.2 ⟨s', hR, hn⟩
    linarith [h1.2]
  · intro h
    have h4 : ¬ 0 < bornProb sz (addedAll q l w) s (fun t => ¬E t) := fun hp => by
      obtain ⟨s', hR, hn⟩ := h3.1 hp
      exact hn (h s' hR)
    linarith [h1.2, h2.1]

/-! ### Readouts -/

/-- C123: `readout_x` gives a value with the probability of Born's rule for the logical X. -/
theorem C123_readout_x (A : After cls q dh dw ops w) (hh : cls ≠ .xzzx ∨ 1 < dh) :
    ∃ r, r ∉ w.circ.names ∧ (q.op (.readoutX none) w).2.circ.cregs = w.circ.cregs ++ [⟨r, 1⟩] ∧
      ∀ (s : QState) (v : Bool), Bounded s.psi → bornProb sz (added q (.readoutX none) w) s (fun t => t.mem ⟨r, 0⟩ = v) =
        norm2 (projOf (logX cls.code q.lat.name dh dw) v s.psi) / norm2 s.psi := by
  obtain ⟨h1, h2⟩ := readout_new A (Or.inl rfl : (.readoutX none : QOp) = .readoutX none ∨ _)
  exact ⟨_, h1, h2, fun s v hb => by rw [bornProb_share, share_readoutX A hh hb]⟩

/-- C123: `readout_z` gives a value with the probability of Born's rule for the logical Z. -/
theorem C123_readout_z (A : After cls q dh dw ops w) (hw : cls ≠ .xzzx ∨ 1 < dw) :
    ∃ r, r ∉ w.circ.names ∧ (q.op (.readoutZ none) w).2.circ.cregs = w.circ.cregs ++ [⟨r, 1⟩] ∧
      ∀ (s : QState) (v : Bool), Bounded s.psi → bornProb sz (added q (.readoutZ none) w) s (fun t => t.mem ⟨r, 0⟩ = v) =
        norm2 (projOf (logZ cls.code q.lat.name dw) v s.psi) / norm2 s.psi := by
  obtain ⟨h1, h2⟩ := readout_new A (Or.inr rfl : (.readoutZ none : QOp) = .readoutX none ∨ _)
  exact ⟨_, h1, h2, fun s v hb => by rw [bornProb_share, share_readoutZ A hw hb]⟩

/-- C123: after `reset_z` and any sequence of operations that keeps the value of the logical Z certain, `readout_x` is a fair coin. -/
theorem C123_coin_x {l : List QOp} (A : After cls q dh dw ops w) (hg : ∀ o ∈ l, Gentle cls dh dw o ∧ o.blursZ = false)
    (hh : cls ≠ .xzzx ∨ 1 < dh) :
    ∃ r, r ∉ (q.ops (.resetZ :: l) w).circ.names ∧
      (q.ops (.resetZ :: l ++ [.readoutX none]) w).circ.cregs = (q.ops (.resetZ :: l) w).circ.cregs ++ [⟨r, 1⟩] ∧
      ∀ (s : QState) (v : Bool), Bounded s.psi → s.psi ≠ 0 →
        bornProb sz (addedAll q (.resetZ :: l ++ [.readoutX none]) w) s (fun t => t.mem ⟨r, 0⟩ = v) = 1 / 2 := by
  have A' := A.all_next (.resetZ :: l)
  have H := A.own.2.placed.odd
  obtain ⟨h1, h2⟩ := readout_new A' (Or.inl rfl : (.readoutX none : QOp) = .readoutX none ∨ _)
  refine ⟨_, h1, by rw [ops_snoc]; exact h2, fun s v hb h0 => bornProb_of_share hb h0 ?_⟩
  rw [A.all_append, A'.all_single]
  refine share_after (proper_all A _) hb fun t hR ht => ?_
  rw [share_readoutX A' hh ht]
  obtain ⟨u, hc, hd⟩ := A.run_cons.1 hR
  have hv := logZ_track (A.next .resetZ) hg (A.ne_zero h0 hc) hd (prep_logZ A h0 hc)
  exact norm2_half (by unfold logX; exact keeping_pstr _) (by unfold logZ; exact keeping_pstr _) (logX_logZ H).symm hv ht v

/-- C123: after `reset_x` and any sequence of operations that keeps the value of the logical X certain, `readout_z` is a fair coin. -/
theorem C123_coin_z {l : List QOp} (A : After cls q dh dw ops w) (hg : ∀ o ∈ l, Gentle cls dh dw o ∧ o.blursX = false)
    (hw : cls ≠ .xzzx ∨ 1 < dw) :
    ∃ r, r ∉ (q.ops (.resetX :: l) w).circ.names ∧
      (q.ops (.resetX :: l ++ [.readoutZ none]) w).circ.cregs = (q.ops (.resetX :: l) w).circ.cregs ++ [⟨r, 1⟩] ∧
      ∀ (s : QState) (v : Bool), Bounded s.psi → s.psi ≠ 0 →
        bornProb sz (addedAll q (.resetX :: l ++ [.readoutZ none]) w) s (fun t => t.mem ⟨r, 0⟩ = v) = 1 / 2 := by
  have A' := A.all_next (.resetX :: l)
  have H := A.own.2.placed.odd
  have hc : cls ≠ .xzzx ∨ 1 < dh * dw := hw.imp id fun h => by
    unfold OddPos at H
    nlinarith
  obtain ⟨h1, h2⟩ := readout_new A' (Or.inr rfl : (.readoutZ none : QOp) = .readoutX none ∨ _)
  refine ⟨_, h1, by rw [ops_snoc]; exact h2, fun s v hb h0 => bornProb_of_share hb h0 ?_⟩
  rw [A.all_append, A'.all_single]
  refine share_after (proper_all A _) hb fun t hR ht => ?_
  rw [share_readoutZ A' hw ht]
  obtain ⟨u, h3, hd⟩ := A.run_cons.1 hR
  have hv := logX_track (A.next .resetX) hg (A.ne_zero h0 h3) hd (prep_logX A hc h0 h3)
  exact norm2_half (by unfold logZ; exact keeping_pstr _) (by unfold logX; exact keeping_pstr _) (logX_logZ H) hv ht v

/-! ### Stabilizations -/

/-- C123: a stabilization gives a syndrome with the probability of Born's rule. -/
theorem C123_syndrome (A : After cls q dh dw ops w) {s : QState} (hb : Bounded s.psi) (hs : SynZero q.lat.name dh dw s.psi) (m : Nat → Bool) :
    bornProb sz (added q .stabilize w) s (fun t => ∀ k < (xSites dh dw).length + (zSites dh dw).length,
      t.mem ⟨q.lat.name ++ "_c".toList ++ strNat (ops.count .stabilize), k⟩ = m k) =
      norm2 (jointProj (checks cls.code q.lat.name dh dw) m s.psi) / norm2 s.psi := by
  have := share_stabilize (sz := sz) A hb hs m
  unfold roundName at this
  rw [strInt_nat] at this
  rw [bornProb_share, this]

theorem keeping_fstr {code : Code} {name : Str} (key : Key) (l : List Int) : Keeping (fstr code key name l) := by
  induction l with
  | nil => exact Keeping.one
  | cons i l ih => rw [fstr_cons]; exact (keeping_letter _ _).mul ih

theorem coins_of_key (H : OddPos dh dw) {code : Code} {name : Str} {key : Key} {sites : List (Int × Int)} (hs : sites.Nodup)
    (hk : ∀ p ∈ sites, SiteOf dh dw key p) {ψ : Psi} (hb : Bounded ψ)
    (hv : ∀ S : List Int, (∀ i ∈ S, i ∈ allQubits dh dw) → HasValue (fstr code key.partner name S) false ψ) (m : Nat → Bool) :
    norm2 (jointProj (sites.map (checkOp code name dh dw key)) m ψ) = (1 / 2) ^ sites.length * norm2 ψ := by
  have := norm2_coins (l := sites.map (checkOp code name dh dw key)) (ψ := ψ) (fun A hA => by
    obtain ⟨p, -, rfl⟩ := List.mem_map.1 hA
    unfold checkOp
    exact keeping_pstr _) hb (fun k hk' => by
      rw [List.length_map] at hk'
      obtain ⟨S, h1, h2⟩ := string_seen H code name (hk _ (List.getElem_mem hk'))
      refine ⟨_, false, ?_, hv S h1, fun j hj => ?_⟩
      · exact keeping_fstr _ _
      · rw [List.length_map] at hj
        have := h2 _ (hk _ (List.getElem_mem hj))
        rw [List.getElem_map]
        rwa [show decide (sites[j] = sites[k]) = decide (j = k) from decide_eq_decide.2 hs.getElem_inj_iff] at this) m
  rwa [List.length_map] at this

/-- C123: the first stabilization after `reset_z`: the bits of the Z plaquettes are 0, those of the X plaquettes independent fair
coins. -/
theorem C123_first_z (A : After cls q dh dw ops w) {s : QState} (hb : Bounded s.psi) (h0 : s.psi ≠ 0) (hs : SynZero q.lat.name dh dw s.psi)
    (m : Nat → Bool) :
    bornProb sz (addedAll q [.resetZ, .stabilize] w) s (fun t => ∀ k < (xSites dh dw).length + (zSites dh dw).length,
      t.mem ⟨q.lat.name ++ "_c".toList ++ strNat (ops.count .stabilize), k⟩ = m k) =
      if ∀ k < (zSites dh dw).length, m k = false then (1 / 2) ^ (xSites dh dw).length else 0 := by
  have H := A.own.2.placed.odd
  refine bornProb_of_share hb h0 ?_
  rw [A.all_cons, (A.next .resetZ).all_single]
  refine share_after (A.proper _) hb fun t hR ht => ?_
  have P := (run_resetZ A h0).1 hR
  have e := share_stabilize (sz := sz) (A.next .resetZ) ht (P.synZero hs) m
  rw [show (ops ++ [QOp.resetZ]).count .stabilize = ops.count .stabilize by rw [List.count_append]; rfl] at e
  unfold roundName at e
  rw [strInt_nat] at e
  rw [e]
  unfold checks
  rw [jointProj_append, Module.End.mul_apply]
  have hz : ∀ B ∈ (zSites dh dw).map (checkOp cls.code q.lat.name dh dw .Z),
      HasValue B false (jointProj ((xSites dh dw).map (checkOp cls.code q.lat.name dh dw .X))
        (fun k => m (((zSites dh dw).map (checkOp cls.code q.lat.name dh dw .Z)).length + k)) t.psi) := by
    intro B hB
    obtain ⟨p, hp, rfl⟩ := List.mem_map.1 hB
    have hp' : SiteOf dh dw .Z p := mem_zSites.1 hp
    refine HasValue.of_comm ?_ (jointProj_comm (fun C hC => ?_) _)
    · rw [checkOp_eq H _ _ hp']
      exact P.string around_all
    · obtain ⟨p2, hp2, rfl⟩ := List.mem_map.1 hC
      exact check_comm H hp' (mem_xSites.1 hp2 : SiteOf dh dw .X p2)
  rw [joint_certain hz, List.length_map]
  split
  · exact coins_of_key (key := .X) H (xSites_nodup dh dw) (fun p hp => mem_xSites.1 hp) ht (fun S hS => P.string hS) _
  · rw [norm2_zero, zero_mul]

/-- C123: the first stabilization after `reset_x`: the bits of the X plaquettes are 0, those of the Z plaquettes independent fair
coins. -/
theorem C123_first_x (A : After cls q dh dw ops w) (hc : cls ≠ .xzzx ∨ 1 < dh * dw) {s : QState} (hb : Bounded s.psi) (h0 : s.psi ≠ 0)
    (hs : SynZero q.lat.name dh dw s.psi) (m : Nat → Bool) :
    bornProb sz (addedAll q [.resetX, .stabilize] w) s (fun t => ∀ k < (xSites dh dw).length + (zSites dh dw).length,
      t.mem ⟨q.lat.name ++ "_c".toList ++ strNat (ops.count .stabilize), k⟩ = m k) =
      if ∀ k < (xSites dh dw).length, m ((zSites dh dw).length + k) = false then (1 / 2) ^ (zSites dh dw).length else 0 := by
  have H := A.own.2.placed.odd
  refine bornProb_of_share hb h0 ?_
  rw [A.all_cons, (A.next .resetX).all_single]
  refine share_after (A.proper _) hb fun t hR ht => ?_
  have P := (run_resetX A hc h0).1 hR
  have e := share_stabilize (sz := sz) (A.next .resetX) ht (P.synZero hs) m
  rw [show (ops ++ [QOp.resetX]).count .stabilize = ops.count .stabilize by rw [List.count_append]; rfl] at e
  unfold roundName at e
  rw [strInt_nat] at e
  rw [e]
  unfold checks
  rw [jointProj_append, Module.End.mul_apply]
  have hx : ∀ B ∈ (xSites dh dw).map (checkOp cls.code q.lat.name dh dw .X), HasValue B false t.psi := by
    intro B hB
    obtain ⟨p, hp, rfl⟩ := List.mem_map.1 hB
    have hp' : SiteOf dh dw .X p := mem_xSites.1 hp
    rw [checkOp_eq H _ _ hp']
    exact P.string around_all
  rw [joint_certain hx, List.length_map, List.length_map]
  split
  · exact coins_of_key (key := .Z) H (zSites_nodup dh dw) (fun p hp => mem_zSites.1 hp) ht (fun S hS => P.string hS) _
  · rw [map_zero, norm2_zero, zero_mul]

theorem ground_bounded : Bounded ground := by
  refine (Set.finite_singleton fun _ => false).subset fun c hc => ?_
  by_contra hn
  refine hc ?_
  unfold ground
  rw [if_neg fun h => hn (funext h)]

/-- On a new XZZX lattice of distance 3, every one of the 16 patterns of the X plaquettes comes with probability 1/16 in the first
round after `reset_z`. -/
example : ∃ q w, AfterAlone .xzzx q 3 3 [] w ∧ ∀ m : Nat → Bool, (∀ k < 4, m k = false) →
    bornProb (fun _ => 0) (addedAll q [.resetZ, .stabilize] w) ⟨ground, fun _ => false⟩ (fun t => ∀ k < 8, t.mem ⟨"a_c0".toList, k⟩ = m k) = 1 / 16 := by
  obtain ⟨q, w, A, hn⟩ := afterAlone_exists (dh := 3) (dw := 3) .xzzx "a".toList (by unfold OddPos; decide) (by simp) []
  refine ⟨q, w, A, fun m hm => ?_⟩
  have := C123_first_z (sz := fun _ => 0) A.after (s := ⟨ground, fun _ => false⟩) ground_bounded ground_ne_zero ground_synZero m
  rw [hn, show (xSites 3 3).length = 4 by decide +kernel, show (zSites 3 3).length = 4 by decide +kernel, if_pos hm] at this
  rw [show (1 / 16 : ℝ) = (1 / 2) ^ 4 by norm_num]
  exact this

/-- `readout_x` after `reset_z` on a lattice of width 3 and height 5 is a fair coin. -/
example : ∃ q w r, AfterAlone .xxzz q 5 3 [] w ∧
    bornProb (fun _ => 0) (addedAll q [.resetZ, .stabilize, .readoutX none] w) ⟨ground, fun _ => false⟩ (fun t => t.mem ⟨r, 0⟩ = true) = 1 / 2 := by
  obtain ⟨q, w, A, hn⟩ := afterAlone_exists (dh := 5) (dw := 3) .xxzz "a".toList (by unfold OddPos; decide) (by simp) []
  obtain ⟨r, -, -, h⟩ := C123_coin_x (sz := fun _ => 0) (l := [.stabilize]) A.after (by intro o ho; rw [List.mem_singleton] at ho; subst ho; exact ⟨trivial, rfl⟩)
    (Or.inl (by decide))
  exact ⟨q, w, r, A, h ⟨ground, fun _ => false⟩ true ground_bounded ground_ne_zero⟩

end Qtc
