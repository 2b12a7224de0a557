import Verif.Proof.LatticeOdds
/-!
Property C136: with which probabilities readouts of all data qubits give their results.
-/
namespace Qtc
open Spec Function

variable {cls : QClass} {q : TQubit} {dh dw : Int} {ops : List QOp} {w : World} {sz : Str → Nat} {s : QState}

theorem share_latticeZ (A : After cls q dh dw ops w) (h : Bounded s.psi) (m : Nat → Bool) :
    share sz (added q .latticeReadoutZ w) s (fun t => ∀ k < (dh * dw).toNat, t.mem ⟨nextLattice q w, k⟩ = m k) =
      norm2 (jointProj (readOps cls.code q.lat.name dh dw .Z) m s.psi) := by
  by_cases h0 : s.psi = 0
  · rw [share_zero h0, h0, map_zero, norm2_zero]
  · exact share_readsAll (A.proper _) (fun s' => run_latticeZ A h0) h m

theorem share_latticeX (A : After cls q dh dw ops w) (hh : cls ≠ .xzzx ∨ 1 < dh * dw) (h : Bounded s.psi) (m : Nat → Bool) :
    share sz (added q .latticeReadoutX w) s (fun t => ∀ k < (dh * dw).toNat, t.mem ⟨nextLattice q w, k⟩ = m k) =
      norm2 (jointProj (readOps cls.code q.lat.name dh dw .X) m s.psi) := by
  by_cases h0 : s.psi = 0
  · rw [share_zero h0, h0, map_zero, norm2_zero]
  · exact share_readsAll (A.proper _) (fun s' => run_latticeX A hh h0) h m

/-- C136: `lattice_readout_z` gives a list of bits with the probability of Born's rule for the observables of the data qubits. -/
theorem C136_born_z (A : After cls q dh dw ops w) :
    ∃ r, r ∉ w.circ.names ∧ (q.op .latticeReadoutZ w).2.circ.cregs = w.circ.cregs ++ [⟨r, (dh * dw).toNat⟩] ∧
      ∀ (s : QState) (m : Nat → Bool), Bounded s.psi → bornProb sz (added q .latticeReadoutZ w) s (fun t => ∀ k < (dh * dw).toNat, t.mem ⟨r, k⟩ = m k) =
        norm2 (jointProj (readOps cls.code q.lat.name dh dw .Z) m s.psi) / norm2 s.psi := by
  obtain ⟨h1, h2⟩ := lattice_new A (Or.inr rfl : (.latticeReadoutZ : QOp) = .latticeReadoutX ∨ _)
  exact ⟨_, h1, h2, fun s m hb => by rw [bornProb_share, share_latticeZ A hb]⟩

/-- C136: in a state with certain values of all plaquettes and of the logical Z, all lists of bits that are consistent with these
values are equally likely and the others do not occur. -/
theorem C136_code_z (A : After cls q dh dw ops w) :
    ∃ r, r ∉ w.circ.names ∧ (q.op .latticeReadoutZ w).2.circ.cregs = w.circ.cregs ++ [⟨r, (dh * dw).toNat⟩] ∧
      ∀ (s : QState) (e : Int × Int → Bool) (v : Bool) (f : Int → Bool), Bounded s.psi → s.psi ≠ 0 →
        (∀ p ∈ xSites dh dw, ∃ u, HasValue (checkOp cls.code q.lat.name dh dw .X p) u s.psi) →
        (∀ p ∈ zSites dh dw, HasValue (checkOp cls.code q.lat.name dh dw .Z p) (e p) s.psi) →
        HasValue (logZ cls.code q.lat.name dw) v s.psi →
        bornProb sz (added q .latticeReadoutZ w) s (fun t => ∀ k < (dh * dw).toNat, t.mem ⟨r, k⟩ = f k) =
          if (∀ p ∈ zSites dh dw, parityOn f (cornersOf dh dw p.1 p.2) = e p) ∧ xorAll ((rowQubits dw 0).map f) = v
          then (1 / 2) ^ (xSites dh dw).length else 0 := by
  obtain ⟨h1, h2⟩ := lattice_new A (Or.inr rfl : (.latticeReadoutZ : QOp) = .latticeReadoutX ∨ _)
  refine ⟨_, h1, h2, fun s e v f hb h0 hX hZ hL => bornProb_of_share hb h0 ?_⟩
  rw [logZ_eq] at hL
  rw [share_latticeZ A hb fun k => f k, odds_code (key := .Z) A.own.2.placed.odd hb hX hZ hL f]
  show (if (∀ p ∈ zSites dh dw, parityOn f (cornersOf dh dw p.1 p.2) = e p) ∧ xorAll ((rowQubits dw 0).map f) = v
    then (1 / 2) ^ (xSites dh dw).length * norm2 s.psi else 0) = _
  split <;> simp

/-- C136: `lattice_readout_z` after `reset_z` and a stabilization: all lists of bits with even Z plaquettes and an even
top row are equally likely, the others do not occur. -/
theorem C136_prepared_z (A : After cls q dh dw ops w) :
    ∃ r, r ∉ (q.ops [.resetZ, .stabilize] w).circ.names ∧
      (q.ops [.resetZ, .stabilize, .latticeReadoutZ] w).circ.cregs = (q.ops [.resetZ, .stabilize] w).circ.cregs ++ [⟨r, (dh * dw).toNat⟩] ∧
      ∀ (s : QState) (f : Int → Bool), Bounded s.psi → s.psi ≠ 0 → SynZero q.lat.name dh dw s.psi →
        bornProb sz (addedAll q [.resetZ, .stabilize, .latticeReadoutZ] w) s (fun t => ∀ k < (dh * dw).toNat, t.mem ⟨r, k⟩ = f k) =
          if (∀ p ∈ zSites dh dw, parityOn f (cornersOf dh dw p.1 p.2) = false) ∧ xorAll ((rowQubits dw 0).map f) = false
          then (1 / 2) ^ (xSites dh dw).length else 0 := by
  have H := A.own.2.placed.odd
  have A' := A.all_next [.resetZ, .stabilize]
  obtain ⟨h1, h2⟩ := lattice_new A' (Or.inr rfl : (.latticeReadoutZ : QOp) = .latticeReadoutX ∨ _)
  refine ⟨_, h1, by rw [show [QOp.resetZ, .stabilize, .latticeReadoutZ] = [.resetZ, .stabilize] ++ [.latticeReadoutZ] from rfl, ops_snoc]; exact h2, ?_⟩
  intro s f hb h0 hs
  refine bornProb_of_share hb h0 ?_
  rw [show [QOp.resetZ, .stabilize, .latticeReadoutZ] = [.resetZ, .stabilize] ++ [.latticeReadoutZ] from rfl, A.all_append, A'.all_single]
  refine share_after (proper_all A _) hb fun t hR ht => ?_
  obtain ⟨u, ha, hd⟩ := A.run_cons.1 hR
  have P := (run_resetZ A h0).1 ha
  have hu := A.ne_zero h0 ha
  rw [(A.next .resetZ).all_single] at hd
  obtain ⟨m, e, hne, -⟩ := (run_stabilize (A.next .resetZ) hu (P.synZero hs)).1 hd
  have S := syndrome_joint (code := cls.code) (name := q.lat.name) H m u.psi
  rw [← e] at S
  have hZ : ∀ p ∈ zSites dh dw, HasValue (checkOp cls.code q.lat.name dh dw .Z p) false t.psi := by
    intro p hp
    have hp' : SiteOf dh dw .Z p := mem_zSites.1 hp
    rw [e]
    refine HasValue.of_comm ?_ (jointProj_comm (fun C hC => ?_) _)
    · rw [checkOp_eq H _ _ hp']
      exact P.string around_all
    · exact checks_comm H (by unfold checks; simp only [List.mem_append, List.mem_map]; exact Or.inl ⟨p, hp, rfl⟩) hC
  have hL : HasValue (fstr cls.code .Z q.lat.name (rowQubits dw 0)) false t.psi := by
    rw [e]
    refine HasValue.of_comm (P.string (row_all H)) (jointProj_comm (fun C hC => ?_) _)
    rw [← logZ_eq]
    obtain ⟨key, p, hp, rfl⟩ := mem_checks hC
    exact logZ_check H hp
  have hX : ∀ p ∈ xSites dh dw, ∃ u, HasValue (checkOp cls.code q.lat.name dh dw .X p) u t.psi := by
    intro p hp
    have hm : checkOp cls.code q.lat.name dh dw .X p ∈ checks cls.code q.lat.name dh dw := by
      unfold checks; simp only [List.mem_append, List.mem_map]; exact Or.inr ⟨p, hp, rfl⟩
    obtain ⟨k, hk⟩ := List.getElem?_of_mem hm
    exact ⟨_, S k _ hk⟩
  rw [share_latticeZ A' ht fun k => f k, odds_code (key := .Z) H ht hX hZ hL f]
  show (if (∀ p ∈ zSites dh dw, parityOn f (cornersOf dh dw p.1 p.2) = false) ∧ xorAll ((rowQubits dw 0).map f) = false
    then (1 / 2) ^ (xSites dh dw).length * norm2 t.psi else 0) = _
  split <;> simp

/-- C136: `lattice_readout_z` after `reset_x`: all lists of bits are equally likely. -/
theorem C136_flat_z (A : After cls q dh dw ops w) (hh : cls ≠ .xzzx ∨ 1 < dh * dw) :
    ∃ r, r ∉ (q.op .resetX w).2.circ.names ∧
      (q.ops [.resetX, .latticeReadoutZ] w).circ.cregs = (q.op .resetX w).2.circ.cregs ++ [⟨r, (dh * dw).toNat⟩] ∧
      ∀ (s : QState) (m : Nat → Bool), Bounded s.psi → s.psi ≠ 0 →
        bornProb sz (addedAll q [.resetX, .latticeReadoutZ] w) s (fun t => ∀ k < (dh * dw).toNat, t.mem ⟨r, k⟩ = m k) = (1 / 2) ^ (dh * dw).toNat := by
  have A' := A.next .resetX
  obtain ⟨h1, h2⟩ := lattice_new A' (Or.inr rfl : (.latticeReadoutZ : QOp) = .latticeReadoutX ∨ _)
  refine ⟨_, h1, h2, ?_⟩
  intro s m hb h0
  refine bornProb_of_share hb h0 ?_
  rw [A.all_cons, A'.all_single]
  refine share_after (A.proper _) hb fun t hR ht => ?_
  have P := (run_resetX A hh h0).1 hR
  rw [share_latticeZ A' ht m]
  have h := norm2_coins (l := readOps cls.code q.lat.name dh dw .Z) keeping_readOps ht (fun k hk => ?_) m
  · rwa [readOps_length] at h
  · rw [readOps_length] at hk
    refine ⟨fstr cls.code .X q.lat.name [(k : Int)], false, keeping_fstr _ _, P.string ?_, fun j hj => ?_⟩
    · intro i hi
      rw [List.mem_singleton] at hi
      subst hi
      exact mem_allQubits.2 ⟨by omega, by omega⟩
    · rw [readOps_length] at hj
      have := fstr_at (code := cls.code) (name := q.lat.name) (key := .Z) (L := [(k : Int)]) (by simp) (List.nodup_singleton _) (j := j) (by omega)
      simp only [readOps_eq, List.getElem_map, List.getElem_range]
      simpa [Key.partner] using this

/-- C136: `lattice_readout_x` gives a list of bits with the probability of Born's rule for the observables of the data qubits. -/
theorem C136_born_x (A : After cls q dh dw ops w) (hh : cls ≠ .xzzx ∨ 1 < dh * dw) :
    ∃ r, r ∉ w.circ.names ∧ (q.op .latticeReadoutX w).2.circ.cregs = w.circ.cregs ++ [⟨r, (dh * dw).toNat⟩] ∧
      ∀ (s : QState) (m : Nat → Bool), Bounded s.psi → bornProb sz (added q .latticeReadoutX w) s (fun t => ∀ k < (dh * dw).toNat, t.mem ⟨r, k⟩ = m k) =
        norm2 (jointProj (readOps cls.code q.lat.name dh dw .X) m s.psi) / norm2 s.psi := by
  obtain ⟨h1, h2⟩ := lattice_new A (Or.inl rfl : (.latticeReadoutX : QOp) = .latticeReadoutX ∨ _)
  exact ⟨_, h1, h2, fun s m hb => by rw [bornProb_share, share_latticeX A hh hb]⟩

/-- C136: in a state with certain values of all plaquettes and of the logical X, all lists of bits that are consistent with these
values are equally likely and the others do not occur. -/
theorem C136_code_x (A : After cls q dh dw ops w) (hh : cls ≠ .xzzx ∨ 1 < dh * dw) :
    ∃ r, r ∉ w.circ.names ∧ (q.op .latticeReadoutX w).2.circ.cregs = w.circ.cregs ++ [⟨r, (dh * dw).toNat⟩] ∧
      ∀ (s : QState) (e : Int × Int → Bool) (v : Bool) (f : Int → Bool), Bounded s.psi → s.psi ≠ 0 →
        (∀ p ∈ zSites dh dw, ∃ u, HasValue (checkOp cls.code q.lat.name dh dw .Z p) u s.psi) →
        (∀ p ∈ xSites dh dw, HasValue (checkOp cls.code q.lat.name dh dw .X p) (e p) s.psi) →
        HasValue (logX cls.code q.lat.name dh dw) v s.psi →
        bornProb sz (added q .latticeReadoutX w) s (fun t => ∀ k < (dh * dw).toNat, t.mem ⟨r, k⟩ = f k) =
          if (∀ p ∈ xSites dh dw, parityOn f (cornersOf dh dw p.1 p.2) = e p) ∧ xorAll ((colQubits dh dw 0).map f) = v
          then (1 / 2) ^ (zSites dh dw).length else 0 := by
  obtain ⟨h1, h2⟩ := lattice_new A (Or.inl rfl : (.latticeReadoutX : QOp) = .latticeReadoutX ∨ _)
  refine ⟨_, h1, h2, fun s e v f hb h0 hX hZ hL => bornProb_of_share hb h0 ?_⟩
  rw [logX_eq] at hL
  rw [share_latticeX A hh hb fun k => f k, odds_code (key := .X) A.own.2.placed.odd hb hX hZ hL f]
  show (if (∀ p ∈ xSites dh dw, parityOn f (cornersOf dh dw p.1 p.2) = e p) ∧ xorAll ((colQubits dh dw 0).map f) = v
    then (1 / 2) ^ (zSites dh dw).length * norm2 s.psi else 0) = _
  split <;> simp

/-- C136: `lattice_readout_x` after `reset_x` and a stabilization: all lists of bits with even X plaquettes and an even
left column are equally likely, the others do not occur. -/
theorem C136_prepared_x (A : After cls q dh dw ops w) (hh : cls ≠ .xzzx ∨ 1 < dh * dw) :
    ∃ r, r ∉ (q.ops [.resetX, .stabilize] w).circ.names ∧
      (q.ops [.resetX, .stabilize, .latticeReadoutX] w).circ.cregs = (q.ops [.resetX, .stabilize] w).circ.cregs ++ [⟨r, (dh * dw).toNat⟩] ∧
      ∀ (s : QState) (f : Int → Bool), Bounded s.psi → s.psi ≠ 0 → SynZero q.lat.name dh dw s.psi →
        bornProb sz (addedAll q [.resetX, .stabilize, .latticeReadoutX] w) s (fun t => ∀ k < (dh * dw).toNat, t.mem ⟨r, k⟩ = f k) =
          if (∀ p ∈ xSites dh dw, parityOn f (cornersOf dh dw p.1 p.2) = false) ∧ xorAll ((colQubits dh dw 0).map f) = false
          then (1 / 2) ^ (zSites dh dw).length else 0 := by
  have H := A.own.2.placed.odd
  have A' := A.all_next [.resetX, .stabilize]
  obtain ⟨h1, h2⟩ := lattice_new A' (Or.inl rfl : (.latticeReadoutX : QOp) = .latticeReadoutX ∨ _)
  refine ⟨_, h1, by rw [show [QOp.resetX, .stabilize, .latticeReadoutX] = [.resetX, .stabilize] ++ [.latticeReadoutX] from rfl, ops_snoc]; exact h2, ?_⟩
  intro s f hb h0 hs
  refine bornProb_of_share hb h0 ?_
  rw [show [QOp.resetX, .stabilize, .latticeReadoutX] = [.resetX, .stabilize] ++ [.latticeReadoutX] from rfl, A.all_append, A'.all_single]
  refine share_after (proper_all A _) hb fun t hR ht => ?_
  obtain ⟨u, ha, hd⟩ := A.run_cons.1 hR
  have P := (run_resetX A hh h0).1 ha
  have hu := A.ne_zero h0 ha
  rw [(A.next .resetX).all_single] at hd
  obtain ⟨m, e, hne, -⟩ := (run_stabilize (A.next .resetX) hu (P.synZero hs)).1 hd
  have S := syndrome_joint (code := cls.code) (name := q.lat.name) H m u.psi
  rw [← e] at S
  have hZ : ∀ p ∈ xSites dh dw, HasValue (checkOp cls.code q.lat.name dh dw .X p) false t.psi := by
    intro p hp
    have hp' : SiteOf dh dw .X p := mem_xSites.1 hp
    rw [e]
    refine HasValue.of_comm ?_ (jointProj_comm (fun C hC => ?_) _)
    · rw [checkOp_eq H _ _ hp']
      exact P.string around_all
    · exact checks_comm H (by unfold checks; simp only [List.mem_append, List.mem_map]; exact Or.inr ⟨p, hp, rfl⟩) hC
  have hL : HasValue (fstr cls.code .X q.lat.name (colQubits dh dw 0)) false t.psi := by
    rw [e]
    refine HasValue.of_comm (P.string (col_all H)) (jointProj_comm (fun C hC => ?_) _)
    rw [← logX_eq]
    obtain ⟨key, p, hp, rfl⟩ := mem_checks hC
    exact logX_check H hp
  have hX : ∀ p ∈ zSites dh dw, ∃ u, HasValue (checkOp cls.code q.lat.name dh dw .Z p) u t.psi := by
    intro p hp
    have hm : checkOp cls.code q.lat.name dh dw .Z p ∈ checks cls.code q.lat.name dh dw := by
      unfold checks; simp only [List.mem_append, List.mem_map]; exact Or.inl ⟨p, hp, rfl⟩
    obtain ⟨k, hk⟩ := List.getElem?_of_mem hm
    exact ⟨_, S k _ hk⟩
  rw [share_latticeX A' hh ht fun k => f k, odds_code (key := .X) H ht hX hZ hL f]
  show (if (∀ p ∈ xSites dh dw, parityOn f (cornersOf dh dw p.1 p.2) = false) ∧ xorAll ((colQubits dh dw 0).map f) = false
    then (1 / 2) ^ (zSites dh dw).length * norm2 t.psi else 0) = _
  split <;> simp

/-- C136: `lattice_readout_x` after `reset_z`: all lists of bits are equally likely. -/
theorem C136_flat_x (A : After cls q dh dw ops w) (hh : cls ≠ .xzzx ∨ 1 < dh * dw) :
    ∃ r, r ∉ (q.op .resetZ w).2.circ.names ∧
      (q.ops [.resetZ, .latticeReadoutX] w).circ.cregs = (q.op .resetZ w).2.circ.cregs ++ [⟨r, (dh * dw).toNat⟩] ∧
      ∀ (s : QState) (m : Nat → Bool), Bounded s.psi → s.psi ≠ 0 →
        bornProb sz (addedAll q [.resetZ, .latticeReadoutX] w) s (fun t => ∀ k < (dh * dw).toNat, t.mem ⟨r, k⟩ = m k) = (1 / 2) ^ (dh * dw).toNat := by
  have A' := A.next .resetZ
  obtain ⟨h1, h2⟩ := lattice_new A' (Or.inl rfl : (.latticeReadoutX : QOp) = .latticeReadoutX ∨ _)
  refine ⟨_, h1, h2, ?_⟩
  intro s m hb h0
  refine bornProb_of_share hb h0 ?_
  rw [A.all_cons, A'.all_single]
  refine share_after (A.proper _) hb fun t hR ht => ?_
  have P := (run_resetZ A h0).1 hR
  rw [share_latticeX A' hh ht m]
  have h := norm2_coins (l := readOps cls.code q.lat.name dh dw .X) keeping_readOps ht (fun k hk => ?_) m
  · rwa [readOps_length] at h
  · rw [readOps_length] at hk
    refine ⟨fstr cls.code .Z q.lat.name [(k : Int)], false, keeping_fstr _ _, P.string ?_, fun j hj => ?_⟩
    · intro i hi
      rw [List.mem_singleton] at hi
      subst hi
      exact mem_allQubits.2 ⟨by omega, by omega⟩
    · rw [readOps_length] at hj
      have := fstr_at (code := cls.code) (name := q.lat.name) (key := .X) (L := [(k : Int)]) (by simp) (List.nodup_singleton _) (j := j) (by omega)
      simp only [readOps_eq, List.getElem_map, List.getElem_range]
      simpa [Key.partner] using this

/-- On a new XXZZ lattice of distance 3 prepared in |0>_L, all bits 0 come with probability 1/16, a single bit 1 never comes. -/
example : ∃ q w r, AfterAlone .xxzz q 3 3 [] w ∧
    bornProb (fun _ => 0) (addedAll q [.resetZ, .stabilize, .latticeReadoutZ] w) ⟨ground, fun _ => false⟩ (fun t => ∀ k < 9, t.mem ⟨r, k⟩ = false) = 1 / 16 ∧
    bornProb (fun _ => 0) (addedAll q [.resetZ, .stabilize, .latticeReadoutZ] w) ⟨ground, fun _ => false⟩ (fun t => ∀ k < 9, t.mem ⟨r, k⟩ = decide ((k : Int) = 4)) = 0 := by
  obtain ⟨q, w, A, hn⟩ := afterAlone_exists (dh := 3) (dw := 3) .xxzz "a".toList (by unfold OddPos; decide) (by simp) []
  obtain ⟨r, -, -, h⟩ := C136_prepared_z (sz := fun _ => 0) A.after
  refine ⟨q, w, r, A, ?_, ?_⟩
  · have h1 := h ⟨ground, fun _ => false⟩ (fun _ => false) ground_bounded ground_ne_zero ground_synZero
    rw [if_pos (by decide +kernel), show (xSites 3 3).length = 4 by decide +kernel] at h1
    rw [show (1 / 16 : ℝ) = (1 / 2) ^ 4 by norm_num]
    exact h1
  · have h1 := h ⟨ground, fun _ => false⟩ (fun q => decide (q = 4)) ground_bounded ground_ne_zero ground_synZero
    rw [if_neg (by decide +kernel)] at h1
    exact h1

/-- After `reset_x` on an XZZX lattice of height 3 and width 5 every list of bits has probability 1/32768. -/
example : ∃ q w r, AfterAlone .xzzx q 3 5 [] w ∧ ∀ m : Nat → Bool,
    bornProb (fun _ => 0) (addedAll q [.resetX, .latticeReadoutZ] w) ⟨ground, fun _ => false⟩ (fun t => ∀ k < 15, t.mem ⟨r, k⟩ = m k) = 1 / 32768 := by
  obtain ⟨q, w, A, hn⟩ := afterAlone_exists (dh := 3) (dw := 5) .xzzx "a".toList (by unfold OddPos; decide) (by simp) []
  obtain ⟨r, -, -, h⟩ := C136_flat_z (sz := fun _ => 0) A.after (Or.inr (by decide))
  refine ⟨q, w, r, A, fun m => ?_⟩
  rw [show (1 / 32768 : ℝ) = (1 / 2) ^ 15 by norm_num]
  exact h ⟨ground, fun _ => false⟩ m ground_bounded ground_ne_zero

end Qtc
