import Verif.Props.Biased
import Verif.Props.FirstRound
import Verif.Proof.QSlips
/-!
C118: matching makes no use of the strength of the XZZX code against errors of one kind.
-/
namespace Qtc
open Spec Function

variable {q : TQubit} {d : Int} {ops : List QOp} {w : World} {sz : Str → Nat} {name : Str} {E E' : Int → Int → Bool}

theorem zErrors_at (hd : 0 < d) {r c : Int} (h : InLat d d r c) : zErrors name d d E (dataQ name (r * d + c)) = (false, E r c) := by
  unfold zErrors
  congr 1
  have hm := site_mem (dh := d) h
  have e1 : (r * d + c) / d = r := by
    rw [Int.add_comm, Int.add_mul_ediv_right _ _ (by omega), Int.ediv_eq_zero_of_lt h.2.2.1 h.2.2.2]; omega
  have e2 : (r * d + c) % d = c := by
    rw [Int.add_comm, Int.add_mul_emod_self_right, Int.emod_eq_of_lt h.2.2.1 h.2.2.2]
  rw [Bool.eq_iff_iff, decide_eq_true_eq]
  constructor
  · intro h'
    obtain ⟨i, hi, e⟩ := List.mem_map.1 h'
    rw [List.mem_filter] at hi
    have := dataQ_inj (all_nonneg i hi.1) (all_nonneg _ hm) e
    subst this
    rw [e1, e2] at hi
    exact hi.2
  · intro he
    exact List.mem_map.2 ⟨_, List.mem_filter.2 ⟨hm, by rw [e1, e2]; exact he⟩, rfl⟩

/-- The flips of the short diagonal that begins at column `s` of the top row. -/
def shortDiag (d s : Nat) (t : Int) : List Fault := (List.range (d - s)).map fun (r : Nat) => .data t r (r + s)

/-- The flips of the lowest `s` qubits of the right column. -/
def lowRight (d s : Nat) (t : Int) : List Fault := (List.range s).map fun (r : Nat) => .data t (d - s + r) (d - 1)

theorem diag_faults {d s : Nat} (hs : s % 2 = 0) (hd : d % 2 = 1) (hE : ∀ r c, InLat d d r c → E r c = decide (c = r + s)) (t : Int) :
    (faultsIn .xzzx .Z name d d t .idData (zErrors name d d E)).Perm (shortDiag d s t) := by
  have hd0 : (0 : Int) < d := by omega
  refine (List.perm_ext_iff_of_nodup (faultsIn_nodup hd0) ?_).2 fun f => ?_
  · refine List.nodup_range.map fun a b h => ?_
    simp only [Fault.data.injEq, true_and] at h
    omega
  · show f ∈ faultsIn.dataFaults .xzzx .Z name d d t _ ↔ _
    rw [mem_dataFaults hd0]
    unfold shortDiag
    rw [List.mem_map]
    have par : ∀ r c : Int, (r * d + c) % 2 = (r + c) % 2 := by
      intro r c
      obtain ⟨k, hk⟩ : ∃ k : Int, (d : Int) = 2 * k + 1 := ⟨(d : Int) / 2, by omega⟩
      rw [hk, show r * (2 * k + 1) + c = 2 * (r * k) + (r + c) by ring]
      omega
    constructor
    · rintro ⟨r, c, rfl, h1, h2, h3, h4, h5⟩
      rw [zErrors_at hd0 ⟨h1, h2, h3, h4⟩, hE r c ⟨h1, h2, h3, h4⟩] at h5
      have hc : c = r + s := by
        unfold turnedBy at h5
        split at h5
        · simpa using h5
        · cases h5
      refine ⟨r.toNat, List.mem_range.2 (by omega), ?_⟩
      rw [hc, Int.toNat_of_nonneg h1]
    · rintro ⟨r, hr, rfl⟩
      rw [List.mem_range] at hr
      refine ⟨r, r + s, rfl, by omega, by omega, by omega, by omega, ?_⟩
      rw [zErrors_at hd0 (by unfold InLat; omega), hE _ _ (by unfold InLat; omega)]
      unfold turnedBy
      rw [if_pos ⟨rfl, by rw [par]; omega⟩]
      simp

theorem xorAll_ends (n : Nat) (f : Nat → Bool) (g : Nat → Bool) (h : ∀ i < n, f i = (g i ^^ g (i + 1))) :
    xorAll ((List.range n).map f) = (g 0 ^^ g n) := by
  induction n with
  | zero => simp
  | succ n ih =>
    rw [List.range_succ, List.map_append, xorAll_append, ih fun i hi => h i (by omega)]
    simp only [List.map_cons, List.map_nil, xorAll_cons, xorAll_nil, Bool.xor_false]
    rw [h n (by omega)]
    cases g 0 <;> cases g n <;> cases g (n + 1) <;> rfl

theorem diag_same {d s : Nat} (hs : s % 2 = 0) (hd : d % 2 = 1) (hsd : s < d) {t n r2 c2 : Int} (hz : ZSite d d r2 c2) :
    xorAll ((shortDiag d s n).map (Fault.affects t r2 c2)) = xorAll ((lowRight d s n).map (Fault.affects t r2 c2)) := by
  unfold ZSite at hz
  have h1 : xorAll ((shortDiag d s n).map (Fault.affects t r2 c2)) =
      decide (n < t ∧ r2 = 2 * ((d : Int) - s) - 1 ∧ c2 = 2 * (d : Int) - 1) := by
    unfold shortDiag
    rw [List.map_map, xorAll_ends (d - s) _ (fun i => decide (n < t ∧ r2 = 2 * (i : Int) - 1 ∧ c2 = 2 * ((i : Int) + s) - 1))]
    · rw [decide_eq_false (p := n < t ∧ r2 = 2 * ((0 : Nat) : Int) - 1 ∧ _) (by omega), Bool.false_xor, decide_eq_decide]
      omega
    · intro i hi
      simp only [comp, Fault.affects]
      rw [Bool.eq_iff_iff]
      by_cases ht : n < t
      · by_cases ha : r2 = 2 * (i : Int) - 1 ∧ c2 = 2 * ((i : Int) + s) - 1
        · have hb : ¬ (r2 = 2 * ((i + 1 : Nat) : Int) - 1 ∧ c2 = 2 * (((i + 1 : Nat) : Int) + s) - 1) := by omega
          simp [ht, ha]
        · by_cases hb : r2 = 2 * ((i + 1 : Nat) : Int) - 1 ∧ c2 = 2 * (((i + 1 : Nat) : Int) + s) - 1
          · rw [decide_eq_false (p := n < t ∧ r2 = 2 * (i : Int) - 1 ∧ _) (by omega), decide_eq_true (p := n < t ∧ _ ∧ _) ⟨ht, hb⟩]
            simp [ht]
            omega
          · rw [decide_eq_false (p := n < t ∧ r2 = 2 * (i : Int) - 1 ∧ _) (by omega),
              decide_eq_false (p := n < t ∧ r2 = 2 * ((i + 1 : Nat) : Int) - 1 ∧ _) (by omega)]
            simp [ht]
            omega
      · simp [ht]
  have h2 : xorAll ((lowRight d s n).map (Fault.affects t r2 c2)) =
      decide (n < t ∧ r2 = 2 * ((d : Int) - s) - 1 ∧ c2 = 2 * (d : Int) - 1) := by
    unfold lowRight
    rw [List.map_map, xorAll_ends s _ (fun i => decide (n < t ∧ r2 = 2 * ((d : Int) - s + i) - 1 ∧ (c2 = 2 * (d : Int) - 1 ∨ c2 = 2 * (d : Int) - 3)))]
    · rw [decide_eq_false (p := n < t ∧ r2 = 2 * ((d : Int) - s + s) - 1 ∧ _) (by omega), Bool.xor_false, decide_eq_decide]
      omega
    · intro i hi
      simp only [comp, Fault.affects]
      rw [Bool.eq_iff_iff]
      by_cases ht : n < t
      · by_cases hc : c2 = 2 * (d : Int) - 1 ∨ c2 = 2 * (d : Int) - 3
        · have hc' : (c2 == 2 * ((d : Int) - 1) - 1 || c2 == 2 * ((d : Int) - 1) + 1) = true := by
            simp only [Bool.or_eq_true, beq_iff_eq]; omega
          by_cases ha : r2 = 2 * ((d : Int) - s + i) - 1
          · have hb : ¬ r2 = 2 * ((d : Int) - s + ((i + 1 : Nat) : Int)) - 1 := by omega
            rw [decide_eq_true (p := n < t ∧ r2 = 2 * ((d : Int) - s + i) - 1 ∧ _) ⟨ht, ha, hc⟩,
              decide_eq_false (p := n < t ∧ r2 = 2 * ((d : Int) - s + ((i + 1 : Nat) : Int)) - 1 ∧ _) (by omega), hc', decide_eq_true ht]
            simp only [Bool.and_eq_true, Bool.or_eq_true, beq_iff_eq, Bool.xor_false, and_true, true_and, iff_true]
            omega
          · rw [decide_eq_false (p := n < t ∧ r2 = 2 * ((d : Int) - s + i) - 1 ∧ _) (by omega), hc', decide_eq_true ht]
            simp only [Bool.and_eq_true, Bool.or_eq_true, beq_iff_eq, Bool.false_xor, decide_eq_true_eq, and_true, true_and]
            omega
        · have hc' : (c2 == 2 * ((d : Int) - 1) - 1 || c2 == 2 * ((d : Int) - 1) + 1) = false := by
            simp only [Bool.or_eq_false_iff, beq_eq_false_iff_ne, ne_eq]; omega
          simp [hc', hc]
      · simp [ht]
  rw [h1, h2]

/-- C118: a square XZZX lattice of distance 5 or more prepared in logical 0 and kept for any number of rounds; the only errors are Z
errors, once between two rounds, on the diagonal that begins in the top row at an even column `s`, `2 ≤ s < d / 2` (so none is on the
main diagonal). The decoded value is wrong, whatever is measured and whatever optimal matching is picked. -/
theorem C118_wrong {d s n k : Nat} (hs : s % 2 = 0) (hs2 : 2 ≤ s) (hsd : 2 * s < d) (A : AfterAlone .xzzx q d d ops w)
    (hq : ∀ o ∈ ops, o.quiet = true) (hn : ops.count .stabilize = 0) (hE : ∀ r c, InLat d d r c → E r c = decide (c = r + s))
    {D : Decoder} (hD : Made D) (hdh : D.dh = d) (hdw : D.dw = d) {g : SGraph} (hg : D.S .Z = some g) (hDT : (n : Int) + k + 1 ≤ D.T)
    {m : Matcher} (hm : Contract m) {e0 e1 : Errs} {ψ s' : QState} (h0 : ψ.psi ≠ 0) (hz : SynZero q.lat.name d d ψ.psi)
    (hR : Run sz (noisyAll q ((.resetZ, e0) :: (List.replicate (n + 1) (.stabilize, noErrs) ++ (.idData, zErrors q.lat.name d d E) ::
      List.replicate (k + 1) (.stabilize, noErrs)) ++ [(.readoutZ none, e1)]) w) ψ s') :
    correctString D m (joinSp (groups s'.mem (q.ops (.resetZ :: (List.replicate (n + 1) QOp.stabilize ++ QOp.idData ::
      List.replicate (k + 1) QOp.stabilize) ++ [.readoutZ none]) w).circ.cregs)) .Z none = .ok (some 1) := by
  have H := A.after.own.2.placed.odd
  have H' := H
  unfold OddPos at H'
  have hl1 : ∀ j, ∀ a ∈ List.replicate j ((QOp.stabilize, noErrs) : QOp × Errs), MemoryOp a.1 := by
    intro j a ha
    rw [(List.mem_replicate.1 ha).2]
    trivial
  have hmap : (List.replicate (n + 1) ((QOp.stabilize, noErrs) : QOp × Errs) ++ (QOp.idData, zErrors q.lat.name d d E) ::
      List.replicate (k + 1) (QOp.stabilize, noErrs)).map Prod.fst = List.replicate (n + 1) QOp.stabilize ++ QOp.idData :: List.replicate (k + 1) QOp.stabilize := by
    simp
  have hcount : (List.replicate (n + 1) QOp.stabilize ++ QOp.idData :: List.replicate (k + 1) QOp.stabilize).count .stabilize = n + k + 1 + 1 := by
    rw [List.count_append, List.count_cons, List.count_replicate_self, List.count_replicate_self]
    simp
    omega
  have hbig : (1 : Int) < (d : Int) * d := by nlinarith
  obtain ⟨rounds, hlen, hrr, hgr⟩ := endToEnd_strings (key := .Z) (T := n + k + 1) A hq hn hbig (Or.inr (by omega))
    (l := List.replicate (n + 1) (.stabilize, noErrs) ++ (.idData, zErrors q.lat.name d d E) :: List.replicate (k + 1) (.stabilize, noErrs)) (by
      intro a ha
      rcases List.mem_append.1 ha with h | h
      · exact hl1 _ a h
      · rcases List.mem_cons.1 h with rfl | h
        · trivial
        · exact hl1 _ a h) (by rw [hmap, hcount]) h0 hz hR
  rw [hmap] at hgr
  -- the faults
  have quiet : ∀ i j, faultsOf .xzzx .Z q.lat.name d d i (List.replicate j ((QOp.stabilize, noErrs) : QOp × Errs)) = [] := by
    intro i j
    induction j generalizing i with
    | zero => rfl
    | succ j ih =>
      show faultsIn .xzzx .Z q.lat.name d d _ .stabilize noErrs ++ faultsOf .xzzx .Z q.lat.name d d _ (List.replicate j (.stabilize, noErrs)) = []
      rw [faultsIn_noErrs, ih]
      rfl
  have hfs : faultsOf QClass.xzzx.code .Z q.lat.name d d 0 (List.replicate (n + 1) (.stabilize, noErrs) ++ (.idData, zErrors q.lat.name d d E) ::
      List.replicate (k + 1) (.stabilize, noErrs)) = faultsIn .xzzx .Z q.lat.name d d n .idData (zErrors q.lat.name d d E) := by
    show faultsOf .xzzx .Z q.lat.name d d 0 _ = _
    rw [faultsOf_append, quiet, List.nil_append]
    show faultsIn .xzzx .Z q.lat.name d d _ .idData _ ++ faultsOf .xzzx .Z q.lat.name d d _ (List.replicate (k + 1) (.stabilize, noErrs)) = _
    rw [quiet, List.append_nil]
    congr 1
    simp
  have hperm := diag_faults (name := q.lat.name) (E := E) hs (by omega) hE n
  have htake : takePlace ((n + k + 1 : Nat) : Int) (faultsIn .xzzx .Z q.lat.name d d n .idData (zErrors q.lat.name d d E)) =
      faultsIn .xzzx .Z q.lat.name d d n .idData (zErrors q.lat.name d d E) := by
    unfold takePlace
    refine List.filter_eq_self.2 fun f hf => ?_
    obtain ⟨r, -, rfl⟩ := List.mem_map.1 (hperm.mem_iff.1 hf)
    rfl
  rw [hfs, htake] at hrr hgr
  have hrr' : RoundsRead .Z D.dh D.dw (fun _ _ => false) (lowRight d s n) rounds := by
    rw [hdh, hdw]
    refine ⟨hrr.1, fun t j x p hx hp => ?_⟩
    rw [hrr.2 t j x p hx hp]
    unfold readBit
    rw [xorAll_perm (hperm.map _), diag_same hs (by omega) (by omega) (mem_zSites.1 (List.mem_of_getElem? hp))]
  have := C32_strings_single D hD .Z g hg (by rw [hdh, hdw]; exact H) (by rw [hdh, hdw]; exact hbig) m hm ((n + k + 1 : Nat) : Int) (by omega) (lowRight d s n) (by
    refine ⟨?_, ?_⟩
    · intro f hf
      obtain ⟨r, hr, rfl⟩ := List.mem_map.1 hf
      rw [List.mem_range] at hr
      show _ ∧ _ ∧ _ ∧ _ ∧ _ ∧ _
      omega
    · show ((lowRight d s n).length : Int) ≤ (D.dh - 1) / 2
      unfold lowRight
      rw [List.length_map, List.length_range]
      omega) _ _ hlen hrr' true
  have e1 : readoutFlipped .Z (lowRight d s n) = false := by
    unfold readoutFlipped lowRight
    refine xorAll_eq_false fun b hb => ?_
    rw [List.map_map] at hb
    obtain ⟨r, hr, rfl⟩ := List.mem_map.1 hb
    show ((d : Int) - s + r == 0) = false
    rw [beq_eq_false_iff_ne]
    omega
  have e2 : readoutFlipped .Z (faultsIn .xzzx .Z q.lat.name d d n .idData (zErrors q.lat.name d d E)) = true := by
    unfold readoutFlipped
    rw [xorAll_perm (hperm.map _)]
    unfold shortDiag
    rw [List.map_map, xorAll_single List.nodup_range (a := 0) (List.mem_range.2 (by omega))]
    · rfl
    · intro b _ hb
      show ((b : Int) == 0) = false
      rw [beq_eq_false_iff_ne]
      omega
  have e3 : decide ((List.replicate (n + 1) QOp.stabilize ++ QOp.idData :: List.replicate (k + 1) QOp.stabilize).count (flipGate .Z) % 2 = 1) = false := by
    rw [decide_eq_false]
    have : (List.replicate (n + 1) QOp.stabilize ++ QOp.idData :: List.replicate (k + 1) QOp.stabilize).count (flipGate .Z) = 0 := by
      rw [List.count_eq_zero]
      intro h
      rcases List.mem_append.1 h with h | h
      · cases (List.mem_replicate.1 h).2
      · rcases List.mem_cons.1 h with h | h
        · cases h
        · cases (List.mem_replicate.1 h).2
    omega
  rw [e1] at this
  rw [e2, e3] at hgr
  show correctString D m (joinSp (groups s'.mem (q.ops (prepOp .Z :: (List.replicate (n + 1) QOp.stabilize ++ QOp.idData ::
      List.replicate (k + 1) QOp.stabilize) ++ [readOp .Z]) w).circ.cregs)) .Z none = _
  rw [hgr]
  exact this

theorem sites_mul (a : Letter) (l : List Int) (f g : Int → Bool) :
    pstr ((l.filter f).map fun i => (a, dataQ name i)) * pstr ((l.filter g).map fun i => (a, dataQ name i)) =
      pstr ((l.filter fun i => f i ^^ g i).map fun i => (a, dataQ name i)) := by
  have cons : ∀ i (l : List Int), pstr ((i :: l).map fun i => (a, dataQ name i)) = a.op (dataQ name i) * pstr (l.map fun i => (a, dataQ name i)) := by
    intro i l
    simp [pstr]
  have comm : ∀ i (l : List Int), Commute (a.op (dataQ name i)) (pstr (l.map fun i => (a, dataQ name i))) := by
    intro i l
    refine Commute.list_prod_right _ _ fun B hB => ?_
    rw [List.map_map] at hB
    obtain ⟨j, -, rfl⟩ := List.mem_map.1 hB
    exact letter_comm_self _ _ a
  induction l with
  | nil => exact one_mul _
  | cons i l ih =>
    cases hf : f i <;> cases hg : g i
    · rw [List.filter_cons_of_neg (by simp [hf]), List.filter_cons_of_neg (by simp [hg]), List.filter_cons_of_neg (by simp [hf, hg])]
      exact ih
    · rw [List.filter_cons_of_neg (by simp [hf]), List.filter_cons_of_pos (by simp [hg]), List.filter_cons_of_pos (by simp [hf, hg]), cons, cons,
        ← mul_assoc, ← (comm i _).eq, mul_assoc, ih]
    · rw [List.filter_cons_of_pos (by simp [hf]), List.filter_cons_of_neg (by simp [hg]), List.filter_cons_of_pos (by simp [hf, hg]), cons, cons,
        mul_assoc, ih]
    · rw [List.filter_cons_of_pos (by simp [hf]), List.filter_cons_of_pos (by simp [hg]), List.filter_cons_of_neg (by simp [hf, hg]), cons, cons,
        mul_assoc, ← mul_assoc (pstr _), ← (comm i _).eq, mul_assoc, ← mul_assoc, letter_sq, one_mul, ih]

/-- C118: these errors could be told from the syndrome: every other set of Z errors with the same syndrome (the two together are not
noticed) contains every qubit of the main diagonal. -/
theorem C118_unique {s : Int} (hs : s ≠ 0) (H : OddPos d d) (hE : ∀ r c, InLat d d r c → E r c = decide (c = r + s))
    (h : Unnoticed .xzzx name d d (onSites .Z name d d E * onSites .Z name d d E')) :
    (∀ r c, InLat d d r c → E' r c = E r c) ∨ ∀ r, 0 ≤ r → r < d → E' r r = true := by
  have hmul : onSites .Z name d d E * onSites .Z name d d E' = onSites .Z name d d fun r c => E r c ^^ E' r c := sites_mul .Z _ _ _
  rw [hmul, C117_square_z H] at h
  rcases h with h | h
  · refine Or.inl fun r c hi => ?_
    have := h r c hi
    revert this
    cases E r c <;> cases E' r c <;> simp
  · refine Or.inr fun r h1 h2 => ?_
    have hi : InLat d d r r := ⟨h1, h2, h1, h2⟩
    have := h r r hi
    rw [hE r r hi, decide_eq_false (by omega), decide_eq_true rfl] at this
    simpa using this

/-- Three Z errors on a 5 × 5 lattice, from the third qubit of the top row to the middle of the right column, are decoded wrongly. -/
example : ∃ q w, AfterAlone .xzzx q 5 5 [] w ∧ ∃ D m s',
    Run (fun _ => 0) (noisyAll q [(.resetZ, noErrs), (.stabilize, noErrs), (.idData, zErrors q.lat.name 5 5 fun r c => decide (c = r + 2)),
      (.stabilize, noErrs), (.readoutZ none, noErrs)] w) ⟨ground, fun _ => false⟩ s' ∧
    correctString D m (joinSp (groups s'.mem (q.ops [.resetZ, .stabilize, .idData, .stabilize, .readoutZ none] w).circ.cregs)) .Z none =
      .ok (some 1) := by
  obtain ⟨q, w, A, -⟩ := afterAlone_exists (dh := 5) (dw := 5) .xzzx "a".toList (by unfold OddPos; decide) (by simp) []
  obtain ⟨D, sx, sz, h, h1, h2, h3, h4, h5⟩ := C21_surface_built 900 { d := some (.tup [.int 5, .int 5]), T := some 2 } 5 5 2
    (by unfold OddPos; decide) (Or.inl rfl) rfl (by decide)
  obtain ⟨m, hm⟩ := contract_exists
  obtain ⟨s', hs'⟩ := noisy_exists (sz := fun _ => 0) A.after ⟨ground, fun _ => false⟩ ground_ne_zero
    (l := [(.resetZ, noErrs), (.stabilize, noErrs), (.idData, zErrors q.lat.name 5 5 fun r c => decide (c = r + 2)), (.stabilize, noErrs),
      (.readoutZ none, noErrs)])
  exact ⟨q, w, A, D, m, s', hs', C118_wrong (d := 5) (s := 2) (n := 0) (k := 0) (E := fun r c => decide (c = r + 2)) rfl (le_refl 2) (by decide) A
    (fun o h => absurd h List.not_mem_nil) rfl (fun _ _ _ => rfl) (Or.inl ⟨_, _, h⟩) h1 h2 h5 (by rw [h3]; decide) hm
    (ψ := ⟨ground, fun _ => false⟩) ground_ne_zero ground_synZero hs'⟩

end Qtc
