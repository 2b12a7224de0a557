import Verif.Proof.QSlipRun
import Verif.Proof.Staircase
/-!
Circuits with errors that amount to a staircase of faults.
-/
namespace Qtc
open Spec Function

variable {cls : QClass} {q : TQubit} {dh dw : Int} {ops : List QOp} {w : World} {sz : Str → Nat} {name : Str} {n : Nat}

theorem left_qubit (H : OddPos dh dw) {r : Nat} (hr : (r : Int) < dh) (t : Int) : (r : Int) * dw ∈ allQubits dh dw ∧ flip dw t (r * dw) = .data t r 0 := by
  have hw := H.2.2.1
  have e : dataAt dh dw r 0 = some (r * dw) := by rw [dataAt_pos ⟨by omega, hr, by omega, hw⟩, Int.add_zero]
  refine ⟨?_, flip_dataAt e t⟩
  rw [mem_allQubits]
  refine ⟨Int.mul_nonneg (by omega) (by omega), ?_⟩
  exact Int.mul_lt_mul_of_pos_right hr hw

theorem left_around (H : OddPos dh dw) {r : Nat} (hr : (r : Int) < dh) {p : Int × Int} (hp : SiteOf dh dw .Z p) :
    (r : Int) * dw ∈ around dh dw p ↔ (p.1 = 2 * r - 1 ∨ p.1 = 2 * r + 1) ∧ (p.2 = -1 ∨ p.2 = 1) := by
  obtain ⟨h1, h2⟩ := left_qubit H hr 0
  have := affects_flip H hp h1 0 1
  rw [h2] at this
  rw [← decide_eq_true_iff (p := (r : Int) * dw ∈ around dh dw p)]
  simp only [Fault.affects] at this
  rw [show decide ((r : Int) * dw ∈ around dh dw p) = (decide ((0 : Int) < 1) && decide ((r : Int) * dw ∈ around dh dw p)) by simp, ← this]
  simp

/-- What is left of the Z plaquettes when the plaquette above a data qubit of the left column has met it in this round, but the one below it
has not. -/
theorem stair_split (H : OddPos dh dw) {r : Nat} (hr : (r : Int) + 1 < dh) : ∃ pre post, (zSites dh dw).zipIdx = pre ++ post ∧
    ∃ k, (post.filter fun p => decide ((r : Int) * dw ∈ around dh dw p.1)) = [(((2 * r + 1 : Int), leftCol r), k)] := by
  have hs : ZSite dh dw (2 * r + 1) (leftCol r) := leftCol_site hr H.2.2.1
  obtain ⟨k, hk⟩ := List.getElem?_of_mem (show ((2 * r + 1 : Int), leftCol r) ∈ zSites dh dw from mem_zSites.2 hs)
  have hmem : (((2 * r + 1 : Int), leftCol r), k) ∈ (zSites dh dw).zipIdx := List.mem_zipIdx_iff_getElem?.2 hk
  obtain ⟨pre, post, hsplit⟩ := List.append_of_mem hmem
  have hpw : ((zSites dh dw).zipIdx).Pairwise fun a b => rlt a.1 b.1 := by
    have : ((zSites dh dw).zipIdx.map Prod.fst).Pairwise rlt := by
      rw [List.zipIdx_map_fst]
      exact (allPos_pairwise _ _).filter _
    exact List.pairwise_map.1 this
  rw [hsplit] at hpw
  have hlater := (List.pairwise_cons.1 (List.pairwise_append.1 hpw).2.1).1
  have hsite : ∀ p ∈ (((2 * r + 1 : Int), leftCol r), k) :: post, SiteOf dh dw .Z p.1 := by
    intro p hp
    refine site_mem_iff.2 (List.mem_of_getElem? (mem_zipIdx_sites (κ := .Z) ?_))
    show p ∈ (zSites dh dw).zipIdx
    rw [hsplit]
    exact List.mem_append_right _ hp
  refine ⟨pre, _, hsplit, k, ?_⟩
  rw [List.filter_cons_of_pos, List.filter_eq_nil_iff.2]
  · intro p hp h
    rw [decide_eq_true_eq, left_around H (by omega) (hsite p (by simp [hp]))] at h
    have h1 := hlater p hp
    have h2 : ZSite dh dw p.1.1 p.1.2 := hsite p (by simp [hp])
    unfold rlt at h1
    unfold ZSite at h2 hs
    simp only at h1
    omega
  · rw [decide_eq_true_eq, left_around H (by omega) (hsite _ (by simp))]
    refine ⟨Or.inr rfl, ?_⟩
    show leftCol r = -1 ∨ leftCol r = 1
    unfold leftCol
    split <;> simp

/-- An X error on a data qubit of the left column when the plaquette above it has met it in this round, but the one below it has not. -/
theorem stair_xxzz (H : OddPos dh dw) (name : Str) {r : Nat} (hr : (r : Int) + 1 < dh) :
    ∃ pos, ∀ n, Leads .xxzz .Z name dh dw n ((roundInstrs .xxzz name dh dw (roundName name n)).drop pos) [.pauli .X (dataQ name (r * dw))]
      [.data n r 0, .meas (n - 1) (2 * r + 1) (leftCol r)] := by
  obtain ⟨pre, post, e, k, hk⟩ := stair_split H hr
  refine ⟨((xSites dh dw).zipIdx.flatMap (xblk name dh dw)).length + (pre.flatMap (zblk name dh dw)).length, fun n => ?_⟩
  rw [round_eq, zblk_eq, e, List.flatMap_append, List.append_assoc, List.drop_length_add_append, List.drop_left]
  have hF := (zblocks (key := .Z) (name := name) (n := n) H (post := post) fun p hp => mem_zipIdx_sites (κ := .Z) (by
    show p ∈ (zSites dh dw).zipIdx
    rw [e]
    exact List.mem_append_right _ hp)).xd (r * dw) (left_qubit H (by omega) 0).1
  refine hF.like ?_
  rw [if_pos rfl, (left_qubit H (by omega) n).2, hk]
  exact Amounts.refl _

/-- The same with the XZZX code and one of the two errors. -/
theorem stair_xzzx (H : OddPos dh dw) (name : Str) {r : Nat} (hr : (r : Int) + 1 < dh) :
    ∃ pos, ∀ n, Leads .xzzx .Z name dh dw n ((roundInstrs .xzzx name dh dw (roundName name n)).drop pos)
      [.pauli (kind .xzzx .Z (r * dw)).other (dataQ name (r * dw))] [.data n r 0, .meas (n - 1) (2 * r + 1) (leftCol r)] := by
  obtain ⟨pre, post, e, k, hk⟩ := stair_split H hr
  refine ⟨((sitesOf .X dh dw).zipIdx.flatMap (xzblk name dh dw .X)).length + (pre.flatMap (xzblk name dh dw .Z)).length, fun n => ?_⟩
  have e' : (sitesOf .Z dh dw).zipIdx = pre ++ post := e
  rw [round_xzzx H, e', List.flatMap_append, List.append_assoc, List.drop_length_add_append, List.drop_left]
  have hF := (tail_marks.blocks (key := .Z) (κ := .Z) (name := name) (n := n) H (post := post) fun p hp => mem_zipIdx_sites (κ := .Z) (by
    rw [e']
    exact List.mem_append_right _ hp)).bad (r * dw) (left_qubit H (by omega) 0).1
  refine hF.like ?_
  unfold toCome
  rw [if_pos rfl, (left_qubit H (by omega) n).2, hk]
  exact Amounts.refl _

/-- The error as a slip. -/
theorem stair_slip (H : OddPos dh dw) (code : Code) (name : Str) {r : Nat} (hr : (r : Int) + 1 < dh) :
    ∃ s : Slip, ∀ n, Leads code .Z name dh dw n ((roundInstrs code name dh dw (roundName name n)).drop s.pos) s.marks
      [.data n r 0, .meas (n - 1) (2 * r + 1) (leftCol r)] := by
  cases code
  · obtain ⟨pos, h⟩ := stair_xxzz H name hr
    exact ⟨⟨pos, dataQ name (r * dw), true, false⟩, h⟩
  · obtain ⟨pos, h⟩ := stair_xzzx H name hr
    cases e : kind .xzzx .Z (r * dw) <;> rw [e] at h
    · exact ⟨⟨pos, dataQ name (r * dw), false, true⟩, h⟩
    · exact ⟨⟨pos, dataQ name (r * dw), true, false⟩, h⟩

/-- The faults of errors in the rows `2 * j + 1` in successive rounds. -/
def stairsFrom : Nat → List Nat → List Fault
  | _, [] => []
  | n, j :: js => .data n (2 * j + 1 : Nat) 0 :: .meas (n - 1) (2 * (2 * j + 1 : Nat) + 1) (leftCol (2 * j + 1)) :: stairsFrom (n + 1) js

theorem stairsFrom_eq {f m : Nat} (hm : m ≤ f) : stairsFrom (f - m + 1) (List.range m).reverse =
    (List.range m).reverse.flatMap fun j => [stairRow f (2 * j + 1), stairCut f (2 * j + 1)] := by
  induction m with
  | zero => rfl
  | succ m ih =>
    rw [List.range_succ, List.reverse_append, List.reverse_singleton, List.singleton_append, List.flatMap_cons, ← ih (by omega)]
    show _ :: _ :: _ = _ :: _ :: _
    have e1 : f - (m + 1) + 1 + 1 = f - m + 1 := by omega
    rw [e1]
    congr 1
    · unfold stairRow stairTime
      congr 1
      omega
    · congr 1
      unfold stairCut stairTime
      congr 1
      omega

theorem stairsFrom_stairs (f : Nat) : (stairsFrom 1 (List.range f).reverse).Perm (stairs f) := by
  have := stairsFrom_eq (Nat.le_refl f)
  rw [Nat.sub_self, Nat.zero_add] at this
  rw [this]
  exact (List.reverse_perm _).flatMap_right _

theorem stairs_run (A : After cls q dh dw ops w) {E : Nat → Slip} {js : List Nat}
    (hE : ∀ j ∈ js, ∀ n, Leads cls.code .Z q.lat.name dh dw n ((roundInstrs cls.code q.lat.name dh dw (roundName q.lat.name n)).drop (E j).pos) (E j).marks
      [.data n (2 * j + 1 : Nat) 0, .meas (n - 1) (2 * (2 * j + 1 : Nat) + 1) (leftCol (2 * j + 1))]) {v : Bool}
    {n : Nat} {fs : List Fault} {s s' : QState} (hn : ops.count .stabilize = n) (h : Keeps cls.code .Z q.lat.name dh dw v n fs s)
    (hR : Run sz (slippedAll q (js.map fun j => (.stabilize, [E j])) w) s s') :
    Keeps cls.code .Z q.lat.name dh dw v (n + js.length) (fs ++ stairsFrom n js) s' := by
  induction js generalizing ops w n fs s with
  | nil =>
    have : s' = s := hR
    subst this
    simpa [stairsFrom] using h
  | cons j js ih =>
    obtain ⟨t, r1, r2⟩ := Run.append.1 (show Run sz (Spec.slipped [E j] 0 (added q .stabilize w) ++
      slippedAll q (js.map fun j => (.stabilize, [E j])) (q.op .stabilize w).2) s s' from hR)
    have k1 := h.slipsAs A (o := .stabilize) trivial hn (n' := n + 1) rfl r1
      (hs := [.data n (2 * j + 1 : Nat) 0, .meas (n - 1) (2 * (2 * j + 1 : Nat) + 1) (leftCol (2 * j + 1))]) (by
        rw [added_stabilize A, hn]
        have := hE j (by simp) n
        unfold Leads at this
        unfold wrongAfter
        rw [List.flatMap_cons, List.flatMap_nil, List.append_nil]
        exact this) (by
        intro x hx
        simp only [List.mem_cons, List.not_mem_nil, or_false] at hx
        rcases hx with rfl | rfl
        · show (n : Int) < _
          push_cast; omega
        · show (n : Int) - 1 < _
          push_cast; omega)
    have e : (v ^^ decide (QOp.stabilize = flipGate .Z)) = v := by simp [flipGate]
    rw [e] at k1
    have := ih (A.next .stabilize) (fun j' hj' => hE j' (by simp [hj'])) (n := n + 1) (by
      rw [List.count_append, hn]; rfl) k1 r2
    rw [List.append_assoc] at this
    rw [List.length_cons, show n + (js.length + 1) = n + 1 + js.length by omega]
    exact this

end Qtc
