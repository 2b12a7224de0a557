import Verif.Proof.QSlipRun
import Verif.Proof.Equivalent
/-!
Errors on syndrome qubits of the XZZX code in the middle of the gates of their plaquettes.
-/
namespace Qtc
open Spec Function

variable {dh dw : Int} {cls : QClass} {q : TQubit} {ops : List QOp} {w : World} {sz : Str → Nat}

/-- The two upper and the two lower data qubits of a Z plaquette in the top row. -/
theorem around_top (hh : 1 < dh) {j : Nat} (hj : 2 * (j : Int) + 1 < dw) : ∃ a b c d : Int, around dh dw (1, 4 * j + 1) = [a, b, c, d] ∧
    ∀ t, flip dw t a = lineFault .X t (2 * j) ∧ flip dw t b = lineFault .X t (2 * j + 1) := by
  have e1 : ((1 : Int) - 1) / 2 = 0 := rfl
  have e2 : ((1 : Int) + 1) / 2 = 1 := rfl
  have e3 : (4 * (j : Int) + 1 - 1) / 2 = 2 * j := by omega
  have e4 : (4 * (j : Int) + 1 + 1) / 2 = 2 * j + 1 := by omega
  have h0 : dataAt dh dw 0 (2 * j) = _ := dataAt_pos ⟨by omega, by omega, by omega, by omega⟩
  have h1 : dataAt dh dw 0 (2 * j + 1) = _ := dataAt_pos ⟨by omega, by omega, by omega, by omega⟩
  have h2 : dataAt dh dw 1 (2 * j) = _ := dataAt_pos ⟨by omega, by omega, by omega, by omega⟩
  have h3 : dataAt dh dw 1 (2 * j + 1) = _ := dataAt_pos ⟨by omega, by omega, by omega, by omega⟩
  refine ⟨0 * dw + 2 * j, 0 * dw + (2 * j + 1), 1 * dw + 2 * j, 1 * dw + (2 * j + 1), ?_, fun t => ⟨?_, ?_⟩⟩
  rotate_left
  · rw [flip_dataAt h0]; rfl
  · rw [flip_dataAt h1]; rfl
  · unfold around cornersOf
    simp only [e1, e2, e3, e4, h0, h1, h2, h3, List.filterMap_cons, id, List.filterMap_nil]

/-- A Z error on the syndrome qubit of such a plaquette after two of its four data qubits have been met. -/
theorem hook_slip (H : OddPos dh dw) (name : Str) (hh : 1 < dh) {j : Nat} (hj : 2 * (j : Int) + 1 < dw) :
    ∃ s : Slip, (∃ k : Nat, (sitesOf .Z dh dw)[k]? = some (1, 4 * (j : Int) + 1) ∧ s.qubit = synQ .Z name k) ∧ s.x = false ∧ s.z = true ∧
      ∀ n, Leads .xzzx .X name dh dw n ((roundInstrs .xzzx name dh dw (roundName name n)).drop s.pos) s.marks
        [lineFault .X n (2 * j), lineFault .X n (2 * j + 1)] := by
  have hs : SiteOf dh dw .Z (1, 4 * (j : Int) + 1) := by
    show ZSite _ _ _ _
    unfold ZSite
    omega
  obtain ⟨k, hk⟩ := List.getElem?_of_mem (site_mem_iff.1 hs)
  obtain ⟨a, b, c, d, har, hfl⟩ := around_top hh hj
  have hmem : (((1 : Int), 4 * (j : Int) + 1), k) ∈ (sitesOf .Z dh dw).zipIdx := List.mem_zipIdx_iff_getElem?.2 hk
  obtain ⟨pre, post, e⟩ := List.append_of_mem hmem
  refine ⟨⟨((sitesOf .X dh dw).zipIdx.flatMap (xzblk name dh dw .X)).length + ((pre.flatMap (xzblk name dh dw .Z)).length +
    ([a, b].flatMap (corner name .Z k)).length), synQ .Z name k, false, true⟩, ⟨k, hk, rfl⟩, rfl, rfl, fun n => ?_⟩
  have hblk : xzblk name dh dw .Z (((1 : Int), 4 * (j : Int) + 1), k) =
      [a, b].flatMap (corner name .Z k) ++ ([c, d].flatMap (corner name .Z k) ++ [.barrier]) := by
    unfold xzblk
    rw [har]
    simp only [List.flatMap_cons, List.flatMap_nil, List.append_nil, List.append_assoc]
  have hl : (pre ++ (((1 : Int), 4 * (j : Int) + 1), k) :: post).flatMap (xzblk name dh dw .Z) = pre.flatMap (xzblk name dh dw .Z) ++
      ([a, b].flatMap (corner name .Z k) ++ ([c, d].flatMap (corner name .Z k) ++ (.barrier :: post.flatMap (xzblk name dh dw .Z)))) := by
    rw [List.flatMap_append, List.flatMap_cons (x := (((1 : Int), 4 * (j : Int) + 1), k)), hblk, List.append_assoc, List.append_assoc,
      List.singleton_append]
  rw [round_xzzx H, e, hl, List.append_assoc, List.append_assoc, List.append_assoc, List.cons_append, List.drop_length_add_append,
    List.drop_length_add_append, List.drop_left]
  have hall := around_silent (key := .X) H hs (by decide) n
  rw [har] at hall
  have hnd := around_nodup H hs
  have hin : ∀ i ∈ around dh dw (1, 4 * (j : Int) + 1), i ∈ allQubits dh dw := fun i hi => around_all i hi
  rw [har] at hnd hin
  have F := (((tail_marks (key := .X) (name := name) (n := n)).blocks (κ := .Z) H (post := post) fun q hq =>
    mem_zipIdx_sites (by rw [e]; simp [hq])).barrier).corners (q := (((1 : Int), 4 * (j : Int) + 1), k)) (κ := .Z) hk (S := [c, d])
    (hnd.sublist (by simp)) fun i hi => hin i (by
      simp only [List.mem_cons, List.not_mem_nil, or_false] at hi ⊢
      tauto)
  refine (F.zs .Z k _ hk).like ?_
  rw [if_pos ⟨⟨rfl, rfl⟩, by decide⟩, List.nil_append]
  have ef : ([c, d].flatMap fun i => flip dw n i :: toCome .Z .X dh dw n post i) = [flip dw n c, flip dw n d] := rfl
  rw [ef, ← (hfl n).1, ← (hfl n).2]
  exact Amounts.cancel (fs := [flip dw n a, flip dw n b]) hall

/-- Pairs of neighbours fill the line. -/
theorem line_pairs (t : Int) (f : Nat) : ((List.range f).flatMap fun j => [lineFault .X t (2 * j), lineFault .X t (2 * j + 1)]) = lineFlips .X t (2 * f) := by
  induction f with
  | zero => rfl
  | succ f ih =>
    rw [List.range_succ, List.flatMap_append, ih]
    unfold lineFlips
    rw [show 2 * (f + 1) = 2 * f + 1 + 1 by omega, List.range_succ, List.range_succ, List.map_append, List.map_append, List.append_assoc]
    rfl

/-- A round with such errors. -/
theorem hook_run (A : After cls q dh dw ops w) {E : Nat → Slip} {f n : Nat} (hn : ops.count .stabilize = n)
    (hE : ∀ j < f, Leads cls.code .X q.lat.name dh dw n ((roundInstrs cls.code q.lat.name dh dw (roundName q.lat.name n)).drop (E j).pos) (E j).marks
      [lineFault .X n (2 * j), lineFault .X n (2 * j + 1)]) {v : Bool} {fs : List Fault} {s s' : QState}
    (h : Keeps cls.code .X q.lat.name dh dw v n fs s) (hR : Run sz (Spec.slipped ((List.range f).map E) 0 (added q .stabilize w)) s s') :
    Keeps cls.code .X q.lat.name dh dw v (n + 1) (fs ++ lineFlips .X n (2 * f)) s' := by
  have k1 := h.slipsAs A (o := .stabilize) trivial hn (n' := n + 1) rfl hR (hs := lineFlips .X n (2 * f)) (by
    rw [added_stabilize A, hn, ← line_pairs]
    unfold wrongAfter
    rw [List.flatMap_map, List.flatMap_assoc]
    exact Amounts.flatMap fun j hj => hE j (List.mem_range.1 hj)) (by
    intro x hx
    obtain ⟨k, -, rfl⟩ := List.mem_map.1 hx
    show (n : Int) < _
    push_cast; omega)
  have e : (v ^^ decide (QOp.stabilize = flipGate .X)) = v := by simp [flipGate]
  rw [e] at k1
  exact k1

end Qtc
