import Verif.Model.CircReadout
import Verif.Props.Circuit
import Verif.Proof.QFault
import Verif.Props.Registers
/-!
Property C85: `parse_readout` of circuits with several qubits.
-/
namespace Qtc
open Spec

variable {s : TState} {a : QArg} {k : Int} {q : TQubit} {dh dw : Int}

/-- `parse_readout` looks at nothing but the size of the qubit. -/
theorem parseT_eq (hp : Points s a k q) (hs : HasSize s q dh dw) (str : Str) (rt : RType) :
    parseT a str rt s = (parseReadout dh dw str rt, s) := by
  have hg : getIndex a s = (.ok q, s) := by
    obtain ⟨h, rfl | rfl⟩ := hp
    · unfold getIndex; simp only [h]
    · rfl
  obtain ⟨rest, hd⟩ := hs
  unfold parseT
  rw [CM.bind_ok hg]
  have h : q.parse str rt s.world = (parseReadout dh dw str rt, s.world) := by
    unfold TQubit.parse Lattice.params
    have h0 : (s.world.heap q.lat.pref).dim 0 = .ok dh := by unfold Params.dim; rw [hd]; rfl
    have h1 : (s.world.heap q.lat.pref).dim 1 = .ok dw := by unfold Params.dim; rw [hd]; rfl
    rw [CM.bind_ok (getParams_run _ _), CM.bind_lift h0, CM.bind_lift h1]
    rfl
  show ((q.parse str rt s.world).1, { s with world := (q.parse str rt s.world).2 }) = _
  rw [h]

/-- C85, first part: for two qubits of one size the same result comes out of every string, so it cannot be right for both if their
readouts differ. -/
theorem C85_same_for_all {a' : QArg} {k' : Int} {q' : TQubit} (hp : Points s a k q) (hs : HasSize s q dh dw) (hp' : Points s a' k' q')
    (hs' : HasSize s q' dh dw) (str : Str) (rt : RType) : parseT a str rt s = parseT a' str rt s := by
  rw [parseT_eq hp hs, parseT_eq hp' hs']

/-- C85 is false: if qubit `j` has been read out last, the value that `parse_readout` returns for a qubit of any number is that of
`j`, whatever the contents of the classical bits are. -/
theorem C85_false (S : SaneState s) {j : Int} {qj : TQubit} (hj : s.treg.find? j = some qj) (o : QOp)
    (ho : o = .readoutX none ∨ o = .readoutZ none) : ∃ reg : Str,
      (onQubit (.idx j) o s).2.world.circ.cregs = s.world.circ.cregs ++ [⟨reg, 1⟩] ∧ OwnCreg qj.lat.name reg ∧
      ∀ (a : QArg) (k : Int) (q : TQubit) (dh dw : Int), Points (onQubit (.idx j) o s).2 a k q → HasSize (onQubit (.idx j) o s).2 q dh dw →
        ∀ (mem : Clbit → Bool) (rt : RType) (v : Int) (hits : Hits),
          (parseT a (joinSp (groups mem (onQubit (.idx j) o s).2.world.circ.cregs)) rt (onQubit (.idx j) o s).2).1 = .ok (v, hits) →
          v = if mem ⟨reg, 0⟩ then 1 else 0 := by
  have T := S.inv
  obtain ⟨hname, -, dh', dw', tt, O⟩ := T.held j qj hj
  obtain ⟨n, hn, hn0, -⟩ := O.readout
  have e : onQubit (.idx j) o s = ((qj.op o s.world).1, { s with world := (qj.op o s.world).2 }) := by
    unfold onQubit
    have : getIndex (.idx j) s = (.ok qj, s) := by unfold getIndex; simp only [hj]
    rw [CM.bind_ok this]; rfl
  have hcr := readout_cregs ho O n hn
  refine ⟨readoutName qj.lat.name (n + 1), ?_, ?_, ?_⟩
  · rw [e]; exact hcr
  · exact ownCreg_readout (by omega)
  · intro a k q dh dw hp hs mem rt v hits h
    rw [parseT_eq hp hs, e] at h
    replace h : parseReadout dh dw (joinSp (groups mem (qj.op o s.world).2.circ.cregs)) rt = .ok (v, hits) := h
    rw [hcr, groups_append, groupString_one] at h
    unfold parseReadout at h
    rw [splitSpace_joinSp _ (by simp)] at h
    · unfold parseChunks at h
      generalize hrest : groups mem s.world.circ.cregs = rest at h
      have h0 : ∀ c : Char, pyIdx ([c] :: rest) 0 = .ok [c] := fun c => pyIdx_nat (by omega) rfl
      rw [h0] at h
      simp only [bind, Except.bind, List.length_cons, List.length_nil, Nat.zero_add, Nat.lt_irrefl, if_false] at h
      cases hb : mem ⟨readoutName qj.lat.name (n + 1), 0⟩ <;> rw [hb] at h <;> simp only [if_true, if_false, Bool.false_eq_true] at h ⊢
      · rw [show intOfChar '0' = .ok 0 from rfl] at h
        simp only at h
        split at h
        · cases h
        · cases h; rfl
      · rw [show intOfChar '1' = .ok 1 from rfl] at h
        simp only at h
        split at h
        · cases h
        · cases h; rfl
    · intro x hx
      rcases List.mem_cons.1 hx with rfl | hx
      · split <;> decide
      · obtain ⟨r, -, rfl⟩ := List.mem_map.1 hx
        unfold groupString
        rw [List.mem_reverse, List.mem_map]
        rintro ⟨c, -, hc⟩
        split at hc <;> exact absurd hc (by decide)

/-- C85, partial: right for a circuit with one logical qubit, after any operations that only measure stabilizers, once its readout has
been added. What is missing (and false, see above): several qubits. -/
theorem C85_single_partial {cls : QClass} {ops : List QOp} {w : World} (A : AfterAlone cls q dh dw ops w) (hq : ∀ o ∈ ops, o.quiet = true)
    (hbig : 1 < dh * dw) (o : QOp) (ho : o = .readoutX none ∨ o = .readoutZ none) (hw : s.world = (q.op o w).2) (hp : Points s a k q)
    (mem : Clbit → Bool) (rt : RType) :
    parseT a (joinSp (groups mem s.world.circ.cregs)) rt s = (.ok
      (if mem ⟨q.lat.name ++ "_readout_0".toList, 0⟩ then 1 else 0,
        { X := changes (xSites dh dw) ((List.range (ops.count .stabilize)).map fun t k =>
            mem ⟨q.lat.name ++ "_c".toList ++ strNat t, (zSites dh dw).length + k⟩)
          Z := changes (zSites dh dw) ((List.range (ops.count .stabilize)).map fun t k =>
            mem ⟨q.lat.name ++ "_c".toList ++ strNat t, k⟩) }), s) := by
  have hs : HasSize s q dh dw := by
    have := (A.after.next o).own.2.placed.d
    unfold HasSize
    rw [hw]
    exact this
  rw [parseT_eq hp hs, hw, (C51_logical A hq hbig o ho mem rt).2]

/-- Two repetition codes, read out one after the other. -/
def twoReadouts : TState := runOps [.addQubits "data".toList (some ["Repetition".toList, "Repetition".toList]) (some [some 0, some 1]),
  .on (.idx 0) (.readoutZ none), .on (.idx 1) (.readoutZ none)] (TState.fresh "r".toList (oneSize (.tup [.int 3, .int 1])))

/-- The first qubit reads 0, the second 1; `parse_readout` for the first gives 1. -/
example : joinSp (groups (fun c => c = ⟨"r_1_readout_0".toList, 0⟩) twoReadouts.world.circ.cregs) = "1 0".toList ∧
    twoReadouts.world.circ.cregs.map Reg.name = ["r_0_readout_0".toList, "r_1_readout_0".toList] ∧
    ((parseT (.idx 0) "1 0".toList .Z twoReadouts).1.toOption.map fun r => r.1) = some 1 ∧
    ((parseT (.idx 1) "1 0".toList .Z twoReadouts).1.toOption.map fun r => r.1) = some 1 := by
  refine ⟨by decide +kernel, by decide +kernel, by decide +kernel, by decide +kernel⟩

end Qtc
