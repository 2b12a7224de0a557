import Verif.Proof.SharedReg
import Verif.Props.Registers
/-!
Two qubits in one circuit, for the example of C128.
-/
namespace Qtc
open Spec

/-- The dictionaries of two qubits of height and width 5, an empty circuit, a register, and the two qubits. -/
def twoQubits0 : TState := TState.fresh "r".toList (oneSize (.tup [.int 5, .int 5]))
@[inherit_doc twoQubits0] def twoQubits1 : TState := (addTqubit "data".toList "XXZZ".toList (some 0) twoQubits0).2
@[inherit_doc twoQubits0] def twoQubits2 : TState := (addTqubit "data".toList "XXZZ".toList (some 1) twoQubits1).2

theorem twoQubits_ok1 : (addTqubit "data".toList "XXZZ".toList (some 0) twoQubits0).1 = .ok () := by decide +kernel

theorem twoQubits_ok2 : (addTqubit "data".toList "XXZZ".toList (some 1) twoQubits1).1 = .ok () := by decide +kernel

theorem twoQubits_first : (twoQubits2.treg.find? 0).map (fun q => (q.cls, q.lat.pref, (twoQubits2.world.heap q.lat.pref).d)) =
    some (.xxzz, 0, some (.tup [.int 5, .int 5])) := by decide +kernel

theorem twoQubits_d1 : (twoQubits1.world.heap 1).d = some (.tup [.int 5, .int 5]) := by decide +kernel

theorem twoQubits_n1 : twoQubits1.world.next = 2 ∧ twoQubits1.treg.n = 1 ∧ twoQubits1.treg.name = "r".toList := by decide +kernel

theorem twoQubits_name : twoQubits2.treg.name = "r".toList := by decide +kernel

theorem twoQubits_facts : ∃ q q', TInv twoQubits2 ∧ twoQubits2.treg.find? 0 = some q ∧ twoQubits2.treg.find? 1 = some q' ∧ q.lat.name = "r_0".toList ∧
    q'.lat.name = "r_1".toList ∧ Waiting .xxzz q 5 5 twoQubits2.world := by
  have F : FreshFor "r".toList (oneSize (.tup [.int 5, .int 5])) :=
    ⟨⟨List.nodup_nil, List.nodup_nil, fun _ h => absurd h List.not_mem_nil, fun _ h => absurd h List.not_mem_nil⟩, fun _ h => absurd h List.not_mem_nil⟩
  have T0 : TInv twoQubits0 := TInv.fresh F
  have p0 : OwnDict twoQubits0 (some 0) := by
    intro r hr
    cases hr
    exact ⟨by decide, by show NonNeg (some (.tup [.int 5, .int 5])); simp [NonNeg, Num.toInt], fun k q h => by cases h⟩
  obtain ⟨T1, -, -, -, -, -, -, f1⟩ := T0.addTqubit "data".toList "XXZZ".toList p0
  obtain ⟨q, dh, dw, hq, W⟩ := (add_elsewhere T0 "data".toList "XXZZ".toList p0).2 twoQubits_ok1
  have T1 : TInv twoQubits1 := T1
  have p1 : OwnDict twoQubits1 (some 1) := by
    intro r hr
    cases hr
    refine ⟨by rw [twoQubits_n1.1]; decide, by rw [twoQubits_d1]; simp [NonNeg, Num.toInt], fun k q h e => ?_⟩
    rcases f1 k q h with h | ⟨rfl, h | h⟩
    · cases h
    · rw [e] at h; cases h
    · rw [e] at h; exact absurd h (by decide)
  obtain ⟨T2, -, -, -, -, -, f2, -⟩ := T1.addTqubit "data".toList "XXZZ".toList p1
  obtain ⟨E2, W'⟩ := add_elsewhere T1 "data".toList "XXZZ".toList p1
  obtain ⟨q', dh', dw', hq', -⟩ := W' twoQubits_ok2
  have T2 : TInv twoQubits2 := T2
  have hq1 : twoQubits1.treg.find? 0 = some q := hq
  have hq2 : twoQubits2.treg.find? 0 = some q := f2 _ _ hq1
  have hq2' : twoQubits2.treg.find? 1 = some q' := by rw [twoQubits_n1.2.1] at hq'; exact hq'
  have hf := twoQubits_first
  rw [hq2] at hf
  simp only [Option.map_some, Option.some.injEq, Prod.mk.injEq] at hf
  obtain ⟨hcls, -, hd⟩ := hf
  obtain ⟨w0, w1, g1, B, g2⟩ := W
  have g2 : Elsewhere q w1 twoQubits2.world := g2.trans (E2 _ _ hq1)
  have hB := B
  obtain ⟨params, name, rest, -, hd', -, -⟩ := hB
  rw [← g2.heap, hd] at hd'
  simp only [Option.some.injEq, DVal.tup.injEq, List.cons.injEq, Num.int.injEq] at hd'
  obtain ⟨rfl, rfl, -⟩ := hd'
  rw [hcls] at B
  refine ⟨q, q', T2, hq2, hq2', ?_, ?_, w0, w1, g1, B, g2⟩
  · rw [(T2.held _ _ hq2).1, twoQubits_name]; decide
  · rw [(T2.held _ _ hq2').1, twoQubits_name]; decide

end Qtc
