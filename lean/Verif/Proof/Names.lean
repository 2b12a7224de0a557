import Verif.Proof.Build
import Mathlib.Tactic.IntervalCases
/-!
Register names: decimal numerals are injective and contain no underscore; names made from different suffixes differ.
-/
namespace Qtc
open Spec

/-- Value of a numeral, least significant digit first. -/
def numVal : Str → Nat
  | [] => 0
  | c :: l => (c.toNat - 48) + 10 * numVal l

theorem digitChar_val {k : Nat} (h : k < 10) : (Nat.digitChar k).toNat - 48 = k := by
  interval_cases k <;> decide

theorem numVal_digitsRev (fuel n : Nat) (h : n < fuel) : numVal (digitsRev fuel n) = n := by
  induction fuel generalizing n with
  | zero => omega
  | succ fuel ih =>
    unfold digitsRev
    split
    · rename_i hn
      simp only [numVal]
      rw [digitChar_val (Nat.mod_lt _ (by decide))]
      omega
    · rename_i hn
      simp only [numVal]
      rw [digitChar_val (Nat.mod_lt _ (by decide)), ih _ (by omega)]
      omega

theorem strNat_inj {m n : Nat} (h : strNat m = strNat n) : m = n := by
  unfold strNat at h
  have := List.reverse_injective h
  rw [← numVal_digitsRev (m + 1) m (by omega), this, numVal_digitsRev (n + 1) n (by omega)]

theorem digitChar_ne {k : Nat} (h : k < 10) : Nat.digitChar k ≠ '_' ∧ Nat.digitChar k ≠ '-' := by
  interval_cases k <;> decide

theorem mem_digitsRev {fuel n : Nat} {c : Char} (h : c ∈ digitsRev fuel n) : c ≠ '_' ∧ c ≠ '-' := by
  induction fuel generalizing n with
  | zero => cases h
  | succ fuel ih =>
    unfold digitsRev at h
    rcases List.mem_cons.1 h with rfl | h
    · exact digitChar_ne (Nat.mod_lt _ (by decide))
    · split at h
      · cases h
      · exact ih h

theorem mem_strNat {n : Nat} {c : Char} (h : c ∈ strNat n) : c ≠ '_' ∧ c ≠ '-' := by
  unfold strNat at h
  exact mem_digitsRev (List.mem_reverse.1 h)

theorem strNat_ne_nil (n : Nat) : strNat n ≠ [] := by
  unfold strNat digitsRev
  simp

theorem mem_strInt {n : Int} {c : Char} (h : c ∈ strInt n) : c ≠ '_' := by
  unfold strInt at h
  split at h
  · rcases List.mem_cons.1 h with rfl | h
    · decide
    · exact (mem_strNat h).1
  · exact (mem_strNat h).1

theorem strInt_inj {m n : Int} (h : strInt m = strInt n) : m = n := by
  unfold strInt at h
  split at h <;> split at h
  · have := strNat_inj (List.cons.inj h).2
    omega
  · exact absurd rfl (mem_strNat (c := '-') (by rw [← h]; simp)).2
  · exact absurd rfl (mem_strNat (c := '-') (by rw [h]; simp)).2
  · have := strNat_inj h
    omega

theorem roundName_inj {name : Str} {j k : Int} (h : roundName name j = roundName name k) : j = k :=
  strInt_inj (List.append_cancel_left h)

theorem readoutName_inj {name : Str} {j k : Int} (h : readoutName name j = readoutName name k) : j = k :=
  strInt_inj (List.append_cancel_left h)

theorem latticeName_inj {name : Str} {j k : Int} (h : latticeName name j = latticeName name k) : j = k :=
  strInt_inj (List.append_cancel_left h)

theorem round_ne_readout {name : Str} {j k : Int} : roundName name j ≠ readoutName name k := by
  unfold roundName readoutName
  rw [List.append_assoc, List.append_assoc]
  intro h
  have := List.append_cancel_left h
  simp at this

theorem round_ne_lattice {name : Str} {j k : Int} : roundName name j ≠ latticeName name k := by
  unfold roundName latticeName
  rw [List.append_assoc, List.append_assoc]
  intro h
  have := List.append_cancel_left h
  simp at this

theorem readout_ne_lattice {name : Str} {j k : Int} : readoutName name j ≠ latticeName name k := by
  unfold readoutName latticeName
  rw [List.append_assoc, List.append_assoc]
  intro h
  have := List.append_cancel_left h
  simp at this

theorem mem_optReg {n : Int} {name : Str} {r : Reg} (h : r ∈ (optReg n name).toList) : r.name = name := by
  unfold optReg at h
  split at h
  · simp at h; rw [h]
  · simp at h

/-- The names of the quantum registers of a lattice. -/
theorem mkLattice_qreg_name {code : Code} {dh dw : Int} {name : Str} {pref : Nat} {r : Reg}
    (h : r ∈ (mkLattice code dh dw name pref).qregs) :
    r.name = name ++ "_data".toList ∨ r.name = name ++ "_mz".toList ∨ r.name = name ++ "_mx".toList ∨
      r.name = name ++ "_ancilla".toList := by
  unfold Lattice.qregs mkLattice at h
  simp only [List.mem_append, List.mem_singleton] at h
  rcases h with ((rfl | h) | h) | rfl
  · exact Or.inl rfl
  · exact Or.inr (Or.inl (mem_optReg h))
  · exact Or.inr (Or.inr (Or.inl (mem_optReg h)))
  · exact Or.inr (Or.inr (Or.inr rfl))

theorem cancel_ne {name a b : Str} (h : a ≠ b) : name ++ a ≠ name ++ b := fun e => h (List.append_cancel_left e)

theorem roundName_not_qreg {code : Code} {dh dw : Int} {name : Str} {pref : Nat} {k : Int} {r : Reg}
    (h : r ∈ (mkLattice code dh dw name pref).qregs) : r.name ≠ roundName name k := by
  unfold roundName
  rw [List.append_assoc]
  rcases mkLattice_qreg_name h with e | e | e | e <;> rw [e] <;> refine cancel_ne ?_ <;> simp

theorem readoutName_not_qreg {code : Code} {dh dw : Int} {name : Str} {pref : Nat} {k : Int} {r : Reg}
    (h : r ∈ (mkLattice code dh dw name pref).qregs) : r.name ≠ readoutName name k := by
  unfold readoutName
  rw [List.append_assoc]
  rcases mkLattice_qreg_name h with e | e | e | e <;> rw [e] <;> refine cancel_ne ?_ <;> simp

theorem latticeName_not_qreg {code : Code} {dh dw : Int} {name : Str} {pref : Nat} {k : Int} {r : Reg}
    (h : r ∈ (mkLattice code dh dw name pref).qregs) : r.name ≠ latticeName name k := by
  unfold latticeName
  rw [List.append_assoc]
  rcases mkLattice_qreg_name h with e | e | e | e <;> rw [e] <;> refine cancel_ne ?_ <;> simp

end Qtc
