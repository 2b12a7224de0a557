import Verif.Props.Graph
import Mathlib.Data.Rat.Floor
import Mathlib.Tactic.Linarith
/-!
C21: sizes given as arbitrary numbers.
-/
namespace Qtc
open Spec

/-- The number is an odd integer (possibly written as a float). -/
def OddNum : Num → Prop
  | .int n => ∃ k : Int, n = 2 * k + 1
  | .flt q => ∃ k : Int, q = 2 * k + 1

theorem notOdd_iff (x : Num) : x.notOdd = true ↔ ¬ OddNum x := by
  cases x with
  | int n =>
    simp only [Num.notOdd, bne_iff_ne, ne_eq, OddNum]
    rw [fmod_pos_eq n (by omega)]
    constructor
    · rintro h ⟨k, rfl⟩
      omega
    · intro h h'
      exact h ⟨n / 2, by omega⟩
  | flt q =>
    simp only [Num.notOdd, bne_iff_ne, ne_eq, OddNum]
    constructor
    · rintro h ⟨k, rfl⟩
      apply h
      have : ((2 * (k : ℚ) + 1) / 2).floor = k := by
        have h1 : ⌊(2 * (k : ℚ) + 1) / 2⌋ = k := by
          rw [Int.floor_eq_iff]
          constructor <;> linarith
        exact h1
      rw [this]
      ring
    · intro h h'
      exact h ⟨(q / 2).floor, by linarith⟩

/-- C21: a tuple or list that is not a pair, or has an entry that is not odd (even, or not integral), is a `LatticeError`; a number that is
even once truncated is one as well. -/
theorem C21_bad_number (limit : Nat) (p : Params) (l : List Num) (T : Int) (hT : p.T = some T)
    (hd : (p.d = some (.tup l) ∨ p.d = some (.lst l)) ∧ (l.length ≠ 2 ∨ ∃ x ∈ l, ¬ OddNum x) ∨ ∃ n : Num, p.d = some (.num n) ∧ n.toInt % 2 = 0) :
    rotatedDecoder limit p = .error .latticeError := by
  have main : ∀ (p : Params) (l : List Num), (l.length ≠ 2 ∨ ∃ x ∈ l, ¬ OddNum x) → (if l.length ≠ 2 then (.error .latticeError : Py Params)
        else do
          let dh ← pyIdx l 0
          let dw ← pyIdx l 1
          if dh.notOdd then .error .latticeError
          else if dw.notOdd then .error .latticeError
          else pure p) = .error .latticeError := by
    intro p l hbad
    by_cases hl : l.length = 2
    · rw [if_neg (by simpa using hl)]
      match l, hl with
      | [a, b], _ =>
        show (if a.notOdd then _ else if b.notOdd then _ else _) = _
        rcases hbad with h | ⟨x, hx, h⟩
        · exact absurd rfl h
        · simp only [List.mem_cons, List.not_mem_nil, or_false] at hx
          by_cases ha : a.notOdd = true
          · rw [if_pos ha]
          · rw [if_neg ha, if_pos]
            rcases hx with rfl | rfl
            · exact absurd ((notOdd_iff _).2 h) ha
            · exact (notOdd_iff _).2 h
    · rw [if_pos hl]
  have hv : latticeDecoderValidate p = .ok () := by
    unfold latticeDecoderValidate
    rw [if_neg]
    rcases hd with ⟨h | h, -⟩ | ⟨n, h, -⟩ <;> simp [h, hT]
  unfold rotatedDecoder rotatedDecoderValidate
  rw [hv]
  rcases hd with ⟨h | h, hbad⟩ | ⟨n, h, hn⟩
  · simp only [h]
    show Except.bind _ _ = _
    erw [main p l hbad]
    rfl
  · simp only [h]
    show Except.bind _ _ = _
    erw [main p l hbad]
    rfl
  · simp only [h]
    show Except.bind _ _ = _
    erw [main _ [.int n.toInt, .int n.toInt] (Or.inr ⟨_, List.mem_cons_self, by rintro ⟨k, hk⟩; omega⟩)]
    rfl

example : rotatedDecoder 100 { d := some (.tup [.int 3, .int 4]), T := some 1 } = .error .latticeError :=
  C21_bad_number 100 _ [.int 3, .int 4] 1 rfl (Or.inl ⟨Or.inl rfl, Or.inr ⟨.int 4, by simp, by rintro ⟨k, hk⟩; omega⟩⟩)

example : rotatedDecoder 100 { d := some (.lst [.int 3, .flt (1/2)]), T := some 1 } = .error .latticeError :=
  C21_bad_number 100 _ [.int 3, .flt (1/2)] 1 rfl (Or.inl ⟨Or.inr rfl, Or.inr ⟨.flt (1/2), by simp, by
    rw [← notOdd_iff]
    decide +kernel⟩⟩)

/-- C21: a pair of odd numbers one of which is a float passes the checks, but then `range` raises `TypeError`. -/
theorem C21_float_size (limit : Nat) (p : Params) (a b : Num) (T : Int) (hT : p.T = some T) (hd : p.d = some (.tup [a, b]) ∨ p.d = some (.lst [a, b]))
    (ha : OddNum a) (hb : OddNum b) (hf : (∃ q, a = .flt q) ∨ ∃ q, b = .flt q) : rotatedDecoder limit p = .error .typeError := by
  have ha' : a.notOdd = false := by
    rw [Bool.eq_false_iff]
    exact fun h => (notOdd_iff a).1 h ha
  have hb' : b.notOdd = false := by
    rw [Bool.eq_false_iff]
    exact fun h => (notOdd_iff b).1 h hb
  have hv : latticeDecoderValidate p = .ok () := by
    unfold latticeDecoderValidate
    rw [if_neg]
    rcases hd with h | h <;> simp [h, hT]
  have hs : decoderSizes p = .error .typeError := by
    unfold decoderSizes
    rcases hd with h | h <;> rw [h] <;> rcases hf with ⟨q, rfl⟩ | ⟨q, rfl⟩ <;> first | rfl | (cases a <;> rfl)
  have hr : rotatedDecoderValidate p = .ok p := by
    unfold rotatedDecoderValidate
    rw [hv]
    rcases hd with h | h
    · simp only [h]
      show (if a.notOdd then (.error .latticeError : Py Params) else if b.notOdd then _ else _) = _
      rw [ha', hb']
      rfl
    · simp only [h]
      show (if a.notOdd then (.error .latticeError : Py Params) else if b.notOdd then _ else _) = _
      rw [ha', hb']
      rfl
  unfold rotatedDecoder decoderOf
  simp only [hr, hs, bind, Except.bind]

example : rotatedDecoder 100 { d := some (.tup [.flt 3, .int 5]), T := some 1 } = .error .typeError :=
  C21_float_size 100 _ _ _ 1 rfl (Or.inl rfl) ⟨1, by norm_num⟩ ⟨2, rfl⟩ (Or.inl ⟨_, rfl⟩)

end Qtc
