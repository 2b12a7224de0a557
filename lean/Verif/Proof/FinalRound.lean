import Verif.Proof.Readout
import Verif.Proof.Corners
namespace Qtc
open Spec

def bitInt (b : Bool) : Int := if b then 1 else 0

theorem intOfChar_bit (c : Char) (h : c = '0' ∨ c = '1') : intOfChar c = .ok (bitInt (chBit c)) := by
  rcases h with rfl | rfl <;> rfl

theorem vals_eq (final : Str) (h : ∀ c ∈ final, c = '0' ∨ c = '1') :
    final.mapM intOfChar = .ok (final.map fun c => bitInt (chBit c)) :=
  mapM_ok _ _ _ fun c hc => intOfChar_bit c (h c hc)

theorem pyIdx_vals (final : Str) (q : Int) (h0 : 0 ≤ q) (h1 : q < final.length) :
    pyIdx (final.map fun c => bitInt (chBit c)).reverse q = .ok (bitInt (dataBit final q)) := by
  unfold pyIdx
  have hq : q.toNat < final.length := by omega
  simp only [if_neg (by omega : ¬ q < 0)]
  rw [← List.map_reverse, List.getElem?_map]
  unfold dataBit bitFromRight
  have hl : q.toNat < final.reverse.length := by rw [List.length_reverse]; exact hq
  rw [List.getElem?_eq_getElem hl]
  simp only [Option.map_some, chBit]
  by_cases e : final.reverse[q.toNat] = '1' <;> simp [e]

theorem sum_bits_mod (l : List Bool) : (l.map bitInt).sum.fmod 2 = bitInt (xorAll l) := by
  rw [Int.fmod_eq_emod_of_nonneg _ (by omega)]
  have : ∀ l : List Bool, (l.map bitInt).sum % 2 = bitInt (xorAll l) := by
    intro l
    induction l with
    | nil => rfl
    | cons b l ih =>
      rw [List.map_cons, List.sum_cons, xorAll_cons]
      cases b <;> cases h : xorAll l <;> simp [bitInt, h] at ih ⊢ <;> omega
  exact this l

theorem stabilizerVal_eq (final : Str) (p : Plaq) (n : Int) (hn : (final.length : Int) = n)
    (hp : ∀ q, some q ∈ p.corners → 0 ≤ q ∧ q < n) :
    stabilizerVal (final.map fun c => bitInt (chBit c)).reverse p =
      .ok (bitInt (parityOn (dataBit final) p.corners)) := by
  unfold stabilizerVal
  rw [mapM_ok _ (fun o => bitInt (optFlip (dataBit final) o))]
  · simp only [bind, Except.bind, pure, Except.pure]
    have := sum_bits_mod (p.corners.map (optFlip (dataBit final)))
    rw [List.map_map] at this
    unfold parityOn
    rw [← this]; rfl
  · intro o ho
    cases o with
    | none => rfl
    | some q =>
      have := hp q ho
      exact pyIdx_vals final q this.1 (by omega)

def bitCh (b : Bool) : Char := if b then '1' else '0'

theorem strBit_bitInt (b : Bool) : strBit (bitInt b) = [bitCh b] := by cases b <;> rfl

theorem stabilizerStr_eq (final : Str) (geom : List Plaq) (n : Int) (hn : (final.length : Int) = n)
    (hp : ∀ p ∈ geom, ∀ q, some q ∈ p.corners → 0 ≤ q ∧ q < n) :
    stabilizerStr (final.map fun c => bitInt (chBit c)).reverse geom =
      .ok (geom.map fun p => bitCh (parityOn (dataBit final) p.corners)).reverse := by
  unfold stabilizerStr
  have : ∀ (geom : List Plaq) (acc : Str), (∀ p ∈ geom, ∀ q, some q ∈ p.corners → 0 ≤ q ∧ q < n) →
      geom.foldlM (fun acc p => do
        let v ← stabilizerVal (final.map fun c => bitInt (chBit c)).reverse p
        return strBit v ++ acc) acc =
      (.ok ((geom.map fun p => bitCh (parityOn (dataBit final) p.corners)).reverse ++ acc) : Py Str) := by
    intro geom
    induction geom with
    | nil => intro acc _; rfl
    | cons p geom ih =>
      intro acc h
      rw [List.foldlM_cons, stabilizerVal_eq final p n hn (h p (by simp))]
      simp only [bind, Except.bind, pure, Except.pure, strBit_bitInt]
      have := ih ([bitCh (parityOn (dataBit final) p.corners)] ++ acc) fun p' hp' => h p' (by simp [hp'])
      simp only [bind, Except.bind, pure, Except.pure] at this
      rw [this]
      simp
  have := this geom [] hp
  simpa using this

theorem parityLoop_eq (final : Str) (idxs : List Int) (n : Int) (hn : (final.length : Int) = n)
    (hi : ∀ q ∈ idxs, 0 ≤ q ∧ q < n) :
    parityLoop (final.map fun c => bitInt (chBit c)).reverse idxs =
      .ok (bitInt (xorAll (idxs.map (dataBit final)))) := by
  unfold parityLoop
  have : ∀ (idxs : List Int) (b : Bool), (∀ q ∈ idxs, 0 ≤ q ∧ q < n) →
      idxs.foldlM (fun acc idx => do
        let v ← pyIdx (final.map fun c => bitInt (chBit c)).reverse idx
        return (acc + v).fmod 2) (bitInt b) =
      (.ok (bitInt (b ^^ xorAll (idxs.map (dataBit final)))) : Py Int) := by
    intro idxs
    induction idxs with
    | nil => intro b _; simp [pure, Except.pure]
    | cons q idxs ih =>
      intro b h
      have hq := h q (by simp)
      rw [List.foldlM_cons, pyIdx_vals final q hq.1 (by omega)]
      simp only [bind, Except.bind, pure, Except.pure]
      have e : (bitInt b + bitInt (dataBit final q)).fmod 2 = bitInt (b ^^ dataBit final q) := by
        cases b <;> cases dataBit final q <;> rfl
      rw [e]
      have := ih (b ^^ dataBit final q) fun q' hq' => h q' (by simp [hq'])
      simp only [bind, Except.bind, pure, Except.pure] at this
      rw [this]
      simp
  have := this idxs false hi
  simpa [bitInt] using this

theorem isBits_bitCh (l : List Bool) : ∀ c ∈ l.map bitCh, c = '0' ∨ c = '1' := by
  intro c hc
  obtain ⟨b, -, rfl⟩ := List.mem_map.1 hc
  cases b <;> simp [bitCh]

theorem bitFromRight_append (a b : Str) (i : Nat) :
    bitFromRight (a ++ b) i = if i < b.length then bitFromRight b i else bitFromRight a (i - b.length) := by
  unfold bitFromRight
  rw [List.reverse_append, List.getElem?_append, List.length_reverse]
  split <;> rfl

theorem bitFromRight_rev (l : List Bool) (i : Nat) (h : i < l.length) :
    bitFromRight (l.map bitCh).reverse i = l[i] := by
  unfold bitFromRight
  rw [List.reverse_reverse, List.getElem?_map, List.getElem?_eq_getElem h]
  cases l[i] <;> rfl

theorem bitFromRight_take (s : Str) (n m i : Nat) (hs : s.length = n + m) (hi : m ≤ i) :
    bitFromRight (s.take n) (i - m) = bitFromRight s i := by
  unfold bitFromRight
  have : s = s.take n ++ s.drop n := (List.take_append_drop n s).symm
  conv_rhs => rw [this, List.reverse_append, List.getElem?_append_right (by simp; omega)]
  simp only [List.length_reverse, List.length_drop]
  rw [show s.length - n = m by omega]

end Qtc
