import Mathlib.Data.Nat.Bitwise
import Verif.Spec.Readout
import Verif.Proof.Sites
namespace Qtc
open Spec

theorem splitSpace_ne_nil (s : Str) : splitSpace s ≠ [] := by
  induction s with
  | nil => simp [splitSpace]
  | cons c cs ih =>
    unfold splitSpace
    split
    · simp
    · split <;> simp

theorem splitSpace_nospace (w : Str) (hw : ' ' ∉ w) : splitSpace w = [w] := by
  induction w with
  | nil => rfl
  | cons c cs ih =>
    simp only [List.mem_cons, not_or] at hw
    unfold splitSpace
    rw [if_neg (fun e => hw.1 e.symm), ih hw.2]

theorem splitSpace_append (w rest : Str) (hw : ' ' ∉ w) :
    splitSpace (w ++ ' ' :: rest) = w :: splitSpace rest := by
  induction w with
  | nil => simp [splitSpace]
  | cons c cs ih =>
    simp only [List.mem_cons, not_or] at hw
    simp only [List.cons_append]
    rw [splitSpace, if_neg (fun e => hw.1 e.symm), ih hw.2]

theorem splitSpace_joinSp : ∀ (l : List Str), l ≠ [] → (∀ w ∈ l, ' ' ∉ w) → splitSpace (joinSp l) = l
  | [], h, _ => absurd rfl h
  | [w], _, h => by rw [joinSp]; exact splitSpace_nospace w (h w (by simp))
  | w :: w' :: ws, _, h => by
    rw [joinSp, splitSpace_append _ _ (h w (by simp)), splitSpace_joinSp (w' :: ws) (by simp)
      fun x hx => h x (by simp [hx])]
    · simp

/-! ### binary numerals -/

/-- Value of a list of bits, least significant first. -/
def bval : List Bool → Nat
  | [] => 0
  | b :: l => Nat.bit b (bval l)

theorem bval_testBit (l : List Bool) (i : Nat) : (bval l).testBit i = (l[i]? == some true) := by
  induction l generalizing i with
  | nil => simp [bval]
  | cons b l ih =>
    cases i with
    | zero => cases b <;> simp [bval]
    | succ i =>
      rw [bval, Nat.testBit_bit_succ, ih]; simp

def chBit (c : Char) : Bool := c == '1'

theorem binGo_eq (s : Str) (hs : ∀ c ∈ s, c = '0' ∨ c = '1') (acc : Nat) :
    binGo acc s = .ok (s.foldl (fun a c => 2 * a + (chBit c).toNat) acc) := by
  induction s generalizing acc with
  | nil => rfl
  | cons c s ih =>
    have hs' := fun c' hc' => hs c' (List.mem_cons_of_mem _ hc')
    rcases hs c (by simp) with rfl | rfl
    · simp [binGo, ih hs', chBit]
    · simp [binGo, ih hs', chBit]

theorem foldl_bval (s : Str) :
    s.foldl (fun a c => 2 * a + (chBit c).toNat) 0 = bval (s.reverse.map chBit) := by
  have : ∀ (l : List Char), l.foldr (fun c a => 2 * a + (chBit c).toNat) 0 = bval (l.map chBit) := by
    intro l
    induction l with
    | nil => rfl
    | cons c l ih =>
      simp only [List.foldr_cons, List.map_cons, bval, ih]
      cases chBit c <;> simp [Nat.bit]
  rw [← this, List.foldr_reverse]

/-- The number denoted by a binary string. -/
def sval (s : Str) : Nat := bval (s.reverse.map chBit)

theorem sval_testBit (s : Str) (i : Nat) : (sval s).testBit i = bitFromRight s i := by
  unfold sval bitFromRight
  rw [bval_testBit, List.getElem?_map]
  cases s.reverse[i]? with
  | none => rfl
  | some c =>
    simp only [Option.map_some, chBit]
    by_cases h : c = '1' <;> simp [h]

theorem parseBin_eq (s : Str) (hs : IsBits s) : parseBin s = .ok (sval s) := by
  unfold parseBin
  rw [if_neg hs.1, binGo_eq s hs.2, foldl_bval]; rfl

theorem binGo_error (s : Str) (acc : Nat) (h : ∃ c ∈ s, c ≠ '0' ∧ c ≠ '1') : binGo acc s = .error .valueError := by
  induction s generalizing acc with
  | nil => obtain ⟨c, hc, _⟩ := h; cases hc
  | cons c s ih =>
    unfold binGo
    obtain ⟨c', hc', h0, h1⟩ := h
    rcases List.mem_cons.1 hc' with rfl | hm
    · rw [if_neg h0, if_neg h1]
    · split
      · exact ih _ ⟨c', hm, h0, h1⟩
      · split
        · exact ih _ ⟨c', hm, h0, h1⟩
        · rfl

theorem parseBin_error (s : Str) (h : ¬ IsBits s) : parseBin s = .error .valueError := by
  unfold parseBin
  split
  · rfl
  · rename_i hne
    refine binGo_error s 0 ?_
    by_contra hc
    push Not at hc
    refine h ⟨hne, fun c hcs => ?_⟩
    by_cases h0 : c = '0'
    · exact Or.inl h0
    · exact Or.inr (hc c hcs h0)

theorem mapM_ok {α β : Type} (f : α → Py β) (g : α → β) (l : List α) (h : ∀ a ∈ l, f a = .ok (g a)) :
    l.mapM f = .ok (l.map g) := by
  induction l with
  | nil => rfl
  | cons a l ih =>
    rw [List.mapM_cons, h a (by simp), ih fun b hb => h b (by simp [hb])]
    rfl

theorem mapM_error {α β : Type} (f : α → Py β) (e : PyErr) (l : List α)
    (h : ∀ a ∈ l, (∃ b, f a = .ok b) ∨ f a = .error e) (hex : ∃ a ∈ l, f a = .error e) :
    l.mapM f = .error e := by
  induction l with
  | nil => obtain ⟨a, ha, _⟩ := hex; cases ha
  | cons a l ih =>
    rw [List.mapM_cons]
    rcases h a (by simp) with ⟨b, hb⟩ | hb
    · rw [hb]
      have : ∃ a ∈ l, f a = .error e := by
        obtain ⟨a', ha', he⟩ := hex
        rcases List.mem_cons.1 ha' with rfl | hm
        · rw [hb] at he; cases he
        · exact ⟨a', hm, he⟩
      have := ih (fun b hb => h b (by simp [hb])) this
      simp only [bind, Except.bind, this]
    · rw [hb]; rfl

theorem and_one_shift (s loc : Nat) : (s &&& (1 <<< loc) ≠ 0) ↔ s.testBit loc = true := by
  constructor
  · intro h
    obtain ⟨i, hi⟩ := Nat.exists_testBit_of_ne_zero h
    rw [Nat.testBit_and, Bool.and_eq_true, Nat.testBit_shiftLeft] at hi
    obtain ⟨h1, h2⟩ := hi
    simp only [ge_iff_le, Bool.and_eq_true, decide_eq_true_eq] at h2
    have : i - loc = 0 := by
      by_contra hne
      have := Nat.testBit_one_eq_true_iff_self_eq_zero.1 h2.2
      omega
    have : i = loc := by omega
    rwa [this] at h1
  · intro h he
    have : (s &&& (1 <<< loc)).testBit loc = true := by
      rw [Nat.testBit_and, h, Nat.testBit_shiftLeft]; simp
    rw [he] at this
    simp at this

/-- Detection events from a list of XOR-ed syndrome words. -/
theorem hitLoop_eq (n : Int) (coord : Int → Int × Int) (ss : List Nat) :
    hitLoop n coord ss = ss.zipIdx.flatMap (fun (s, T) =>
      (List.range n.toNat).flatMap (fun (loc : Nat) =>
        if s.testBit loc then
          [{ t := (T : Int), r2 := (coord loc).1, c2 := (coord loc).2 }]
        else [])) := by
  unfold hitLoop
  congr 1
  funext ⟨s, T⟩
  simp only [and_one_shift]
  rfl

theorem zipIdx_flatMap_eq {α β : Type} (l : List α) (g : α → Nat → List β) :
    l.zipIdx.flatMap (fun (a, i) => g a i) =
      (List.range l.length).flatMap (fun i => match l[i]? with | some a => g a i | none => []) := by
  have : ∀ (k : Nat), (l.zipIdx k).flatMap (fun (a, i) => g a i) =
      (List.range l.length).flatMap (fun i => match l[i]? with | some a => g a (k + i) | none => []) := by
    induction l with
    | nil => intro k; rfl
    | cons a l ih =>
      intro k
      rw [List.zipIdx_cons, List.flatMap_cons, ih, List.length_cons, List.range_succ_eq_map, List.flatMap_cons,
        List.flatMap_map]
      congr 1
      congr 1
      funext i
      simp only [Nat.succ_eq_add_one, List.getElem?_cons_succ]
      rw [Nat.add_right_comm, Nat.add_assoc]
  simpa using this 0

theorem flatMap_congr' {α β : Type} {l : List α} {f g : α → List β} (h : ∀ a ∈ l, f a = g a) :
    l.flatMap f = l.flatMap g := by
  induction l with
  | nil => rfl
  | cons a l ih =>
    rw [List.flatMap_cons, List.flatMap_cons, h a (by simp), ih fun b hb => h b (by simp [hb])]

/-- Main lemma: hits computed from XOR-ed words are the changes of the corresponding bits. -/
theorem hitLoop_changes (n : Int) (coord : Int → Int × Int) (sites : List (Int × Int))
    (hsites : sites = (List.range n.toNat).map fun (k : Nat) => coord k)
    (words : List Nat) (bits : List (Nat → Bool)) (hlen : words.length = bits.length - 1)
    (hw : ∀ (t : Nat) w a b, words[t]? = some w → bits[t]? = some a → bits[t+1]? = some b →
      ∀ k < n.toNat, w.testBit k = (a k ^^ b k)) :
    hitLoop n coord words = changes sites bits := by
  rw [hitLoop_eq]
  refine (zipIdx_flatMap_eq words fun s T => (List.range n.toNat).flatMap (fun (loc : Nat) =>
        if s.testBit loc then
          [({ t := (T : Int), r2 := (coord loc).1, c2 := (coord loc).2 } : Node)]
        else [])).trans ?_
  unfold changes
  rw [hlen]
  refine flatMap_congr' fun t ht => ?_
  rw [List.mem_range] at ht
  have h1 : t < words.length := by omega
  have h2 : t < bits.length := by omega
  have h3 : t + 1 < bits.length := by omega
  rw [List.getElem?_eq_getElem h1, List.getElem?_eq_getElem h2, List.getElem?_eq_getElem h3]
  have hl : sites.length = n.toNat := by rw [hsites]; simp
  rw [hl]
  refine flatMap_congr' fun k hk => ?_
  rw [List.mem_range] at hk
  have hs : sites[k]? = some (coord k) := by rw [hsites]; simp [hk]
  rw [hs]
  have := hw t _ _ _ (List.getElem?_eq_getElem h1) (List.getElem?_eq_getElem h2) (List.getElem?_eq_getElem h3) k hk
  simp only [this]
  cases bits[t] k <;> cases bits[t+1] k <;> simp

theorem xorPairs_length (l : List Nat) : (xorPairs l).length = l.length - 1 := by
  unfold xorPairs; simp

theorem xorPairs_getElem? (l : List Nat) (t w : Nat) (h : (xorPairs l)[t]? = some w) :
    ∃ a b, l[t]? = some a ∧ l[t+1]? = some b ∧ w = a ^^^ b := by
  unfold xorPairs at h
  rw [List.getElem?_map, Option.map_eq_some_iff] at h
  obtain ⟨⟨a, b⟩, hab, rfl⟩ := h
  rw [List.getElem?_zip_eq_some] at hab
  refine ⟨a, b, hab.1, ?_, rfl⟩
  have := hab.2
  rw [List.getElem?_drop] at this
  rwa [Nat.add_comm] at this

theorem isBits_mask (a b : Nat) (h : 0 < a + b) : IsBits (List.replicate a '1' ++ List.replicate b '0') := by
  constructor
  · intro e
    have := congrArg List.length e
    simp at this; omega
  · intro c hc
    rw [List.mem_append, List.mem_replicate, List.mem_replicate] at hc
    tauto

theorem mask_bit (a b i : Nat) :
    bitFromRight (List.replicate a '1' ++ List.replicate b '0') i = decide (b ≤ i ∧ i < a + b) := by
  unfold bitFromRight
  rw [List.reverse_append, List.reverse_replicate, List.reverse_replicate, List.getElem?_append]
  rw [List.length_replicate]
  split
  · rename_i h
    rw [List.getElem?_replicate, if_pos h]
    have : ¬ (b ≤ i ∧ i < a + b) := by omega
    simp [this]
  · rename_i h
    rw [List.getElem?_replicate]
    split
    · rename_i h'
      have : b ≤ i ∧ i < a + b := by omega
      simp [this]
    · rename_i h'
      have : ¬ (b ≤ i ∧ i < a + b) := by omega
      simp [this]

/-- `parse_readout` after the logical value: for rounds of valid bits (oldest first) the hits are the changes. -/
theorem parseRounds_eq {dh dw : Int} (H : OddPos dh dw) (hn : 0 < numSynX dh dw + numSynZ dh dw)
    (rounds : List Str) (hr : ∀ s ∈ rounds, IsBits s) :
    parseRounds dh dw rounds.reverse =
      .ok { X := changes (xSites dh dw) (rounds.map (xBits (numSynZ dh dw).toNat))
            Z := changes (zSites dh dw) (rounds.map zBits) } := by
  obtain ⟨h, w, hh, hw, rfl, rfl⟩ := oddPos_cases H
  have hx0 : 0 ≤ numSynX (2*h+1) (2*w+1) := by
    rw [numSynX_odd]; exact Int.mul_nonneg (by omega) (by omega)
  have hz0 : 0 ≤ numSynZ (2*h+1) (2*w+1) := by
    rw [numSynZ_odd]; exact Int.mul_nonneg (by omega) (by omega)
  have hxs := xSites_eq (h := h) (w := w) hw
  have hzs := zSites_eq (h := h) (w := w) hw
  unfold pyRange at hxs hzs
  rw [List.map_map] at hxs hzs
  unfold parseRounds
  generalize numSynX (2*h+1) (2*w+1) = nx at *
  generalize numSynZ (2*h+1) (2*w+1) = nz at *
  rw [List.reverse_reverse, mapM_ok parseBin sval rounds fun s hs => parseBin_eq s (hr s hs)]
  simp only [bind, Except.bind]
  have hmx := parseBin_eq _ (isBits_mask nx.toNat nz.toNat (by omega))
  rw [mapM_ok _ (fun x => (x &&& sval (List.replicate nx.toNat '1' ++ List.replicate nz.toNat '0')) >>> nz.toNat)
    _ (by intro a _; rw [hmx]; rfl)]
  have hX : ∀ nzs : Nat, nzs = nz.toNat → hitLoop nx (coordX (2*w+1)) ((xorPairs (rounds.map sval)).map
      (fun x => (x &&& sval (List.replicate nx.toNat '1' ++ List.replicate nz.toNat '0')) >>> nzs)) =
      changes (xSites (2*h+1) (2*w+1)) (rounds.map (xBits nz.toNat)) := by
    rintro _ rfl
    refine hitLoop_changes nx _ _ hxs _ _ (by simp [xorPairs_length]) ?_
    intro t w a b hwt ha hb k hk
    rw [List.getElem?_map, Option.map_eq_some_iff] at hwt ha hb
    obtain ⟨w', hw', rfl⟩ := hwt
    obtain ⟨sa, hsa, rfl⟩ := ha
    obtain ⟨sb, hsb, rfl⟩ := hb
    obtain ⟨va, vb, h1, h2, rfl⟩ := xorPairs_getElem? _ _ _ hw'
    rw [List.getElem?_map, hsa] at h1
    rw [List.getElem?_map, hsb] at h2
    simp only [Option.map_some, Option.some.injEq] at h1 h2
    subst h1 h2
    rw [Nat.testBit_shiftRight, Nat.testBit_and, Nat.testBit_xor, sval_testBit, sval_testBit, sval_testBit, mask_bit,
      decide_eq_true (by omega)]
    simp [xBits]
  have hZ : nz.toNat ≠ 0 → hitLoop nz (coordZ (2*w+1)) ((xorPairs (rounds.map sval)).map
      (fun x => x &&& sval (List.replicate nz.toNat '1'))) =
      changes (zSites (2*h+1) (2*w+1)) (rounds.map zBits) := by
    intro hne
    refine hitLoop_changes nz _ _ hzs _ _ (by simp [xorPairs_length]) ?_
    intro t w a b hwt ha hb k hk
    rw [List.getElem?_map, Option.map_eq_some_iff] at hwt ha hb
    obtain ⟨w', hw', rfl⟩ := hwt
    obtain ⟨sa, hsa, rfl⟩ := ha
    obtain ⟨sb, hsb, rfl⟩ := hb
    obtain ⟨va, vb, h1, h2, rfl⟩ := xorPairs_getElem? _ _ _ hw'
    rw [List.getElem?_map, hsa] at h1
    rw [List.getElem?_map, hsb] at h2
    simp only [Option.map_some, Option.some.injEq] at h1 h2
    subst h1 h2
    have hm := mask_bit nz.toNat 0 k
    simp only [List.replicate_zero, List.append_nil] at hm
    rw [Nat.testBit_and, Nat.testBit_xor, sval_testBit, sval_testBit, sval_testBit, hm, decide_eq_true (by omega)]
    simp [zBits]
  have hmz0 : (List.replicate nz.toNat '1' = []) ↔ nz.toNat = 0 := by simp
  simp only
  by_cases hz : nz.toNat = 0
  · rw [if_neg (by simp [hz])]
    simp only [pure, Except.pure]
    rw [hX _ rfl]
    have e1 : zSites (2*h+1) (2*w+1) = [] := by rw [hzs, hz]; rfl
    have e2 : changes (zSites (2*h+1) (2*w+1)) (rounds.map zBits) = [] := by
      unfold changes; rw [e1]; simp
    rw [e2]
    rfl
  · rw [if_pos (by simp [hz])]
    have hmz := parseBin_eq (List.replicate nz.toNat '1') (by
      have := isBits_mask nz.toNat 0 (by omega)
      simpa using this)
    rw [mapM_ok _ (fun x => (x &&& sval (List.replicate nz.toNat '1'))) _ (by intro a _; rw [hmz]; rfl)]
    simp only [pure, Except.pure]
    rw [hX _ rfl, hZ hz]

end Qtc
