import Verif.Proof.FinalRound
/-!
Properties C15-C20: parsing readout strings.
-/
namespace Qtc
open Spec

theorem isBits_nospace {s : Str} (h : ∀ c ∈ s, c = '0' ∨ c = '1') : ' ' ∉ s := by
  intro hc
  rcases h ' ' hc with h | h <;> exact absurd h (by decide)

/-- Value of a decimal digit. -/
def digitVal (c : Char) : Int := (c.toNat : Int) - ('0'.toNat : Int)

/-- C15: a string made of a one-digit logical value and rounds of bits, newest first, is parsed to that digit and to the
changes between consecutive rounds: X events from the high bits at the X positions, Z events from the low bits at the
Z positions.  `rounds` lists the rounds oldest first; the order and multiplicity of events is part of the claim. -/
theorem C15_parse_is_changes (dh dw : Int) (H : OddPos dh dw) (hbig : 1 < dh * dw) (rt : RType)
    (v : Char) (hv : v.isDigit = true) (rounds : List Str) (hr : ∀ s ∈ rounds, IsBits s) :
    parseReadout dh dw (joinSp ([v] :: rounds.reverse)) rt =
      .ok (digitVal v,
        { X := changes (xSites dh dw) (rounds.map (xBits (zSites dh dw).length))
          Z := changes (zSites dh dw) (rounds.map zBits) }) := by
  have hnz : (zSites dh dw).length = (numSynZ dh dw).toNat := by
    obtain ⟨h, w, hh, hw, rfl, rfl⟩ := oddPos_cases H
    rw [zSites_eq hw]; simp [pyRange]
  have hn : 0 < numSynX dh dw + numSynZ dh dw := by
    obtain ⟨h, w, hh, hw, rfl, rfl⟩ := oddPos_cases H
    rw [numSynX_odd, numSynZ_odd]
    have e : (2*h+1)*(2*w+1) = (h+1)*(2*w) + (w+1)*(2*h) + 1 := by
      simp only [Int.add_mul, Int.mul_add, Int.one_mul, Int.mul_one]
      have : 2 * h * (2 * w) = h * (2*w) + w * (2*h) := by
        have a : 2*h*(2*w) = 2 * (h * (2*w)) := Int.mul_assoc _ _ _
        have b : w * (2*h) = h * (2*w) := by
          rw [Int.mul_comm w, Int.mul_comm 2 h, Int.mul_assoc]
        omega
      omega
    omega
  unfold parseReadout parseChunks
  rw [splitSpace_joinSp _ (by simp)]
  · have h0 : pyIdx ([v] :: rounds.reverse) 0 = .ok [v] := rfl
    rw [h0]
    have hv' : intOfChar v = .ok (digitVal v) := by
      unfold intOfChar
      rw [if_pos hv]
      unfold Char.isDigit at hv
      simp only [ge_iff_le, Bool.and_eq_true, decide_eq_true_eq] at hv
      unfold digitVal
      have : '0'.toNat ≤ v.toNat := hv.1
      simp only [Int.ofNat_eq_natCast]
      congr 1; omega
    simp only [bind, Except.bind, List.length_singleton, Nat.lt_irrefl, ↓reduceIte, hv', List.drop_succ_cons, List.drop_zero]
    rw [parseRounds_eq H hn rounds hr, hnz]
    rfl
  · intro w hw
    rcases List.mem_cons.1 hw with rfl | hw
    · simp only [List.mem_singleton]
      rintro rfl
      exact absurd hv (by decide)
    · exact isBits_nospace (hr w (List.mem_reverse.1 hw)).2

/-- The example string of the documentation: one X event at `(0, 0.5, 1.5)` (bit 5 of `00100000` is X syndrome 1). -/
example : parseReadout 3 3 "1 00100000 00000000".toList .none =
    .ok (1, { X := [{ t := 0, r2 := 1, c2 := 3 }], Z := [] }) := by decide

example : OddPos 3 3 ∧ (∀ s ∈ ["00000000".toList, "00100000".toList], IsBits s) ∧
    joinSp (['1'] :: ["00000000".toList, "00100000".toList].reverse) = "1 00100000 00000000".toList := by
  unfold OddPos IsBits; decide

/-- C16: two readouts with the same X bits (resp. Z bits) in every round give the same X events (resp. Z events),
whatever the other bits and whatever is written beyond the syndrome width. -/
theorem C16_no_leak (dh dw : Int) (H : OddPos dh dw) (hbig : 1 < dh * dw) (rt : RType)
    (v v' : Char) (hv : v.isDigit = true) (hv' : v'.isDigit = true) (rounds rounds' : List Str)
    (hr : ∀ s ∈ rounds, IsBits s) (hr' : ∀ s ∈ rounds', IsBits s) (hlen : rounds.length = rounds'.length)
    (l l' : Int) (hits hits' : Hits)
    (hp : parseReadout dh dw (joinSp ([v] :: rounds.reverse)) rt = .ok (l, hits))
    (hp' : parseReadout dh dw (joinSp ([v'] :: rounds'.reverse)) rt = .ok (l', hits')) :
    ((∀ (t k : Nat) (s s' : Str), rounds[t]? = some s → rounds'[t]? = some s' → k < (xSites dh dw).length →
        bitFromRight s ((zSites dh dw).length + k) = bitFromRight s' ((zSites dh dw).length + k)) → hits.X = hits'.X) ∧
    ((∀ (t k : Nat) (s s' : Str), rounds[t]? = some s → rounds'[t]? = some s' → k < (zSites dh dw).length →
        bitFromRight s k = bitFromRight s' k) → hits.Z = hits'.Z) := by
  rw [C15_parse_is_changes dh dw H hbig rt v hv rounds hr] at hp
  rw [C15_parse_is_changes dh dw H hbig rt v' hv' rounds' hr'] at hp'
  cases hp
  cases hp'
  have key : ∀ (sites : List (Int × Int)) (B : Str → Nat → Bool),
      (∀ (t k : Nat) (s s' : Str), rounds[t]? = some s → rounds'[t]? = some s' → k < sites.length → B s k = B s' k) →
      changes sites (rounds.map B) = changes sites (rounds'.map B) := by
    intro sites B hB
    unfold changes
    rw [List.length_map, List.length_map, hlen]
    refine flatMap_congr' fun t ht => flatMap_congr' fun k hk => ?_
    rw [List.mem_range] at ht hk
    have t1 : t < rounds.length := by omega
    have t2 : t < rounds'.length := by omega
    have t3 : t + 1 < rounds.length := by omega
    have t4 : t + 1 < rounds'.length := by omega
    simp only [List.getElem?_map, List.getElem?_eq_getElem t1, List.getElem?_eq_getElem t2,
      List.getElem?_eq_getElem t3, List.getElem?_eq_getElem t4, Option.map_some, List.getElem?_eq_getElem hk]
    rw [hB t k _ _ (List.getElem?_eq_getElem t1) (List.getElem?_eq_getElem t2) hk,
      hB (t+1) k _ _ (List.getElem?_eq_getElem t3) (List.getElem?_eq_getElem t4) hk]
  exact ⟨key _ _, key _ _⟩

/-- Two different strings meeting the X hypothesis of C16: the Z bits and the over-long first round differ. -/
example : parseReadout 3 3 "1 00100000 00000000".toList .none =
      .ok (1, { X := [{ t := 0, r2 := 1, c2 := 3 }], Z := [] }) ∧
    parseReadout 3 3 "1 00100001 1100000000".toList .none =
      .ok (1, { X := [{ t := 0, r2 := 1, c2 := 3 }], Z := [{ t := 0, r2 := 1, c2 := 1 }] }) := by decide

/-! ### C17 -/

theorem mem_changes {sites : List (Int × Int)} {bits : List (Nat → Bool)} {n : Node} :
    n ∈ changes sites bits ↔ ∃ (t k : Nat) (a b : Nat → Bool) (s : Int × Int), bits[t]? = some a ∧ bits[t+1]? = some b ∧
      sites[k]? = some s ∧ a k ≠ b k ∧ n = { t := t, r2 := s.1, c2 := s.2 } := by
  unfold changes
  simp only [List.mem_flatMap, List.mem_range]
  constructor
  · rintro ⟨t, ht, k, hk, hn⟩
    have t1 : t < bits.length := by omega
    have t2 : t + 1 < bits.length := by omega
    rw [List.getElem?_eq_getElem t1, List.getElem?_eq_getElem t2, List.getElem?_eq_getElem hk] at hn
    simp only at hn
    split at hn
    · rename_i hne
      rw [List.mem_singleton] at hn
      exact ⟨t, k, _, _, _, List.getElem?_eq_getElem t1, List.getElem?_eq_getElem t2, List.getElem?_eq_getElem hk, hne, hn⟩
    · cases hn
  · rintro ⟨t, k, a, b, s, ha, hb, hs, hne, rfl⟩
    have t2 := (List.getElem?_eq_some_iff.1 hb).1
    have hk := (List.getElem?_eq_some_iff.1 hs).1
    refine ⟨t, by omega, k, hk, ?_⟩
    rw [ha, hb, hs]
    simp [hne]

theorem changes_nodup {sites : List (Int × Int)} (hs : sites.Nodup) (bits : List (Nat → Bool)) :
    (changes sites bits).Nodup := by
  unfold changes
  unfold List.Nodup
  rw [List.pairwise_flatMap]
  constructor
  · intro t _
    rw [List.pairwise_flatMap]
    constructor
    · intro k _
      split
      · split <;> simp
      · simp
    · refine List.nodup_range.imp_of_mem ?_
      intro k k' hk hk' hne x hx y hy
      rw [List.mem_range] at hk hk'
      rw [List.getElem?_eq_getElem hk] at hx
      rw [List.getElem?_eq_getElem hk'] at hy
      split at hx
      · rename_i h1 h2 h3
        split at hy
        · rename_i h4 h5 h6
          split at hx
          · split at hy
            · rw [List.mem_singleton] at hx hy
              subst hx hy
              intro e
              simp only [Node.mk.injEq] at e
              have h3' := Option.some.inj h3
              have h6' := Option.some.inj h6
              have : sites[k] = sites[k'] := by
                rw [h3', h6']
                exact Prod.ext e.2.1 e.2.2
              exact hne ((hs.getElem_inj_iff).1 this)
            · cases hy
          · cases hx
        · cases hy
      · cases hx
  · refine List.nodup_range.imp_of_mem ?_
    intro t t' ht ht' hne x hx y hy
    simp only [List.mem_flatMap, List.mem_range] at hx hy
    obtain ⟨k, hk, hx⟩ := hx
    obtain ⟨k', hk', hy⟩ := hy
    split at hx
    · split at hy
      · split at hx
        · split at hy
          · rw [List.mem_singleton] at hx hy
            subst hx hy
            intro e
            simp only [Node.mk.injEq] at e
            omega
          · cases hy
        · cases hx
      · cases hy
    · cases hx

theorem mapM_ok_inv {α β : Type} (f : α → Py β) (l : List α) (r : List β) (h : l.mapM f = .ok r) :
    ∀ a ∈ l, ∃ b, f a = .ok b := by
  induction l generalizing r with
  | nil => intro a ha; cases ha
  | cons a l ih =>
    rw [List.mapM_cons] at h
    rcases hfa : f a with e | b
    · rw [hfa] at h; cases h
    · rw [hfa] at h
      simp only [bind, Except.bind] at h
      rcases hm : l.mapM f with e | r'
      · rw [hm] at h; cases h
      · intro x hx
        rcases List.mem_cons.1 hx with rfl | hx
        · exact ⟨b, hfa⟩
        · exact ih r' hm x hx

theorem parseRounds_ok_bits {dh dw : Int} {chunks : List Str} {h : Hits} (hp : parseRounds dh dw chunks = .ok h) :
    ∀ s ∈ chunks, IsBits s := by
  unfold parseRounds at hp
  rcases hm : chunks.reverse.mapM parseBin with e | r
  · rw [hm] at hp; cases hp
  · intro s hs
    obtain ⟨b, hb⟩ := mapM_ok_inv _ _ _ hm s (List.mem_reverse.2 hs)
    by_contra hc
    rw [parseBin_error s hc] at hb
    cases hb

theorem numSyn_pos {dh dw : Int} (H : OddPos dh dw) : numSynX dh dw + numSynZ dh dw = dh * dw - 1 ∧
    0 ≤ numSynX dh dw ∧ 0 ≤ numSynZ dh dw := by
  obtain ⟨h, w, hh, hw, rfl, rfl⟩ := oddPos_cases H
  rw [numSynX_odd, numSynZ_odd]
  have e : (2*h+1)*(2*w+1) = (h+1)*(2*w) + (w+1)*(2*h) + 1 := by
    simp only [Int.add_mul, Int.mul_add, Int.one_mul, Int.mul_one]
    have : 2 * h * (2 * w) = h * (2*w) + w * (2*h) := by
      have a : 2*h*(2*w) = 2 * (h * (2*w)) := Int.mul_assoc _ _ _
      have b : w * (2*h) = h * (2*w) := by
        rw [Int.mul_comm w, Int.mul_comm 2 h, Int.mul_assoc]
      omega
    omega
  exact ⟨by omega, Int.mul_nonneg (by omega) (by omega), Int.mul_nonneg (by omega) (by omega)⟩

theorem parseRounds_good {dh dw : Int} (H : OddPos dh dw) {chunks : List Str} {hits : Hits}
    (hp : parseRounds dh dw chunks = .ok hits) :
    hits.X.Nodup ∧ hits.Z.Nodup ∧
    (∀ n ∈ hits.X, XSite dh dw n.r2 n.c2 ∧ 0 ≤ n.t ∧ n.t + 1 < chunks.length) ∧
    (∀ n ∈ hits.Z, ZSite dh dw n.r2 n.c2 ∧ 0 ≤ n.t ∧ n.t + 1 < chunks.length) := by
  obtain ⟨hs, hx0, hz0⟩ := numSyn_pos H
  by_cases hn : 0 < numSynX dh dw + numSynZ dh dw
  · have hb := parseRounds_ok_bits hp
    have := parseRounds_eq H hn chunks.reverse (fun s hs => hb s (List.mem_reverse.1 hs))
    rw [List.reverse_reverse, hp] at this
    cases this
    have hlt : ∀ {sites : List (Int × Int)} {B : Str → Nat → Bool} {n : Node},
        n ∈ changes sites (chunks.reverse.map B) → (∃ k : Nat, sites[k]? = some (n.r2, n.c2)) ∧ 0 ≤ n.t ∧ n.t + 1 < chunks.length := by
      intro sites B n hn
      obtain ⟨t, k, a, b, s, ha, hb, hs, hne, rfl⟩ := mem_changes.1 hn
      have := (List.getElem?_eq_some_iff.1 hb).1
      rw [List.length_map, List.length_reverse] at this
      exact ⟨⟨k, hs⟩, by simp only; omega, by simp only; omega⟩
    refine ⟨changes_nodup (xSites_nodup _ _) _, changes_nodup (zSites_nodup _ _) _, ?_, ?_⟩
    · intro n hn
      obtain ⟨⟨k, hk⟩, h2⟩ := hlt hn
      exact ⟨mem_xSites.1 (List.mem_of_getElem? hk), h2⟩
    · intro n hn
      obtain ⟨⟨k, hk⟩, h2⟩ := hlt hn
      exact ⟨mem_zSites.1 (List.mem_of_getElem? hk), h2⟩
  · have ex : numSynX dh dw = 0 := by omega
    have ez : numSynZ dh dw = 0 := by omega
    have h0 : ∀ (c : Int → Int × Int) (l : List Nat), hitLoop 0 c l = [] := by
      intro c l; unfold hitLoop; simp
    unfold parseRounds at hp
    simp only [ex, ez, Int.toNat_zero, List.replicate_zero, List.append_nil, bind, Except.bind, ne_eq,
      not_true_eq_false, if_false, h0, pure, Except.pure] at hp
    split at hp
    · cases hp
    · split at hp
      · cases hp
      · cases hp; simp

/-- C17, first half: whatever string parses, the events are pairwise different, lie on stabilizer positions of the right
type and between two consecutive rounds of the string.  (The second half, that these are exactly nodes of the decoder's
graph, is `C17_hits_are_graph_nodes`.) -/
theorem C17_hits_distinct (dh dw : Int) (H : OddPos dh dw) (s : Str) (rt : RType) (l : Int) (hits : Hits)
    (hp : parseReadout dh dw s rt = .ok (l, hits)) :
    hits.X.Nodup ∧ hits.Z.Nodup ∧
    (∀ n ∈ hits.X, XSite dh dw n.r2 n.c2 ∧ 0 ≤ n.t ∧ n.t + 1 < numRounds (splitSpace s)) ∧
    (∀ n ∈ hits.Z, ZSite dh dw n.r2 n.c2 ∧ 0 ≤ n.t ∧ n.t + 1 < numRounds (splitSpace s)) := by
  unfold parseReadout parseChunks at hp
  rcases hch : splitSpace s with _ | ⟨c0, rest⟩
  · exact absurd hch (splitSpace_ne_nil s)
  rw [hch] at hp
  have h0 : pyIdx (c0 :: rest) 0 = .ok c0 := rfl
  rw [h0] at hp
  simp only [bind, Except.bind, List.drop_succ_cons, List.drop_zero] at hp
  unfold numRounds
  simp only
  by_cases hc : 1 < c0.length
  · rw [if_pos hc] at hp ⊢
    by_cases hrt : rt = .none
    · rw [if_pos hrt] at hp; cases hp
    · rw [if_neg hrt] at hp
      split at hp
      · cases hp
      · split at hp
        · cases hp
        · split at hp
          · cases hp
          · rename_i _ _ _ _ h' hh
            simp only [pure, Except.pure, Except.ok.injEq, Prod.mk.injEq] at hp
            obtain ⟨rfl, rfl⟩ := hp
            exact parseRounds_good H hh
  · rw [if_neg hc] at hp ⊢
    split at hp
    · split at hp
      · cases hp
      · split at hp
        · cases hp
        · rename_i _ h' hh
          simp only [pure, Except.pure, Except.ok.injEq, Prod.mk.injEq] at hp
          obtain ⟨rfl, rfl⟩ := hp
          exact parseRounds_good H hh
    · cases hp

/-! ### C18 -/

/-- Characters that cannot occur in anything Python's `int` accepts in base two or ten (ASCII, not a digit, sign,
underscore, base prefix or white space). -/
def NeverNumeral (c : Char) : Prop :=
  c.toNat < 128 ∧ ¬ c.isDigit ∧ c ∉ ['+', '-', '_', 'b', 'B'] ∧ ¬ c.isWhitespace

/-- A chunk that is certainly not a binary numeral. -/
def NotBinary (s : Str) : Prop := s = [] ∨ ∃ c ∈ s, NeverNumeral c

theorem notBinary_not {s : Str} (h : NotBinary s) : ¬ IsBits s := by
  rintro ⟨h1, h2⟩
  rcases h with h | ⟨c, hc, hn⟩
  · exact h1 h
  · rcases h2 c hc with rfl | rfl <;> exact hn.2.1 (by decide)

/-- C18: a logical value that is empty or a non-digit character raises `ValueError`. -/
theorem C18_bad_logical (dh dw : Int) (s c0 : Str) (rest : List Str) (rt : RType) (hs : splitSpace s = c0 :: rest)
    (hc : c0 = [] ∨ ∃ c, c0 = [c] ∧ NeverNumeral c) : parseReadout dh dw s rt = .error .valueError := by
  unfold parseReadout parseChunks
  rw [hs]
  have h0 : pyIdx (c0 :: rest) 0 = .ok c0 := rfl
  rw [h0]
  rcases hc with rfl | ⟨c, rfl, hc⟩
  · rfl
  · have : intOfChar c = .error .valueError := by
      unfold intOfChar
      rw [if_neg hc.2.1]
    simp [bind, Except.bind, this]

/-- C18: one round that is not a binary numeral makes the parse fail with `ValueError` (all other rounds being bits or
equally bad). -/
theorem C18_bad_round (dh dw : Int) (s : Str) (v : Char) (rest : List Str) (rt : RType)
    (hs : splitSpace s = [v] :: rest) (hv : v.isDigit = true) (hrest : ∀ r ∈ rest, IsBits r ∨ NotBinary r)
    (hbad : ∃ r ∈ rest, NotBinary r) : parseReadout dh dw s rt = .error .valueError := by
  unfold parseReadout parseChunks
  rw [hs]
  have h0 : pyIdx ([v] :: rest) 0 = .ok [v] := rfl
  rw [h0]
  have hv' : ∃ x, intOfChar v = .ok x := by unfold intOfChar; rw [if_pos hv]; exact ⟨_, rfl⟩
  obtain ⟨x, hx⟩ := hv'
  have : parseRounds dh dw rest = .error .valueError := by
    unfold parseRounds
    rw [mapM_error parseBin .valueError]
    · rfl
    · intro a ha
      rcases hrest a (List.mem_reverse.1 ha) with h | h
      · exact Or.inl ⟨_, parseBin_eq a h⟩
      · exact Or.inr (parseBin_error a (notBinary_not h))
    · obtain ⟨r, hr, hb⟩ := hbad
      exact ⟨r, List.mem_reverse.2 hr, parseBin_error r (notBinary_not hb)⟩
  simp [bind, Except.bind, hx, this]

/-- C18: a full-lattice readout without a readout type raises `AssertionError`; with a type but without any syndrome
round `IndexError`; with an unknown type `TypeError`. -/
theorem C18_bad_lattice_readout (dh dw : Int) (s c0 : Str) (rest : List Str) (hs : splitSpace s = c0 :: rest)
    (hc : 1 < c0.length) :
    parseReadout dh dw s .none = .error .assertionError ∧
    (rest = [] → ∀ rt, rt ≠ .none → parseReadout dh dw s rt = .error .indexError) ∧
    (rest ≠ [] → parseReadout dh dw s .other = .error .typeError) := by
  have h0 : pyIdx (c0 :: rest) 0 = .ok c0 := rfl
  refine ⟨?_, ?_, ?_⟩
  · unfold parseReadout parseChunks
    rw [hs, h0]
    simp [bind, Except.bind, hc]
  · rintro rfl rt hrt
    unfold parseReadout parseChunks
    rw [hs, h0]
    have h1 : pyIdx [c0] 1 = .error .indexError := rfl
    simp [bind, Except.bind, hc, hrt, h1]
  · intro hne
    obtain ⟨c1, rest', rfl⟩ := List.exists_cons_of_ne_nil hne
    unfold parseReadout parseChunks
    rw [hs, h0]
    have h1 : pyIdx (c0 :: c1 :: rest') 1 = .ok c1 := rfl
    simp [bind, Except.bind, hc, h1, extractFinal]

example : parseReadout 3 3 "x 00000000".toList .none = .error .valueError ∧
    parseReadout 3 3 "1 0000x000 00000000".toList .none = .error .valueError ∧
    parseReadout 3 3 "000000000 00000000".toList .none = .error .assertionError ∧
    parseReadout 3 3 "000000000".toList .Z = .error .indexError ∧
    parseReadout 3 3 "000000000 00000000".toList .other = .error .typeError := by decide

/-! ### C19, C20 -/

theorem plaqZ_idx_range {dh dw : Int} (H : OddPos dh dw) : ∀ p ∈ geometryZ dh dw, ∀ q, some q ∈ p.corners →
    0 ≤ q ∧ q < dh * dw := by
  intro p hp q hq
  have e : p.corners ∈ (geometryZ dh dw).map Plaq.corners := List.mem_map.2 ⟨p, hp, rfl⟩
  rw [geometryZ_corners H] at e
  obtain ⟨s, -, e⟩ := List.mem_map.1 e
  rw [← e] at hq
  obtain ⟨r, c, hrc, rfl⟩ := mem_cornersOf_inRange hq
  have := site_mem hrc
  rwa [mem_allQubits] at this

theorem plaqX_idx_range {dh dw : Int} (H : OddPos dh dw) : ∀ p ∈ geometryX dh dw, ∀ q, some q ∈ p.corners →
    0 ≤ q ∧ q < dh * dw := by
  intro p hp q hq
  have e : p.corners ∈ (geometryX dh dw).map Plaq.corners := List.mem_map.2 ⟨p, hp, rfl⟩
  rw [geometryX_corners H] at e
  obtain ⟨s, -, e⟩ := List.mem_map.1 e
  rw [← e] at hq
  obtain ⟨r, c, hrc, rfl⟩ := mem_cornersOf_inRange hq
  have := site_mem hrc
  rwa [mem_allQubits] at this

theorem top_row_range {dh dw : Int} (H : OddPos dh dw) : ∀ q ∈ pyRange dw, 0 ≤ q ∧ q < dh * dw := by
  intro q hq
  rw [mem_pyRange] at hq
  unfold OddPos at H
  have := site_mem (dh := dh) (dw := dw) (r := 0) (c := q) (by omega)
  rw [mem_allQubits] at this
  omega

theorem changes_congr {sites : List (Int × Int)} {bits bits' : List (Nat → Bool)} (hl : bits.length = bits'.length)
    (h : ∀ (t k : Nat) a a', bits[t]? = some a → bits'[t]? = some a' → k < sites.length → a k = a' k) :
    changes sites bits = changes sites bits' := by
  unfold changes
  rw [hl]
  refine flatMap_congr' fun t ht => flatMap_congr' fun k hk => ?_
  rw [List.mem_range] at ht hk
  have t1 : t < bits.length := by omega
  have t2 : t < bits'.length := by omega
  have t3 : t + 1 < bits.length := by omega
  have t4 : t + 1 < bits'.length := by omega
  simp only [List.getElem?_eq_getElem t1, List.getElem?_eq_getElem t2,
    List.getElem?_eq_getElem t3, List.getElem?_eq_getElem t4, List.getElem?_eq_getElem hk]
  rw [h t k _ _ (List.getElem?_eq_getElem t1) (List.getElem?_eq_getElem t2) hk,
    h (t+1) k _ _ (List.getElem?_eq_getElem t3) (List.getElem?_eq_getElem t4) hk]

/-- C19: for a full-lattice readout of type Z following rounds `rounds ++ [last]` (oldest first, the last one of full
width), the logical value is the parity of the top row of data bits; the Z events are the changes of the measured Z bits
continued by one more round consisting of the parities of the data bits around each Z position; the X events are those
of the measured X bits with the last round repeated. -/
theorem C19_z_lattice_readout (dh dw : Int) (H : OddPos dh dw) (hbig : 1 < dh * dw) (final : Str)
    (hf : ∀ c ∈ final, c = '0' ∨ c = '1') (hflen : (final.length : Int) = dh * dw)
    (rounds : List Str) (hr : ∀ s ∈ rounds, IsBits s) (last : Str) (hl : IsBits last)
    (hllen : last.length = (xSites dh dw).length + (zSites dh dw).length) :
    parseReadout dh dw (joinSp (final :: (rounds ++ [last]).reverse)) .Z =
      .ok (if xorAll ((rowQubits dw 0).map (dataBit final)) then 1 else 0,
        { X := changes (xSites dh dw) ((rounds ++ [last, last]).map (xBits (zSites dh dw).length))
          Z := changes (zSites dh dw) ((rounds ++ [last]).map zBits ++ [zParities dh dw final]) }) := by
  obtain ⟨hn, hx0, hz0⟩ := numSyn_pos H
  have hnz : (zSites dh dw).length = (numSynZ dh dw).toNat := by
    obtain ⟨h, w, hh, hw, rfl, rfl⟩ := oddPos_cases H
    rw [zSites_eq hw]; simp [pyRange]
  have hnx : (xSites dh dw).length = (numSynX dh dw).toNat := by
    obtain ⟨h, w, hh, hw, rfl, rfl⟩ := oddPos_cases H
    rw [xSites_eq hw]; simp [pyRange]
  have hgl : (geometryZ dh dw).length = (zSites dh dw).length := by
    have := congrArg List.length (geometryZ_corners H)
    simpa using this
  unfold parseReadout parseChunks
  rw [splitSpace_joinSp _ (by simp)]
  swap
  · intro w hw
    rcases List.mem_cons.1 hw with rfl | hw
    · exact isBits_nospace hf
    · rw [List.mem_reverse, List.mem_append, List.mem_singleton] at hw
      rcases hw with hw | rfl
      · exact isBits_nospace (hr w hw).2
      · exact isBits_nospace hl.2
  have h0 : pyIdx (final :: (rounds ++ [last]).reverse) 0 = .ok final := rfl
  have h1 : pyIdx (final :: (rounds ++ [last]).reverse) 1 = .ok last := by
    rw [List.reverse_append]; rfl
  have hlong : 1 < final.length := by omega
  -- the reconstructed round
  let zs : Str := ((geometryZ dh dw).map fun p => bitCh (parityOn (dataBit final) p.corners)).reverse
  have hex : extractFinal dh dw final last .Z =
      .ok (bitInt (xorAll ((rowQubits dw 0).map (dataBit final))), last.take (numSynX dh dw).toNat ++ zs) := by
    unfold extractFinal extractZ
    rw [vals_eq final hf]
    simp only [bind, Except.bind]
    rw [stabilizerStr_eq final _ _ hflen (plaqZ_idx_range H)]
    simp only
    rw [parityLoop_eq final _ _ hflen (top_row_range H)]
    have e : pyRange dw = rowQubits dw 0 := by
      unfold pyRange rowQubits
      refine List.map_congr_left fun k _ => ?_
      simp
    rw [e]
    rfl
  have hzslen : zs.length = (zSites dh dw).length := by
    show (List.reverse (List.map _ _)).length = _
    rw [List.length_reverse, List.length_map, hgl]
  have hzsbits : ∀ c ∈ zs, c = '0' ∨ c = '1' := by
    intro c hc
    rw [List.mem_reverse] at hc
    obtain ⟨p, -, rfl⟩ := List.mem_map.1 hc
    cases parityOn (dataBit final) p.corners <;> simp [bitCh]
  have hfin : IsBits (last.take (numSynX dh dw).toNat ++ zs) := by
    constructor
    · intro e
      have := congrArg List.length e
      rw [List.length_append, List.length_take, hzslen] at this
      simp only [List.length_nil] at this
      omega
    · intro c hc
      rcases List.mem_append.1 hc with hc | hc
      · exact hl.2 c (List.mem_of_mem_take hc)
      · exact hzsbits c hc
  rw [h0]
  simp only [bind, Except.bind, if_pos hlong, reduceCtorEq, if_false, h1, hex, List.drop_succ_cons, List.drop_zero]
  have hrev : (last.take (numSynX dh dw).toNat ++ zs) :: (rounds ++ [last]).reverse =
      (rounds ++ [last] ++ [last.take (numSynX dh dw).toNat ++ zs]).reverse := by
    simp
  have hall : ∀ s ∈ rounds ++ [last] ++ [last.take (numSynX dh dw).toNat ++ zs], IsBits s := by
    intro s hs
    rw [List.mem_append, List.mem_append, List.mem_singleton, List.mem_singleton] at hs
    rcases hs with (hs | rfl) | rfl
    · exact hr s hs
    · exact hl
    · exact hfin
  rw [hrev, parseRounds_eq H (by omega) _ hall]
  simp only [pure, Except.pure]
  have hXc : changes (xSites dh dw) ((rounds ++ [last] ++ [last.take (numSynX dh dw).toNat ++ zs]).map
        (xBits (numSynZ dh dw).toNat)) =
      changes (xSites dh dw) ((rounds ++ [last, last]).map (xBits (zSites dh dw).length)) := by
    rw [← hnz]
    refine changes_congr (by simp) ?_
    intro t k a a' ha ha' hk
    rw [show rounds ++ [last, last] = rounds ++ [last] ++ [last] by simp] at ha'
    rw [List.map_append] at ha ha'
    by_cases ht : t < (List.map (xBits (zSites dh dw).length) (rounds ++ [last])).length
    · rw [List.getElem?_append_left ht] at ha ha'
      rw [ha] at ha'; cases ha'; rfl
    · rw [List.getElem?_append_right (by omega)] at ha ha'
      have e0 : t - (List.map (xBits (zSites dh dw).length) (rounds ++ [last])).length = 0 := by
        have := (List.getElem?_eq_some_iff.1 ha).1
        simp only [List.map_cons, List.map_nil, List.length_singleton] at this
        omega
      rw [e0] at ha ha'
      cases ha; cases ha'
      unfold xBits
      rw [bitFromRight_append, if_neg (by omega), hzslen]
      exact bitFromRight_take last _ _ _ (by omega) (by omega)
  have hZc : changes (zSites dh dw) ((rounds ++ [last] ++ [last.take (numSynX dh dw).toNat ++ zs]).map zBits) =
      changes (zSites dh dw) ((rounds ++ [last]).map zBits ++ [zParities dh dw final]) := by
    refine changes_congr (by simp) ?_
    intro t k a a' ha ha' hk
    rw [List.map_append] at ha
    by_cases ht : t < (List.map zBits (rounds ++ [last])).length
    · rw [List.getElem?_append_left ht] at ha ha'
      rw [ha] at ha'; cases ha'; rfl
    · rw [List.getElem?_append_right (by omega)] at ha ha'
      have e0 : t - (List.map zBits (rounds ++ [last])).length = 0 := by
        have := (List.getElem?_eq_some_iff.1 ha).1
        simp only [List.map_cons, List.map_nil, List.length_singleton] at this
        omega
      rw [e0] at ha ha'
      cases ha; cases ha'
      unfold zBits
      rw [bitFromRight_append, if_pos (by omega)]
      have hzs' : zs = (((geometryZ dh dw).map fun p => parityOn (dataBit final) p.corners).map bitCh).reverse := by
        show List.reverse _ = _
        rw [List.map_map]; rfl
      rw [hzs', bitFromRight_rev _ _ (by rw [List.length_map]; omega)]
      unfold zParities
      rw [List.getElem?_eq_getElem hk]
      simp only [List.getElem_map]
      congr 1
      have := congrArg (fun l => l[k]?) (geometryZ_corners H)
      simp only [List.getElem?_map, List.getElem?_eq_getElem hk,
        List.getElem?_eq_getElem (show k < (geometryZ dh dw).length by omega), Option.map_some, Option.some.injEq] at this
      exact this
  rw [hXc, hZc]
  rfl

/-- C19, consequences: no X event at the time of the reconstructed round, and a Z event there exactly where the
reconstructed parity differs from the last measured bit. -/
theorem C19_final_time (dh dw : Int) (H : OddPos dh dw) (hbig : 1 < dh * dw) (final : Str)
    (hf : ∀ c ∈ final, c = '0' ∨ c = '1') (hflen : (final.length : Int) = dh * dw)
    (rounds : List Str) (hr : ∀ s ∈ rounds, IsBits s) (last : Str) (hl : IsBits last)
    (hllen : last.length = (xSites dh dw).length + (zSites dh dw).length) (v : Int) (hits : Hits)
    (hp : parseReadout dh dw (joinSp (final :: (rounds ++ [last]).reverse)) .Z = .ok (v, hits)) :
    (∀ n ∈ hits.X, n.t < rounds.length) ∧
    (∀ (k : Nat) (s : Int × Int), (zSites dh dw)[k]? = some s →
      ({ t := rounds.length, r2 := s.1, c2 := s.2 } ∈ hits.Z ↔
        bitFromRight last k ≠ parityOn (dataBit final) (cornersOf dh dw s.1 s.2))) := by
  rw [C19_z_lattice_readout dh dw H hbig final hf hflen rounds hr last hl hllen] at hp
  cases hp
  constructor
  · intro n hn
    obtain ⟨t, k, a, b, s, ha, hb, hs, hne, rfl⟩ := mem_changes.1 hn
    simp only
    by_contra hge
    have hlt := (List.getElem?_eq_some_iff.1 hb).1
    rw [List.length_map, List.length_append] at hlt
    simp only [List.length_cons, List.length_nil] at hlt
    have ht : t = rounds.length := by omega
    subst ht
    rw [List.getElem?_map, List.getElem?_append_right (by omega)] at ha hb
    rw [show rounds.length - rounds.length = 0 by omega] at ha
    rw [show rounds.length + 1 - rounds.length = 1 by omega] at hb
    cases ha; cases hb
    exact hne rfl
  · intro k s hs
    rw [mem_changes]
    have hsnd := zSites_nodup dh dw
    constructor
    · rintro ⟨t, k', a, b, s', ha, hb, hs', hne, e⟩
      simp only [Node.mk.injEq] at e
      obtain ⟨e1, e2, e3⟩ := e
      have ht : t = rounds.length := by omega
      subst ht
      have es : s' = s := Prod.ext e2.symm e3.symm
      subst es
      have hk : k' = k := by
        obtain ⟨h1, h1'⟩ := List.getElem?_eq_some_iff.1 hs
        obtain ⟨h2, h2'⟩ := List.getElem?_eq_some_iff.1 hs'
        exact (hsnd.getElem_inj_iff).1 (h2'.trans h1'.symm)
      subst hk
      rw [List.getElem?_append_left (by simp)] at ha
      rw [List.getElem?_append_right (by simp)] at hb
      simp only [List.length_map, List.length_append, List.length_singleton, Nat.sub_self,
        List.getElem?_cons_zero, Option.some.injEq] at hb
      rw [List.getElem?_map, List.getElem?_append_right (by omega)] at ha
      simp only [Nat.sub_self, List.getElem?_cons_zero, Option.map_some, Option.some.injEq] at ha
      subst ha hb
      unfold zParities at hne
      rw [hs] at hne
      exact hne
    · intro hne
      refine ⟨rounds.length, k, zBits last, zParities dh dw final, s, ?_, ?_, hs, ?_, rfl⟩
      · rw [List.getElem?_append_left (by simp), List.getElem?_map, List.getElem?_append_right (by omega)]
        simp
      · rw [List.getElem?_append_right (by simp)]
        simp
      · unfold zParities
        rw [hs]
        exact hne

/-- A concrete readout meeting the hypotheses: data qubit 0 reads 1, so the top row is odd and Z plaquette 0 fires. -/
example : parseReadout 3 3 "000000001 00000000 00000000".toList .Z =
    .ok (1, { X := [], Z := [{ t := 1, r2 := 1, c2 := 1 }] }) := by decide

/-- C20 as stated is **false** of the code: no full-lattice readout of type X is ever parsed, whatever its contents. -/
theorem C20_x_lattice_readout_fails (dh dw : Int) (s c0 : Str) (rest : List Str) (hs : splitSpace s = c0 :: rest)
    (hc : 1 < c0.length) : ∀ r, parseReadout dh dw s .X ≠ .ok r := by
  intro r hp
  unfold parseReadout parseChunks at hp
  have h0 : pyIdx (c0 :: rest) 0 = .ok c0 := rfl
  rw [hs, h0] at hp
  simp only [bind, Except.bind, if_pos hc, reduceCtorEq, if_false] at hp
  split at hp
  · cases hp
  · have : ∀ a b r, extractFinal dh dw a b .X ≠ .ok r := by
      intro a b r h
      unfold extractFinal extractX at h
      rcases h1 : a.mapM intOfChar with e | v
      · rw [h1] at h; cases h
      · rw [h1] at h
        simp only [bind, Except.bind] at h
        rcases h2 : stabilizerStr v.reverse (geometryX dh dw) with e | v'
        · rw [h2] at h; cases h
        · rw [h2] at h; cases h
    split at hp
    · cases hp
    · rename_i _ hh
      exact this _ _ _ hh

/-- C20, the part that holds: the function does compute the X-plaquette parities in order (bit `k` of the string it
builds is the parity of the data bits around the `k`-th X position) before it raises `AttributeError` on well-formed
input.  Missing for C20: the logical value and a result; line 279 of rotated_surface.py must say `self.W`. -/
theorem C20_x_lattice_readout_partial (dh dw : Int) (H : OddPos dh dw) (final prev : Str)
    (hf : ∀ c ∈ final, c = '0' ∨ c = '1') (hflen : (final.length : Int) = dh * dw) :
    (∃ xs, stabilizerStr (final.map fun c => if c = '1' then (1:Int) else 0).reverse (geometryX dh dw) = .ok xs ∧
      xs.length = (xSites dh dw).length ∧
      ∀ (k : Nat) s, (xSites dh dw)[k]? = some s →
        bitFromRight xs k = parityOn (dataBit final) (cornersOf dh dw s.1 s.2)) ∧
    extractFinal dh dw final prev .X = .error .attributeError := by
  have hgl : (geometryX dh dw).length = (xSites dh dw).length := by
    have := congrArg List.length (geometryX_corners H)
    simpa using this
  have e : (final.map fun c => if c = '1' then (1:Int) else 0) = final.map fun c => bitInt (chBit c) := by
    refine List.map_congr_left fun c _ => ?_
    unfold bitInt chBit
    by_cases h : c = '1' <;> simp [h]
  constructor
  · rw [e]
    refine ⟨_, stabilizerStr_eq final _ _ hflen (plaqX_idx_range H), by simp [hgl], ?_⟩
    intro k s hs
    obtain ⟨hk, hs'⟩ := List.getElem?_eq_some_iff.1 hs
    rw [show (List.map (fun p => bitCh (parityOn (dataBit final) p.corners)) (geometryX dh dw)) =
      ((geometryX dh dw).map fun p => parityOn (dataBit final) p.corners).map bitCh by rw [List.map_map]; rfl]
    rw [bitFromRight_rev _ _ (by rw [List.length_map]; omega)]
    simp only [List.getElem_map]
    congr 1
    have := congrArg (fun l => l[k]?) (geometryX_corners H)
    simp only [List.getElem?_map, hs, List.getElem?_eq_getElem (show k < (geometryX dh dw).length by omega),
      Option.map_some, Option.some.injEq] at this
    exact this
  · unfold extractFinal extractX
    rw [vals_eq final hf]
    simp only [bind, Except.bind]
    rw [stabilizerStr_eq final _ _ hflen (plaqX_idx_range H)]

example : parseReadout 3 3 "000000000 00000000 00000000".toList .X = .error .attributeError := by decide

end Qtc
