import Verif.Proof.Pairing
import Verif.Props.Decoding
/-!
C112: decoding by matching finds a cheapest split of the hits into pairs and single ones.
-/
namespace Qtc
open Spec

/-- C112: whatever optimal matching the library picks, the pairs of hits and the single hits of the reported matches are a cheapest split of
the hits, and the value is flipped iff the number of single hits nearer to the first boundary is odd. -/
theorem C112_cheapest (D : Decoder) (hD : Made D) (key : Key) (s : SGraph) (hs : D.S key = some s) (HO : OddPos D.dh D.dw)
    (m : Matcher) (hm : Contract m) (L : List Node) (hn : L.Nodup) (hL : ∀ n ∈ L, HitPlace key D n) (syn : SynDict)
    (hsyn : syn (rtypeOf key) = some L) (b : Bool) :
    ∃ M L' u, corrections D m L (rtypeOf key) none = .ok (M, L') ∧ Cheapest key D.dh D.dw L (splitOf M).1 (splitOf M).2 ∧
      correctHits D m syn (rtypeOf key) (some (bit b)) none = .ok (some (bit (b ^^ oddFirst key D.dh D.dw (splitOf M).2)), u) := by
  by_cases hne : L = []
  · subst hne
    refine ⟨[], [], syn, rfl, ⟨List.Perm.refl _, fun P' Q' _ => Nat.zero_le _⟩, ?_⟩
    rw [C28_no_hits D m syn _ _ none hsyn]
    simp [splitOf, oddFirst]
  obtain ⟨n0, h0⟩ := List.exists_mem_of_ne_nil _ hne
  have R := ready_of_hit hD hs HO (hL n0 h0)
  have hLg : ∀ n ∈ L, GNode key D.dh D.dw D.T n := fun n h => hitPlace_gnode (hL n h)
  have hLr : ∀ n ∈ L, n.t ≠ -1 := fun n h => hitPlace_real (hL n h)
  obtain ⟨M, gs, h1, h6, h7, hx, hlen, hfit, hhit, hmin⟩ := kept_explanation hD hs HO hm hn hL hne
  obtain ⟨M', h1', -, -, h4, h5, -, -⟩ := corrections_full R hm hne hLg (parityOk_nodup hn hLr)
  have hMM : kept M' = kept M := (Prod.mk.inj (Except.ok.inj (h1'.symm.trans h1))).1
  rw [hMM] at h4 h5
  obtain ⟨c1, c2⟩ := splitOf_cost R.long R.pos (kept M) h6 h7
  -- every split gives as many faults
  have hle : ∀ P' Q', Split L P' Q' → totalDist key D.dh D.dw D.T (kept M) ≤ splitCost key D.dh D.dw P' Q' := by
    intro P' Q' hS
    obtain ⟨M1, m1, m2, m3, -⟩ := split_pairs R.long R.pos hLg hS
    obtain ⟨C, k1, k2, k3, -⟩ := pairs_paths R.long R.pos M1 m1
    obtain ⟨fs, f1, f2, f3, -⟩ := edges_faults HO C k2
    have := hmin fs f2 (by
      intro n
      constructor
      · rintro ⟨a1, a2, a3, a4⟩
        have hr : n.t ≠ -1 := by omega
        rw [f3 n hr a3, k3 n, m3 n hr] at a4
        exact List.count_pos_iff.1 (by omega)
      · intro h
        obtain ⟨a1, a2, a3⟩ := hL n h
        refine ⟨a1, a2, a3, ?_⟩
        rw [f3 n (hLr n h) a3, k3 n, m3 n (hLr n h), List.count_eq_one_of_mem hn h])
    rw [hlen, ← m2, ← k1, ← f1]
    exact this
  have hsplit : Split L (splitOf (kept M)).1 (splitOf (kept M)).2 := by
    rw [Split, List.perm_iff_count]
    intro n
    rw [splitOf_count _ h7 n]
    split_ifs with hv
    · rw [List.count_eq_zero_of_not_mem fun h => hLr n h hv]
    · by_cases hmem : n ∈ L
      · rw [List.count_eq_one_of_mem hn hmem, List.count_eq_one_of_mem h4 ((h5 n hv).2 hmem)]
      · rw [List.count_eq_zero_of_not_mem hmem, List.count_eq_zero_of_not_mem fun h => hmem ((h5 n hv).1 h)]
  have hfin := correctHits_of R.long hsyn h1 h6 h7 b
  rw [c2 (hle _ _ hsplit)] at hfin
  exact ⟨kept M, _, _, h1, ⟨hsplit, fun P' Q' hS => c1.trans (hle P' Q' hS)⟩, hfin⟩

/-- C112: trying all splits finds the cost of the cheapest, and which parities the cheapest have. -/
theorem C112_search (key : Key) (dh dw : Int) (L : List Node) :
    (∃ P Q, Cheapest key dh dw L P Q) ∧
    (∀ P Q, Cheapest key dh dw L P Q ↔ Split L P Q ∧ splitCost key dh dw P Q = leastCost key dh dw L) ∧
    ∀ x, x ∈ cheapParities key dh dw L ↔ ∃ P Q, Cheapest key dh dw L P Q ∧ oddFirst key dh dw Q = x := by
  refine ⟨?_, fun P Q => cheapest_iff, fun x => ⟨fun h => ?_, ?_⟩⟩
  · obtain ⟨P, Q, h⟩ := leastCost_attained (key := key) (dh := dh) (dw := dw) L
    exact ⟨P, Q, cheapest_iff.2 h⟩
  · unfold cheapParities at h
    obtain ⟨y, hy, rfl⟩ := List.mem_map.1 h
    obtain ⟨hy1, hy2⟩ := List.mem_filter.1 hy
    exact ⟨y.1, y.2, cheapest_iff.2 ⟨splits_sound _ _ (Nat.le_refl _) y hy1, by simpa using hy2⟩, rfl⟩
  · rintro ⟨P, Q, h, rfl⟩
    exact mem_cheapParities h

/-- C112: so if all cheapest splits have the same parity, that decides the answer, whatever optimal matching is picked. -/
theorem C112_answer (D : Decoder) (hD : Made D) (key : Key) (s : SGraph) (hs : D.S key = some s) (HO : OddPos D.dh D.dw)
    (m : Matcher) (hm : Contract m) (L : List Node) (hn : L.Nodup) (hL : ∀ n ∈ L, HitPlace key D n) (syn : SynDict)
    (hsyn : syn (rtypeOf key) = some L) (b x : Bool) (hx : ∀ y ∈ cheapParities key D.dh D.dw L, y = x) :
    ∃ u, correctHits D m syn (rtypeOf key) (some (bit b)) none = .ok (some (bit (b ^^ x)), u) := by
  obtain ⟨M, L', u, -, h2, h3⟩ := C112_cheapest D hD key s hs HO m hm L hn hL syn hsyn b
  exact ⟨u, by rw [h3, hx _ (mem_cheapParities h2)]⟩

/-- Hits in a corner and in the middle of a 5 by 5 lattice, each next to a boundary: the cheapest is to end both there, and the parity
is odd as only one is nearer to the first. -/
example : leastCost .Z 5 5 [⟨0, 1, 1⟩, ⟨0, 7, 7⟩] = 2 ∧ cheapParities .Z 5 5 [⟨0, 1, 1⟩, ⟨0, 7, 7⟩] = [true] := by decide +kernel

/-- The same places at other times; and two equally cheap splits with different parities: the library decides. -/
example : cheapParities .Z 3 3 [⟨0, 1, 1⟩, ⟨0, 3, 3⟩] = [false] ∧ cheapParities .Z 3 3 [⟨0, 1, 1⟩, ⟨2, 3, 3⟩] = [true] ∧
    leastCost .Z 3 3 [⟨0, 1, 1⟩, ⟨1, 3, 3⟩] = 2 ∧ cheapParities .Z 3 3 [⟨0, 1, 1⟩, ⟨1, 3, 3⟩] = [true, false] := by decide +kernel

/-- On the decoder of the other examples: a data error in the middle row. -/
example : ∃ D m, Made D ∧ Contract m ∧ ∀ (syn : SynDict) (b : Bool), syn .Z = some [⟨0, 1, 1⟩, ⟨0, 3, 3⟩] →
    ∃ u, correctHits D m syn .Z (some (bit b)) none = .ok (some (bit b), u) := by
  obtain ⟨D, sx, sz, h, h1, h2, h3, h4, h5, h6, h7⟩ := demo_decoder
  obtain ⟨m, hm⟩ := contract_exists
  refine ⟨D, m, h, hm, fun syn b hsyn => ?_⟩
  have := C112_answer D h .Z sz h5 h7.1 m hm [⟨0, 1, 1⟩, ⟨0, 3, 3⟩] (by decide)
    (by
      intro n hn
      simp only [List.mem_cons, List.not_mem_nil, or_false] at hn
      rcases hn with rfl | rfl <;> unfold HitPlace Site ZSite <;> rw [h1, h2, h3] <;> decide) syn hsyn b false
    (by rw [h1, h2]; decide +kernel)
  rwa [Bool.xor_false] at this

end Qtc
