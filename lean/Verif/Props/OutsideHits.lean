import Verif.Props.RateSymmetry
import Verif.Props.SharedParams
/-!
C96: hits outside the decoding graph, e.g. strings with more rounds than the decoder was made for.
-/
namespace Qtc
open Spec

/-- The edge loop ends with `KeyError` if no weight raises anything else and one weight raises it. -/
theorem pairs_keyError {s : SGraph} {virt : List Node} {ep : Option ℝ} {I : Cache → Prop} :
    ∀ (l : List (Node × Node)) {st : EGraph × Cache}, st.1.WF →
    (∀ p ∈ l, p.1 ∈ st.1.g.nodes ∧ p.2 ∈ st.1.g.nodes) → I st.2 →
    (∀ p ∈ l, ∀ c, I c → (∃ r, pairWeight s virt ep p.1 p.2 c = .ok r ∧ I r.2) ∨ pairWeight s virt ep p.1 p.2 c = .error .keyError) →
    (∃ p ∈ l, ∀ c, I c → pairWeight s virt ep p.1 p.2 c = .error .keyError) →
    l.foldlM (pairStep s virt ep) st = .error .keyError
  | [], _, _, _, _, _, h => by
    obtain ⟨p, hp, -⟩ := h
    cases hp
  | p :: l, st, H, hin, hI, hpw, h => by
    rw [List.foldlM_cons]
    rcases hpw p List.mem_cons_self st.2 hI with ⟨r, h1, h2⟩ | h1
    · obtain ⟨e', g1, g2, g3, g4, g5⟩ := EGraph.addEdge_spec (Q := fun _ _ _ => True) (fun _ _ _ h => h) H
        (by intro _ _ _ _ _ _ _ _; trivial) (hin p List.mem_cons_self).1 (hin p List.mem_cons_self).2 (w := r.1) trivial
      unfold pairStep
      simp only [h1, g1, bind, Except.bind, pure, Except.pure]
      refine pairs_keyError (I := I) l (st := (e', r.2)) g2 (by intro q hq; rw [g3]; exact hin q (List.mem_cons_of_mem _ hq)) h2
        (fun q hq => hpw q (List.mem_cons_of_mem _ hq)) ?_
      obtain ⟨q, hq, hb⟩ := h
      rcases List.mem_cons.1 hq with rfl | hq
      · have := hb st.2 hI
        rw [h1] at this
        cases this
      · exact ⟨q, hq, hb⟩
    · unfold pairStep
      simp only [h1, bind, Except.bind]

theorem SGraph.idx_none {s : SGraph} (W : s.WF) {n : Node} (h : n ∉ s.g.nodes) : s.idx n = .error .keyError := by
  unfold SGraph.idx
  cases hn : s.nmap n with
  | none => rfl
  | some i => exact absurd (List.mem_of_getElem? ((W.map n i).1 hn)) h

variable {D : Decoder} {key : Key} {s : SGraph} {ep : Option ℝ}

/-- The weight of a pair cannot be computed if one of its nodes is not in the graph. -/
theorem pairWeight_outside (hD : Made D) (hs : D.S key = some s) (H : Long key D.dh D.dw) {a b : Node}
    (hv : ¬ (a ∈ virtualNodes D.dh D.dw key ∧ b ∈ virtualNodes D.dh D.dw key)) (h : a ∉ s.g.nodes ∨ b ∉ s.g.nodes) (c : Cache) :
    pairWeight s (virtualNodes D.dh D.dw key) ep a b c = .error .keyError := by
  have W := (made_graph hD hs H).1
  unfold pairWeight
  rw [if_neg (by rw [Bool.and_eq_true, List.contains_iff_mem, List.contains_iff_mem]; exact hv)]
  by_cases ha : a ∈ s.g.nodes
  · obtain ⟨i, hi, -⟩ := s.idx_ok W ha
    have hb := s.idx_none W (h.resolve_left fun h => h ha)
    simp only [hi, hb, bind, Except.bind]
  · simp only [s.idx_none W ha, bind, Except.bind]

/-- No weight raises anything but `KeyError`. -/
theorem pairWeight_cases (hD : Made D) (hs : D.S key = some s) (H : Long key D.dh D.dw) (he : UsableProb ep) (a b : Node) (c : Cache)
    (hc : CacheOk s c) : (∃ r, pairWeight s (virtualNodes D.dh D.dw key) ep a b c = .ok r ∧ CacheOk s r.2) ∨
      pairWeight s (virtualNodes D.dh D.dw key) ep a b c = .error .keyError := by
  by_cases hv : a ∈ virtualNodes D.dh D.dw key ∧ b ∈ virtualNodes D.dh D.dw key
  · exact Or.inl ⟨_, pairWeight_virt hv.1 hv.2, hc⟩
  by_cases ha : a ∈ s.g.nodes
  swap
  · exact Or.inr (pairWeight_outside hD hs H hv (Or.inl ha) c)
  by_cases hb : b ∈ s.g.nodes
  swap
  · exact Or.inr (pairWeight_outside hD hs H hv (Or.inr hb) c)
  have G := (made_graph hD hs H).2.1
  have R : Ready D key s := ⟨hD, hs, H, ((G a).1 ha).1⟩
  have ga := ((G a).1 ha).2
  have gb := ((G b).1 hb).2
  have hv' : ¬ (a.t = -1 ∧ b.t = -1) := by
    rw [← gnode_virt R.odd ga, ← gnode_virt R.odd gb]
    exact hv
  rcases he with rfl | rfl | ⟨p, rfl, h0, h1, h2⟩
  · exact Or.inl ⟨_, pairWeight_none R ga gb c, hc⟩
  · refine Or.inl ⟨((unitWeight key D.dh D.dw D.T a b : ℝ), c), ?_, hc⟩
    rw [← pairWeight_none R ga gb c]
    unfold pairWeight
    simp [probGiven]
  · by_cases hab : a = b
    · right
      obtain ⟨i, j, hi, hj, -, -, hd⟩ := R.dist ga gb
      have h3 := pathDegeneracy_val R (first_node R) hc ga gb hv'
      rw [if_pos hab] at h3
      unfold pairWeight
      rw [if_neg (by rw [Bool.and_eq_true, List.contains_iff_mem, List.contains_iff_mem]; exact hv)]
      have hpg : probGiven (some p) = some p := if_neg (ne_of_gt h0)
      simp only [hi, hj, bind, Except.bind, hd, hpg, h3]
    · obtain ⟨c', hc', hp⟩ := pairWeight_some R ga gb hab hv' hc (ne_of_gt h0)
      rw [degDistance_ok (degValue_pos R _ ga gb) h0 h1 h2] at hp
      exact Or.inl ⟨_, hp, hc'⟩

/-- C96: a hit that is not a node of the decoding graph – at a time the decoder was not made for, or at a place that is no
stabilizer of the type – is never ignored or decoded to something: `correct_readout` raises `KeyError`, whatever the other hits are. -/
theorem C96_outside (hD : Made D) (hs : D.S key = some s) (H : Long key D.dh D.dw) (he : UsableProb ep) (m : Matcher) (syn : SynDict)
    (L : List Node) (hsyn : syn (rtypeOf key) = some L) {n : Node} (hn : n ∈ L) (hout : ¬ HitPlace key D n)
    (hv : n ∉ D.virt key) (val : Option Int) : correctHits D m syn (rtypeOf key) val ep = .error .keyError := by
  have G := (made_graph hD hs H).2.1
  have hne : L ≠ [] := List.ne_nil_of_mem hn
  have hvirt : D.virt key = virtualNodes D.dh D.dw key := by rw [(made_facts hD).1]
  rw [hvirt] at hv
  have hns : n ∉ s.g.nodes := by
    intro h
    have g := ((G n).1 h).2
    rcases g with g | g
    · exact hout g
    · exact hv ((gnode_virt (T := D.T) H.1 (Or.inr g)).2 g.1)
  obtain ⟨n1, n2, n3⟩ := addNew_all (L ++ virtualNodes D.dh D.dw key) emptyEGraph_WF rfl
  have hnodes : ∀ n, n ∈ ((L ++ virtualNodes D.dh D.dw key).foldl EGraph.addNew {}).g.nodes ↔ n ∈ L ++ virtualNodes D.dh D.dw key := by
    intro n
    rw [n3]
    simp
  have hloop : (combinations2 (L ++ virtualNodes D.dh D.dw key)).foldlM (pairStep s (virtualNodes D.dh D.dw key) ep)
      ((L ++ virtualNodes D.dh D.dw key).foldl EGraph.addNew {}, fun _ => none) = .error .keyError := by
    refine pairs_keyError (I := CacheOk s) _ n1 (by intro p hp; simp only [hnodes]; exact mem_combinations2 hp) (cacheOk_empty s)
      (fun p _ c hc => pairWeight_cases hD hs H he p.1 p.2 c hc) ?_
    obtain ⟨v, hvm⟩ := List.exists_mem_of_ne_nil _ (virtualNodes_ne_nil (key := key) H.1)
    have hnv : n ≠ v := fun e => hv (e ▸ hvm)
    obtain ⟨p, hp, h | h⟩ : ∃ p ∈ combinations2 (L ++ virtualNodes D.dh D.dw key), p = (n, v) ∨ p = (v, n) := by
      rcases combinations2_complete (List.mem_append_left _ hn) (List.mem_append_right L hvm) hnv with h | h
      · exact ⟨_, h, Or.inl rfl⟩
      · exact ⟨_, h, Or.inr rfl⟩
    · subst h
      exact ⟨_, hp, fun c _ => pairWeight_outside hD hs H (fun h => hv h.1) (Or.inl hns) c⟩
    · subst h
      exact ⟨_, hp, fun c _ => pairWeight_outside hD hs H (fun h => hv h.2) (Or.inr hns) c⟩
  have hm : makeErrorGraph s (D.virt key) L ep = .error .keyError := by
    unfold makeErrorGraph
    rw [hvirt, hloop]
    rfl
  have hcor : corrections D m L (rtypeOf key) ep = .error .keyError := by
    unfold corrections
    rw [if_neg hne, RType.key_rtypeOf]
    simp only [hs, hm, bind, Except.bind]
  unfold correctHits
  simp only [hsyn, hcor, bind, Except.bind]

theorem late_outside {n : Node} (h0 : 0 ≤ n.t) (h : D.T ≤ n.t) : ¬ HitPlace key D n ∧ n ∉ virtualNodes D.dh D.dw key :=
  ⟨fun hp => by have := hp.2.1; omega, fun hv => by have := virtualNodes_t hv; omega⟩

theorem changes_place {dh dw : Int} {rounds : List (Nat → Bool)} {n : Node} (h : n ∈ changes (sitesOf key dh dw) rounds) :
    0 ≤ n.t ∧ Site key dh dw n.r2 n.c2 := by
  obtain ⟨t, k, a, b, p, -, -, h3, -, rfl⟩ := mem_changes.1 h
  exact ⟨by simp, mem_sitesOf.1 (List.mem_of_getElem? h3)⟩

theorem long_of_site (HO : OddPos D.dh D.dw) {n : Node} (h : Site key D.dh D.dw n.r2 n.c2) : Long key D.dh D.dw := by
  refine ⟨HO, ?_⟩
  unfold OddPos at HO
  cases key
  · simp only [Site, XSite] at h ⊢; omega
  · simp only [Site, ZSite] at h ⊢; omega

/-- C96 for strings with a logical bit: a change of a stabilizer of the type between rounds after the last time step of the decoder raises
`KeyError`. -/
theorem C96_too_many_rounds (hD : Made D) (hs : D.S key = some s) (HO : OddPos D.dh D.dw) (hbig : 1 < D.dh * D.dw) (he : UsableProb ep)
    (m : Matcher) (v : Char) (hv : v.isDigit = true) (rounds : List Str) (hr : ∀ r ∈ rounds, IsBits r)
    (hlate : ∃ n ∈ changes (sitesOf key D.dh D.dw) (rounds.map (keyBits key D.dh D.dw)), D.T ≤ n.t) :
    correctString D m (joinSp ([v] :: rounds.reverse)) (rtypeOf key) ep = .error .keyError := by
  have hp := C15_parse_is_changes D.dh D.dw HO hbig (rtypeOf key) v hv rounds hr
  obtain ⟨n, hn, ht⟩ := hlate
  obtain ⟨h0, h1⟩ := changes_place hn
  obtain ⟨o1, o2⟩ := late_outside (key := key) h0 ht
  unfold correctString
  simp only [hp, bind, Except.bind]
  rw [C96_outside hD hs (long_of_site HO h1) he m _ _ (by cases key <;> rfl) hn o1 (by rw [(made_facts hD).1]; exact o2)]

/-- C96: without such a change the string is decoded, however many rounds it has. -/
theorem C96_quiet_end (hD : Made D) (hs : D.S key = some s) (HO : OddPos D.dh D.dw) (hbig : 1 < D.dh * D.dw) (m : Matcher) (hm : Contract m)
    (b : Bool) (rounds : List Str) (hr : ∀ r ∈ rounds, IsBits r)
    (hquiet : ∀ n ∈ changes (sitesOf key D.dh D.dw) (rounds.map (keyBits key D.dh D.dw)), n.t < D.T) :
    ∃ b', correctString D m (joinSp ([if b then '1' else '0'] :: rounds.reverse)) (rtypeOf key) none = .ok (some (bit b')) := by
  have hp := C15_parse_is_changes D.dh D.dw HO hbig (rtypeOf key) (if b then '1' else '0') (by split <;> decide) rounds hr
  have hv : digitVal (if b then '1' else '0') = bit b := by cases b <;> decide
  rw [hv] at hp
  unfold correctString
  simp only [hp, bind, Except.bind]
  obtain ⟨gs, syn', h1, -⟩ := C75_minimum_explanation D hD key s hs HO m hm _ (changes_nodup' key D.dh D.dw _)
    (fun n hn => ⟨(changes_place hn).1, hquiet n hn, (changes_place hn).2⟩)
    (Hits.toDict { X := changes (xSites D.dh D.dw) (rounds.map (xBits (zSites D.dh D.dw).length)), Z := changes (zSites D.dh D.dw) (rounds.map zBits) })
    (by cases key <;> rfl) b
  rw [h1]
  exact ⟨_, rfl⟩

/-- C96 for readouts of all data qubits (type Z), whose plaquettes are one more round. -/
theorem C96_lattice (hD : Made D) (hs : D.S .Z = some s) (HO : OddPos D.dh D.dw) (hbig : 1 < D.dh * D.dw) (he : UsableProb ep)
    (m : Matcher) (final : Str) (hfb : ∀ c ∈ final, c = '0' ∨ c = '1') (hfl : (final.length : Int) = D.dh * D.dw) (rounds : List Str)
    (hr : ∀ r ∈ rounds, IsBits r) (last : Str) (hl : IsBits last)
    (hlast : last.length = (xSites D.dh D.dw).length + (zSites D.dh D.dw).length)
    (hlate : ∃ n ∈ changes (zSites D.dh D.dw) ((rounds ++ [last]).map zBits ++ [zParities D.dh D.dw final]), D.T ≤ n.t) :
    correctString D m (joinSp (final :: (rounds ++ [last]).reverse)) .Z ep = .error .keyError := by
  have hp := C19_z_lattice_readout D.dh D.dw HO hbig final hfb hfl rounds hr last hl hlast
  obtain ⟨n, hn, ht⟩ := hlate
  obtain ⟨h0, h1⟩ := changes_place (key := .Z) hn
  obtain ⟨o1, o2⟩ := late_outside (key := .Z) h0 ht
  unfold correctString
  simp only [hp, bind, Except.bind]
  have hk := fun val => C96_outside (key := .Z) hD hs (long_of_site HO h1) he m
    (Hits.toDict { X := changes (xSites D.dh D.dw) ((rounds ++ [last, last]).map (xBits (zSites D.dh D.dw).length)),
                   Z := changes (zSites D.dh D.dw) ((rounds ++ [last]).map zBits ++ [zParities D.dh D.dw final]) })
    _ rfl hn o1 (by rw [(made_facts hD).1]; exact o2) val
  simp only [rtypeOf] at hk
  rw [hk]

/-- C96: the decoder made from the dictionary of a qubit (C95) is one time step short for readouts of all data qubits: it cannot decode a
disagreement between the last round and the plaquettes of the data qubits. -/
theorem C96_own_lattice {c : QClass} {q : TQubit} {ops : List QOp} {w w1 : World} {limit : Nat} {dh dw : Int} {n : Nat} {o : DecoderObj}
    (A : After c q dh dw ops w) (hd : (w.heap q.lat.pref).d = some (.tup [.int dh, .int dw])) (hn : ops.count .stabilize = n + 1)
    (hlim : sliceSize dh dw < limit) (hbig : 1 < dh * dw) (ho : newDecoder .rotated limit q.lat.pref w = (.ok o, w1)) (he : UsableProb ep)
    (m : Matcher) (final : Str) (hfb : ∀ c ∈ final, c = '0' ∨ c = '1') (hfl : (final.length : Int) = dh * dw) (rounds : List Str)
    (hr : ∀ r ∈ rounds, IsBits r) (last : Str) (hl : IsBits last)
    (hlast : last.length = (xSites dh dw).length + (zSites dh dw).length) (hrn : (rounds ++ [last]).length = n + 1)
    {k : Nat} (hk : k < (zSites dh dw).length) (hne : zBits last k ≠ zParities dh dw final k) :
    correctString o.D m (joinSp (final :: (rounds ++ [last]).reverse)) .Z ep = .error .keyError := by
  obtain ⟨o', w1', h1, h2, h3, h4, h5, h6⟩ := C95_own_dictionary (cls := .rotated) A hd hn hlim (fun h => by cases h)
  rw [ho] at h1
  obtain ⟨rfl, rfl⟩ : o = o' ∧ w1 = w1' := by cases h1; exact ⟨rfl, rfl⟩
  obtain ⟨g, hg⟩ := h6 .Z trivial
  have HO := A.own.2.placed.odd
  have hrn' : rounds.length = n := by simpa using hrn
  rw [← h3, ← h4] at HO hbig hfl hlast hk hne
  refine C96_lattice h2 hg HO hbig he m final hfb hfl rounds hr last hl hlast
    ⟨⟨n, ((zSites o.D.dh o.D.dw)[k]).1, ((zSites o.D.dh o.D.dw)[k]).2⟩, mem_changes.2 ⟨n, k, zBits last, zParities o.D.dh o.D.dw final, (zSites o.D.dh o.D.dw)[k],
      ?_, ?_, List.getElem?_eq_getElem hk, hne, rfl⟩, by rw [h5]⟩
  · rw [List.getElem?_append_left (by simp [hrn'])]
    simp [hrn']
  · rw [List.getElem?_append_right (by simp [hrn'])]
    simp [hrn']

/-- Four rounds for a decoder of two time steps: the change after the third round cannot be decoded. -/
example : ∃ D, Made D ∧ D.T = 2 ∧ ∀ m,
    correctString D m "0 00000000000001 00000000000000 00000000000000 00000000000000".toList .Z none = .error .keyError := by
  obtain ⟨D, sx, sz, h, h1, h2, h3, h4, h5, h6, h7⟩ := demo_decoder
  refine ⟨D, h, h3, fun m => ?_⟩
  have := C96_too_many_rounds (ep := none) h h5 h7.1 (by rw [h1, h2]; decide) (Or.inl rfl) m '0' (by decide)
    ["00000000000000".toList, "00000000000000".toList, "00000000000000".toList, "00000000000001".toList] (by
      intro r hr
      simp only [List.mem_cons, List.not_mem_nil, or_false] at hr
      rcases hr with rfl | rfl | rfl | rfl <;> unfold IsBits <;> decide)
  rw [h1, h2, h3] at this
  exact this (by decide)

/-- The same change one round earlier is decoded. -/
example : ∃ D m, Made D ∧ D.T = 2 ∧ Contract m ∧ ∃ b',
    correctString D m "0 00000000000001 00000000000001 00000000000000 00000000000000".toList .Z none = .ok (some (bit b')) := by
  obtain ⟨D, sx, sz, h, h1, h2, h3, h4, h5, h6, h7⟩ := demo_decoder
  obtain ⟨m, hm⟩ := contract_exists
  have := C96_quiet_end h h5 h7.1 (by rw [h1, h2]; decide) m hm false
    ["00000000000000".toList, "00000000000000".toList, "00000000000001".toList, "00000000000001".toList] (by
      intro r hr
      simp only [List.mem_cons, List.not_mem_nil, or_false] at hr
      rcases hr with rfl | rfl | rfl | rfl <;> unfold IsBits <;> decide)
  rw [h1, h2, h3] at this
  exact ⟨D, m, h, h3, hm, this (by decide)⟩

/-- A qubit of size 3×5 after two rounds with quiet syndromes, and one flipped data qubit in the final readout. -/
example : ∃ q w o w1, AfterAlone .xxzz q 3 5 [.stabilize, .stabilize] w ∧ newDecoder .rotated 900 q.lat.pref w = (.ok o, w1) ∧ o.D.T = 1 ∧
    ∀ m, correctString o.D m "000000000000001 00000000000000 00000000000000".toList .Z none = .error .keyError := by
  obtain ⟨q, w, A, hn, hr, hd, -⟩ := pair_dictionary (dh := 3) (dw := 5) .xxzz "a".toList (by unfold OddPos; decide) (by simp)
  have A' := A.all_next [.stabilize, .stabilize]
  obtain ⟨hd', -⟩ := ops_sameSize q _ _ [.stabilize, .stabilize] w hr hd rfl
  obtain ⟨o, w1, h1, -, -, -, h5, -⟩ := C95_own_dictionary (cls := .rotated) (n := 1) (limit := 900) A'.after hd' rfl (by decide) (fun h => by cases h)
  exact ⟨q, _, o, w1, A', h1, h5, fun m => C96_own_lattice (ep := none) A'.after hd' (n := 1) rfl (by decide) (by decide) h1 (Or.inl rfl) m
    "000000000000001".toList (by decide) rfl ["00000000000000".toList]
    (by intro r hr; rw [List.mem_singleton.1 hr]; unfold IsBits; decide) "00000000000000".toList (by unfold IsBits; decide) rfl rfl (k := 0) (by decide) (by decide)⟩

end Qtc
