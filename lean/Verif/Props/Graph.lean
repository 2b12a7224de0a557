import Verif.Proof.Made
import Verif.Props.Readout
/-!
Properties C21-C26 (decoding graphs), the second half of C17, and C74.
-/
namespace Qtc
open Spec

/-! ### C21 -/

/-- C21: a surface-code decoder needs `d` and `T`. -/
theorem C21_missing (limit : Nat) (p : Params) (h : p.d = none ∨ p.T = none) :
    rotatedDecoder limit p = .error .valueError := by
  unfold rotatedDecoder rotatedDecoderValidate latticeDecoderValidate
  rw [if_pos (by rcases h with h | h <;> simp [h])]
  rfl

example : rotatedDecoder 100 { d := some (.num (.int 3)) } = .error .valueError := C21_missing _ _ (Or.inr rfl)

/-- C21: a repetition decoder needs `T` once the sizes are fine. -/
theorem C21_repetition_missing_T (limit : Nat) (p q : Params) (hq : repValidate p = .ok q) (h : p.T = none) :
    repetitionDecoder limit p = .error .valueError := by
  have hT : q.T = none := by
    unfold repValidate at hq
    cases hd : p.d with
    | none => simp only [hd] at hq; cases hq; exact h
    | some v =>
      cases v with
      | num n => simp only [hd] at hq; cases hq; exact h
      | tup l =>
        simp only [hd] at hq
        split at hq
        · obtain ⟨w, _, hq⟩ := except_bind_ok hq
          split at hq
          · cases hq
          · cases hq; exact h
        · obtain ⟨w, _, hq⟩ := except_bind_ok hq
          split at hq
          · cases hq
          · cases hq; exact h
      | lst l => simp only [hd] at hq; cases hq
      | str s => simp only [hd] at hq; cases hq
      | other => simp only [hd] at hq; cases hq
  unfold repetitionDecoder repDecoderValidate
  rw [hq]
  show (do let p ← rotatedDecoderValidate q; _) >>= _ = _
  unfold rotatedDecoderValidate latticeDecoderValidate
  rw [if_pos (by simp [hT])]
  rfl

example : repetitionDecoder 100 {} = .error .valueError := C21_repetition_missing_T 100 {} _ rfl rfl

/-- C21: a pair with an even entry, or a tuple or list that is not a pair, is a `LatticeError`. -/
theorem C21_bad_size (limit : Nat) (p : Params) (l : List Int) (T : Int)
    (hd : p.d = some (.tup (l.map .int)) ∨ p.d = some (.lst (l.map .int))) (hT : p.T = some T)
    (hbad : l.length ≠ 2 ∨ ∃ x ∈ l, x % 2 = 0) : rotatedDecoder limit p = .error .latticeError := by
  have main : (if (l.map Num.int).length ≠ 2 then (.error .latticeError : Py Params)
        else do
          let dh ← pyIdx (l.map Num.int) 0
          let dw ← pyIdx (l.map Num.int) 1
          if dh.notOdd then .error .latticeError
          else if dw.notOdd then .error .latticeError
          else pure p) = .error .latticeError := by
    by_cases hl : l.length = 2
    · rw [if_neg (by simpa using hl)]
      match l, hl with
      | [a, b], _ =>
        show (if (Num.int a).notOdd then _ else if (Num.int b).notOdd then _ else _) = _
        rcases hbad with h | ⟨x, hx, h⟩
        · exact absurd rfl h
        · simp only [Num.notOdd, bne_iff_ne, ne_eq]
          rw [fmod_pos_eq a (by omega), fmod_pos_eq b (by omega)]
          simp only [List.mem_cons, List.not_mem_nil, or_false] at hx
          by_cases ha : a % 2 = 1
          · rw [if_neg (fun h => h ha), if_pos]
            rcases hx with rfl | rfl <;> omega
          · rw [if_pos (by simpa using ha)]
    · rw [if_pos (by simpa using hl)]
  have hv : latticeDecoderValidate p = .ok () := by
    unfold latticeDecoderValidate
    rw [if_neg]
    rcases hd with h | h <;> simp [h, hT]
  unfold rotatedDecoder rotatedDecoderValidate
  rw [hv]
  rcases hd with h | h
  · simp only [h]
    show Except.bind _ _ = _
    erw [main]
    rfl
  · simp only [h]
    show Except.bind _ _ = _
    erw [main]
    rfl

example : rotatedDecoder 100 { d := some (.tup [.int 3, .int 4]), T := some 1 } = .error .latticeError :=
  C21_bad_size 100 _ [3, 4] 1 (Or.inl rfl) rfl (Or.inr ⟨4, by decide, by decide⟩)

theorem buildGraphs_ok {dh dw T : Int} (H : OddPos dh dw) {limit : Nat} (hlim : sliceSize dh dw < limit) (key : Key) :
    ∃ s, makeSyndromeGraph dh dw T limit key = .ok s := by
  rcases long_or_short (key := key) H with h | h
  · obtain ⟨s, e, _⟩ := makeSyndromeGraph_raw (T := T) h (sliceList key dh dw)
      (fun t n hn => mem_sliceList H hn) (limit := limit) (fun t => by rw [length_sliceList H]; omega)
    exact ⟨s, e⟩
  · obtain ⟨s, e, _⟩ := short_graph (T := T) h hlim
    exact ⟨s, e⟩

theorem notOdd_false {d : Int} (h : d % 2 = 1) : (Num.int d).notOdd = false := by
  simp only [Num.notOdd, bne_eq_false_iff_eq]
  rw [fmod_pos_eq _ (by omega)]
  omega

theorem validate_pair {p : Params} {a b T : Int} (hd : p.d = some (.tup [.int a, .int b]) ∨ p.d = some (.lst [.int a, .int b]))
    (hT : p.T = some T) (ha : a % 2 = 1) (hb : b % 2 = 1) : rotatedDecoderValidate p = .ok p := by
  have hv : latticeDecoderValidate p = .ok () := by
    unfold latticeDecoderValidate
    rw [if_neg]
    rcases hd with h | h <;> simp [h, hT]
  unfold rotatedDecoderValidate
  rw [hv]
  rcases hd with h | h
  · simp only [h]
    show (if (Num.int a).notOdd then (.error .latticeError : Py Params) else if (Num.int b).notOdd then _ else _) = _
    rw [notOdd_false ha, notOdd_false hb]
    rfl
  · simp only [h]
    show (if (Num.int a).notOdd then (.error .latticeError : Py Params) else if (Num.int b).notOdd then _ else _) = _
    rw [notOdd_false ha, notOdd_false hb]
    rfl

theorem decoderOf_ok {p : Params} {keys : List Key} {limit : Nat} {dh dw T : Int} {S : Key → Option SGraph}
    (h : decoderSizes p = .ok (dh, dw, T)) (hb : buildGraphs dh dw T limit keys = .ok S) :
    decoderOf p keys limit = .ok ⟨dh, dw, T, S, virtualNodes dh dw⟩ := by
  unfold decoderOf
  simp only [h, hb, bind, Except.bind, pure, Except.pure]

theorem repetitionDecoder_ok {p q : Params} {limit : Nat} {D : Decoder} (h1 : repValidate p = .ok q)
    (h2 : rotatedDecoderValidate q = .ok q) (h3 : decoderOf q (if q.pfp.getD false then [Key.X] else [Key.Z]) limit = .ok D) :
    repetitionDecoder limit p = .ok D := by
  unfold repetitionDecoder repDecoderValidate
  simp only [h1, h2, bind, Except.bind, pure, Except.pure]
  exact h3

theorem buildGraphs_one {dh dw T : Int} {limit : Nat} {key : Key} {s : SGraph}
    (e : makeSyndromeGraph dh dw T limit key = .ok s) :
    buildGraphs dh dw T limit [key] = .ok (fun k' => if k' = key then some s else none) := by
  unfold buildGraphs
  rw [List.foldlM_cons, e]
  rfl

/-- C21: for every odd positive size (as a number or a pair) and every `T`, the surface-code decoder is built, has both
graphs, and works on exactly that size, provided the interpreter allows one nested call per node of a time step. -/
theorem C21_surface_built (limit : Nat) (p : Params) (dh dw T : Int) (H : OddPos dh dw)
    (hd : p.d = some (.tup [.int dh, .int dw]) ∨ p.d = some (.lst [.int dh, .int dw]) ∨
      (dh = dw ∧ p.d = some (.num (.int dh))))
    (hT : p.T = some T) (hlim : sliceSize dh dw < limit) :
    ∃ D sx sz, rotatedDecoder limit p = .ok D ∧ D.dh = dh ∧ D.dw = dw ∧ D.T = T ∧
      D.S .X = some sx ∧ D.S .Z = some sz := by
  obtain ⟨sx, ex⟩ := buildGraphs_ok (T := T) H hlim .X
  obtain ⟨sz, ez⟩ := buildGraphs_ok (T := T) H hlim .Z
  have hb : buildGraphs dh dw T limit [.X, .Z] =
      .ok (fun k' => if k' = Key.Z then some sz else if k' = Key.X then some sx else none) := by
    unfold buildGraphs
    simp only [List.foldlM_cons, ex, ez, bind, Except.bind, pure, Except.pure, List.foldlM_nil]
  have HO := H
  unfold OddPos at HO
  have hp : ∃ p', rotatedDecoderValidate p = .ok p' ∧ decoderSizes p' = .ok (dh, dw, T) := by
    rcases hd with h | h | ⟨rfl, h⟩
    · exact ⟨p, validate_pair (Or.inl h) hT HO.2.1 HO.2.2.2, by simp [decoderSizes, h, hT]⟩
    · exact ⟨p, validate_pair (Or.inr h) hT HO.2.1 HO.2.2.2, by simp [decoderSizes, h, hT]⟩
    · refine ⟨{ p with d := some (.tup [.int dh, .int dh]) }, ?_, by simp [decoderSizes, hT]⟩
      have := validate_pair (p := { p with d := some (.tup [.int dh, .int dh]) }) (Or.inl rfl) hT HO.2.1 HO.2.1
      unfold rotatedDecoderValidate latticeDecoderValidate at this ⊢
      rw [if_neg (by simp [hT])] at this
      rw [if_neg (by simp [h, hT])]
      simp only [h, Num.toInt] at this ⊢
      exact this
  obtain ⟨p', h1, h2⟩ := hp
  refine ⟨⟨dh, dw, T, fun k' => if k' = Key.Z then some sz else if k' = Key.X then some sx else none,
    virtualNodes dh dw⟩, sx, sz, ?_, rfl, rfl, rfl, rfl, rfl⟩
  unfold rotatedDecoder
  rw [h1]
  show decoderOf p' _ _ = _
  exact decoderOf_ok h2 hb

example : OddPos 3 5 ∧ sliceSize 3 5 < 900 := by unfold OddPos; decide

/-- C21: a repetition decoder for `d` qubits works on a line, vertical for the bit-flip code and horizontal for the
phase-flip code, and has only the graph of the type it protects against. -/
theorem C21_repetition_built (limit : Nat) (p : Params) (d T : Int) (hd0 : 0 < d) (hodd : d % 2 = 1)
    (hd : p.d = some (.num (.int d)) ∨ (d = 3 ∧ p.d = none)) (hT : p.T = some T) (hlim : d + 1 < limit) :
    ∃ D s, repetitionDecoder limit p = .ok D ∧ D.T = T ∧
      if p.pfp = some true then D.dh = 1 ∧ D.dw = d ∧ D.S .X = some s ∧ D.S .Z = none
      else D.dh = d ∧ D.dw = 1 ∧ D.S .Z = some s ∧ D.S .X = none := by
  by_cases hpf : p.pfp = some true
  · have hs : sliceSize 1 d < limit := by unfold sliceSize; omega
    obtain ⟨s, e⟩ := buildGraphs_ok (T := T) (dh := 1) (dw := d) ⟨by omega, by omega, hd0, hodd⟩ hs .X
    have hr : repValidate p = .ok { p with pfp := some true, d := some (.tup [.int 1, .int d]) } := by
      unfold repValidate
      rcases hd with h | ⟨rfl, h⟩
      · simp [h, hpf, Num.toInt]
      · simp [h, hpf]
    refine ⟨⟨1, d, T, fun k' => if k' = Key.X then some s else none, virtualNodes 1 d⟩, s, ?_, rfl, ?_⟩
    · refine repetitionDecoder_ok hr (validate_pair (Or.inl rfl) hT (by omega) (by omega)) ?_
      exact decoderOf_ok (by simp [decoderSizes, hT]) (buildGraphs_one e)
    · rw [if_pos hpf]
      exact ⟨rfl, rfl, rfl, rfl⟩
  · have hs : sliceSize d 1 < limit := by unfold sliceSize; omega
    obtain ⟨s, e⟩ := buildGraphs_ok (T := T) (dh := d) (dw := 1) ⟨hd0, hodd, by omega, by omega⟩ hs .Z
    have hpf' : p.pfp.getD false = false := by
      cases h : p.pfp with
      | none => rfl
      | some b =>
        cases b with
        | false => rfl
        | true => exact absurd h hpf
    have hr : repValidate p = .ok { p with pfp := some false, d := some (.tup [.int d, .int 1]) } := by
      unfold repValidate
      rcases hd with h | ⟨rfl, h⟩
      · simp [h, hpf', Num.toInt]
      · simp [h, hpf']
    refine ⟨⟨d, 1, T, fun k' => if k' = Key.Z then some s else none, virtualNodes d 1⟩, s, ?_, rfl, ?_⟩
    · refine repetitionDecoder_ok hr (validate_pair (Or.inl rfl) hT (by omega) (by omega)) ?_
      exact decoderOf_ok (by simp [decoderSizes, hT]) (buildGraphs_one e)
    · rw [if_neg hpf]
      exact ⟨rfl, rfl, rfl, rfl⟩

example : ∃ D s, repetitionDecoder 50 { d := some (.num (.int 5)), T := some 2 } = .ok D ∧ D.T = 2 ∧
    (D.dh = 5 ∧ D.dw = 1 ∧ D.S .Z = some s ∧ D.S .X = none) :=
  C21_repetition_built 50 { d := some (.num (.int 5)), T := some 2 } 5 2 (by decide) (by decide) (Or.inl rfl) rfl (by decide)

/-! ### C22 - C26 -/

/-- A constructed decoder for a 3 × 5 lattice and 2 time steps, used as the non-trivial case below. -/
theorem demo_decoder : ∃ D sx sz, Made D ∧ D.dh = 3 ∧ D.dw = 5 ∧ D.T = 2 ∧ D.S .X = some sx ∧ D.S .Z = some sz ∧
    Long .X D.dh D.dw ∧ Long .Z D.dh D.dw := by
  obtain ⟨D, sx, sz, h, h1, h2, h3, h4, h5⟩ := C21_surface_built 900 { d := some (.tup [.int 3, .int 5]), T := some 2 } 3 5 2
    (by unfold OddPos; decide) (Or.inl rfl) rfl (by decide)
  refine ⟨D, sx, sz, Or.inl ⟨_, _, h⟩, h1, h2, h3, h4, h5, ?_, ?_⟩ <;> rw [h1, h2] <;> unfold Long OddPos <;> decide

/-- C22: each decoding graph of a constructed decoder contains every stabilizer once per time step, every boundary node
once, and nothing else; and the node map finds each of them. -/
theorem C22_nodes (D : Decoder) (hD : Made D) (key : Key) (s : SGraph) (hs : D.S key = some s)
    (H : Long key D.dh D.dw) (hT : 0 < D.T) :
    s.g.nodes.Nodup ∧ (∀ n, n ∈ s.g.nodes ↔ GNode key D.dh D.dw D.T n) ∧
      (∀ n i, s.nmap n = some i ↔ s.g.nodes[i]? = some n) := by
  obtain ⟨w, hn, _⟩ := made_graph hD hs H
  refine ⟨w.nodup, ?_, w.map⟩
  intro n
  rw [hn]
  simp [hT]

example : ∃ D s, Made D ∧ D.S .Z = some s ∧ Long .Z D.dh D.dw ∧ 0 < D.T ∧ (⟨1, 3, -1⟩ : Node) ∈ s.g.nodes ∧
    (⟨-1, -1, 3⟩ : Node) ∈ s.g.nodes := by
  obtain ⟨D, sx, sz, h, h1, h2, h3, h4, h5, h6, h7⟩ := demo_decoder
  have := C22_nodes D h .Z sz h5 h7 (by omega)
  refine ⟨D, sz, h, h5, h7, by omega, ?_, ?_⟩
  · rw [this.2.1, h1, h2, h3]
    exact Or.inl (by unfold Site ZSite; decide)
  · rw [this.2.1, h1, h2, h3]
    exact Or.inr (by unfold Bdry Pos; decide)

/-- Two nodes of a decoding graph are joined: the edge list has an entry between their indices. -/
def Joined' (s : SGraph) (a b : Node) : Prop :=
  ∃ i j w, s.g.nodes[i]? = some a ∧ s.g.nodes[j]? = some b ∧ ((i, j, w) ∈ s.g.edges ∨ (j, i, w) ∈ s.g.edges)

/-- C23: two nodes are joined exactly if one elementary fault (a data flip in one time step, or a misreading between two
consecutive ones) has them as its two ends; no pair is joined twice and all weights are `1`. -/
theorem C23_edges (D : Decoder) (hD : Made D) (key : Key) (s : SGraph) (hs : D.S key = some s)
    (H : Long key D.dh D.dw) :
    (∀ a b, Joined' s a b ↔ GAdj key D.dh D.dw D.T a b) ∧ (∀ e ∈ s.g.edges, e.2.2 = 1) ∧
      s.g.edges.Pairwise (fun e e' => ¬ ((e.1 = e'.1 ∧ e.2.1 = e'.2.1) ∨ (e.1 = e'.2.1 ∧ e.2.1 = e'.1))) := by
  obtain ⟨w, _, ha⟩ := made_graph hD hs H
  refine ⟨ha, w.unit, w.simple.imp ?_⟩
  intro e e' h h'
  exact h (sameEnds_iff.2 h')

/-- C23: every data qubit gives exactly one edge per time step ... -/
theorem C23_data_qubit_edge (key : Key) (dh dw T t r c : Int) (H : OddPos dh dw) (ht : 0 ≤ t ∧ t < T)
    (hr : 0 ≤ r ∧ r < dh) (hc : 0 ≤ c ∧ c < dw) :
    ∃ a b, DataEdge key dh dw T t r c a b ∧
      ∀ a' b', DataEdge key dh dw T t r c a' b' → (a' = a ∧ b' = b) ∨ (a' = b ∧ b' = a) := by
  obtain ⟨a, b, h1, h2, h3, h4⟩ := touches_two (key := key) (t := t) H hr.1 hr.2 hc.1 hc.2
  refine ⟨a, b, ⟨ht.1, ht.2, hr.1, hr.2, hc.1, hc.2, h1, h2, h3⟩, ?_⟩
  rintro a' b' ⟨_, _, _, _, _, _, hne, ha, hb⟩
  rcases h4 a' ha with rfl | rfl <;> rcases h4 b' hb with rfl | rfl
  · exact absurd rfl hne
  · exact Or.inl ⟨rfl, rfl⟩
  · exact Or.inr ⟨rfl, rfl⟩
  · exact absurd rfl hne

/-- C23: ... and different elementary faults give different edges. -/
theorem C23_faults_distinct (key : Key) (dh dw T t r c t' r' c' : Int) (H : Long key dh dw) (a b : Node)
    (h : DataEdge key dh dw T t r c a b) :
    (DataEdge key dh dw T t' r' c' a b → t = t' ∧ r = r' ∧ c = c') ∧ ¬ TimeEdge key dh dw T t' a b := by
  have d := dataEdge_diag h
  constructor
  · intro h'
    have d' := dataEdge_diag h'
    refine ⟨?_, by omega, by omega⟩
    obtain ⟨ht0, ht1, hr0, hr1, hc0, hc1, _, ⟨_, _, ha⟩, ⟨_, _, hb⟩⟩ := h
    obtain ⟨ht0', _, _, _, _, _, _, ⟨_, _, ha'⟩, ⟨_, _, hb'⟩⟩ := h'
    -- at least one end is not on the boundary
    rcases ha with ⟨ha, _⟩ | ⟨ha, ha2⟩
    · rcases ha' with ⟨ha', _⟩ | ⟨ha', _⟩ <;> omega
    · rcases hb with ⟨hb, _⟩ | ⟨hb, hb2⟩
      · rcases hb' with ⟨hb', _⟩ | ⟨hb', _⟩ <;> omega
      · exfalso
        obtain ⟨H, hl⟩ := H
        unfold OddPos at H
        cases key
        · simp only [Bdry, Pos] at ha2 hb2 hl; omega
        · simp only [Bdry, Pos] at ha2 hb2 hl; omega
  · rintro ⟨_, _, _, h4, h5, _⟩
    omega

example : DataEdge .Z 3 5 2 1 0 2 ⟨-1, -1, 3⟩ ⟨1, 1, 5⟩ ∧ Long .Z 3 5 := by
  unfold DataEdge Touches Bdry Site ZSite Pos Long OddPos; decide

/-- C24: for every lattice, building a decoding graph finishes (without `RecursionError`) as soon as the interpreter
allows one nested call per node of a time step, and any larger limit gives the same graph. -/
theorem C24_terminates (dh dw T : Int) (key : Key) (H : Long key dh dw) (limit : Nat) (hlim : sliceSize dh dw ≤ limit) :
    ∃ s, makeSyndromeGraph dh dw T (sliceSize dh dw) key = .ok s ∧ makeSyndromeGraph dh dw T limit key = .ok s := by
  obtain ⟨s, e, _⟩ := makeSyndromeGraph_raw (T := T) H (sliceList key dh dw)
    (fun t n hn => mem_sliceList H.1 hn) (limit := sliceSize dh dw) (fun t => by rw [length_sliceList H.1])
  exact ⟨s, e, makeSyndromeGraph_mono hlim e⟩

/-- The number of nodes of a time step used in C24 is the number of stabilizers plus the number of boundary nodes. -/
theorem C24_slice_size (dh dw : Int) (H : OddPos dh dw) :
    (sliceSize dh dw = (zSites dh dw).length + (dw + 1).toNat) ∧ (sliceSize dh dw = (xSites dh dw).length + (dh + 1).toNat) := by
  have hz := length_sliceList (key := .Z) (t := 0) H
  have hx := length_sliceList (key := .X) (t := 0) H
  have lz := length_virtualNodes (key := .Z) H
  have lx := length_virtualNodes (key := .X) H
  simp only [sliceList, List.length_append, List.length_map] at hz hx lz lx
  omega

example : sliceSize 3 5 = 12 ∧ Long .Z 3 5 := by unfold Long OddPos; decide

/-- C25: any two nodes of a decoding graph are linked by a path of its edges. -/
theorem C25_connected (D : Decoder) (hD : Made D) (key : Key) (s : SGraph) (hs : D.S key = some s)
    (H : Long key D.dh D.dw) (a b : Node) (ha : a ∈ s.g.nodes) (hb : b ∈ s.g.nodes) :
    ∃ es, Path (Joined' s) a b es := by
  obtain ⟨w, hn, hadj⟩ := made_graph hD hs H
  obtain ⟨hT, ha⟩ := (hn a).1 ha
  obtain ⟨_, hb⟩ := (hn b).1 hb
  have e : Joined' s = GAdj key D.dh D.dw D.T := by
    funext a b
    exact propext (hadj a b)
  rw [e]
  exact gnode_connected H hT ha hb

/-- C26 is false of the code: the surface-code decoder of every line keeps, for the type that has no stabilizers, a graph
with one real node per time step. -/
theorem C26_no_phantom_fails (d T : Int) (hd : 0 < d) (hodd : d % 2 = 1) (hT : 0 < T) (limit : Nat) (hlim : d + 1 < limit) :
    ∃ D s n, rotatedDecoder limit { d := some (.tup [.int d, .int 1]), T := some T } = .ok D ∧ D.S .X = some s ∧
      xSites D.dh D.dw = [] ∧ n ∈ s.g.nodes ∧ n.t ≠ -1 := by
  have hs : sliceSize d 1 < limit := by unfold sliceSize; omega
  have HO : OddPos d 1 := ⟨hd, hodd, by omega, by omega⟩
  obtain ⟨D, sx, sz, h, h1, h2, h3, h4, h5⟩ := C21_surface_built limit
    { d := some (.tup [.int d, .int 1]), T := some T } d 1 T HO (Or.inl rfl) rfl hs
  obtain ⟨s, e, _, hn⟩ := short_graph (key := .X) (T := T) (dh := d) (dw := 1) ⟨HO, rfl⟩ hs
  have hsx : sx = s := by
    unfold rotatedDecoder at h
    obtain ⟨p', e1, e2⟩ := except_bind_ok h
    obtain ⟨_, hb, _⟩ := decoderOf_facts e2
    rw [h1, h2, h3] at hb
    rcases buildGraphs_some _ _ _ hb .X sx h4 with h' | h'
    · rw [e] at h'; cases h'; rfl
    · cases h'
  refine ⟨D, sx, ⟨0, 1, 3⟩, h, h4, ?_, ?_, by decide⟩
  · rw [h1, h2]
    apply List.eq_nil_iff_forall_not_mem.2
    intro p hp
    rw [mem_xSites] at hp
    unfold XSite at hp
    omega
  · rw [hsx, hn _ (by decide)]
    exact ⟨0, by omega, hT, rfl⟩

example : ∃ D s n, rotatedDecoder 50 { d := some (.tup [.int 3, .int 1]), T := some 1 } = .ok D ∧ D.S .X = some s ∧
      xSites D.dh D.dw = [] ∧ n ∈ s.g.nodes ∧ n.t ≠ -1 :=
  C26_no_phantom_fails 3 1 (by decide) (by decide) (by decide) 50 (by decide)

/-- What is true of C26: a graph of a type that has stabilizers contains no phantom real node, and a repetition decoder
has no graph of the other type (`C21_repetition_built`).
Missing: the unused graph of a surface-code decoder for a line. -/
theorem C26_no_phantom_partial (D : Decoder) (hD : Made D) (key : Key) (s : SGraph) (hs : D.S key = some s)
    (H : Long key D.dh D.dw) (n : Node) (hn : n ∈ s.g.nodes) (hreal : n.t ≠ -1) :
    (match key with | .X => (n.r2, n.c2) ∈ xSites D.dh D.dw | .Z => (n.r2, n.c2) ∈ zSites D.dh D.dw) := by
  obtain ⟨_, hm, _⟩ := made_graph hD hs H
  rcases ((hm n).1 hn).2 with ⟨_, _, h⟩ | ⟨h, _⟩
  · cases key
    · exact mem_xSites.2 h
    · exact mem_zSites.2 h
  · exact absurd h hreal

/-! ### C17, second half -/

theorem changes_mem_site {sites : List (Int × Int)} {bits : List (Nat → Bool)} {n : Node} (h : n ∈ changes sites bits) :
    0 ≤ n.t ∧ n.t + 1 < bits.length ∧ (n.r2, n.c2) ∈ sites := by
  obtain ⟨t, k, a, b, p, h1, h2, h3, _, rfl⟩ := mem_changes.1 h
  have := (List.getElem?_eq_some_iff.1 h2).1
  refine ⟨by simp, ?_, List.mem_of_getElem? h3⟩
  simp only
  omega

/-- C17: every hit reported for a string with one-digit logical value and at most `T + 1` rounds is a node of the graph
of a decoder for `T`. -/
theorem C17_hits_are_graph_nodes (D : Decoder) (hD : Made D) (key : Key) (s : SGraph) (hs : D.S key = some s)
    (H : Long key D.dh D.dw) (rt : RType) (v : Char) (hv : v.isDigit = true) (rounds : List Str)
    (hr : ∀ s ∈ rounds, IsBits s) (hlen : (rounds.length : Int) ≤ D.T + 1) (l : Int) (hits : Hits)
    (hp : parseReadout D.dh D.dw (joinSp ([v] :: rounds.reverse)) rt = .ok (l, hits)) (n : Node)
    (hn : n ∈ (match key with | .X => hits.X | .Z => hits.Z)) : ∃ i, s.idx n = .ok i := by
  have hbig : 1 < D.dh * D.dw := by
    obtain ⟨HO, hl⟩ := H
    unfold OddPos at HO
    have hcase : 3 ≤ D.dh ∨ 3 ≤ D.dw := by
      cases key
      · exact Or.inr hl
      · exact Or.inl hl
    rcases hcase with h | h
    · have := Int.mul_le_mul h (show (1 : Int) ≤ D.dw by omega) (by omega) (by omega)
      omega
    · have := Int.mul_le_mul (show (1 : Int) ≤ D.dh by omega) h (by omega) (by omega)
      omega
  rw [C15_parse_is_changes D.dh D.dw H.1 hbig rt v hv rounds hr] at hp
  cases hp
  obtain ⟨w, hm, _⟩ := made_graph hD hs H
  have hmem : n ∈ s.g.nodes := by
    rw [hm]
    cases key
    · have := changes_mem_site hn
      rw [List.length_map, mem_xSites] at this
      exact ⟨by omega, Or.inl ⟨this.1, by omega, this.2.2⟩⟩
    · have := changes_mem_site hn
      rw [List.length_map, mem_zSites] at this
      exact ⟨by omega, Or.inl ⟨this.1, by omega, this.2.2⟩⟩
  obtain ⟨i, h, _⟩ := s.idx_ok w hmem
  exact ⟨i, h⟩

/-- A concrete case of the hypotheses: three rounds for a decoder with `T = 2`, with a Z hit. -/
example : ∃ D s, Made D ∧ D.S .Z = some s ∧ Long .Z D.dh D.dw ∧
    (["00000000000000".toList, "00000000000001".toList, "00000000000001".toList].length : Int) ≤ D.T + 1 ∧
    parseReadout D.dh D.dw (joinSp (['0'] :: ["00000000000000".toList, "00000000000001".toList, "00000000000001".toList].reverse)) .Z =
      .ok (0, { X := [], Z := [⟨0, 1, 1⟩] }) := by
  obtain ⟨D, sx, sz, h, h1, h2, h3, h4, h5, h6, h7⟩ := demo_decoder
  refine ⟨D, sz, h, h5, h7, by rw [h3]; decide, ?_⟩
  rw [h1, h2]
  decide

/-! ### C74 -/

/-- C74 is false of the code: whatever nesting depth the interpreter allows, the decoder of a longer repetition code cannot
be built (`RecursionError`), because the graph is populated by recursion along the whole line. -/
theorem C74_any_length_fails (limit : Nat) (d T : Int) (hd : (limit : Int) + 2 ≤ d) (hodd : d % 2 = 1) (hT : 0 < T) :
    repetitionDecoder limit { d := some (.num (.int d)), T := some T } = .error .recursionError := by
  have HO : OddPos d 1 := ⟨by omega, hodd, by omega, by omega⟩
  have hp : populate d 1 .Z 0 limit (startNode .Z 0) [] (({} : SGraph).addNode (startNode .Z 0)) = .error .recursionError :=
    line_overflow HO (t := 0) (by omega) limit 0 [] _ (SGraph.addNode_WF emptyGraph_WF (by simp))
      (SGraph.addNode_nodes.2 (Or.inr rfl)) (by intro j hj; omega) (by simp) (by push_cast; omega)
  have hm : makeSyndromeGraph d 1 T limit .Z = .error .recursionError := by
    unfold makeSyndromeGraph pyRange
    obtain ⟨k, hk⟩ : ∃ k, T.toNat = k + 1 := ⟨T.toNat - 1, by omega⟩
    rw [hk, List.range_succ_eq_map, List.map_cons, List.foldlM_cons]
    have : timeSlice d 1 .Z limit {} (Int.ofNat 0) = .error .recursionError := by
      unfold timeSlice
      show (do let r ← populate d 1 .Z 0 limit (startNode .Z 0) [] (({} : SGraph).addNode (startNode .Z 0)); _) = _
      rw [hp]
      rfl
    rw [this]
    rfl
  unfold repetitionDecoder repDecoderValidate
  show (do
    let p ← rotatedDecoderValidate { d := some (.tup [.int d, .int 1]), T := some T, pfp := some false }
    (pure (p, [Key.Z]) : Py _)) >>= _ = _
  rw [validate_pair (Or.inl rfl) rfl hodd (by omega)]
  show (do let S ← buildGraphs d 1 T limit [.Z]; (_ : Py Decoder)) = _
  unfold buildGraphs
  rw [List.foldlM_cons, hm]
  rfl

/-- With CPython's usual limit of 1000 frames, a repetition code of 1003 qubits cannot be decoded. -/
example : repetitionDecoder 1000 { d := some (.num (.int 1003)), T := some 1 } = .error .recursionError :=
  C74_any_length_fails 1000 1003 1 (by decide) (by decide) (by decide)

/-- What is true of C74: the decoder of a line of `d` qubits can be built when `d + 2` nested calls are allowed.
Missing: independence of the recursion limit. -/
theorem C74_any_length_partial (limit : Nat) (d T : Int) (hd0 : 0 < d) (hodd : d % 2 = 1) (hlim : d + 1 < limit) :
    ∃ D, repetitionDecoder limit { d := some (.num (.int d)), T := some T } = .ok D := by
  obtain ⟨D, s, h, _⟩ := C21_repetition_built limit { d := some (.num (.int d)), T := some T } d T hd0 hodd (Or.inl rfl) rfl hlim
  exact ⟨D, h⟩

example : ∃ D, repetitionDecoder 1000 { d := some (.num (.int 901)), T := some 3 } = .ok D :=
  C74_any_length_partial 1000 901 3 (by decide) (by decide) (by decide)

end Qtc
