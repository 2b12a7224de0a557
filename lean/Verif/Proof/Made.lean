import Verif.Proof.GraphMore
namespace Qtc
open Spec

/-- A decoder object returned by one of the two constructors, for some parameters and some recursion limit. -/
def Made (D : Decoder) : Prop :=
  (∃ limit p, rotatedDecoder limit p = .ok D) ∨ (∃ limit p, repetitionDecoder limit p = .ok D)

theorem except_bind_ok {α β : Type} {x : Py α} {f : α → Py β} {b : β} (h : (x >>= f) = .ok b) :
    ∃ a, x = .ok a ∧ f a = .ok b := by
  cases x with
  | error e => cases h
  | ok a => exact ⟨a, rfl, h⟩

theorem buildGraphs_some {dh dw T : Int} {limit : Nat} : ∀ (keys : List Key) (S0 S : Key → Option SGraph),
    keys.foldlM (fun S k => do
      let s ← makeSyndromeGraph dh dw T limit k
      return fun k' => if k' = k then some s else S k') S0 = .ok S →
    ∀ k s, S k = some s → makeSyndromeGraph dh dw T limit k = .ok s ∨ (S0 k = some s)
  | [], S0, S, e, k, s, h => by
    cases e
    exact Or.inr h
  | k0 :: keys, S0, S, e, k, s, h => by
    rw [List.foldlM_cons] at e
    obtain ⟨S1, e1, e2⟩ := except_bind_ok e
    obtain ⟨s1, e3, e4⟩ := except_bind_ok e1
    cases e4
    rcases buildGraphs_some keys _ S e2 k s h with h' | h'
    · exact Or.inl h'
    · split at h'
      · rename_i hk
        cases h'
        rw [hk]
        exact Or.inl e3
      · exact Or.inr h'

theorem decoderOf_facts {p : Params} {keys : List Key} {limit : Nat} {D : Decoder} (h : decoderOf p keys limit = .ok D) :
    decoderSizes p = .ok (D.dh, D.dw, D.T) ∧ buildGraphs D.dh D.dw D.T limit keys = .ok D.S ∧
      D.virt = virtualNodes D.dh D.dw := by
  unfold decoderOf at h
  obtain ⟨⟨dh, dw, T⟩, e1, e2⟩ := except_bind_ok h
  obtain ⟨S, e3, e4⟩ := except_bind_ok e2
  cases e4
  exact ⟨e1, e3, rfl⟩

theorem made_facts {D : Decoder} (h : Made D) :
    D.virt = virtualNodes D.dh D.dw ∧ D.dh % 2 = 1 ∧ D.dw % 2 = 1 ∧
    ∃ limit keys, buildGraphs D.dh D.dw D.T limit keys = .ok D.S := by
  have hval : ∀ (p p' : Params), rotatedDecoderValidate p = .ok p' → ∀ dh dw T, decoderSizes p' = .ok (dh, dw, T) →
      dh % 2 = 1 ∧ dw % 2 = 1 := by
    intro p p' hp dh dw T hd
    unfold rotatedDecoderValidate at hp
    obtain ⟨u, _, hp⟩ := except_bind_ok hp
    have main : ∀ (q : Params), (match q.d with
      | some (.tup l) | some (.lst l) =>
        if l.length ≠ 2 then (.error .latticeError : Py Params)
        else do
          let dh ← pyIdx l 0
          let dw ← pyIdx l 1
          if dh.notOdd then .error .latticeError
          else if dw.notOdd then .error .latticeError
          else pure q
      | some (.str s) => if s.length ≠ 2 then .error .latticeError else .error .typeError
      | _ => .error .typeError) = .ok p' → dh % 2 = 1 ∧ dw % 2 = 1 := by
      intro q hq
      have core : ∀ l : List Num, (if l.length ≠ 2 then (.error .latticeError : Py Params)
          else do
            let dh ← pyIdx l 0
            let dw ← pyIdx l 1
            if dh.notOdd then .error .latticeError
            else if dw.notOdd then .error .latticeError
            else pure q) = .ok p' → p' = q ∧ ∀ a b, l = [.int a, .int b] → a % 2 = 1 ∧ b % 2 = 1 := by
        intro l hl
        split at hl
        · cases hl
        · obtain ⟨a, ha, hl⟩ := except_bind_ok hl
          obtain ⟨b, hb, hl⟩ := except_bind_ok hl
          split at hl
          · cases hl
          · split at hl
            · cases hl
            · cases hl
              refine ⟨rfl, ?_⟩
              rintro x y rfl
              cases ha
              cases hb
              rename_i h1 h2
              simp only [Num.notOdd, bne_iff_ne, ne_eq, Decidable.not_not] at h1 h2
              rw [fmod_pos_eq _ (by omega)] at h1
              rw [fmod_pos_eq _ (by omega)] at h2
              exact ⟨h1, h2⟩
      have fin : ∀ l : List Num, (p'.d = some (.tup l) ∨ p'.d = some (.lst l)) → l = [.int dh, .int dw] := by
        intro l hl
        unfold decoderSizes at hd
        split at hd
        · rename_i h1 h2
          cases hd
          rcases hl with hl | hl
          · rw [hl] at h1; cases h1; rfl
          · rw [hl] at h1; cases h1
        · rename_i h1 h2
          cases hd
          rcases hl with hl | hl
          · rw [hl] at h1; cases h1
          · rw [hl] at h1; cases h1; rfl
        · cases hd
      split at hq
      · rename_i l h
        obtain ⟨rfl, h2⟩ := core l hq
        exact h2 _ _ (fin l (Or.inl h))
      · rename_i l h
        obtain ⟨rfl, h2⟩ := core l hq
        exact h2 _ _ (fin l (Or.inr h))
      · split at hq <;> cases hq
      · cases hq
    exact main _ hp
  rcases h with ⟨limit, p, h⟩ | ⟨limit, p, h⟩
  · unfold rotatedDecoder at h
    obtain ⟨p', e1, e2⟩ := except_bind_ok h
    obtain ⟨h1, h2, h3⟩ := decoderOf_facts e2
    obtain ⟨h4, h5⟩ := hval p p' e1 _ _ _ h1
    exact ⟨h3, h4, h5, limit, _, h2⟩
  · unfold repetitionDecoder at h
    obtain ⟨⟨p', keys⟩, e1, e2⟩ := except_bind_ok h
    obtain ⟨h1, h2, h3⟩ := decoderOf_facts e2
    unfold repDecoderValidate at e1
    obtain ⟨p1, e3, e4⟩ := except_bind_ok e1
    obtain ⟨p2, e5, e6⟩ := except_bind_ok e4
    cases e6
    obtain ⟨h4, h5⟩ := hval p1 p' e5 _ _ _ h1
    exact ⟨h3, h4, h5, limit, _, h2⟩

/-- The graph of a constructed decoder has the specified shape. -/
theorem made_graph {D : Decoder} (h : Made D) {key : Key} {s : SGraph} (hs : D.S key = some s)
    (H : Long key D.dh D.dw) :
    s.WF ∧ (∀ n, n ∈ s.g.nodes ↔ 0 < D.T ∧ GNode key D.dh D.dw D.T n) ∧
      (∀ a b, s.g.Adj a b ↔ GAdj key D.dh D.dw D.T a b) := by
  obtain ⟨_, _, _, limit, keys, hb⟩ := made_facts h
  have hm : makeSyndromeGraph D.dh D.dw D.T limit key = .ok s := by
    rcases buildGraphs_some keys _ _ hb key s hs with h | h
    · exact h
    · cases h
  have hm' := makeSyndromeGraph_mono (Nat.le_max_left limit (sliceSize D.dh D.dw)) hm
  obtain ⟨s', e, w, hn, ha⟩ := makeSyndromeGraph_raw (T := D.T) H (sliceList key D.dh D.dw)
    (fun t n hn => mem_sliceList H.1 hn) (limit := max limit (sliceSize D.dh D.dw))
    (fun t => by rw [length_sliceList H.1]; exact Nat.le_max_right _ _)
  rw [e] at hm'
  cases hm'
  refine ⟨w, hn, ?_⟩
  intro a b
  rw [ha, sliceAdj_iff]
  rfl

/-! ### Paths -/

theorem Path.append {adj : Node → Node → Prop} {a b c : Node} {es es' : List (Node × Node)}
    (h : Path adj a b es) (h' : Path adj b c es') : Path adj a c (es ++ es') := by
  induction h with
  | nil _ => exact h'
  | cons h _ ih => exact Path.cons h (ih h')

theorem Path.rev {adj : Node → Node → Prop} (hsym : ∀ a b, adj a b → adj b a) {a b : Node} {es : List (Node × Node)}
    (h : Path adj a b es) : ∃ es', Path adj b a es' ∧ es'.length = es.length := by
  induction h with
  | nil a => exact ⟨[], Path.nil a, rfl⟩
  | cons h _ ih =>
    obtain ⟨es', h1, h2⟩ := ih
    refine ⟨_, Path.append h1 (Path.cons (hsym _ _ h) (Path.nil _)), ?_⟩
    simp [h2]

theorem GAdj.symm {key : Key} {dh dw T : Int} {a b : Node} (h : GAdj key dh dw T a b) : GAdj key dh dw T b a := by
  rcases h with ⟨t, r, c, h1, h2, h3, h4, h5, h6, h7, h8, h9⟩ | ⟨t, h1, h2, h3, h4, h5, h6⟩
  · exact Or.inl ⟨t, r, c, h1, h2, h3, h4, h5, h6, h7.symm, h9, h8⟩
  · refine Or.inr ⟨t, h1, h2, by rw [← h4, ← h5]; exact h3, h4.symm, h5.symm, ?_⟩
    omega

theorem gnode_connected {key : Key} {dh dw T : Int} (H : Long key dh dw) (hT : 0 < T) {a b : Node}
    (ha : GNode key dh dw T a) (hb : GNode key dh dw T b) : ∃ es, Path (GAdj key dh dw T) a b es := by
  have slice : ∀ t, 0 ≤ t → t < T → ∀ n, SN key dh dw t n → ∃ es, Path (GAdj key dh dw T) (startNode key t) n es := by
    intro t h1 h2
    refine closed_all H ⟨[], Path.nil _⟩ ?_
    rintro u hu ⟨es, hes⟩ v hv hd
    exact ⟨_, Path.append hes (Path.cons (Or.inl (sliceAdj_iff.1 ⟨t, h1, h2, hu, hv, hd⟩)) (Path.nil _))⟩
  have times : ∀ k : Nat, (k : Int) < T → ∃ es, Path (GAdj key dh dw T) (startNode key 0) (startNode key k) es := by
    intro k
    induction k with
    | zero => intro _; exact ⟨[], Path.nil _⟩
    | succ k ih =>
      intro hk
      push_cast at hk
      obtain ⟨es, hes⟩ := ih (by omega)
      refine ⟨_, Path.append hes (Path.cons (Or.inr ⟨k, by omega, by omega, ?_, ?_, ?_, ?_⟩) (Path.nil _))⟩
      · rcases start_SN (t := (k : Int)) H with ⟨_, h⟩ | ⟨h, _⟩
        · exact h
        · rw [startNode_t] at h; omega
      · cases key <;> rfl
      · cases key <;> rfl
      · rw [startNode_t, startNode_t]; push_cast; omega
  have all : ∀ n, GNode key dh dw T n → ∃ es, Path (GAdj key dh dw T) (startNode key 0) n es := by
    rintro n (⟨h1, h2, h3⟩ | h)
    · obtain ⟨es, hes⟩ := times n.t.toNat (by omega)
      have e : ((n.t.toNat : Nat) : Int) = n.t := by omega
      rw [e] at hes
      obtain ⟨es', hes'⟩ := slice n.t h1 h2 n (Or.inl ⟨rfl, h3⟩)
      exact ⟨_, Path.append hes hes'⟩
    · exact slice 0 (by omega) hT n (Or.inr h)
  obtain ⟨e1, h1⟩ := all a ha
  obtain ⟨e2, h2⟩ := all b hb
  obtain ⟨e3, h3, _⟩ := Path.rev (fun _ _ => GAdj.symm) h1
  exact ⟨_, Path.append h3 h2⟩

/-! ### Data qubits and edges -/

theorem touches_two {key : Key} {dh dw t r c : Int} (H : OddPos dh dw) (h1 : 0 ≤ r) (h2 : r < dh) (h3 : 0 ≤ c) (h4 : c < dw) :
    ∃ a b, a ≠ b ∧ Touches key dh dw t r c a ∧ Touches key dh dw t r c b ∧
      ∀ n, Touches key dh dw t r c n → n = a ∨ n = b := by
  have uniq : ∀ n m, Touches key dh dw t r c n → Touches key dh dw t r c m → n.r2 = m.r2 → n.c2 = m.c2 → n = m := by
    rintro ⟨nt, nr, nc⟩ ⟨mt, mr, mc⟩ hn hm hr hc
    simp only at hr hc
    subst hr hc
    have : nt = mt := by
      rcases hn.2.2 with ⟨e, g⟩ | ⟨e, g⟩
      · rcases hm.2.2 with ⟨e', g'⟩ | ⟨e', g'⟩
        · exact e.trans e'.symm
        · exact absurd g' (site_not_bdry g)
      · rcases hm.2.2 with ⟨e', g'⟩ | ⟨e', g'⟩
        · exact absurd g (site_not_bdry g')
        · exact e.trans e'.symm
    rw [this]
  obtain ⟨r1, c1, r2', c2', hp1, hp2, hne, hr1, hc1, hr2, hc2, hall⟩ : ∃ r1 c1 r2 c2, Pos key dh dw r1 c1 ∧ Pos key dh dw r2 c2 ∧
      r1 ≠ r2 ∧ (r1 = 2*r-1 ∨ r1 = 2*r+1) ∧ (c1 = 2*c-1 ∨ c1 = 2*c+1) ∧ (r2 = 2*r-1 ∨ r2 = 2*r+1) ∧ (c2 = 2*c-1 ∨ c2 = 2*c+1) ∧
      ∀ x y, Pos key dh dw x y → (x = 2*r-1 ∨ x = 2*r+1) → (y = 2*c-1 ∨ y = 2*c+1) → (x = r1 ∧ y = c1) ∨ (x = r2 ∧ y = c2) := by
    by_cases hpar : (r + c) % 2 = 0
    · cases key
      · refine ⟨2*r-1, 2*c+1, 2*r+1, 2*c-1, ?_, ?_, ?_, ?_, ?_, ?_, ?_, ?_⟩
        case _ => simp only [Pos]; omega
        case _ => simp only [Pos]; omega
        all_goals first | omega | (intro x y hp hx hy; simp only [Pos] at hp; omega)
      · refine ⟨2*r-1, 2*c-1, 2*r+1, 2*c+1, ?_, ?_, ?_, ?_, ?_, ?_, ?_, ?_⟩
        case _ => simp only [Pos]; omega
        case _ => simp only [Pos]; omega
        all_goals first | omega | (intro x y hp hx hy; simp only [Pos] at hp; omega)
    · cases key
      · refine ⟨2*r-1, 2*c-1, 2*r+1, 2*c+1, ?_, ?_, ?_, ?_, ?_, ?_, ?_, ?_⟩
        case _ => simp only [Pos]; omega
        case _ => simp only [Pos]; omega
        all_goals first | omega | (intro x y hp hx hy; simp only [Pos] at hp; omega)
      · refine ⟨2*r-1, 2*c+1, 2*r+1, 2*c-1, ?_, ?_, ?_, ?_, ?_, ?_, ?_, ?_⟩
        case _ => simp only [Pos]; omega
        case _ => simp only [Pos]; omega
        all_goals first | omega | (intro x y hp hx hy; simp only [Pos] at hp; omega)
  obtain ⟨a, ha, ha1, ha2⟩ := exists_SN (t := t) H hp1
  obtain ⟨b, hb, hb1, hb2⟩ := exists_SN (t := t) H hp2
  have Ta : Touches key dh dw t r c a := ⟨by rw [ha1]; exact hr1, by rw [ha2]; exact hc1, ha⟩
  have Tb : Touches key dh dw t r c b := ⟨by rw [hb1]; exact hr2, by rw [hb2]; exact hc2, hb⟩
  refine ⟨a, b, ?_, Ta, Tb, ?_⟩
  · rintro rfl
    exact hne (ha1.symm.trans hb1)
  · intro n hn
    rcases hall n.r2 n.c2 (SN_pos hn.2.2) hn.1 hn.2.1 with ⟨h, h'⟩ | ⟨h, h'⟩
    · exact Or.inl (uniq n a hn Ta (h.trans ha1.symm) (h'.trans ha2.symm))
    · exact Or.inr (uniq n b hn Tb (h.trans hb1.symm) (h'.trans hb2.symm))

/-- The two ends of a data flip determine the data qubit. -/
theorem dataEdge_diag {key : Key} {dh dw T t r c : Int} {a b : Node} (h : DataEdge key dh dw T t r c a b) :
    a.r2 + b.r2 = 4 * r ∧ a.c2 + b.c2 = 4 * c ∧ (a.r2 = 2*r-1 ∨ a.r2 = 2*r+1) ∧ (a.c2 = 2*c-1 ∨ a.c2 = 2*c+1) := by
  obtain ⟨t', h1, h2, h3, h4, h5⟩ := sliceAdj_iff.2 ⟨t, r, c, h⟩
  obtain ⟨_, _, _, _, _, _, _, ⟨h6, h7, _⟩, ⟨h8, h9, _⟩⟩ := h
  unfold Diag at h5
  omega

end Qtc
