import Verif.Proof.QHooks
/-!
A single error anywhere in a round of the XXZZ code amounts to faults that cost the decoder at most 3.
-/
namespace Qtc
open Spec Function

variable {dh dw : Int} {key : Key} {name : Str} {n : Nat} {code : Code}

theorem suffix_cases {α : Type} {l A B : List α} (h : l <:+ A ++ B) : l <:+ B ∨ ∃ a, a <:+ A ∧ l = a ++ B := by
  obtain ⟨t, ht⟩ := h
  rcases List.append_eq_append_iff.1 ht with ⟨a, e1, e2⟩ | ⟨c, e1, e2⟩
  · exact Or.inr ⟨a, ⟨t, e1.symm⟩, e2⟩
  · exact Or.inl ⟨c, e2.symm⟩

theorem suffix_map {α β : Type} {l : List β} {L : List α} {f : α → β} (h : l <:+ L.map f) : ∃ l', l' <:+ L ∧ l = l'.map f := by
  obtain ⟨t, ht⟩ := h
  obtain ⟨a, b, e, -, e2⟩ := List.map_eq_append_iff.1 ht.symm
  exact ⟨b, ⟨a, e.symm⟩, e2.symm⟩

theorem suffix_flatMap {α β : Type} {l : List β} {L : List α} {f : α → List β} (h : l <:+ L.flatMap f) :
    l = [] ∨ ∃ pre a post s, L = pre ++ a :: post ∧ s <:+ f a ∧ l = s ++ post.flatMap f := by
  induction L with
  | nil => exact Or.inl (List.suffix_nil.1 h)
  | cons b L ih =>
    rw [List.flatMap_cons] at h
    rcases suffix_cases h with h | ⟨s, hs, e⟩
    · rcases ih h with h | ⟨pre, a, post, s, e, hs, e'⟩
      · exact Or.inl h
      · exact Or.inr ⟨b :: pre, a, post, s, by rw [e, List.cons_append], hs, e'⟩
    · exact Or.inr ⟨[], b, L, s, rfl, hs, e⟩

/-! ### The end of the round: measuring and resetting -/

theorem turned_X (i : Int) : turnedBy .xxzz key i (Letter.err .X) = decide (key = .Z) := by cases key <;> rfl

theorem turned_Z (i : Int) : turnedBy .xxzz key i (Letter.err .Z) = decide (key = .X) := by cases key <;> rfl

/-- The end of the circuit of a round. -/
def tailOf (name : Str) (dh dw : Int) (n : Nat) : List Instr :=
  (synBits name (xSites dh dw).length (zSites dh dw).length (roundName name n)).map (fun p => .measure p.1 p.2) ++
    ((synQs name (xSites dh dw).length (zSites dh dw).length).map .reset ++ [.barrier])

theorem mem_synBits {q : Qubit × Clbit} {creg : Str} (h : q ∈ synBits name (xSites dh dw).length (zSites dh dw).length creg) :
    ∃ κ k p, (sitesOf κ dh dw)[k]? = some p ∧ q = (synQ κ name k, ⟨creg, offsetOf κ dh dw + k⟩) := by
  unfold synBits at h
  rcases List.mem_append.1 h with h | h
  · obtain ⟨k, hk, rfl⟩ := List.mem_map.1 h
    rw [List.mem_range] at hk
    exact ⟨.Z, k, _, List.getElem?_eq_getElem hk, by simp [synQ, offsetOf]⟩
  · obtain ⟨k, hk, rfl⟩ := List.mem_map.1 h
    rw [List.mem_range] at hk
    exact ⟨.X, k, _, List.getElem?_eq_getElem hk, by simp [synQ, offsetOf]⟩

theorem synBits_mem {κ : Key} {k : Nat} {p : Int × Int} (h : (sitesOf κ dh dw)[k]? = some p) (creg : Str) :
    (synQ κ name k, (⟨creg, offsetOf κ dh dw + k⟩ : Clbit)) ∈ synBits name (xSites dh dw).length (zSites dh dw).length creg := by
  have hlt := (List.getElem?_eq_some_iff.1 h).1
  unfold synBits
  cases κ
  · exact List.mem_append_right _ (List.mem_map.2 ⟨k, List.mem_range.2 hlt, rfl⟩)
  · exact List.mem_append_left _ (List.mem_map.2 ⟨k, List.mem_range.2 hlt, by simp [synQ, offsetOf]⟩)

theorem mem_synQs_iff {x : Qubit} : x ∈ synQs name (xSites dh dw).length (zSites dh dw).length ↔
    ∃ κ k p, (sitesOf κ dh dw)[k]? = some p ∧ x = synQ κ name k := by
  rw [← synBits_fst _ _ []]
  constructor
  · intro h
    obtain ⟨q, hq, rfl⟩ := List.mem_map.1 h
    obtain ⟨κ, k, p, hk, rfl⟩ := mem_synBits hq
    exact ⟨κ, k, p, hk, rfl⟩
  · rintro ⟨κ, k, p, hk, rfl⟩
    exact List.mem_map.2 ⟨_, synBits_mem hk [], rfl⟩

theorem Leads.measures {B : List (Qubit × Clbit)} {x : Qubit} {b : Clbit} (h1 : ∀ p ∈ B, p.1 = x → p.2 = b) (h2 : ∀ p ∈ B, p.2 = b → p.1 = x)
    (hn : (B.map Prod.fst).Nodup) {L : List Instr} {gs hs : List Fault}
    (h : Leads code key name dh dw n L [.pauli .X x] gs) (h' : Leads code key name dh dw n L [.bit b] hs) :
    Leads code key name dh dw n (B.map (fun p => .measure p.1 p.2) ++ L) [.pauli .X x] (gs ++ if x ∈ B.map Prod.fst then hs else []) := by
  induction B with
  | nil => simpa using h
  | cons p B ih =>
    rw [List.map_cons, List.nodup_cons] at hn
    have ih' := ih (fun q hq => h1 q (by simp [hq])) (fun q hq => h2 q (by simp [hq])) hn.2
    rw [List.map_cons, List.cons_append]
    refine Leads.cons ?_
    simp only [spread]
    by_cases hp : x = p.1
    · have hb : p.2 = b := h1 p (by simp) hp.symm
      have hx : x ∉ B.map Prod.fst := by rw [hp]; exact hn.1
      rw [if_pos hp, if_pos (by simp [hp]), ← hp, hb]
      rw [if_neg hx, List.append_nil] at ih'
      refine ih'.append (G := [.bit b]) (h'.skip fun i hi => ?_)
      obtain ⟨q, hq, rfl⟩ := List.mem_map.1 hi
      simp only [spread]
      rw [if_neg]
      intro e
      exact hx (List.mem_map.2 ⟨q, hq, h2 q (by simp [hq]) e.symm⟩)
    · rw [if_neg hp]
      have e1 : (x ∈ List.map Prod.fst (p :: B)) = (x ∈ B.map Prod.fst) := by simp [hp]
      simp only [e1]
      exact ih'

theorem Leads.resets {Q : List Qubit} {x : Qubit} {a : Letter} {L : List Instr} {gs : List Fault} (h : Leads code key name dh dw n L [.pauli a x] gs) :
    Leads code key name dh dw n (Q.map .reset ++ L) [.pauli a x] (if x ∈ Q then [] else gs) := by
  induction Q with
  | nil => simpa using h
  | cons y Q ih =>
    rw [List.map_cons, List.cons_append]
    refine Leads.cons ?_
    have e : spread (.reset y) (.pauli a x) = if x = y then [] else [.pauli a x] := by cases a <;> rfl
    rw [e]
    by_cases hp : x = y
    · rw [if_pos hp, if_pos (by simp [hp])]
      exact Leads.none _
    · rw [if_neg hp]
      have e1 : (x ∈ y :: Q) = (x ∈ Q) := by simp [hp]
      simp only [e1]
      exact ih

theorem spread_measure_ne {x y : Qubit} {b : Clbit} (a : Letter) (h : x ≠ y) : spread (.measure y b) (.pauli a x) = [.pauli a x] := by
  cases a
  · simp only [spread]; rw [if_neg h]
  · rfl

theorem spread_reset_ne {x y : Qubit} (a : Letter) (h : x ≠ y) : spread (.reset y) (.pauli a x) = [.pauli a x] := by
  cases a <;> simp only [spread] <;> rw [if_neg h]

/-- Qubits that are not syndrome qubits are left alone at the end of the round. -/
theorem tail_fixed {x : Qubit} (hx : ∀ κ k p, (sitesOf κ dh dw)[k]? = some p → x ≠ synQ κ name k) (a : Letter) :
    ∀ i ∈ tailOf name dh dw n, spread i (.pauli a x) = [.pauli a x] := by
  intro i hi
  rcases List.mem_append.1 hi with hi | hi
  · obtain ⟨q, hq, rfl⟩ := List.mem_map.1 hi
    obtain ⟨κ, k, p, hk, rfl⟩ := mem_synBits hq
    exact spread_measure_ne a (hx κ k p hk)
  · rcases List.mem_append.1 hi with hi | hi
    · obtain ⟨q, hq, rfl⟩ := List.mem_map.1 hi
      obtain ⟨κ, k, p, hk, rfl⟩ := mem_synQs_iff.1 hq
      exact spread_reset_ne a (hx κ k p hk)
    · cases List.mem_singleton.1 hi
      cases a <;> rfl

theorem tail_data {l : List Instr} (hl : l <:+ tailOf name dh dw n) {i : Int} (hi : i ∈ allQubits dh dw) (a : Letter) :
    Leads code key name dh dw n l [.pauli a (dataQ name i)] (if turnedBy code key i (Letter.err a) then [flip dw n i] else []) := by
  have := (leads_end (mf_data (code := code) (key := key) (name := name) (n := n) hi a)).skip (l := l)
    fun j hj => tail_fixed (fun κ k p _ => dataQ_ne_synQ κ k i) a j (hl.subset hj)
  rwa [List.append_nil] at this

theorem synBits_unique {x : Qubit} {b : Clbit} {κ : Key} {k : Nat} (hk : ∃ p, (sitesOf κ dh dw)[k]? = some p) {creg : Str}
    (h : (x, b) ∈ synBits name (xSites dh dw).length (zSites dh dw).length creg) :
    (x = synQ κ name k → b = ⟨creg, offsetOf κ dh dw + k⟩) ∧ (b = ⟨creg, offsetOf κ dh dw + k⟩ → x = synQ κ name k) := by
  obtain ⟨κ', k', p', hk', e⟩ := mem_synBits h
  obtain ⟨rfl, rfl⟩ := Prod.mk.inj e
  obtain ⟨p, hk⟩ := hk
  constructor
  · intro e
    by_cases hκ : κ' = κ
    · subst hκ
      rw [synQ_index e]
    · exact absurd e (synQ_ne hκ k' k)
  · intro e
    have e2 := (Clbit.mk.inj e).2
    have l1 := (List.getElem?_eq_some_iff.1 hk).1
    have l2 := (List.getElem?_eq_some_iff.1 hk').1
    cases κ <;> cases κ' <;> simp only [offsetOf, sitesOf] at *
    · rw [show k' = k by omega]
    · omega
    · omega
    · rw [show k' = k by omega]

/-- Errors on syndrome qubits at the end of the round. -/
theorem tail_syn {l : List Instr} (hl : l <:+ tailOf name dh dw n) {κ : Key} {k : Nat} {p : Int × Int} (hp : (sitesOf κ dh dw)[k]? = some p) :
    (∃ gs, Leads code key name dh dw n l [.pauli .X (synQ κ name k)] gs ∧
      (gs = [] ∨ κ = key ∧ (gs = [misread n (p, k)] ∨ gs = [misread (n - 1) (p, k)]))) ∧
    Leads code key name dh dw n l [.pauli .Z (synQ κ name k)] [] := by
  have hZ : Leads code key name dh dw n [.barrier] [.pauli .Z (synQ κ name k)] [] := by
    have := leads_end (mf_syn (code := code) (key := key) (name := name) (n := n) hp .Z)
    rw [if_neg (by rintro ⟨-, h⟩; cases h)] at this
    exact this.barrier
  have hX := (leads_end (mf_syn (code := code) (key := key) (name := name) (n := n) hp .X)).barrier
  have hend : ∀ Q : List Qubit, (∃ gs, Leads code key name dh dw n (Q.map .reset ++ [.barrier]) [.pauli .X (synQ κ name k)] gs ∧
      (gs = [] ∨ κ = key ∧ gs = [misread n (p, k)])) := by
    intro Q
    refine ⟨_, hX.resets, ?_⟩
    split
    · exact Or.inl rfl
    · split
      · next h => exact Or.inr ⟨h.1, rfl⟩
      · exact Or.inl rfl
  have hendZ : ∀ Q : List Qubit, Leads code key name dh dw n (Q.map .reset ++ [.barrier]) [.pauli .Z (synQ κ name k)] [] := by
    intro Q
    have := hZ.resets (Q := Q)
    rwa [ite_self] at this
  rcases suffix_cases hl with hl | ⟨B, hB, rfl⟩
  · rcases suffix_cases hl with hl | ⟨Q, hQ, rfl⟩
    · rcases List.suffix_cons_iff.1 hl with rfl | hl
      · obtain ⟨gs, h1, h2⟩ := hend []
        exact ⟨⟨gs, h1, h2.imp id fun h => ⟨h.1, Or.inl h.2⟩⟩, hZ⟩
      · rw [List.suffix_nil.1 hl]
        constructor
        · refine ⟨_, leads_end (mf_syn hp .X), ?_⟩
          split
          · next h => exact Or.inr ⟨h.1, Or.inl rfl⟩
          · exact Or.inl rfl
        · have := leads_end (mf_syn (code := code) (key := key) (name := name) (n := n) hp .Z)
          rwa [if_neg (by rintro ⟨-, h⟩; cases h)] at this
    · obtain ⟨Q', -, rfl⟩ := suffix_map hQ
      obtain ⟨gs, h1, h2⟩ := hend Q'
      exact ⟨⟨gs, h1, h2.imp id fun h => ⟨h.1, Or.inl h.2⟩⟩, hendZ Q'⟩
  · obtain ⟨B', hB', rfl⟩ := suffix_map hB
    have hmem : synQ κ name k ∈ synQs name (xSites dh dw).length (zSites dh dw).length := mem_synQs_iff.2 ⟨κ, k, p, hp, rfl⟩
    have h0 : Leads code key name dh dw n ((synQs name (xSites dh dw).length (zSites dh dw).length).map .reset ++ [.barrier])
        [.pauli .X (synQ κ name k)] [] := by
      have := hX.resets (Q := synQs name (xSites dh dw).length (zSites dh dw).length)
      rwa [if_pos hmem] at this
    have hbit := ((leads_end (mf_bit (code := code) (key := key) (name := name) (n := n) hp)).barrier).skip
      (l := (synQs name (xSites dh dw).length (zSites dh dw).length).map .reset) fun i hi => by
        obtain ⟨y, -, rfl⟩ := List.mem_map.1 hi
        rfl
    have hn : (B'.map Prod.fst).Nodup := by
      have := synQs_nodup (name := name) (xSites dh dw).length (zSites dh dw).length
      rw [← synBits_fst _ _ (roundName name n)] at this
      exact this.sublist (hB'.sublist.map _)
    constructor
    · refine ⟨_, Leads.measures (fun q hq e => (synBits_unique ⟨p, hp⟩ (hB'.subset hq)).1 e)
        (fun q hq e => (synBits_unique ⟨p, hp⟩ (hB'.subset hq)).2 e) hn h0 hbit, ?_⟩
      rw [List.nil_append]
      split
      · split
        · next h => exact Or.inr ⟨h, Or.inr rfl⟩
        · exact Or.inl rfl
      · exact Or.inl rfl
    · refine (hendZ _).skip fun i hi => ?_
      obtain ⟨q, -, rfl⟩ := List.mem_map.1 hi
      rfl

/-- An X error on a syndrome qubit before the measurements flips the result. -/
theorem tail_flip {κ : Key} {k : Nat} {p : Int × Int} (hp : (sitesOf κ dh dw)[k]? = some p) :
    Leads code key name dh dw n (tailOf name dh dw n) [.pauli .X (synQ κ name k)] (if κ = key then [misread (n - 1) (p, k)] else []) := by
  have hmem : synQ κ name k ∈ synQs name (xSites dh dw).length (zSites dh dw).length := mem_synQs_iff.2 ⟨κ, k, p, hp, rfl⟩
  have h0 : Leads code key name dh dw n ((synQs name (xSites dh dw).length (zSites dh dw).length).map .reset ++ [.barrier])
      [.pauli .X (synQ κ name k)] [] := by
    have := ((leads_end (mf_syn (code := code) (key := key) (name := name) (n := n) hp .X)).barrier).resets
      (Q := synQs name (xSites dh dw).length (zSites dh dw).length)
    rwa [if_pos hmem] at this
  have hbit := ((leads_end (mf_bit (code := code) (key := key) (name := name) (n := n) hp)).barrier).skip
    (l := (synQs name (xSites dh dw).length (zSites dh dw).length).map .reset) fun i hi => by
      obtain ⟨y, -, rfl⟩ := List.mem_map.1 hi
      rfl
  have hn : ((synBits name (xSites dh dw).length (zSites dh dw).length (roundName name n)).map Prod.fst).Nodup := by
    rw [synBits_fst]
    exact synQs_nodup _ _
  have := Leads.measures (fun q hq e => (synBits_unique ⟨p, hp⟩ hq).1 e) (fun q hq e => (synBits_unique ⟨p, hp⟩ hq).2 e) hn h0 hbit
  rw [List.nil_append, synBits_fst, if_pos hmem] at this
  exact this

end Qtc
