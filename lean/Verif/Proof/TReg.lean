import Verif.Spec.Registers
import Verif.Proof.Born
/-!
The bookkeeping of registers: dictionaries, the log of additions.
-/
namespace Qtc
open Spec

/-! ### Dictionaries -/

section
variable {κ ν : Type} [DecidableEq κ] {d : Dict κ ν} {k k' : κ} {v : ν}

theorem Dict.get?_set_self (d : Dict κ ν) (k : κ) (v : ν) : (d.set k v).get? k = some v := by
  induction d with
  | nil => simp [Dict.set, Dict.get?]
  | cons e d ih =>
    unfold Dict.set
    split
    · simp [Dict.get?]
    · rename_i h
      simp only [Dict.get?, if_neg h]
      exact ih

theorem Dict.get?_set_ne (d : Dict κ ν) (v : ν) (h : k' ≠ k) : (d.set k v).get? k' = d.get? k' := by
  induction d with
  | nil => simp [Dict.set, Dict.get?, Ne.symm h]
  | cons e d ih =>
    unfold Dict.set
    split
    · rename_i he
      simp only [Dict.get?]
      rw [if_neg (Ne.symm h), if_neg (by rw [he]; exact Ne.symm h)]
    · simp only [Dict.get?]
      rw [ih]

theorem Dict.set_new (h : ∀ e ∈ d, e.1 ≠ k) : d.set k v = d ++ [(k, v)] := by
  induction d with
  | nil => rfl
  | cons e d ih =>
    unfold Dict.set
    rw [if_neg (h e (by simp)), ih fun x hx => h x (by simp [hx])]
    rfl

theorem Dict.get?_mem (h : d.get? k = some v) : (k, v) ∈ d := by
  induction d with
  | nil => cases h
  | cons e d ih =>
    unfold Dict.get? at h
    split at h
    · rename_i he
      cases h
      rw [← he]
      exact List.mem_cons_self
    · exact List.mem_cons_of_mem _ (ih h)

theorem Dict.mem_get? (hn : (d.map Prod.fst).Nodup) (h : (k, v) ∈ d) : d.get? k = some v := by
  induction d with
  | nil => cases h
  | cons e d ih =>
    rw [List.map_cons, List.nodup_cons] at hn
    unfold Dict.get?
    rcases List.mem_cons.1 h with rfl | h
    · rw [if_pos rfl]
    · rw [if_neg, ih hn.2 h]
      intro e'
      exact hn.1 (e' ▸ List.mem_map_of_mem h)

theorem Dict.keys_set (d : Dict κ ν) (k : κ) (v : ν) (x : κ) (h : x ∈ (d.set k v).map Prod.fst) : x = k ∨ x ∈ d.map Prod.fst := by
  induction d with
  | nil => simpa [Dict.set] using h
  | cons e d ih =>
    unfold Dict.set at h
    split at h
    · rename_i he
      simp only [List.map_cons, List.mem_cons] at h ⊢
      tauto
    · simp only [List.map_cons, List.mem_cons] at h ⊢
      rcases h with h | h
      · exact Or.inr (Or.inl h)
      · rcases ih h with h | h
        · exact Or.inl h
        · exact Or.inr (Or.inr h)

theorem Dict.nodup_set (hn : (d.map Prod.fst).Nodup) (k : κ) (v : ν) : ((d.set k v).map Prod.fst).Nodup := by
  induction d with
  | nil => simp [Dict.set]
  | cons e d ih =>
    rw [List.map_cons, List.nodup_cons] at hn
    unfold Dict.set
    split
    · rename_i he
      rw [List.map_cons, List.nodup_cons]
      exact ⟨by rw [← he]; exact hn.1, hn.2⟩
    · rename_i he
      rw [List.map_cons, List.nodup_cons]
      refine ⟨?_, ih hn.2⟩
      intro h
      rcases Dict.keys_set d k v e.1 h with h | h
      · exact he h
      · exact hn.1 h

theorem Dict.get?_none_iff : d.get? k = none ↔ ∀ e ∈ d, e.1 ≠ k := by
  induction d with
  | nil => simp [Dict.get?]
  | cons e d ih =>
    unfold Dict.get?
    split
    · rename_i h
      simp [h]
    · rename_i h
      rw [ih]
      simp [h]
end

/-! ### Sub-registers -/

theorem touchSub_some {s : TState} {sub : Str} {d : Dict Nat TQubit} (h : s.treg.tqubits.get? sub = some d) :
    touchSub sub s = (.ok (), s) := by
  unfold touchSub; rw [h]

theorem touchSub_none {s : TState} {sub : Str} (h : s.treg.tqubits.get? sub = none) :
    touchSub sub s = (.ok (), { s with treg := { s.treg with tqubits := s.treg.tqubits.set sub [] } }) := by
  unfold touchSub; rw [h]

/-- The register object with the sub-register there. -/
def TReg.touched (t : TReg) (sub : Str) : TReg :=
  match t.tqubits.get? sub with
  | some _ => t
  | none => { t with tqubits := t.tqubits.set sub [] }

theorem touchSub_run (sub : Str) (s : TState) : touchSub sub s = (.ok (), { s with treg := s.treg.touched sub }) := by
  unfold touchSub TReg.touched
  cases h : s.treg.tqubits.get? sub <;> simp only

theorem touched_get (t : TReg) (sub : Str) : ((t.touched sub).tqubits.get? sub) = some ((t.tqubits.get? sub).getD []) := by
  unfold TReg.touched
  cases h : t.tqubits.get? sub with
  | none => simp only [Option.getD]; exact Dict.get?_set_self _ _ _
  | some d => simp only [h, Option.getD]

theorem touched_get_ne (t : TReg) {sub sub' : Str} (h : sub' ≠ sub) : (t.touched sub).tqubits.get? sub' = t.tqubits.get? sub' := by
  unfold TReg.touched
  cases t.tqubits.get? sub with
  | none => simp only; exact Dict.get?_set_ne _ _ h
  | some d => rfl

@[simp] theorem touched_name (t : TReg) (sub : Str) : (t.touched sub).name = t.name := by
  unfold TReg.touched; cases t.tqubits.get? sub <;> rfl

@[simp] theorem touched_n (t : TReg) (sub : Str) : (t.touched sub).n = t.n := by
  unfold TReg.touched; cases t.tqubits.get? sub <;> rfl

theorem touched_nodup {t : TReg} (sub : Str) (h : (t.tqubits.map Prod.fst).Nodup) : ((t.touched sub).tqubits.map Prod.fst).Nodup := by
  unfold TReg.touched
  cases t.tqubits.get? sub with
  | none => exact Dict.nodup_set h _ _
  | some d => exact h

/-- The register object after storing a qubit. -/
def TReg.stored (t : TReg) (sub : Str) (q : TQubit) (p : Option Nat) : TReg :=
  { t with tqubits := t.tqubits.set sub (((t.tqubits.get? sub).getD []).set t.n q), params := t.params ++ [p], n := t.n + 1 }

theorem storeQubit_run {s : TState} {sub : Str} {d : Dict Nat TQubit} (h : s.treg.tqubits.get? sub = some d) (q : TQubit) (p : Option Nat) :
    storeQubit sub q p s = (.ok (), { s with treg := s.treg.stored sub q p }) := by
  unfold storeQubit TReg.stored
  simp only [h, Option.getD]

/-- All outcomes of `add_tqubit`. -/
theorem addTqubit_run (sub ctype : Str) (p : Option Nat) (s : TState) :
    (str2qtype ctype = none ∧ addTqubit sub ctype p s = (.error .keyError, { s with treg := s.treg.touched sub })) ∨
    ∃ cls, str2qtype ctype = some cls ∧
      ((∃ q w, newQubit cls p s.treg.qubitName s.world = (.ok q, w) ∧
          addTqubit sub ctype p s = (.ok (), { s with world := w, treg := (s.treg.touched sub).stored sub q p })) ∨
        ∃ e w, newQubit cls p s.treg.qubitName s.world = (.error e, w) ∧
          addTqubit sub ctype p s = (.error e, { s with world := w, treg := s.treg.touched sub })) := by
  have h0 : addTqubit sub ctype p s = (makeQubit ctype p >>= fun q => storeQubit sub q p) { s with treg := s.treg.touched sub } := by
    unfold addTqubit
    rw [CM.bind_ok (touchSub_run sub s)]
  cases hc : str2qtype ctype with
  | none =>
    refine Or.inl ⟨rfl, ?_⟩
    rw [h0]
    refine CM.bind_error ?_
    unfold makeQubit
    rw [hc]
  | some cls =>
    refine Or.inr ⟨cls, rfl, ?_⟩
    have hm : makeQubit ctype p { s with treg := s.treg.touched sub } =
        ((newQubit cls p s.treg.qubitName s.world).1,
          { s with treg := s.treg.touched sub, world := (newQubit cls p s.treg.qubitName s.world).2 }) := by
      have hn : (s.treg.touched sub).qubitName = s.treg.qubitName := by
        unfold TReg.qubitName; rw [touched_name, touched_n]
      unfold makeQubit
      simp only [hc, onWorld, hn]
    rcases hq : newQubit cls p s.treg.qubitName s.world with ⟨e | q, w⟩
    · rw [hq] at hm
      refine Or.inr ⟨e, w, rfl, ?_⟩
      rw [h0, CM.bind_error hm]
    · rw [hq] at hm
      refine Or.inl ⟨q, w, rfl, ?_⟩
      rw [h0, CM.bind_ok hm]
      exact storeQubit_run (touched_get _ _) _ _

/-! ### The log -/

theorem entriesOf_append (log : List (Str × TQubit)) (x : Str × TQubit) (sub : Str) :
    entriesOf (log ++ [x]) sub = entriesOf log sub ++ (if x.1 = sub then [(log.length, x.2)] else []) := by
  unfold entriesOf
  rw [List.zipIdx_append, List.filter_append, List.map_append]
  congr 1
  simp only [List.zipIdx_cons, List.zipIdx_nil, List.filter_cons, List.filter_nil, Nat.zero_add]
  split <;> rename_i h <;> simp_all

theorem mem_entriesOf {log : List (Str × TQubit)} {sub : Str} {k : Nat} {q : TQubit} :
    (k, q) ∈ entriesOf log sub ↔ log[k]? = some (sub, q) := by
  unfold entriesOf
  simp only [List.mem_map, List.mem_filter, List.mem_zipIdx_iff_getElem?, decide_eq_true_eq, Prod.exists, Prod.mk.injEq]
  constructor
  · rintro ⟨a, b, i, ⟨h, rfl⟩, rfl, rfl⟩
    exact h
  · intro h
    exact ⟨sub, q, k, ⟨h, rfl⟩, rfl, rfl⟩

/-- The register object agrees with the log. -/
structure Agrees (name : Str) (t : TReg) (log : List (Str × TQubit)) (tried : List Str) : Prop where
  name : t.name = name
  n : t.n = log.length
  keys : (t.tqubits.map Prod.fst).Nodup
  get : ∀ sub, t.tqubits.get? sub = if sub ∈ tried then some (entriesOf log sub) else none
  used : ∀ e ∈ log, e.1 ∈ tried

theorem Agrees.touched {name : Str} {t : TReg} {log : List (Str × TQubit)} {tried : List Str} (A : Agrees name t log tried) (sub : Str) :
    Agrees name (t.touched sub) log (tried ++ [sub]) := by
  refine ⟨by rw [touched_name]; exact A.name, by rw [touched_n]; exact A.n, touched_nodup _ A.keys, ?_, ?_⟩
  · intro x
    by_cases hx : x = sub
    · subst hx
      rw [touched_get, A.get, if_pos (by simp : x ∈ tried ++ [x])]
      split
      · rfl
      · rename_i h
        simp only [Option.getD]
        congr 1
        symm
        unfold entriesOf
        rw [List.map_eq_nil_iff, List.filter_eq_nil_iff]
        intro e he
        simp only [decide_eq_true_eq]
        intro e'
        exact h (e' ▸ A.used e.1 (List.mem_zipIdx' he |>.2 ▸ List.getElem_mem _))
    · rw [touched_get_ne _ hx, A.get]
      simp [hx]
  · intro e he
    exact List.mem_append_left _ (A.used e he)

theorem Agrees.stored {name : Str} {t : TReg} {log : List (Str × TQubit)} {tried : List Str} (A : Agrees name t log tried) {sub : Str}
    (hs : sub ∈ tried) (q : TQubit) (p : Option Nat) : Agrees name (t.stored sub q p) (log ++ [(sub, q)]) tried := by
  refine ⟨A.name, ?_, Dict.nodup_set A.keys _ _, ?_, ?_⟩
  · show t.n + 1 = _
    rw [A.n, List.length_append]
    rfl
  · intro x
    show (t.tqubits.set sub (((t.tqubits.get? sub).getD []).set t.n q)).get? x = _
    by_cases hx : x = sub
    · subst hx
      rw [Dict.get?_set_self, A.get, if_pos hs, if_pos hs]
      simp only [Option.getD]
      rw [Dict.set_new, entriesOf_append, if_pos rfl, A.n]
      intro e he e'
      have := mem_entriesOf (k := e.1) (q := e.2).1 he
      rw [e', A.n, List.getElem?_eq_none (Nat.le_refl _)] at this
      cases this
    · rw [Dict.get?_set_ne _ _ hx, A.get, entriesOf_append, if_neg (Ne.symm hx), List.append_nil]
  · intro e he
    rcases List.mem_append.1 he with he | he
    · exact A.used e he
    · rw [List.mem_singleton.1 he]; exact hs

theorem Spec.Log.agrees {name : Str} {s : TState} {log : List (Str × TQubit)} {tried : List Str} (L : Log name s log tried) :
    Agrees name s.treg log tried := by
  induction L with
  | start h => exact ⟨by rw [h], by rw [h]; rfl, by rw [h]; exact List.nodup_nil, fun sub => by rw [h]; rfl, by simp⟩
  | other _ h ih => rw [h]; exact ih
  | @added s s' log tried sub ctype p cls q w _ h1 h2 h3 ih =>
    have hn : s.treg.qubitName = name ++ "_".toList ++ strNat log.length := by
      unfold TReg.qubitName; rw [ih.name, ih.n]
    rcases addTqubit_run sub ctype p s with ⟨h, -⟩ | ⟨cls', hc, ⟨q', w', hq, hr⟩ | ⟨e, w', -, hr⟩⟩
    · rw [h2] at h; cases h
    · rw [h2] at hc
      cases hc
      rw [hn, h3] at hq
      cases hq
      rw [hr] at h1
      cases h1
      exact (ih.touched sub).stored (by simp) q p
    · rw [hr] at h1
      cases h1
  | @failed s s' log tried sub ctype p e _ h1 ih =>
    rcases addTqubit_run sub ctype p s with ⟨-, hr⟩ | ⟨cls', hc, ⟨q', w', hq, hr⟩ | ⟨e, w', -, hr⟩⟩
    · rw [hr] at h1
      cases h1
      exact ih.touched sub
    · rw [hr] at h1
      cases h1
    · rw [hr] at h1
      cases h1
      exact ih.touched sub

/-- Every addition can be logged. -/
theorem Spec.Log.addTqubit {name : Str} {s : TState} {log : List (Str × TQubit)} {tried : List Str} (L : Log name s log tried)
    (sub ctype : Str) (p : Option Nat) : ∃ log' tried', Log name (addTqubit sub ctype p s).2 log' tried' := by
  have A := L.agrees
  rcases addTqubit_run sub ctype p s with ⟨-, hr⟩ | ⟨cls, hc, ⟨q, w, hq, hr⟩ | ⟨e, w, -, hr⟩⟩
  · exact ⟨_, _, Log.failed L (by rw [hr])⟩
  · refine ⟨_, _, Log.added L (show Qtc.addTqubit sub ctype p s = (.ok (), (Qtc.addTqubit sub ctype p s).2) by rw [hr]) hc (q := q) (w := w) ?_⟩
    rw [← hq]
    unfold TReg.qubitName
    rw [A.name, A.n]
  · exact ⟨_, _, Log.failed L (by rw [hr])⟩

/-- What `treg[k]` finds. -/
theorem Agrees.find {name : Str} {t : TReg} {log : List (Str × TQubit)} {tried : List Str} (A : Agrees name t log tried) (k : Int) :
    t.find? k = if 0 ≤ k then (log[k.toNat]?).map Prod.snd else none := by
  have key : ∀ q, t.find? k = some q → 0 ≤ k ∧ (log[k.toNat]?).map Prod.snd = some q := by
    intro q h
    unfold TReg.find? at h
    obtain ⟨⟨sub, d⟩, he, h⟩ := List.exists_of_findSome?_eq_some h
    obtain ⟨⟨i, q'⟩, hx, h⟩ := List.exists_of_findSome?_eq_some h
    split at h
    · rename_i hk
      cases h
      have := A.get sub
      rw [Dict.mem_get? A.keys he] at this
      split at this
      · cases this
        have := mem_entriesOf.1 hx
        refine ⟨by simp only at hk; omega, ?_⟩
        rw [show k.toNat = i by simp only at hk; omega, this]
        rfl
      · cases this
    · cases h
  split
  · rename_i h0
    cases hl : log[k.toNat]? with
    | none =>
      cases hf : t.find? k with
      | none => rfl
      | some q => have := (key q hf).2; rw [hl] at this; cases this
    | some e =>
      obtain ⟨sub, q⟩ := e
      cases hf : t.find? k with
      | some q' =>
        have := (key q' hf).2
        rw [hl] at this
        exact this.symm
      | none =>
        exfalso
        have hs : sub ∈ tried := A.used (sub, q) (List.mem_of_getElem? hl)
        have hg := A.get sub
        rw [if_pos hs] at hg
        unfold TReg.find? at hf
        rw [List.findSome?_eq_none_iff] at hf
        have := hf _ (Dict.get?_mem hg)
        rw [List.findSome?_eq_none_iff] at this
        have := this _ (mem_entriesOf.2 hl)
        simp only at this
        rw [if_pos (by omega)] at this
        cases this
  · rename_i h0
    cases hf : t.find? k with
    | none => rfl
    | some q => exact absurd (key q hf).1 h0

end Qtc
