import Verif.Proof.Build
import Verif.Model.DecoderObject
import Verif.Proof.Made
/-!
Helpers for C122: which steps of the constructors raise `LatticeError`, and what a rejected dictionary is worth afterwards.
-/
namespace Qtc

/-- Anything but `LatticeError`. -/
def Calm {α : Type} (x : Py α) : Prop := x ≠ .error .latticeError

section calm
variable {α β : Type}

theorem Calm.ok (a : α) : Calm (.ok a : Py α) := by intro h; cases h

theorem Calm.pure (a : α) : Calm (Pure.pure a : Py α) := Calm.ok a

theorem Calm.bind {x : Py α} {f : α → Py β} (hx : Calm x) (hf : ∀ a, Calm (f a)) : Calm (x >>= f) := by
  rcases x with e | a
  · intro h
    exact hx (by cases h; rfl)
  · exact hf a

theorem Calm.foldlM {f : β → α → Py β} (hf : ∀ b a, Calm (f b a)) : ∀ (l : List α) (b : β), Calm (l.foldlM f b)
  | [], b => Calm.pure b
  | a :: l, b => by
    rw [List.foldlM_cons]
    exact (hf b a).bind fun b' => Calm.foldlM hf l b'

theorem Calm.mapM {f : α → Py β} (hf : ∀ a, Calm (f a)) : ∀ l : List α, Calm (l.mapM f)
  | [] => by rw [List.mapM_nil]; exact Calm.pure _
  | a :: l => by
    rw [List.mapM_cons]
    exact (hf a).bind fun b => (Calm.mapM hf l).bind fun _ => Calm.pure _

theorem calm_key (v : Option α) : Calm (key v) := by
  unfold key
  split <;> intro h <;> cases h

theorem calm_pyIdx (l : List α) (k : Int) : Calm (pyIdx l k) := by
  unfold pyIdx
  simp only
  generalize (if k < 0 then k + (l.length : Int) else k) = k'
  by_cases hk : k' < 0
  · rw [if_pos hk]
    intro h; cases h
  · rw [if_neg hk]
    split <;> intro h <;> cases h

end calm

theorem calm_addEdge (s : SGraph) (a b : Node) : Calm (s.addEdge a b) := by
  have hi : ∀ x, Calm (s.idx x) := by
    intro x
    unfold SGraph.idx
    split <;> intro h <;> cases h
  unfold SGraph.addEdge
  exact (hi a).bind fun _ => (hi b).bind fun _ => Calm.pure _

theorem calm_linkNbr (cur : Node) (s : SGraph) (n : Node) : Calm (linkNbr cur s n) := by
  unfold linkNbr
  split <;> exact calm_addEdge _ _ _

theorem calm_populate (dh dw : Int) (key : Key) (t : Int) : ∀ (fuel : Nat) (cur : Node) (vis : List Node) (s : SGraph),
    Calm (populate dh dw key t fuel cur vis s)
  | 0, _, _, _ => by unfold populate; intro h; cases h
  | fuel + 1, cur, vis, s => by
    unfold populate
    exact (Calm.foldlM (calm_linkNbr cur) _ _).bind fun _ => Calm.foldlM (fun st n => calm_populate dh dw key t fuel n st.1 st.2) _ _

theorem calm_makeSyndromeGraph (dh dw T : Int) (limit : Nat) (key : Key) : Calm (makeSyndromeGraph dh dw T limit key) := by
  unfold makeSyndromeGraph
  refine (Calm.foldlM (fun s t => ?_) _ _).bind fun s => Calm.foldlM (fun s n => ?_) _ _
  · unfold timeSlice
    exact (calm_populate _ _ _ _ _ _ _ _).bind fun _ => Calm.pure _
  · unfold timeEdges
    exact Calm.foldlM (fun s t => calm_addEdge _ _ _) _ _

/-- Once a decoder has accepted its dictionary, it does not complain about the lattice. -/
theorem calm_decoderOf (p : Params) (keys : List Key) (limit : Nat) : Calm (decoderOf p keys limit) := by
  have hs : Calm (decoderSizes p) := by
    unfold decoderSizes
    split <;> intro h <;> cases h
  unfold decoderOf
  refine hs.bind fun a => ?_
  refine Calm.bind ?_ fun S => Calm.pure _
  unfold buildGraphs
  exact Calm.foldlM (fun S k => (calm_makeSyndromeGraph _ _ _ _ _).bind fun _ => Calm.pure _) _ _

/-! ### Encoders -/

theorem calm_at (r : Reg) (k : Int) : Calm (r.at k) := by
  exact calm_pyIdx _ _

theorem calm_qplaq (data : Reg) (syns : Option Reg) (p : Plaq) : Calm (qplaq data syns p) := by
  have hc : ∀ c, Calm (cornerQubit data c) := by
    intro c
    unfold cornerQubit
    split
    · exact (calm_at _ _).bind fun _ => Calm.pure _
    · exact Calm.ok _
  unfold qplaq
  exact (calm_key _).bind fun _ => (calm_at _ _).bind fun _ => (hc _).bind fun _ => (hc _).bind fun _ => (hc _).bind fun _ =>
    (hc _).bind fun _ => Calm.pure _

theorem calm_genPlaqs (code : Code) (dh dw : Int) (data : Reg) (mx mz : Option Reg) : Calm (genPlaqs code dh dw data mx mz) := by
  unfold genPlaqs
  exact (Calm.mapM (fun p => calm_qplaq _ _ p) _).bind fun _ => (Calm.mapM (fun p => calm_qplaq _ _ p) _).bind fun _ => Calm.pure _

/-- A step of a constructor that does not look at the dictionaries and never raises `LatticeError`. -/
def Plain {α : Type} (x : WM α) : Prop :=
  ∀ w w' : World, w.circ = w'.circ → (x w).1 = (x w').1 ∧ (x w).2.circ = (x w').2.circ ∧ Calm (x w).1

section plain
variable {α β : Type}

theorem Plain.pure (a : α) : Plain (Pure.pure a : WM α) := fun _ _ h => ⟨rfl, h, Calm.ok a⟩

theorem Plain.lift {x : Py α} (hx : Calm x) : Plain (CM.lift x : WM α) := fun _ _ h => ⟨rfl, h, hx⟩

theorem Plain.bind {x : WM α} {f : α → WM β} (hx : Plain x) (hf : ∀ a, Plain (f a)) : Plain (x >>= f) := by
  intro w w' h
  obtain ⟨h1, h2, h3⟩ := hx w w' h
  rw [CM.bind_run, CM.bind_run]
  rcases e1 : x w with ⟨e | a, s⟩ <;> rcases e2 : x w' with ⟨e' | a', s'⟩ <;> rw [e1] at h1 h2 h3 <;> rw [e2] at h1 h2
  · cases h1
    exact ⟨rfl, h2, fun he => h3 (by cases he; rfl)⟩
  · cases h1
  · cases h1
  · cases h1
    exact hf a s s' h2

theorem Plain.forEach {f : α → WM Unit} (hf : ∀ a, Plain (f a)) : ∀ l : List α, Plain (CM.forEach l f)
  | [] => Plain.pure ()
  | a :: l => (hf a).bind fun _ => Plain.forEach hf l

theorem plain_addQreg (r : Reg) : Plain (addQreg r) := by
  intro w w' h
  unfold addQreg
  rw [h]
  split
  · exact ⟨rfl, h, by intro e; cases e⟩
  · exact ⟨rfl, rfl, Calm.ok _⟩

end plain

/-- What a new lattice does once its dictionary is accepted. -/
def latticeFrom (code : Code) (name : Str) (pref : Nat) (p : Params) : WM Lattice := do
  let dh ← CM.lift (p.dim 0)
  let dw ← CM.lift (p.dim 1)
  let nd ← CM.lift (key p.numData)
  let ns ← CM.lift (key p.numSyn)
  let data ← CM.lift (newReg nd (name ++ "_data".toList))
  let mz := optReg ns.2 (name ++ "_mz".toList)
  let mx := optReg ns.1 (name ++ "_mx".toList)
  let ancilla : Reg := ⟨name ++ "_ancilla".toList, 1⟩
  CM.forEach ([data] ++ mz.toList ++ mx.toList ++ [ancilla]) addQreg
  let pl ← CM.lift (genPlaqs code dh dw data mx mz)
  return { code, name, pref, data, mz, mx, ancilla, qubitIndices := pl.1, stabilizers := pl.2 }

theorem plain_latticeFrom (code : Code) (name : Str) (pref : Nat) (p : Params) : Plain (latticeFrom code name pref p) := by
  have hd : ∀ k, Calm (p.dim k) := by
    intro k
    unfold Params.dim
    split
    · exact (calm_pyIdx _ _).bind fun _ => Calm.pure _
    · intro h; cases h
    · intro h; cases h
  have hr : ∀ n s, Calm (newReg n s) := by
    intro n s
    unfold newReg
    split <;> intro h <;> cases h
  unfold latticeFrom
  refine (Plain.lift (hd 0)).bind fun _ => (Plain.lift (hd 1)).bind fun _ => (Plain.lift (calm_key _)).bind fun _ =>
    (Plain.lift (calm_key _)).bind fun _ => (Plain.lift (hr _ _)).bind fun _ => ?_
  exact (Plain.forEach plain_addQreg _).bind fun _ => (Plain.lift (calm_genPlaqs _ _ _ _ _ _)).bind fun _ => Plain.pure _

/-- The dictionary an encoder of the class goes on with. -/
def QClass.checked (cls : QClass) (p : Params) : Py Params := do
  let p ← if cls = .rep then repValidate p else .ok p
  rotatedValidate p

/-- What an encoder that rejects the dictionary has written to it. -/
def QClass.touched (cls : QClass) (p : Params) : Params :=
  if cls = .rep then match repValidate p with
    | .ok p' => rotatedTouched p'
    | .error _ => { p with pfp := some (p.pfp.getD false) }
  else rotatedTouched p

theorem dict_self {w : World} {r : Nat} (hne : (w.heap r).isEmpty = false) : dictOrNew (some r) w = (.ok r, w) := by
  unfold dictOrNew
  simp only [hne]
  rfl

/-- `newQubit` once it is decided which dictionary it uses. -/
def qubitAt (cls : QClass) (name : Str) (r : Nat) : WM TQubit := do
  checkRep cls r
  let lat ← newLattice cls.code name r
  pure ⟨cls, lat⟩

theorem qubitAt_checked {cls : QClass} {name : Str} {r : Nat} {w : World} {p : Params} (h : cls.checked (w.heap r) = .ok p) :
    qubitAt cls name r w = (latticeFrom cls.code name r p >>= fun L => pure ⟨cls, L⟩) (w.setP r p) := by
  unfold qubitAt
  unfold QClass.checked at h
  by_cases hc : cls = .rep
  · rw [if_pos hc] at h
    rcases h1 : repValidate (w.heap r) with e | p1
    · rw [h1] at h; cases h
    · rw [h1] at h
      rw [CM.bind_ok (checkRep_valid hc h1), CM.bind_run, CM.bind_run, newLattice_valid (w := w.setP r p1) (p := p) (by
        rw [World.setP_heap_self]; exact h), setP_setP]
      rfl
  · rw [if_neg hc] at h
    rw [CM.bind_ok (checkRep_not hc r), CM.bind_run, CM.bind_run, newLattice_valid (w := w) (p := p) h]
    rfl

theorem qubitAt_unchecked {cls : QClass} {name : Str} {r : Nat} {w : World} {e : PyErr} (h : cls.checked (w.heap r) = .error e) :
    qubitAt cls name r w = (.error e, w.setP r (cls.touched (w.heap r))) := by
  unfold qubitAt
  unfold QClass.checked at h
  unfold QClass.touched
  by_cases hc : cls = .rep
  · rw [if_pos hc] at h ⊢
    rcases h1 : repValidate (w.heap r) with e' | p1
    · rw [h1] at h
      cases h
      rw [CM.bind_error (checkRep_invalid hc h1)]
      unfold repTouched
      rw [h1]
    · rw [h1] at h
      rw [CM.bind_ok (checkRep_valid hc h1), CM.bind_error (newLattice_invalid (w := w.setP r p1) (e := e) (by
        rw [World.setP_heap_self]; exact h)), setP_setP, World.setP_heap_self]
  · rw [if_neg hc] at h ⊢
    rw [CM.bind_ok (checkRep_not hc r), CM.bind_error (newLattice_invalid h)]

theorem newQubit_self {cls : QClass} {name : Str} {r : Nat} {w : World} (hne : (w.heap r).isEmpty = false) :
    newQubit cls (some r) name w = qubitAt cls name r w := by
  unfold newQubit
  rw [CM.bind_ok (dict_self hne)]
  rfl

/-- An empty dictionary is not rejected. -/
theorem newQubit_empty {cls : QClass} {name : Str} {r : Nat} {w : World} (he : (w.heap r).isEmpty = true) :
    Calm (newQubit cls (some r) name w).1 := by
  have hd : dictOrNew (some r) w = (.ok w.next, { w with heap := fun k => if k = w.next then {} else w.heap k, next := w.next + 1 }) := by
    unfold dictOrNew
    simp only [he]
    rfl
  have hc : ∃ p, cls.checked {} = .ok p := by cases cls <;> exact ⟨_, rfl⟩
  obtain ⟨p, hp⟩ := hc
  unfold newQubit
  rw [CM.bind_ok hd]
  show Calm (qubitAt cls name w.next _).1
  rw [qubitAt_checked (p := p) (by simp only [if_true]; exact hp)]
  exact (((plain_latticeFrom _ _ _ _).bind fun _ => Plain.pure _) _ _ rfl).2.2

theorem latticeFrom_congr {code : Code} {name : Str} {r : Nat} {p p' : Params} (h1 : p'.d = p.d) (h2 : p'.numData = p.numData)
    (h3 : p'.numSyn = p.numSyn) : latticeFrom code name r p' = latticeFrom code name r p := by
  unfold latticeFrom Params.dim
  rw [h1, h2, h3]

theorem decoderOf_congr {p p' : Params} (h1 : p'.d = p.d) (h2 : p'.T = p.T) (keys : List Key) (limit : Nat) :
    decoderOf p' keys limit = decoderOf p keys limit := by
  unfold decoderOf decoderSizes
  rw [h1, h2]

theorem newDecoder_checked {cls : DClass} {limit r : Nat} {w : World} {v : Params × List Key} (h : cls.validate (w.heap r) = .ok v) :
    newDecoder cls limit r w = ((decoderOf v.1 v.2 limit).map fun D => ⟨cls, r, D, none⟩, w.setP r v.1) := by
  unfold newDecoder
  rw [CM.bind_ok (getParams_run _ _), CM.bind_ok (setParams_run _ _ _), CM.bind_lift h, CM.bind_ok (setParams_run _ _ _), setP_setP,
    CM.bind_run, CM.lift_run]
  rcases decoderOf v.1 v.2 limit with e | D <;> rfl

theorem newDecoder_unchecked {cls : DClass} {limit r : Nat} {w : World} {e : PyErr} (h : cls.validate (w.heap r) = .error e) :
    newDecoder cls limit r w = (.error e, w.setP r (cls.touched (w.heap r))) := by
  unfold newDecoder
  rw [CM.bind_ok (getParams_run _ _), CM.bind_ok (setParams_run _ _ _), h]
  rfl

/-! ### Dictionaries -/

/-- One of the first two sides is an even number. -/
def EvenSide (l : List Int) : Prop := ∃ a b rest, l = a :: b :: rest ∧ (a % 2 ≠ 1 ∨ b % 2 ≠ 1)

/-- The size in the dictionary has an even side, in whichever form it is written. -/
def Bad (p : Params) : Prop :=
  (∃ n : Num, p.d = some (.num n) ∧ n.toInt % 2 ≠ 1) ∨
    ∃ v l, p.d = some v ∧ (∀ n, v ≠ .num n) ∧ toIntTuple v = .ok l ∧ EvenSide l

theorem pyIdx_two {α : Type} {a b : α} {rest : List α} : pyIdx (a :: b :: rest) 0 = .ok a ∧ pyIdx (a :: b :: rest) 1 = .ok b :=
  ⟨rfl, by unfold pyIdx; simp⟩

theorem fmod_two (a : Int) : a.fmod 2 = a % 2 := fmod_pos_eq _ (by decide)

theorem Bad.rotated {p p' : Params} (h : Bad p) : rotatedValidate p ≠ .ok p' := by
  intro hv
  unfold rotatedValidate at hv
  rcases h with ⟨n, hd, hn⟩ | ⟨v, l, hd, hn, hl, a, b, rest, rfl, hab⟩
  · have e : rotatedSize p.d = .ok ([n.toInt, n.toInt], n.toInt, n.toInt) := by rw [hd]; rfl
    rw [e] at hv
    simp only [bind, Except.bind, fmod_two] at hv
    rw [if_pos (Or.inl hn)] at hv
    cases hv
  · unfold rotatedSize at hv
    simp only [hd, Option.getD_some] at hv
    rw [hl] at hv
    simp only [bind, Except.bind, pyIdx_two.1, pyIdx_two.2, pure, Except.pure, fmod_two] at hv
    rw [if_pos hab] at hv
    cases hv

/-- If an odd float is an integer, rounding does not make it even. -/
theorem notOdd_of_even (n : Num) (h : n.toInt % 2 ≠ 1) : n.notOdd = true := by
  cases n with
  | int n =>
    show (n.fmod 2 != 1) = true
    rw [fmod_two]
    have h : n % 2 ≠ 1 := h
    simpa using h
  | flt q =>
    unfold Num.notOdd
    simp only [bne_iff_ne, ne_eq]
    intro hq
    have hz : q = ((1 + 2 * (q / 2).floor : Int) : Rat) := by push_cast; linarith
    apply h
    unfold Num.toInt
    simp only
    generalize (q / 2).floor = k at hz
    rw [hz, Rat.num_intCast, Rat.den_intCast]
    simp only [Nat.cast_one, Int.tdiv_one]
    omega

theorem Bad.decoder {p p' : Params} (h : Bad p) : rotatedDecoderValidate p ≠ .ok p' := by
  intro hv
  unfold rotatedDecoderValidate at hv
  obtain ⟨_, -, hv⟩ := except_bind_ok hv
  have two : ∀ (p0 : Params) (x y : Num) , x.toInt % 2 ≠ 1 ∨ y.toInt % 2 ≠ 1 →
      (if x.notOdd then Except.error PyErr.latticeError else if y.notOdd then .error .latticeError else pure p0 : Py Params) ≠ .ok p' := by
    intro p0 x y hxy hh
    rcases hxy with hx | hy
    · rw [if_pos (notOdd_of_even x hx)] at hh; cases hh
    · rw [if_pos (notOdd_of_even y hy)] at hh
      split at hh <;> cases hh
  have lists : ∀ (p0 : Params) (l : List Num), EvenSide (l.map Num.toInt) →
      (if l.length ≠ 2 then Except.error PyErr.latticeError else do
        let dh ← pyIdx l 0
        let dw ← pyIdx l 1
        if dh.notOdd then Except.error PyErr.latticeError else if dw.notOdd then .error .latticeError else pure p0 : Py Params) ≠ .ok p' := by
    rintro p0 l ⟨a, b, rest, hl, hab⟩ hh
    obtain ⟨x, l', rfl, rfl, hl'⟩ := List.map_eq_cons_iff.mp hl
    obtain ⟨y, l'', rfl, rfl, -⟩ := List.map_eq_cons_iff.mp hl'
    split at hh
    · cases hh
    · rw [pyIdx_two.1, pyIdx_two.2] at hh
      exact two p0 x y hab hh
  rcases h with ⟨n, hd, hn⟩ | ⟨v, l, hd, hn, hl, hE⟩
  · simp only [hd] at hv
    refine lists _ _ ⟨n.toInt, n.toInt, [], rfl, Or.inl hn⟩ hv
  · cases v with
    | num n => exact hn n rfl
    | tup l' =>
      simp only [hd] at hv
      cases hl
      exact lists _ _ hE hv
    | lst l' =>
      simp only [hd] at hv
      cases hl
      exact lists _ _ hE hv
    | str s =>
      simp only [hd] at hv
      split at hv <;> cases hv
    | other => cases hl

theorem repValidate_d {p p' : Params} (h : repValidate p = .ok p') :
    (∃ n : Num, p.d = some (.num n) ∧ (p'.d = some (.tup [.int 1, .int n.toInt]) ∨ p'.d = some (.tup [.int n.toInt, .int 1]))) ∨
    (p.d = none ∧ (p'.d = some (.tup [.int 1, .int 3]) ∨ p'.d = some (.tup [.int 3, .int 1]))) ∨
    ((∃ l, p.d = some (.tup l)) ∧ p' = { p with pfp := some (p.pfp.getD false) }) := by
  unfold repValidate at h
  simp only at h
  split at h
  · rename_i hd
    cases h
    refine Or.inr (Or.inl ⟨hd, ?_⟩)
    simp only
    split <;> simp
  · rename_i n hd
    cases h
    refine Or.inl ⟨n, hd, ?_⟩
    simp only
    split <;> simp
  · rename_i l hd
    refine Or.inr (Or.inr ⟨⟨l, hd⟩, ?_⟩)
    split at h
    · obtain ⟨x, -, h⟩ := except_bind_ok h
      split at h
      · cases h
      · cases h; rfl
    · obtain ⟨x, -, h⟩ := except_bind_ok h
      split at h
      · cases h
      · cases h; rfl
  · cases h

theorem bad_rep {p p' : Params} (h : repValidate p = .ok p') : Bad p' ↔ Bad p := by
  have tup : ∀ (q : Params) (l : List Num), q.d = some (.tup l) → (Bad q ↔ EvenSide (l.map Num.toInt)) := by
    intro q l hq
    constructor
    · rintro (⟨n, hd, -⟩ | ⟨v, l', hd, -, hl, hE⟩)
      · rw [hq] at hd; cases hd
      · rw [hq] at hd
        cases hd
        cases hl
        exact hE
    · intro hE
      exact Or.inr ⟨_, _, hq, (fun n h => by cases h), rfl, hE⟩
  have num : ∀ (q : Params) (n : Num), q.d = some (.num n) → (Bad q ↔ n.toInt % 2 ≠ 1) := by
    intro q n hq
    constructor
    · rintro (⟨n', hd, h'⟩ | ⟨v, l', hd, hn, -⟩)
      · rw [hq] at hd; cases hd; exact h'
      · rw [hq] at hd; cases hd
        exact absurd rfl (hn n)
    · intro hE
      exact Or.inl ⟨n, hq, hE⟩
  rcases repValidate_d h with ⟨n, hd, h1 | h1⟩ | ⟨hd, h1⟩ | ⟨⟨l, hd⟩, rfl⟩
  · rw [num p n hd, tup p' _ h1]
    simp [EvenSide, Num.toInt]
  · rw [num p n hd, tup p' _ h1]
    simp [EvenSide, Num.toInt]
  · constructor
    · intro hB
      exfalso
      rcases h1 with h1 | h1 <;> rw [tup p' _ h1] at hB <;> simp [EvenSide, Num.toInt] at hB
    · rintro (⟨n', hd', h'⟩ | ⟨v, l', hd', -⟩) <;> rw [hd] at hd' <;> cases hd'
  · exact (tup _ l hd).trans (tup p l hd).symm

theorem Bad.checked {p p' : Params} (h : Bad p) (cls : QClass) : cls.checked p ≠ .ok p' := by
  intro hv
  unfold QClass.checked at hv
  split at hv
  · obtain ⟨p1, h1, hv⟩ := except_bind_ok hv
    exact ((bad_rep h1).2 h).rotated hv
  · exact h.rotated hv

theorem Bad.validate {p : Params} {v : Params × List Key} (h : Bad p) (cls : DClass) : cls.validate p ≠ .ok v := by
  intro hv
  cases cls
  · unfold DClass.validate at hv
    obtain ⟨p1, h1, hv⟩ := except_bind_ok hv
    exact h.decoder h1
  · have hv : repDecoderValidate p = .ok v := hv
    unfold repDecoderValidate at hv
    obtain ⟨p1, h1, hv⟩ := except_bind_ok hv
    obtain ⟨p2, h2, hv⟩ := except_bind_ok hv
    exact ((bad_rep h1).2 h).decoder h2

end Qtc
