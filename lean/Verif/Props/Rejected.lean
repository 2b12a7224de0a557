import Verif.Proof.Rejected
/-!
C122: what a rejected dictionary is worth to the next constructor.
-/
namespace Qtc

/-- The calls that are made with the caller's parameter dictionary: `XXZZQubit(params, name)` etc. and `RotatedDecoder(params)` etc. -/
inductive Maker where
  | encoder (cls : QClass) (name : Str)
  | decoder (cls : DClass) (limit : Nat)

/-- What the call returns or raises, and the state it leaves. -/
def Maker.call (m : Maker) (r : Nat) (w : World) : Py (TQubit ⊕ DecoderObj) × World :=
  match m with
  | .encoder cls name => ((newQubit cls (some r) name w).1.map .inl, (newQubit cls (some r) name w).2)
  | .decoder cls limit => ((newDecoder cls limit r w).1.map .inr, (newDecoder cls limit r w).2)

/-- Some calls, one after the other, all with the dictionary `r`, all ended by `LatticeError`. -/
inductive Rejections (r : Nat) : World → World → Prop
  | none (w : World) : Rejections r w w
  | next {w w1 w2 : World} (m : Maker) (h : m.call r w = (.error .latticeError, w1)) (t : Rejections r w1 w2) : Rejections r w w2

/-- The two dictionaries are worth the same to every constructor. -/
structure Alike (p p' : Params) : Prop where
  full : p.isEmpty = false ∧ p'.isEmpty = false
  enc : ∀ (cls : QClass) (x : Params), cls.checked p = .ok x → ∃ x', cls.checked p' = .ok x' ∧ x'.d = x.d ∧ x'.numData = x.numData ∧ x'.numSyn = x.numSyn
  enc' : ∀ (cls : QClass) (x : Params), cls.checked p' = .ok x → ∃ x', cls.checked p = .ok x' ∧ x'.d = x.d ∧ x'.numData = x.numData ∧ x'.numSyn = x.numSyn
  dec : ∀ (cls : DClass) (x : Params × List Key), cls.validate p = .ok x → ∃ x', cls.validate p' = .ok x' ∧ x'.1.d = x.1.d ∧ x'.1.T = x.1.T ∧ x'.2 = x.2
  dec' : ∀ (cls : DClass) (x : Params × List Key), cls.validate p' = .ok x → ∃ x', cls.validate p = .ok x' ∧ x'.1.d = x.1.d ∧ x'.1.T = x.1.T ∧ x'.2 = x.2

theorem Alike.symm {p p' : Params} (h : Alike p p') : Alike p' p := ⟨h.full.symm, h.enc', h.enc, h.dec', h.dec⟩

theorem bad_full {p : Params} (h : Bad p) : p.isEmpty = false := by
  unfold Params.isEmpty
  rcases h with ⟨n, hd, -⟩ | ⟨v, l, hd, -⟩ <;> rw [hd] <;> rfl

theorem alike_bad {p p' : Params} (h : Bad p) (h' : Bad p') : Alike p p' :=
  ⟨⟨bad_full h, bad_full h'⟩, fun c _ e => absurd e (h.checked c), fun c _ e => absurd e (h'.checked c), fun c _ e => absurd e (h.validate c),
    fun c _ e => absurd e (h'.validate c)⟩

/-- Writing down the default of the flag changes nothing. -/
theorem alike_flag {p : Params} (hne : p.isEmpty = false) : Alike p { p with pfp := some (p.pfp.getD false) } := by
  have hrep : repValidate { p with pfp := some (p.pfp.getD false) } = repValidate p := rfl
  have hrot : ∀ q : Params, rotatedValidate { q with pfp := some (q.pfp.getD false) } =
      (rotatedValidate q).map fun x => { x with pfp := some (q.pfp.getD false) } := by
    intro q
    unfold rotatedValidate
    rcases rotatedSize q.d with e | x
    · rfl
    · simp only [bind, Except.bind]
      split <;> rfl
  have hdec : ∀ q : Params, rotatedDecoderValidate { q with pfp := some (q.pfp.getD false) } =
      (rotatedDecoderValidate q).map fun x => { x with pfp := some (q.pfp.getD false) } := by
    rintro ⟨d, T, pfp, a1, a2, a3, a4⟩
    have list : ∀ (x : Params) (l : List Num), (if l.length ≠ 2 then Except.error PyErr.latticeError else do
        let dh ← pyIdx l 0
        let dw ← pyIdx l 1
        if dh.notOdd then Except.error PyErr.latticeError else if dw.notOdd then .error .latticeError
        else pure { x with pfp := some (pfp.getD false) } : Py Params) =
      (if l.length ≠ 2 then Except.error PyErr.latticeError else do
        let dh ← pyIdx l 0
        let dw ← pyIdx l 1
        if dh.notOdd then Except.error PyErr.latticeError else if dw.notOdd then .error .latticeError
        else pure x : Py Params).map fun x => { x with pfp := some (pfp.getD false) } := by
      intro x l
      split
      · rfl
      · rcases pyIdx l 0 with e | a
        · rfl
        · rcases pyIdx l 1 with e | b
          · rfl
          · simp only [bind, Except.bind]
            split
            · rfl
            · split <;> rfl
    rcases d with _ | d
    · rfl
    rcases T with _ | T
    · rfl
    cases d with
    | num n => exact list ⟨some (.tup [.int n.toInt, .int n.toInt]), some T, pfp, a1, a2, a3, a4⟩ [.int n.toInt, .int n.toInt]
    | tup l => exact list ⟨some (.tup l), some T, pfp, a1, a2, a3, a4⟩ l
    | lst l => exact list ⟨some (.lst l), some T, pfp, a1, a2, a3, a4⟩ l
    | str s =>
      by_cases hs : s.length ≠ 2
      · simp [rotatedDecoderValidate, latticeDecoderValidate, bind, Except.bind, hs, Except.map]
      · simp [rotatedDecoderValidate, latticeDecoderValidate, bind, Except.bind, hs, Except.map]
    | other => rfl
  have hc : ∀ cls : QClass, cls ≠ .rep → cls.checked { p with pfp := some (p.pfp.getD false) } =
      (cls.checked p).map fun x => { x with pfp := some (p.pfp.getD false) } := by
    intro cls h
    unfold QClass.checked
    rw [if_neg h, if_neg h]
    exact hrot p
  have hd : DClass.rotated.validate { p with pfp := some (p.pfp.getD false) } =
      (DClass.rotated.validate p).map fun x => ({ x.1 with pfp := some (p.pfp.getD false) }, x.2) := by
    unfold DClass.validate
    simp only
    rw [hdec p]
    rcases rotatedDecoderValidate p with e | x <;> rfl
  refine ⟨⟨hne, ?_⟩, ?_, ?_, ?_, ?_⟩
  · unfold Params.isEmpty
    simp
  · intro cls x hx
    by_cases h : cls = .rep
    · subst h
      exact ⟨x, hx, rfl, rfl, rfl⟩
    · rw [hc cls h, hx]
      exact ⟨_, rfl, rfl, rfl, rfl⟩
  · intro cls x hx
    by_cases h : cls = .rep
    · subst h
      exact ⟨x, hx, rfl, rfl, rfl⟩
    · rw [hc cls h] at hx
      rcases hp : cls.checked p with e | y
      · rw [hp] at hx; cases hx
      · rw [hp] at hx
        cases hx
        exact ⟨_, rfl, rfl, rfl, rfl⟩
  · intro cls x hx
    cases cls
    · rw [hd, hx]
      exact ⟨_, rfl, rfl, rfl, rfl⟩
    · exact ⟨x, hx, rfl, rfl, rfl⟩
  · intro cls x hx
    cases cls
    · rw [hd] at hx
      rcases hp : DClass.rotated.validate p with e | y
      · rw [hp] at hx; cases hx
      · rw [hp] at hx
        cases hx
        exact ⟨_, rfl, rfl, rfl, rfl⟩
    · exact ⟨x, hx, rfl, rfl, rfl⟩

theorem alike_self {p : Params} (hne : p.isEmpty = false) : Alike p p :=
  ⟨⟨hne, hne⟩, fun _ x h => ⟨x, h, rfl, rfl, rfl⟩, fun _ x h => ⟨x, h, rfl, rfl, rfl⟩, fun _ x h => ⟨x, h, rfl, rfl, rfl⟩,
    fun _ x h => ⟨x, h, rfl, rfl, rfl⟩⟩

/-- A size a lattice rejects has an even side, and so has what is written back. -/
theorem rotated_reject {p : Params} (h : rotatedValidate p = .error .latticeError) : Bad p ∧ Bad (rotatedTouched p) := by
  unfold rotatedValidate at h
  rcases hs : rotatedSize p.d with e | ⟨l, a, b⟩
  · rw [hs] at h
    exfalso
    have : Calm (rotatedSize p.d) := by
      have ht : ∀ v, Calm (toIntTuple v) := by
        intro v
        cases v with
        | str s =>
          refine Calm.mapM (fun c => ?_) s
          unfold intOfChar
          split <;> intro h <;> cases h
        | _ => intro h; cases h
      unfold rotatedSize
      exact (ht _).bind fun _ => (calm_pyIdx _ _).bind fun _ => (calm_pyIdx _ _).bind fun _ => Calm.pure _
    exact this (by rw [hs]; cases h; rfl)
  obtain ⟨rest, rfl⟩ := rotatedSize_shape hs
  rw [hs] at h
  simp only [bind, Except.bind, fmod_two] at h
  split at h
  swap
  · cases h
  rename_i hab
  have hE : EvenSide (a :: b :: rest) := ⟨a, b, rest, rfl, hab⟩
  have hT : ∀ l : List Int, EvenSide l → ∀ q : Params, q.d = some (.tup (l.map .int)) → Bad q := by
    intro l hl q hq
    refine Or.inr ⟨_, l, hq, (fun n h => by cases h), ?_, hl⟩
    show Except.ok _ = _
    rw [List.map_map]
    congr 1
    exact List.map_id l
  rcases hd : p.d with _ | v
  · rw [hd] at hs
    unfold rotatedSize at hs
    obtain ⟨l, hl, hs⟩ := except_bind_ok hs
    cases hl
    cases hs
    exact absurd hab (by decide)
  · by_cases hn : ∃ n, v = .num n
    · obtain ⟨n, rfl⟩ := hn
      have e : rotatedSize p.d = .ok ([n.toInt, n.toInt], n.toInt, n.toInt) := by rw [hd]; rfl
      rw [e] at hs
      cases hs
      refine ⟨Or.inl ⟨n, hd, by simpa using hab⟩, hT _ hE _ ?_⟩
      unfold rotatedTouched
      simp only [hd]
      rfl
    · have hn' : ∀ n, v ≠ .num n := fun n e => hn ⟨n, e⟩
      have hl : toIntTuple v = .ok (a :: b :: rest) := by
        rw [hd] at hs
        unfold rotatedSize at hs
        obtain ⟨l, hl, hs⟩ := except_bind_ok hs
        obtain ⟨x, hx, hs⟩ := except_bind_ok hs
        obtain ⟨y, hy, hs⟩ := except_bind_ok hs
        cases hs
        cases v with
        | num n => exact absurd rfl (hn' n)
        | _ => exact hl
      refine ⟨Or.inr ⟨v, _, hd, hn', hl, hE⟩, hT _ hE _ ?_⟩
      unfold rotatedTouched
      simp only [hd, Option.getD_some, hl]
      try rfl

/-- What a rejection does to the dictionary: nothing, or it writes down the default of the flag, or it writes one hopeless size for another. -/
inductive Mark (p : Params) : Params → Prop
  | same (hne : p.isEmpty = false) : Mark p p
  | flag (hne : p.isEmpty = false) : Mark p { p with pfp := some (p.pfp.getD false) }
  | bad (d : Option DVal) (f : Option Bool) (hf : f.getD false = p.pfp.getD false) (h : Bad p) (h' : Bad { p with d := d, pfp := f }) : Mark p { p with d := d, pfp := f }

theorem Mark.alike {p p' : Params} (h : Mark p p') : Alike p p' := by
  cases h with
  | same hne => exact alike_self hne
  | flag hne => exact alike_flag hne
  | bad d f hf h h' => exact alike_bad h h'

theorem repValidate_fields {p p' : Params} (h : repValidate p = .ok p') : ∃ d, p' = { p with d := d, pfp := some (p.pfp.getD false) } := by
  unfold repValidate at h
  simp only at h
  split at h
  · cases h; exact ⟨_, rfl⟩
  · cases h; exact ⟨_, rfl⟩
  · split at h <;>
    · obtain ⟨x, -, h⟩ := except_bind_ok h
      split at h
      · cases h
      · cases h; exact ⟨p.d, rfl⟩
  · cases h

theorem step_enc {cls : QClass} {p : Params} (hne : p.isEmpty = false) (h : cls.checked p = .error .latticeError) : Mark p (cls.touched p) := by
  unfold QClass.checked at h
  unfold QClass.touched
  split at h
  · rename_i hc
    rw [if_pos hc]
    rcases hp : repValidate p with e | p1
    · exact .flag hne
    · rw [hp] at h
      have h : rotatedValidate p1 = .error .latticeError := h
      obtain ⟨b1, b2⟩ := rotated_reject h
      have b0 := (bad_rep hp).1 b1
      obtain ⟨d, rfl⟩ := repValidate_fields hp
      exact .bad _ _ (by simp) b0 b2
  · rename_i hc
    rw [if_neg hc]
    obtain ⟨b1, b2⟩ := rotated_reject h
    exact .bad _ p.pfp rfl b1 b2

/-- A pair of integers a decoder rejects has an even side. -/
theorem pair_reject {p : Params} {a b : Int} (hd : p.d = some (.tup [.int a, .int b])) (h : rotatedDecoderValidate p = .error .latticeError) :
    EvenSide [a, b] := by
  by_contra hE
  have hab : a % 2 = 1 ∧ b % 2 = 1 := by
    by_contra hn
    exact hE ⟨a, b, [], rfl, by omega⟩
  unfold rotatedDecoderValidate latticeDecoderValidate at h
  rcases hT : p.T with _ | T
  · simp [hd, hT, bind, Except.bind] at h
  · simp [hd, hT, bind, Except.bind, pyIdx, Num.notOdd, fmod_two, hab.1, hab.2, pure, Except.pure] at h

theorem num_reject {p : Params} {n : Num} (hd : p.d = some (.num n)) (h : rotatedDecoderValidate p = .error .latticeError) : n.toInt % 2 ≠ 1 := by
  intro ho
  unfold rotatedDecoderValidate latticeDecoderValidate at h
  rcases hT : p.T with _ | T
  · simp [hd, hT, bind, Except.bind] at h
  · simp [hd, hT, bind, Except.bind, pyIdx, Num.notOdd, fmod_two, ho, pure, Except.pure] at h

theorem bad_pair {p : Params} {a b : Int} (hd : p.d = some (.tup [.int a, .int b])) (h : EvenSide [a, b]) : Bad p :=
  Or.inr ⟨_, _, hd, (fun n h => by cases h), rfl, h⟩

theorem touched_notNum {p : Params} (h : ∀ n, p.d ≠ some (.num n)) : rotatedDecoderTouched p = p := by
  unfold rotatedDecoderTouched
  split
  · rfl
  · split
    · rename_i n hn
      exact absurd hn (h n)
    · rfl

theorem step_dec {cls : DClass} {p : Params} (h : cls.validate p = .error .latticeError) : Mark p (cls.touched p) := by
  cases cls with
  | rotated =>
    have h1 : rotatedDecoderValidate p = .error .latticeError := by
      unfold DClass.validate at h
      rcases hp : rotatedDecoderValidate p with e | x
      · rw [hp] at h; cases h; rfl
      · rw [hp] at h; cases h
    show Mark p (rotatedDecoderTouched p)
    by_cases hn : ∃ n, p.d = some (.num n)
    · obtain ⟨n, hd⟩ := hn
      have ho := num_reject hd h1
      have hb : Bad p := Or.inl ⟨n, hd, ho⟩
      unfold rotatedDecoderTouched
      split
      · exact .same (bad_full hb)
      · simp only [hd]
        exact .bad _ p.pfp rfl hb (bad_pair rfl ⟨_, _, [], rfl, Or.inl ho⟩)
    · rw [touched_notNum fun n e => hn ⟨n, e⟩]
      refine .same ?_
      rcases hd : p.d with _ | v
      · unfold rotatedDecoderValidate latticeDecoderValidate at h1
        simp [hd, bind, Except.bind] at h1
      · unfold Params.isEmpty
        rw [hd]
        rfl
  | repetition =>
    have h : repDecoderValidate p = .error .latticeError := h
    have hne : p.isEmpty = false := by
      by_contra hE
      have hE : p.isEmpty = true := by simpa using hE
      unfold Params.isEmpty at hE
      simp only [Bool.and_eq_true, Option.isNone_iff_eq_none] at hE
      obtain ⟨⟨⟨⟨⟨⟨e1, e2⟩, e3⟩, e4⟩, e5⟩, e6⟩, e7⟩ := hE
      obtain ⟨d, T, f, a1, a2, a3, a4⟩ := p
      simp only at e1 e2 e3 e4 e5 e6 e7
      subst e1 e2 e3 e4 e5 e6 e7
      cases h
    show Mark p (if p.isEmpty then p else rotatedDecoderTouched (repTouched p))
    rw [hne]
    simp only [Bool.false_eq_true, if_false]
    unfold repDecoderValidate at h
    unfold repTouched
    rcases hp : repValidate p with e | p1
    · simp only
      rw [touched_notNum]
      · exact .flag hne
      · intro n hn
        have hn : p.d = some (.num n) := hn
        unfold repValidate at hp
        simp only [hn] at hp
        cases hp
    · rw [hp] at h
      have h1 : rotatedDecoderValidate p1 = .error .latticeError := by
        rcases hq : rotatedDecoderValidate p1 with e | x
        · simp only [bind, Except.bind, hq] at h
          cases h; rfl
        · simp only [bind, Except.bind, hq] at h
          cases h
      simp only
      obtain ⟨d, e⟩ := repValidate_fields hp
      rcases repValidate_d hp with ⟨n, hd, hd'⟩ | ⟨hd, hd'⟩ | ⟨⟨l, hd⟩, rfl⟩
      · have hb : Bad p1 := by rcases hd' with hd' | hd' <;> exact bad_pair hd' (pair_reject hd' h1)
        rw [touched_notNum (by rcases hd' with hd' | hd' <;> rw [hd'] <;> intro n h <;> cases h)]
        have hb0 := (bad_rep hp).1 hb
        subst e
        exact .bad _ _ (by simp) hb0 hb
      · exfalso
        rcases hd' with hd' | hd'
        · have := pair_reject hd' h1
          simp [EvenSide] at this
        · have := pair_reject hd' h1
          simp [EvenSide] at this
      · rw [touched_notNum (by intro n h; rw [hd] at h; cases h)]
        exact .flag hne

/-- What one rejection does. -/
theorem call_step {m : Maker} {r : Nat} {w w1 : World} (h : m.call r w = (.error .latticeError, w1)) :
    ∃ p, w1 = w.setP r p ∧ Mark (w.heap r) p := by
  cases m with
  | encoder cls name =>
    have he : (newQubit cls (some r) name w).1 = .error .latticeError := by
      have := congrArg Prod.fst h
      simp only [Maker.call] at this
      rcases hq : (newQubit cls (some r) name w).1 with e | q
      · rw [hq] at this; cases this; rfl
      · rw [hq] at this; cases this
    have hw : (newQubit cls (some r) name w).2 = w1 := congrArg Prod.snd h
    rcases hne : (w.heap r).isEmpty with _ | _
    · rw [newQubit_self hne] at he hw
      rcases hc : cls.checked (w.heap r) with e | p
      · rw [qubitAt_unchecked hc] at he hw
        cases he
        exact ⟨_, hw.symm, step_enc hne hc⟩
      · rw [qubitAt_checked hc] at he
        exact absurd he (((plain_latticeFrom _ _ _ _).bind fun _ => Plain.pure _) _ _ rfl).2.2
    · exact absurd he (newQubit_empty hne)
  | decoder cls limit =>
    have he : (newDecoder cls limit r w).1 = .error .latticeError := by
      have := congrArg Prod.fst h
      simp only [Maker.call] at this
      rcases hq : (newDecoder cls limit r w).1 with e | q
      · rw [hq] at this; cases this; rfl
      · rw [hq] at this; cases this
    have hw : (newDecoder cls limit r w).2 = w1 := congrArg Prod.snd h
    rcases hc : cls.validate (w.heap r) with e | v
    · rw [newDecoder_unchecked hc] at he hw
      cases he
      exact ⟨_, hw.symm, step_dec hc⟩
    · rw [newDecoder_checked hc] at he
      exfalso
      have hcalm := calm_decoderOf v.1 v.2 limit
      rcases hD : decoderOf v.1 v.2 limit with e | D
      · rw [hD] at he hcalm
        cases he
        exact hcalm rfl
      · rw [hD] at he
        cases he

theorem alike_call {r : Nat} {w : World} {p : Params} (h : Alike (w.heap r) p) (m : Maker) (o : TQubit ⊕ DecoderObj)
    (ho : (m.call r w).1 = .ok o) : (m.call r (w.setP r p)).1 = .ok o := by
  have hh : (w.setP r p).heap r = p := World.setP_heap_self _ _ _
  cases m with
  | encoder cls name =>
    simp only [Maker.call] at ho ⊢
    rw [newQubit_self h.full.1] at ho
    rw [newQubit_self (by rw [hh]; exact h.full.2)]
    rcases hc : cls.checked (w.heap r) with e | x
    · rw [qubitAt_unchecked hc] at ho
      cases ho
    · obtain ⟨x', hx, h1, h2, h3⟩ := h.enc cls x hc
      rw [qubitAt_checked (p := x') (by rw [hh]; exact hx), latticeFrom_congr h1 h2 h3]
      rw [qubitAt_checked hc] at ho
      rw [← ho]
      exact congrArg _ (((plain_latticeFrom cls.code name r x).bind fun L => Plain.pure (⟨cls, L⟩ : TQubit)) ((w.setP r p).setP r x') (w.setP r x) rfl).1
  | decoder cls limit =>
    simp only [Maker.call] at ho ⊢
    rcases hc : cls.validate (w.heap r) with e | x
    · rw [newDecoder_unchecked hc] at ho
      cases ho
    · obtain ⟨x', hx, h1, h2, h3⟩ := h.dec cls x hc
      rw [newDecoder_checked (v := x') (by rw [hh]; exact hx), h3, decoderOf_congr h1 h2]
      rw [newDecoder_checked hc] at ho
      exact ho

/-- C122: a dictionary that constructors have rejected with `LatticeError` is worth the same to every constructor afterwards as before: it returns the
same object, or raises where it would have raised. (Which exception it raises may change.) -/
theorem C122_rejected_partial {r : Nat} {w w' : World} (h : Rejections r w w') (m : Maker) (o : TQubit ⊕ DecoderObj) :
    (m.call r w').1 = .ok o ↔ (m.call r w).1 = .ok o := by
  induction h with
  | none w => exact Iff.rfl
  | @next w w1 w2 m' h t ih =>
    rw [ih]
    obtain ⟨p, rfl, hs⟩ := call_step h
    refine ⟨fun ho => ?_, alike_call hs.alike m o⟩
    have hb := alike_call (w := w.setP r p) (r := r) (p := w.heap r) (by rw [World.setP_heap_self]; exact hs.alike.symm) m o ho
    have e : (w.setP r p).setP r (w.heap r) = w := by
      rw [setP_setP]
      unfold World.setP
      have : (fun k => if k = r then w.heap r else w.heap k) = w.heap := by
        funext k
        split
        · subst_vars; rfl
        · rfl
      simp only [this]
    rwa [e] at hb

/-- C122: rejections leave the circuit and all other dictionaries alone, and in the rejected one all keys but `"d"` and the flag; a size that some
constructor accepts is left alone, too. -/
theorem C122_untouched {r : Nat} {w w' : World} (h : Rejections r w w') :
    w'.circ = w.circ ∧ w'.next = w.next ∧ (∀ k, k ≠ r → w'.heap k = w.heap k) ∧
    (∃ d f, w'.heap r = { w.heap r with d := d, pfp := f }) ∧ (w'.heap r).pfp.getD false = (w.heap r).pfp.getD false ∧
    ((∃ (m : Maker) (o : TQubit ⊕ DecoderObj), (m.call r w).1 = .ok o) → (w'.heap r).d = (w.heap r).d) := by
  induction h with
  | none w => exact ⟨rfl, rfl, fun _ _ => rfl, ⟨(w.heap r).d, (w.heap r).pfp, rfl⟩, rfl, fun _ => rfl⟩
  | @next w w1 w2 m' h t ih =>
    obtain ⟨p, rfl, hs⟩ := call_step h
    obtain ⟨i1, i2, i3, ⟨d2, f2, i4⟩, i5, i6⟩ := ih
    rw [World.setP_heap_self] at i4 i5 i6
    refine ⟨i1, i2, fun k hk => (i3 k hk).trans ?_, ?_, i5.trans ?_, ?_⟩
    · show (if k = r then p else w.heap k) = w.heap k
      rw [if_neg hk]
    · rw [i4]
      cases hs <;> exact ⟨_, _, rfl⟩
    · cases hs with
      | same => rfl
      | flag => simp
      | bad d f hf => exact hf
    · rintro ⟨m, o, ho⟩
      rw [i6 ⟨m, o, alike_call hs.alike m o ho⟩]
      cases hs with
      | same => rfl
      | flag => rfl
      | bad d f hf hb hb' =>
        exfalso
        cases m with
        | encoder cls name =>
          simp only [Maker.call] at ho
          rw [newQubit_self (bad_full hb)] at ho
          rcases hc : cls.checked (w.heap r) with e | x
          · rw [qubitAt_unchecked hc] at ho; cases ho
          · exact hb.checked cls hc
        | decoder cls limit =>
          simp only [Maker.call] at ho
          rcases hc : cls.validate (w.heap r) with e | x
          · rw [newDecoder_unchecked hc] at ho; cases ho
          · exact hb.validate cls hc

/-- An XXZZ qubit in an empty circuit gets the size its dictionary says. -/
theorem fresh_qubit {w : World} {r : Nat} {p : Params} {dh dw : Int} (name : Str) (hne : (w.heap r).isEmpty = false)
    (hc : QClass.xxzz.checked (w.heap r) = .ok p) (V : Validated p dh dw) (h1 : 1 ≤ dh) (h2 : 1 ≤ dw) (hw : w.circ = {}) :
    ∃ q, (newQubit .xxzz (some r) name w).1 = .ok q ∧ q.lat.data.size = (dh * dw).toNat := by
  have hl := newLattice_ok (code := QClass.xxzz.code) (name := name) (w := w) (pref := r) hc V h1 h2 (by intro g _ h; rw [hw] at h; cases h)
  refine ⟨⟨.xxzz, mkLattice .xxzz dh dw name r⟩, ?_, rfl⟩
  rw [newQubit_self hne]
  unfold qubitAt
  rw [CM.bind_ok (checkRep_not (by decide) r), CM.bind_ok hl]
  rfl

/-- C122: `RotatedDecoder(params)` without `"d"` or `"T"` raises `ValueError` and changes nothing at all. -/
theorem C122_missing {r : Nat} {w : World} (limit : Nat) (h : (w.heap r).d = none ∨ (w.heap r).T = none) :
    (newDecoder .rotated limit r w).1 = .error .valueError ∧ (newDecoder .rotated limit r w).2 = w := by
  have hv : DClass.rotated.validate (w.heap r) = .error .valueError := by
    unfold DClass.validate rotatedDecoderValidate latticeDecoderValidate
    simp only [Option.isNone_iff_eq_none]
    rw [if_pos h]
    rfl
  have ht : DClass.rotated.touched (w.heap r) = w.heap r := by
    unfold DClass.touched rotatedDecoderTouched
    simp only [Option.isNone_iff_eq_none]
    rw [if_pos h]
  rw [newDecoder_unchecked hv, ht]
  refine ⟨rfl, ?_⟩
  unfold World.setP
  have : (fun k => if k = r then w.heap r else w.heap k) = w.heap := by
    funext k
    split
    · rename_i e; rw [e]
    · rfl
  rw [this]

/-- `RotatedDecoder({"d": 3})` leaves the number. -/
example : ((newDecoder .rotated 100 0 ⟨fun _ => { d := some (.num (.int 3)) }, 1, {}⟩).2.heap 0).d = some (.num (.int 3)) := by
  rw [(C122_missing 100 (Or.inr rfl)).2]

/-- C122, not for other exceptions: `RepetitionDecoder(params)` with a number `n` as size and without `"T"` raises `ValueError` after it has written
its own size: an `XXZZQubit` made from the dictionary afterwards has `n` data qubits and not `n * n`. -/
theorem C122_false_valueError (limit : Nat) (name : Str) (n : Int) (hn : 1 ≤ n) (ho : n % 2 = 1) : ∃ (w : World) (q q' : TQubit),
    (w.heap 0).d = some (.num (.int n)) ∧ (newDecoder .repetition limit 0 w).1 = .error .valueError ∧
    (newQubit .xxzz (some 0) name w).1 = .ok q ∧ q.lat.data.size = (n * n).toNat ∧
    (newQubit .xxzz (some 0) name (newDecoder .repetition limit 0 w).2).1 = .ok q' ∧ q'.lat.data.size = n.toNat := by
  let p : Params := { d := some (.num (.int n)) }
  let w : World := ⟨fun _ => p, 1, {}⟩
  have hD : newDecoder .repetition limit 0 w = (.error .valueError, w.setP 0 (DClass.repetition.touched p)) := newDecoder_unchecked rfl
  have size : ∀ (x : Params) (a b : Int), rotatedSize x.d = .ok ([a, b], a, b) → a % 2 = 1 → b % 2 = 1 →
      ∃ y, QClass.xxzz.checked x = .ok y ∧ Validated y a b := by
    intro x a b hs ha hb
    have hv : ∃ y, rotatedValidate x = .ok y ∧ Validated y a b := by
      unfold rotatedValidate
      rw [hs]
      simp only [bind, Except.bind, fmod_two]
      rw [if_neg (by omega)]
      exact ⟨_, rfl, ⟨[], rfl⟩, ha, hb, rfl, rfl, rfl, rfl, rfl⟩
    exact hv
  have h1 := size p n n rfl ho ho
  have h2 := size (DClass.repetition.touched p) n 1 rfl ho (by decide)
  obtain ⟨x1, c1, V1⟩ := h1
  obtain ⟨x2, c2, V2⟩ := h2
  obtain ⟨q, e1, s1⟩ := fresh_qubit (w := w) (r := 0) name rfl c1 V1 hn hn rfl
  obtain ⟨q', e2, s2⟩ := fresh_qubit (w := w.setP 0 (DClass.repetition.touched p)) (r := 0) (p := x2) name rfl c2 V2 hn (by decide) rfl
  refine ⟨w, q, q', rfl, by rw [hD], e1, s1, by rw [hD]; exact e2, ?_⟩
  rw [s2, Int.mul_one]

/-- `RepetitionQubit({"d": (3, 3)})` is rejected, twice; the dictionary has the flag afterwards, and an `XXZZQubit` can be made from it. -/
example (name : Str) : ∃ w w', (w.heap 0).d = some (.tup [.int 3, .int 3]) ∧ (w.heap 0).pfp = none ∧ Rejections 0 w w' ∧
    (w'.heap 0).pfp = some false ∧ ∃ o, ((Maker.encoder .xxzz name).call 0 w').1 = .ok o := by
  let w : World := ⟨fun _ => { d := some (.tup [.int 3, .int 3]) }, 1, {}⟩
  have hR : Rejections 0 w _ := .next (.encoder .rep "a".toList) rfl (.next (.encoder .rep "b".toList) rfl (.none _))
  refine ⟨w, _, rfl, rfl, hR, rfl, ?_⟩
  obtain ⟨q, hq, -⟩ := fresh_qubit (w := w) (r := 0) (p := ⟨some (.tup [.int 3, .int 3]), some (-1), none, some (-1), some (-1), some 9,
    some (4, 4)⟩) name rfl (by decide +kernel)
    ⟨⟨[], rfl⟩, by decide, by decide, rfl, by decide +kernel, rfl, rfl, rfl⟩ (by decide) (by decide) rfl
  exact ⟨.inl q, (C122_rejected_partial hR _ _).2 (by simp only [Maker.call]; rw [hq]; rfl)⟩

/-- `XXZZQubit({"d": [3, 4]})` leaves `(3, 4)`, `RotatedDecoder({"d": 4, "T": 1})` leaves `(4, 4)`. -/
example : ∃ w w' v v', (w.heap 0).d = some (.lst [.int 3, .int 4]) ∧ Rejections 0 w w' ∧ (w'.heap 0).d = some (.tup [.int 3, .int 4]) ∧
    (v.heap 0).d = some (.num (.int 4)) ∧ Rejections 0 v v' ∧ (v'.heap 0).d = some (.tup [.int 4, .int 4]) := by
  let w : World := ⟨fun _ => { d := some (.lst [.int 3, .int 4]) }, 1, {}⟩
  let v : World := ⟨fun _ => { d := some (.num (.int 4)), T := some 1 }, 1, {}⟩
  have hR : Rejections 0 w _ := .next (.encoder .xxzz "a".toList) rfl (.none _)
  have hS : Rejections 0 v _ := .next (.decoder .rotated 900) rfl (.none _)
  exact ⟨w, _, v, _, rfl, hR, rfl, rfl, hS, rfl⟩

end Qtc
