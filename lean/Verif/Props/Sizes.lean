import Verif.Proof.Sizes
/-!
Properties C01, C02, C03, C12, C13: what sizes the constructors accept and what they report.
-/
namespace Qtc

/-- `t` is the number `x` cut off towards zero. -/
def Truncates : Num → Int → Prop
  | .int n, t => t = n
  | .flt q, t => (0 ≤ q → (t : Rat) ≤ q ∧ q < t + 1) ∧ (q ≤ 0 → q ≤ (t : Rat) ∧ (t : Rat) - 1 < q)

theorem truncates_iff (x : Num) (t : Int) : Truncates x t ↔ t = x.toInt := by
  cases x with
  | int n => rfl
  | flt q =>
    have key : ∀ (q : Rat) (t : Int), 0 ≤ q → (((t : Rat) ≤ q ∧ q < t + 1) ↔ t = (Num.flt q).toInt) := by
      intro q t hq
      rw [toInt_flt_nonneg q hq, eq_comm, Int.floor_eq_iff]
    unfold Truncates
    rcases le_total 0 q with h | h
    · rw [← key q t h]
      constructor
      · exact fun H => H.1 h
      · intro H
        refine ⟨fun _ => H, fun h' => ?_⟩
        have h0 : q = 0 := le_antisymm h' h
        subst h0
        have e : t = (Num.flt 0).toInt := (key 0 t le_rfl).1 H
        have e0 : t = 0 := e.trans (by decide)
        subst e0
        norm_num
    · have h' : 0 ≤ -q := by linarith
      have e : t = (Num.flt q).toInt ↔ -t = (Num.flt (-q)).toInt := by
        rw [toInt_flt_neg]; omega
      rw [e, ← key (-q) (-t) h']
      constructor
      · intro H
        have := H.2 h
        push_cast
        constructor <;> linarith [this.1, this.2]
      · intro H
        push_cast at H
        refine ⟨fun h0 => ?_, fun _ => ⟨by linarith [H.1], by linarith [H.2]⟩⟩
        have hq : q = 0 := le_antisymm h h0
        subst hq
        have e : -t = (Num.flt (-0)).toInt := (key (-0) (-t) (by norm_num)).1 (by push_cast; exact H)
        have e0 : -t = 0 := e.trans (by decide)
        have e1 : t = 0 := by omega
        subst e1
        norm_num

/-- The height and width a caller asks for with the value `d` stored (or not) under `params["d"]`. -/
inductive Asks : Option DVal → Int → Int → Prop
  | default : Asks none 3 3
  | square {x : Num} {n : Int} : Truncates x n → Asks (some (.num x)) n n
  | tuple {x y : Num} {rest : List Num} {h w : Int} :
      Truncates x h → Truncates y w → Asks (some (.tup (x :: y :: rest))) h w
  | list {x y : Num} {rest : List Num} {h w : Int} :
      Truncates x h → Truncates y w → Asks (some (.lst (x :: y :: rest))) h w

theorem asks_size {d : Option DVal} {h w : Int} (H : Asks d h w) :
    ∃ rest, rotatedSize d = .ok (h :: w :: rest, h, w) := by
  cases H with
  | default => exact ⟨[], rfl⟩
  | square hx => rw [truncates_iff] at hx; subst hx; exact ⟨[], rfl⟩
  | @tuple x y rest h w hx hy =>
    rw [truncates_iff] at hx hy; subst hx hy; exact ⟨rest.map Num.toInt, rfl⟩
  | @list x y rest h w hx hy =>
    rw [truncates_iff] at hx hy; subst hx hy; exact ⟨rest.map Num.toInt, rfl⟩

theorem odd_fmod (n : Int) : n.fmod 2 = 1 ↔ n % 2 = 1 := by
  rw [Int.fmod_eq_emod_of_nonneg n (by omega)]

/-- C01, success: an odd size is accepted, and the dictionary then holds the size as an integer tuple starting with
height and width, the number of data qubits, the two syndrome counts of the rotated layout, and the three counters at
`-1`; the flag of repetition codes is left alone. -/
theorem C01_odd_size_accepted (p : Params) (h w : Int) (H : Asks p.d h w) (hh : h % 2 = 1) (hw : w % 2 = 1) :
    ∃ p' rest, rotatedValidate p = .ok p' ∧
      p'.d = some (.tup (.int h :: .int w :: rest)) ∧
      p'.numData = some (h * w) ∧
      (∃ x z, p'.numSyn = some (x, z) ∧ 2 * x = (h + 1) * (w - 1) ∧ 2 * z = (w + 1) * (h - 1)) ∧
      p'.T = some (-1) ∧ p'.numReadout = some (-1) ∧ p'.numLatticeReadout = some (-1) ∧ p'.pfp = p.pfp := by
  obtain ⟨rest, hs⟩ := asks_size H
  refine ⟨{ p with
      d := some (.tup ((h :: w :: rest).map .int)), T := some (-1), numReadout := some (-1),
      numLatticeReadout := some (-1), numData := some (h * w), numSyn := some (numSynX h w, numSynZ h w) },
    rest.map .int, ?_, rfl, rfl, ⟨_, _, rfl, ?_, ?_⟩, rfl, rfl, rfl, rfl⟩
  rotate_left
  · rw [numSynX, Int.fdiv_eq_ediv_of_nonneg _ (by omega), ← Int.mul_assoc]
    congr 1; omega
  · rw [numSynZ, Int.fdiv_eq_ediv_of_nonneg _ (by omega), ← Int.mul_assoc]
    congr 1; omega
  · unfold rotatedValidate
    rw [hs]
    have hc : ¬ (h.fmod 2 ≠ 1 ∨ w.fmod 2 ≠ 1) := by simp [odd_fmod, hh, hw]
    simp only [bind, Except.bind, if_neg hc, List.map_cons, pure, Except.pure]

example : Asks (some (.num (.flt (11/2)))) 5 5 :=
  .square ⟨fun _ => by norm_num, fun h => by norm_num at h⟩
example : Asks (some (.tup [.int 3, .int 7])) 3 7 := .tuple rfl rfl

/-- C01, failure: as soon as one dimension is even the constructor raises `LatticeError`. -/
theorem C01_even_size_rejected (p : Params) (h w : Int) (H : Asks p.d h w) (hhw : h % 2 = 0 ∨ w % 2 = 0) :
    rotatedValidate p = .error .latticeError := by
  obtain ⟨rest, hs⟩ := asks_size H
  unfold rotatedValidate
  rw [hs]
  have hc : h.fmod 2 ≠ 1 ∨ w.fmod 2 ≠ 1 := by simp only [ne_eq, odd_fmod]; omega
  simp only [bind, Except.bind, if_pos hc]

example : Asks (some (.lst [.int 3, .flt (9/2)])) 3 4 :=
  .list rfl ⟨fun _ => by norm_num, fun h => by norm_num at h⟩

/-- C01, completeness: a value of `d` of the documented kinds (absent, a number, a pair) always asks for some size, so
the two theorems above cover every such input. -/
theorem C01_every_documented_size_asks (d : Option DVal)
    (H : d = none ∨ (∃ x, d = some (.num x)) ∨ (∃ x y, d = some (.tup [x, y])) ∨ ∃ x y, d = some (.lst [x, y])) :
    ∃ h w, Asks d h w := by
  rcases H with rfl | ⟨x, rfl⟩ | ⟨x, y, rfl⟩ | ⟨x, y, rfl⟩
  · exact ⟨3, 3, .default⟩
  · exact ⟨_, _, .square ((truncates_iff x _).2 rfl)⟩
  · exact ⟨_, _, .tuple ((truncates_iff x _).2 rfl) ((truncates_iff y _).2 rfl)⟩
  · exact ⟨_, _, .list ((truncates_iff x _).2 rfl) ((truncates_iff y _).2 rfl)⟩

/-- C01, completeness for tuples and lists of any length: with at least two entries they ask for some size, with fewer the constructor
raises `IndexError`. -/
theorem C01_any_length (p : Params) (l : List Num) (hd : p.d = some (.tup l) ∨ p.d = some (.lst l)) :
    (2 ≤ l.length → ∃ h w, Asks p.d h w) ∧ (l.length < 2 → rotatedValidate p = .error .indexError) := by
  match l with
  | [] => exact ⟨fun h => absurd h (by simp), fun _ => by rcases hd with h | h <;> (unfold rotatedValidate; rw [h]; rfl)⟩
  | [x] => exact ⟨fun h => absurd h (by simp), fun _ => by rcases hd with h | h <;> (unfold rotatedValidate; rw [h]; rfl)⟩
  | x :: y :: l =>
    refine ⟨fun _ => ⟨x.toInt, y.toInt, ?_⟩, fun h => absurd h (by simp)⟩
    rcases hd with h | h <;> rw [h]
    · exact .tuple ((truncates_iff x _).2 rfl) ((truncates_iff y _).2 rfl)
    · exact .list ((truncates_iff x _).2 rfl) ((truncates_iff y _).2 rfl)

example : rotatedValidate { d := some (.tup [.int 3]) } = .error .indexError := by decide

/-- C02 as stated (an accepted size is a real lattice) is **false** of the code: `d = -3` is accepted and reports nine
data qubits, because `-3 % 2 == 1` in Python. -/
theorem C02_accepted_size_real_fails :
    ¬ (∀ (p p' : Params) (h w : Int), Asks p.d h w → rotatedValidate p = .ok p' → 0 < h ∧ 0 < w) := by
  intro H
  have := H { d := some (.num (.int (-3))) } _ (-3) (-3) (.square rfl) rfl
  omega

example : rotatedValidate { d := some (.num (.int (-3))) } =
    .ok { d := some (.tup [.int (-3), .int (-3)]), T := some (-1), numReadout := some (-1),
          numLatticeReadout := some (-1), numData := some 9, numSyn := some (4, 4) } := by decide

/-- C02, the part that holds: an accepted size that is not negative is positive (and odd) in both dimensions. Missing
for C02: the constructor should also reject negative sizes, and it does not. -/
theorem C02_accepted_size_real_partial (p p' : Params) (h w : Int) (H : Asks p.d h w)
    (hacc : rotatedValidate p = .ok p') (hh : 0 ≤ h) (hw : 0 ≤ w) :
    0 < h ∧ h % 2 = 1 ∧ 0 < w ∧ w % 2 = 1 ∧ ∃ rest, p'.d = some (.tup (.int h :: .int w :: rest)) := by
  by_cases hhw : h % 2 = 0 ∨ w % 2 = 0
  · rw [C01_even_size_rejected p h w H hhw] at hacc
    cases hacc
  · obtain ⟨p'', rest, h1, h2, -⟩ := C01_odd_size_accepted p h w H (by omega) (by omega)
    rw [h1] at hacc
    cases hacc
    exact ⟨by omega, by omega, by omega, by omega, rest, h2⟩

example : ∃ p', rotatedValidate { d := some (.tup [.int 3, .int 5]) } = .ok p' := ⟨_, rfl⟩

/-- C03: the two syndrome counts the constructor reports add up to one less than the number of data qubits. -/
theorem C03_one_logical_qubit (p p' : Params) (h w : Int) (H : Asks p.d h w) (hacc : rotatedValidate p = .ok p') :
    ∃ x z n, p'.numSyn = some (x, z) ∧ p'.numData = some n ∧ x + z = n - 1 := by
  by_cases hhw : h % 2 = 0 ∨ w % 2 = 0
  · rw [C01_even_size_rejected p h w H hhw] at hacc
    cases hacc
  · obtain ⟨p'', rest, h1, -, h3, ⟨x, z, h4, h5, h6⟩, -⟩ := C01_odd_size_accepted p h w H (by omega) (by omega)
    rw [h1] at hacc
    cases hacc
    refine ⟨x, z, _, h4, h3, ?_⟩
    have : 2 * (x + z) = 2 * (h * w - 1) := by
      rw [Int.mul_add, h5, h6]; ring
    omega

example : rotatedValidate { d := some (.tup [.int 5, .int 7]) } = .ok
    { d := some (.tup [.int 5, .int 7]), T := some (-1), numReadout := some (-1),
      numLatticeReadout := some (-1), numData := some 35, numSyn := some (18, 16) } := by decide

/-- The tuple of dimensions that a repetition code of `n` qubits must have. -/
def repShape (pf : Bool) (n : Num) : List Num := if pf then [.int 1, n] else [n, .int 1]

/-- C12, absent size: the default is the 3-qubit code in the orientation of the flag (bit flip if absent). -/
theorem C12_default (p : Params) (hd : p.d = none) :
    repValidate p = .ok { p with pfp := some (p.pfp.getD false), d := some (.tup (repShape (p.pfp.getD false) (.int 3))) } := by
  obtain ⟨d, T, pfp, a, b, c, e⟩ := p
  simp only at hd
  subst hd
  rcases pfp with _ | _ | _ <;> rfl

/-- C12, a number `n` gives the `int(n)`-qubit code in the orientation of the flag. -/
theorem C12_number (p : Params) (x : Num) (n : Int) (hd : p.d = some (.num x)) (hn : Truncates x n) :
    repValidate p = .ok { p with pfp := some (p.pfp.getD false), d := some (.tup (repShape (p.pfp.getD false) (.int n))) } := by
  obtain ⟨d, T, pfp, a, b, c, e⟩ := p
  simp only at hd
  subst hd
  rw [truncates_iff] at hn
  subst hn
  rcases pfp with _ | _ | _ <;> rfl

/-- The number `x` equals one. -/
def Num.EqOne : Num → Prop
  | .int n => n = 1
  | .flt q => q = 1

theorem isOne_iff (x : Num) : x.isOne = true ↔ x.EqOne := by
  cases x <;> simp [Num.isOne, Num.EqOne]

/-- C12, a pair is kept if its other dimension is `1` and rejected with `LatticeError` otherwise. -/
theorem C12_pair (p : Params) (h w : Num) (hd : p.d = some (.tup [h, w])) :
    ((if p.pfp.getD false then h.EqOne else w.EqOne) →
      repValidate p = .ok { p with pfp := some (p.pfp.getD false) }) ∧
    (¬ (if p.pfp.getD false then h.EqOne else w.EqOne) → repValidate p = .error .latticeError) := by
  obtain ⟨d, T, pfp, a, b, c, e⟩ := p
  simp only at hd
  subst hd
  have hh : pyIdx [h, w] 0 = .ok h := rfl
  have hw : pyIdx [h, w] 1 = .ok w := rfl
  have h1 := isOne_iff h
  have w1 := isOne_iff w
  rcases pfp with _ | _ | _ <;>
    simp [repValidate, ← h1, ← w1, bind, Except.bind, hh, hw, pure, Except.pure]

/-- C12, every other kind of size raises `LatticeError`. -/
theorem C12_other (p : Params) (v : DVal) (hd : p.d = some v) (h1 : ∀ x, v ≠ .num x) (h2 : ∀ l, v ≠ .tup l) :
    repValidate p = .error .latticeError := by
  obtain ⟨d, T, pfp, a, b, c, e⟩ := p
  simp only at hd
  subst hd
  cases v with
  | num n => exact absurd rfl (h1 n)
  | tup l => exact absurd rfl (h2 l)
  | _ => rfl

example : repValidate { d := some (.lst [.int 3, .int 1]) } = .error .latticeError := by decide
example : repValidate { d := some (.num (.int 5)), pfp := some true } =
  .ok { d := some (.tup [.int 1, .int 5]), pfp := some true } := by decide

/-- C13: repetition parameters that validated once validate again unchanged. -/
theorem C13_idempotent (p p' : Params) (H : repValidate p = .ok p') : repValidate p' = .ok p' := by
  obtain ⟨d, T, pfp, a, b, c, e⟩ := p
  have hd : pfp.getD false = false ∨ pfp.getD false = true := by cases pfp.getD false <;> simp
  rcases d with _ | ⟨n | l | l | s | _⟩
  · rcases hd with h | h <;> simp [repValidate, h] at H <;> subst H <;> rfl
  · rcases hd with h | h <;> simp [repValidate, h] at H <;> subst H <;> rfl
  · rcases hd with h | h <;> simp only [repValidate, h] at H
    · simp only [Bool.not_false, ↓reduceIte, bind, Except.bind] at H
      rcases hx : pyIdx l 1 with _ | x
      · simp [hx] at H
      · simp only [hx] at H
        by_cases h1 : x.isOne = true
        · simp only [h1, Bool.not_true, Bool.false_eq_true, ↓reduceIte, pure, Except.pure, Except.ok.injEq] at H
          subst H
          simp [repValidate, hx, h1, bind, Except.bind, pure, Except.pure]
        · simp [h1] at H
    · simp only [Bool.not_true, Bool.false_eq_true, ↓reduceIte, bind, Except.bind] at H
      rcases hx : pyIdx l 0 with _ | x
      · simp [hx] at H
      · simp only [hx] at H
        by_cases h1 : x.isOne = true
        · simp only [h1, Bool.not_true, Bool.false_eq_true, ↓reduceIte, pure, Except.pure, Except.ok.injEq] at H
          subst H
          simp [repValidate, hx, h1, bind, Except.bind, pure, Except.pure]
        · simp [h1] at H
  · simp [repValidate] at H
  · simp [repValidate] at H
  · simp [repValidate] at H

/-- C13, as used by the decoder: after the decoder validated its parameters, building an encoder from them cannot raise
and sees the same shape. -/
theorem C13_decoder_then_encoder (p p' : Params) (keys : List Key) (H : repDecoderValidate p = .ok (p', keys)) :
    repValidate p' = .ok p' := by
  unfold repDecoderValidate at H
  rcases h1 : repValidate p with e | q
  · simp [h1, bind, Except.bind] at H
  · simp only [h1, bind, Except.bind] at H
    rcases h2 : rotatedDecoderValidate q with e | q'
    · simp [h2] at H
    · simp only [h2, pure, Except.pure, Except.ok.injEq, Prod.mk.injEq] at H
      obtain ⟨rfl, -⟩ := H
      have hid := C13_idempotent p q h1
      -- the decoder's own validation does not touch a tuple
      have hq : q' = q := by
        unfold rotatedDecoderValidate at h2
        rcases h3 : latticeDecoderValidate q with e | u
        · simp [h3, bind, Except.bind] at h2
        · simp only [h3, bind, Except.bind] at h2
          rcases hd : q.d with _ | ⟨n | l | l | s | _⟩
          · simp [hd] at h2
          · -- a number cannot survive `repValidate`
            exfalso
            unfold repValidate at hid
            simp only [hd] at hid
            have := congrArg (fun x : Py Params => match x with | .ok y => y.d | _ => none) hid
            simp only [hd] at this
            split at this <;> simp at this
          · simp only [hd] at h2
            split at h2
            · cases h2
            · rcases ha : pyIdx l 0 with e | a
              · simp [ha] at h2
              · rcases hb : pyIdx l 1 with e | b
                · simp [ha, hb] at h2
                · simp only [ha, hb] at h2
                  split at h2
                  · cases h2
                  · split at h2
                    · cases h2
                    · simpa [pure, Except.pure] using h2.symm
          · exfalso; simp [repValidate, hd] at hid
          · exfalso; simp [repValidate, hd] at hid
          · exfalso; simp [repValidate, hd] at hid
      rw [hq]
      exact hid

example : ∃ p' keys, repDecoderValidate { d := some (.num (.int 5)), T := some 3 } = .ok (p', keys) := ⟨_, _, rfl⟩

end Qtc
