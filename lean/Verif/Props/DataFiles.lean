import Verif.Model.DataFiles
import Verif.Props.Benchmark
/-!
C109: the data files of several benchmarks. C110: the plots of a batch analysis.
-/
namespace Qtc
open Spec

/-! ### Names -/

theorem decStr_char {n : Int} {c : Char} (h : c ∈ decStr n) : c.isDigit ∨ c = '-' := by
  cases n with
  | ofNat k => exact Or.inl (Nat.isDigit_of_mem_toDigits (by decide) (by decide) h)
  | negSucc k =>
    rcases List.mem_cons.1 h with h | h
    · exact Or.inr h
    · exact Or.inl (Nat.isDigit_of_mem_toDigits (by decide) (by decide) h)

theorem not_mem_decStr {n : Int} {c : Char} (h1 : c.isDigit = false) (h2 : c ≠ '-') : c ∉ decStr n := by
  intro h
  rcases decStr_char h with h | h
  · rw [h1] at h; cases h
  · exact h2 h

theorem toDigits_inj {a b : Nat} (h : Nat.toDigits 10 a = Nat.toDigits 10 b) : a = b := by
  rw [← Nat.ofDigitChars_ten_toDigits (n := a), h, Nat.ofDigitChars_ten_toDigits]

theorem decStr_inj {n m : Int} (h : decStr n = decStr m) : n = m := by
  have minus : ∀ {k : Nat} {l : Str}, Nat.toDigits 10 k ≠ '-' :: l := by
    intro k l h
    have := Nat.isDigit_of_mem_toDigits (b := 10) (n := k) (c := '-') (by decide) (by decide) (by rw [h]; simp)
    exact absurd this (by decide)
  cases n with
  | ofNat a =>
    cases m with
    | ofNat b => exact congrArg _ (toDigits_inj h)
    | negSucc b => exact (minus h).elim
  | negSucc a =>
    cases m with
    | ofNat b => exact (minus h.symm).elim
    | negSucc b =>
      have := toDigits_inj (List.cons.inj h).2
      rw [show a = b by omega]

theorem cut_inj {c : Char} {x y u v : Str} (hx : c ∉ x) (hy : c ∉ y) (h : x ++ c :: u = y ++ c :: v) : x = y ∧ u = v := by
  induction x generalizing y with
  | nil =>
    cases y with
    | nil => exact ⟨rfl, (List.cons.inj h).2⟩
    | cons d y =>
      have := (List.cons.inj h).1
      exact (hy (by rw [this]; simp)).elim
  | cons d x ih =>
    cases y with
    | nil =>
      have := (List.cons.inj h).1
      exact (hx (by rw [← this]; simp)).elim
    | cons d' y =>
      obtain ⟨h1, h2⟩ := List.cons.inj h
      obtain ⟨h3, h4⟩ := ih (fun hc => hx (by simp [hc])) (fun hc => hy (by simp [hc])) h2
      exact ⟨by rw [h1, h3], h4⟩

/-- The dictionary has a pair of integers for the size, and a number of time steps. -/
def HasSize (p : Params) (d : Int × Int) (T : Int) : Prop := p.d = some (.tup [.int d.1, .int d.2]) ∧ p.T = some T

theorem fileName_pair {fstr : Rat → Str} {p : Params} {d : Int × Int} {T : Int} (h : HasSize p d T) :
    fileName fstr p = .ok ('d' :: '_' :: '(' :: (decStr d.1 ++ ',' :: ' ' :: (decStr d.2 ++ ')' :: '_' :: 'T' :: '_' :: (decStr T ++ '.' :: ['n', 'p', 'z'])))) := by
  unfold fileName
  rw [h.1, h.2]
  simp [sizeStr, joinComma, numStr]

theorem fileName_inj {fstr fstr' : Rat → Str} {p p' : Params} {d d' : Int × Int} {T T' : Int} (h : HasSize p d T) (h' : HasSize p' d' T')
    (e : fileName fstr p = fileName fstr' p') : d = d' ∧ T = T' := by
  rw [fileName_pair h, fileName_pair h'] at e
  have e := (List.cons.inj (List.cons.inj (List.cons.inj (Except.ok.inj e)).2).2).2
  obtain ⟨e1, e⟩ := cut_inj (not_mem_decStr (by decide) (by decide)) (not_mem_decStr (by decide) (by decide)) e
  obtain ⟨e2, e⟩ := cut_inj (not_mem_decStr (by decide) (by decide)) (not_mem_decStr (by decide) (by decide)) (List.cons.inj e).2
  obtain ⟨e3, -⟩ := cut_inj (not_mem_decStr (by decide) (by decide)) (not_mem_decStr (by decide) (by decide))
    (List.cons.inj (List.cons.inj (List.cons.inj e).2).2).2
  exact ⟨Prod.ext (decStr_inj e1) (decStr_inj e2), decStr_inj e3⟩

/-- C109: two benchmarks have the same file name exactly if their decoders have the same size and number of time steps. -/
theorem C109_names {fstr : Rat → Str} {heap heap' : Nat → Params} {r r' : Nat} {d d' : Int × Int} {T T' : Int} (h : HasSize (heap r) d T)
    (h' : HasSize (heap' r') d' T') (dec dec' : DecodeFn) (c c' : Int) (ex ex' : Option (Nat → ℝ → Py Counts)) :
    ∃ b b', newBench fstr heap r dec c ex = .ok b ∧ newBench fstr heap' r' dec' c' ex' = .ok b' ∧ (b.name = b'.name ↔ d = d' ∧ T = T') := by
  unfold newBench
  have e := fileName_pair (fstr := fstr) h
  have e' := fileName_pair (fstr := fstr) h'
  rw [e, e']
  refine ⟨_, _, rfl, rfl, ?_⟩
  constructor
  · intro hn
    refine fileName_inj (fstr := fstr) (fstr' := fstr) h h' ?_
    rw [e, e']
    exact congrArg _ hn
  · rintro ⟨rfl, rfl⟩
    rfl

theorem fileName_list {fstr : Rat → Str} {p : Params} {d : Int × Int} {T : Int} (h : p.d = some (.lst [.int d.1, .int d.2])) (hT : p.T = some T) :
    fileName fstr p = .ok ('d' :: '_' :: '[' :: (decStr d.1 ++ ',' :: ' ' :: (decStr d.2 ++ ']' :: '_' :: 'T' :: '_' :: (decStr T ++ '.' :: ['n', 'p', 'z'])))) := by
  unfold fileName
  rw [h, hT]
  simp [sizeStr, joinComma, numStr]

/-- C109, not for sizes in lists: a decoder takes a list of two odd numbers as it is, like the pair of these numbers, and the same size is saved,
but the benchmarks have different files. -/
theorem C109_list_refuted {fstr : Rat → Str} {heap heap' : Nat → Params} {r r' : Nat} {d : Int × Int} {T : Int} (h1 : d.1 % 2 = 1) (h2 : d.2 % 2 = 1)
    (h : HasSize (heap r) d T) (h' : (heap' r').d = some (.lst [.int d.1, .int d.2])) (hT : (heap' r').T = some T) (dec : DecodeFn) (c : Int)
    (ex : Option (Nat → ℝ → Py Counts)) :
    rotatedDecoderValidate (heap r) = .ok (heap r) ∧ rotatedDecoderValidate (heap' r') = .ok (heap' r') ∧
    savedSize (heap r) = savedSize (heap' r') ∧
    ∃ b b', newBench fstr heap r dec c ex = .ok b ∧ newBench fstr heap' r' dec c ex = .ok b' ∧ b.name ≠ b'.name := by
  have f1 : Int.fmod d.1 2 = 1 := by rw [Int.fmod_eq_emod_of_nonneg _ (by decide)]; exact h1
  have f2 : Int.fmod d.2 2 = 1 := by rw [Int.fmod_eq_emod_of_nonneg _ (by decide)]; exact h2
  refine ⟨?_, ?_, ?_, ?_⟩
  · simp [rotatedDecoderValidate, latticeDecoderValidate, h.1, h.2, bind, Except.bind, pyIdx, Num.notOdd, f1, f2, pure, Except.pure]
  · simp [rotatedDecoderValidate, latticeDecoderValidate, h', hT, bind, Except.bind, pyIdx, Num.notOdd, f1, f2, pure, Except.pure]
  · unfold savedSize
    rw [h.1, h.2, h', hT]
  · unfold newBench
    rw [fileName_pair (fstr := fstr) h, fileName_list (fstr := fstr) h' hT]
    refine ⟨_, _, rfl, rfl, fun e => ?_⟩
    exact absurd (List.cons.inj (List.cons.inj (List.cons.inj e).2).2).1 (by decide)

example : fileName (fun _ => []) { d := some (.lst [.int 3, .int 5]), T := some 12 } = .ok "d_[3, 5]_T_12.npz".toList := by
  rw [fileName_list (d := (3, 5)) (T := 12) rfl rfl]
  decide +kernel

example : fileName (fun _ => []) { d := some (.tup [.int 3, .int 5]), T := some 12 } = .ok "d_(3, 5)_T_12.npz".toList := by
  rw [fileName_pair (d := (3, 5)) (T := 12) ⟨rfl, rfl⟩]
  decide +kernel

/-! ### Histories -/

/-- Benchmark `i` was made from its dictionary when this had the given size, which it still has. -/
def MadeFrom (fstr : Rat → Str) (objs : Nat → BenchObj) (S : Desk) (i : Nat) (d : Int × Int) (T : Int) : Prop :=
  HasSize (S.heap (objs i).pref) d T ∧ fileName fstr (S.heap (objs i).pref) = .ok (objs i).name

/-- What there is of benchmark `i`: its data, the number of its executions, and its file. -/
def Desk.view (S : Desk) (objs : Nat → BenchObj) (i : Nat) : List ℝ × List ℚ × Nat × DataFile :=
  (S.phys i, S.logical i, S.runs i, S.files (objs i).name)

variable {argsort : ArgSort} {objs : Nat → BenchObj}

theorem call_other {S : Desk} {i j : Nat} (hij : j ≠ i) (hn : (objs j).name ≠ (objs i).name) (f : Benchmark → BenchState → BenchState) :
    (S.call (objs j) j f).view objs i = S.view objs i := by
  unfold Desk.call
  split
  · rfl
  · unfold Desk.view
    simp only
    rw [if_neg hij.symm, if_neg hij.symm, if_neg hij.symm, if_neg hn.symm]

theorem call_heap {S : Desk} {b : BenchObj} {i : Nat} (f : Benchmark → BenchState → BenchState) : (S.call b i f).heap = S.heap := by
  unfold Desk.call
  split <;> rfl

theorem call_same {S S' : Desk} {i : Nat} (hh : S.heap = S'.heap) (hv : S.view objs i = S'.view objs i) (f : Benchmark → BenchState → BenchState) :
    (S.call (objs i) i f).view objs i = (S'.call (objs i) i f).view objs i := by
  unfold Desk.view at hv
  simp only [Prod.mk.injEq] at hv
  obtain ⟨h1, h2, h3, h4⟩ := hv
  unfold Desk.call
  rw [hh]
  split
  · unfold Desk.view
    rw [h1, h2, h3, h4]
  · unfold Desk.view
    simp only [if_true]
    rw [h1, h2, h3, h4]

/-- C109, positive part: as long as no dictionary is changed, benchmarks of other sizes or numbers of time steps do not matter: the data and
the file of benchmark `i` are those it would have if only its own calls had been made. Whatever is called, and whether calls raise or not. -/
theorem C109_separate_partial {fstr : Rat → Str} {sz : Nat → (Int × Int) × Int} (S : Desk) (l : List DeskAct) (i : Nat)
    (hmade : ∀ j, MadeFrom fstr objs S j (sz j).1 (sz j).2) (hch : ∀ a ∈ l, a.of ≠ none) (hsz : ∀ a ∈ l, ∀ j, a.of = some j → j ≠ i → sz j ≠ sz i) :
    (S.acts argsort objs l).view objs i = (S.acts argsort objs (l.filter fun a => a.of == some i)).view objs i := by
  have hname : ∀ j, sz j ≠ sz i → (objs j).name ≠ (objs i).name := by
    intro j hne e
    obtain ⟨a1, a2⟩ := hmade j
    obtain ⟨b1, b2⟩ := hmade i
    obtain ⟨e1, e2⟩ := fileName_inj (fstr := fstr) (fstr' := fstr) a1 b1 (by rw [a2, b2, e])
    exact hne (Prod.ext e1 e2)
  clear hmade
  have main : ∀ (l : List DeskAct) (S S' : Desk), (∀ a ∈ l, a.of ≠ none) → (∀ a ∈ l, ∀ j, a.of = some j → j ≠ i → (objs j).name ≠ (objs i).name) →
      S.heap = S'.heap → S.view objs i = S'.view objs i →
      (S.acts argsort objs l).view objs i = (S'.acts argsort objs (l.filter fun a => a.of == some i)).view objs i := by
    intro l
    induction l with
    | nil => intro S S' _ _ _ hv; exact hv
    | cons a l ih =>
      intro S S' hc hn hh hv
      have hl := fun S S' => ih S S' (fun a h => hc a (List.mem_cons_of_mem _ h)) (fun a h => hn a (List.mem_cons_of_mem _ h))
      cases a with
      | change r p => exact absurd rfl (hc _ List.mem_cons_self)
      | sweep j rates save deg =>
        by_cases hj : j = i
        · subst hj
          rw [List.filter_cons_of_pos (by simp [DeskAct.of])]
          exact hl _ _ (by show (S.call _ _ _).heap = (S'.call _ _ _).heap; rw [call_heap, call_heap, hh]) (call_same hh hv _)
        · rw [List.filter_cons_of_neg (by simp [DeskAct.of, hj])]
          refine hl _ _ ?_ ?_
          · show (S.call _ _ _).heap = _
            rw [call_heap, hh]
          · exact (call_other hj (hn _ List.mem_cons_self j rfl hj) _).trans hv
      | single j r save =>
        by_cases hj : j = i
        · subst hj
          rw [List.filter_cons_of_pos (by simp [DeskAct.of])]
          exact hl _ _ (by show (S.call _ _ _).heap = (S'.call _ _ _).heap; rw [call_heap, call_heap, hh]) (call_same hh hv _)
        · rw [List.filter_cons_of_neg (by simp [DeskAct.of, hj])]
          refine hl _ _ ?_ ?_
          · show (S.call _ _ _).heap = _
            rw [call_heap, hh]
          · exact (call_other hj (hn _ List.mem_cons_self j rfl hj) _).trans hv
  exact main l S S hch (fun a ha j h hj => hname j (hsz a ha j h hj)) rfl rfl

/-! ### Where the points of a file come from -/

/-- A file has been left alone, or some points that the benchmark measured have been added. -/
def Grows (B : Benchmark) (f f' : DataFile) : Prop :=
  f' = f ∨ ∃ pts, FileHolds f' B.d B.T (filePoints f ++ pts) ∧ ∀ q ∈ pts, ∃ n ep, Measures B n q.1 ep q.2

theorem Grows.aligned {B : Benchmark} {f f' : DataFile} (h : Grows B f f') (hf : Aligned f) : Aligned f' := by
  rcases h with rfl | ⟨pts, h, -⟩
  · exact hf
  · exact h.aligned

theorem FileHolds.perm {f : DataFile} {d : Int × Int} {T : Int} {l l' : List (ℝ × ℚ)} (h : FileHolds f d T l) (hp : l.Perm l') : FileHolds f d T l' := by
  obtain ⟨a, b, h1, h2, h3, h4⟩ := h
  exact ⟨a, b, h1, h2, h3, h4.trans hp⟩

theorem Grows.trans {B : Benchmark} {f g k : DataFile} (h : Grows B f g) (h' : Grows B g k) : Grows B f k := by
  rcases h' with rfl | ⟨pts', h', hp'⟩
  · exact h
  · rcases h with rfl | ⟨pts, h, hp⟩
    · exact Or.inr ⟨pts', h', hp'⟩
    · refine Or.inr ⟨pts ++ pts', ?_, ?_⟩
      · rw [← List.append_assoc]
        exact h'.perm (h.points.append_right _)
      · intro q hq
        rcases List.mem_append.1 hq with hq | hq
        · exact hp q hq
        · exact hp' q hq

theorem append_grows (ha : SortsIndices argsort) {B : Benchmark} {f f' : DataFile} (hf : Aligned f) {r : ℝ} {l : ℚ} {n : Nat} {ep : Option ℝ}
    (hm : Measures B n r ep l) (h : appendData argsort B.d B.T f r l = .ok f') : Grows B f f' := by
  obtain ⟨f1, h1, h2⟩ := appendData_ok ha hf B.d B.T r l
  rw [h1] at h
  cases h
  refine Or.inr ⟨[(r, l)], h2, ?_⟩
  intro q hq
  rw [List.mem_singleton.1 hq]
  exact ⟨n, ep, hm⟩

theorem sweepStep_grows (ha : SortsIndices argsort) (B : Benchmark) (save deg : Bool) (r : ℝ) (st : BenchState) (hf : Aligned st.file) :
    Grows B st.file (B.sweepStep argsort save deg r st).2.file := by
  unfold Benchmark.sweepStep
  cases hm : B.measure st.runs r (if deg then some r else none) with
  | error e => exact Or.inl rfl
  | ok l =>
    cases save with
    | false => exact Or.inl rfl
    | true =>
      simp only [if_true]
      cases h : appendData argsort B.d B.T st.file r l with
      | error e => exact Or.inl rfl
      | ok f => exact append_grows ha hf (measure_iff.1 hm) h

theorem sweepLoop_grows (ha : SortsIndices argsort) (B : Benchmark) (save deg : Bool) (rs : List ℝ) (st : BenchState) (hf : Aligned st.file) :
    Grows B st.file (B.sweepLoop argsort save deg rs st).2.file := by
  induction rs generalizing st with
  | nil => exact Or.inl rfl
  | cons r rs ih =>
    have h := sweepStep_grows ha B save deg r st hf
    unfold Benchmark.sweepLoop
    rcases hs : B.sweepStep argsort save deg r st with ⟨res, st'⟩
    rw [hs] at h
    cases res with
    | error e => exact h
    | ok u => exact h.trans (ih st' (h.aligned hf))

theorem finalSort_file (st : BenchState) : (finalSort argsort st).2.file = st.file := by
  unfold finalSort
  split
  · rfl
  · split <;> rfl

theorem sweep_grows (ha : SortsIndices argsort) (B : Benchmark) (rates : Option (List ℝ)) (save deg : Bool) (st : BenchState) (hf : Aligned st.file) :
    Grows B st.file (B.sweep argsort rates save deg st).2.file := by
  have h := sweepLoop_grows ha B save deg (sortedDesc (requestedRates rates)) { st with phys := [], logical := [] } hf
  unfold Benchmark.sweep
  rcases hs : B.sweepLoop argsort save deg (sortedDesc (requestedRates rates)) { st with phys := [], logical := [] } with ⟨res, st'⟩
  rw [hs] at h
  cases res with
  | error e => exact h
  | ok u =>
    simp only
    rw [finalSort_file]
    exact h

theorem single_grows (ha : SortsIndices argsort) (B : Benchmark) (r : ℝ) (save : Bool) (st : BenchState) (hf : Aligned st.file) :
    Grows B st.file (B.single argsort r save st).2.file := by
  unfold Benchmark.single
  cases hm : B.measure st.runs r (some r) with
  | error e => exact Or.inl rfl
  | ok l =>
    cases save with
    | false => exact Or.inl rfl
    | true =>
      simp only [if_true]
      cases h : appendData argsort B.d B.T st.file r l with
      | error e => exact Or.inl rfl
      | ok f => exact append_grows ha hf (measure_iff.1 hm) h

/-- The benchmark of an object, for a size. -/
def BenchObj.with (b : BenchObj) (s : (Int × Int) × Int) : Benchmark := ⟨b.dec, b.correct, s.1, s.2, b.execute⟩

theorem savedSize_of {p : Params} {d : Int × Int} {T : Int} (h : HasSize p d T) : savedSize p = .ok (d, T) := by
  unfold savedSize
  rw [h.1, h.2]

theorem call_files {S : Desk} {b : BenchObj} {i : Nat} {d : Int × Int} {T : Int} (h : HasSize (S.heap b.pref) d T) (f : Benchmark → BenchState → BenchState) :
    (S.call b i f).files = fun x => if x = b.name then (f (b.with (d, T)) ⟨S.phys i, S.logical i, S.files b.name, S.runs i⟩).file else S.files x := by
  unfold Desk.call
  rw [savedSize_of h]
  rfl

/-- Every file was left alone, or has the size of the benchmarks of its name and only points that were there before or measured by such. -/
def Origin (objs : Nat → BenchObj) (sz : Nat → (Int × Int) × Int) (S S' : Desk) (x : Str) : Prop :=
  S'.files x = S.files x ∨ ∃ i pts, (objs i).name = x ∧ FileHolds (S'.files x) (sz i).1 (sz i).2 (filePoints (S.files x) ++ pts) ∧
    ∀ q ∈ pts, ∃ j n ep, (objs j).name = x ∧ sz j = sz i ∧ Measures ((objs j).with (sz j)) n q.1 ep q.2

theorem Origin.step {sz : Nat → (Int × Int) × Int} {S S' : Desk} {x : Str} (hsz : ∀ i j, (objs i).name = (objs j).name → sz i = sz j)
    (h : Origin objs sz S S' x) {i : Nat} (hi : (objs i).name = x) {f : DataFile} (hg : Grows ((objs i).with (sz i)) (S'.files x) f) :
    f = S.files x ∨ ∃ i pts, (objs i).name = x ∧ FileHolds f (sz i).1 (sz i).2 (filePoints (S.files x) ++ pts) ∧
      ∀ q ∈ pts, ∃ j n ep, (objs j).name = x ∧ sz j = sz i ∧ Measures ((objs j).with (sz j)) n q.1 ep q.2 := by
  rcases hg with rfl | ⟨pts', h', hp'⟩
  · exact h
  · rcases h with h | ⟨k, pts, hk, h, hp⟩
    · rw [h] at h'
      refine Or.inr ⟨i, pts', hi, h', fun q hq => ?_⟩
      obtain ⟨n, ep, hm⟩ := hp' q hq
      exact ⟨i, n, ep, hi, rfl, hm⟩
    · refine Or.inr ⟨i, pts ++ pts', hi, ?_, ?_⟩
      · rw [← List.append_assoc]
        exact FileHolds.perm h' (h.points.append_right _)
      · intro q hq
        rcases List.mem_append.1 hq with hq | hq
        · obtain ⟨j, n, ep, h1, h2, h3⟩ := hp q hq
          exact ⟨j, n, ep, h1, h2.trans (hsz _ _ (by rw [hk, hi])), h3⟩
        · obtain ⟨n, ep, hm⟩ := hp' q hq
          exact ⟨i, n, ep, hi, rfl, hm⟩

theorem Origin.aligned {sz : Nat → (Int × Int) × Int} {S S' : Desk} {x : Str} (h : Origin objs sz S S' x) (hf : Aligned (S.files x)) : Aligned (S'.files x) := by
  rcases h with h | ⟨i, pts, -, h, -⟩
  · rw [h]; exact hf
  · exact h.aligned

/-- C109, positive part: as long as no dictionary is changed, every file that is written has the size and number of time steps that its name
says, keeps what it held, and gets only points that benchmarks with this size and number of time steps have measured. -/
theorem C109_origin_partial (ha : SortsIndices argsort) {fstr : Rat → Str} {sz : Nat → (Int × Int) × Int} (S : Desk) (l : List DeskAct)
    (hmade : ∀ j, MadeFrom fstr objs S j (sz j).1 (sz j).2) (hch : ∀ a ∈ l, a.of ≠ none) (hf : ∀ x, Aligned (S.files x)) (x : Str) :
    (S.acts argsort objs l).files x = S.files x ∨ ∃ i pts, (objs i).name = x ∧
      FileHolds ((S.acts argsort objs l).files x) (sz i).1 (sz i).2 (filePoints (S.files x) ++ pts) ∧
      ∀ q ∈ pts, ∃ j n ep, (objs j).name = x ∧ sz j = sz i ∧ Measures ((objs j).with (sz j)) n q.1 ep q.2 := by
  have hsz : ∀ i j, (objs i).name = (objs j).name → sz i = sz j := by
    intro i j e
    obtain ⟨a1, a2⟩ := hmade i
    obtain ⟨b1, b2⟩ := hmade j
    obtain ⟨e1, e2⟩ := fileName_inj (fstr := fstr) (fstr' := fstr) a1 b1 (by rw [a2, b2, e])
    exact Prod.ext e1 e2
  have one : ∀ (S' : Desk) (i : Nat) (f : Benchmark → BenchState → BenchState), S'.heap = S.heap → (∀ x, Origin objs sz S S' x) →
      (∀ B st, Aligned st.file → Grows B st.file (f B st).file) → ∀ x, Origin objs sz S (S'.call (objs i) i f) x := by
    intro S' i f hh ho hg x
    unfold Origin
    rw [call_files (d := (sz i).1) (T := (sz i).2) (by rw [hh]; exact (hmade i).1)]
    simp only
    by_cases hx : x = (objs i).name
    · rw [if_pos hx, ← hx]
      exact (ho x).step hsz hx.symm (hg _ ⟨_, _, S'.files x, _⟩ ((ho x).aligned (hf x)))
    · rw [if_neg hx]
      exact ho x
  have main : ∀ (l : List DeskAct) (S' : Desk), (∀ a ∈ l, a.of ≠ none) → S'.heap = S.heap → (∀ x, Origin objs sz S S' x) →
      ∀ x, Origin objs sz S (S'.acts argsort objs l) x := by
    intro l
    induction l with
    | nil => intro S' _ _ ho; exact ho
    | cons a l ih =>
      intro S' hc hh ho
      have hl := ih (S'.act argsort objs a) (fun a h => hc a (List.mem_cons_of_mem _ h))
      cases a with
      | change r p => exact absurd rfl (hc _ List.mem_cons_self)
      | sweep j rates save deg =>
        exact hl ((call_heap _).trans hh) (one S' j _ hh ho fun B st h => sweep_grows ha B rates save deg st h)
      | single j r save =>
        exact hl ((call_heap _).trans hh) (one S' j _ hh ho fun B st h => single_grows ha B r save st h)
  exact main l S hch rfl (fun x => Or.inl rfl) x

theorem single_saves (ha : SortsIndices argsort) {S : Desk} {i : Nat} {d : Int × Int} {T : Int} (h : HasSize (S.heap (objs i).pref) d T)
    (hf : Aligned (S.files (objs i).name)) {r : ℝ} {l : ℚ} (hm : Measures ((objs i).with (d, T)) (S.runs i) r (some r) l) :
    FileHolds ((S.act argsort objs (.single i r true)).files (objs i).name) d T (filePoints (S.files (objs i).name) ++ [(r, l)]) := by
  show FileHolds ((S.call _ _ _).files _) _ _ _
  rw [call_files h]
  simp only [if_true]
  obtain ⟨f', h1, h2⟩ := appendData_ok ha hf d T r l
  unfold Benchmark.single
  simp only [measure_iff.2 hm, if_true]
  rw [show ((objs i).with (d, T)).d = d from rfl, show ((objs i).with (d, T)).T = T from rfl, h1]
  exact h2

/-- C109 fails: neither the code nor the noise is in the name. What two benchmarks of the same size measure goes into one file, where nothing
tells which point is whose. -/
theorem C109_mixed_refuted (ha : SortsIndices argsort) {fstr : Rat → Str} {S : Desk} {i j : Nat} (hij : i ≠ j) {d : Int × Int} {T : Int}
    (hi : MadeFrom fstr objs S i d T) (hj : MadeFrom fstr objs S j d T) (hf : S.files (objs i).name = .absent) {r r' : ℝ} {l l' : ℚ}
    (hm : Measures ((objs i).with (d, T)) (S.runs i) r (some r) l) (hm' : Measures ((objs j).with (d, T)) (S.runs j) r' (some r') l') :
    FileHolds ((S.acts argsort objs [.single i r true, .single j r' true]).files (objs i).name) d T [(r, l), (r', l')] := by
  have hn : (objs i).name = (objs j).name := by
    have h1 := hi.2
    have h2 := hj.2
    rw [fileName_pair hi.1] at h1
    rw [fileName_pair hj.1] at h2
    exact Except.ok.inj (h1.symm.trans h2)
  have h1 := single_saves (argsort := argsort) ha hi.1 (by rw [hf]; rfl) hm
  rw [hf] at h1
  have hr : (S.act argsort objs (.single i r true)).runs j = S.runs j := by
    show (S.call _ _ _).runs j = _
    unfold Desk.call
    rw [savedSize_of hi.1]
    simp only
    rw [if_neg hij.symm]
  have hh : (S.act argsort objs (.single i r true)).heap = S.heap := call_heap _
  have h2 := single_saves (argsort := argsort) (S := S.act argsort objs (.single i r true)) (i := j) ha (by rw [hh]; exact hj.1)
    (by rw [← hn]; exact h1.aligned) (by rw [hr]; exact hm')
  rw [← hn] at h2
  exact FileHolds.perm h2 (h1.points.append_right _)

/-- C109 fails: the name is that of the dictionary when the benchmark was made, but the size and the number of time steps that are saved are
read when a point is saved. After a change of the dictionary (for the next benchmark, say) the file of one size holds another. -/
theorem C109_stale_refuted (ha : SortsIndices argsort) {fstr : Rat → Str} {S : Desk} {i : Nat} {d d' : Int × Int} {T T' : Int}
    (hi : MadeFrom fstr objs S i d T) (hne : T ≠ T') (hf : S.files (objs i).name = .absent) {p : Params} (hp : HasSize p d' T') {r : ℝ} {l : ℚ}
    (hm : Measures ((objs i).with (d', T')) (S.runs i) r (some r) l) :
    FileHolds ((S.acts argsort objs [.change (objs i).pref p, .single i r true]).files (objs i).name) d' T' [(r, l)] ∧
    fileName fstr p ≠ .ok (objs i).name := by
  constructor
  · have h := single_saves (argsort := argsort) (S := S.act argsort objs (.change (objs i).pref p)) (i := i) (d := d') (T := T') ha
      (by show HasSize (if _ then _ else _) _ _; rw [if_pos rfl]; exact hp) (by show Aligned (S.files _); rw [hf]; rfl) hm
    rw [show (S.act argsort objs (.change (objs i).pref p)).files (objs i).name = S.files (objs i).name from rfl, hf] at h
    exact h
  · intro e
    exact hne (fileName_inj (fstr := fstr) (fstr' := fstr) hi.1 hp (hi.2.trans e.symm)).2

/-- Two benchmarks of one decoder, the second of which expects the other value: both measure. -/
example : ∃ (objs : Nat → BenchObj) (S : Desk), (∀ j, MadeFrom (fun _ => []) objs S j (3, 3) 2) ∧ (∀ x, S.files x = .absent) ∧
    Measures ((objs 0).with ((3, 3), 2)) (S.runs 0) 0.1 (some 0.1) 0 ∧ Measures ((objs 1).with ((3, 3), 2)) (S.runs 1) 0.1 (some 0.1) 1 := by
  refine ⟨fun j => ⟨"d_(3, 3)_T_2.npz".toList, 0, fun _ _ => .ok (some 0), j, some fun _ _ => .ok [([], 7)]⟩,
    ⟨fun _ => { d := some (.tup [.int 3, .int 3]), T := some 2 }, fun _ => .absent, fun _ => [], fun _ => [], fun _ => 0⟩, ?_, fun _ => rfl, ?_, ?_⟩
  · intro j
    refine ⟨⟨rfl, rfl⟩, ?_⟩
    rw [fileName_pair (d := (3, 3)) (T := 2) ⟨rfl, rfl⟩]
    exact congrArg Except.ok (by decide +kernel : _ = "d_(3, 3)_T_2.npz".toList)
  · refine ⟨_, _, rfl, rfl, ?_⟩
    simp [logicalErrorRate, errStep, BenchObj.with, bind, Except.bind, pure, Except.pure]
  · refine ⟨_, _, rfl, rfl, ?_⟩
    simp [logicalErrorRate, errStep, BenchObj.with, bind, Except.bind, pure, Except.pure]

/-! ### C110: plots -/

/-- What a plot has to show of a file: size, number of time steps, and points. -/
def shown : DataFile → ((Int × Int) × Int) × List (ℝ × ℚ)
  | .saved d T phys logical => ((d, T), phys.zip logical)
  | _ => (((0, 0), 0), [])

theorem curve_whole (a : Analysis) : a.curve false = a.phys.zip a.logical := by
  unfold Analysis.curve
  simp

theorem batchPlot_cons (a : Analysis) (l : List Analysis) : batchPlot (a :: l) =
    .ok ([true, false].map fun log => ⟨(a :: l).map fun a => ((a.d, a.T), a.phys.zip a.logical), a.phys.map fun x => (x, x), log⟩) := by
  unfold batchPlot
  simp only [curve_whole]
  rfl

/-- C110: a directory with data gives two figures, the first with logarithmic axes. Both show exactly one curve per file, with the points of
the file and labelled with its size and number of time steps, ordered by height; on the line of break-even both rates are equal. -/
theorem C110_plot (ha : SortsIndices argsort) (files : List DataFile) (hne : files ≠ [])
    (hf : ∀ f ∈ files, ∃ d T ph lo, f = .saved d T ph lo ∧ ph.length = lo.length) :
    ∃ l F G, batch argsort files = .ok l ∧ batchPlot l = .ok [F, G] ∧ F.log = true ∧ G.log = false ∧ ∀ H ∈ [F, G],
      H.curves.Perm (files.map shown) ∧ (H.curves.Pairwise fun c c' => c.1.1.1 ≤ c'.1.1.1) ∧
      (∀ q ∈ H.breakeven, q.1 = q.2) ∧ ∀ c ∈ H.curves.head?, H.breakeven.map Prod.fst = c.2.map Prod.fst := by
  obtain ⟨loaded, l, h1, h2, h3, h4, h5⟩ := C48_batch argsort ha files fun f h => by
    obtain ⟨d, T, ph, lo, e, -⟩ := hf f h
    exact ⟨d, T, ph, lo, e⟩
  have hl : l ≠ [] := by
    rintro rfl
    have := h4.length_eq
    rw [h1] at this
    exact hne (List.length_eq_zero_iff.1 this.symm)
  obtain ⟨a, l, rfl⟩ : ∃ a l', l = a :: l' := by
    cases l with
    | nil => exact absurd rfl hl
    | cons a l => exact ⟨a, l, rfl⟩
  have hmap : loaded.map (fun a => ((a.d, a.T), a.phys.zip a.logical)) = files.map shown := by
    apply List.ext_getElem?
    intro i
    rw [List.getElem?_map, List.getElem?_map]
    cases hi : files[i]? with
    | none =>
      rw [List.getElem?_eq_none_iff] at hi
      rw [List.getElem?_eq_none (by omega)]
      rfl
    | some f =>
      obtain ⟨b, hb, hlb⟩ := h2 i f hi
      obtain ⟨d, T, ph, lo, rfl, -⟩ := hf f (List.mem_of_getElem? hi)
      rw [hb]
      cases hlb
      rfl
  have main : ∀ log : Bool, ∀ H : Figure, H = ⟨(a :: l).map fun a => ((a.d, a.T), a.phys.zip a.logical), a.phys.map fun x => (x, x), log⟩ →
      H.curves.Perm (files.map shown) ∧ (H.curves.Pairwise fun c c' => c.1.1.1 ≤ c'.1.1.1) ∧
      (∀ q ∈ H.breakeven, q.1 = q.2) ∧ ∀ c ∈ H.curves.head?, H.breakeven.map Prod.fst = c.2.map Prod.fst := by
    rintro log H rfl
    refine ⟨?_, ?_, ?_, ?_⟩
    · rw [← hmap]
      exact List.Perm.map (fun a : Analysis => ((a.d, a.T), a.phys.zip a.logical)) h4
    · exact List.pairwise_map.2 h5
    · intro q hq
      obtain ⟨x, -, rfl⟩ := List.mem_map.1 hq
      rfl
    · intro c hc
      cases hc
      have hal : a.phys.length = a.logical.length := by
        obtain ⟨i, hi⟩ := List.mem_iff_getElem?.1 (h4.mem_iff.1 List.mem_cons_self)
        have hlt : i < files.length := by rw [← h1]; exact (List.getElem?_eq_some_iff.1 hi).1
        obtain ⟨b, hb, hlb⟩ := h2 i _ (List.getElem?_eq_getElem hlt)
        obtain ⟨d, T, ph, lo, e, he⟩ := hf _ (List.getElem_mem hlt)
        rw [e] at hlb
        rw [hi] at hb
        cases hb
        cases hlb
        exact he
      rw [List.map_fst_zip hal.le]
      exact (List.map_map).trans (List.map_id _)
  refine ⟨a :: l, _, _, h3, batchPlot_cons a l, rfl, rfl, ?_⟩
  intro H hH
  rcases List.mem_cons.1 hH with h | h
  · exact main true H h
  · exact main false H (List.mem_singleton.1 h)

/-- C110 fails for a directory without data: no empty figure, but `IndexError`. -/
theorem C110_empty_refuted (ha : SortsIndices argsort) : batch argsort [] = .ok [] ∧ batchPlot [] = .error .indexError := by
  obtain ⟨loaded, l, h1, h2, h3, h4, h5⟩ := C48_batch argsort ha [] (by simp)
  have : loaded = [] := List.length_eq_zero_iff.1 h1
  subst this
  have : l = [] := List.perm_nil.1 h4
  subst this
  exact ⟨h3, rfl⟩

/-- C110: in a directory that was empty, if no dictionary was changed, the labels tell the curves apart, and every label is that of
benchmarks whose points the curve shows. -/
theorem C110_labels (ha : SortsIndices argsort) {fstr : Rat → Str} {sz : Nat → (Int × Int) × Int} (S : Desk) (l : List DeskAct)
    (hmade : ∀ j, MadeFrom fstr objs S j (sz j).1 (sz j).2) (hch : ∀ a ∈ l, a.of ≠ none) (hf : ∀ x, S.files x = .absent)
    (names : List Str) (hn : names.Nodup) (hp : ∀ x ∈ names, (S.acts argsort objs l).files x ≠ .absent) :
    ((names.map (S.acts argsort objs l).files).map fun f => (shown f).1).Nodup ∧
    ∀ x ∈ names, ∃ i, (objs i).name = x ∧ (shown ((S.acts argsort objs l).files x)).1 = sz i ∧
      ∀ q ∈ (shown ((S.acts argsort objs l).files x)).2, ∃ j n ep, sz j = sz i ∧ Measures ((objs j).with (sz j)) n q.1 ep q.2 := by
  have key : ∀ x ∈ names, ∃ i, (objs i).name = x ∧ (shown ((S.acts argsort objs l).files x)).1 = sz i ∧
      ∀ q ∈ (shown ((S.acts argsort objs l).files x)).2, ∃ j n ep, sz j = sz i ∧ Measures ((objs j).with (sz j)) n q.1 ep q.2 := by
    intro x hx
    rcases C109_origin_partial ha S l hmade hch (fun x => by rw [hf]; rfl) x with h | ⟨i, pts, h1, ⟨ph, lo, h2, h3, h4, h5⟩, h6⟩
    · exact absurd (h.trans (hf x)) (hp x hx)
    · refine ⟨i, h1, by rw [h2]; rfl, ?_⟩
      rw [h2]
      intro q hq
      have := h5.mem_iff.1 hq
      rw [hf] at this
      obtain ⟨j, n, ep, -, hj, hm⟩ := h6 q this
      exact ⟨j, n, ep, hj, hm⟩
  refine ⟨?_, key⟩
  rw [List.map_map]
  refine List.Nodup.map_on ?_ hn
  intro x hx y hy e
  obtain ⟨i, hi, hi', -⟩ := key x hx
  obtain ⟨j, hj, hj', -⟩ := key y hy
  have : sz i = sz j := by rw [← hi', ← hj']; exact e
  have e1 := (hmade i).2
  have e2 := (hmade j).2
  rw [fileName_pair (hmade i).1] at e1
  rw [fileName_pair (hmade j).1] at e2
  rw [← hi, ← hj]
  rw [this] at e1
  exact Except.ok.inj (e1.symm.trans e2)

example : ∃ argsort l F G, SortsIndices argsort ∧ batch argsort [.saved (5, 5) 2 [0.1] [0], .saved (3, 3) 2 [0.1, 0.2] [1/4, 1/2]] = .ok l ∧
    batchPlot l = .ok [F, G] ∧ F.curves.Perm [(((5, 5), 2), [(0.1, 0)]), (((3, 3), 2), [(0.1, 1/4), (0.2, 1/2)])] := by
  obtain ⟨argsort, ha⟩ := argsort_exists
  obtain ⟨l, F, G, h1, h2, -, -, h3⟩ := C110_plot ha [.saved (5, 5) 2 [0.1] [0], .saved (3, 3) 2 [0.1, 0.2] [1/4, 1/2]] (by simp) (by
    intro f hf
    simp only [List.mem_cons, List.not_mem_nil, or_false] at hf
    rcases hf with rfl | rfl <;> exact ⟨_, _, _, _, rfl, rfl⟩)
  exact ⟨argsort, l, F, G, ha, h1, h2, (h3 F List.mem_cons_self).1⟩

end Qtc
