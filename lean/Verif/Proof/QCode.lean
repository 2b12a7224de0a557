import Verif.Proof.QRun
import Verif.Proof.Partial
/-!
The operators of the code and the circuits of its checks.
-/
namespace Qtc
open Spec Function

/-! ### Strings in the frame of the code

Up to a Hadamard on every second qubit the two codes are the same: `kind` is the letter that plays the role of X or Z. -/

/-- The letter of an X or Z type operator at a qubit. -/
def kind : Code → Key → Int → Letter
  | .xxzz, .X, _ => .X
  | .xxzz, .Z, _ => .Z
  | .xzzx, .X, i => if i % 2 = 0 then .Z else .X
  | .xzzx, .Z, i => if i % 2 = 0 then .X else .Z

/-- The Pauli operator of a type at data qubit `i`. -/
def fop (code : Code) (key : Key) (name : Str) (i : Int) : Op := (kind code key i).op (dataQ name i)

/-- Product of such operators. -/
def fstr (code : Code) (key : Key) (name : Str) (l : List Int) : Op := (l.map (fop code key name)).prod

theorem dataQ_inj {name : Str} {i j : Int} (hi : 0 ≤ i) (hj : 0 ≤ j) (h : dataQ name i = dataQ name j) : i = j := by
  unfold dataQ at h
  simp only [Qubit.mk.injEq, true_and] at h
  omega

theorem letter_sq (a : Letter) (q : Qubit) : a.op q * a.op q = 1 := by
  cases a
  · exact opX_sq q
  · exact opZ_sq q

theorem letter_comm {p q : Qubit} (h : p ≠ q) (a b : Letter) : Commute (a.op p) (b.op q) := by
  cases a <;> cases b
  · exact opX_comm p q
  · exact opX_opZ_comm h
  · exact (opX_opZ_comm (Ne.symm h)).symm
  · exact opZ_comm p q

theorem letter_comm_self (p q : Qubit) (a : Letter) : Commute (a.op p) (a.op q) := by
  cases a
  · exact opX_comm p q
  · exact opZ_comm p q

theorem letter_anti {a b : Letter} (h : a ≠ b) (q : Qubit) : Passes true (a.op q) (b.op q) := by
  cases a <;> cases b
  · exact absurd rfl h
  · exact passes_XZ q
  · exact (passes_XZ q).symm
  · exact absurd rfl h

theorem kind_ne (code : Code) (i : Int) : kind code .X i ≠ kind code .Z i := by
  cases code
  · simp [kind]
  · simp only [kind]; split <;> simp

variable {code : Code} {name : Str}

theorem fop_sq (code : Code) (key : Key) (name : Str) (i : Int) : fop code key name i * fop code key name i = 1 := letter_sq _ _

theorem fop_comm (key : Key) {i j : Int} (hi : 0 ≤ i) (hj : 0 ≤ j) : Commute (fop code key name i) (fop code key name j) := by
  by_cases h : i = j
  · subst h; exact Commute.refl _
  · exact letter_comm (fun e => h (dataQ_inj hi hj e)) _ _

theorem fop_passes {i j : Int} (hi : 0 ≤ i) (hj : 0 ≤ j) : Passes (decide (i = j)) (fop code .X name i) (fop code .Z name j) := by
  by_cases h : i = j
  · subst h
    rw [decide_eq_true rfl]
    exact letter_anti (kind_ne code i) _
  · rw [decide_eq_false h, passes_false]
    exact letter_comm (fun e => h (dataQ_inj hi hj e)) _ _

theorem fop_comm_letter (key : Key) (i : Int) {q : Qubit} (h : ∀ i, dataQ name i ≠ q) (a : Letter) : Commute (fop code key name i) (a.op q) :=
  letter_comm (h i) _ _

theorem fstr_cons (key : Key) (i : Int) (l : List Int) : fstr code key name (i :: l) = fop code key name i * fstr code key name l := by
  simp [fstr]

theorem fstr_append (key : Key) (l l' : List Int) : fstr code key name (l ++ l') = fstr code key name l * fstr code key name l' := by
  simp [fstr]

theorem fstr_comm {A : Op} {key : Key} {l : List Int} (h : ∀ i ∈ l, Commute A (fop code key name i)) : Commute A (fstr code key name l) := by
  refine Commute.list_prod_right _ _ fun B hB => ?_
  obtain ⟨i, hi, rfl⟩ := List.mem_map.1 hB
  exact h i hi

theorem fstr_comm_letter (key : Key) (l : List Int) {q : Qubit} (h : ∀ i, dataQ name i ≠ q) (a : Letter) :
    Commute (fstr code key name l) (a.op q) :=
  (fstr_comm fun i _ => (fop_comm_letter key i h a).symm).symm

theorem fstr_comm_X (key : Key) (l : List Int) {q : Qubit} (h : ∀ i, dataQ name i ≠ q) : Commute (fstr code key name l) (opX q) :=
  fstr_comm_letter key l h .X

theorem fstr_comm_Z (key : Key) (l : List Int) {q : Qubit} (h : ∀ i, dataQ name i ≠ q) : Commute (fstr code key name l) (opZ q) :=
  fstr_comm_letter key l h .Z

theorem fstr_comm_same (key : Key) {l m : List Int} (hl : ∀ i ∈ l, 0 ≤ i) (hm : ∀ i ∈ m, 0 ≤ i) :
    Commute (fstr code key name l) (fstr code key name m) :=
  fstr_comm fun j hj => (fstr_comm fun i hi => (fop_comm key (hl i hi) (hm j hj)).symm).symm

theorem fstr_sq (key : Key) {l : List Int} (hl : ∀ i ∈ l, 0 ≤ i) : fstr code key name l * fstr code key name l = 1 := by
  induction l with
  | nil => exact one_mul _
  | cons i l ih =>
    have hc : Commute (fop code key name i) (fstr code key name l) :=
      fstr_comm fun j hj => fop_comm key (hl i (by simp)) (hl j (by simp [hj]))
    rw [fstr_cons, mul_assoc, ← mul_assoc (fstr code key name l), ← hc.eq, mul_assoc, ih fun j hj => hl j (by simp [hj]), mul_one, fop_sq]

theorem fstr_perm (key : Key) {l l' : List Int} (hl : ∀ i ∈ l, 0 ≤ i) (h : l.Perm l') : fstr code key name l = fstr code key name l' := by
  refine (h.map _).prod_eq' (List.pairwise_map.2 ?_)
  refine List.pairwise_iff_forall_sublist.2 fun {a b} hab => fop_comm key (hl a ?_) (hl b ?_)
  · exact hab.subset (by simp)
  · exact hab.subset (by simp)

theorem fop_fstr_passes {i : Int} (hi : 0 ≤ i) {m : List Int} (hm : ∀ j ∈ m, 0 ≤ j) (hn : m.Nodup) :
    Passes (decide (i ∈ m)) (fop code .X name i) (fstr code .Z name m) := by
  induction m with
  | nil => exact Passes.one_right _
  | cons j m ih =>
    rw [List.nodup_cons] at hn
    rw [fstr_cons]
    have := (fop_passes (code := code) (name := name) hi (hm j (by simp))).mul_right (ih (fun j hj => hm j (by simp [hj])) hn.2)
    have e : (decide (i = j) ^^ decide (i ∈ m)) = decide (i ∈ j :: m) := by
      by_cases h1 : i = j
      · subst h1; simp [hn.1]
      · simp [h1]
    rw [e] at this
    exact this

theorem fstr_fop_passes {i : Int} (hi : 0 ≤ i) {m : List Int} (hm : ∀ j ∈ m, 0 ≤ j) (hn : m.Nodup) :
    Passes (decide (i ∈ m)) (fstr code .X name m) (fop code .Z name i) := by
  induction m with
  | nil => exact (Passes.one_right _).symm
  | cons j m ih =>
    rw [List.nodup_cons] at hn
    rw [fstr_cons]
    have := (fop_passes (code := code) (name := name) (hm j (by simp)) hi).mul_left (ih (fun j hj => hm j (by simp [hj])) hn.2)
    have e : (decide (j = i) ^^ decide (i ∈ m)) = decide (i ∈ j :: m) := by
      by_cases h1 : i = j
      · subst h1; simp [hn.1]
      · simp [h1, Ne.symm h1]
    rw [e] at this
    exact this

theorem fstr_passes {l m : List Int} (hl : ∀ i ∈ l, 0 ≤ i) (hm : ∀ j ∈ m, 0 ≤ j) (hn : m.Nodup) :
    Passes (xorAll (l.map fun i => decide (i ∈ m))) (fstr code .X name l) (fstr code .Z name m) := by
  induction l with
  | nil => exact (Passes.one_right _).symm
  | cons i l ih =>
    rw [fstr_cons]
    exact (fop_fstr_passes (hl i (by simp)) hm hn).mul_left (ih fun j hj => hl j (by simp [hj]))

/-! ### The observables -/

theorem logX_eq (code : Code) (name : Str) (dh dw : Int) : logX code name dh dw = fstr code .X name (colQubits dh dw 0) := by
  unfold logX fstr pstr
  rw [List.map_map]
  congr 1
  refine List.map_congr_left fun i _ => ?_
  unfold fop
  cases code
  · rfl
  · simp only [Function.comp, kind, true_and]

theorem logZ_eq (code : Code) (name : Str) (dw : Int) : logZ code name dw = fstr code .Z name (rowQubits dw 0) := by
  unfold logZ fstr pstr
  rw [List.map_map]
  congr 1
  refine List.map_congr_left fun i _ => ?_
  unfold fop
  cases code
  · rfl
  · simp only [Function.comp, kind, true_and]

theorem dataAt_parity {dh dw r c i : Int} (hw : dw % 2 = 1) (h : dataAt dh dw r c = some i) : i % 2 = (r + c) % 2 := by
  unfold dataAt at h
  split at h
  · cases h
    obtain ⟨k, rfl⟩ : ∃ k, dw = 2 * k + 1 := ⟨dw / 2, by omega⟩
    have : r * (2 * k + 1) + c = 2 * (r * k) + (r + c) := by ring
    rw [this]
    omega
  · cases h

/-- Positions of plaquettes of a type. -/
def SiteOf (dh dw : Int) : Key → Int × Int → Prop
  | .X, p => XSite dh dw p.1 p.2
  | .Z, p => ZSite dh dw p.1 p.2

/-- The data qubits around a position. -/
def around (dh dw : Int) (p : Int × Int) : List Int := (cornersOf dh dw p.1 p.2).filterMap id

theorem around_nonneg {dh dw : Int} {p : Int × Int} : ∀ i ∈ around dh dw p, 0 ≤ i := by
  intro i hi
  unfold around at hi
  rw [List.mem_filterMap] at hi
  obtain ⟨a, ha, e⟩ := hi
  simp only [id] at e
  subst e
  obtain ⟨r, c, h, rfl⟩ := mem_cornersOf_inRange ha
  exact (mem_allQubits.1 (site_mem h)).1

theorem mem_around {dh dw : Int} {p : Int × Int} {i : Int} : i ∈ around dh dw p ↔ some i ∈ cornersOf dh dw p.1 p.2 := by
  unfold around
  rw [List.mem_filterMap]
  simp

theorem around_nodup {dh dw : Int} (H : OddPos dh dw) {key : Key} {p : Int × Int} (hp : SiteOf dh dw key p) : (around dh dw p).Nodup := by
  cases key
  · exact (corners_good dh dw p.1 p.2 H (Or.inl hp)).2.1
  · exact (corners_good dh dw p.1 p.2 H (Or.inr hp)).2.1

/-- The letters of an XZZX plaquette at its corners. -/
theorem corner_kinds {dh dw : Int} (H : OddPos dh dw) {key : Key} {p : Int × Int} (hp : SiteOf dh dw key p) :
    (∀ i, dataAt dh dw ((p.1 - 1) / 2) ((p.2 - 1) / 2) = some i → kind .xzzx key i = .X) ∧
    (∀ i, dataAt dh dw ((p.1 - 1) / 2) ((p.2 + 1) / 2) = some i → kind .xzzx key i = .Z) ∧
    (∀ i, dataAt dh dw ((p.1 + 1) / 2) ((p.2 - 1) / 2) = some i → kind .xzzx key i = .Z) ∧
    (∀ i, dataAt dh dw ((p.1 + 1) / 2) ((p.2 + 1) / 2) = some i → kind .xzzx key i = .X) := by
  have hw : dw % 2 = 1 := H.2.2.2
  refine ⟨?_, ?_, ?_, ?_⟩ <;> intro i hi <;> have := dataAt_parity hw hi <;> cases key <;>
    simp only [SiteOf, XSite, ZSite] at hp <;> simp only [kind]
  · rw [if_neg (by omega)]
  · rw [if_pos (by omega)]
  · rw [if_pos (by omega)]
  · rw [if_neg (by omega)]
  · rw [if_pos (by omega)]
  · rw [if_neg (by omega)]
  · rw [if_neg (by omega)]
  · rw [if_pos (by omega)]

theorem checkOp_eq {dh dw : Int} (H : OddPos dh dw) (code : Code) (name : Str) {key : Key} {p : Int × Int} (hp : SiteOf dh dw key p) :
    checkOp code name dh dw key p = fstr code key name (around dh dw p) := by
  have hk := corner_kinds H hp
  unfold checkOp around cornersOf pstr fstr
  generalize dataAt dh dw ((p.1 - 1) / 2) ((p.2 - 1) / 2) = a at *
  generalize dataAt dh dw ((p.1 - 1) / 2) ((p.2 + 1) / 2) = b at *
  generalize dataAt dh dw ((p.1 + 1) / 2) ((p.2 - 1) / 2) = c at *
  generalize dataAt dh dw ((p.1 + 1) / 2) ((p.2 + 1) / 2) = d at *
  obtain ⟨h1, h2, h3, h4⟩ := hk
  cases code
  · cases key <;> rcases a with _ | a <;> rcases b with _ | b <;> rcases c with _ | c <;> rcases d with _ | d <;> rfl
  · rcases a with _ | a <;> rcases b with _ | b <;> rcases c with _ | c <;> rcases d with _ | d <;>
      simp_all [checkLetters, fop]

/-! ### Circuits that copy an observable -/

/-- The gates copy the observable `A` to the qubit `s`. -/
def Copies (s : Qubit) (l : List Instr) (A : Op) : Prop := (∀ i ∈ l, i.IsGate) ∧ circOp l = copy s A ∧ Commute A (opX s)

theorem Copies.nil (s : Qubit) : Copies s [] 1 := ⟨by simp, (copy_one s).symm, Commute.one_left _⟩

theorem Copies.append {s : Qubit} {l l' : List Instr} {A B : Op} (h : Copies s l A) (h' : Copies s l' B) : Copies s (l ++ l') (B * A) := by
  refine ⟨?_, ?_, h'.2.2.mul_left h.2.2⟩
  · intro i hi
    rcases List.mem_append.1 hi with hi | hi
    · exact h.1 i hi
    · exact h'.1 i hi
  · rw [circOp_append, h.2.1, h'.2.1, copy_mul h.2.2]

theorem Copies.barrier {s : Qubit} {l : List Instr} {A : Op} (h : Copies s l A) : Copies s (l ++ [.barrier]) A := by
  refine ⟨?_, ?_, h.2.2⟩
  · intro i hi
    rcases List.mem_append.1 hi with hi | hi
    · exact h.1 i hi
    · rw [List.mem_singleton] at hi; subst hi; trivial
  · rw [circOp_append, h.2.1]; exact one_mul _

theorem copies_cxTo {s : Qubit} (l : List Qubit) (hl : ∀ q ∈ l, q ≠ s) : Copies s (cxTo s l) ((l.reverse.map opZ).prod) := by
  induction l with
  | nil => exact Copies.nil s
  | cons q l ih =>
    have h1 : Copies s [.gate2 .cx q s] (opZ q) := by
      refine ⟨by intro i hi; rw [List.mem_singleton] at hi; subst hi; trivial, ?_, (opX_opZ_comm (Ne.symm (hl q (by simp)))).symm⟩
      rw [← opCX_copy]
      show circOp [] * opCX q s = opCX q s
      rw [circOp_nil, one_mul]
    have := h1.append (ih fun q hq => hl q (by simp [hq]))
    rw [List.reverse_cons, List.map_append, List.prod_append]
    simp only [List.map_cons, List.map_nil, List.prod_singleton]
    exact this

theorem circOp_cxFrom {s : Qubit} (l : List Qubit) (hl : ∀ q ∈ l, s ≠ q) :
    opH s * circOp (cxFrom s l) * opH s = copy s ((l.reverse.map opX).prod) := by
  induction l with
  | nil => 
    rw [show circOp (cxFrom s []) = 1 from rfl, mul_one, opH_sq]; exact (copy_one s).symm
  | cons q l ih =>
    rw [List.reverse_cons, List.map_append, List.prod_append, ← copy_mul]
    · rw [← ih fun q hq => hl q (by simp [hq])]
      simp only [List.map_cons, List.map_nil, List.prod_singleton]
      rw [← opH_conj_copy (hl q (by simp))]
      rw [show cxFrom s (q :: l) = .gate2 .cx s q :: cxFrom s l from rfl, circOp_cons,
        show gateOp (.gate2 .cx s q) = opCX s q from rfl]
      simp only [mul_assoc, opH_mul_opH]
    · simpa using opX_comm q s

theorem copies_cxFrom {s : Qubit} (l : List Qubit) (hl : ∀ q ∈ l, s ≠ q) :
    Copies s ([.gate1 .h s none] ++ cxFrom s l ++ [.gate1 .h s none]) ((l.reverse.map opX).prod) := by
  refine ⟨?_, ?_, ?_⟩
  · intro i hi
    rw [List.mem_append, List.mem_append] at hi
    rcases hi with (hi | hi) | hi
    · rw [List.mem_singleton] at hi; subst hi; trivial
    · obtain ⟨q, -, rfl⟩ := List.mem_map.1 hi; trivial
    · rw [List.mem_singleton] at hi; subst hi; trivial
  · rw [circOp_append, circOp_append, ← circOp_cxFrom l hl, ← mul_assoc]
    simp [gateOp, gate1Op]
  · refine Commute.list_prod_left _ _ fun B hB => ?_
    obtain ⟨q, -, rfl⟩ := List.mem_map.1 hB
    exact opX_comm q s

theorem copies_cornerX {name : Str} {s : Qubit} (h : ∀ i, dataQ name i ≠ s) (c : Option Int) :
    Copies s (cornerX name s c) ((c.toList.map fun i => opX (dataQ name i)).prod) := by
  rcases c with _ | i
  · exact Copies.nil s
  · have := copies_cxFrom (s := s) [dataQ name i] (by intro q hq; rw [List.mem_singleton] at hq; subst hq; exact Ne.symm (h i))
    simp only [List.reverse_singleton, List.map_cons, List.map_nil, List.prod_singleton] at this
    simp only [Option.toList, List.map_cons, List.map_nil, List.prod_singleton]
    exact this

theorem copies_cornerZ {name : Str} {s : Qubit} (h : ∀ i, dataQ name i ≠ s) (c : Option Int) :
    Copies s (cornerZ name s c) ((c.toList.map fun i => opZ (dataQ name i)).prod) := by
  rcases c with _ | i
  · exact Copies.nil s
  · have := copies_cxTo (s := s) [dataQ name i] (by intro q hq; rw [List.mem_singleton] at hq; subst hq; exact h i)
    simp only [List.reverse_singleton, List.map_cons, List.map_nil, List.prod_singleton] at this
    simp only [Option.toList, List.map_cons, List.map_nil, List.prod_singleton]
    exact this

/-- The gates of an X or Z plaquette. -/
def keyGates (code : Code) : Key → Str → Qubit → List (Option Int) → List Instr
  | .X => xGates code
  | .Z => zGates code

/-- The entangling circuit of a plaquette copies its observable to the syndrome qubit. -/
theorem copies_check {dh dw : Int} (H : OddPos dh dw) {key : Key} {p : Int × Int} (hp : SiteOf dh dw key p) {s : Qubit}
    (hs : ∀ i, dataQ name i ≠ s) :
    Copies s (keyGates code key name s (cornersOf dh dw p.1 p.2)) (checkOp code name dh dw key p) := by
  rw [checkOp_eq H code name hp]
  have hk := corner_kinds H hp
  have hnn := around_nonneg (dh := dh) (dw := dw) (p := p)
  unfold around cornersOf at *
  generalize dataAt dh dw ((p.1 - 1) / 2) ((p.2 - 1) / 2) = a at *
  generalize dataAt dh dw ((p.1 - 1) / 2) ((p.2 + 1) / 2) = b at *
  generalize dataAt dh dw ((p.1 + 1) / 2) ((p.2 - 1) / 2) = c at *
  generalize dataAt dh dw ((p.1 + 1) / 2) ((p.2 + 1) / 2) = d at *
  obtain ⟨h1, h2, h3, h4⟩ := hk
  have hop : ∀ (e : Letter) (l : List Int), (∀ i ∈ l, kind code key i = e) →
      ((l.map (dataQ name)).map fun q => e.op q).prod = fstr code key name l := by
    intro e l hl
    unfold fstr fop
    rw [List.map_map]
    congr 1
    exact List.map_congr_left fun i hi => by simp only [Function.comp]; rw [hl i hi]
  cases code
  · cases key
    · have := copies_cxFrom (s := s) (([b, a, d, c].filterMap id).map (dataQ name)) (by
        intro q hq
        obtain ⟨i, -, rfl⟩ := List.mem_map.1 hq
        exact Ne.symm (hs i))
      rw [← List.map_reverse] at this
      have e := hop .X ([b, a, d, c].filterMap id).reverse (fun _ _ => rfl)
      have hperm : ([b, a, d, c].filterMap id).reverse.Perm ([a, b, c, d].filterMap id) :=
        (List.reverse_perm _).trans (List.Perm.filterMap _ (by
          refine (List.Perm.swap a b _).trans ?_
          exact (List.Perm.swap c d []).cons b |>.cons a))
      rw [← fstr_perm (code := .xxzz) (name := name) .X hnn hperm.symm] at *
      rw [← e]
      unfold keyGates xGates xxxxGates
      unfold cxFrom at this
      rw [List.map_map] at this
      exact this
    · have := copies_cxTo (s := s) (([b, d, a, c].filterMap id).map (dataQ name)) (by
        intro q hq
        obtain ⟨i, -, rfl⟩ := List.mem_map.1 hq
        exact hs i)
      rw [← List.map_reverse] at this
      have e := hop .Z ([b, d, a, c].filterMap id).reverse (fun _ _ => rfl)
      have hperm : ([b, d, a, c].filterMap id).reverse.Perm ([a, b, c, d].filterMap id) :=
        (List.reverse_perm _).trans (List.Perm.filterMap _ (by
          refine ((List.Perm.swap a d _).cons b).trans ?_
          refine (List.Perm.swap a b _).trans ?_
          exact (List.Perm.swap c d []).cons b |>.cons a))
      rw [← fstr_perm (code := .xxzz) (name := name) .Z hnn hperm.symm] at *
      rw [← e]
      unfold keyGates zGates zzzzGates
      unfold cxTo at this
      rw [List.map_map] at this
      exact this
  · have e : keyGates .xzzx key name s [a, b, c, d] = cornerX name s a ++ cornerZ name s b ++ cornerZ name s c ++ cornerX name s d := by
      cases key <;> rfl
    rw [e]
    have := (((copies_cornerX hs a).append (copies_cornerZ hs b)).append (copies_cornerZ hs c)).append (copies_cornerX hs d)
    have hx : ∀ o : Option Int, (∀ i, o = some i → kind .xzzx key i = .X) →
        (o.toList.map fun i => opX (dataQ name i)).prod = fstr .xzzx key name o.toList := by
      intro o ho
      rw [← hop .X o.toList (by intro i hi; exact ho i (by simpa using hi)), List.map_map]
      rfl
    have hz : ∀ o : Option Int, (∀ i, o = some i → kind .xzzx key i = .Z) →
        (o.toList.map fun i => opZ (dataQ name i)).prod = fstr .xzzx key name o.toList := by
      intro o ho
      rw [← hop .Z o.toList (by intro i hi; exact ho i (by simpa using hi)), List.map_map]
      rfl
    rw [hx a h1, hz b h2, hz c h3, hx d h4, ← fstr_append, ← fstr_append, ← fstr_append] at this
    have hperm : (d.toList ++ (c.toList ++ (b.toList ++ a.toList))).Perm ([a, b, c, d].filterMap id) := by
      have e : [a, b, c, d].filterMap id = (d.toList ++ (c.toList ++ (b.toList ++ a.toList))).reverse := by
        rcases a with _ | a <;> rcases b with _ | b <;> rcases c with _ | c <;> rcases d with _ | d <;> rfl
      rw [e]
      exact (List.reverse_perm _).symm
    rw [fstr_perm (code := .xzzx) (name := name) key (fun i hi => hnn i (hperm.subset hi)) hperm] at this
    exact this

end Qtc
