import Verif.Proof.Hooks
/-!
How errors between the instructions of a round of stabilizer measurements spread to the end of the round, and the
faults they amount to.
-/
namespace Qtc
open Spec Function

variable {dh dw : Int} {key : Key} {name : Str} {n : Nat} {code : Code}

/-- The faults that something wrong before the last instructions `l` of round `n` amounts to. -/
def Leads (code : Code) (key : Key) (name : Str) (dh dw : Int) (n : Nat) (l : List Instr) (F : List Mark) (gs : List Fault) : Prop :=
  Amounts key dh dw ((travel l F).flatMap (markFaults code key name dh dw (n + 1))) gs

theorem Leads.append {l : List Instr} {F G : List Mark} {gs hs : List Fault} (h : Leads code key name dh dw n l F gs) (h' : Leads code key name dh dw n l G hs) :
    Leads code key name dh dw n l (F ++ G) (gs ++ hs) := by
  unfold Leads at *
  rw [travel_hom, List.flatMap_append]
  exact Amounts.append h h'

theorem Leads.like {l : List Instr} {F : List Mark} {gs hs : List Fault} (h : Leads code key name dh dw n l F gs) (h' : Amounts key dh dw gs hs) :
    Leads code key name dh dw n l F hs := Amounts.trans h h'

theorem Leads.cons {l : List Instr} {i : Instr} {m : Mark} {gs : List Fault} (h : Leads code key name dh dw n l (spread i m) gs) :
    Leads code key name dh dw n (i :: l) [m] gs := by
  unfold Leads at *
  rw [travel, List.flatMap_cons, List.flatMap_nil, List.append_nil]
  exact h

theorem Leads.none (l : List Instr) : Leads code key name dh dw n l [] [] := by
  unfold Leads
  rw [travel_nil]
  exact Amounts.refl _

theorem Leads.skip {l L : List Instr} {m : Mark} {gs : List Fault} (h : Leads code key name dh dw n L [m] gs) (hl : ∀ i ∈ l, spread i m = [m]) :
    Leads code key name dh dw n (l ++ L) [m] gs := by
  induction l with
  | nil => exact h
  | cons i l ih =>
    refine Leads.cons ?_
    rw [hl i (by simp)]
    exact ih fun j hj => hl j (by simp [hj])

theorem Leads.barrier {L : List Instr} {m : Mark} {gs : List Fault} (h : Leads code key name dh dw n L [m] gs) :
    Leads code key name dh dw n (.barrier :: L) [m] gs :=
  Leads.cons (by
    have : spread .barrier m = [m] := by cases m <;> rfl
    rw [this]; exact h)

/-- A mark that spreads along a list of instructions. -/
theorem Leads.fan {S : List Int} {g : Int → Instr} {L : List Instr} {m : Mark} {e : Int → Mark} {hs : List Fault} {f : Int → List Fault}
    (hm : ∀ j ∈ S, spread (g j) m = [m, e j]) (he : ∀ j ∈ S, ∀ j' ∈ S, spread (g j') (e j) = [e j])
    (h : Leads code key name dh dw n L [m] hs) (h' : ∀ j ∈ S, Leads code key name dh dw n L [e j] (f j)) :
    Leads code key name dh dw n (S.map g ++ L) [m] (hs ++ S.flatMap f) := by
  induction S with
  | nil => simpa using h
  | cons j S ih =>
    rw [List.map_cons, List.cons_append]
    refine Leads.cons ?_
    rw [hm j (by simp)]
    have h1 := ih (fun j' hj' => hm j' (by simp [hj'])) (fun a ha b hb => he a (by simp [ha]) b (by simp [hb])) fun a ha => h' a (by simp [ha])
    have h2 : Leads code key name dh dw n (S.map g ++ L) [e j] (f j) := (h' j (by simp)).skip fun i hi => by
      obtain ⟨a, ha, rfl⟩ := List.mem_map.1 hi
      exact he j (by simp) a (by simp [ha])
    refine (h1.append h2).like (Amounts.perm ?_)
    rw [List.flatMap_cons, List.append_assoc]
    exact List.perm_append_comm.append_left _

/-- A mark that spreads at one of a list of instructions. -/
theorem Leads.hit {S : List Int} (hS : S.Nodup) {i : Int} {g : Int → Instr} {L : List Instr} {m e : Mark} {gs hs : List Fault}
    (hi : i ∈ S → spread (g i) m = [m, e]) (hne : ∀ j ∈ S, j ≠ i → spread (g j) m = [m]) (he : ∀ j ∈ S, spread (g j) e = [e])
    (h : Leads code key name dh dw n L [m] gs) (h' : Leads code key name dh dw n L [e] hs) :
    Leads code key name dh dw n (S.map g ++ L) [m] (gs ++ if i ∈ S then hs else []) := by
  induction S with
  | nil => simpa using h
  | cons j S ih =>
    rw [List.map_cons, List.cons_append]
    refine Leads.cons ?_
    obtain ⟨hj, hS'⟩ := List.nodup_cons.1 hS
    have h1 := ih hS' (fun h => hi (by simp [h])) (fun j' hj' => hne j' (by simp [hj'])) (fun a ha => he a (by simp [ha]))
    by_cases hji : j = i
    · subst hji
      rw [hi (by simp), if_pos (by simp)]
      rw [if_neg hj, List.append_nil] at h1
      refine h1.append (G := [e]) (h'.skip fun i hi => ?_)
      obtain ⟨a, ha, rfl⟩ := List.mem_map.1 hi
      exact he a (by simp [ha])
    · rw [hne j (by simp) hji]
      have e1 : (i ∈ j :: S) = (i ∈ S) := by simp [Ne.symm hji]
      simp only [e1]
      exact h1

/-! ### What is wrong after the round -/

theorem amounts_of_sums {fs gs : List Fault} (h : ∀ f : Fault → Bool, xorAll (fs.map f) = xorAll (gs.map f)) : Amounts key dh dw fs gs :=
  ⟨fun _ _ _ => h _, h _⟩

theorem mf_data {i : Int} (hi : i ∈ allQubits dh dw) (a : Letter) :
    Amounts key dh dw (markFaults code key name dh dw (n + 1) (.pauli a (dataQ name i)))
      (if turnedBy code key i (Letter.err a) then [flip dw n i] else []) := by
  have h1 : measOf key name dh dw (n + 1) a (dataQ name i) = [] := by
    rw [List.eq_nil_iff_forall_not_mem]
    intro f hf
    obtain ⟨k, p, -, e, -⟩ := mem_measOf hf
    cases key
    · exact dataQ_ne_mxQ k i e
    · exact dataQ_ne_mzQ k i e
  refine amounts_of_sums fun f => ?_
  unfold markFaults
  simp only
  rw [h1, List.append_nil, dataOf_sum (all_nonneg i hi), decide_eq_true hi, Bool.true_and, show ((n + 1 : Nat) : Int) - 1 = (n : Int) by omega]
  split
  · next h => rw [h]; simp [flip]
  · next h => rw [Bool.not_eq_true] at h; rw [h]; simp

theorem synQ_ne {κ κ' : Key} (h : κ ≠ κ') (k k' : Nat) : synQ κ name k ≠ synQ κ' name k' := by
  cases κ <;> cases κ'
  · exact absurd rfl h
  · exact mxQ_ne_mz name k k'
  · exact (mxQ_ne_mz name k' k).symm
  · exact absurd rfl h

theorem dataQ_ne_synQ (κ : Key) (k : Nat) (i : Int) : dataQ name i ≠ synQ κ name k := by
  cases κ
  · exact dataQ_ne_mxQ k i
  · exact dataQ_ne_mzQ k i

theorem mf_syn {κ : Key} {k : Nat} {p : Int × Int} (hp : (sitesOf κ dh dw)[k]? = some p) (a : Letter) :
    Amounts key dh dw (markFaults code key name dh dw (n + 1) (.pauli a (synQ κ name k))) (if κ = key ∧ a = .X then [misread n (p, k)] else []) := by
  have h1 : dataOf code key name dh dw (n + 1) a (synQ κ name k) = [] := dataOf_other fun i => dataQ_ne_synQ κ k i
  unfold markFaults
  simp only
  rw [h1, List.nil_append]
  constructor
  · intro N r hr
    obtain ⟨j, hj⟩ := List.getElem?_of_mem (site_mem_iff.1 hr)
    rw [measOf_reading hj]
    by_cases hk : κ = key ∧ a = .X
    · rw [if_pos hk]
      obtain ⟨rfl, rfl⟩ := hk
      have : reading [misread n (p, k)] N r = (decide (k = j) && decide (N = (n : Int) + 1)) := by
        unfold reading
        simp only [List.map_cons, List.map_nil, xorAll_cons, xorAll_nil, Bool.xor_false, misread, Fault.affects]
        by_cases hkj : k = j
        · subst hkj
          have : p = r := Option.some.inj (hp.symm.trans hj)
          subst this
          rw [Bool.eq_iff_iff]
          simp
        · have : p ≠ r := by
            rintro rfl
            obtain ⟨hlt, -⟩ := List.getElem?_eq_some_iff.1 hp
            exact hkj ((List.getElem?_inj hlt (sitesOf_nodup κ dh dw)).1 (hp.trans hj.symm))
          rw [decide_eq_false hkj, Bool.false_and, Bool.eq_false_iff]
          intro h
          simp only [Bool.and_eq_true, beq_iff_eq] at h
          exact this (Prod.ext h.1.1.symm h.1.2.symm)
      rw [this]
      have e : decide (synQ κ name k = synQ κ name j) = decide (k = j) := by
        by_cases h : k = j
        · subst h; simp
        · rw [decide_eq_false h, decide_eq_false fun e => h (synQ_index e)]
      rw [e]
      simp
    · rw [if_neg hk]
      by_cases hk' : κ = key
      · subst hk'
        rw [decide_eq_false (fun h => hk ⟨rfl, h⟩), Bool.and_false, Bool.false_and]
        rfl
      · rw [decide_eq_false (synQ_ne hk' k j), Bool.false_and, Bool.false_and]
        rfl
  · rw [measOf_readout]
    split
    · rfl
    · rfl

theorem mf_bit {κ : Key} {k : Nat} {p : Int × Int} (hp : (sitesOf κ dh dw)[k]? = some p) :
    Amounts key dh dw (markFaults code key name dh dw (n + 1) (.bit ⟨roundName name n, offsetOf κ dh dw + k⟩))
      (if κ = key then [misread (n - 1) (p, k)] else []) := by
  have hlt := (List.getElem?_eq_some_iff.1 hp).1
  unfold markFaults
  simp only
  constructor
  · intro N r hr
    obtain ⟨j, hj⟩ := List.getElem?_of_mem (site_mem_iff.1 hr)
    have hlj := (List.getElem?_eq_some_iff.1 hj).1
    rw [bitFaults_reading hj, show ((n + 1 : Nat) : Int) - 1 = (n : Int) by omega]
    by_cases hk : κ = key
    · rw [if_pos hk]
      subst hk
      have : reading [misread (n - 1) (p, k)] N r = (decide (k = j) && decide (N = n)) := by
        unfold reading
        simp only [List.map_cons, List.map_nil, xorAll_cons, xorAll_nil, Bool.xor_false, misread, Fault.affects]
        by_cases hkj : k = j
        · subst hkj
          have : p = r := Option.some.inj (hp.symm.trans hj)
          subst this
          rw [Bool.eq_iff_iff]
          simp
        · have : p ≠ r := by
            rintro rfl
            exact hkj ((List.getElem?_inj hlt (sitesOf_nodup κ dh dw)).1 (hp.trans hj.symm))
          rw [decide_eq_false hkj, Bool.false_and, Bool.eq_false_iff]
          intro h
          simp only [Bool.and_eq_true, beq_iff_eq] at h
          exact this (Prod.ext h.1.1.symm h.1.2.symm)
      rw [this]
      simp
    · rw [if_neg hk]
      have : (⟨roundName name n, offsetOf κ dh dw + k⟩ : Clbit) ≠ ⟨roundName name n, offsetOf key dh dw + j⟩ := by
        intro e
        have := (Clbit.mk.inj e).2
        cases κ <;> cases key
        · exact hk rfl
        · simp only [offsetOf, sitesOf] at *; omega
        · simp only [offsetOf, sitesOf] at *; omega
        · exact hk rfl
      rw [decide_eq_false this, Bool.false_and]
      rfl
  · rw [bitFaults_readout]
    split <;> rfl

/-- A qubit that is neither a data qubit nor a syndrome qubit of the lattice. -/
def Foreign (name : Str) (dh dw : Int) (x : Qubit) : Prop :=
  (∀ i ∈ allQubits dh dw, x ≠ dataQ name i) ∧ ∀ κ (k : Nat) p, (sitesOf κ dh dw)[k]? = some p → x ≠ synQ κ name k

theorem mf_foreign {x : Qubit} (h : Foreign name dh dw x) (a : Letter) : markFaults code key name dh dw (n + 1) (.pauli a x) = [] := by
  unfold markFaults
  simp only
  rw [List.append_eq_nil_iff]
  constructor
  · rw [List.eq_nil_iff_forall_not_mem]
    intro f hf
    obtain ⟨i, hi, e, -⟩ := mem_dataOf hf
    exact h.1 i hi e
  · rw [List.eq_nil_iff_forall_not_mem]
    intro f hf
    obtain ⟨k, p, hk, e, -⟩ := mem_measOf hf
    exact h.2 key k p hk e

theorem leads_end {m : Mark} {gs : List Fault} (h : Amounts key dh dw (markFaults code key name dh dw (n + 1) m) gs) :
    Leads code key name dh dw n [] [m] gs := by
  unfold Leads
  rw [travel, List.flatMap_cons, List.flatMap_nil, List.append_nil]
  exact h

end Qtc
