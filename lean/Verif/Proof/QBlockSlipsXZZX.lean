import Verif.Proof.QBlockSlips
/-!
Errors before and within the entangling gates of a round of the XZZX code.
-/
namespace Qtc
open Spec Function

variable {dh dw : Int} {key κ : Key} {name : Str} {n : Nat}

/-- How much a single error costs the decoder: with the XZZX code the two last data qubits of a plaquette are in one row, which is not a
line of the readout of X. -/
def slipCost : Code → Key → Nat
  | .xzzx, .X => 4
  | _, _ => 3

theorem slipCost_three (code : Code) (key : Key) : 3 ≤ slipCost code key := by cases code <;> cases key <;> decide

theorem Letter.other_ne (a : Letter) : a.other ≠ a := by cases a <;> simp [Letter.other]

theorem Letter.other_other (a : Letter) : a.other.other = a := by cases a <;> rfl

theorem Letter.cases_other (a b : Letter) : b = a ∨ b = a.other := by cases a <;> cases b <;> simp [Letter.other]

theorem turned_kind (code : Code) (key : Key) (i : Int) (a : Letter) : turnedBy code key i (Letter.err a) = decide (a ≠ kind code key i) := by
  cases code <;> cases key <;> cases a <;> by_cases h : i % 2 = 0 <;> simp [turnedBy, kind, Letter.err, h]

theorem kind_other {κ : Key} (h : κ ≠ key) (i : Int) : kind .xzzx κ i = (kind .xzzx key i).other := by
  cases κ <;> cases key <;> by_cases hi : i % 2 = 0 <;> simp [kind, Letter.other, hi] at h ⊢

/-! ### One corner of a plaquette -/

/-- The gates of a corner of a plaquette. -/
def corner (name : Str) (κ : Key) (k : Nat) (i : Int) : List Instr :=
  match kind .xzzx κ i with
  | .X => [.gate1 .h (synQ κ name k) none, .gate2 .cx (synQ κ name k) (dataQ name i), .gate1 .h (synQ κ name k) none]
  | .Z => [.gate2 .cx (dataQ name i) (synQ κ name k)]

theorem corner_xs {k : Nat} {i : Int} {L : List Instr} {gs : List Fault} (h : Leads .xzzx key name dh dw n L [.pauli .X (synQ κ name k)] gs) :
    Leads .xzzx key name dh dw n (corner name κ k i ++ L) [.pauli .X (synQ κ name k)] gs := by
  unfold corner
  have hne := dataQ_ne_synQ (name := name) κ k i
  cases kind .xzzx κ i
  · refine Leads.cons ?_
    rw [spread_h]
    refine Leads.cons ?_
    rw [show Letter.other .X = .Z from rfl, spread_cx_Z_ne hne.symm]
    refine Leads.cons ?_
    rw [spread_h]
    exact h
  · refine Leads.cons ?_
    rw [spread_cx_X_ne hne.symm]
    exact h

theorem corner_zs {k : Nat} {i : Int} {L : List Instr} {gs hs : List Fault} (h : Leads .xzzx key name dh dw n L [.pauli .Z (synQ κ name k)] gs)
    (h' : Leads .xzzx key name dh dw n L [.pauli (kind .xzzx κ i) (dataQ name i)] hs) :
    Leads .xzzx key name dh dw n (corner name κ k i ++ L) [.pauli .Z (synQ κ name k)] (gs ++ hs) := by
  unfold corner
  have hne := dataQ_ne_synQ (name := name) κ k i
  cases e : kind .xzzx κ i <;> rw [e] at h'
  · refine Leads.cons ?_
    rw [spread_h]
    refine Leads.cons ?_
    rw [show Letter.other .Z = .X from rfl, spread_cx_X]
    refine Leads.append (F := [_]) (G := [_]) (Leads.cons ?_) (Leads.cons ?_)
    · rw [spread_h]
      exact h
    · rw [spread_h_ne _ hne]
      exact h'
  · refine Leads.cons ?_
    rw [spread_cx_Z]
    exact h.append (G := [_]) h'

theorem corner_same {k : Nat} {i : Int} {L : List Instr} {gs : List Fault}
    (h : Leads .xzzx key name dh dw n L [.pauli (kind .xzzx κ i) (dataQ name i)] gs) :
    Leads .xzzx key name dh dw n (corner name κ k i ++ L) [.pauli (kind .xzzx κ i) (dataQ name i)] gs := by
  unfold corner
  have hne := dataQ_ne_synQ (name := name) κ k i
  cases e : kind .xzzx κ i <;> rw [e] at h
  · refine Leads.cons ?_
    rw [spread_h_ne _ hne]
    refine Leads.cons ?_
    rw [spread_cx_X_ne hne]
    refine Leads.cons ?_
    rw [spread_h_ne _ hne]
    exact h
  · refine Leads.cons ?_
    rw [spread_cx_Z_ne hne]
    exact h

theorem corner_other {k : Nat} {i : Int} {L : List Instr} {gs hs : List Fault}
    (h : Leads .xzzx key name dh dw n L [.pauli (kind .xzzx κ i).other (dataQ name i)] gs)
    (h' : Leads .xzzx key name dh dw n L [.pauli .X (synQ κ name k)] hs) :
    Leads .xzzx key name dh dw n (corner name κ k i ++ L) [.pauli (kind .xzzx κ i).other (dataQ name i)] (gs ++ hs) := by
  unfold corner
  have hne := dataQ_ne_synQ (name := name) κ k i
  cases e : kind .xzzx κ i <;> rw [e] at h
  · refine Leads.cons ?_
    rw [spread_h_ne _ hne]
    refine Leads.cons ?_
    rw [show Letter.other .X = .Z from rfl, spread_cx_Z]
    refine Leads.append (F := [_]) (G := [_]) (Leads.cons ?_) (Leads.cons ?_)
    · rw [spread_h_ne _ hne]
      exact h
    · rw [spread_h]
      exact h'
  · refine Leads.cons ?_
    rw [show Letter.other .Z = .X from rfl, spread_cx_X]
    exact h.append (G := [_]) h'

theorem corner_skip {k : Nat} {i : Int} {x : Qubit} (h1 : x ≠ synQ κ name k) (h2 : x ≠ dataQ name i) (a : Letter) :
    ∀ j ∈ corner name κ k i, spread j (.pauli a x) = [.pauli a x] := by
  have hcx : ∀ y z, x ≠ y → x ≠ z → spread (.gate2 .cx y z) (.pauli a x) = [.pauli a x] := by
    intro y z h1 h2
    cases a
    · exact spread_cx_X_ne h1
    · exact spread_cx_Z_ne h2
  unfold corner
  cases kind .xzzx κ i
  · intro j hj
    simp only [List.mem_cons, List.not_mem_nil, or_false] at hj
    rcases hj with rfl | rfl | rfl
    · exact spread_h_ne a h1
    · exact hcx _ _ h1 h2
    · exact spread_h_ne a h1
  · intro j hj
    rw [List.mem_singleton.1 hj]
    exact hcx _ _ h2 h1

/-! ### Plaquettes -/

/-- What errors on data qubits and on syndrome qubits before the last instructions of a round lead to. -/
structure Marks (key : Key) (name : Str) (dh dw : Int) (n : Nat) (L : List Instr) (f : Int → List Fault) (g : Key → Nat → List Fault) : Prop where
  bad : ∀ i ∈ allQubits dh dw, Leads .xzzx key name dh dw n L [.pauli (kind .xzzx key i).other (dataQ name i)] (f i)
  good : ∀ i ∈ allQubits dh dw, Leads .xzzx key name dh dw n L [.pauli (kind .xzzx key i) (dataQ name i)] []
  xs : ∀ κ k p, (sitesOf κ dh dw)[k]? = some p →
    Leads .xzzx key name dh dw n L [.pauli .X (synQ κ name k)] (if κ = key then [misread (n - 1) (p, k)] else [])
  zs : ∀ κ k p, (sitesOf κ dh dw)[k]? = some p → Leads .xzzx key name dh dw n L [.pauli .Z (synQ κ name k)] (g κ k)

theorem Marks.like {L : List Instr} {f f' : Int → List Fault} {g g' : Key → Nat → List Fault} (h : Marks key name dh dw n L f g)
    (hf : ∀ i ∈ allQubits dh dw, Amounts key dh dw (f i) (f' i))
    (hg : ∀ κ k p, (sitesOf κ dh dw)[k]? = some p → Amounts key dh dw (g κ k) (g' κ k)) : Marks key name dh dw n L f' g' :=
  ⟨fun i hi => (h.bad i hi).like (hf i hi), h.good, h.xs, fun κ k p hp => (h.zs κ k p hp).like (hg κ k p hp)⟩

theorem Marks.barrier {L : List Instr} {f : Int → List Fault} {g : Key → Nat → List Fault} (h : Marks key name dh dw n L f g) :
    Marks key name dh dw n (.barrier :: L) f g :=
  ⟨fun i hi => (h.bad i hi).barrier, fun i hi => (h.good i hi).barrier, fun κ k p hp => (h.xs κ k p hp).barrier, fun κ k p hp => (h.zs κ k p hp).barrier⟩

theorem Marks.corner {L : List Instr} {f : Int → List Fault} {g : Key → Nat → List Fault} (h : Marks key name dh dw n L f g)
    {q : (Int × Int) × Nat} (hq : (sitesOf κ dh dw)[q.2]? = some q.1) {i : Int} (hi : i ∈ allQubits dh dw) :
    Marks key name dh dw n (corner name κ q.2 i ++ L) (fun j => f j ++ if j = i ∧ κ = key then [misread (n - 1) q] else [])
      (fun κ' k' => g κ' k' ++ if (κ' = κ ∧ k' = q.2) ∧ κ ≠ key then f i else []) := by
  have hdata : ∀ j ∈ allQubits dh dw, j ≠ i → ∀ a gs, Leads .xzzx key name dh dw n L [.pauli a (dataQ name j)] gs →
      Leads .xzzx key name dh dw n (Qtc.corner name κ q.2 i ++ L) [.pauli a (dataQ name j)] gs := fun j hj hne a gs hL =>
    hL.skip (corner_skip (dataQ_ne_synQ κ q.2 j) (fun e => hne (dataQ_inj (all_nonneg j hj) (all_nonneg i hi) e)) a)
  have hsyn : ∀ κ' k', ¬ (κ' = κ ∧ k' = q.2) → ∀ a gs, Leads .xzzx key name dh dw n L [.pauli a (synQ κ' name k')] gs →
      Leads .xzzx key name dh dw n (Qtc.corner name κ q.2 i ++ L) [.pauli a (synQ κ' name k')] gs := fun κ' k' hne a gs hL =>
    hL.skip (corner_skip (fun e => by
      by_cases hκ : κ' = κ
      · subst hκ
        exact hne ⟨rfl, synQ_index e⟩
      · exact synQ_ne hκ _ _ e) (dataQ_ne_synQ κ' k' i).symm a)
  refine ⟨fun j hj => ?_, fun j hj => ?_, fun κ' k' p hp => ?_, fun κ' k' p hp => ?_⟩
  · by_cases hji : j = i
    · subst hji
      by_cases hk : κ = key
      · subst hk
        rw [if_pos ⟨rfl, rfl⟩]
        have := corner_other (k := q.2) (h.bad j hj) (h.xs κ q.2 q.1 hq)
        rwa [if_pos rfl] at this
      · rw [if_neg (fun h => hk h.2), List.append_nil, ← kind_other hk]
        exact corner_same (kind_other hk j ▸ h.bad j hj)
    · rw [if_neg (fun h => hji h.1), List.append_nil]
      exact hdata j hj hji _ _ (h.bad j hj)
  · by_cases hji : j = i
    · subst hji
      by_cases hk : κ = key
      · subst hk
        exact corner_same (h.good j hj)
      · have e : kind .xzzx key j = (kind .xzzx κ j).other := kind_other (Ne.symm hk) j
        rw [e]
        have := corner_other (k := q.2) (e ▸ h.good j hj) (h.xs κ q.2 q.1 hq)
        rwa [if_neg hk, List.append_nil] at this
    · exact hdata j hj hji _ _ (h.good j hj)
  · by_cases hk : κ' = κ ∧ k' = q.2
    · obtain ⟨rfl, rfl⟩ := hk
      exact corner_xs (h.xs κ' q.2 p hp)
    · exact hsyn κ' k' hk _ _ (h.xs κ' k' p hp)
  · by_cases hk : κ' = κ ∧ k' = q.2
    · obtain ⟨rfl, rfl⟩ := hk
      by_cases hk : κ' = key
      · subst hk
        rw [if_neg (fun h => h.2 rfl)]
        exact corner_zs (h.zs κ' q.2 p hp) (h.good i hi)
      · rw [if_pos ⟨⟨rfl, rfl⟩, hk⟩]
        exact corner_zs (h.zs κ' q.2 p hp) (kind_other hk i ▸ h.bad i hi)
    · rw [if_neg (fun h => hk h.1), List.append_nil]
      exact hsyn κ' k' hk _ _ (h.zs κ' k' p hp)

theorem Marks.corners {L : List Instr} {f : Int → List Fault} {g : Key → Nat → List Fault} (h : Marks key name dh dw n L f g)
    {q : (Int × Int) × Nat} (hq : (sitesOf κ dh dw)[q.2]? = some q.1) {S : List Int} (hn : S.Nodup) (hS : ∀ i ∈ S, i ∈ allQubits dh dw) :
    Marks key name dh dw n (S.flatMap (Qtc.corner name κ q.2) ++ L) (fun j => f j ++ if j ∈ S ∧ κ = key then [misread (n - 1) q] else [])
      (fun κ' k' => g κ' k' ++ if (κ' = κ ∧ k' = q.2) ∧ κ ≠ key then S.flatMap f else []) := by
  induction S with
  | nil =>
    refine h.like (fun i _ => ?_) fun κ k p _ => ?_
    · rw [if_neg (by simp), List.append_nil]
      exact Amounts.refl _
    · rw [List.flatMap_nil, ite_self, List.append_nil]
      exact Amounts.refl _
  | cons i S ih =>
    obtain ⟨hi, hn'⟩ := List.nodup_cons.1 hn
    rw [List.flatMap_cons, List.append_assoc]
    refine ((ih hn' fun j hj => hS j (by simp [hj])).corner hq (hS i (by simp))).like (fun j _ => ?_) fun κ' k p _ => ?_
    · by_cases hji : j = i
      · subst hji
        rw [if_neg (fun h => hi h.1), List.append_nil]
        have : (j ∈ j :: S ∧ κ = key) = (j = j ∧ κ = key) := by simp
        simp only [this]
        exact Amounts.refl _
      · rw [if_neg (fun h => hji h.1 : ¬ (j = i ∧ κ = key)), List.append_nil]
        have : (j ∈ i :: S ∧ κ = key) = (j ∈ S ∧ κ = key) := by simp [hji]
        simp only [this]
        exact Amounts.refl _
    · rw [if_neg (fun h => hi h.1 : ¬ (i ∈ S ∧ κ = key)), List.append_nil, List.flatMap_cons, List.append_assoc]
      refine (Amounts.refl _).append ?_
      split
      · exact Amounts.perm List.perm_append_comm
      · exact Amounts.refl _

/-- The gates of a plaquette. -/
def xzblk (name : Str) (dh dw : Int) (κ : Key) (q : (Int × Int) × Nat) : List Instr :=
  (around dh dw q.1).flatMap (corner name κ q.2) ++ [.barrier]

theorem xzzxGates_eq (H : OddPos dh dw) {p : Int × Int} (hp : SiteOf dh dw κ p) (k : Nat) :
    xzzxGates name (synQ κ name k) (cornersOf dh dw p.1 p.2) = (around dh dw p).flatMap (corner name κ k) := by
  have hk := corner_kinds H hp
  unfold around cornersOf xzzxGates
  generalize dataAt dh dw ((p.1 - 1) / 2) ((p.2 - 1) / 2) = a at *
  generalize dataAt dh dw ((p.1 - 1) / 2) ((p.2 + 1) / 2) = b at *
  generalize dataAt dh dw ((p.1 + 1) / 2) ((p.2 - 1) / 2) = c at *
  generalize dataAt dh dw ((p.1 + 1) / 2) ((p.2 + 1) / 2) = d at *
  obtain ⟨h1, h2, h3, h4⟩ := hk
  rcases a with _ | a <;> rcases b with _ | b <;> rcases c with _ | c <;> rcases d with _ | d <;>
    simp_all [cornerX, cornerZ, corner]

theorem xzblk_X (H : OddPos dh dw) : entangleXGates .xzzx name dh dw = (xSites dh dw).zipIdx.flatMap (xzblk name dh dw .X) := by
  unfold entangleXGates xzblk
  rw [List.flatMap_def, List.flatMap_def]
  congr 1
  refine List.map_congr_left fun q hq => ?_
  rw [← xzzxGates_eq (κ := .X) H (site_mem_iff.2 (List.mem_of_getElem? (mem_zipIdx_sites (κ := .X) hq)))]
  rfl

theorem xzblk_Z (H : OddPos dh dw) : entangleZGates .xzzx name dh dw = (zSites dh dw).zipIdx.flatMap (xzblk name dh dw .Z) := by
  unfold entangleZGates xzblk
  rw [List.flatMap_def, List.flatMap_def]
  congr 1
  refine List.map_congr_left fun q hq => ?_
  rw [← xzzxGates_eq (κ := .Z) H (site_mem_iff.2 (List.mem_of_getElem? (mem_zipIdx_sites (κ := .Z) hq)))]
  rfl

theorem around_silent (H : OddPos dh dw) {p : Int × Int} (hp : SiteOf dh dw κ p) (hk : κ ≠ key) (t : Int) :
    Amounts key dh dw ((around dh dw p).map (flip dw t)) [] := by
  have hκ : κ = otherKey key := by cases κ <;> cases key <;> first | rfl | exact absurd rfl hk
  subst hκ
  exact (Amounts.perm ((orderOf_perm (otherKey key) dh dw p).symm.map _)).trans (order_silent H hp t)

theorem flatMap_flip (S : List Int) (t : Int) : (S.flatMap fun i => [flip dw t i]) = S.map (flip dw t) := by
  induction S with
  | nil => rfl
  | cons a l ih => rw [List.flatMap_cons, ih]; rfl

/-- The misreadings of plaquettes of this type still to come. -/
def toCome (κ key : Key) (dh dw : Int) (n : Nat) (post : List ((Int × Int) × Nat)) (i : Int) : List Fault :=
  if κ = key then (post.filter fun p => decide (i ∈ around dh dw p.1)).map (misread (n - 1)) else []

theorem Marks.blocks (H : OddPos dh dw) {L : List Instr} {t : Int} (h : Marks key name dh dw n L (fun i => [flip dw t i]) (fun _ _ => []))
    {post : List ((Int × Int) × Nat)} (hpost : ∀ q ∈ post, (sitesOf κ dh dw)[q.2]? = some q.1) :
    Marks key name dh dw n (post.flatMap (xzblk name dh dw κ) ++ L) (fun i => flip dw t i :: toCome κ key dh dw n post i) (fun _ _ => []) := by
  induction post with
  | nil =>
    refine h.like (fun i _ => ?_) fun κ k p _ => Amounts.refl _
    unfold toCome
    simp only [List.filter_nil, List.map_nil, ite_self]
    exact Amounts.refl _
  | cons q post ih =>
    have F := (ih fun q' hq' => hpost q' (by simp [hq'])).barrier
    have hq := hpost q (by simp)
    have hsite : SiteOf dh dw κ q.1 := site_mem_iff.2 (List.mem_of_getElem? hq)
    rw [List.flatMap_cons, List.append_assoc]
    unfold xzblk at *
    rw [List.append_assoc, List.singleton_append]
    refine (F.corners hq (around_nodup H hsite) fun i hi => around_all i hi).like (fun i hi => ?_) fun κ' k p hp => ?_
    · simp only [toCome]
      by_cases hk : κ = key
      · subst hk
        simp only [if_true, and_true]
        exact Amounts.perm (misread_perm.cons _)
      · rw [if_neg hk, if_neg hk, if_neg (fun h => hk h.2)]
        exact Amounts.refl _
    · rw [List.nil_append]
      split
      · next hk =>
        have : ((around dh dw q.1).flatMap fun i => flip dw t i :: toCome κ key dh dw n post i) = (around dh dw q.1).map (flip dw t) := by
          rw [← flatMap_flip]
          simp only [toCome, if_neg hk.2]
        rw [this]
        exact around_silent H hsite hk.2 t
      · exact Amounts.refl _

theorem tail_marks : Marks key name dh dw n (tailOf name dh dw n) (fun i => [flip dw n i]) (fun _ _ => []) := by
  refine ⟨fun i hi => ?_, fun i hi => ?_, fun κ k p hp => tail_flip hp, fun κ k p hp => (tail_syn List.suffix_rfl hp).2⟩
  · have := tail_data (code := .xzzx) (key := key) (name := name) (n := n) List.suffix_rfl hi (kind .xzzx key i).other
    rwa [turned_kind, if_pos (by simpa using Letter.other_ne _)] at this
  · have := tail_data (code := .xzzx) (key := key) (name := name) (n := n) List.suffix_rfl hi (kind .xzzx key i)
    rwa [turned_kind, if_neg (by simp)] at this

/-- When a data qubit is flipped by an error before the gates of the Z plaquettes. -/
def beforeZ (key : Key) (n : Nat) : Int := if key = .Z then n - 1 else n

theorem zfull_marks (H : OddPos dh dw) :
    Marks key name dh dw n (entangleZGates .xzzx name dh dw ++ tailOf name dh dw n) (fun i => [flip dw (beforeZ key n) i]) (fun _ _ => []) := by
  rw [xzblk_Z H]
  refine (tail_marks.blocks (κ := .Z) H fun q hq => mem_zipIdx_sites (κ := .Z) hq).like (fun i hi => ?_) fun _ _ _ _ => Amounts.refl _
  simp only [toCome, beforeZ]
  by_cases h : key = .Z
  · subst h
    exact flip_early H hi _
  · rw [if_neg h, if_neg (Ne.symm h)]
    exact Amounts.refl _

/-! ### Anywhere in the round -/

theorem Leads.uncons {code : Code} {l : List Instr} {i : Instr} {m : Mark} {gs : List Fault} (h : Leads code key name dh dw n (i :: l) [m] gs) :
    Leads code key name dh dw n l (spread i m) gs := by
  unfold Leads at *
  rwa [travel, List.flatMap_cons, List.flatMap_nil, List.append_nil] at h

/-- A Hadamard gate only exchanges the two errors. -/
theorem Cheap.h {code : Code} {c : Nat} {l : List Instr} {x y : Qubit} : Cheap code c key name dh dw n (.gate1 .h y none :: l) x ↔
    Cheap code c key name dh dw n l x := by
  have e : ∀ a gs, Leads code key name dh dw n (.gate1 .h y none :: l) [.pauli a x] gs ↔
      Leads code key name dh dw n l [.pauli (if x = y then a.other else a) x] gs := by
    intro a gs
    have hs : spread (.gate1 .h y none) (.pauli a x) = [.pauli (if x = y then a.other else a) x] := by cases a <;> rfl
    constructor
    · intro h
      have := h.uncons
      rwa [hs] at this
    · intro h
      refine Leads.cons ?_
      rwa [hs]
  unfold Cheap LeadsTo
  simp only [e]
  by_cases h : x = y
  · simp only [if_pos h, Letter.other]
    constructor
    · rintro (⟨h1, h2⟩ | ⟨h1, h2⟩)
      · exact Or.inr ⟨h2, h1⟩
      · exact Or.inl ⟨h2, h1⟩
    · rintro (⟨h1, h2⟩ | ⟨h1, h2⟩)
      · exact Or.inr ⟨h2, h1⟩
      · exact Or.inl ⟨h2, h1⟩
  · simp only [if_neg h]

theorem Cheap.of {code : Code} {c : Nat} {l : List Instr} {x : Qubit} (a : Letter) (h1 : LeadsTo code key name dh dw n x l [.pauli a.other x] c)
    (h2 : Leads code key name dh dw n l [.pauli a x] []) : Cheap code c key name dh dw n l x := by
  cases a
  · exact Or.inr ⟨h2, h1⟩
  · exact Or.inl ⟨h1, h2⟩

/-- The last corners of a plaquette of the other type flipped: this costs at most 2 if the readout is of Z, and at most 4 otherwise. -/
theorem hook_around (H : OddPos dh dw) {p : Int × Int} (hp : SiteOf dh dw κ p) (hk : κ ≠ key) {S : List Int} (hS : S <:+ around dh dw p)
    (t : Int) : ∃ gs, Amounts key dh dw (S.map (flip dw t)) gs ∧ costOf key dh dw gs ≤ slipCost .xzzx key ∧ ∀ f ∈ gs, ∃ i ∈ around dh dw p, f = flip dw t i := by
  have hw := slipCost_three .xzzx key
  obtain ⟨P, hP⟩ := hS
  have hmem : ∀ l : List Int, (∀ i ∈ l, i ∈ around dh dw p) → ∀ f ∈ l.map (flip dw t), ∃ i ∈ around dh dw p, f = flip dw t i := by
    intro l hl f hf
    obtain ⟨i, hi, rfl⟩ := List.mem_map.1 hf
    exact ⟨i, hl i hi, rfl⟩
  rcases Nat.lt_or_ge S.length 2 with h1 | h1
  · refine ⟨S.map (flip dw t), Amounts.refl _, ?_, hmem S fun i hi => hP ▸ List.mem_append_right _ hi⟩
    have := costOf_le (key := key) (dh := dh) (dw := dw) (S.map (flip dw t))
    rw [List.length_map] at this
    omega
  rcases Nat.lt_or_ge P.length 2 with h2 | h2
  · refine ⟨P.map (flip dw t), ?_, ?_, hmem P fun i hi => hP ▸ List.mem_append_left _ hi⟩
    · have := around_silent H hp hk t
      rw [← hP, List.map_append] at this
      exact this.cancel
    · have := costOf_le (key := key) (dh := dh) (dw := dw) (P.map (flip dw t))
      rw [List.length_map] at this
      omega
  have hlen : P.length + S.length ≤ 4 := by
    have : (around dh dw p).length ≤ 4 := by
      unfold around cornersOf
      exact (List.length_filterMap_le _ _).trans (by simp)
    rwa [← hP, List.length_append] at this
  refine ⟨S.map (flip dw t), Amounts.refl _, ?_, hmem S fun i hi => hP ▸ List.mem_append_right _ hi⟩
  have hfour : 4 ≤ (around dh dw p).length := by rw [← hP, List.length_append]; omega
  have hdrop : S = (around dh dw p).drop 2 := by
    rw [← hP, List.drop_append_of_le_length (by omega), List.drop_eq_nil_of_le (by omega), List.nil_append]
  cases key with
  | X =>
    have := costOf_le (key := .X) (dh := dh) (dw := dw) (S.map (flip dw t))
    rw [List.length_map] at this
    show _ ≤ 4
    omega
  | Z =>
    simp only [around, cornersOf] at hfour hdrop
    obtain ⟨i, j, k, l, ha, hb, hc, hd⟩ := filterMap_four hfour
    rw [ha, hb, hc, hd] at hdrop
    subst hdrop
    show costOf _ _ _ [flip dw t k, flip dw t l] ≤ 3
    rw [flip_dataAt hc, flip_dataAt hd]
    unfold costOf
    rw [oddLines_pair (key := .Z) rfl]
    simp

/-- All qubits of the lattice. -/
def AllCheap (key : Key) (name : Str) (dh dw : Int) (n : Nat) (l : List Instr) : Prop :=
  (∀ i ∈ allQubits dh dw, Cheap .xzzx (slipCost .xzzx key) key name dh dw n l (dataQ name i)) ∧
    ∀ κ k p, (sitesOf κ dh dw)[k]? = some p → Cheap .xzzx (slipCost .xzzx key) key name dh dw n l (synQ κ name k)

theorem AllCheap.barrier {l : List Instr} (h : AllCheap key name dh dw n l) : AllCheap key name dh dw n (.barrier :: l) :=
  ⟨fun i hi => (h.1 i hi).barrier, fun κ k p hp => (h.2 κ k p hp).barrier⟩

theorem AllCheap.unbarrier {l : List Instr} (h : AllCheap key name dh dw n (.barrier :: l)) : AllCheap key name dh dw n l := by
  have e : ∀ (m : Mark) gs, Leads .xzzx key name dh dw n (.barrier :: l) [m] gs → Leads .xzzx key name dh dw n l [m] gs := by
    intro m gs h
    have := h.uncons
    have hs : spread .barrier m = [m] := by cases m <;> rfl
    rwa [hs] at this
  have e' : ∀ x, Cheap .xzzx (slipCost .xzzx key) key name dh dw n (.barrier :: l) x → Cheap .xzzx (slipCost .xzzx key) key name dh dw n l x := by
    rintro x (⟨⟨gs, h1, h2⟩, h3⟩ | ⟨h3, ⟨gs, h1, h2⟩⟩)
    · exact Or.inl ⟨⟨gs, e _ _ h1, h2⟩, e _ _ h3⟩
    · exact Or.inr ⟨e _ _ h3, ⟨gs, e _ _ h1, h2⟩⟩
  exact ⟨fun i hi => e' _ (h.1 i hi), fun κ k p hp => e' _ (h.2 κ k p hp)⟩

theorem AllCheap.h {l : List Instr} {y : Qubit} : AllCheap key name dh dw n (.gate1 .h y none :: l) ↔ AllCheap key name dh dw n l := by
  unfold AllCheap
  simp only [Cheap.h]

theorem tail_cheap (H : OddPos dh dw) {l : List Instr} (hl : l <:+ tailOf name dh dw n) : AllCheap key name dh dw n l := by
  have hw := slipCost_three .xzzx key
  constructor
  · intro i hi
    have hX := tail_data (code := .xzzx) (key := key) hl hi (kind .xzzx key i).other
    have hZ := tail_data (code := .xzzx) (key := key) hl hi (kind .xzzx key i)
    rw [turned_kind, if_pos (by simpa using Letter.other_ne _)] at hX
    rw [turned_kind, if_neg (by simp)] at hZ
    exact Cheap.of _ (LeadsTo.one hX (near_flip H hi (Or.inr rfl)) (by omega)) hZ
  · intro κ k p hp
    obtain ⟨⟨gs, h1, h2⟩, h3⟩ := tail_syn (code := .xzzx) (key := key) hl hp
    refine Or.inl ⟨?_, h3⟩
    rcases h2 with rfl | ⟨rfl, rfl | rfl⟩
    · exact LeadsTo.nothing h1 _
    · exact LeadsTo.one h1 (near_misread (q := (p, k)) hp (Or.inr rfl)) (by omega)
    · exact LeadsTo.one h1 (near_misread (q := (p, k)) hp (Or.inl rfl)) (by omega)

/-- In the middle of the gates of a plaquette. -/
theorem part_cheap (H : OddPos dh dw) {L : List Instr} {t : Int} (h : Marks key name dh dw n L (fun i => [flip dw t i]) (fun _ _ => []))
    (ht : t = n - 1 ∨ t = n) (hk : κ = key → t = n) {pre post : List ((Int × Int) × Nat)} {q : (Int × Int) × Nat}
    (e : (sitesOf κ dh dw).zipIdx = pre ++ q :: post) {S : List Int} (hS : S <:+ around dh dw q.1) :
    AllCheap key name dh dw n (S.flatMap (corner name κ q.2) ++ (.barrier :: (post.flatMap (xzblk name dh dw κ) ++ L))) := by
  have hw := slipCost_three .xzzx key
  have hq : (sitesOf κ dh dw)[q.2]? = some q.1 := mem_zipIdx_sites (by rw [e]; simp)
  have hsite : SiteOf dh dw κ q.1 := site_mem_iff.2 (List.mem_of_getElem? hq)
  have F := ((h.blocks (κ := κ) H (post := post) fun q hq => mem_zipIdx_sites (by rw [e]; simp [hq])).barrier).corners hq
    ((around_nodup H hsite).sublist hS.sublist) fun i hi => around_all i (hS.subset hi)
  constructor
  · intro i hi
    refine Cheap.of _ ?_ (F.good i hi)
    have hb := F.bad i hi
    by_cases hκ : κ = key
    · subst hκ
      obtain rfl := hk rfl
      refine LeadsTo.mono ?_ hw
      by_cases hiS : i ∈ S
      · refine LeadsTo.middle H hi (suffix_nbrs e).2 (hb.like ?_)
        rw [if_pos ⟨hiS, rfl⟩]
        unfold toCome
        rw [if_pos rfl]
        refine Amounts.perm (List.Perm.cons _ ?_)
        have := misread_perm (dh := dh) (dw := dw) (i := i) (q := q) (post := post) (t := (n : Int) - 1)
        rwa [if_pos (hS.subset hiS)] at this
      · refine LeadsTo.middle H hi (suffix_nbrs e).1 (hb.like ?_)
        rw [if_neg (fun h => hiS h.1), List.append_nil]
        unfold toCome
        rw [if_pos rfl]
        exact Amounts.refl _
    · unfold toCome at hb
      rw [if_neg hκ, if_neg (fun h => hκ h.2)] at hb
      exact LeadsTo.one hb (near_flip H hi ht) (by omega)
  · intro κ' k p hp
    have hx := F.xs κ' k p hp
    have hz := F.zs κ' k p hp
    by_cases hcase : (κ' = κ ∧ k = q.2) ∧ κ ≠ key
    · obtain ⟨⟨rfl, rfl⟩, hκ⟩ := hcase
      rw [if_neg hκ] at hx
      refine Or.inr ⟨hx, ?_⟩
      obtain ⟨gs, g1, g2, g3⟩ := hook_around H hsite hκ hS t
      refine ⟨gs, hz.like ?_, g2, fun f hf => ?_⟩
      · rw [if_pos ⟨⟨rfl, rfl⟩, hκ⟩, List.nil_append]
        simp only [toCome, if_neg hκ, flatMap_flip]
        exact g1
      · obtain ⟨i, hi, rfl⟩ := g3 f hf
        exact near_hook H hq hi ht
    · rw [if_neg hcase] at hz
      refine Or.inl ⟨?_, hz⟩
      split at hx
      · next e =>
        subst e
        exact LeadsTo.one hx (near_misread (q := (p, k)) hp (Or.inl rfl)) (by omega)
      · exact LeadsTo.nothing hx _

theorem Marks.cheap (H : OddPos dh dw) {L : List Instr} {t : Int} (h : Marks key name dh dw n L (fun i => [flip dw t i]) (fun _ _ => []))
    (ht : t = n - 1 ∨ t = n) : AllCheap key name dh dw n L := by
  have hw := slipCost_three .xzzx key
  refine ⟨fun i hi => Cheap.of _ (LeadsTo.one (h.bad i hi) (near_flip H hi ht) (by omega)) (h.good i hi), fun κ k p hp => Or.inl ⟨?_, h.zs κ k p hp⟩⟩
  have hx := h.xs κ k p hp
  split at hx
  · next e =>
    subst e
    exact LeadsTo.one hx (near_misread (q := (p, k)) hp (Or.inl rfl)) (by omega)
  · exact LeadsTo.nothing hx _

/-- Anywhere in the gates of the plaquettes of a type. -/
theorem blocks_cheap (H : OddPos dh dw) {L : List Instr} {t : Int} (h : Marks key name dh dw n L (fun i => [flip dw t i]) (fun _ _ => []))
    (ht : t = n - 1 ∨ t = n) (hk : κ = key → t = n) {l : List Instr} (hl : l <:+ (sitesOf κ dh dw).zipIdx.flatMap (xzblk name dh dw κ)) :
    AllCheap key name dh dw n (l ++ L) := by
  rcases suffix_flatMap hl with rfl | ⟨pre, q, post, s, e, hs, rfl⟩
  · exact h.cheap H ht
  · rw [List.append_assoc]
    have h0 := part_cheap H h ht hk e List.nil_suffix
    rcases suffix_cases hs with hs | ⟨b, hb, rfl⟩
    · rcases List.suffix_cons_iff.1 hs with rfl | hs
      · exact h0
      · rw [List.suffix_nil.1 hs]
        exact AllCheap.unbarrier h0
    · rw [List.append_assoc, List.singleton_append]
      rcases suffix_flatMap hb with rfl | ⟨pre', i, S, c, e', hc, rfl⟩
      · exact h0
      · rw [List.append_assoc]
        have h1 := part_cheap H h ht hk e (S := i :: S) ⟨pre', e'.symm⟩
        have h2 := part_cheap H h ht hk e (S := S) ⟨pre' ++ [i], by rw [e']; simp⟩
        rw [List.flatMap_cons, List.append_assoc] at h1
        generalize hR : S.flatMap (corner name κ q.2) ++ (.barrier :: (post.flatMap (xzblk name dh dw κ) ++ L)) = R at *
        unfold corner at h1 hc
        cases hkind : kind .xzzx κ i <;> rw [hkind] at h1 hc
        · rcases List.suffix_cons_iff.1 hc with rfl | hc
          · exact h1
          rcases List.suffix_cons_iff.1 hc with rfl | hc
          · exact AllCheap.h.1 h1
          rcases List.suffix_cons_iff.1 hc with rfl | hc
          · exact AllCheap.h.2 h2
          · rw [List.suffix_nil.1 hc]
            exact h2
        · rcases List.suffix_cons_iff.1 hc with rfl | hc
          · exact h1
          · rw [List.suffix_nil.1 hc]
            exact h2

theorem round_xzzx (H : OddPos dh dw) : roundInstrs .xzzx name dh dw (roundName name n) =
    (sitesOf .X dh dw).zipIdx.flatMap (xzblk name dh dw .X) ++ ((sitesOf .Z dh dw).zipIdx.flatMap (xzblk name dh dw .Z) ++ tailOf name dh dw n) := by
  unfold roundInstrs tailOf
  rw [xzblk_X H, xzblk_Z H, measureSyn_eq, resetSyn_eq]
  simp only [List.append_assoc, sitesOf]

theorem round_cheap (H : OddPos dh dw) {l : List Instr} (hl : l <:+ roundInstrs .xzzx name dh dw (roundName name n)) : AllCheap key name dh dw n l := by
  rw [round_xzzx H] at hl
  rcases suffix_cases hl with hl | ⟨a, ha, rfl⟩
  · rcases suffix_cases hl with hl | ⟨a, ha, rfl⟩
    · exact tail_cheap H hl
    · exact blocks_cheap H tail_marks (Or.inr rfl) (fun _ => rfl) ha
  · refine blocks_cheap (t := beforeZ key n) H ?_ ?_ ?_ ha
    · have := zfull_marks (key := key) (name := name) (n := n) H
      rwa [xzblk_Z H] at this
    · unfold beforeZ
      split
      · exact Or.inl rfl
      · exact Or.inr rfl
    · rintro rfl
      rfl

end Qtc
