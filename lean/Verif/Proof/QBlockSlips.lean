import Verif.Proof.QRoundSlips
/-!
Errors before and within the entangling gates of a round of the XXZZ code.
-/
namespace Qtc
open Spec Function

variable {dh dw : Int} {key : Key} {name : Str} {n : Nat}

theorem spread_cx_X (a b : Qubit) : spread (.gate2 .cx a b) (.pauli .X a) = [.pauli .X a, .pauli .X b] := by
  simp only [spread]; rw [if_pos trivial]
theorem spread_cx_Z (a b : Qubit) : spread (.gate2 .cx a b) (.pauli .Z b) = [.pauli .Z b, .pauli .Z a] := by
  simp only [spread]; rw [if_pos trivial]
theorem spread_cx_X_ne {a b x : Qubit} (h : x ≠ a) : spread (.gate2 .cx a b) (.pauli .X x) = [.pauli .X x] := by
  simp only [spread]; rw [if_neg h]
theorem spread_cx_Z_ne {a b x : Qubit} (h : x ≠ b) : spread (.gate2 .cx a b) (.pauli .Z x) = [.pauli .Z x] := by
  simp only [spread]; rw [if_neg h]
theorem spread_h (a : Letter) (x : Qubit) : spread (.gate1 .h x none) (.pauli a x) = [.pauli a.other x] := by
  cases a <;> simp only [spread] <;> rw [if_pos trivial]
theorem spread_h_ne (a : Letter) {x y : Qubit} (h : x ≠ y) : spread (.gate1 .h y none) (.pauli a x) = [.pauli a x] := by
  cases a <;> simp only [spread] <;> rw [if_neg h]

/-- What errors on data qubits and on syndrome qubits before the last instructions of a round lead to. -/
structure Facts (key : Key) (name : Str) (dh dw : Int) (n : Nat) (L : List Instr) (fX fZ : Int → List Fault) : Prop where
  xd : ∀ i ∈ allQubits dh dw, Leads .xxzz key name dh dw n L [.pauli .X (dataQ name i)] (fX i)
  zd : ∀ i ∈ allQubits dh dw, Leads .xxzz key name dh dw n L [.pauli .Z (dataQ name i)] (fZ i)
  xs : ∀ κ k p, (sitesOf κ dh dw)[k]? = some p → Leads .xxzz key name dh dw n L [.pauli .X (synQ κ name k)] (if κ = key then [misread (n - 1) (p, k)] else [])
  zs : ∀ κ k p, (sitesOf κ dh dw)[k]? = some p → Leads .xxzz key name dh dw n L [.pauli .Z (synQ κ name k)] []

theorem Facts.like {L : List Instr} {fX fZ gX gZ : Int → List Fault} (h : Facts key name dh dw n L fX fZ)
    (hX : ∀ i ∈ allQubits dh dw, Amounts key dh dw (fX i) (gX i)) (hZ : ∀ i ∈ allQubits dh dw, Amounts key dh dw (fZ i) (gZ i)) :
    Facts key name dh dw n L gX gZ :=
  ⟨fun i hi => (h.xd i hi).like (hX i hi), fun i hi => (h.zd i hi).like (hZ i hi), h.xs, h.zs⟩

theorem Facts.barrier {L : List Instr} {fX fZ : Int → List Fault} (h : Facts key name dh dw n L fX fZ) :
    Facts key name dh dw n (.barrier :: L) fX fZ :=
  ⟨fun i hi => (h.xd i hi).barrier, fun i hi => (h.zd i hi).barrier, fun κ k p hp => (h.xs κ k p hp).barrier, fun κ k p hp => (h.zs κ k p hp).barrier⟩

theorem tail_facts : Facts key name dh dw n (tailOf name dh dw n) (fun i => if key = .Z then [flip dw n i] else [])
    (fun i => if key = .X then [flip dw n i] else []) := by
  refine ⟨fun i hi => ?_, fun i hi => ?_, fun κ k p hp => tail_flip hp, fun κ k p hp => (tail_syn List.suffix_rfl hp).2⟩
  · have := tail_data (code := .xxzz) (key := key) (name := name) (n := n) List.suffix_rfl hi .X
    rw [turned_X] at this
    simpa using this
  · have := tail_data (code := .xxzz) (key := key) (name := name) (n := n) List.suffix_rfl hi .Z
    rw [turned_Z] at this
    simpa using this

/-! ### The Z plaquettes -/

/-- The gates of a Z plaquette. -/
def zblk (name : Str) (dh dw : Int) (q : (Int × Int) × Nat) : List Instr :=
  (orderOf .Z dh dw q.1).map (fun i => .gate2 .cx (dataQ name i) (synQ .Z name q.2)) ++ [.barrier]

theorem zblk_eq : entangleZGates .xxzz name dh dw = (zSites dh dw).zipIdx.flatMap (zblk name dh dw) := rfl

theorem order_mem {κ : Key} {p : Int × Int} {i : Int} : i ∈ orderOf κ dh dw p ↔ i ∈ around dh dw p := (orderOf_perm κ dh dw p).mem_iff

theorem order_all {κ : Key} {p : Int × Int} {i : Int} (h : i ∈ orderOf κ dh dw p) : i ∈ allQubits dh dw := around_all i (order_mem.1 h)

theorem order_nodup (H : OddPos dh dw) {κ κ' : Key} {p : Int × Int} (hp : SiteOf dh dw κ p) : (orderOf κ' dh dw p).Nodup :=
  (orderOf_perm _ _ _ _).nodup_iff.2 (around_nodup H hp)

theorem zpart_xd {S : List Int} (hn : S.Nodup) (hS : ∀ i ∈ S, i ∈ allQubits dh dw) {q : (Int × Int) × Nat} (hq : (sitesOf .Z dh dw)[q.2]? = some q.1)
    {L : List Instr} {fX fZ : Int → List Fault} (h : Facts key name dh dw n L fX fZ) {i : Int} (hi : i ∈ allQubits dh dw) :
    Leads .xxzz key name dh dw n (S.map (fun i => .gate2 .cx (dataQ name i) (synQ .Z name q.2)) ++ L) [.pauli .X (dataQ name i)]
      (fX i ++ if i ∈ S then (if .Z = key then [misread (n - 1) q] else []) else []) := by
  refine Leads.hit hn (fun _ => spread_cx_X _ _) (fun j hj hne => spread_cx_X_ne fun e => ?_) (fun j _ => spread_cx_X_ne ?_) (h.xd i hi) (h.xs .Z q.2 q.1 hq)
  · exact hne (dataQ_inj (all_nonneg i hi) (all_nonneg j (hS j hj)) e).symm
  · exact (dataQ_ne_synQ .Z q.2 j).symm

theorem zpart_zd {S : List Int} {q : (Int × Int) × Nat} {L : List Instr} {i : Int} {gs : List Fault}
    (h : Leads .xxzz key name dh dw n L [.pauli .Z (dataQ name i)] gs) :
    Leads .xxzz key name dh dw n (S.map (fun i => .gate2 .cx (dataQ name i) (synQ .Z name q.2)) ++ L) [.pauli .Z (dataQ name i)] gs := by
  refine h.skip fun j hj => ?_
  obtain ⟨a, -, rfl⟩ := List.mem_map.1 hj
  exact spread_cx_Z_ne (dataQ_ne_synQ .Z q.2 i)

theorem zpart_xs {S : List Int} {q : (Int × Int) × Nat} {L : List Instr} {κ : Key} {k : Nat} {gs : List Fault}
    (h : Leads .xxzz key name dh dw n L [.pauli .X (synQ κ name k)] gs) :
    Leads .xxzz key name dh dw n (S.map (fun i => .gate2 .cx (dataQ name i) (synQ .Z name q.2)) ++ L) [.pauli .X (synQ κ name k)] gs := by
  refine h.skip fun j hj => ?_
  obtain ⟨a, -, rfl⟩ := List.mem_map.1 hj
  exact spread_cx_X_ne (dataQ_ne_synQ κ k a).symm

theorem zpart_zs {S : List Int} {q : (Int × Int) × Nat} {L : List Instr} {κ : Key} {k : Nat} {gs : List Fault} (hne : ¬ (κ = .Z ∧ k = q.2))
    (h : Leads .xxzz key name dh dw n L [.pauli .Z (synQ κ name k)] gs) :
    Leads .xxzz key name dh dw n (S.map (fun i => .gate2 .cx (dataQ name i) (synQ .Z name q.2)) ++ L) [.pauli .Z (synQ κ name k)] gs := by
  refine h.skip fun j hj => ?_
  obtain ⟨a, -, rfl⟩ := List.mem_map.1 hj
  refine spread_cx_Z_ne fun e => ?_
  by_cases hκ : κ = .Z
  · subst hκ
    exact hne ⟨rfl, synQ_index e⟩
  · exact synQ_ne hκ _ _ e

theorem zpart_hook {S : List Int} (hS : ∀ i ∈ S, i ∈ allQubits dh dw) {q : (Int × Int) × Nat} (hq : (sitesOf .Z dh dw)[q.2]? = some q.1)
    {L : List Instr} {fX fZ : Int → List Fault} (h : Facts key name dh dw n L fX fZ) :
    Leads .xxzz key name dh dw n (S.map (fun i => .gate2 .cx (dataQ name i) (synQ .Z name q.2)) ++ L) [.pauli .Z (synQ .Z name q.2)] (S.flatMap fZ) := by
  have := Leads.fan (S := S) (g := fun i => .gate2 .cx (dataQ name i) (synQ .Z name q.2)) (e := fun i => .pauli .Z (dataQ name i)) (f := fZ)
    (fun j _ => spread_cx_Z _ _) (fun j _ j' _ => spread_cx_Z_ne (dataQ_ne_synQ .Z q.2 j)) (h.zs .Z q.2 q.1 hq) fun j hj => h.zd j (hS j hj)
  rwa [List.nil_append] at this

theorem flatMap_if {α β : Type} (l : List α) (f : α → β) (P : Prop) [Decidable P] : (l.flatMap fun i => if P then [f i] else []) = if P then l.map f else [] := by
  split
  · induction l with
    | nil => rfl
    | cons a l ih => rw [List.flatMap_cons, ih]; rfl
  · induction l with
    | nil => rfl
    | cons a l ih => rw [List.flatMap_cons, ih]; rfl

/-- The misreadings of the plaquettes still to come. -/
theorem misread_perm {i : Int} {q : (Int × Int) × Nat} {post : List ((Int × Int) × Nat)} {t : Int} :
    (((post.filter fun p => decide (i ∈ around dh dw p.1)).map (misread t)) ++ if i ∈ around dh dw q.1 then [misread t q] else []).Perm
      (((q :: post).filter fun p => decide (i ∈ around dh dw p.1)).map (misread t)) := by
  by_cases h : i ∈ around dh dw q.1
  · rw [if_pos h, List.filter_cons_of_pos (by simpa using h), List.map_cons]
    exact List.perm_append_comm
  · rw [if_neg h, List.filter_cons_of_neg (by simpa using h), List.append_nil]

theorem if_nil_append {P : Prop} [Decidable P] {α : Type} (a b : List α) : ((if P then a else []) ++ if P then b else []) = if P then a ++ b else [] := by
  split <;> rfl

theorem zblocks (H : OddPos dh dw) {post : List ((Int × Int) × Nat)} (hpost : ∀ q ∈ post, (sitesOf .Z dh dw)[q.2]? = some q.1) :
    Facts key name dh dw n (post.flatMap (zblk name dh dw) ++ tailOf name dh dw n)
      (fun i => if key = .Z then flip dw n i :: (post.filter fun p => decide (i ∈ around dh dw p.1)).map (misread (n - 1)) else [])
      (fun i => if key = .X then [flip dw n i] else []) := by
  induction post with
  | nil => exact tail_facts
  | cons q post ih =>
    have F := (ih fun q' hq' => hpost q' (by simp [hq'])).barrier
    have hq := hpost q (by simp)
    rw [List.flatMap_cons, List.append_assoc]
    unfold zblk at *
    rw [List.append_assoc, List.singleton_append]
    refine ⟨fun i hi => ?_, fun i hi => zpart_zd (F.zd i hi), fun κ k p hp => zpart_xs (F.xs κ k p hp), fun κ k p hp => ?_⟩
    · refine (zpart_xd (order_nodup H (site_mem_iff.2 (List.mem_of_getElem? hq))) (fun j hj => order_all hj) hq F hi).like ?_
      by_cases hk : key = .Z
      · subst hk
        simp only [if_true, order_mem]
        exact Amounts.perm (misread_perm.cons _)
      · rw [if_neg hk, if_neg hk, if_neg (Ne.symm hk), ite_self]
        exact Amounts.refl _
    · by_cases hk : κ = .Z ∧ k = q.2
      · obtain ⟨rfl, rfl⟩ := hk
        refine (zpart_hook (fun j hj => order_all hj) hq F).like ?_
        rw [flatMap_if]
        split
        · next hk =>
          subst hk
          exact order_silent (key := .X) H (site_mem_iff.2 (List.mem_of_getElem? hq)) _
        · exact Amounts.refl _
      · exact zpart_zs hk (F.zs κ k p hp)

theorem mem_zipIdx_sites {κ : Key} {q : (Int × Int) × Nat} (h : q ∈ (sitesOf κ dh dw).zipIdx) : (sitesOf κ dh dw)[q.2]? = some q.1 :=
  List.mem_zipIdx_iff_getElem?.1 h

/-- Before all gates of the Z plaquettes. -/
theorem zfull (H : OddPos dh dw) : Facts key name dh dw n (entangleZGates .xxzz name dh dw ++ tailOf name dh dw n)
    (fun i => if key = .Z then [flip dw (n - 1) i] else []) (fun i => if key = .X then [flip dw n i] else []) := by
  rw [zblk_eq]
  refine (zblocks H fun q hq => mem_zipIdx_sites (κ := .Z) hq).like (fun i hi => ?_) fun i hi => Amounts.refl _
  split
  · next h =>
    subst h
    exact flip_early H hi _
  · exact Amounts.refl _

/-! ### The X plaquettes -/

/-- The gates of an X plaquette. -/
def xblk (name : Str) (dh dw : Int) (q : (Int × Int) × Nat) : List Instr :=
  .gate1 .h (synQ .X name q.2) none ::
    ((orderOf .X dh dw q.1).map (fun i => .gate2 .cx (synQ .X name q.2) (dataQ name i)) ++ [.gate1 .h (synQ .X name q.2) none, .barrier])

theorem xblk_eq : entangleXGates .xxzz name dh dw = (xSites dh dw).zipIdx.flatMap (xblk name dh dw) := by
  unfold entangleXGates
  congr 1
  funext q
  unfold xblk xGates cornersOf xxxxGates orderOf
  simp [synQ]

theorem xpart_h {q : (Int × Int) × Nat} {L : List Instr} {fX fZ : Int → List Fault} (h : Facts key name dh dw n L fX fZ) :
    (∀ i ∈ allQubits dh dw, Leads .xxzz key name dh dw n (.gate1 .h (synQ .X name q.2) none :: .barrier :: L) [.pauli .X (dataQ name i)] (fX i)) ∧
    (∀ i ∈ allQubits dh dw, Leads .xxzz key name dh dw n (.gate1 .h (synQ .X name q.2) none :: .barrier :: L) [.pauli .Z (dataQ name i)] (fZ i)) := by
  constructor
  · intro i hi
    refine Leads.cons ?_
    rw [spread_h_ne _ (dataQ_ne_synQ .X q.2 i)]
    exact (h.xd i hi).barrier
  · intro i hi
    refine Leads.cons ?_
    rw [spread_h_ne _ (dataQ_ne_synQ .X q.2 i)]
    exact (h.zd i hi).barrier

/-- The rest of the gates of an X plaquette. -/
def xrest (name : Str) (q : (Int × Int) × Nat) (S : List Int) : List Instr :=
  S.map (fun i => .gate2 .cx (synQ .X name q.2) (dataQ name i)) ++ [.gate1 .h (synQ .X name q.2) none, .barrier]

theorem xpart_xd {S : List Int} {q : (Int × Int) × Nat} {L : List Instr} {fX fZ : Int → List Fault} (h : Facts key name dh dw n L fX fZ) {i : Int}
    (hi : i ∈ allQubits dh dw) : Leads .xxzz key name dh dw n (xrest name q S ++ L) [.pauli .X (dataQ name i)] (fX i) := by
  unfold xrest
  rw [List.append_assoc]
  refine ((xpart_h (q := q) h).1 i hi).skip fun j hj => ?_
  obtain ⟨a, -, rfl⟩ := List.mem_map.1 hj
  exact spread_cx_X_ne (dataQ_ne_synQ .X q.2 i)

theorem xpart_zd {S : List Int} (hn : S.Nodup) (hS : ∀ i ∈ S, i ∈ allQubits dh dw) {q : (Int × Int) × Nat} (hq : (sitesOf .X dh dw)[q.2]? = some q.1)
    {L : List Instr} {fX fZ : Int → List Fault} (h : Facts key name dh dw n L fX fZ) {i : Int} (hi : i ∈ allQubits dh dw) :
    Leads .xxzz key name dh dw n (xrest name q S ++ L) [.pauli .Z (dataQ name i)]
      (fZ i ++ if i ∈ S then (if .X = key then [misread (n - 1) q] else []) else []) := by
  unfold xrest
  rw [List.append_assoc]
  have hs : Leads .xxzz key name dh dw n ([.gate1 .h (synQ .X name q.2) none, .barrier] ++ L) [.pauli .Z (synQ .X name q.2)]
      (if .X = key then [misread (n - 1) q] else []) := by
    refine Leads.cons ?_
    rw [spread_h]
    exact (h.xs .X q.2 q.1 hq).barrier
  refine Leads.hit hn (fun _ => spread_cx_Z _ _) (fun j hj hne => spread_cx_Z_ne fun e => ?_) (fun j _ => spread_cx_Z_ne ?_)
    ((xpart_h (q := q) h).2 i hi) hs
  · exact hne (dataQ_inj (all_nonneg i hi) (all_nonneg j (hS j hj)) e).symm
  · exact (dataQ_ne_synQ .X q.2 j).symm

theorem xpart_syn {S : List Int} {q : (Int × Int) × Nat} {L : List Instr} {κ : Key} {k : Nat} {a : Letter} {gs : List Fault} (hne : ¬ (κ = .X ∧ k = q.2))
    (h : Leads .xxzz key name dh dw n L [.pauli a (synQ κ name k)] gs) : Leads .xxzz key name dh dw n (xrest name q S ++ L) [.pauli a (synQ κ name k)] gs := by
  have hne' : synQ κ name k ≠ synQ .X name q.2 := by
    intro e
    by_cases hκ : κ = .X
    · subst hκ
      exact hne ⟨rfl, synQ_index e⟩
    · exact synQ_ne hκ _ _ e
  unfold xrest
  refine h.skip fun j hj => ?_
  rcases List.mem_append.1 hj with hj | hj
  · obtain ⟨b, -, rfl⟩ := List.mem_map.1 hj
    cases a
    · exact spread_cx_X_ne hne'
    · exact spread_cx_Z_ne (dataQ_ne_synQ κ k b).symm
  · rcases List.mem_cons.1 hj with rfl | hj
    · exact spread_h_ne a hne'
    · cases List.mem_singleton.1 hj
      cases a <;> rfl

theorem xpart_hook {S : List Int} (hS : ∀ i ∈ S, i ∈ allQubits dh dw) {q : (Int × Int) × Nat} (hq : (sitesOf .X dh dw)[q.2]? = some q.1)
    {L : List Instr} {fX fZ : Int → List Fault} (h : Facts key name dh dw n L fX fZ) :
    Leads .xxzz key name dh dw n (xrest name q S ++ L) [.pauli .X (synQ .X name q.2)] (S.flatMap fX) := by
  unfold xrest
  rw [List.append_assoc]
  have hs : Leads .xxzz key name dh dw n ([.gate1 .h (synQ .X name q.2) none, .barrier] ++ L) [.pauli .X (synQ .X name q.2)] [] := by
    refine Leads.cons ?_
    rw [spread_h]
    exact (h.zs .X q.2 q.1 hq).barrier
  have := Leads.fan (S := S) (g := fun i => .gate2 .cx (synQ .X name q.2) (dataQ name i)) (e := fun i => .pauli .X (dataQ name i)) (f := fX)
    (fun j _ => spread_cx_X _ _) (fun j _ j' _ => spread_cx_X_ne (dataQ_ne_synQ .X q.2 j)) hs fun j hj => (xpart_h (q := q) h).1 j (hS j hj)
  rwa [List.nil_append] at this

theorem xpart_turn {S : List Int} {q : (Int × Int) × Nat} (hq : (sitesOf .X dh dw)[q.2]? = some q.1)
    {L : List Instr} {fX fZ : Int → List Fault} (h : Facts key name dh dw n L fX fZ) :
    Leads .xxzz key name dh dw n (xrest name q S ++ L) [.pauli .Z (synQ .X name q.2)] (if .X = key then [misread (n - 1) q] else []) := by
  unfold xrest
  rw [List.append_assoc]
  have hs : Leads .xxzz key name dh dw n ([.gate1 .h (synQ .X name q.2) none, .barrier] ++ L) [.pauli .Z (synQ .X name q.2)]
      (if .X = key then [misread (n - 1) q] else []) := by
    refine Leads.cons ?_
    rw [spread_h]
    exact (h.xs .X q.2 q.1 hq).barrier
  refine hs.skip fun j hj => ?_
  obtain ⟨a, -, rfl⟩ := List.mem_map.1 hj
  exact spread_cx_Z_ne (dataQ_ne_synQ .X q.2 a).symm

theorem xblocks (H : OddPos dh dw) {post : List ((Int × Int) × Nat)} (hpost : ∀ q ∈ post, (sitesOf .X dh dw)[q.2]? = some q.1) :
    Facts key name dh dw n (post.flatMap (xblk name dh dw) ++ (entangleZGates .xxzz name dh dw ++ tailOf name dh dw n))
      (fun i => if key = .Z then [flip dw (n - 1) i] else [])
      (fun i => if key = .X then flip dw n i :: (post.filter fun p => decide (i ∈ around dh dw p.1)).map (misread (n - 1)) else []) := by
  induction post with
  | nil => exact zfull H
  | cons q post ih =>
    have F := ih fun q' hq' => hpost q' (by simp [hq'])
    have hq := hpost q (by simp)
    rw [List.flatMap_cons, List.append_assoc]
    unfold xblk at *
    rw [List.cons_append]
    refine ⟨fun i hi => Leads.cons ?_, fun i hi => Leads.cons ?_, fun κ k p hp => Leads.cons ?_, fun κ k p hp => Leads.cons ?_⟩
    · rw [spread_h_ne _ (dataQ_ne_synQ .X q.2 i)]
      exact xpart_xd F hi
    · rw [spread_h_ne _ (dataQ_ne_synQ .X q.2 i)]
      refine (xpart_zd (order_nodup H (site_mem_iff.2 (List.mem_of_getElem? hq))) (fun j hj => order_all hj) hq F hi).like ?_
      by_cases hk : key = .X
      · subst hk
        simp only [if_true, order_mem]
        exact Amounts.perm (misread_perm.cons _)
      · rw [if_neg hk, if_neg hk, if_neg (Ne.symm hk), ite_self]
        exact Amounts.refl _
    · by_cases hk : κ = .X ∧ k = q.2
      · obtain ⟨rfl, rfl⟩ := hk
        rw [spread_h]
        obtain rfl : p = q.1 := Option.some.inj (hp.symm.trans hq)
        exact xpart_turn hq F
      · rw [spread_h_ne]
        · exact xpart_syn hk (F.xs κ k p hp)
        · intro e
          by_cases hκ : κ = .X
          · subst hκ
            exact hk ⟨rfl, synQ_index e⟩
          · exact synQ_ne hκ _ _ e
    · by_cases hk : κ = .X ∧ k = q.2
      · obtain ⟨rfl, rfl⟩ := hk
        rw [spread_h]
        refine (xpart_hook (fun j hj => order_all hj) hq F).like ?_
        rw [flatMap_if]
        split
        · next hk =>
          subst hk
          exact order_silent (key := .Z) H (site_mem_iff.2 (List.mem_of_getElem? hq)) _
        · exact Amounts.refl _
      · rw [spread_h_ne]
        · exact xpart_syn hk (F.zs κ k p hp)
        · intro e
          by_cases hκ : κ = .X
          · subst hκ
            exact hk ⟨rfl, synQ_index e⟩
          · exact synQ_ne hκ _ _ e

/-! ### Anywhere in the round -/

/-- A qubit and its position (doubled, like those of the plaquettes). -/
def At (name : Str) (dh dw : Int) (x : Qubit) (p : Int × Int) : Prop :=
  (∃ i ∈ allQubits dh dw, x = dataQ name i ∧ p = (2 * (i / dw), 2 * (i % dw))) ∨ ∃ κ k, (sitesOf κ dh dw)[k]? = some p ∧ x = synQ κ name k

/-- The position of a fault. -/
def faultPos : Fault → Int × Int
  | .data _ r c => (2 * r, 2 * c)
  | .meas _ r c => (r, c)

/-- The same position, or neighbouring ones. -/
def Touch (p q : Int × Int) : Prop := p = q ∨ ((q.1 = p.1 - 1 ∨ q.1 = p.1 + 1) ∧ (q.2 = p.2 - 1 ∨ q.2 = p.2 + 1))

/-- A fault at a qubit or next to it. -/
def Close (name : Str) (dh dw : Int) (x : Qubit) (f : Fault) : Prop := ∃ p, At name dh dw x p ∧ Touch p (faultPos f)

theorem close_self {i : Int} (hi : i ∈ allQubits dh dw) (t : Int) : Close name dh dw (dataQ name i) (flip dw t i) :=
  ⟨_, Or.inl ⟨i, hi, rfl, rfl⟩, Or.inl rfl⟩

theorem close_own {κ : Key} {q : (Int × Int) × Nat} (hq : (sitesOf κ dh dw)[q.2]? = some q.1) (t : Int) :
    Close name dh dw (synQ κ name q.2) (misread t q) :=
  ⟨_, Or.inr ⟨κ, q.2, hq, rfl⟩, Or.inl rfl⟩

theorem around_place {p : Int × Int} (hp : p.1 % 2 = 1 ∧ p.2 % 2 = 1) {i : Int} (hi : i ∈ around dh dw p) :
    (2 * (i / dw) = p.1 - 1 ∨ 2 * (i / dw) = p.1 + 1) ∧ (2 * (i % dw) = p.2 - 1 ∨ 2 * (i % dw) = p.2 + 1) := by
  have h := mem_around.1 hi
  obtain ⟨h1, h2⟩ := hp
  have key : ∀ r c, some i = dataAt dh dw r c → i / dw = r ∧ i % dw = c := by
    intro r c h
    have := flip_dataAt (t := 0) h.symm
    unfold flip at this
    simp only [Fault.data.injEq, true_and] at this
    exact this
  unfold cornersOf at h
  simp only [List.mem_cons, List.not_mem_nil, or_false] at h
  rcases h with h | h | h | h
  all_goals
    obtain ⟨e1, e2⟩ := key _ _ h
    rw [e1, e2]
    omega

theorem sites_odd {κ : Key} {p : Int × Int} (hp : p ∈ sitesOf κ dh dw) : p.1 % 2 = 1 ∧ p.2 % 2 = 1 := by
  have h := site_mem_iff.2 hp
  cases κ
  · exact ⟨h.1, h.2.1⟩
  · exact ⟨h.1, h.2.1⟩

theorem close_nbr {κ : Key} {q : (Int × Int) × Nat} (hq : (sitesOf κ dh dw)[q.2]? = some q.1) {i : Int} (hi : i ∈ around dh dw q.1) (t : Int) :
    Close name dh dw (dataQ name i) (misread t q) := by
  refine ⟨_, Or.inl ⟨i, around_all i hi, rfl, rfl⟩, Or.inr ?_⟩
  have := around_place (sites_odd (List.mem_of_getElem? hq)) hi
  show (q.1.1 = 2 * (i / dw) - 1 ∨ q.1.1 = 2 * (i / dw) + 1) ∧ (q.1.2 = 2 * (i % dw) - 1 ∨ q.1.2 = 2 * (i % dw) + 1)
  omega

theorem close_hook {κ : Key} {k : Nat} {p : Int × Int} (hp : (sitesOf κ dh dw)[k]? = some p) {i : Int} (hi : i ∈ around dh dw p) (t : Int) :
    Close name dh dw (synQ κ name k) (flip dw t i) :=
  ⟨_, Or.inr ⟨κ, k, hp, rfl⟩, Or.inr (around_place (sites_odd (List.mem_of_getElem? hp)) hi)⟩

/-- A fault inside the lattice, around round `n` and a qubit. -/
def Near (key : Key) (name : Str) (dh dw : Int) (n : Nat) (x : Qubit) (f : Fault) : Prop :=
  (Fault.time f = n - 1 ∨ Fault.time f = n) ∧ Close name dh dw x f ∧
    match f with
    | .data _ r c => 0 ≤ r ∧ r < dh ∧ 0 ≤ c ∧ c < dw
    | .meas _ r c => Site key dh dw r c

/-- Something wrong at a qubit before the instructions `l` amounts to few faults close to it. -/
def LeadsTo (code : Code) (key : Key) (name : Str) (dh dw : Int) (n : Nat) (x : Qubit) (l : List Instr) (F : List Mark) (c : Nat) : Prop :=
  ∃ gs, Leads code key name dh dw n l F gs ∧ costOf key dh dw gs ≤ c ∧ ∀ f ∈ gs, Near key name dh dw n x f

theorem near_flip (H : OddPos dh dw) {i : Int} (hi : i ∈ allQubits dh dw) {t : Int} (ht : t = n - 1 ∨ t = n) :
    Near key name dh dw n (dataQ name i) (flip dw t i) :=
  ⟨ht, close_self hi t, place H hi⟩

theorem near_hook (H : OddPos dh dw) {κ : Key} {k : Nat} {p : Int × Int} (hp : (sitesOf κ dh dw)[k]? = some p) {i : Int}
    (hi : i ∈ around dh dw p) {t : Int} (ht : t = n - 1 ∨ t = n) : Near key name dh dw n (synQ κ name k) (flip dw t i) :=
  ⟨ht, close_hook hp hi t, place H (around_all i hi)⟩

theorem near_misread {q : (Int × Int) × Nat} (hq : (sitesOf key dh dw)[q.2]? = some q.1) {t : Int} (ht : t = n - 1 ∨ t = n) :
    Near key name dh dw n (synQ key name q.2) (misread t q) :=
  ⟨ht, close_own hq t, siteOf_site.1 (site_mem_iff.2 (List.mem_of_getElem? hq))⟩

theorem near_nbr {q : (Int × Int) × Nat} (hq : (sitesOf key dh dw)[q.2]? = some q.1) {i : Int} (hi : i ∈ around dh dw q.1) {t : Int}
    (ht : t = n - 1 ∨ t = n) : Near key name dh dw n (dataQ name i) (misread t q) :=
  ⟨ht, close_nbr hq hi t, siteOf_site.1 (site_mem_iff.2 (List.mem_of_getElem? hq))⟩

theorem LeadsTo.nothing {code : Code} {x : Qubit} {l : List Instr} {F : List Mark} (h : Leads code key name dh dw n l F []) (c : Nat) :
    LeadsTo code key name dh dw n x l F c := by
  refine ⟨[], h, ?_, by simp⟩
  have := costOf_le (key := key) (dh := dh) (dw := dw) []
  simp only [List.length_nil] at this
  omega

theorem LeadsTo.one {code : Code} {x : Qubit} {l : List Instr} {F : List Mark} {f : Fault} (h : Leads code key name dh dw n l F [f]) (hf : Near key name dh dw n x f)
    {c : Nat} (hc : 2 ≤ c) : LeadsTo code key name dh dw n x l F c := by
  refine ⟨[f], h, ?_, by simpa using hf⟩
  have := costOf_le (key := key) (dh := dh) (dw := dw) [f]
  simp only [List.length_cons, List.length_nil] at this
  omega

theorem LeadsTo.mono {code : Code} {x : Qubit} {l : List Instr} {F : List Mark} {c c' : Nat} (h : LeadsTo code key name dh dw n x l F c) (hc : c ≤ c') :
    LeadsTo code key name dh dw n x l F c' := by
  obtain ⟨gs, h1, h2, h3⟩ := h
  exact ⟨gs, h1, by omega, h3⟩

/-- One of the two errors on a qubit amounts to nothing, the other to few faults. -/
def Cheap (code : Code) (c : Nat) (key : Key) (name : Str) (dh dw : Int) (n : Nat) (l : List Instr) (x : Qubit) : Prop :=
  LeadsTo code key name dh dw n x l [.pauli .X x] c ∧ Leads code key name dh dw n l [.pauli .Z x] [] ∨
    Leads code key name dh dw n l [.pauli .X x] [] ∧ LeadsTo code key name dh dw n x l [.pauli .Z x] c

theorem Cheap.barrier {code : Code} {c : Nat} {l : List Instr} {x : Qubit} (h : Cheap code c key name dh dw n l x) :
    Cheap code c key name dh dw n (.barrier :: l) x := by
  rcases h with ⟨⟨gs, h1, h2⟩, h3⟩ | ⟨h3, ⟨gs, h1, h2⟩⟩
  · exact Or.inl ⟨⟨gs, h1.barrier, h2⟩, h3.barrier⟩
  · exact Or.inr ⟨h3.barrier, ⟨gs, h1.barrier, h2⟩⟩

theorem Facts.cheap_syn {L : List Instr} {fX fZ : Int → List Fault} (h : Facts key name dh dw n L fX fZ) {κ : Key} {k : Nat} {p : Int × Int}
    (hp : (sitesOf κ dh dw)[k]? = some p) : Cheap .xxzz 3 key name dh dw n L (synQ κ name k) := by
  refine Or.inl ⟨?_, h.zs κ k p hp⟩
  have := h.xs κ k p hp
  split at this
  · next e =>
    subst e
    exact LeadsTo.one this (near_misread (q := (p, k)) hp (Or.inl rfl)) (by omega)
  · exact LeadsTo.nothing this 3

theorem cases_tail (H : OddPos dh dw) {l : List Instr} (hl : l <:+ tailOf name dh dw n) :
    (∀ i ∈ allQubits dh dw, Cheap .xxzz 3 key name dh dw n l (dataQ name i)) ∧
    (∀ κ k p, (sitesOf κ dh dw)[k]? = some p → Cheap .xxzz 3 key name dh dw n l (synQ κ name k)) := by
  constructor
  · intro i hi
    have hX := tail_data (code := .xxzz) (key := key) hl hi .X
    have hZ := tail_data (code := .xxzz) (key := key) hl hi .Z
    rw [turned_X] at hX
    rw [turned_Z] at hZ
    cases key
    · exact Or.inr ⟨hX, LeadsTo.one hZ (near_flip H hi (Or.inr rfl)) (by omega)⟩
    · exact Or.inl ⟨LeadsTo.one hX (near_flip H hi (Or.inr rfl)) (by omega), hZ⟩
  · intro κ k p hp
    obtain ⟨⟨gs, h1, h2⟩, h3⟩ := tail_syn (code := .xxzz) (key := key) hl hp
    refine Or.inl ⟨?_, h3⟩
    rcases h2 with rfl | ⟨rfl, rfl | rfl⟩
    · exact LeadsTo.nothing h1 3
    · exact LeadsTo.one h1 (near_misread (q := (p, k)) hp (Or.inr rfl)) (by omega)
    · exact LeadsTo.one h1 (near_misread (q := (p, k)) hp (Or.inl rfl)) (by omega)

/-- A data qubit of which some plaquettes are still to come. -/
theorem LeadsTo.middle {code : Code} (H : OddPos dh dw) {l : List Instr} {F : List Mark} {i : Int} (hi : i ∈ allQubits dh dw) {R : List ((Int × Int) × Nat)}
    (hR : R <:+ nbrs key dh dw i) (h : Leads code key name dh dw n l F (flip dw n i :: R.map (misread (n - 1)))) : LeadsTo code key name dh dw n (dataQ name i) l F 3 := by
  obtain ⟨gs, h1, h2, h3⟩ := flip_middle H hi (n : Int) hR
  refine ⟨gs, h.like h1, h2, fun f hf => ?_⟩
  rcases h3 f hf with (rfl | rfl) | ⟨p, hp, rfl⟩
  · exact near_flip H hi (Or.inr rfl)
  · exact near_flip H hi (Or.inl rfl)
  · exact near_nbr (mem_zipIdx_sites (List.mem_filter.1 hp).1) (by simpa using (List.mem_filter.1 hp).2) (Or.inl rfl)

theorem suffix_nbrs {i : Int} {pre post : List ((Int × Int) × Nat)} {q : (Int × Int) × Nat} (e : (sitesOf key dh dw).zipIdx = pre ++ q :: post) :
    (post.filter fun p => decide (i ∈ around dh dw p.1)) <:+ nbrs key dh dw i ∧
      ((q :: post).filter fun p => decide (i ∈ around dh dw p.1)) <:+ nbrs key dh dw i := by
  unfold nbrs
  rw [e, List.filter_append]
  refine ⟨List.IsSuffix.trans ?_ (List.suffix_append _ _), List.suffix_append _ _⟩
  rw [List.filter_cons]
  split
  · exact List.suffix_cons _ _
  · exact List.suffix_rfl

theorem cases_zblocks (H : OddPos dh dw) {pre post : List ((Int × Int) × Nat)} (e : (sitesOf .Z dh dw).zipIdx = pre ++ post) :
    (∀ i ∈ allQubits dh dw, Cheap .xxzz 3 key name dh dw n (post.flatMap (zblk name dh dw) ++ tailOf name dh dw n) (dataQ name i)) ∧
    (∀ κ k p, (sitesOf κ dh dw)[k]? = some p → Cheap .xxzz 3 key name dh dw n (post.flatMap (zblk name dh dw) ++ tailOf name dh dw n) (synQ κ name k)) := by
  have F : Facts key name dh dw n (post.flatMap (zblk name dh dw) ++ tailOf name dh dw n) _ _ :=
    zblocks H fun q hq => mem_zipIdx_sites (κ := .Z) (by rw [e]; exact List.mem_append_right _ hq)
  refine ⟨fun i hi => ?_, fun κ k p hp => F.cheap_syn hp⟩
  have hX := F.xd i hi
  have hZ := F.zd i hi
  cases key
  · exact Or.inr ⟨hX, LeadsTo.one hZ (near_flip H hi (Or.inr rfl)) (by omega)⟩
  · refine Or.inl ⟨LeadsTo.middle H hi ?_ hX, hZ⟩
    unfold nbrs
    rw [e, List.filter_append]
    exact List.suffix_append _ _

theorem cases_zpart (H : OddPos dh dw) {pre post : List ((Int × Int) × Nat)} {q : (Int × Int) × Nat}
    (e : (sitesOf .Z dh dw).zipIdx = pre ++ q :: post) {S : List Int} (hS : S <:+ orderOf .Z dh dw q.1) :
    (∀ i ∈ allQubits dh dw, Cheap .xxzz 3 key name dh dw n (S.map (fun i => .gate2 .cx (dataQ name i) (synQ .Z name q.2)) ++
      (.barrier :: (post.flatMap (zblk name dh dw) ++ tailOf name dh dw n))) (dataQ name i)) ∧
    (∀ κ k p, (sitesOf κ dh dw)[k]? = some p → Cheap .xxzz 3 key name dh dw n (S.map (fun i => .gate2 .cx (dataQ name i) (synQ .Z name q.2)) ++
      (.barrier :: (post.flatMap (zblk name dh dw) ++ tailOf name dh dw n))) (synQ κ name k)) := by
  have hq : (sitesOf .Z dh dw)[q.2]? = some q.1 := mem_zipIdx_sites (by rw [e]; simp)
  have hsite : SiteOf dh dw .Z q.1 := site_mem_iff.2 (List.mem_of_getElem? hq)
  have F : Facts key name dh dw n (.barrier :: (post.flatMap (zblk name dh dw) ++ tailOf name dh dw n)) _ _ :=
    (zblocks H fun q hq => mem_zipIdx_sites (κ := .Z) (by rw [e]; simp [hq])).barrier
  have hSn : S.Nodup := (order_nodup H hsite).sublist hS.sublist
  have hSa : ∀ i ∈ S, i ∈ allQubits dh dw := fun i hi => order_all (hS.subset hi)
  constructor
  · intro i hi
    have hX := zpart_xd hSn hSa hq F hi
    have hZ := zpart_zd (S := S) (q := q) (F.zd i hi)
    cases key
    · refine Or.inr ⟨?_, LeadsTo.one hZ (near_flip H hi (Or.inr rfl)) (by omega)⟩
      simpa using hX
    · refine Or.inl ⟨?_, hZ⟩
      by_cases hiS : i ∈ S
      · refine LeadsTo.middle H hi (suffix_nbrs e).2 (hX.like ?_)
        rw [if_pos hiS, if_pos rfl, if_pos rfl]
        refine Amounts.perm (List.Perm.cons _ ?_)
        have := misread_perm (dh := dh) (dw := dw) (i := i) (q := q) (post := post) (t := (n : Int) - 1)
        rwa [if_pos (order_mem.1 (hS.subset hiS))] at this
      · refine LeadsTo.middle H hi (suffix_nbrs e).1 (hX.like ?_)
        rw [if_neg hiS, if_pos rfl, List.append_nil]
        exact Amounts.refl _
  · intro κ k p hp
    by_cases hk : κ = .Z ∧ k = q.2
    · obtain ⟨rfl, rfl⟩ := hk
      have h1 := zpart_hook hSa hq F
      have h2 := zpart_xs (S := S) (q := q) (F.xs .Z q.2 p hp)
      rw [flatMap_if] at h1
      cases key
      · refine Or.inr ⟨h2, ?_⟩
        obtain ⟨gs, g1, g2, g3⟩ := hook (key := .X) H hsite hS (n : Int)
        refine ⟨gs, h1.like g1, by omega, fun f hf => ?_⟩
        obtain ⟨i, hi, rfl⟩ := g3 f hf
        exact near_hook H hq hi (Or.inr rfl)
      · exact Or.inl ⟨LeadsTo.one h2 (near_misread (q := (p, q.2)) hp (Or.inl rfl)) (by omega), h1⟩
    · have h1 := zpart_zs (S := S) hk (F.zs κ k p hp)
      have h2 := zpart_xs (S := S) (q := q) (F.xs κ k p hp)
      refine Or.inl ⟨?_, h1⟩
      split at h2
      · next e =>
        subst e
        exact LeadsTo.one h2 (near_misread (q := (p, k)) hp (Or.inl rfl)) (by omega)
      · exact LeadsTo.nothing h2 3

theorem cases_xblocks (H : OddPos dh dw) {pre post : List ((Int × Int) × Nat)} (e : (sitesOf .X dh dw).zipIdx = pre ++ post) :
    (∀ i ∈ allQubits dh dw, Cheap .xxzz 3 key name dh dw n
      (post.flatMap (xblk name dh dw) ++ (entangleZGates .xxzz name dh dw ++ tailOf name dh dw n)) (dataQ name i)) ∧
    (∀ κ k p, (sitesOf κ dh dw)[k]? = some p → Cheap .xxzz 3 key name dh dw n
      (post.flatMap (xblk name dh dw) ++ (entangleZGates .xxzz name dh dw ++ tailOf name dh dw n)) (synQ κ name k)) := by
  have F : Facts key name dh dw n (post.flatMap (xblk name dh dw) ++ (entangleZGates .xxzz name dh dw ++ tailOf name dh dw n)) _ _ :=
    xblocks H fun q hq => mem_zipIdx_sites (κ := .X) (by rw [e]; exact List.mem_append_right _ hq)
  refine ⟨fun i hi => ?_, fun κ k p hp => F.cheap_syn hp⟩
  have hX := F.xd i hi
  have hZ := F.zd i hi
  cases key
  · refine Or.inr ⟨hX, LeadsTo.middle H hi ?_ hZ⟩
    unfold nbrs
    rw [e, List.filter_append]
    exact List.suffix_append _ _
  · exact Or.inl ⟨LeadsTo.one hX (near_flip H hi (Or.inl rfl)) (by omega), hZ⟩

theorem cases_xpart (H : OddPos dh dw) {pre post : List ((Int × Int) × Nat)} {q : (Int × Int) × Nat}
    (e : (sitesOf .X dh dw).zipIdx = pre ++ q :: post) {S : List Int} (hS : S <:+ orderOf .X dh dw q.1) :
    (∀ i ∈ allQubits dh dw, Cheap .xxzz 3 key name dh dw n (xrest name q S ++
      (post.flatMap (xblk name dh dw) ++ (entangleZGates .xxzz name dh dw ++ tailOf name dh dw n))) (dataQ name i)) ∧
    (∀ κ k p, (sitesOf κ dh dw)[k]? = some p → Cheap .xxzz 3 key name dh dw n (xrest name q S ++
      (post.flatMap (xblk name dh dw) ++ (entangleZGates .xxzz name dh dw ++ tailOf name dh dw n))) (synQ κ name k)) := by
  have hq : (sitesOf .X dh dw)[q.2]? = some q.1 := mem_zipIdx_sites (by rw [e]; simp)
  have hsite : SiteOf dh dw .X q.1 := site_mem_iff.2 (List.mem_of_getElem? hq)
  have F : Facts key name dh dw n (post.flatMap (xblk name dh dw) ++ (entangleZGates .xxzz name dh dw ++ tailOf name dh dw n)) _ _ :=
    xblocks H fun q hq => mem_zipIdx_sites (κ := .X) (by rw [e]; simp [hq])
  have hSn : S.Nodup := (order_nodup H hsite).sublist hS.sublist
  have hSa : ∀ i ∈ S, i ∈ allQubits dh dw := fun i hi => order_all (hS.subset hi)
  constructor
  · intro i hi
    have hX := xpart_xd (S := S) (q := q) F hi
    have hZ := xpart_zd hSn hSa hq F hi
    cases key
    · refine Or.inr ⟨hX, ?_⟩
      by_cases hiS : i ∈ S
      · refine LeadsTo.middle H hi (suffix_nbrs e).2 (hZ.like ?_)
        rw [if_pos hiS, if_pos rfl, if_pos rfl]
        refine Amounts.perm (List.Perm.cons _ ?_)
        have := misread_perm (dh := dh) (dw := dw) (i := i) (q := q) (post := post) (t := (n : Int) - 1)
        rwa [if_pos (order_mem.1 (hS.subset hiS))] at this
      · refine LeadsTo.middle H hi (suffix_nbrs e).1 (hZ.like ?_)
        rw [if_neg hiS, if_pos rfl, List.append_nil]
        exact Amounts.refl _
    · refine Or.inl ⟨LeadsTo.one hX (near_flip H hi (Or.inl rfl)) (by omega), ?_⟩
      simpa using hZ
  · intro κ k p hp
    by_cases hk : κ = .X ∧ k = q.2
    · obtain ⟨rfl, rfl⟩ := hk
      have h1 := xpart_hook hSa hq F
      have h2 := xpart_turn (S := S) hq F
      rw [flatMap_if] at h1
      cases key
      · exact Or.inr ⟨h1, LeadsTo.one h2 (near_misread (q := q) hq (Or.inl rfl)) (by omega)⟩
      · refine Or.inl ⟨?_, h2⟩
        obtain ⟨gs, g1, g2, g3⟩ := hook (key := .Z) H hsite hS ((n : Int) - 1)
        refine ⟨gs, h1.like g1, by omega, fun f hf => ?_⟩
        obtain ⟨i, hi, rfl⟩ := g3 f hf
        exact near_hook H hq hi (Or.inl rfl)
    · have h1 := xpart_syn (S := S) hk (F.zs κ k p hp)
      have h2 := xpart_syn (S := S) (q := q) hk (F.xs κ k p hp)
      refine Or.inl ⟨?_, h1⟩
      split at h2
      · next e =>
        subst e
        exact LeadsTo.one h2 (near_misread (q := (p, k)) hp (Or.inl rfl)) (by omega)
      · exact LeadsTo.nothing h2 3

theorem round_eq : roundInstrs .xxzz name dh dw (roundName name n) =
    (xSites dh dw).zipIdx.flatMap (xblk name dh dw) ++ (entangleZGates .xxzz name dh dw ++ tailOf name dh dw n) := by
  unfold roundInstrs tailOf
  rw [xblk_eq, measureSyn_eq, resetSyn_eq]
  simp only [List.append_assoc]

theorem cases_round (H : OddPos dh dw) {l : List Instr} (hl : l <:+ roundInstrs .xxzz name dh dw (roundName name n)) :
    (∀ i ∈ allQubits dh dw, Cheap .xxzz 3 key name dh dw n l (dataQ name i)) ∧
    (∀ κ k p, (sitesOf κ dh dw)[k]? = some p → Cheap .xxzz 3 key name dh dw n l (synQ κ name k)) := by
  rw [round_eq] at hl
  rcases suffix_cases hl with hl | ⟨a, ha, rfl⟩
  · rw [zblk_eq] at hl
    rcases suffix_cases hl with hl | ⟨a, ha, rfl⟩
    · exact cases_tail H hl
    · rcases suffix_flatMap ha with rfl | ⟨pre, q, post, s, e, hs, rfl⟩
      · exact cases_tail H List.suffix_rfl
      · rcases suffix_cases hs with hs | ⟨b, hb, rfl⟩
        · have := cases_zblocks (key := key) (name := name) (n := n) H (pre := pre ++ [q]) (post := post) (by
            show (zSites dh dw).zipIdx = _
            rw [e]; simp)
          rcases List.suffix_cons_iff.1 hs with rfl | hs
          · exact ⟨fun i hi => (this.1 i hi).barrier, fun κ k p hp => (this.2 κ k p hp).barrier⟩
          · rw [List.suffix_nil.1 hs]
            exact this
        · obtain ⟨S, hS, rfl⟩ := suffix_map hb
          have := cases_zpart (key := key) (name := name) (n := n) H e hS
          simpa only [List.append_assoc, List.singleton_append, List.cons_append, List.nil_append] using this
  · rcases suffix_flatMap ha with rfl | ⟨pre, q, post, s, e, hs, rfl⟩
    · exact cases_xblocks H (pre := (xSites dh dw).zipIdx) (post := []) (by simp [sitesOf])
    · have full := cases_xblocks (key := key) (name := name) (n := n) H (pre := pre ++ [q]) (post := post) (by
        show (xSites dh dw).zipIdx = _
        rw [e]; simp)
      rw [List.append_assoc]
      rcases List.suffix_cons_iff.1 hs with rfl | hs
      · have := cases_xblocks (key := key) (name := name) (n := n) H (pre := pre) (post := q :: post) e
        rw [List.flatMap_cons, List.append_assoc] at this
        exact this
      · rcases suffix_cases hs with hs | ⟨b, hb, rfl⟩
        · rcases List.suffix_cons_iff.1 hs with rfl | hs
          · exact cases_xpart H e List.nil_suffix
          · rcases List.suffix_cons_iff.1 hs with rfl | hs
            · exact ⟨fun i hi => (full.1 i hi).barrier, fun κ k p hp => (full.2 κ k p hp).barrier⟩
            · rw [List.suffix_nil.1 hs]
              exact full
        · obtain ⟨S, hS, rfl⟩ := suffix_map hb
          exact cases_xpart H e hS

end Qtc
