import Verif.Proof.QBlockSlipsXZZX
/-!
Executions of memories with errors anywhere in their circuits.
-/
namespace Qtc
open Spec Function

variable {cls : QClass} {q : TQubit} {dh dw : Int} {ops : List QOp} {w : World} {sz : Str → Nat} {key : Key} {name : Str} {n : Nat} {code : Code}

/-! ### One error -/

theorem foreign_xxzz {x : Qubit} (hx : Foreign name dh dw x) (a : Letter) :
    ∀ i ∈ roundInstrs .xxzz name dh dw (roundName name n), spread i (.pauli a x) = [.pauli a x] := by
  intro i hi
  rw [round_eq] at hi
  have hcx : ∀ y z, x ≠ y → x ≠ z → spread (.gate2 .cx y z) (.pauli a x) = [.pauli a x] := by
    intro y z h1 h2
    cases a
    · exact spread_cx_X_ne h1
    · exact spread_cx_Z_ne h2
  rcases List.mem_append.1 hi with hi | hi
  · obtain ⟨p, hp, hi⟩ := List.mem_flatMap.1 hi
    have hs := hx.2 .X p.2 p.1 (mem_zipIdx_sites (κ := .X) hp)
    rcases List.mem_cons.1 hi with rfl | hi
    · exact spread_h_ne a hs
    rcases List.mem_append.1 hi with hi | hi
    · obtain ⟨j, hj, rfl⟩ := List.mem_map.1 hi
      exact hcx _ _ hs (hx.1 j (order_all hj))
    rcases List.mem_cons.1 hi with rfl | hi
    · exact spread_h_ne a hs
    · cases List.mem_singleton.1 hi
      cases a <;> rfl
  · rcases List.mem_append.1 hi with hi | hi
    · rw [zblk_eq] at hi
      obtain ⟨p, hp, hi⟩ := List.mem_flatMap.1 hi
      have hs := hx.2 .Z p.2 p.1 (mem_zipIdx_sites (κ := .Z) hp)
      rcases List.mem_append.1 hi with hi | hi
      · obtain ⟨j, hj, rfl⟩ := List.mem_map.1 hi
        exact hcx _ _ (hx.1 j (order_all hj)) hs
      · cases List.mem_singleton.1 hi
        cases a <;> rfl
    · exact tail_fixed hx.2 a i hi

theorem foreign_xzzx (H : OddPos dh dw) {x : Qubit} (hx : Foreign name dh dw x) (a : Letter) :
    ∀ i ∈ roundInstrs .xzzx name dh dw (roundName name n), spread i (.pauli a x) = [.pauli a x] := by
  intro i hi
  rw [round_xzzx H] at hi
  have hblk : ∀ κ, i ∈ (sitesOf κ dh dw).zipIdx.flatMap (xzblk name dh dw κ) → spread i (.pauli a x) = [.pauli a x] := by
    intro κ hi
    obtain ⟨p, hp, hi⟩ := List.mem_flatMap.1 hi
    rcases List.mem_append.1 hi with hi | hi
    · obtain ⟨j, hj, hi⟩ := List.mem_flatMap.1 hi
      exact corner_skip (hx.2 κ p.2 p.1 (mem_zipIdx_sites hp)) (hx.1 j (around_all j hj)) a i hi
    · cases List.mem_singleton.1 hi
      cases a <;> rfl
  rcases List.mem_append.1 hi with hi | hi
  · exact hblk .X hi
  rcases List.mem_append.1 hi with hi | hi
  · exact hblk .Z hi
  · exact tail_fixed hx.2 a i hi

theorem foreign_fixed (H : OddPos dh dw) {x : Qubit} (hx : Foreign name dh dw x) (a : Letter) :
    ∀ i ∈ roundInstrs code name dh dw (roundName name n), spread i (.pauli a x) = [.pauli a x] := by
  cases code
  · exact foreign_xxzz hx a
  · exact foreign_xzzx H hx a

theorem cheap_lattice (H : OddPos dh dw) {l : List Instr} (hl : l <:+ roundInstrs code name dh dw (roundName name n)) :
    (∀ i ∈ allQubits dh dw, Cheap code (slipCost code key) key name dh dw n l (dataQ name i)) ∧
    (∀ κ k p, (sitesOf κ dh dw)[k]? = some p → Cheap code (slipCost code key) key name dh dw n l (synQ κ name k)) := by
  cases code
  · cases key <;> exact cases_round H hl
  · exact round_cheap H hl

theorem cheap_round (H : OddPos dh dw) {l : List Instr} (hl : l <:+ roundInstrs code name dh dw (roundName name n)) (x : Qubit) :
    Cheap code (slipCost code key) key name dh dw n l x := by
  by_cases h1 : ∃ i ∈ allQubits dh dw, x = dataQ name i
  · obtain ⟨i, hi, rfl⟩ := h1
    exact (cheap_lattice H hl).1 i hi
  by_cases h2 : ∃ κ k p, (sitesOf κ dh dw)[k]? = some p ∧ x = synQ κ name k
  · obtain ⟨κ, k, p, hp, rfl⟩ := h2
    exact (cheap_lattice H hl).2 κ k p hp
  have hx : Foreign name dh dw x := ⟨fun i hi e => h1 ⟨i, hi, e⟩, fun κ k p hp e => h2 ⟨κ, k, p, hp, e⟩⟩
  have : ∀ a, Leads code key name dh dw n l [.pauli a x] [] := by
    intro a
    have h3 : Leads code key name dh dw n [] [.pauli a x] [] := leads_end (by rw [mf_foreign hx]; exact Amounts.refl _)
    have := h3.skip (l := l) fun i hi => foreign_fixed H hx a i (hl.subset hi)
    rwa [List.append_nil] at this
  exact Or.inl ⟨LeadsTo.nothing (this .X) _, this .Z⟩

theorem slip_round (H : OddPos dh dw) (s : Slip) :
    LeadsTo code key name dh dw n s.qubit ((roundInstrs code name dh dw (roundName name n)).drop s.pos) s.marks (slipCost code key) := by
  have hc := cheap_round (code := code) (key := key) (name := name) (n := n) H (List.drop_suffix s.pos _) s.qubit
  unfold Slip.marks
  rcases hc with ⟨⟨gs, h1, h2, h3⟩, h4⟩ | ⟨h4, ⟨gs, h1, h2, h3⟩⟩
  · cases s.x <;> cases s.z
    · exact LeadsTo.nothing (Leads.none _) _
    · exact LeadsTo.nothing h4 _
    · exact ⟨gs, h1, h2, h3⟩
    · refine ⟨gs, ?_, h2, h3⟩
      have := h1.append h4
      rwa [List.append_nil] at this
  · cases s.x <;> cases s.z
    · exact LeadsTo.nothing (Leads.none _) _
    · exact ⟨gs, h1, h2, h3⟩
    · exact LeadsTo.nothing h4 _
    · refine ⟨gs, ?_, h2, h3⟩
      have := h4.append h1
      rwa [List.nil_append] at this

/-- A fault inside the lattice before the end of round `n`. -/
def InTime (key : Key) (dh dw : Int) (n : Nat) : Fault → Prop
  | .data t r c => 0 ≤ t ∧ t < n ∧ 0 ≤ r ∧ r < dh ∧ 0 ≤ c ∧ c < dw
  | .meas t r c => 0 ≤ t ∧ t < n ∧ Site key dh dw r c

theorem InTime.mono {n n' : Nat} (h : n ≤ n') {f : Fault} (hf : InTime key dh dw n f) : InTime key dh dw n' f := by
  cases f with
  | data t r c => obtain ⟨h1, h2, h3⟩ := hf; exact ⟨h1, by omega, h3⟩
  | meas t r c => obtain ⟨h1, h2, h3⟩ := hf; exact ⟨h1, by omega, h3⟩

theorem InTime.time {n : Nat} {f : Fault} (hf : InTime key dh dw n f) : Fault.time f < n := by
  cases f with
  | data t r c => exact hf.2.1
  | meas t r c => exact hf.2.1

theorem Near.inside {x : Qubit} {f : Fault} (hn : 1 ≤ n) (hf : Near key name dh dw n x f) : InTime key dh dw (n + 1) f := by
  cases f with
  | data t r c => obtain ⟨h1, -, h2⟩ := hf; simp only [Fault.time] at h1; exact ⟨by omega, by push_cast; omega, h2⟩
  | meas t r c => obtain ⟨h1, -, h2⟩ := hf; simp only [Fault.time] at h1; exact ⟨by omega, by push_cast; omega, h2⟩

/-- What single errors amount to, together. -/
theorem slips_amount {c N : Nat} {l : List Instr} {P : Qubit → Fault → Prop}
    (h : ∀ s : Slip, ∃ gs, Amounts key dh dw ((travel (l.drop s.pos) s.marks).flatMap (markFaults code key name dh dw N)) gs ∧
      costOf key dh dw gs ≤ c ∧ ∀ f ∈ gs, P s.qubit f) (E : List Slip) :
    ∃ gs, Amounts key dh dw ((wrongAfter E l).flatMap (markFaults code key name dh dw N)) gs ∧
      costOf key dh dw gs ≤ c * E.length ∧ ∀ f ∈ gs, ∃ s ∈ E, P s.qubit f := by
  induction E with
  | nil =>
    refine ⟨[], Amounts.refl _, ?_, by simp⟩
    have := costOf_le (key := key) (dh := dh) (dw := dw) []
    simpa using this
  | cons s E ih =>
    obtain ⟨gs, h1, h2, h3⟩ := h s
    obtain ⟨hs, g1, g2, g3⟩ := ih
    refine ⟨gs ++ hs, ?_, ?_, ?_⟩
    · unfold wrongAfter at *
      rw [List.flatMap_cons, List.flatMap_append]
      exact h1.append g1
    · have := costOf_append (key := key) (dh := dh) (dw := dw) gs hs
      rw [List.length_cons, Nat.mul_add, Nat.mul_one]
      omega
    · intro f hf
      rcases List.mem_append.1 hf with hf | hf
      · exact ⟨s, List.mem_cons_self, h3 f hf⟩
      · obtain ⟨u, hu, hp⟩ := g3 f hf
        exact ⟨u, List.mem_cons_of_mem _ hu, hp⟩

theorem round_amount (H : OddPos dh dw) (hn : 1 ≤ n) (E : List Slip) :
    ∃ gs, Amounts key dh dw ((wrongAfter E (roundInstrs code name dh dw (roundName name n))).flatMap (markFaults code key name dh dw (n + 1))) gs ∧
      costOf key dh dw gs ≤ slipCost code key * E.length ∧ ∀ f ∈ gs, ∃ s ∈ E, InTime key dh dw (n + 1) f ∧ Near key name dh dw n s.qubit f :=
  slips_amount (P := fun x f => InTime key dh dw (n + 1) f ∧ Near key name dh dw n x f) (fun s => by
    obtain ⟨gs, h1, h2, h3⟩ := slip_round (code := code) (key := key) (name := name) (n := n) H s
    exact ⟨gs, h1, h2, fun f hf => ⟨(h3 f hf).inside hn, h3 f hf⟩⟩) E

/-! ### Gates that errors pass -/

/-- Instructions that do not change Pauli errors. -/
def Still (l : List Instr) : Prop := ∀ i ∈ l, ∀ m, spread i m = [m]

theorem travel_still {l : List Instr} (h : Still l) (F : List Mark) : travel l F = F := by
  induction l with
  | nil => rfl
  | cons i l ih =>
    rw [travel]
    have : F.flatMap (spread i) = F := by
      have e : spread i = fun m => [m] := funext fun m => h i (by simp) m
      rw [e]
      exact List.flatMap_singleton' F
    rw [this]
    exact ih fun j hj => h j (by simp [hj])

theorem still_amount (H : OddPos dh dw) {l : List Instr} (hl : Still l) (E : List Slip) :
    ∃ gs, Amounts key dh dw ((wrongAfter E l).flatMap (markFaults code key name dh dw (n + 1))) gs ∧
      costOf key dh dw gs ≤ slipCost code key * E.length ∧ ∀ f ∈ gs, ∃ s ∈ E, InTime key dh dw (n + 1) f ∧ Near key name dh dw (n + 1) s.qubit f := by
  refine slips_amount (P := fun x f => InTime key dh dw (n + 1) f ∧ Near key name dh dw (n + 1) x f) (fun s => ?_) E
  rw [travel_still fun i hi => hl i (List.mem_of_mem_drop hi)]
  have hq : (∃ f, (InTime key dh dw (n + 1) f ∧ Near key name dh dw (n + 1) s.qubit f) ∧ Amounts key dh dw (markFaults code key name dh dw (n + 1) (.pauli .X s.qubit)) [f] ∧
        Amounts key dh dw (markFaults code key name dh dw (n + 1) (.pauli .Z s.qubit)) []) ∨
      (∃ f, (InTime key dh dw (n + 1) f ∧ Near key name dh dw (n + 1) s.qubit f) ∧ Amounts key dh dw (markFaults code key name dh dw (n + 1) (.pauli .Z s.qubit)) [f] ∧
        Amounts key dh dw (markFaults code key name dh dw (n + 1) (.pauli .X s.qubit)) []) ∨
      (Amounts key dh dw (markFaults code key name dh dw (n + 1) (.pauli .X s.qubit)) [] ∧
        Amounts key dh dw (markFaults code key name dh dw (n + 1) (.pauli .Z s.qubit)) []) := by
    generalize s.qubit = x
    by_cases h1 : ∃ i ∈ allQubits dh dw, x = dataQ name i
    · obtain ⟨i, hi, rfl⟩ := h1
      have hX := mf_data (code := code) (key := key) (name := name) (n := n) hi .X
      have hZ := mf_data (code := code) (key := key) (name := name) (n := n) hi .Z
      rw [turned_kind] at hX hZ
      have hin : InTime key dh dw (n + 1) (flip dw n i) ∧ Near key name dh dw (n + 1) (dataQ name i) (flip dw n i) :=
        ⟨⟨by omega, by push_cast; omega, place H hi⟩, near_flip H hi (Or.inl (by push_cast; omega))⟩
      cases e : kind code key i <;> rw [e] at hX hZ
      · exact Or.inr (Or.inl ⟨_, hin, hZ, hX⟩)
      · exact Or.inl ⟨_, hin, hX, hZ⟩
    by_cases h2 : ∃ κ k p, (sitesOf κ dh dw)[k]? = some p ∧ x = synQ κ name k
    · obtain ⟨κ, k, p, hp, rfl⟩ := h2
      have hX := mf_syn (code := code) (key := key) (name := name) (n := n) hp .X
      have hZ := mf_syn (code := code) (key := key) (name := name) (n := n) hp .Z
      rw [if_neg (by rintro ⟨-, h⟩; cases h)] at hZ
      by_cases hk : κ = key
      · subst hk
        rw [if_pos ⟨rfl, rfl⟩] at hX
        exact Or.inl ⟨misread n (p, k), ⟨⟨by omega, by push_cast; omega, siteOf_site.1 (site_mem_iff.2 (List.mem_of_getElem? hp))⟩,
          near_misread (q := (p, k)) hp (Or.inl (by push_cast; omega))⟩, hX, hZ⟩
      · rw [if_neg (fun h => hk h.1)] at hX
        exact Or.inr (Or.inr ⟨hX, hZ⟩)
    · have hx : Foreign name dh dw x := ⟨fun i hi e => h1 ⟨i, hi, e⟩, fun κ k p hp e => h2 ⟨κ, k, p, hp, e⟩⟩
      rw [mf_foreign hx, mf_foreign hx]
      exact Or.inr (Or.inr ⟨Amounts.refl _, Amounts.refl _⟩)
  have hw := slipCost_three code key
  have hone : ∀ f : Fault, costOf key dh dw [f] ≤ slipCost code key := fun f => by
    have := costOf_le (key := key) (dh := dh) (dw := dw) [f]
    simp only [List.length_cons, List.length_nil] at this
    omega
  have hnil : costOf key dh dw [] ≤ slipCost code key := by
    have := costOf_le (key := key) (dh := dh) (dw := dw) []
    simp only [List.length_nil] at this
    omega
  unfold Slip.marks
  have hsum : ∀ {a b : Bool} {fs gs : List Fault}, Amounts key dh dw (markFaults code key name dh dw (n + 1) (.pauli .X s.qubit)) fs →
      Amounts key dh dw (markFaults code key name dh dw (n + 1) (.pauli .Z s.qubit)) gs →
      Amounts key dh dw (((if a then [Mark.pauli .X s.qubit] else []) ++ if b then [Mark.pauli .Z s.qubit] else []).flatMap
        (markFaults code key name dh dw (n + 1))) ((if a then fs else []) ++ if b then gs else []) := by
    intro a b fs gs h1 h2
    rw [List.flatMap_append]
    refine Amounts.append ?_ ?_
    · cases a
      · exact Amounts.refl _
      · simpa using h1
    · cases b
      · exact Amounts.refl _
      · simpa using h2
  rcases hq with ⟨f, hf, hX, hZ⟩ | ⟨f, hf, hZ, hX⟩ | ⟨hX, hZ⟩
  · refine ⟨_, hsum hX hZ, ?_, ?_⟩
    · rw [ite_self, List.append_nil]
      split
      · exact hone f
      · exact hnil
    · intro g hg
      rw [ite_self, List.append_nil] at hg
      split at hg
      · rw [List.mem_singleton.1 hg]; exact hf
      · cases hg
  · refine ⟨_, hsum hX hZ, ?_, ?_⟩
    · rw [ite_self, List.nil_append]
      split
      · exact hone f
      · exact hnil
    · intro g hg
      rw [ite_self, List.nil_append] at hg
      split at hg
      · rw [List.mem_singleton.1 hg]; exact hf
      · cases hg
  · refine ⟨_, hsum hX hZ, ?_, ?_⟩
    · rw [ite_self, ite_self]
      exact hnil
    · intro g hg
      rw [ite_self, ite_self] at hg
      cases hg

/-! ### The operations of a memory -/

theorem gate_still {g : G1} (h : g ≠ .h) (x : Qubit) (m : Mark) : spread (.gate1 g x none) m = [m] := by
  cases g <;> cases m <;> first | rfl | exact absurd rfl h

theorem barrier_still (m : Mark) : spread .barrier m = [m] := by cases m <;> rfl

theorem logical_still {g : Int → G1} (h : ∀ i, g i ≠ .h) {is : List Int} :
    Still (logicalInstrs g name none is) ∧ ∀ i ∈ logicalInstrs g name none is, i.Plain := by
  constructor
  · intro i hi m
    rcases List.mem_append.1 hi with hi | hi
    · obtain ⟨j, -, rfl⟩ := List.mem_map.1 hi; exact gate_still (h j) _ m
    · rw [List.mem_singleton] at hi; subst hi; exact barrier_still m
  · intro i hi
    rcases List.mem_append.1 hi with hi | hi
    · obtain ⟨j, -, rfl⟩ := List.mem_map.1 hi; trivial
    · rw [List.mem_singleton] at hi; subst hi; trivial

theorem ids_still (xs : List Qubit) : Still (xs.map (fun x => Instr.gate1 .id x none) ++ [.barrier]) ∧
    ∀ i ∈ xs.map (fun x => Instr.gate1 .id x none) ++ [.barrier], i.Plain := by
  constructor
  · intro i hi m
    rcases List.mem_append.1 hi with hi | hi
    · obtain ⟨j, -, rfl⟩ := List.mem_map.1 hi; exact gate_still (by simp) _ m
    · rw [List.mem_singleton] at hi; subst hi; exact barrier_still m
  · intro i hi
    rcases List.mem_append.1 hi with hi | hi
    · obtain ⟨j, -, rfl⟩ := List.mem_map.1 hi; trivial
    · rw [List.mem_singleton] at hi; subst hi; trivial

theorem memory_still (A : After cls q dh dw ops w) {o : QOp} (ho : MemoryOp o) (hs : o ≠ .stabilize) :
    Still (added q o w) ∧ ∀ i ∈ added q o w, i.Plain := by
  cases o with
  | stabilize => exact absurd rfl hs
  | id => rw [added_id A]; exact ids_still _
  | idData => rw [added_idData A]; exact ids_still _
  | x =>
    rw [Emits.added (o := .x) A.own.2.placed.emits_x]
    refine logical_still fun i => ?_
    unfold Code.gateX
    split
    · simp
    · split <;> simp
  | z =>
    rw [Emits.added (o := .z) A.own.2.placed.emits_z]
    refine logical_still fun i => ?_
    unfold Code.gateZ
    split
    · simp
    · split <;> simp
  | _ => exact ho.elim

theorem mem_travel_bit {b : Clbit} {l : List Instr} {F : List Mark} (h : Mark.bit b ∈ travel l F) : Mark.bit b ∈ F ∨ ∃ x, Instr.measure x b ∈ l := by
  induction l generalizing F with
  | nil => exact Or.inl h
  | cons i l ih =>
    rcases ih h with h | ⟨x, hx⟩
    · obtain ⟨m, hm, hb⟩ := List.mem_flatMap.1 h
      by_cases e : m = .bit b
      · subst e; exact Or.inl hm
      · right
        unfold spread at hb
        split at hb <;> (try split at hb) <;> (try split at hb) <;> simp at hb
        · subst hb; exact ⟨_, List.mem_cons_self⟩
        all_goals first | exact absurd hb.symm e | (subst hb; exact absurd rfl e)
    · exact Or.inr ⟨x, by simp [hx]⟩

theorem wrongAfter_bit {b : Clbit} {l : List Instr} {E : List Slip} (h : Mark.bit b ∈ wrongAfter E l) : ∃ x, Instr.measure x b ∈ l := by
  obtain ⟨s, -, hs⟩ := List.mem_flatMap.1 h
  rcases mem_travel_bit hs with h | ⟨x, hx⟩
  · unfold Slip.marks at h
    rcases List.mem_append.1 h with h | h <;> split at h
    · cases List.mem_singleton.1 h
    · cases h
    · cases List.mem_singleton.1 h
    · cases h
  · exact ⟨x, List.mem_of_mem_drop hx⟩

theorem round_plain_xxzz {i : Instr} (hi : i ∈ roundInstrs .xxzz name dh dw (roundName name n)) : i.Plain ∧ ∀ x b, i = .measure x b → b.reg = roundName name n := by
  rw [round_eq, zblk_eq] at hi
  rcases List.mem_append.1 hi with hi | hi
  · obtain ⟨p, -, hi⟩ := List.mem_flatMap.1 hi
    rcases List.mem_cons.1 hi with rfl | hi
    · exact ⟨trivial, by intro x b e; cases e⟩
    rcases List.mem_append.1 hi with hi | hi
    · obtain ⟨j, -, rfl⟩ := List.mem_map.1 hi
      exact ⟨trivial, by intro x b e; cases e⟩
    rcases List.mem_cons.1 hi with rfl | hi
    · exact ⟨trivial, by intro x b e; cases e⟩
    · cases List.mem_singleton.1 hi
      exact ⟨trivial, by intro x b e; cases e⟩
  rcases List.mem_append.1 hi with hi | hi
  · obtain ⟨p, -, hi⟩ := List.mem_flatMap.1 hi
    rcases List.mem_append.1 hi with hi | hi
    · obtain ⟨j, -, rfl⟩ := List.mem_map.1 hi
      exact ⟨trivial, by intro x b e; cases e⟩
    · cases List.mem_singleton.1 hi
      exact ⟨trivial, by intro x b e; cases e⟩
  rcases List.mem_append.1 hi with hi | hi
  · obtain ⟨p, hp, rfl⟩ := List.mem_map.1 hi
    obtain ⟨κ, k, r, -, rfl⟩ := mem_synBits hp
    exact ⟨trivial, by intro x b e; cases e; rfl⟩
  rcases List.mem_append.1 hi with hi | hi
  · obtain ⟨p, -, rfl⟩ := List.mem_map.1 hi
    exact ⟨trivial, by intro x b e; cases e⟩
  · cases List.mem_singleton.1 hi
    exact ⟨trivial, by intro x b e; cases e⟩

theorem round_plain_xzzx (H : OddPos dh dw) {i : Instr} (hi : i ∈ roundInstrs .xzzx name dh dw (roundName name n)) :
    i.Plain ∧ ∀ x b, i = .measure x b → b.reg = roundName name n := by
  rw [round_xzzx H] at hi
  have hblk : ∀ κ, i ∈ (sitesOf κ dh dw).zipIdx.flatMap (xzblk name dh dw κ) → i.Plain ∧ ∀ x b, i = .measure x b → b.reg = roundName name n := by
    intro κ hi
    obtain ⟨p, -, hi⟩ := List.mem_flatMap.1 hi
    rcases List.mem_append.1 hi with hi | hi
    · obtain ⟨j, -, hi⟩ := List.mem_flatMap.1 hi
      unfold corner at hi
      cases hk : kind .xzzx κ j <;> rw [hk] at hi <;> simp only [List.mem_cons, List.not_mem_nil, or_false] at hi
      · rcases hi with rfl | rfl | rfl <;> exact ⟨trivial, by intro x b e; cases e⟩
      · subst hi
        exact ⟨trivial, by intro x b e; cases e⟩
    · cases List.mem_singleton.1 hi
      exact ⟨trivial, by intro x b e; cases e⟩
  rcases List.mem_append.1 hi with hi | hi
  · exact hblk .X hi
  rcases List.mem_append.1 hi with hi | hi
  · exact hblk .Z hi
  rcases List.mem_append.1 hi with hi | hi
  · obtain ⟨p, hp, rfl⟩ := List.mem_map.1 hi
    obtain ⟨κ, k, r, -, rfl⟩ := mem_synBits hp
    exact ⟨trivial, by intro x b e; cases e; rfl⟩
  rcases List.mem_append.1 hi with hi | hi
  · obtain ⟨p, -, rfl⟩ := List.mem_map.1 hi
    exact ⟨trivial, by intro x b e; cases e⟩
  · cases List.mem_singleton.1 hi
    exact ⟨trivial, by intro x b e; cases e⟩

theorem round_plain (H : OddPos dh dw) {i : Instr} (hi : i ∈ roundInstrs code name dh dw (roundName name n)) :
    i.Plain ∧ ∀ x b, i = .measure x b → b.reg = roundName name n := by
  cases code
  · exact round_plain_xxzz hi
  · exact round_plain_xzzx H hi

/-- One operation of a memory with errors that amount to known faults. -/
theorem Keeps.slipsAs (A : After cls q dh dw ops w) {o : QOp} (ho : MemoryOp o) {v : Bool} {n n' : Nat}
    {fs hs : List Fault} {s s' : QState} {E : List Slip} (hn : ops.count .stabilize = n) (hn' : n' = if o = .stabilize then n + 1 else n)
    (h : Keeps cls.code key q.lat.name dh dw v n fs s) (hR : Run sz (Spec.slipped E 0 (added q o w)) s s')
    (ham : Amounts key dh dw ((wrongAfter E (added q o w)).flatMap (markFaults cls.code key q.lat.name dh dw n')) hs)
    (ht : ∀ f ∈ hs, Fault.time f < n') :
    Keeps cls.code key q.lat.name dh dw (v ^^ decide (o = flipGate key)) n' (fs ++ hs) s' := by
  have hle : n ≤ n' := by rw [hn']; split <;> omega
  have hpl : ∀ i ∈ added q o w, i.Plain := by
    by_cases hs : o = .stabilize
    · subst hs
      rw [added_stabilize A]
      exact fun i hi => (round_plain A.own.2.placed.odd hi).1
    · exact (memory_still A ho hs).2
  have hF : ∀ b, Mark.bit b ∈ wrongAfter E (added q o w) → b.reg = roundName q.lat.name ((n' : Int) - 1) := by
    intro b hb
    obtain ⟨x, hx⟩ := wrongAfter_bit hb
    by_cases hs : o = .stabilize
    · subst hs
      rw [if_pos rfl] at hn'
      rw [added_stabilize A, hn] at hx
      rw [(round_plain A.own.2.placed.odd hx).2 x b rfl, hn']
      congr 1
      push_cast
      omega
    · exfalso
      have := (memory_still A ho hs).1 _ hx (.pauli .X x)
      simp [spread] at this
  obtain ⟨gs, hK, hp⟩ := h.slipped A ho hpl hn hn' hF hR
  refine hK.like ?_ ((Amounts.refl fs).append ((Amounts.perm hp).trans ham))
  intro f hf
  rcases List.mem_append.1 hf with hf | hf
  · have := h.time f hf
    omega
  · exact ht f hf

/-- One operation of a memory, with errors anywhere in its circuit. -/
theorem slips_carried (sz : Str → Nat) (A : After cls q dh dw ops w) {o : QOp} (ho : MemoryOp o) {n n' : Nat}
    {E : List Slip} (hn : ops.count .stabilize = n) (h1 : 1 ≤ n) (hn' : n' = if o = .stabilize then n + 1 else n) :
    ∃ gs, (∀ (v : Bool) (fs : List Fault) (s s' : QState), Keeps cls.code key q.lat.name dh dw v n fs s → Run sz (Spec.slipped E 0 (added q o w)) s s' →
      Keeps cls.code key q.lat.name dh dw (v ^^ decide (o = flipGate key)) n' (fs ++ gs) s') ∧ costOf key dh dw gs ≤ slipCost cls.code key * E.length ∧
      ∀ f ∈ gs, ∃ s ∈ E, InTime key dh dw n' f ∧ Near key q.lat.name dh dw n s.qubit f := by
  have H := A.own.2.placed.odd
  have ham : ∃ hs, Amounts key dh dw ((wrongAfter E (added q o w)).flatMap (markFaults cls.code key q.lat.name dh dw n')) hs ∧
      costOf key dh dw hs ≤ slipCost cls.code key * E.length ∧ ∀ f ∈ hs, ∃ s ∈ E, InTime key dh dw n' f ∧ Near key q.lat.name dh dw n s.qubit f := by
    by_cases hs : o = .stabilize
    · subst hs
      rw [if_pos rfl] at hn'
      rw [added_stabilize A, hn, hn']
      exact round_amount H h1 E
    · rw [if_neg hs] at hn'
      subst hn'
      obtain ⟨m, rfl⟩ : ∃ m, n' = m + 1 := ⟨n' - 1, by omega⟩
      exact still_amount H (memory_still A ho hs).1 E
  obtain ⟨hs, g1, g2, g3⟩ := ham
  exact ⟨hs, fun v fs s s' h hR => h.slipsAs A ho hn hn' hR g1 fun f hf => by
    obtain ⟨_, _, h, _⟩ := g3 f hf
    exact h.time, g2, g3⟩

/-- A memory, with errors anywhere in its circuits. -/
theorem slipsAll_carried (sz : Str → Nat) (A : After cls q dh dw ops w) {l : List (QOp × List Slip)} (hl : ∀ a ∈ l, MemoryOp a.1)
    {n : Nat} (hn : ops.count .stabilize = n) (h1 : 1 ≤ n) :
    ∃ gs, (∀ (v : Bool) (fs : List Fault) (s s' : QState), Keeps cls.code key q.lat.name dh dw v n fs s → Run sz (slippedAll q l w) s s' →
      Keeps cls.code key q.lat.name dh dw (v ^^ decide ((l.map Prod.fst).count (flipGate key) % 2 = 1)) (n + (l.map Prod.fst).count .stabilize)
      (fs ++ gs) s') ∧ costOf key dh dw gs ≤ slipCost cls.code key * slipCount l ∧ ∀ f ∈ gs, InTime key dh dw (n + (l.map Prod.fst).count .stabilize) f ∧
        ∃ a o E s, l[a]? = some (o, E) ∧ s ∈ E ∧ Near key q.lat.name dh dw (n + ((l.take a).map Prod.fst).count .stabilize) s.qubit f := by
  induction l generalizing ops w n with
  | nil =>
    refine ⟨[], fun v fs s s' h hR => ?_, ?_, by simp⟩
    · have : s' = s := hR
      subst this
      simpa using h
    have := costOf_le (key := key) (dh := dh) (dw := dw) []
    simp only [List.length_nil] at this
    have e : slipCount [] = 0 := rfl
    rw [e]
    omega
  | cons a l ih =>
    obtain ⟨o, E⟩ := a
    obtain ⟨gs, k1, k2, k3⟩ := slips_carried (key := key) sz A (hl (o, E) (by simp)) (E := E) hn h1 rfl
    have hle : n ≤ if o = .stabilize then n + 1 else n := by split <;> omega
    obtain ⟨hs, m1, m2, m3⟩ := ih (A.next o) (fun a ha => hl a (by simp [ha])) (n := if o = .stabilize then n + 1 else n) (by
      rw [List.count_append, hn, List.count_cons, List.count_nil]
      by_cases ho : o = .stabilize
      · rw [if_pos ho, if_pos (by simp [ho])]
      · rw [if_neg ho, if_neg (by simp [ho]), Nat.add_zero]) (by omega)
    have e1 : ∀ v : Bool, (v ^^ decide (o = flipGate key) ^^ decide ((l.map Prod.fst).count (flipGate key) % 2 = 1)) =
        (v ^^ decide (((((o, E) :: l).map Prod.fst).count (flipGate key)) % 2 = 1)) := by
      intro v
      rw [List.map_cons, List.count_cons, Bool.xor_assoc]
      congr 1
      by_cases ho : o = flipGate key
      · rw [decide_eq_true ho, if_pos (by simp [ho]), Bool.true_xor, ← decide_not, decide_eq_decide]
        omega
      · rw [decide_eq_false ho, if_neg (by simp [ho]), Bool.false_xor, Nat.add_zero]
    have e2 : (if o = .stabilize then n + 1 else n) + (l.map Prod.fst).count .stabilize = n + (((o, E) :: l).map Prod.fst).count .stabilize := by
      rw [List.map_cons, List.count_cons]
      by_cases ho : o = .stabilize
      · rw [if_pos ho, if_pos (by simp [ho])]; omega
      · rw [if_neg ho, if_neg (by simp [ho])]; omega
    rw [e2] at m3
    refine ⟨gs ++ hs, fun v fs s s' h hR => ?_, ?_, fun f hf => ?_⟩
    · obtain ⟨t, r1, r2⟩ := Run.append.1 (show Run sz (Spec.slipped E 0 (added q o w) ++ slippedAll q l (q.op o w).2) s s' from hR)
      have := m1 _ _ _ _ (k1 v fs s t h r1) r2
      rwa [e1, e2, List.append_assoc] at this
    · have := costOf_append (key := key) (dh := dh) (dw := dw) gs hs
      have e3 : slipCount ((o, E) :: l) = E.length + slipCount l := by unfold slipCount; rw [List.map_cons, List.sum_cons]
      rw [e3, Nat.mul_add]
      omega
    · rcases List.mem_append.1 hf with hf | hf
      · obtain ⟨s, hs, h1, h2⟩ := k3 f hf
        exact ⟨InTime.mono (by omega : (if o = .stabilize then n + 1 else n) ≤ _) h1, 0, o, E, s, rfl, hs, h2⟩
      · obtain ⟨h1, b, o', E', s, h2, h3, h4⟩ := m3 f hf
        refine ⟨h1, b + 1, o', E', s, h2, h3, ?_⟩
        rw [List.take_succ_cons, List.map_cons, List.count_cons]
        convert h4 using 1
        by_cases ho : o = .stabilize
        · rw [if_pos (by simp [ho]), if_pos ho]; omega
        · rw [if_neg (by simp [ho]), if_neg ho]; omega

/-- The same for one execution. -/
theorem Keeps.slipsAll (A : After cls q dh dw ops w) {l : List (QOp × List Slip)} (hl : ∀ a ∈ l, MemoryOp a.1) {v : Bool}
    {n : Nat} {fs : List Fault} {s s' : QState} (hn : ops.count .stabilize = n) (h1 : 1 ≤ n) (h : Keeps cls.code key q.lat.name dh dw v n fs s)
    (hR : Run sz (slippedAll q l w) s s') :
    ∃ gs, Keeps cls.code key q.lat.name dh dw (v ^^ decide ((l.map Prod.fst).count (flipGate key) % 2 = 1)) (n + (l.map Prod.fst).count .stabilize)
      (fs ++ gs) s' ∧ costOf key dh dw gs ≤ slipCost cls.code key * slipCount l ∧ ∀ f ∈ gs, InTime key dh dw (n + (l.map Prod.fst).count .stabilize) f ∧
        ∃ a o E s, l[a]? = some (o, E) ∧ s ∈ E ∧ Near key q.lat.name dh dw (n + ((l.take a).map Prod.fst).count .stabilize) s.qubit f := by
  obtain ⟨gs, g1, g2, g3⟩ := slipsAll_carried (key := key) sz A hl hn h1
  exact ⟨gs, g1 v fs s s' h hR, g2, g3⟩

/-! ### Circuits -/

theorem slipped_none (k : Nat) (l : List Instr) : slipped [] k l = l := by
  induction l generalizing k with
  | nil => rfl
  | cons i l ih => rw [slipped, ih]; rfl

theorem slippedAll_append (l l' : List (QOp × List Slip)) (w : World) :
    slippedAll q (l ++ l') w = slippedAll q l w ++ slippedAll q l' (q.ops (l.map Prod.fst) w) := by
  induction l generalizing w with
  | nil => rfl
  | cons a l ih =>
    show slipped a.2 0 (added q a.1 w) ++ slippedAll q (l ++ l') (q.op a.1 w).2 = slipped a.2 0 (added q a.1 w) ++ slippedAll q l (q.op a.1 w).2 ++ _
    rw [ih, List.append_assoc]
    rfl

theorem slippedAll_none (l : List QOp) (w : World) : slippedAll q (l.map fun o => (o, [])) w = noisyAll q (l.map fun o => (o, noErrs)) w := by
  induction l generalizing w with
  | nil => rfl
  | cons o l ih =>
    show slipped [] 0 (added q o w) ++ slippedAll q (l.map fun o => (o, [])) (q.op o w).2 = withErrors noErrs (added q o w) ++ _
    rw [slipped_none, withErrors_noErrs, ih]

theorem faultsOf_none {code : Code} (l : List QOp) (n : Nat) : faultsOf code key name dh dw n (l.map fun o => (o, noErrs)) = [] := by
  induction l generalizing n with
  | nil => rfl
  | cons o l ih =>
    rw [List.map_cons]
    unfold faultsOf
    rw [faultsIn_noErrs, ih, List.append_nil]

theorem costOf_takePlace (last : Int) (fs : List Fault) : costOf key dh dw (takePlace last fs) ≤ costOf key dh dw fs := by
  unfold costOf oddLines
  have h1 : (takePlace last fs).length ≤ fs.length := List.length_filter_le _ _
  have h2 : ∀ k : Int, xorAll ((takePlace last fs).map (Fault.inLine key k)) = xorAll (fs.map (Fault.inLine key k)) := by
    intro k
    unfold takePlace
    rw [xorAll_filter]
    congr 1
    refine List.map_congr_left fun f _ => ?_
    cases f with
    | data t r c => simp
    | meas t r c => simp [Fault.inLine]
  simp only [h2]
  omega

end Qtc
