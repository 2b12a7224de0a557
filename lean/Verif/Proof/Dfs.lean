import Verif.Proof.GraphBuild
namespace Qtc
open Spec

/-- The nodes of time step `t`. -/
def SN (key : Key) (dh dw t : Int) (n : Node) : Prop :=
  (n.t = t ∧ Site key dh dw n.r2 n.c2) ∨ (n.t = -1 ∧ Bdry key dh dw n.r2 n.c2)

/-- Diagonal neighbours. -/
def Diag (a b : Node) : Prop :=
  (b.r2 = a.r2 - 2 ∨ b.r2 = a.r2 + 2) ∧ (b.c2 = a.c2 - 2 ∨ b.c2 = a.c2 + 2)

theorem Diag.symm {a b : Node} (h : Diag a b) : Diag b a := by unfold Diag at *; omega

theorem mem_pyRangeStep {n j : Int} : j ∈ pyRangeStep n 2 ↔ 0 ≤ j ∧ j < n ∧ j % 2 = 0 := by
  unfold pyRangeStep
  simp only [List.mem_map, List.mem_range]
  rw [fdiv_pos_eq _ (by omega)]
  constructor
  · rintro ⟨k, hk, rfl⟩
    simp only [Int.ofNat_eq_natCast]
    omega
  · rintro ⟨h1, h2, h3⟩
    refine ⟨(j / 2).toNat, ?_, ?_⟩
    · omega
    · simp only [Int.ofNat_eq_natCast]
      omega

theorem mem_virtualNodes {key : Key} {dh dw : Int} (H : OddPos dh dw) {n : Node} :
    n ∈ virtualNodes dh dw key ↔ n.t = -1 ∧ Bdry key dh dw n.r2 n.c2 := by
  unfold OddPos at H
  obtain ⟨t, r, c⟩ := n
  cases key
  · simp only [virtualNodes, List.mem_flatMap, mem_pyRangeStep, List.mem_cons, List.not_mem_nil, or_false,
      Node.mk.injEq, Bdry, Pos]
    constructor
    · rintro ⟨j, h, (h' | h')⟩ <;> omega
    · rintro ⟨h1, h2, h3 | h3⟩
      · exact ⟨(r - 1) / 2, by omega, by left; omega⟩
      · exact ⟨(r + 1) / 2, by omega, by right; omega⟩
  · simp only [virtualNodes, List.mem_flatMap, mem_pyRangeStep, List.mem_cons, List.not_mem_nil, or_false,
      Node.mk.injEq, Bdry, Pos]
    constructor
    · rintro ⟨j, h, (h' | h')⟩ <;> omega
    · rintro ⟨h1, h2, h3 | h3⟩
      · exact ⟨(c + 1) / 2, by omega, by left; omega⟩
      · exact ⟨(c - 1) / 2, by omega, by right; omega⟩

/-- All neighbours in a time step, visited or not. -/
def nb (dh dw : Int) (key : Key) (t : Int) (u : Node) : List Node := pending dh dw key t [] u

theorem mem_pending {dh dw : Int} {key : Key} {t : Int} {vis : List Node} {u v : Node} :
    v ∈ pending dh dw key t vis u ↔ v ∈ nb dh dw key t u ∧ v ∉ vis := by
  unfold nb pending
  simp only [List.mem_append, List.mem_map, List.mem_filter, List.not_mem_nil, not_false_eq_true, and_true,
    Bool.and_eq_true, Bool.not_eq_true', List.contains_eq_mem, decide_eq_true_eq, decide_eq_false_iff_not]
  constructor
  · rintro (⟨p, ⟨h1, h2, h3⟩, rfl⟩ | ⟨p, ⟨h1, h2, h3⟩, rfl⟩)
    · exact ⟨Or.inl ⟨p, ⟨h1, h2⟩, rfl⟩, h3⟩
    · exact ⟨Or.inr ⟨p, ⟨h1, h2⟩, rfl⟩, h3⟩
  · rintro ⟨⟨p, ⟨h1, h2⟩, rfl⟩ | ⟨p, ⟨h1, h2⟩, rfl⟩, h3⟩
    · exact Or.inl ⟨p, ⟨h1, h2, h3⟩, rfl⟩
    · exact Or.inr ⟨p, ⟨h1, h2, h3⟩, rfl⟩

theorem mem_diagonals {u : Node} {p : Int × Int} :
    p ∈ diagonals u ↔ (p.1 = u.r2 - 2 ∨ p.1 = u.r2 + 2) ∧ (p.2 = u.c2 - 2 ∨ p.2 = u.c2 + 2) := by
  obtain ⟨a, b⟩ := p
  simp only [diagonals, List.mem_cons, Prod.mk.injEq, List.not_mem_nil, or_false]
  omega

theorem SN_pos {key : Key} {dh dw t : Int} {n : Node} (h : SN key dh dw t n) : Pos key dh dw n.r2 n.c2 := by
  rcases h with ⟨_, h⟩ | ⟨_, h⟩
  · cases key
    · simp only [Site, XSite, Pos] at *; omega
    · simp only [Site, ZSite, Pos] at *; omega
  · exact h.1

theorem pos_site_or_bdry {key : Key} {dh dw r c : Int} (H : OddPos dh dw) (h : Pos key dh dw r c) :
    Site key dh dw r c ∨ Bdry key dh dw r c := by
  unfold OddPos at H
  cases key
  · simp only [Site, XSite, Pos, Bdry] at *; omega
  · simp only [Site, ZSite, Pos, Bdry] at *; omega

theorem site_not_bdry {key : Key} {dh dw r c : Int} (h : Site key dh dw r c) : ¬ Bdry key dh dw r c := by
  cases key
  · simp only [Site, XSite, Pos, Bdry] at *; omega
  · simp only [Site, ZSite, Pos, Bdry] at *; omega

theorem mem_nb {key : Key} {dh dw t : Int} (H : OddPos dh dw) {u v : Node} (hu : SN key dh dw t u) :
    v ∈ nb dh dw key t u ↔ SN key dh dw t v ∧ Diag u v := by
  have hp := SN_pos hu
  have H' := H
  unfold OddPos at H'
  obtain ⟨tv, rv, cv⟩ := v
  unfold nb pending
  simp only [List.mem_append, List.mem_map, List.mem_filter, List.not_mem_nil, not_false_eq_true, and_true,
    Bool.and_eq_true, Bool.not_eq_true', List.contains_eq_mem, decide_eq_true_eq, decide_eq_false_iff_not,
    mem_virtualNodes H, mem_diagonals]
  constructor
  · rintro (⟨p, ⟨h1, h2⟩, h⟩ | ⟨p, ⟨h1, h2⟩, h⟩)
    · simp only [Node.mk.injEq] at h
      obtain ⟨rfl, rfl, rfl⟩ := h
      refine ⟨Or.inl ⟨rfl, ?_⟩, h1⟩
      cases key
      · simp only [validSyndrome, Bool.and_eq_true, decide_eq_true_eq, Site, XSite, Pos] at *
        omega
      · simp only [validSyndrome, Bool.and_eq_true, decide_eq_true_eq, Site, ZSite, Pos] at *
        omega
    · simp only [Node.mk.injEq] at h
      obtain ⟨rfl, rfl, rfl⟩ := h
      exact ⟨Or.inr ⟨rfl, h2.2⟩, h1⟩
  · rintro ⟨⟨rfl, h⟩ | ⟨rfl, h⟩, hd⟩
    · left
      refine ⟨(rv, cv), ⟨hd, ?_⟩, rfl⟩
      cases key
      · simp only [validSyndrome, Bool.and_eq_true, decide_eq_true_eq, Site, XSite] at *
        omega
      · simp only [validSyndrome, Bool.and_eq_true, decide_eq_true_eq, Site, ZSite] at *
        omega
    · right
      exact ⟨(rv, cv), ⟨hd, trivial, h⟩, rfl⟩

/-! ### The recursive population -/

/-- Every visited node is already joined to all its neighbours. -/
def Joined (dh dw : Int) (key : Key) (t : Int) (vis : List Node) (s : SGraph) : Prop :=
  ∀ u ∈ vis, ∀ v ∈ nb dh dw key t u, s.g.Adj u v

/-- What a (sequence of) call(s) of `populate` does. -/
structure Step (dh dw : Int) (key : Key) (t : Int) (vis : List Node) (s : SGraph) (vis' : List Node) (s' : SGraph) :
    Prop where
  wf : s'.WF
  sub : ∀ u ∈ vis, u ∈ vis'
  slice : ∀ u ∈ vis', SN key dh dw t u
  closed : ∀ u ∈ vis', u ∉ vis → ∀ v ∈ nb dh dw key t u, v ∈ vis'
  joined : Joined dh dw key t vis' s'
  grow : ∀ n ∈ s.g.nodes, n ∈ s'.g.nodes
  new : ∀ n ∈ s'.g.nodes, n ∈ s.g.nodes ∨ n ∈ vis'
  visn : ∀ n ∈ vis', n ∈ s'.g.nodes
  adj : ∀ a b, s.g.Adj a b → s'.g.Adj a b
  sound : ∀ a b, s'.g.Adj a b → s.g.Adj a b ∨ (SN key dh dw t a ∧ SN key dh dw t b ∧ Diag a b)

theorem Step.trans {dh dw : Int} {key : Key} {t : Int} {v0 v1 v2 : List Node} {s0 s1 s2 : SGraph}
    (h : Step dh dw key t v0 s0 v1 s1) (h' : Step dh dw key t v1 s1 v2 s2) : Step dh dw key t v0 s0 v2 s2 where
  wf := h'.wf
  sub := fun u hu => h'.sub u (h.sub u hu)
  slice := h'.slice
  closed := by
    intro u hu hn v hv
    by_cases h1 : u ∈ v1
    · exact h'.sub _ (h.closed u h1 hn v hv)
    · exact h'.closed u hu h1 v hv
  joined := h'.joined
  grow := fun n hn => h'.grow n (h.grow n hn)
  new := by
    intro n hn
    rcases h'.new n hn with h1 | h1
    · rcases h.new n h1 with h2 | h2
      · exact Or.inl h2
      · exact Or.inr (h'.sub _ h2)
    · exact Or.inr h1
  visn := h'.visn
  adj := fun a b hab => h'.adj a b (h.adj a b hab)
  sound := by
    intro a b hab
    rcases h'.sound a b hab with h1 | h1
    · exact h.sound a b h1
    · exact Or.inr h1

/-- Number of nodes of `U` not yet visited. -/
def left (U vis : List Node) : Nat := (U.filter fun n => n ∉ vis).length

theorem left_le_length (U vis : List Node) : left U vis ≤ U.length := List.length_filter_le _ _

theorem left_mono {U v v' : List Node} (h : ∀ u ∈ v, u ∈ v') : left U v' ≤ left U v := by
  unfold left
  apply List.Sublist.length_le
  apply List.monotone_filter_right
  intro a ha
  simp only [decide_eq_true_eq] at *
  exact fun h' => ha (h a h')

theorem left_lt {U v v' : List Node} (h : ∀ u ∈ v, u ∈ v') {x : Node} (hx : x ∈ U) (hv : x ∉ v) (hv' : x ∈ v') :
    left U v' < left U v := by
  unfold left
  induction U with
  | nil => cases hx
  | cons a U ih =>
    rw [List.filter_cons, List.filter_cons]
    rcases List.mem_cons.1 hx with rfl | hx
    · rw [if_neg (by simpa using hv'), if_pos (by simpa using hv)]
      have := left_mono (U := U) h
      unfold left at this
      simp only [List.length_cons]
      omega
    · have := ih hx
      by_cases h1 : a ∈ v'
      · rw [if_neg (by simpa using h1)]
        split
        · simp only [List.length_cons]; omega
        · exact this
      · rw [if_pos (by simpa using h1), if_pos (by simpa using fun h2 => h1 (h a h2))]
        simp only [List.length_cons]; omega

theorem populate_spec {dh dw : Int} {key : Key} {t : Int} (H : OddPos dh dw) {U : List Node}
    (hU : ∀ n, SN key dh dw t n → n ∈ U) :
    ∀ (fuel : Nat) (cur : Node) (vis : List Node) (s : SGraph), s.WF → SN key dh dw t cur → cur ∈ s.g.nodes →
      (∀ u ∈ vis, SN key dh dw t u) → (∀ u ∈ vis, u ∈ s.g.nodes) → Joined dh dw key t vis s →
      left U (vis ++ [cur]) < fuel →
      ∃ vis' s', populate dh dw key t fuel cur vis s = .ok (vis', s') ∧ Step dh dw key t vis s vis' s' ∧ cur ∈ vis'
  | 0, _, _, _, _, _, _, _, _, _, h => by omega
  | fuel + 1, cur, vis, s, hs, hcur, hcn, hvis, hvn, hJ, hf => by
    obtain ⟨s1, e1, w1, n1, a1⟩ := linkAll_spec cur (pending dh dw key t (vis ++ [cur]) cur) hs hcn
    have hvis1 : ∀ u ∈ vis ++ [cur], SN key dh dw t u := by
      intro u hu
      rcases List.mem_append.1 hu with h | h
      · exact hvis u h
      · rw [List.mem_singleton.1 h]; exact hcur
    have hJ1 : Joined dh dw key t (vis ++ [cur]) s1 := by
      intro u hu v hv
      rw [a1]
      rcases List.mem_append.1 hu with h | h
      · exact Or.inl (hJ u h v hv)
      · rw [List.mem_singleton] at h
        subst h
        have hv' := (mem_nb H hcur).1 hv
        by_cases hvv : v ∈ vis
        · left
          apply RxGraph.Adj.symm
          exact hJ v hvv u ((mem_nb H hv'.1).2 ⟨hcur, hv'.2.symm⟩)
        · right; left
          refine ⟨rfl, mem_pending.2 ⟨hv, ?_⟩⟩
          intro h
          rcases List.mem_append.1 h with h | h
          · exact hvv h
          · rw [List.mem_singleton] at h
            subst h
            have := hv'.2
            unfold Diag at this
            omega
    have base : Step dh dw key t (vis ++ [cur]) s1 (vis ++ [cur]) s1 :=
      { wf := w1, sub := fun u hu => hu, slice := hvis1, closed := fun u hu hn => absurd hu hn, joined := hJ1
        grow := fun n hn => hn, new := fun n hn => Or.inl hn
        visn := by
          intro n hn
          rw [n1]
          left
          rcases List.mem_append.1 hn with h | h
          · exact hvn n h
          · rw [List.mem_singleton.1 h]; exact hcn
        adj := fun a b h => h, sound := fun a b h => Or.inl h }
    -- the recursive loop
    have loop : ∀ (P : List Node) (v : List Node) (s2 : SGraph),
        (∀ n ∈ P, SN key dh dw t n ∧ n ∉ vis ++ [cur] ∧ n ∈ s1.g.nodes) →
        Step dh dw key t (vis ++ [cur]) s1 v s2 →
        ∃ v' s3, P.foldlM (fun st n => populate dh dw key t fuel n st.1 st.2) (v, s2) = .ok (v', s3) ∧
          Step dh dw key t (vis ++ [cur]) s1 v' s3 ∧ (∀ n ∈ P, n ∈ v') ∧ (∀ n ∈ v, n ∈ v') := by
      intro P
      induction P with
      | nil =>
        intro v s2 _ hst
        exact ⟨v, s2, rfl, hst, by simp, fun n hn => hn⟩
      | cons n P ih =>
        intro v s2 hP hst
        have hn := hP n (by simp)
        have hlt : left U (v ++ [n]) < fuel := by
          have : left U (v ++ [n]) < left U (vis ++ [cur]) := by
            refine left_lt ?_ (hU n hn.1) hn.2.1 (by simp)
            intro u hu
            exact List.mem_append_left _ (hst.sub u hu)
          omega
        obtain ⟨v', s3, e3, st3, hm3⟩ := populate_spec H hU fuel n v s2 hst.wf hn.1 (hst.grow _ hn.2.2) hst.slice
          hst.visn hst.joined hlt
        obtain ⟨v'', s4, e4, st4, hP4, hv4⟩ := ih v' s3 (fun m hm => hP m (List.mem_cons_of_mem _ hm)) (hst.trans st3)
        refine ⟨v'', s4, ?_, st4, ?_, fun m hm => hv4 m (st3.sub m hm)⟩
        · rw [List.foldlM_cons]
          show (do let st ← populate dh dw key t fuel n v s2; _) = _
          rw [e3]
          exact e4
        · intro m hm
          rcases List.mem_cons.1 hm with rfl | hm
          · exact hv4 _ hm3
          · exact hP4 m hm
    obtain ⟨v', s3, e3, st3, hP3, hv3⟩ := loop (pending dh dw key t (vis ++ [cur]) cur) (vis ++ [cur]) s1
      (by
        intro n hn
        have hn' := mem_pending.1 hn
        exact ⟨((mem_nb H hcur).1 hn'.1).1, hn'.2, (n1 n).2 (Or.inr hn)⟩) base
    refine ⟨v', s3, ?_, ?_, hv3 cur (by simp)⟩
    · rw [populate, e1]
      exact e3
    · exact
      { wf := st3.wf
        sub := fun u hu => hv3 u (List.mem_append_left _ hu)
        slice := st3.slice
        closed := by
          intro u hu hn v hv
          by_cases huc : u = cur
          · subst huc
            by_cases hvv : v ∈ vis ++ [u]
            · exact hv3 v hvv
            · exact hP3 v (mem_pending.2 ⟨hv, hvv⟩)
          · refine st3.closed u hu ?_ v hv
            intro h
            rcases List.mem_append.1 h with h | h
            · exact hn h
            · exact huc (List.mem_singleton.1 h)
        joined := st3.joined
        grow := fun n hn => st3.grow n ((n1 n).2 (Or.inl hn))
        new := by
          intro n hn
          rcases st3.new n hn with h | h
          · rcases (n1 n).1 h with h | h
            · exact Or.inl h
            · exact Or.inr (hP3 n h)
          · exact Or.inr h
        visn := st3.visn
        adj := fun a b h => st3.adj a b ((a1 a b).2 (Or.inl h))
        sound := by
          intro a b h
          rcases st3.sound a b h with h | h
          · rcases (a1 a b).1 h with h | ⟨rfl, h⟩ | ⟨h, rfl⟩
            · exact Or.inl h
            · have := (mem_nb H hcur).1 (mem_pending.1 h).1
              exact Or.inr ⟨hcur, this.1, this.2⟩
            · have := (mem_nb H hcur).1 (mem_pending.1 h).1
              exact Or.inr ⟨this.1, hcur, this.2.symm⟩
          · exact Or.inr h }

end Qtc
