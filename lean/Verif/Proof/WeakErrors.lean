import Mathlib.Analysis.Real.Sqrt
import Mathlib.Data.Nat.Choose.Basic
import Verif.Proof.AnyError
import Verif.Proof.Chances
import Verif.Spec.WeakErrors
/-!
Helpers for C126: an execution with weak errors everywhere is a sum of executions with few errors and one that is small.
-/
namespace Qtc
open Spec Function Classical

variable {sz : Str → Nat} {ψ φ : Psi} {m : Mem}

/-! ### Minkowski's inequality -/

theorem mink2 {x y a b c d : ℝ} (hx : 0 ≤ x) (hy : 0 ≤ y) (h1 : x ≤ a + b) (h2 : y ≤ c + d) :
    √(x ^ 2 + y ^ 2) ≤ √(a ^ 2 + c ^ 2) + √(b ^ 2 + d ^ 2) := by
  have hs : a * b + c * d ≤ √(a ^ 2 + c ^ 2) * √(b ^ 2 + d ^ 2) := by
    rw [← Real.sqrt_mul (by positivity)]
    refine Real.le_sqrt_of_sq_le ?_
    nlinarith [sq_nonneg (a * d - c * b)]
  refine Real.sqrt_le_iff.2 ⟨by positivity, ?_⟩
  have e1 := Real.sq_sqrt (show 0 ≤ a ^ 2 + c ^ 2 by positivity)
  have e2 := Real.sq_sqrt (show 0 ≤ b ^ 2 + d ^ 2 by positivity)
  have e3 : x ^ 2 ≤ (a + b) ^ 2 := pow_le_pow_left₀ hx h1 2
  have e4 : y ^ 2 ≤ (c + d) ^ 2 := pow_le_pow_left₀ hy h2 2
  nlinarith

/-- The length of a list of numbers. -/
noncomputable def len2 {α : Type} (L : List α) (f : α → ℝ) : ℝ := √((L.map fun a => f a ^ 2).sum)

theorem len2_nonneg {α : Type} (L : List α) (f : α → ℝ) : 0 ≤ len2 L f := Real.sqrt_nonneg _

theorem sum_sq_nonneg {α : Type} (L : List α) (f : α → ℝ) : 0 ≤ (L.map fun a => f a ^ 2).sum :=
  List.sum_nonneg fun x hx => by
    obtain ⟨a, -, rfl⟩ := List.mem_map.1 hx
    exact sq_nonneg _

theorem len2_sq {α : Type} (L : List α) (f : α → ℝ) : len2 L f ^ 2 = (L.map fun a => f a ^ 2).sum := Real.sq_sqrt (sum_sq_nonneg L f)

theorem len2_cons {α : Type} (a : α) (L : List α) (f : α → ℝ) : len2 (a :: L) f = √(f a ^ 2 + len2 L f ^ 2) := by
  rw [len2_sq]
  rfl

theorem len2_mink {α : Type} (L : List α) {f g h : α → ℝ} (hh : ∀ a, 0 ≤ h a)
    (hle : ∀ a ∈ L, h a ≤ f a + g a) : len2 L h ≤ len2 L f + len2 L g := by
  induction L with
  | nil => simp [len2]
  | cons a L ih =>
    rw [len2_cons, len2_cons, len2_cons]
    exact mink2 (hh a) (len2_nonneg _ _) (hle a List.mem_cons_self)
      (ih fun b hb => hle b (List.mem_cons_of_mem _ hb))

theorem list_sum_nonneg {α : Type} (L : List α) {f : α → ℝ} (hf : ∀ a, 0 ≤ f a) : 0 ≤ (L.map f).sum :=
  List.sum_nonneg fun x hx => by
    obtain ⟨a, -, rfl⟩ := List.mem_map.1 hx
    exact hf a

theorem len2_minks {α β : Type} (L : List α) (M : List β) {f : β → α → ℝ} {h : α → ℝ} (hf : ∀ b a, 0 ≤ f b a) (hh : ∀ a, 0 ≤ h a)
    (hle : ∀ a ∈ L, h a ≤ (M.map fun b => f b a).sum) : len2 L h ≤ (M.map fun b => len2 L (f b)).sum := by
  induction M generalizing h with
  | nil =>
    have : len2 L h = 0 := by
      unfold len2
      rw [Real.sqrt_eq_zero (sum_sq_nonneg L h)]
      refine List.sum_eq_zero fun x hx => ?_
      obtain ⟨a, ha, rfl⟩ := List.mem_map.1 hx
      have h1 := hle a ha
      simp only [List.map_nil, List.sum_nil] at h1
      rw [le_antisymm h1 (hh a)]
      norm_num
    rw [this]
    rfl
  | cons b M ih =>
    rw [List.map_cons, List.sum_cons]
    refine (len2_mink L (f := f b) (g := fun a => (M.map fun b => f b a).sum) hh ?_).trans ?_
    · intro a ha
      have := hle a ha
      rwa [List.map_cons, List.sum_cons] at this
    · have := ih (h := fun a => (M.map fun b => f b a).sum) (fun a => list_sum_nonneg M fun b => hf b a) fun a _ => le_refl _
      linarith

/-! ### The norm of states -/

theorem norm2_triangle (h : Bounded ψ) (h' : Bounded φ) : √(norm2 (ψ + φ)) ≤ √(norm2 ψ) + √(norm2 φ) := by
  have hS : (Function.support ψ ∪ Function.support φ).Finite := h.union h'
  have e : ∀ χ : Psi, Function.support χ ⊆ Function.support ψ ∪ Function.support φ → √(norm2 χ) = len2 hS.toFinset.toList fun c => ‖χ c‖ := by
    intro χ hχ
    unfold len2 norm2
    rw [finsum_eq_sum_of_support_subset (s := hS.toFinset)]
    · rw [Finset.sum_map_toList]
      simp only [Complex.sq_norm]
    · intro c hc
      rw [Set.Finite.coe_toFinset]
      exact hχ fun hz => hc (by simp [hz])
  rw [e (ψ + φ) (Function.support_add ψ φ), e _ Set.subset_union_left, e _ Set.subset_union_right]
  exact len2_mink _ (fun _ => norm_nonneg _) fun c _ => norm_add_le _ _

theorem onQubits_bounded {xs : List Qubit} {A : Op} (hA : OnQubits xs A) : ∀ ψ, Bounded ψ → Bounded (A ψ) := by
  refine Algebra.adjoin_induction (p := fun A _ => ∀ ψ, Bounded ψ → Bounded (A ψ)) ?_ ?_ ?_ ?_ hA
  · rintro B ⟨x, -, rfl | rfl⟩ ψ h
    · exact (keeping_X x).bounded ψ h
    · exact (keeping_Z x).bounded ψ h
  · intro c ψ h
    rw [Algebra.algebraMap_eq_smul_one]
    exact h.smul c
  · intro A B _ _ hA hB ψ h
    exact (hA ψ h).add (hB ψ h)
  · intro A B _ _ hA hB ψ h
    exact hA _ (hB ψ h)

/-! ### Branches -/

/-- What an instruction may do, as operators. -/
noncomputable def forkOps (sz : Str → Nat) : Instr → Mem → List (Op × Mem)
  | .gate1 g q none, m => [(gate1Op g q, m)]
  | .gate1 g q (some (r, v)), m => if (regValue m r (sz r) : Int) = v then [(gate1Op g q, m)] else [(1, m)]
  | .gate2 g a b, m => [(gate2Op g a b, m)]
  | .measure q b, m => [(opP false q, update m b false), (opP true q, update m b true)]
  | .reset q, m => [(clear false q * opP false q, m), (clear true q * opP true q, m)]
  | .barrier, m => [(1, m)]

theorem forks_ops (i : Instr) (ψ : Psi) (m : Mem) : forks sz i ⟨ψ, m⟩ = (forkOps sz i m).map fun a => ⟨a.1 ψ, a.2⟩ := by
  rcases i with ⟨g, q, _ | ⟨r, v⟩⟩ | ⟨g, a, b⟩ | ⟨q, b⟩ | q | _ <;> simp only [forks, forkOps]
  · rfl
  · split <;> rfl
  · rfl
  · rfl
  · rfl
  · rfl

/-- The norm of the branches whose classical bits have the property `P`. -/
noncomputable def wt (P : Mem → Prop) (sz : Str → Nat) : List (Instr ⊕ Blow) → Psi → Mem → ℝ
  | [], ψ, m => if P m then √(norm2 ψ) else 0
  | .inl i :: L, ψ, m => len2 (forkOps sz i m) fun a => wt P sz L (a.1 ψ) a.2
  | .inr b :: L, ψ, m => wt P sz L (b.op ψ) m

variable {P : Mem → Prop} {L : List (Instr ⊕ Blow)}

theorem wt_nonneg (L : List (Instr ⊕ Blow)) (ψ : Psi) (m : Mem) : 0 ≤ wt P sz L ψ m := by
  induction L generalizing ψ m with
  | nil =>
    rw [wt]
    split
    · exact Real.sqrt_nonneg _
    · exact le_refl _
  | cons a L ih =>
    cases a with
    | inl i => exact len2_nonneg _ _
    | inr b => exact ih _ _

theorem wt_share (L : List (Instr ⊕ Blow)) (ψ : Psi) (m : Mem) : wt P sz L ψ m ^ 2 =
    (((eventBranches sz (L.map eventOf) ⟨ψ, m⟩).filter fun t => P t.mem).map fun t => norm2 t.psi).sum := by
  induction L generalizing ψ m with
  | nil =>
    rw [wt, List.map_nil, eventBranches]
    by_cases h : P m
    · simp [h, Real.sq_sqrt (norm2_nonneg ψ)]
    · simp [h]
  | cons a L ih =>
    cases a with
    | inl i =>
      rw [wt, len2_sq, List.map_cons, eventOf, eventBranches, List.filter_flatMap, sum_flatMap, forks_ops, List.map_map]
      refine congrArg List.sum (List.map_congr_left fun a _ => ?_)
      exact ih _ _
    | inr b => exact ih _ _

/-- The list is one of instructions of circuits and operators on qubits. -/
structure Orderly (L : List (Instr ⊕ Blow)) : Prop where
  proper : ∀ i, .inl i ∈ L → i.Proper
  acts : ∀ b, .inr b ∈ L → ∀ ψ, Bounded ψ → Bounded (b.op ψ)

theorem Orderly.tail {a : Instr ⊕ Blow} (h : Orderly (a :: L)) : Orderly L :=
  ⟨fun i hi => h.proper i (List.mem_cons_of_mem _ hi), fun b hb => h.acts b (List.mem_cons_of_mem _ hb)⟩

theorem Orderly.forks {i : Instr} (h : Orderly (.inl i :: L)) (hb : Bounded ψ) {a : Op × Mem} (ha : a ∈ forkOps sz i m) : Bounded (a.1 ψ) :=
  forks_bounded (sz := sz) (s := ⟨ψ, m⟩) (h.proper i List.mem_cons_self) hb ⟨a.1 ψ, a.2⟩ (by
    rw [forks_ops]
    exact List.mem_map.2 ⟨a, ha, rfl⟩)

theorem wt_add (hL : Orderly L) (h : Bounded ψ) (h' : Bounded φ) : wt P sz L (ψ + φ) m ≤ wt P sz L ψ m + wt P sz L φ m := by
  induction L generalizing ψ φ m with
  | nil =>
    simp only [wt]
    split
    · exact norm2_triangle h h'
    · simp
  | cons a L ih =>
    cases a with
    | inl i =>
      refine len2_mink _ (fun a => wt_nonneg _ _ _) fun a ha => ?_
      rw [map_add]
      exact ih hL.tail (hL.forks h ha) (hL.forks h' ha)
    | inr b =>
      show wt P sz L (b.op (ψ + φ)) m ≤ wt P sz L (b.op ψ) m + wt P sz L (b.op φ) m
      rw [map_add]
      exact ih hL.tail (hL.acts b List.mem_cons_self ψ h) (hL.acts b List.mem_cons_self φ h')

/-- No error in place of an error. -/
def idle (b : Blow) : Blow := ⟨b.pos, [], 1⟩

/-- The part of an error that does something. -/
def dev (b : Blow) : Blow := ⟨b.pos, b.qubits, b.op - 1⟩

/-- The ways to choose for every error whether it does something, with the number of those that do. -/
def options : List (Instr ⊕ Blow) → List (Nat × List (Instr ⊕ Blow))
  | [] => [(0, [])]
  | .inl i :: L => (options L).map fun c => (c.1, .inl i :: c.2)
  | .inr b :: L => (options L).map (fun c => (c.1, .inr (idle b) :: c.2)) ++ (options L).map (fun c => (c.1 + 1, .inr (dev b) :: c.2))

/-- An execution with errors is a sum of executions with some of them. -/
theorem wt_expand (hL : Orderly L) (h : Bounded ψ) : wt P sz L ψ m ≤ ((options L).map fun c => wt P sz c.2 ψ m).sum := by
  induction L generalizing ψ m with
  | nil => simp [options]
  | cons a L ih =>
    cases a with
    | inl i =>
      rw [options, List.map_map, wt]
      exact len2_minks _ (options L) (f := fun c a => wt P sz c.2 (a.1 ψ) a.2) (fun _ _ => wt_nonneg _ _ _) (fun _ => wt_nonneg _ _ _)
        fun a ha => ih hL.tail (hL.forks h ha)
    | inr b =>
      rw [options, List.map_append, List.sum_append, List.map_map, List.map_map]
      have hb := hL.acts b List.mem_cons_self ψ h
      have e : b.op ψ = ψ + (dev b).op ψ := by
        show b.op ψ = ψ + (b.op ψ - ψ)
        abel
      have hd : Bounded ((dev b).op ψ) := hb.sub h
      show wt P sz L (b.op ψ) m ≤ _
      rw [e]
      exact (wt_add hL.tail h hd).trans (add_le_add (ih hL.tail h) (ih hL.tail hd))

theorem wt_total (i : Instr) (hi : i.Proper) (h : Bounded ψ) : len2 (forkOps sz i m) (fun a => √(norm2 (a.1 ψ))) = √(norm2 ψ) := by
  unfold len2
  rw [← forks_norm2 (sz := sz) (s := ⟨ψ, m⟩) hi h, forks_ops, List.map_map]
  refine congrArg Real.sqrt (congrArg List.sum (List.map_congr_left fun a _ => ?_))
  exact Real.sq_sqrt (norm2_nonneg _)

theorem len2_mono {α : Type} {M : List α} {f g : α → ℝ} {c : ℝ} (hc : 0 ≤ c) (hf : ∀ a ∈ M, 0 ≤ f a) (h : ∀ a ∈ M, f a ≤ c * g a) :
    len2 M f ≤ c * len2 M g := by
  refine Real.sqrt_le_iff.2 ⟨mul_nonneg hc (len2_nonneg _ _), ?_⟩
  rw [mul_pow, len2_sq, ← List.sum_map_mul_left]
  refine List.sum_le_sum fun a ha => ?_
  rw [← mul_pow]
  exact pow_le_pow_left₀ (hf a ha) (h a ha) 2

/-- A choice of weak errors is small. -/
theorem wt_small {ε : ℝ} (hε : 0 ≤ ε) (hL : Orderly L) (hn : ∀ b, .inr b ∈ L → NearOne ε b.op) (h : Bounded ψ) {c : Nat × List (Instr ⊕ Blow)}
    (hc : c ∈ options L) : wt P sz c.2 ψ m ≤ ε ^ c.1 * √(norm2 ψ) := by
  induction L generalizing ψ m c with
  | nil =>
    obtain rfl := List.mem_singleton.1 hc
    rw [wt, pow_zero, one_mul]
    split
    · exact le_refl _
    · exact Real.sqrt_nonneg _
  | cons a L ih =>
    have hn' : ∀ b, .inr b ∈ L → NearOne ε b.op := fun b hb => hn b (List.mem_cons_of_mem _ hb)
    cases a with
    | inl i =>
      obtain ⟨c, hc', rfl⟩ := List.mem_map.1 hc
      show wt P sz (.inl i :: c.2) ψ m ≤ ε ^ c.1 * √(norm2 ψ)
      rw [wt, ← wt_total (sz := sz) (m := m) i (hL.proper i List.mem_cons_self) h]
      exact len2_mono (pow_nonneg hε _) (fun _ _ => wt_nonneg _ _ _) fun a ha => ih hL.tail hn' (hL.forks h ha) hc'
    | inr b =>
      rcases List.mem_append.1 hc with hc | hc
      · obtain ⟨c, hc', rfl⟩ := List.mem_map.1 hc
        exact ih (c := c) hL.tail hn' h hc'
      · obtain ⟨c, hc', rfl⟩ := List.mem_map.1 hc
        have hb := hL.acts b List.mem_cons_self ψ h
        refine (ih hL.tail hn' (hb.sub h) hc').trans ?_
        rw [pow_succ, mul_assoc]
        refine mul_le_mul_of_nonneg_left ?_ (pow_nonneg hε _)
        refine Real.sqrt_le_iff.2 ⟨mul_nonneg hε (Real.sqrt_nonneg _), ?_⟩
        rw [mul_pow, Real.sq_sqrt (norm2_nonneg _)]
        exact hn b List.mem_cons_self ψ h

theorem forkOps_step {i : Instr} {a : Op × Mem} (ha : a ∈ forkOps sz i m) (h0 : a.1 ψ ≠ 0) : Spec.Step sz i ⟨ψ, m⟩ ⟨a.1 ψ, a.2⟩ :=
  forks_step (by
    rw [forks_ops]
    exact List.mem_map.2 ⟨a, ha, rfl⟩) h0

theorem wt_null (L : List (Instr ⊕ Blow)) (m : Mem) : wt P sz L 0 m = 0 := by
  induction L generalizing m with
  | nil => simp [wt, norm2_zero]
  | cons a L ih =>
    cases a with
    | inl i =>
      rw [wt, len2]
      rw [Real.sqrt_eq_zero (sum_sq_nonneg _ _)]
      refine List.sum_eq_zero fun x hx => ?_
      obtain ⟨a, -, rfl⟩ := List.mem_map.1 hx
      rw [map_zero, ih]
      norm_num
    | inr b =>
      show wt P sz L (b.op 0) m = 0
      rw [map_zero, ih]

/-- What is not possible has no weight. -/
theorem wt_never (h : ∀ s', Happens sz (L.map eventOf) ⟨ψ, m⟩ s' → s'.psi ≠ 0 → ¬P s'.mem) : wt P sz L ψ m = 0 := by
  induction L generalizing ψ m with
  | nil =>
    rw [wt]
    split
    · rename_i hP
      by_cases h0 : ψ = 0
      · rw [h0, norm2_zero, Real.sqrt_zero]
      · exact absurd hP (h ⟨ψ, m⟩ rfl h0)
    · rfl
  | cons a L ih =>
    cases a with
    | inl i =>
      rw [wt, len2, Real.sqrt_eq_zero (sum_sq_nonneg _ _)]
      refine List.sum_eq_zero fun x hx => ?_
      obtain ⟨a, ha, rfl⟩ := List.mem_map.1 hx
      by_cases h0 : a.1 ψ = 0
      · rw [h0, wt_null]
        norm_num
      · rw [ih fun s' hs' => h s' ⟨_, forkOps_step ha h0, hs'⟩]
        norm_num
    | inr b => exact ih h

/-- How many errors there are in a list. -/
def blows (L : List (Instr ⊕ Blow)) : Nat := L.countP Sum.isRight

/-- How many choices there are with a given number of errors. -/
theorem options_sum (L : List (Instr ⊕ Blow)) (f : Nat → ℝ) :
    ((options L).map fun c => f c.1).sum = ∑ n ∈ Finset.range (blows L + 1), ((blows L).choose n : ℝ) * f n := by
  induction L generalizing f with
  | nil => simp [options, blows]
  | cons a L ih =>
    cases a with
    | inl i =>
      have : blows (.inl i :: L) = blows L := by simp [blows]
      rw [this, ← ih f, options, List.map_map]
      rfl
    | inr b =>
      have : blows (.inr b :: L) = blows L + 1 := List.countP_cons_of_pos rfl
      rw [this, options, List.map_append, List.sum_append, List.map_map, List.map_map]
      have e1 := ih f
      have e2 := ih fun n => f (n + 1)
      refine (congrArg₂ (· + ·) e1 e2).trans ?_
      show _ + _ = _
      generalize blows L = N
      rw [Finset.sum_range_succ' _ (N + 1)]
      simp only [Nat.choose_succ_succ, Nat.cast_add, add_mul, Finset.sum_add_distrib]
      have e3 : ∑ n ∈ Finset.range (N + 1), (N.choose n : ℝ) * f n = ∑ n ∈ Finset.range (N + 1), (N.choose (n + 1) : ℝ) * f (n + 1) + (N.choose 0 : ℝ) * f 0 := by
        rw [← Finset.sum_range_succ' (fun n => (N.choose n : ℝ) * f n), Finset.sum_range_succ _ (N + 1), Nat.choose_succ_self]
        simp
      rw [e3]
      simp only [Nat.choose_zero_right]
      ring

/-- If a property is not possible with few errors, it is not likely with many weak ones. -/
theorem wt_weak {ε : ℝ} (hε : 0 ≤ ε) (hL : Orderly L) (hn : ∀ b, .inr b ∈ L → NearOne ε b.op) (h : Bounded ψ) (few : Nat → Prop)
    (hf : ∀ c ∈ options L, few c.1 → ∀ s', Happens sz (c.2.map eventOf) ⟨ψ, m⟩ s' → s'.psi ≠ 0 → ¬P s'.mem) :
    wt P sz L ψ m ≤ (∑ n ∈ (Finset.range (blows L + 1)).filter fun n => ¬few n, ((blows L).choose n : ℝ) * ε ^ n) * √(norm2 ψ) := by
  refine (wt_expand hL h).trans ?_
  have h1 : ((options L).map fun c => wt P sz c.2 ψ m).sum ≤ ((options L).map fun c => if ¬few c.1 then ε ^ c.1 * √(norm2 ψ) else 0).sum := by
    refine List.sum_le_sum fun c hc => ?_
    split
    · exact wt_small hε hL hn h hc
    · rename_i hfew
      rw [wt_never (hf c hc (not_not.1 hfew))]
  refine h1.trans (le_of_eq ?_)
  rw [options_sum L fun n => if ¬few n then ε ^ n * √(norm2 ψ) else 0, Finset.sum_filter, Finset.sum_mul]
  refine Finset.sum_congr rfl fun n _ => ?_
  split
  · ring
  · ring

/-! ### The choices as circuits with errors -/

/-- Some of the errors do something. -/
def Sub (b b' : Blow) : Prop := b' = idle b ∨ b' = dev b

def SubAt : Instr ⊕ Blow → Instr ⊕ Blow → Prop
  | .inl i, .inl j => j = i
  | .inr b, .inr b' => Sub b b'
  | _, _ => False

/-- On how many qubits there are errors. -/
def spread (L : List (Instr ⊕ Blow)) : Nat := (L.map fun a => match a with | .inl _ => 0 | .inr b => b.qubits.length).sum

theorem options_sub {c : Nat × List (Instr ⊕ Blow)} (hc : c ∈ options L) {r : Nat} (hr : ∀ b, .inr b ∈ L → b.qubits.length ≤ r) :
    List.Forall₂ SubAt L c.2 ∧ spread c.2 ≤ r * c.1 := by
  induction L generalizing c with
  | nil =>
    obtain rfl := List.mem_singleton.1 hc
    exact ⟨.nil, Nat.zero_le _⟩
  | cons a L ih =>
    have ih' := fun {c} (hc : c ∈ options L) => ih hc fun b hb => hr b (List.mem_cons_of_mem _ hb)
    cases a with
    | inl i =>
      obtain ⟨c, hc', rfl⟩ := List.mem_map.1 hc
      refine ⟨.cons rfl (ih' hc').1, ?_⟩
      show 0 + spread c.2 ≤ r * c.1
      rw [Nat.zero_add]
      exact (ih' hc').2
    | inr b =>
      rcases List.mem_append.1 hc with hc | hc
      · obtain ⟨c, hc', rfl⟩ := List.mem_map.1 hc
        refine ⟨.cons (Or.inl rfl) (ih' hc').1, ?_⟩
        show 0 + spread c.2 ≤ r * c.1
        rw [Nat.zero_add]
        exact (ih' hc').2
      · obtain ⟨c, hc', rfl⟩ := List.mem_map.1 hc
        refine ⟨.cons (Or.inr rfl) (ih' hc').1, ?_⟩
        show b.qubits.length + spread c.2 ≤ r * (c.1 + 1)
        rw [Nat.mul_succ, Nat.add_comm]
        exact Nat.add_le_add (ih' hc').2 (hr b List.mem_cons_self)

theorem Sub.pos {b b' : Blow} (h : Sub b b') : b'.pos = b.pos := by rcases h with rfl | rfl <;> rfl

theorem sub_blows {E : List Blow} {c : List (Instr ⊕ Blow)} (h : List.Forall₂ SubAt (E.map .inr) c) :
    ∃ E' : List Blow, c = E'.map .inr ∧ List.Forall₂ Sub E E' := by
  induction E generalizing c with
  | nil => cases h; exact ⟨[], rfl, .nil⟩
  | cons b E ih =>
    cases h with
    | cons h1 h2 =>
      rename_i x c
      obtain ⟨E', rfl, h3⟩ := ih h2
      cases x with
      | inl i => exact h1.elim
      | inr b' => exact ⟨b' :: E', rfl, .cons h1 h3⟩

theorem Forall2_append_left {α β : Type} {R : α → β → Prop} {a b : List α} {c : List β} (h : List.Forall₂ R (a ++ b) c) :
    ∃ x y, c = x ++ y ∧ List.Forall₂ R a x ∧ List.Forall₂ R b y := by
  induction a generalizing c with
  | nil => exact ⟨[], c, rfl, .nil, h⟩
  | cons u a ih =>
    cases h with
    | cons h1 h2 =>
      obtain ⟨x, y, rfl, h3, h4⟩ := ih h2
      exact ⟨_ :: x, y, rfl, .cons h1 h3, h4⟩

theorem Forall2_right {α β : Type} {R : α → β → Prop} {a : List α} {b : List β} (h : List.Forall₂ R a b) : ∀ y ∈ b, ∃ x ∈ a, R x y := by
  induction h with
  | nil => exact fun y hy => absurd hy List.not_mem_nil
  | cons h1 _ ih =>
    intro y hy
    rcases List.mem_cons.1 hy with rfl | hy
    · exact ⟨_, List.mem_cons_self, h1⟩
    · obtain ⟨x, hx, h⟩ := ih y hy
      exact ⟨x, List.mem_cons_of_mem _ hx, h⟩

theorem struckBy_late {F E : List Blow} {k : Nat} (hF : ∀ e ∈ F, e.pos < k) (l : List Instr) : struckBy (F ++ E) k l = struckBy E k l := by
  induction l generalizing k with
  | nil =>
    have : (F.filter fun s => k ≤ s.pos) = [] := List.filter_eq_nil_iff.2 fun e he h => by
      have := hF e he
      rw [decide_eq_true_eq] at h
      omega
    rw [struckBy, struckBy, List.filter_append, this, List.nil_append]
  | cons i l ih =>
    have : (F.filter fun s => s.pos = k) = [] := List.filter_eq_nil_iff.2 fun e he h => by
      have := hF e he
      rw [decide_eq_true_eq] at h
      omega
    rw [struckBy, struckBy, List.filter_append, this, List.nil_append, ih fun e he => Nat.lt_succ_of_lt (hF e he)]

theorem sub_struckBy {E : List Blow} {k : Nat} {l : List Instr} {c : List (Instr ⊕ Blow)} (h : List.Forall₂ SubAt (struckBy E k l) c) :
    ∃ E' : List Blow, (∀ b' ∈ E', k ≤ b'.pos ∧ ∃ b ∈ E, Sub b b') ∧ struckBy E' k l = c := by
  induction l generalizing k c with
  | nil =>
    obtain ⟨E', rfl, h2⟩ := sub_blows h
    have hk : ∀ b' ∈ E', k ≤ b'.pos ∧ ∃ b ∈ E, Sub b b' := by
      intro b' hb'
      obtain ⟨b, hb, hs⟩ := Forall2_right h2 b' hb'
      have := (List.mem_filter.1 hb).2
      rw [decide_eq_true_eq] at this
      exact ⟨by rw [hs.pos]; exact this, b, (List.mem_filter.1 hb).1, hs⟩
    refine ⟨E', hk, ?_⟩
    rw [struckBy, List.filter_eq_self.2 fun b hb => decide_eq_true (hk b hb).1]
  | cons i l ih =>
    obtain ⟨x, y, rfl, h1, h2⟩ := Forall2_append_left h
    obtain ⟨E1, rfl, hE1⟩ := sub_blows h1
    cases h2 with
    | cons h3 h4 =>
      rename_i j y
      obtain ⟨E2, hE2, rfl⟩ := ih h4
      cases j with
      | inr b => exact h3.elim
      | inl j =>
        obtain rfl : j = i := h3
        have hk : ∀ b' ∈ E1, b'.pos = k ∧ ∃ b ∈ E, Sub b b' := by
          intro b' hb'
          obtain ⟨b, hb, hs⟩ := Forall2_right hE1 b' hb'
          have := (List.mem_filter.1 hb).2
          rw [decide_eq_true_eq] at this
          exact ⟨by rw [hs.pos]; exact this, b, (List.mem_filter.1 hb).1, hs⟩
        refine ⟨E1 ++ E2, ?_, ?_⟩
        · intro b hb
          rcases List.mem_append.1 hb with hb | hb
          · exact ⟨(hk b hb).1.ge, (hk b hb).2⟩
          · exact ⟨Nat.le_of_succ_le (hE2 b hb).1, (hE2 b hb).2⟩
        · have e2 : (E2.filter fun s => s.pos = k) = [] := List.filter_eq_nil_iff.2 fun e he h => by
            have := (hE2 e he).1
            rw [decide_eq_true_eq] at h
            omega
          rw [struckBy, List.filter_append, List.filter_eq_self.2 fun e he => decide_eq_true (hk e he).1, e2, List.append_nil,
            struckBy_late fun e he => by rw [(hk e he).1]; exact Nat.lt_succ_self k]

/-- The same operations with some of the errors. -/
def Like (l l' : List (QOp × List Blow)) : Prop := List.Forall₂ (fun a a' => a'.1 = a.1 ∧ ∀ b' ∈ a'.2, ∃ b ∈ a.2, Sub b b') l l'

theorem sub_struckByAll {q : TQubit} {l : List (QOp × List Blow)} {w : World} {c : List (Instr ⊕ Blow)}
    (h : List.Forall₂ SubAt (struckByAll q l w) c) : ∃ l', Like l l' ∧ struckByAll q l' w = c := by
  induction l generalizing w c with
  | nil => cases h; exact ⟨[], .nil, rfl⟩
  | cons a l ih =>
    obtain ⟨o, E⟩ := a
    obtain ⟨x, y, rfl, h1, h2⟩ := Forall2_append_left h
    obtain ⟨E', hE', rfl⟩ := sub_struckBy h1
    obtain ⟨l', hl', rfl⟩ := ih h2
    exact ⟨(o, E') :: l', .cons ⟨rfl, fun b hb => (hE' b hb).2⟩ hl', rfl⟩

theorem filter_sum (E : List Blow) (k : Nat) (f : Blow → Nat) :
    ((E.filter fun b => b.pos = k).map f).sum + ((E.filter fun b => k + 1 ≤ b.pos).map f).sum = ((E.filter fun b => k ≤ b.pos).map f).sum := by
  induction E with
  | nil => rfl
  | cons b E ih =>
    simp only [List.filter_cons, decide_eq_true_eq]
    by_cases h1 : b.pos = k
    · rw [if_pos h1, if_neg (by omega), if_pos (by omega), List.map_cons, List.map_cons, List.sum_cons, List.sum_cons, ← ih]
      omega
    · rw [if_neg h1]
      by_cases h2 : k ≤ b.pos
      · rw [if_pos (by omega), if_pos h2, List.map_cons, List.map_cons, List.sum_cons, List.sum_cons, ← ih]
        omega
      · rw [if_neg (by omega), if_neg h2, ih]

theorem spread_append (a b : List (Instr ⊕ Blow)) : spread (a ++ b) = spread a + spread b := by
  unfold spread
  rw [List.map_append, List.sum_append]

theorem spread_blows (E : List Blow) : spread (E.map .inr) = (E.map fun b => b.qubits.length).sum := by
  unfold spread
  rw [List.map_map]
  rfl

theorem spread_struckBy (E : List Blow) (k : Nat) (l : List Instr) :
    spread (struckBy E k l) = ((E.filter fun b => k ≤ b.pos).map fun b => b.qubits.length).sum := by
  induction l generalizing k with
  | nil => exact spread_blows _
  | cons i l ih =>
    rw [struckBy, spread_append, spread_blows]
    show _ + (0 + spread (struckBy E (k + 1) l)) = _
    rw [Nat.zero_add, ih, filter_sum]

theorem spread_struckByAll (q : TQubit) (l : List (QOp × List Blow)) (w : World) : spread (struckByAll q l w) = blowCount l := by
  induction l generalizing w with
  | nil => rfl
  | cons a l ih =>
    obtain ⟨o, E⟩ := a
    rw [struckByAll, spread_append, spread_struckBy, ih, List.filter_eq_self.2 fun b _ => decide_eq_true (Nat.zero_le _)]
    rfl

theorem blows_append (a b : List (Instr ⊕ Blow)) : blows (a ++ b) = blows a + blows b := List.countP_append ..

theorem blows_blows (E : List Blow) : blows (E.map .inr) = (E.map fun _ => 1).sum := by
  unfold blows
  induction E with
  | nil => rfl
  | cons b E ih =>
    rw [List.map_cons, List.map_cons, List.sum_cons, ← ih, Nat.add_comm]
    exact List.countP_cons_of_pos rfl

theorem blows_struckBy (E : List Blow) (k : Nat) (l : List Instr) : blows (struckBy E k l) = ((E.filter fun b => k ≤ b.pos).map fun _ => 1).sum := by
  induction l generalizing k with
  | nil => exact blows_blows _
  | cons i l ih =>
    rw [struckBy, blows_append, blows_blows]
    have : blows (Sum.inl i :: struckBy E (k + 1) l) = blows (struckBy E (k + 1) l) := by simp [blows]
    rw [this, ih, filter_sum]

theorem blows_struckByAll (q : TQubit) (l : List (QOp × List Blow)) (w : World) : blows (struckByAll q l w) = strikes l := by
  induction l generalizing w with
  | nil => rfl
  | cons a l ih =>
    obtain ⟨o, E⟩ := a
    rw [struckByAll, blows_append, blows_struckBy, ih, List.filter_eq_self.2 fun b _ => decide_eq_true (Nat.zero_le _)]
    show _ = E.length + strikes l
    rw [show (E.map fun _ => 1).sum = E.length by simp]

theorem struckByAll_proper {cls : QClass} {q : TQubit} {dh dw : Int} {ops : List QOp} {w : World} {l : List (QOp × List Blow)}
    (A : After cls q dh dw ops w) : ∀ i, .inl i ∈ struckByAll q l w → i.Proper := by
  induction l generalizing ops w with
  | nil => exact fun i hi => absurd hi List.not_mem_nil
  | cons a l ih =>
    intro i hi
    rcases List.mem_append.1 (show .inl i ∈ struckBy a.2 0 (added q a.1 w) ++ struckByAll q l (q.op a.1 w).2 from hi) with h | h
    · exact A.proper _ _ (struckBy_instr h)
    · exact ih (A.next _) i h

theorem Like.split {l1 l2 l' : List (QOp × List Blow)} (h : Like (l1 ++ l2) l') : ∃ a b, l' = a ++ b ∧ Like l1 a ∧ Like l2 b := Forall2_append_left h

theorem Like.clean {os : List QOp} {l' : List (QOp × List Blow)} (h : Like (os.map fun o => (o, [])) l') : l' = os.map fun o => (o, []) := by
  induction os generalizing l' with
  | nil => cases h; rfl
  | cons o os ih =>
    cases h with
    | cons h1 h2 =>
      rename_i a l'
      rw [ih h2, List.map_cons]
      refine congrArg (· :: _) (Prod.ext h1.1 (List.eq_nil_iff_forall_not_mem.2 fun b hb => ?_))
      obtain ⟨c, hc, -⟩ := h1.2 b hb
      cases hc

theorem Like.middle {os os' : List QOp} {l l' : List (QOp × List Blow)}
    (h : Like (os.map (fun o => (o, [])) ++ l ++ os'.map fun o => (o, [])) l') :
    ∃ l'', Like l l'' ∧ l' = os.map (fun o => (o, [])) ++ l'' ++ os'.map fun o => (o, []) := by
  obtain ⟨a, b, rfl, h1, h2⟩ := h.split
  obtain ⟨x, y, rfl, h3, h4⟩ := h1.split
  rw [h3.clean, h2.clean]
  exact ⟨y, h4, rfl⟩

theorem Like.fst {l l' : List (QOp × List Blow)} (h : Like l l') : l'.map Prod.fst = l.map Prod.fst := by
  induction h with
  | nil => rfl
  | cons h _ ih => rw [List.map_cons, List.map_cons, h.1, ih]

theorem Like.memory {l l' : List (QOp × List Blow)} (h : Like l l') (hl : ∀ a ∈ l, MemoryOp a.1) : ∀ a ∈ l', MemoryOp a.1 := by
  intro a ha
  obtain ⟨b, hb, e, -⟩ := Forall2_right h a ha
  rw [e]
  exact hl b hb

theorem Like.on {l l' : List (QOp × List Blow)} (h : Like l l') (hl : ∀ a ∈ l, ∀ b ∈ a.2, OnQubits b.qubits b.op) :
    ∀ a ∈ l', ∀ b ∈ a.2, OnQubits b.qubits b.op := by
  intro a ha b hb
  obtain ⟨a', ha', -, h⟩ := Forall2_right h a ha
  obtain ⟨b', hb', rfl | rfl⟩ := h b hb
  · exact Subalgebra.one_mem _
  · exact Subalgebra.sub_mem _ (hl a' ha' b' hb') (Subalgebra.one_mem _)

theorem all_clean {l : List (QOp × List Blow)} {R : Blow → Prop} (hl : ∀ a ∈ l, ∀ b ∈ a.2, R b) (os os' : List QOp) :
    ∀ a ∈ os.map (fun o => (o, [])) ++ l ++ os'.map fun o => (o, []), ∀ b ∈ a.2, R b := by
  intro a ha b hb
  rcases List.mem_append.1 ha with ha | ha
  · rcases List.mem_append.1 ha with ha | ha
    · obtain ⟨o, -, rfl⟩ := List.mem_map.1 ha
      cases hb
    · exact hl a ha b hb
  · obtain ⟨o, -, rfl⟩ := List.mem_map.1 ha
    cases hb

theorem blowCount_clean (os : List QOp) (l : List (QOp × List Blow)) (os' : List QOp) :
    blowCount (os.map (fun o => (o, [])) ++ l ++ os'.map fun o => (o, [])) = blowCount l := by
  simp [blowCount, Function.comp_def]

theorem strikes_clean (os : List QOp) (l : List (QOp × List Blow)) (os' : List QOp) :
    strikes (os.map (fun o => (o, [])) ++ l ++ os'.map fun o => (o, [])) = strikes l := by
  simp [strikes, Function.comp_def]

/-- If few errors cannot have an effect, many weak ones are not likely to. -/
theorem weak_prob {cls : QClass} {q : TQubit} {dh dw : Int} {ops : List QOp} {w : World} {l : List (QOp × List Blow)}
    (A : After cls q dh dw ops w) {ε : ℝ} (hε : 0 ≤ ε) (hb : ∀ a ∈ l, ∀ b ∈ a.2, ∀ ψ, Bounded ψ → Bounded (b.op ψ)) (hn : ∀ a ∈ l, ∀ b ∈ a.2, NearOne ε b.op)
    {r : Nat} (hr : ∀ a ∈ l, ∀ b ∈ a.2, b.qubits.length ≤ r) {s : QState} (hs : Bounded s.psi) (h0 : s.psi ≠ 0) (few : Nat → Prop)
    (hf : ∀ n l', few n → Like l l' → blowCount l' ≤ r * n → ∀ s', Happens sz (struckAll q l' w) s s' → s'.psi ≠ 0 → ¬P s'.mem) :
    eventProb sz (struckAll q l w) s (fun t => P t.mem) ≤
      (∑ n ∈ (Finset.range (strikes l + 1)).filter fun n => ¬few n, ((strikes l).choose n : ℝ) * ε ^ n) ^ 2 := by
  have hm : ∀ b, .inr b ∈ struckByAll q l w → ∃ a ∈ l, b ∈ a.2 := fun b hb => struckByAll_mem hb
  have key := wt_weak (P := P) (sz := sz) (m := s.mem) (L := struckByAll q l w) (ψ := s.psi) hε
    ⟨struckByAll_proper A, fun b h => by
      obtain ⟨a, ha, h⟩ := hm b h
      exact hb a ha b h⟩ (fun b h => by
      obtain ⟨a, ha, h⟩ := hm b h
      exact hn a ha b h) hs few (by
      intro c hc hfew
      obtain ⟨h1, h2⟩ := options_sub hc (r := r) (fun b h => by
        obtain ⟨a, ha, h⟩ := hm b h
        exact hr a ha b h)
      obtain ⟨l', hl', e⟩ := sub_struckByAll h1
      intro s' hs'
      rw [← e, struckByAll_events] at hs'
      rw [← e, spread_struckByAll] at h2
      exact hf c.1 l' hfew hl' h2 s' hs')
  rw [blows_struckByAll] at key
  have hp : 0 < norm2 s.psi := norm2_pos hs h0
  rw [eventProb, div_le_iff₀ hp, ← struckByAll_events]
  have e := wt_share (P := P) (sz := sz) (struckByAll q l w) s.psi s.mem
  rw [show (⟨s.psi, s.mem⟩ : QState) = s from rfl] at e
  rw [← e, ← Real.sq_sqrt hp.le, ← mul_pow]
  exact pow_le_pow_left₀ (wt_nonneg _ _ _) key 2

end Qtc
