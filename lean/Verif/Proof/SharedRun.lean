import Verif.Proof.Shared
import Verif.Props.Circuit
import Verif.Proof.QNoisy
/-!
What happens in a circuit that a qubit shares with others, seen from the qubit: what the others do is an error of an environment.
-/
namespace Qtc
open Spec Function Classical

variable {cls : QClass} {q : TQubit} {dh dw : Int} {ops : List QOp} {u w : World} {sz : Str → Nat} {name : Str} {c : Circ}

/-! ### Instructions as errors -/

theorem onQubits_x {xs : List Qubit} {x : Qubit} (h : x ∈ xs) : OnQubits xs (opX x) := Algebra.subset_adjoin ⟨x, h, Or.inl rfl⟩

theorem onQubits_z {xs : List Qubit} {x : Qubit} (h : x ∈ xs) : OnQubits xs (opZ x) := Algebra.subset_adjoin ⟨x, h, Or.inr rfl⟩

theorem onQubits_one {xs : List Qubit} : OnQubits xs 1 := Subalgebra.one_mem _

theorem onQubits_mul {xs : List Qubit} {A B : Op} (hA : OnQubits xs A) (hB : OnQubits xs B) : OnQubits xs (A * B) := Subalgebra.mul_mem _ hA hB

theorem onQubits_mono {xs ys : List Qubit} {A : Op} (h : ∀ x ∈ xs, x ∈ ys) (hA : OnQubits xs A) : OnQubits ys A :=
  Algebra.adjoin_mono (by rintro _ ⟨x, hx, e⟩; exact ⟨x, h x hx, e⟩) hA

theorem onQubits_p {xs : List Qubit} {x : Qubit} (h : x ∈ xs) (v : Bool) : OnQubits xs (opP v x) := by
  rw [opP_eq]
  exact Subalgebra.smul_mem _ (Subalgebra.add_mem _ (Subalgebra.one_mem _) (Subalgebra.smul_mem _ (onQubits_z h) _)) _

theorem onQubits_gate1 {xs : List Qubit} {x : Qubit} (h : x ∈ xs) (g : G1) : OnQubits xs (gate1Op g x) := by
  cases g with
  | x => exact onQubits_x h
  | z => exact onQubits_z h
  | h =>
    show OnQubits xs (opH x)
    rw [opH_eq]
    exact Subalgebra.smul_mem _ (Subalgebra.add_mem _ (onQubits_x h) (onQubits_z h)) _
  | id => exact onQubits_one

theorem onQubits_gate2 {xs : List Qubit} {a b : Qubit} (ha : a ∈ xs) (hb : b ∈ xs) (g : G2) : OnQubits xs (gate2Op g a b) := by
  cases g with
  | cx =>
    show OnQubits xs (opCX a b)
    rw [opCX_eq]
    exact Subalgebra.add_mem _ (onQubits_p ha _) (onQubits_mul (onQubits_p ha _) (onQubits_x hb))
  | cz =>
    show OnQubits xs (opCZ a b)
    rw [opCZ_eq]
    exact Subalgebra.add_mem _ (onQubits_p ha _) (onQubits_mul (onQubits_p ha _) (onQubits_z hb))

/-- Every instruction acts as some operator on its qubits. -/
theorem step_blow {i : Instr} {s t : QState} (h : Spec.Step sz i s t) : ∃ A, OnQubits i.qargs A ∧ t.psi = A s.psi := by
  cases h with
  | gate1 g x => exact ⟨_, onQubits_gate1 (List.mem_singleton.2 rfl) g, rfl⟩
  | taken g x => exact ⟨_, onQubits_gate1 (List.mem_singleton.2 rfl) g, rfl⟩
  | skipped g x => exact ⟨1, onQubits_one, rfl⟩
  | gate2 g a b => exact ⟨_, onQubits_gate2 (List.mem_cons_self ..) (List.mem_cons_of_mem _ (List.mem_singleton.2 rfl)) g, rfl⟩
  | measure x b v => exact ⟨_, onQubits_p (List.mem_singleton.2 rfl) v, rfl⟩
  | reset x v =>
    refine ⟨clear v x * opP v x, onQubits_mul ?_ (onQubits_p (List.mem_singleton.2 rfl) v), rfl⟩
    cases v
    · exact onQubits_one
    · exact onQubits_x (List.mem_singleton.2 rfl)
  | barrier => exact ⟨1, onQubits_one, rfl⟩

/-- The classical bits of the qubit called `name` have the same values. -/
def SameBits (name : Str) (m m' : Mem) : Prop := ∀ b, OwnName name b.reg → m b = m' b

/-- An instruction of somebody else. -/
abbrev Alien (name : Str) : Instr → Prop := Only (fun x => ¬OwnName name x.reg) (fun b => ¬OwnName name b.reg) (fun _ _ => True)

theorem foreign_qargs {i : Instr} (h : Alien name i) : ∀ x ∈ i.qargs, ¬OwnName name x.reg := by
  intro x hx
  rcases i with ⟨g, y, _ | ⟨r, v⟩⟩ | ⟨g, a, b⟩ | ⟨y, b⟩ | ⟨y⟩ | _
  · rw [List.mem_singleton.1 hx]; exact h
  · rw [List.mem_singleton.1 hx]; exact h.1
  · rcases List.mem_cons.1 hx with rfl | hx
    · exact h.1
    · rw [List.mem_singleton.1 hx]; exact h.2
  · rw [List.mem_singleton.1 hx]; exact h.1
  · rw [List.mem_singleton.1 hx]; exact h
  · cases hx

theorem foreign_mem {i : Instr} (h : Alien name i) {s t : QState} (hs : Spec.Step sz i s t) : SameBits name s.mem t.mem := by
  intro d hd
  cases hs with
  | measure x b v => exact (update_of_ne (fun e : d = b => h.2 (e ▸ hd)) _ _).symm
  | _ => rfl

/-! ### Errors of others -/

/-- The operators of some errors, one after the other. -/
def applied : List Blow → Psi → Psi
  | [], ψ => ψ
  | b :: P, ψ => applied P (b.op ψ)

theorem happens_applied (P : List Blow) (l : List Event) (s s' : QState) :
    Happens sz (P.map (fun b => .blow b.op) ++ l) s s' ↔ Happens sz l ⟨applied P s.psi, s.mem⟩ s' := by
  induction P generalizing s with
  | nil => exact Iff.rfl
  | cons b P ih => exact ih ⟨b.op s.psi, s.mem⟩

theorem happens_split {l1 l2 : List Event} {s s' : QState} : Happens sz (l1 ++ l2) s s' ↔ ∃ t, Happens sz l1 s t ∧ Happens sz l2 t s' := by
  induction l1 generalizing s with
  | nil => exact ⟨fun h => ⟨s, rfl, h⟩, fun ⟨t, h1, h2⟩ => by cases h1; exact h2⟩
  | cons e l ih =>
    cases e with
    | instr i =>
      constructor
      · rintro ⟨t, h1, h2⟩
        obtain ⟨t', h3, h4⟩ := ih.1 h2
        exact ⟨t', ⟨t, h1, h3⟩, h4⟩
      · rintro ⟨t', ⟨t, h1, h3⟩, h4⟩
        exact ⟨t, h1, ih.2 ⟨t', h3, h4⟩⟩
    | blow A => exact ih

/-- How many of the qubits of an error belong to the qubit called `name`. -/
noncomputable def ownPart (name : Str) (b : Blow) : Nat := b.qubits.countP fun x => decide (OwnName name x.reg)

/-- An error, with the qubits that are not in the circuit as environment. -/
noncomputable def lastly (c : Circ) (N : Nat) (b : Blow) : Blow := ⟨N, b.qubits.filter fun x => decide (HasQubit c x), b.op⟩

theorem lastly_env {b : Blow} (h : OnQubits b.qubits b.op) (N : Nat) : WithEnv c (lastly c N b).qubits (lastly c N b).op := by
  refine ⟨fun x hx => by simpa using (List.mem_filter.1 hx).2, b.qubits.filter fun x => decide ¬HasQubit c x, fun x hx => by
    simpa using (List.mem_filter.1 hx).2, onQubits_mono (fun x hx => ?_) h⟩
  by_cases hc : HasQubit c x
  · exact List.mem_append_left _ (List.mem_filter.2 ⟨hx, by simpa using hc⟩)
  · exact List.mem_append_right _ (List.mem_filter.2 ⟨hx, by simpa using hc⟩)

theorem lastly_count (hc : ∀ x, HasQubit c x → OwnName name x.reg) (N : Nat) (b : Blow) : (lastly c N b).qubits.length ≤ ownPart name b := by
  show (b.qubits.filter _).length ≤ _
  rw [← List.countP_eq_length_filter]
  exact List.countP_mono_left fun x _ h => by simpa using hc x (by simpa using h)

/-- The number of qubits of all errors in between. -/
def weighBlows (f : Blow → Nat) : List (Instr ⊕ Blow) → Nat
  | [] => 0
  | .inl _ :: L => weighBlows f L
  | .inr b :: L => f b + weighBlows f L

theorem weighBlows_append (f : Blow → Nat) (l l' : List (Instr ⊕ Blow)) : weighBlows f (l ++ l') = weighBlows f l + weighBlows f l' := by
  induction l with
  | nil => exact (Nat.zero_add _).symm
  | cons a l ih =>
    cases a with
    | inl i => exact ih
    | inr b => show f b + weighBlows f (l ++ l') = f b + weighBlows f l + weighBlows f l'; rw [ih, Nat.add_assoc]

theorem weighBlows_inr (f : Blow → Nat) (l : List Blow) : weighBlows f (l.map .inr) = (l.map f).sum := by
  induction l with
  | nil => rfl
  | cons b l ih => show f b + _ = _; rw [ih]; rfl

theorem weigh_filter (f : Blow → Nat) (E : List Blow) (k : Nat) :
    ((E.filter fun b => b.pos = k).map f).sum + ((E.filter fun b => k + 1 ≤ b.pos).map f).sum = ((E.filter fun b => k ≤ b.pos).map f).sum := by
  induction E with
  | nil => rfl
  | cons b E ih =>
    simp only [List.filter_cons, decide_eq_true_eq]
    rcases lt_trichotomy b.pos k with h | h | h
    · rw [if_neg (by omega), if_neg (by omega), if_neg (by omega), ih]
    · rw [if_pos h, if_neg (by omega), if_pos (by omega), List.map_cons, List.sum_cons, List.map_cons, List.sum_cons, ← ih]; omega
    · rw [if_neg (by omega), if_pos (by omega), if_pos (by omega), List.map_cons, List.sum_cons, List.map_cons, List.sum_cons, ← ih]; omega

theorem weigh_struckBy (f : Blow → Nat) (E : List Blow) (k : Nat) (l : List Instr) :
    weighBlows f (struckBy E k l) = ((E.filter fun b => k ≤ b.pos).map f).sum := by
  induction l generalizing k with
  | nil => exact weighBlows_inr _ _
  | cons i l ih =>
    rw [struckBy, weighBlows_append, weighBlows_inr]
    show _ + weighBlows f (struckBy E (k + 1) l) = _
    rw [ih, weigh_filter]

/-- What others do are errors as far as the qubit is concerned. -/
theorem foreign_events (hc : ∀ x, HasQubit c x → OwnName name x.reg) (N : Nat) {L : List (Instr ⊕ Blow)} (hi : ∀ i, .inl i ∈ L → Alien name i)
    (hb : ∀ b, .inr b ∈ L → OnQubits b.qubits b.op) {s s' : QState} (h : Happens sz (L.map eventOf) s s') :
    ∃ P : List Blow, s'.psi = applied P s.psi ∧ SameBits name s.mem s'.mem ∧ (∀ b ∈ P, b.pos = N ∧ WithEnv c b.qubits b.op) ∧
      (P.map fun b => b.qubits.length).sum ≤ weighBlows (ownPart name) L := by
  induction L generalizing s with
  | nil =>
    cases h
    exact ⟨[], rfl, fun _ _ => rfl, fun _ hx => (List.not_mem_nil hx).elim, le_refl _⟩
  | cons a L ih =>
    cases a with
    | inl i =>
      obtain ⟨t, h1, h2⟩ := h
      obtain ⟨P, e, hm, hP, hn⟩ := ih (fun i hi' => hi i (List.mem_cons_of_mem _ hi')) (fun b hb' => hb b (List.mem_cons_of_mem _ hb')) h2
      have hf := hi i (List.mem_cons_self ..)
      obtain ⟨A, hA, eA⟩ := step_blow h1
      refine ⟨⟨N, [], A⟩ :: P, by rw [e, eA]; rfl, fun d hd => (foreign_mem hf h1 d hd).trans (hm d hd), ?_, by rw [List.map_cons, List.sum_cons]; exact (Nat.zero_add _).trans_le hn⟩
      intro b hb
      rcases List.mem_cons.1 hb with rfl | hb
      · exact ⟨rfl, fun _ hx => (List.not_mem_nil hx).elim, i.qargs, fun x hx hq => foreign_qargs hf x hx (hc x hq), hA⟩
      · exact hP b hb
    | inr d =>
      obtain ⟨P, e, hm, hP, hn⟩ := ih (s := ⟨d.op s.psi, s.mem⟩) (fun i hi' => hi i (List.mem_cons_of_mem _ hi'))
        (fun b hb' => hb b (List.mem_cons_of_mem _ hb')) h
      refine ⟨lastly c N d :: P, e, hm, ?_, ?_⟩
      · intro b hb'
        rcases List.mem_cons.1 hb' with rfl | hb'
        · exact ⟨rfl, lastly_env (hb d (List.mem_cons_self ..)) N⟩
        · exact hP b hb'
      · rw [List.map_cons, List.sum_cons]
        exact Nat.add_le_add (lastly_count hc N d) hn

theorem weigh_struck (f : Blow → Nat) (E : List Blow) (l : List Instr) : weighBlows f (struckBy E 0 l) = (E.map f).sum := by
  rw [weigh_struckBy, List.filter_eq_self.2 fun _ _ => by simp]

theorem applied_append (P P' : List Blow) (ψ : Psi) : applied (P ++ P') ψ = applied P' (applied P ψ) := by
  induction P generalizing ψ with
  | nil => rfl
  | cons b P ih => exact ih _

theorem others_events (hc : ∀ x, HasQubit c x → OwnName q.lat.name x.reg) (N : Nat) {O : List (World × List Blow)} {w : World} (ha : OthersApart q O w)
    (hb : ∀ a ∈ O, ∀ b ∈ a.2, OnQubits b.qubits b.op) {s s' : QState} (h : Happens sz (othersEvents O w) s s') :
    ∃ P : List Blow, s'.psi = applied P s.psi ∧ SameBits q.lat.name s.mem s'.mem ∧ (∀ b ∈ P, b.pos = N ∧ WithEnv c b.qubits b.op) ∧
      (P.map fun b => b.qubits.length).sum ≤ ((O.flatMap Prod.snd).map (ownPart q.lat.name)).sum := by
  induction O generalizing w s with
  | nil =>
    cases h
    exact ⟨[], rfl, fun _ _ => rfl, fun _ hx => (List.not_mem_nil hx).elim, le_refl _⟩
  | cons a O ih =>
    obtain ⟨w', E⟩ := a
    obtain ⟨hE, ha⟩ := ha
    obtain ⟨t, h1, h2⟩ := happens_split.1 h
    obtain ⟨new, e, hn⟩ := hE.instrs
    rw [e, List.drop_left, ← struckBy_events] at h1
    obtain ⟨P, e1, m1, b1, n1⟩ := foreign_events hc N (fun i hi => hn i (struckBy_instr hi))
      (fun b h => hb (w', E) (List.mem_cons_self ..) b (struckBy_mem h)) h1
    obtain ⟨P', e2, m2, b2, n2⟩ := ih ha (fun a h => hb a (List.mem_cons_of_mem _ h)) h2
    refine ⟨P ++ P', by rw [applied_append, e2, e1], fun d hd => (m1 d hd).trans (m2 d hd), ?_, ?_⟩
    · intro b hb
      exact (List.mem_append.1 hb).elim (b1 b) (b2 b)
    · rw [weigh_struck] at n1
      rw [List.map_append, List.sum_append, List.flatMap_cons, List.map_append, List.sum_append]
      exact Nat.add_le_add n1 n2

/-! ### The instructions of the qubit -/

/-- An instruction without condition. -/
abbrev Unconditioned : Instr → Prop := Only (fun _ => True) (fun _ => True) (fun _ _ => False)

theorem step_elsewhere {i : Instr} (hi : Unconditioned i) {s t : QState} (h : Spec.Step sz i s t) {m : Mem} (hm : SameBits name s.mem m) :
    ∃ t', Spec.Step sz i ⟨s.psi, m⟩ t' ∧ t'.psi = t.psi ∧ SameBits name t.mem t'.mem := by
  cases h with
  | gate1 g x => exact ⟨_, .gate1 g x ⟨s.psi, m⟩, rfl, hm⟩
  | taken g x r v => exact hi.2.elim
  | skipped g x r v => exact hi.2.elim
  | gate2 g a b => exact ⟨_, .gate2 g a b ⟨s.psi, m⟩, rfl, hm⟩
  | measure x b v _ h =>
    refine ⟨_, .measure x b v ⟨s.psi, m⟩ h, rfl, fun d hd => ?_⟩
    show update s.mem b v d = update m b v d
    by_cases e : d = b
    · rw [e, update_self, update_self]
    · rw [update_of_ne e, update_of_ne e, hm d hd]
  | reset x v _ h => exact ⟨_, .reset x v ⟨s.psi, m⟩ h, rfl, hm⟩
  | barrier => exact ⟨_, .barrier ⟨s.psi, m⟩, rfl, hm⟩

theorem happens_elsewhere {L : List Event} (hi : ∀ i, Event.instr i ∈ L → Unconditioned i) {s t : QState} (h : Happens sz L s t) {m : Mem} (hm : SameBits name s.mem m) :
    ∃ t', Happens sz L ⟨s.psi, m⟩ t' ∧ t'.psi = t.psi ∧ SameBits name t.mem t'.mem := by
  induction L generalizing s m with
  | nil => cases h; exact ⟨_, rfl, rfl, hm⟩
  | cons e L ih =>
    cases e with
    | instr i =>
      obtain ⟨t1, h1, h2⟩ := h
      obtain ⟨t2, g1, g2, g3⟩ := step_elsewhere (hi i (List.mem_cons_self ..)) h1 hm
      obtain ⟨t3, f1, f2, f3⟩ := ih (fun i h => hi i (List.mem_cons_of_mem _ h)) h2 g3
      rw [← g2] at f1
      exact ⟨t3, ⟨t2, g1, f1⟩, f2, f3⟩
    | blow A => exact ih (s := ⟨A s.psi, s.mem⟩) (fun i h => hi i (List.mem_cons_of_mem _ h)) h hm

theorem struck_plain {E : List Blow} {k : Nat} {l : List Instr} (h : ∀ i ∈ l, Unconditioned i) : ∀ i, Event.instr i ∈ struck E k l → Unconditioned i := by
  intro i hi
  rw [← struckBy_events] at hi
  obtain ⟨a, ha, e⟩ := List.mem_map.1 hi
  cases a with
  | inl j => cases e; exact h _ (struckBy_instr ha)
  | inr b => cases e

/-- Errors after everything else. -/
theorem struck_late {E P : List Blow} {k : Nat} {l : List Instr} (h : ∀ b ∈ P, k + l.length ≤ b.pos) :
    struck (E ++ P) k l = struck E k l ++ P.map fun b => .blow b.op := by
  induction l generalizing k with
  | nil =>
    have h0 : P.filter (fun b => decide (k ≤ b.pos)) = P := List.filter_eq_self.2 fun b hb => by simpa using h b hb
    rw [struck, struck, List.filter_append, List.map_append, h0]
  | cons i l ih =>
    have h0 : P.filter (fun b => decide (b.pos = k)) = [] := List.filter_eq_nil_iff.2 fun b hb => by
      have := h b hb
      rw [List.length_cons] at this
      simpa using (by omega : b.pos ≠ k)
    rw [struck, struck, List.filter_append, h0, List.append_nil, ih fun b hb => by have := h b hb; rw [List.length_cons] at this; omega]
    rw [List.append_assoc, List.cons_append]

/-- Other qubits of errors left out. -/
theorem struck_restrict (E : List Blow) (k : Nat) (l : List Instr) (f : Blow → Blow) (hp : ∀ b, (f b).pos = b.pos) (ho : ∀ b, (f b).op = b.op) :
    struck (E.map f) k l = struck E k l := by
  induction l generalizing k with
  | nil =>
    rw [struck, struck, List.filter_map, List.map_map]
    congr 1
    · funext b; show Event.blow (f b).op = _; rw [ho]
    · congr 1; funext b; show decide (k ≤ (f b).pos) = _; rw [hp]
  | cons i l ih =>
    rw [struck, struck, ih, List.filter_map, List.map_map]
    congr 2
    · funext b; show Event.blow (f b).op = _; rw [ho]
    · congr 1; funext b; show decide ((f b).pos = k) = _; rw [hp]

/-- The operations succeed, one after the other. -/
def Works (q : TQubit) : List QOp → World → Prop
  | [], _ => True
  | o :: l, w => (q.op o w).1 = .ok () ∧ Works q l (q.op o w).2

theorem added_plain (A : After cls q dh dw ops u) {o : QOp} (ho : ∀ r v, ¬o.cond r v) : ∀ i ∈ added q o u, Unconditioned i := by
  intro i hi
  obtain ⟨W, O⟩ := A.own
  obtain ⟨new, e, hn⟩ := (fine o W O).steps.instrs
  unfold added at hi
  rw [e, List.drop_left] at hi
  have := hn i hi
  unfold TQubit.mayAdd at this
  rcases i with ⟨g, y, _ | ⟨r, v⟩⟩ | ⟨g, a, b⟩ | ⟨y, b⟩ | ⟨y⟩ | _
  · exact True.intro
  · exact (ho _ _ this.2).elim
  · exact ⟨True.intro, True.intro⟩
  · exact ⟨True.intro, True.intro⟩
  · exact True.intro
  · exact True.intro

theorem Twin.others {O : List (World × List Blow)} (T : Twin q.lat.name q.lat.pref u w) (h : OthersApart q O w) :
    Twin q.lat.name q.lat.pref u (othersAfter O w) := by
  induction O generalizing w with
  | nil => exact T
  | cons a O ih => exact ih (T.elsewhere h.1) h.2

/-- What a qubit does in a shared circuit is what it does in one of its own, with more errors of the environment. -/
theorem blocks_alone (hc : ∀ x, HasQubit c x → OwnName q.lat.name x.reg) {l : List Block} {u w : World} (A : After cls q dh dw ops u)
    (T : Twin q.lat.name q.lat.pref u w) (hw : Works q (l.map Block.op) u) (hk : ∀ b ∈ l, ∀ r v, ¬b.op.cond r v) (hu : Undisturbed q l w)
    (hb : ∀ b ∈ l, ∀ x ∈ b.blows, OnQubits x.qubits x.op) {s s' : QState} (h : Happens sz (blockEvents q l w) s s') {m : Mem}
    (hm : SameBits q.lat.name s.mem m) :
    ∃ L : List (QOp × List Blow), List.Forall₂ (fun b a => a.1 = b.op ∧ (a.2.map fun x => x.qubits.length).sum ≤ (b.blows.map (ownPart q.lat.name)).sum ∧
        ∀ x ∈ a.2, WithEnv c x.qubits x.op) l L ∧
      Twin q.lat.name q.lat.pref (q.ops (l.map Block.op) u) (blocksAfter q l w) ∧
      ∃ t, Happens sz (struckAll q L u) ⟨s.psi, m⟩ t ∧ t.psi = s'.psi ∧ SameBits q.lat.name s'.mem t.mem := by
  induction l generalizing ops u w s m with
  | nil => cases h; exact ⟨[], .nil, T, _, rfl, rfl, hm⟩
  | cons b l ih =>
    obtain ⟨ho, hw⟩ := hw
    obtain ⟨hu1, hu2⟩ := hu
    obtain ⟨T1, ea⟩ := twin_op T ho
    have T2 := T1.others hu1
    have h' : Happens sz (struck b.errors 0 (added q b.op w) ++ othersEvents b.others (q.op b.op w).2 ++
      blockEvents q l (othersAfter b.others (q.op b.op w).2)) s s' := h
    rw [List.append_assoc, ea] at h'
    obtain ⟨t1, h1, h2⟩ := happens_split.1 h'
    obtain ⟨t2, h2, h3⟩ := happens_split.1 h2
    have hb0 := hb b (List.mem_cons_self ..)
    obtain ⟨P, e, hm2, hP, hn⟩ := others_events hc (0 + (added q b.op u).length) hu1 (fun a ha x hx =>
      hb0 x (List.mem_append_right _ (List.mem_flatMap.2 ⟨a, ha, hx⟩))) h2
    obtain ⟨t1', g1, g2, g3⟩ := happens_elsewhere (struck_plain (added_plain A (hk b (List.mem_cons_self ..)))) h1 hm
    have hm' : SameBits q.lat.name t2.mem t1'.mem := fun d hd => (hm2 d hd).symm.trans (g3 d hd)
    obtain ⟨L, hL, TL, t, f1, f2, f3⟩ := ih (A.next b.op) T2 hw (fun b h => hk b (List.mem_cons_of_mem _ h)) hu2
      (fun b h => hb b (List.mem_cons_of_mem _ h)) h3 hm'
    refine ⟨(b.op, b.errors.map (fun x => lastly c x.pos x) ++ P) :: L, .cons ⟨rfl, ?_, ?_⟩ hL, TL, t, ?_, f2, f3⟩
    · unfold Block.blows
      rw [List.map_append, List.sum_append, List.map_append, List.sum_append, List.map_map]
      refine Nat.add_le_add (List.sum_le_sum fun x _ => lastly_count hc _ x) hn
    · intro x hx
      rcases List.mem_append.1 hx with hx | hx
      · obtain ⟨y, hy, rfl⟩ := List.mem_map.1 hx
        exact lastly_env (hb0 y (List.mem_append_left _ hy)) _
      · exact (hP x hx).2
    · show Happens sz (struck _ 0 (added q b.op u) ++ struckAll q L (q.op b.op u).2) _ _
      rw [struck_late fun x hx => (hP x hx).1.ge, struck_restrict _ _ _ (fun x => lastly c x.pos x) (fun _ => rfl) fun _ => rfl, List.append_assoc]
      refine happens_split.2 ⟨t1', g1, (happens_applied _ _ _ _).2 ?_⟩
      rw [g2, ← e]
      exact f1

/-! ### The start -/

theorem ownName_qreg {code : Code} {pref : Nat} {r : Reg} (h : r ∈ (mkLattice code dh dw name pref).qregs) : OwnName name r.name := by
  unfold Lattice.qregs mkLattice optReg at h
  have hm : r.name ∈ [name ++ "_data".toList, name ++ "_mz".toList, name ++ "_mx".toList, name ++ "_ancilla".toList] := by
    revert h
    split <;> split <;> intro h <;> simp only [Option.toList, List.mem_append, List.mem_singleton, List.not_mem_nil, or_false] at h <;>
      casesm* _ ∨ _ <;> subst_vars <;> simp
  simp only [List.mem_cons, List.not_mem_nil, or_false] at hm
  rcases hm with h | h | h | h <;> exact ⟨_, h⟩

/-- A world with nothing in its circuit. -/
def World.blank (w : World) : World := { w with circ := {} }

theorem dictOrNew_blank (params : Option Nat) (w : World) : dictOrNew params w.blank = ((dictOrNew params w).1, (dictOrNew params w).2.blank) ∧
    (dictOrNew params w).2.circ = w.circ := by
  unfold dictOrNew
  cases params with
  | none => exact ⟨rfl, rfl⟩
  | some r =>
    show (if (w.heap r).isEmpty then _ else _) = _ ∧ _
    dsimp only
    split
    · exact ⟨rfl, rfl⟩
    · exact ⟨rfl, rfl⟩

theorem checkRep_blank {r : Nat} {w w' : World} (h : checkRep cls r w = (.ok (), w')) : checkRep cls r w.blank = (.ok (), w'.blank) ∧ w'.circ = w.circ := by
  rcases checkRep_inv h with ⟨hc, rfl⟩ | ⟨hc, p, hp, rfl⟩
  · exact ⟨checkRep_not hc r, rfl⟩
  · exact ⟨checkRep_valid hc hp, rfl⟩

theorem built_blank {w0 w1 : World} (B : Built cls w0 q dh dw w1) :
    Built cls w0.blank q dh dw (w1.blank.addQs q.lat.qregs) ∧ w1.circ = (w0.addQs q.lat.qregs).circ ∧
      q.lat = mkLattice cls.code dh dw q.lat.name q.lat.pref := by
  have hi := B.inv.2.1
  obtain ⟨params, name, rest, hq, hd, h0, h1⟩ := B
  unfold newQubit at hq
  obtain ⟨r, v1, e1, hq⟩ := CM.bind_eq_ok hq
  obtain ⟨_, v2, e2, hq⟩ := CM.bind_eq_ok hq
  obtain ⟨L, v3, e3, hq⟩ := CM.bind_eq_ok hq
  rw [CM.pure_run, Prod.mk.injEq] at hq
  obtain ⟨e4, rfl⟩ := hq
  cases e4
  obtain ⟨p, a, b, hv, V, hL, hheap, hp, hname, hcode⟩ := newLattice_inv e3
  obtain ⟨rest', hd'⟩ := V.d
  have hd0 := hd
  rw [hheap, hp, World.setP_heap_self, hd'] at hd
  cases hd
  obtain ⟨hL, hw, hf, hnd⟩ := hL h0 h1
  obtain ⟨d1, d2⟩ := dictOrNew_blank params w0
  obtain ⟨c1, c2⟩ := checkRep_blank e2
  rw [e1] at d1 d2
  have hc : v2.circ = w0.circ := c2.trans d2
  have e5 : newLattice cls.code name r v2.blank = (.ok L, (v2.blank.setP r p).addQs L.qregs) := by
    rw [newLattice_ok (dh := dh) (dw := dw) (w := v2.blank) hv V h0 h1 (by intro g _ h; cases h), hL]
  refine ⟨⟨params, name, rest, ?_, ?_, h0, h1⟩, ?_, hi⟩
  · unfold newQubit
    rw [CM.bind_ok d1, CM.bind_ok c1, CM.bind_ok e5, CM.pure_run, hw]
    rfl
  · exact hd0
  · rw [hw]
    show ({ v2.circ with qregs := v2.circ.qregs ++ L.qregs } : Circ) = { w0.circ with qregs := w0.circ.qregs ++ L.qregs }
    rw [hc]

/-- The qubit that waits in a shared circuit has a twin in one of its own. -/
theorem waiting_twin (h : Waiting cls q dh dw w) : ∃ u, AfterAlone cls q dh dw [] u ∧ Twin q.lat.name q.lat.pref u w ∧
    ∀ x, HasQubit u.circ x → OwnName q.lat.name x.reg := by
  obtain ⟨w0, w1, hf, B, hE⟩ := h
  obtain ⟨B', hc, hi⟩ := built_blank B
  have hown : ∀ r ∈ q.lat.qregs, OwnName q.lat.name r.name := fun r hr => by rw [hi] at hr; exact ownName_qreg hr
  refine ⟨_, ⟨w0.blank, _, rfl, B', rfl⟩, Twin.elsewhere (w := w1) ⟨rfl, ?_, ?_, ?_⟩ hE, ?_⟩
  · intro r hr
    rw [hc]
    exact List.mem_append_right _ hr
  · rw [ownCregs, hc]
    symm
    refine List.filter_eq_nil_iff.2 fun r hr h => hf r.name ?_ (by simpa using h)
    exact List.mem_append_right _ (List.mem_map_of_mem hr)
  · intro n hn ho
    rw [hc] at hn
    rcases List.mem_append.1 hn with hn | hn
    · obtain ⟨r, hr, rfl⟩ := List.mem_map.1 hn
      rcases List.mem_append.1 hr with hr | hr
      · exact (hf r.name (List.mem_append_left _ (List.mem_map_of_mem hr)) ho).elim
      · exact List.mem_append_left _ (List.mem_map_of_mem (List.mem_append_right _ hr))
    · exact (hf n (List.mem_append_right _ hn) ho).elim
  · rintro x ⟨r, hr, e, -⟩
    rw [e]
    rcases List.mem_append.1 hr with hr | hr
    · cases hr
    · exact hown r hr

/-! ### Operations that succeed -/

theorem works_append {l1 l2 : List QOp} {u : World} : Works q (l1 ++ l2) u ↔ Works q l1 u ∧ Works q l2 (q.ops l1 u) := by
  induction l1 generalizing u with
  | nil => exact ⟨fun h => ⟨True.intro, h⟩, fun h => h.2⟩
  | cons o l ih => exact ⟨fun h => ⟨⟨h.1, (ih.1 h.2).1⟩, (ih.1 h.2).2⟩, fun h => ⟨h.1.1, ih.2 ⟨h.1.2, h.2⟩⟩⟩

theorem works_memory {l : List QOp} (hl : ∀ o ∈ l, MemoryOp o) (A : After cls q dh dw ops u) : Works q l u := by
  induction l generalizing ops u with
  | nil => exact True.intro
  | cons o l ih =>
    refine ⟨?_, ih (fun o h => hl o (List.mem_cons_of_mem _ h)) (A.next o)⟩
    have P := A.own.2.placed
    have okE : ∀ {x : WM Unit} {is : List Instr}, Emits u x () is → (x u).1 = .ok () := fun h => by rw [h.run]
    have := hl o (List.mem_cons_self ..)
    cases o with
    | stabilize => obtain ⟨w', h, -⟩ := C50_stabilize A; rw [h]
    | id => exact okE P.emits_id
    | idData => exact okE P.emits_idData
    | x => exact okE P.emits_x
    | z => exact okE P.emits_z
    | _ => exact this.elim

theorem works_prep {key : Key} (A : After cls q dh dw ops u) (hb : 1 < dh * dw) : (q.op (prepOp key) u).1 = .ok () := by
  have P := A.own.2.placed
  have okE : ∀ {x : WM Unit} {is : List Instr}, Emits u x () is → (x u).1 = .ok () := fun h => by rw [h.run]
  cases key
  · exact okE (P.emits_resetX (Or.inl hb))
  · exact okE P.emits_resetZ

theorem works_read {key : Key} (A : After cls q dh dw ops u) (hc : CanRead cls dh dw key) : (q.op (readOp key) u).1 = .ok () := by
  have O := A.own.2
  have P := O.placed
  obtain ⟨a, ha, ha', hfa⟩ := O.readout
  have hcode : ∀ {b : Prop}, cls ≠ .xzzx ∨ b → b ∨ q.lat.code = .xxzz := by
    rintro b (h | h)
    · rw [A.code]
      cases cls
      · exact Or.inr rfl
      · exact (h rfl).elim
      · exact Or.inr rfl
    · exact Or.inl h
  cases key
  · show (q.lat.readoutX none u).1 = _
    rw [P.readoutX_run (hcode hc) ha (hfa _ (by omega))]
  · show (q.lat.readoutZ none u).1 = _
    rw [P.readoutZ_run (hcode hc) ha (hfa _ (by omega))]

theorem works_lattice (A : After cls q dh dw ops u) : (q.op .latticeReadoutZ u).1 = .ok () := by
  have O := A.own.2
  obtain ⟨b, hb, hb', hfb⟩ := O.lattice
  show (q.lat.latticeReadoutZ u).1 = _
  rw [O.placed.latticeReadoutZ_run hb (hfb _ (by omega))]

end Qtc
