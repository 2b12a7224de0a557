import Verif.Model.Circuit
import Verif.Proof.Geometry
/-!
Closed forms of circuit-building methods: which instructions they append.
-/
namespace Qtc

/-! ### The monad -/

section
variable {σ α β : Type}

theorem CM.bind_run (x : CM σ α) (f : α → CM σ β) (s : σ) :
    (x >>= f) s = match x s with
      | (.ok a, s') => f a s'
      | (.error e, s') => (.error e, s') := rfl

theorem CM.pure_run (a : α) (s : σ) : (pure a : CM σ α) s = (.ok a, s) := rfl

theorem CM.throw_run (e : PyErr) (s : σ) : (CM.throw e : CM σ α) s = (.error e, s) := rfl

theorem CM.lift_run (x : Py α) (s : σ) : (CM.lift x : CM σ α) s = (x, s) := rfl

theorem CM.bind_ok {x : CM σ α} {f : α → CM σ β} {s s' : σ} {a : α} (h : x s = (.ok a, s')) : (x >>= f) s = f a s' := by
  rw [CM.bind_run, h]

theorem CM.bind_error {x : CM σ α} {f : α → CM σ β} {s s' : σ} {e : PyErr} (h : x s = (.error e, s')) :
    (x >>= f) s = (.error e, s') := by
  rw [CM.bind_run, h]

theorem CM.forEach_nil (f : α → CM σ Unit) : CM.forEach [] f = pure () := rfl

theorem CM.forEach_cons (a : α) (l : List α) (f : α → CM σ Unit) :
    CM.forEach (a :: l) f = (f a >>= fun _ => CM.forEach l f) := rfl
end

/-! ### Emitting instructions -/

/-- The world after appending instructions. -/
def World.emit (w : World) (is : List Instr) : World := { w with circ := { w.circ with instrs := w.circ.instrs ++ is } }

@[simp] theorem World.emit_nil (w : World) : w.emit [] = w := by
  unfold World.emit
  rw [List.append_nil]

theorem World.emit_emit (w : World) (is js : List Instr) : (w.emit is).emit js = w.emit (is ++ js) := by
  unfold World.emit
  rw [List.append_assoc]

@[simp] theorem World.emit_heap (w : World) (is : List Instr) : (w.emit is).heap = w.heap := rfl
@[simp] theorem World.emit_qregs (w : World) (is : List Instr) : (w.emit is).circ.qregs = w.circ.qregs := rfl
@[simp] theorem World.emit_cregs (w : World) (is : List Instr) : (w.emit is).circ.cregs = w.circ.cregs := rfl
@[simp] theorem World.emit_qubits (w : World) (is : List Instr) : (w.emit is).circ.qubits = w.circ.qubits := rfl
@[simp] theorem World.emit_clbits (w : World) (is : List Instr) : (w.emit is).circ.clbits = w.circ.clbits := rfl
@[simp] theorem World.emit_names (w : World) (is : List Instr) : (w.emit is).circ.names = w.circ.names := rfl
@[simp] theorem World.emit_instrs (w : World) (is : List Instr) : (w.emit is).circ.instrs = w.circ.instrs ++ is := rfl

/-- In worlds that differ from `w` only by instructions, `x` appends exactly `is` and returns `a`. -/
def Emits {α : Type} (w : World) (x : WM α) (a : α) (is : List Instr) : Prop :=
  ∀ js, x (w.emit js) = (.ok a, w.emit (js ++ is))

variable {α β : Type} {w : World}

theorem Emits.run {x : WM α} {a : α} {is : List Instr} (h : Emits w x a is) : x w = (.ok a, w.emit is) := by
  have := h []
  rwa [World.emit_nil] at this

theorem Emits.pure (a : α) : Emits w (pure a) a [] := by
  intro js
  rw [List.append_nil]
  rfl

theorem Emits.lift {x : Py α} {a : α} (h : x = .ok a) : Emits w (CM.lift x) a [] := by
  intro js
  rw [List.append_nil, CM.lift_run, h]

theorem Emits.bind {x : WM α} {f : α → WM β} {a : α} {b : β} {is js : List Instr} (h : Emits w x a is)
    (h' : Emits w (f a) b js) : Emits w (x >>= f) b (is ++ js) := by
  intro ks
  rw [CM.bind_ok (h ks), h', List.append_assoc]

/-- Sequencing when the first part emits nothing. -/
theorem Emits.bind0 {x : WM α} {f : α → WM β} {a : α} {b : β} {js : List Instr} (h : Emits w x a [])
    (h' : Emits w (f a) b js) : Emits w (x >>= f) b js := by
  have := h.bind h'
  rwa [List.nil_append] at this

theorem Emits.forEach {l : List α} {f : α → WM Unit} {g : α → List Instr} (h : ∀ a ∈ l, Emits w (f a) () (g a)) :
    Emits w (CM.forEach l f) () (l.flatMap g) := by
  induction l with
  | nil => exact Emits.pure ()
  | cons a l ih =>
    rw [CM.forEach_cons, List.flatMap_cons]
    exact (h a (by simp)).bind (ih fun b hb => h b (by simp [hb]))

theorem Emits.when {b : Bool} {x : WM Unit} {is : List Instr} (h : b = true → Emits w x () is) :
    Emits w (CM.when b x) () (if b then is else []) := by
  unfold CM.when
  cases b
  · exact Emits.pure ()
  · exact h rfl

theorem Emits.congr {x : WM α} {a : α} {is js : List Instr} (h : Emits w x a is) (e : is = js) : Emits w x a js := e ▸ h

/-- The instruction fits into the circuit. -/
def Fits (w : World) (i : Instr) : Prop :=
  (∀ q ∈ i.qargs, q ∈ w.circ.qubits) ∧ (∀ c ∈ i.cargs, c ∈ w.circ.clbits) ∧ i.qargs.Nodup

theorem append_run {i : Instr} (w : World) : append i w = if i.qargs.all (w.circ.qubits.contains ·) && i.cargs.all (w.circ.clbits.contains ·) && decide i.qargs.Nodup then
    (.ok (), w.emit [i]) else (.error .circuitError, w) := rfl

theorem append_fits {i : Instr} {w : World} (h : Fits w i) : append i w = (.ok (), w.emit [i]) := by
  obtain ⟨h1, h2, h3⟩ := h
  rw [append_run, if_pos]
  simp only [Bool.and_eq_true, List.all_eq_true, List.contains_iff_mem, decide_eq_true_eq]
  exact ⟨⟨h1, h2⟩, h3⟩

theorem append_not_fits {i : Instr} {w : World} (h : ¬ Fits w i) : append i w = (.error .circuitError, w) := by
  rw [append_run, if_neg]
  simp only [Bool.and_eq_true, List.all_eq_true, List.contains_iff_mem, decide_eq_true_eq]
  rintro ⟨⟨h1, h2⟩, h3⟩
  exact h ⟨h1, h2, h3⟩

theorem Emits.append {i : Instr} (h : Fits w i) : Emits w (append i) () [i] := by
  intro js
  rw [append_fits (show Fits (w.emit js) i from h), World.emit_emit]

theorem Emits.barrier : Emits w barrier () [.barrier] :=
  Emits.append ⟨by simp [Instr.qargs], by simp [Instr.cargs], by simp [Instr.qargs]⟩

theorem fits_gate1 {g : G1} {q : Qubit} {c : Option (Str × Int)} (h : q ∈ w.circ.qubits) : Fits w (.gate1 g q c) :=
  ⟨by simpa [Instr.qargs] using h, by simp [Instr.cargs], by simp [Instr.qargs]⟩

theorem fits_reset {q : Qubit} (h : q ∈ w.circ.qubits) : Fits w (.reset q) :=
  ⟨by simpa [Instr.qargs] using h, by simp [Instr.cargs], by simp [Instr.qargs]⟩

theorem fits_gate2 {g : G2} {a b : Qubit} (ha : a ∈ w.circ.qubits) (hb : b ∈ w.circ.qubits) (hn : a ≠ b) :
    Fits w (.gate2 g a b) :=
  ⟨by simp [Instr.qargs, ha, hb], by simp [Instr.cargs], by simp [Instr.qargs, hn]⟩

theorem fits_measure {q : Qubit} {c : Clbit} (hq : q ∈ w.circ.qubits) (hc : c ∈ w.circ.clbits) : Fits w (.measure q c) :=
  ⟨by simpa [Instr.qargs] using hq, by simpa [Instr.cargs] using hc, by simp [Instr.qargs]⟩

theorem flatMap_single (l : List α) (f : α → Instr) : l.flatMap (fun a => [f a]) = l.map f := by
  induction l with
  | nil => rfl
  | cons a l ih => rw [List.flatMap_cons, ih]; rfl

theorem emits_each {l : List α} {f : α → Instr} (h : ∀ a ∈ l, Fits w (f a)) :
    Emits w (CM.forEach l fun a => append (f a)) () (l.map f) := by
  rw [← flatMap_single]
  exact Emits.forEach fun a ha => Emits.append (h a ha)

theorem emits_gate1 {g : G1} {qs : List Qubit} (hne : qs ≠ []) (h : ∀ q ∈ qs, q ∈ w.circ.qubits) :
    Emits w (gate1 g qs) () (qs.map fun q => .gate1 g q none) := by
  unfold gate1
  cases qs with
  | nil => exact absurd rfl hne
  | cons q qs => exact emits_each fun a ha => fits_gate1 (h a ha)

theorem emits_gate1_one {g : G1} {q : Qubit} (h : q ∈ w.circ.qubits) :
    Emits w (gate1 g [q]) () [.gate1 g q none] :=
  emits_gate1 (by simp) (by simpa using h)

theorem emits_gate1If {g : G1} {q : Qubit} {c : Str} {v : Int} (hv : 0 ≤ v) (h : q ∈ w.circ.qubits) :
    Emits w (gate1If g q c v) () [.gate1 g q (some (c, v))] := by
  unfold gate1If
  rw [if_neg (by omega)]
  exact Emits.append (fits_gate1 h)

theorem emits_gate2_one {g : G2} {a b : Qubit} (ha : a ∈ w.circ.qubits) (hb : b ∈ w.circ.qubits) (hn : a ≠ b) :
    Emits w (gate2 g [a] [b]) () [.gate2 g a b] := by
  unfold gate2
  exact emits_each (l := [(a, b)]) (f := fun p => .gate2 g p.1 p.2) (by simpa using fits_gate2 ha hb hn)

theorem emits_gate2_left {g : G2} {a : Qubit} {bs : List Qubit} (hne : bs ≠ []) (ha : a ∈ w.circ.qubits)
    (hb : ∀ b ∈ bs, b ∈ w.circ.qubits) (hn : a ∉ bs) : Emits w (gate2 g [a] bs) () (bs.map fun b => .gate2 g a b) := by
  rcases bs with _ | ⟨b, _ | ⟨b', bs⟩⟩
  · exact absurd rfl hne
  · exact emits_gate2_one ha (hb b (by simp)) (by simpa using hn)
  · unfold gate2
    rw [if_neg (by simp), if_neg (by simp)]
    refine emits_each fun b h => fits_gate2 ha (hb b h) ?_
    rintro rfl
    exact hn h

theorem emits_gate2_right {g : G2} {b : Qubit} {as : List Qubit} (hne : as ≠ []) (hb : b ∈ w.circ.qubits)
    (ha : ∀ a ∈ as, a ∈ w.circ.qubits) (hn : b ∉ as) : Emits w (gate2 g as [b]) () (as.map fun a => .gate2 g a b) := by
  rcases as with _ | ⟨a, _ | ⟨a', as⟩⟩
  · exact absurd rfl hne
  · exact emits_gate2_one (ha a (by simp)) hb (by rintro rfl; exact hn (by simp))
  · unfold gate2
    rw [if_neg (by simp), if_neg (by simp)]
    refine emits_each fun a h => fits_gate2 (ha a h) hb ?_
    rintro rfl
    exact hn h

theorem emits_measure {qs : List Qubit} {cs : List Clbit} (hl : cs.length = qs.length) (hq : ∀ q ∈ qs, q ∈ w.circ.qubits)
    (hc : ∀ c ∈ cs, c ∈ w.circ.clbits) :
    Emits w (measure qs cs) () ((qs.zip cs).map fun p => .measure p.1 p.2) := by
  unfold measure
  rw [if_pos hl]
  exact emits_each fun p hp => fits_measure (hq _ (List.of_mem_zip hp).1) (hc _ (List.of_mem_zip hp).2)

theorem emits_measure_one {q : Qubit} {cs : List Clbit} (hne : cs ≠ []) (hq : q ∈ w.circ.qubits)
    (hc : ∀ c ∈ cs, c ∈ w.circ.clbits) : Emits w (measure [q] cs) () (cs.map fun c => .measure q c) := by
  unfold measure
  rcases cs with _ | ⟨c, _ | ⟨c', cs⟩⟩
  · exact absurd rfl hne
  · exact emits_each (l := [(q, c)]) (f := fun p => .measure p.1 p.2) (by simpa using fits_measure hq (hc c (by simp)))
  · rw [if_neg (by simp)]
    simp only [List.isEmpty_cons, Bool.false_eq_true, if_false]
    exact emits_each fun c h => fits_measure hq (hc c h)

theorem emits_reset {qs : List Qubit} (hq : ∀ q ∈ qs, q ∈ w.circ.qubits) :
    Emits w (reset qs) () (qs.map fun q => .reset q) :=
  emits_each fun q h => fits_reset (hq q h)

end Qtc
