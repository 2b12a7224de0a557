import Verif.Proof.ProgCnot
/-!
Property C121: programs on the logical qubits of a topological circuit compute what they say.
-/
namespace Qtc
open Spec Function

variable {l : List LOp} {s s' : TState} {φ φ' : QState} {key : Key} {b : Known}

theorem Spec.Program.all (P : Program l s s' φ φ') (h : Holds key s b φ.psi) :
    (∀ e ∈ predicted key φ'.mem l s b, φ'.mem ⟨e.1, 0⟩ = e.2) ∧ Holds key s' (knownAfter key φ'.mem l s b) φ'.psi := by
  obtain ⟨-, -, -, is, hi, E⟩ := took_all (key := key) l s P.fair P.sound
    (fun o ho k hk => let ⟨q, dh, dw, L, _⟩ := P.qubits o ho k hk; ⟨q, dh, dw, L⟩) P.succeeds
  obtain ⟨sz, hsz, hr⟩ := P.run
  have e := P.calls
  subst e
  rw [hi, List.drop_left] at hr
  exact (E sz φ φ' hsz P.possible P.qubits hr).2.2.2 b h

/-- C121: whatever the program, every readout whose result is known beforehand has this result in its register when the program ends. -/
theorem C121_readouts (P : Program l s s' φ φ') (h : Holds key s b φ.psi) : ∀ e ∈ predicted key φ'.mem l s b, φ'.mem ⟨e.1, 0⟩ = e.2 := (P.all h).1

/-- C121: in the end the logical qubits have the values the calls give them. -/
theorem C121_values (P : Program l s s' φ φ') (h : Holds key s b φ.psi) : Holds key s' (knownAfter key φ'.mem l s b) φ'.psi := (P.all h).2

theorem find_name {l : List Reg} (h : (l.map Reg.name).Nodup) {r : Reg} (hr : r ∈ l) : l.find? (fun r' => r'.name = r.name) = some r := by
  induction l with
  | nil => cases hr
  | cons a l ih =>
    rw [List.map_cons, List.nodup_cons] at h
    rcases List.mem_cons.1 hr with rfl | hr
    · simp
    · have : ¬ a.name = r.name := fun e => h.1 (e ▸ List.mem_map.2 ⟨r, hr, rfl⟩)
      rw [List.find?_cons_of_neg (by simpa using this)]
      exact ih h.2 hr

/-- C121: every program whose calls succeed can be executed in every state. -/
theorem C121_executions (fair : FairState s) (sound : ∀ o ∈ l, o.Sound s)
    (qubits : ∀ o ∈ l, ∀ k ∈ o.qubits, ∃ q dh dw, Logical s k q dh dw ∧ SynZero q.lat.name dh dw φ.psi) (succeeds : Succeeds l s) (h0 : φ.psi ≠ 0) :
    ∃ φ', Program l s (runOps (l.map LOp.call) s) φ φ' := by
  obtain ⟨F, -, -, -⟩ := took_all (key := .Z) l s fair sound (fun o ho k hk => let ⟨q, dh, dw, L, _⟩ := qubits o ho k hk; ⟨q, dh, dw, L⟩) succeeds
  generalize hs : runOps (l.map LOp.call) s = s' at F
  obtain ⟨φ', hφ⟩ := run_exists (sz := fun n => ((s'.world.circ.cregs.find? fun r => r.name = n).map Reg.size).getD 0)
    (l := s'.world.circ.instrs.drop s.world.circ.instrs.length)
    (fun i hi => proper_of_fits (F.inv.wf.fits i (List.mem_of_mem_drop hi))) φ h0
  refine ⟨φ', fair, sound, qubits, succeeds, hs.symm, h0, _, ?_, hφ⟩
  intro r hr
  show ((s'.world.circ.cregs.find? fun r' => r'.name = r.name).map Reg.size).getD 0 = r.size
  rw [find_name F.inv.wf.cnames hr]
  rfl

/-! ### Examples -/

/-- Two qubits are set to 1 and 0, a CNOT makes the second 1 as well, it is read out, a CNOT in the other direction makes the first 0
again, and that is read out too. -/
def flipProgram : List LOp := [.resetZ 0, .resetZ 1, .x 0, .cx 0 1 none, .readZ 1, .cx 1 0 none, .readZ 0]

theorem flipProgram_predicted (mem : Mem) :
    predicted .Z mem flipProgram cxPair (fun _ => none) = [("r_1_readout_0".toList, true), ("r_0_readout_0".toList, false)] := by
  have e1 : newest (runOps ((flipProgram.take 5).map LOp.call) cxPair) = "r_1_readout_0".toList := by decide +kernel
  have e2 : newest (runOps (flipProgram.map LOp.call) cxPair) = "r_0_readout_0".toList := by decide +kernel
  rw [← e1, ← e2]
  unfold flipProgram
  generalize cxPair = s
  rfl

/-- The result is 1 for the second qubit, then 0 for the first, in every execution, from every state with syndrome qubits in state 0; and
from the state with all qubits 0 there is one. -/
example : (∀ s' φ φ', Program flipProgram cxPair s' φ φ' → φ'.mem ⟨"r_1_readout_0".toList, 0⟩ = true ∧ φ'.mem ⟨"r_0_readout_0".toList, 0⟩ = false) ∧
    ∃ s' φ', Program flipProgram cxPair s' ⟨ground, fun _ => false⟩ φ' := by
  refine ⟨fun s' φ φ' P => ?_, ?_⟩
  · have h := C121_readouts (key := .Z) (b := fun _ => none) P fun k v h => by cases h
    rw [flipProgram_predicted] at h
    exact ⟨h (_, true) List.mem_cons_self, h (_, false) (List.mem_cons_of_mem _ List.mem_cons_self)⟩
  · obtain ⟨c, t, hc, ht, sc, st, -⟩ := cxPair_qubits
    have hn : cxPair.treg.tqubits.get? "ancilla".toList = none := by
      have : (cxPair.treg.tqubits.get? "ancilla".toList).isNone = true := by decide +kernel
      exact Option.isNone_iff_eq_none.1 this
    have q : ∀ k ∈ [(0 : Int), 1], ∃ q dh dw, Logical cxPair k q dh dw ∧ SynZero q.lat.name dh dw ground := by
      intro k hk
      rcases List.mem_cons.1 hk with rfl | hk
      · exact ⟨c, 3, 1, ⟨hc, sc, by intro d hd; rw [hn] at hd; cases hd⟩, ground_synZero⟩
      · rw [List.mem_singleton] at hk
        subst hk
        exact ⟨t, 3, 1, ⟨ht, st, by intro d hd; rw [hn] at hd; cases hd⟩, ground_synZero⟩
    suffices h : _ ∧ _ ∧ _ from
      let ⟨φ', P⟩ := C121_executions (l := flipProgram) (s := cxPair) (φ := ⟨ground, fun _ => false⟩) cxPair_fair h.1 h.2.1 h.2.2 ground_ne_zero
      ⟨_, φ', P⟩
    refine ⟨?_, ?_, ?_⟩
    · intro o ho
      simp only [flipProgram, List.mem_cons, List.not_mem_nil, or_false] at ho
      rcases ho with rfl | rfl | rfl | rfl | rfl | rfl | rfl
      all_goals first
        | trivial
        | exact ⟨by decide, fun r hr => by cases hr⟩
    · intro o ho k hk
      refine q k ?_
      simp only [flipProgram, List.mem_cons, List.not_mem_nil, or_false] at ho
      rcases ho with rfl | rfl | rfl | rfl | rfl | rfl | rfl <;> simp [LOp.qubits] at hk <;> simp [hk]
      exact hk.symm
    · refine ⟨?_, ?_, ?_, ?_, ?_, ?_, ?_, trivial⟩ <;> decide +kernel

end Qtc
