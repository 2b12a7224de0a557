import Verif.Proof.Steps
import Verif.Props.Sizes
/-!
Qubits made by the constructors.
-/
namespace Qtc
open Spec

variable {cls : QClass} {params : Option Nat} {name : Str} {q : TQubit} {dh dw : Int} {w0 w : World}

theorem dictOrNew_run (params : Option Nat) (w : World) : ∃ r w1, dictOrNew params w = (.ok r, w1) ∧ w1.circ = w.circ ∧
    (∀ k, k < w.next → w1.heap k = w.heap k) ∧ w.next ≤ w1.next ∧ (params = some r ∨ r = w.next) := by
  unfold dictOrNew
  rcases params with _ | r
  · exact ⟨w.next, _, rfl, rfl, fun k hk => if_neg (by omega), Nat.le_succ _, Or.inr rfl⟩
  · simp only
    split
    · exact ⟨w.next, _, rfl, rfl, fun k hk => if_neg (by omega), Nat.le_succ _, Or.inr rfl⟩
    · exact ⟨r, w, rfl, rfl, fun _ _ => rfl, Nat.le_refl _, Or.inl rfl⟩

/-- What a successful construction has done. -/
theorem newQubit_inv (h : newQubit cls params name w0 = (.ok q, w)) : ∃ r w1, newLattice cls.code name r w1 = (.ok q.lat, w) ∧
    q.cls = cls ∧ w1.circ = w0.circ ∧ (∀ k, k < w0.next → k ≠ r → w1.heap k = w0.heap k) ∧ w0.next ≤ w1.next ∧
    (params = some r ∨ r = w0.next) := by
  unfold newQubit at h
  obtain ⟨r, w1, h1, hc, hh, hn, hr⟩ := dictOrNew_run params w0
  rw [CM.bind_ok h1] at h
  obtain ⟨u, w2, h2, h⟩ := CM.bind_eq_ok h
  obtain ⟨L, w4, h4, h⟩ := CM.bind_eq_ok h
  rw [CM.pure_run, Prod.mk.injEq] at h
  obtain ⟨h5, rfl⟩ := h
  cases h5
  rcases checkRep_inv h2 with ⟨-, rfl⟩ | ⟨-, p', -, rfl⟩
  · exact ⟨r, _, h4, rfl, hc, fun k hk _ => hh k hk, hn, hr⟩
  · refine ⟨r, _, h4, rfl, hc, fun k hk hkr => ?_, hn, hr⟩
    rw [World.setP_heap_ne _ _ hkr]
    exact hh k hk

/-- A qubit of positive size: its lattice, the state it leaves. -/
theorem Spec.Built.inv (B : Built cls w0 q dh dw w) : OddPos dh dw ∧ q.lat = mkLattice cls.code dh dw q.lat.name q.lat.pref ∧
    (∃ (p : Params) (w1 : World), w1.circ = w0.circ ∧ w = (w1.setP q.lat.pref p).addQs q.lat.qregs ∧ Validated p dh dw ∧
      (∀ k, k < w0.next → k ≠ q.lat.pref → w1.heap k = w0.heap k) ∧ w0.next ≤ w1.next) ∧
    (∀ r ∈ q.lat.qregs, r.name ∉ w0.circ.names) ∧ (q.lat.qregs.map Reg.name).Nodup := by
  obtain ⟨params, name, rest, hq, hd, h0, h1⟩ := B
  obtain ⟨r, w1, hl, hcls, hc, hh, hn, -⟩ := newQubit_inv hq
  obtain ⟨p, a, b, hv, V, hL, hheap, hp, hname, hcode⟩ := newLattice_inv hl
  obtain ⟨rest', hd'⟩ := V.d
  rw [hheap, hp, World.setP_heap_self, hd'] at hd
  cases hd
  obtain ⟨hL, hw, hf, hnd⟩ := hL h0 h1
  refine ⟨⟨h0, V.oddH, h1, V.oddW⟩, by rw [hname, hp]; exact hL, ⟨p, w1, hc, by rw [hp]; exact hw, V, by rw [hp]; exact hh, hn⟩, ?_, hnd⟩
  rw [← hc]; exact hf

theorem Spec.Built.name_eq (B : Built cls w0 q dh dw w) : q.lat.code = cls.code := by
  have := B.inv.2.1
  rw [this]; rfl

/-- A fresh qubit owns its registers. -/
theorem Spec.Built.own (B : Built cls w0 q dh dw w) (W : WellFormed w0.circ)
    (hf : ∀ s, OwnCreg q.lat.name s → s ∉ w0.circ.names) : WellFormed w.circ ∧ Own q.lat dh dw (-1) w := by
  obtain ⟨H, hL, ⟨p, w1, hc, hw, V, -, -⟩, hn, hnd⟩ := B.inv
  have hcirc : w.circ = (w0.addQs q.lat.qregs).circ := by
    rw [hw]
    unfold World.addQs World.setP
    simp only [hc]
  have hheap : w.heap q.lat.pref = p := by rw [hw, World.addQs_heap, World.setP_heap_self]
  have hmem : ∀ s, s ∈ w.circ.names → s ∈ w0.circ.names ∨ ∃ r ∈ (mkLattice cls.code dh dw q.lat.name q.lat.pref).qregs, s = r.name := by
    intro s hs
    rw [hcirc] at hs
    simp only [Circ.names, World.addQs_qregs, World.addQs_cregs, List.map_append, List.mem_append] at hs
    rcases hs with (hs | hs) | hs
    · exact Or.inl (List.mem_append_left _ hs)
    · obtain ⟨r, hr, rfl⟩ := List.mem_map.1 hs
      rw [hL] at hr
      exact Or.inr ⟨r, hr, rfl⟩
    · exact Or.inl (List.mem_append_right _ hs)
  refine ⟨?_, ⟨?_, H, ?_, ?_, ?_, ?_⟩, ?_, by omega, ?_, ⟨-1, ?_, by omega, ?_⟩, ⟨-1, ?_, by omega, ?_⟩⟩
  · rw [hcirc]
    exact WellFormed.addQs W hn hnd
  · have hco : q.lat.code = cls.code := by rw [hL]; rfl
    rw [hco]
    exact hL
  · intro r hr
    rw [hcirc, World.addQs_qregs]
    exact List.mem_append_right _ hr
  · rw [hheap]; exact V.d
  · rw [hheap]; exact V.nd
  · rw [hheap]; exact V.ns
  · rw [hheap]; exact V.T
  · intro k hk h
    rcases hmem _ h with h | ⟨r, hr, e⟩
    · exact hf _ (ownCreg_round (by omega)) h
    · exact roundName_not_qreg hr e.symm
  · rw [hheap]; exact V.nr
  · intro k hk h
    rcases hmem _ h with h | ⟨r, hr, e⟩
    · exact hf _ (ownCreg_readout (by omega)) h
    · exact readoutName_not_qreg hr e.symm
  · rw [hheap]; exact V.nl
  · intro k hk h
    rcases hmem _ h with h | ⟨r, hr, e⟩
    · exact hf _ (ownCreg_lattice (by omega)) h
    · exact latticeName_not_qreg hr e.symm

theorem wellFormed_empty : WellFormed {} := ⟨List.nodup_nil, List.nodup_nil, by simp, by simp⟩

/-- A fresh qubit on an empty circuit. -/
theorem Spec.Built.alone (B : Built cls w0 q dh dw w) (h0 : w0.circ = {}) : WellFormed w.circ ∧ Own q.lat dh dw (-1) w :=
  B.own (by rw [h0]; exact wellFormed_empty) (by rw [h0]; intro s _ h; cases h)

/-- Every odd positive size can be built on a circuit where the names are free. -/
theorem built_of_size (cls : QClass) (name : Str) (w0 : World) (r : Nat) (H : OddPos dh dw)
    (hd : (w0.heap r).d = some (.tup [.int dh, .int dw])) (hrep : cls = .rep → if (w0.heap r).pfp.getD false then dh = 1 else dw = 1)
    (hf : ∀ g ∈ (mkLattice cls.code dh dw name r).qregs, g.name ∉ w0.circ.names) :
    ∃ q w, newQubit cls (some r) name w0 = (.ok q, w) ∧ Built cls w0 q dh dw w ∧ q.lat.name = name := by
  have hne : (w0.heap r).isEmpty = false := by
    unfold Params.isEmpty
    rw [hd]; rfl
  have hdict : dictOrNew (some r) w0 = (.ok r, w0) := by
    unfold dictOrNew
    simp only [hne]
    rfl
  have hval : ∀ p : Params, p.d = some (.tup [.int dh, .int dw]) → ∃ p', rotatedValidate p = .ok p' ∧ Validated p' dh dw ∧
      p'.d = some (.tup [.int dh, .int dw]) := by
    intro p hp
    have e : rotatedSize p.d = .ok ([dh, dw], dh, dw) := by rw [hp]; rfl
    unfold OddPos at H
    refine ⟨{ p with d := some (.tup [.int dh, .int dw]), T := some (-1), numReadout := some (-1), numLatticeReadout := some (-1)
                     numData := some (dh * dw), numSyn := some (numSynX dh dw, numSynZ dh dw) },
      ?_, ⟨⟨[], rfl⟩, H.2.1, H.2.2.2, rfl, rfl, rfl, rfl, rfl⟩, rfl⟩
    · unfold rotatedValidate
      rw [e]
      simp only [bind, Except.bind]
      rw [if_neg (by simp only [fmod_pos_eq _ (show (0 : Int) ≤ 2 by decide)]; omega)]
      rfl
  have key : ∀ w1 : World, w1.circ = w0.circ → (w1.heap r).d = some (.tup [.int dh, .int dw]) →
      (newQubit cls (some r) name w0 = (do
        let lat ← newLattice cls.code name r
        pure (⟨cls, lat⟩ : TQubit)) w1) →
      ∃ q w, newQubit cls (some r) name w0 = (.ok q, w) ∧ Built cls w0 q dh dw w ∧ q.lat.name = name := by
    intro w1 hc hd1 hq
    obtain ⟨p', hp', V, hd'⟩ := hval _ hd1
    have hl := newLattice_ok (code := cls.code) (name := name) hp' V H.1 H.2.2.1 (by rw [hc]; exact hf)
    rw [CM.bind_ok hl] at hq
    refine ⟨⟨cls, mkLattice cls.code dh dw name r⟩, _, hq, ⟨some r, name, [], hq, ?_, H.1, H.2.2.1⟩, rfl⟩
    rw [World.addQs_heap]
    exact (congrArg Params.d (World.setP_heap_self w1 r p')).trans hd'
  by_cases hcls : cls = .rep
  · have h1 := hrep hcls
    have hv : repValidate (w0.heap r) = .ok { w0.heap r with pfp := some ((w0.heap r).pfp.getD false) } := by
      refine (C12_pair (w0.heap r) (.int dh) (.int dw) hd).1 ?_
      split at h1 <;> rename_i hb
      · rw [if_pos hb]; exact h1
      · rw [if_neg hb]; exact h1
    refine key (w0.setP r { w0.heap r with pfp := some ((w0.heap r).pfp.getD false) }) rfl ?_ ?_
    · rw [World.setP_heap_self]; exact hd
    · unfold newQubit
      rw [CM.bind_ok hdict]
      exact CM.bind_ok (checkRep_valid hcls hv)
  · refine key w0 rfl hd ?_
    unfold newQubit
    rw [CM.bind_ok hdict]
    exact CM.bind_ok (checkRep_not hcls r)

end Qtc
