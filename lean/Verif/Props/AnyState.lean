import Verif.Proof.AnyState
import Verif.Props.AnyError
import Verif.Props.UnknownState
/-!
C125: an unknown quantum state is kept whatever the errors are.
-/
namespace Qtc
open Spec Function

variable {cls : QClass} {q : TQubit} {dh dw : Int} {ops : List QOp} {w : World} {sz : Str → Nat}

/-- C125: an unknown state is stored in a code. The circuit consists of rounds of stabilization, identity gates and logical gates; in the
circuits of the operations `l`, between rounds without errors, any operators act on any qubits between any instructions, on fewer than a
third of the smaller distance (the XZZX code: a quarter of the width, a third of the height). Then the outcomes of the measurements decide on a
linear operator `K` that turns the state before, whatever it is, into the state afterwards; and with the flips the decoder computes from the
printed rounds (given a logical bit 0), `K` takes logical X and logical Z to themselves, up to these flips and those of the logical gates. -/
theorem C125_memory (A : AfterAlone cls q dh dw ops w) (hq : ∀ o ∈ ops, o.quiet = true) (hn : ops.count .stabilize = 0) (hbig : 1 < dh * dw)
    {l0 l1 : List QOp} (hl0 : ∀ o ∈ l0, MemoryOp o) (h1 : 1 ≤ l0.count .stabilize) {l : List (QOp × List Blow)} (hl : ∀ a ∈ l, MemoryOp a.1)
    (hb : ∀ a ∈ l, ∀ b ∈ a.2, OnQubits b.qubits b.op)
    (hl1 : ∀ o ∈ l1, MemoryOp o) (h2 : 2 ≤ l1.count .stabilize) {T : Nat} (hT : (l0 ++ l.map Prod.fst ++ l1).count .stabilize = T + 1)
    {D : Decoder} (hD : Made D) (hdh : D.dh = dh) (hdw : D.dw = dw) (hg : ∀ key, ∃ g, D.S key = some g) (hDT : (T : Int) ≤ D.T)
    {m : Matcher} (hm : Contract m) (hf : ∀ key, partTolerated cls key * (blowCount l : Int) < distance key dh dw)
    {s s' : QState} (h0 : s.psi ≠ 0) (hs : SynZero q.lat.name dh dw s.psi)
    (hR : Happens sz (struckAll q (l0.map (fun o => (o, [])) ++ l ++ l1.map (fun o => (o, []))) w) s s') (h0' : s'.psi ≠ 0) :
    ∃ (K : Op) (flip : Key → Bool), s'.psi = K s.psi ∧
      Effects sz (struckAll q (l0.map (fun o => (o, [])) ++ l ++ l1.map (fun o => (o, []))) w) s.mem s'.mem K ∧ ∀ key,
      correctString D m (joinSp (['0'] :: groups s'.mem (q.ops (l0 ++ l.map Prod.fst ++ l1) w).circ.cregs)) (rtypeOf key) none =
        .ok (some (bit (flip key))) ∧
      ∀ φ, SynZero q.lat.name dh dw φ → logical cls.code key q.lat.name dh dw (K φ) =
        sg (flip key ^^ decide ((l0 ++ l.map Prod.fst ++ l1).count (flipGate key) % 2 = 1)) • K (logical cls.code key q.lat.name dh dw φ) := by
  have H := A.after.own.2.placed.odd
  obtain ⟨L, hL, t', r1, r2⟩ := happens_slipped (on_clean hb l0 l1) hR h0'
  obtain ⟨L', hL', rfl⟩ := hL.middle
  clear hL
  rename' L' => L, hL' => hL
  have hcost : ∀ key, (slipCost cls.code key : Int) = partTolerated cls key := by intro key; cases cls <;> cases key <;> rfl
  -- what the decoder computes
  obtain ⟨K0, flip, -, -, hdec⟩ := C106_anywhere A hq hn hbig hl0 h1 (hL.memory hl) hl1 h2 (by rw [hL.fst]; exact hT) hD hdh hdw hg hDT hm
    (fun key => by rw [hcost, hL.count]; exact hf key) h0 hs r1
  rw [r2, hL.fst] at hdec
  have hR' := hR
  rw [← struckByAll_events] at hR'
  obtain ⟨K, k1, k2, k3⟩ := happens_kraus (fun b hb' => by
    obtain ⟨a, ha, hb'⟩ := struckByAll_mem hb'
    exact on_clean hb l0 l1 a ha b hb') hR'
  rw [struckByAll_events] at k2
  refine ⟨K, flip, k1, k2, fun key => ⟨(hdec key).1, fun φ hφ => ?_⟩⟩
  clear hR hR' k1 k2 r1
  induction k3 using Submodule.span_induction with
  | zero => rw [LinearMap.zero_apply, LinearMap.zero_apply, map_zero, smul_zero]
  | add U V _ _ hU hV => rw [LinearMap.add_apply, LinearMap.add_apply, map_add, smul_add, hU, hV]
  | smul c U _ hU => rw [LinearMap.smul_apply, LinearMap.smul_apply, map_smul, hU, smul_comm]
  | mem K hK =>
    obtain ⟨l', p1, p2⟩ := hK
    obtain ⟨M, hM, rfl⟩ := pick_all p1
    obtain ⟨M', hM', rfl⟩ := hM.middle
    clear hM
    rename' M' => M, hM' => hM
    obtain ⟨F, hC, hF, hfit⟩ := slipped_carries (sz := sz) A hn hl0 h1 (hM.memory hl) hl1 h2 (by rw [hM.fst]; exact hT) key
    have hp := hC.passes H (slippedAll_proper A.after) p2 hφ
    rw [← logical_eq, hM.fst] at hp
    by_cases hz : K φ = 0
    · rw [hz, map_zero] at hp ⊢
      have : K (logical cls.code key q.lat.name dh dw φ) = 0 := (smul_eq_zero.1 hp.symm).resolve_left (sg_ne_zero _)
      rw [this, smul_zero]
    · have hφ0 : φ ≠ 0 := fun h => hz (by rw [h, map_zero])
      have hrun := (run_iff (sz := sz) (s := ⟨φ, s.mem⟩) (s' := ⟨K φ, s'.mem⟩) (slippedAll_proper A.after) hφ0).2 ⟨K, p2, rfl, hz⟩
      have ht : Tells key q.lat.name dh dw s'.mem (T + 1) F := hC.reads H (slippedAll_proper A.after) (s := ⟨φ, s.mem⟩) (s' := ⟨K φ, s'.mem⟩) hφ0 hφ hrun
      obtain ⟨g, hg⟩ := hg key
      have hd := tolerable_cost hF (by rw [hcost, hM.count]; exact hf key) hfit
      have := ht.decoded H hbig hD hdh hdw hg hDT hm hfit (by subst hdh hdw; exact tolerable_decided H hDT hd) (readoutFlipped key F)
      rw [Bool.xor_self] at this
      have e := (hdec key).1
      rw [groups_rounds (A.all_next (l0 ++ l.map Prod.fst ++ l1)) (quiet_next hq fun o ho => by
        rcases List.mem_append.1 ho with h | h
        · rcases List.mem_append.1 h with h | h
          · exact hl0 o h
          · obtain ⟨a, ha, rfl⟩ := List.mem_map.1 h
            exact hl a ha
        · exact hl1 o h), List.count_append, hn, hT, Nat.zero_add] at e
      have e' := e.symm.trans this
      injection e' with e'
      injection e' with e'
      have ef : flip key = readoutFlipped key F := by
        revert e'
        generalize flip key = x
        generalize readoutFlipped key F = y
        revert x y
        decide
      rw [hp, ef, Bool.xor_comm]

/-- C125: a superposition `α |0⟩ + β |1⟩` of the logical qubit, of any states `φ` with logical value 0 and logical X of it, is stored, and any
operators act on few enough qubits. If the flips the decoder computes are undone, it is again a superposition `α |0⟩ + β |1⟩`, with the same
amplitudes. -/
theorem C125_superposition (A : AfterAlone cls q dh dw ops w) (hq : ∀ o ∈ ops, o.quiet = true) (hn : ops.count .stabilize = 0) (hbig : 1 < dh * dw)
    {l0 l1 : List QOp} (hl0 : ∀ o ∈ l0, MemoryOp o) (h1 : 1 ≤ l0.count .stabilize) {l : List (QOp × List Blow)} (hl : ∀ a ∈ l, MemoryOp a.1)
    (hb : ∀ a ∈ l, ∀ b ∈ a.2, OnQubits b.qubits b.op)
    (hl1 : ∀ o ∈ l1, MemoryOp o) (h2 : 2 ≤ l1.count .stabilize) {T : Nat} (hT : (l0 ++ l.map Prod.fst ++ l1).count .stabilize = T + 1)
    (heven : ∀ key, (l0 ++ l.map Prod.fst ++ l1).count (flipGate key) % 2 = 0)
    {D : Decoder} (hD : Made D) (hdh : D.dh = dh) (hdw : D.dw = dw) (hg : ∀ key, ∃ g, D.S key = some g) (hDT : (T : Int) ≤ D.T)
    {m : Matcher} (hm : Contract m) (hf : ∀ key, partTolerated cls key * (blowCount l : Int) < distance key dh dw)
    {φ : Psi} (hφ : SynZero q.lat.name dh dw φ) (hz : HasValue (logZ cls.code q.lat.name dw) false φ) {α β : ℂ} {s s' : QState} (h0 : s.psi ≠ 0)
    (hs : s.psi = α • φ + β • logX cls.code q.lat.name dh dw φ)
    (hR : Happens sz (struckAll q (l0.map (fun o => (o, [])) ++ l ++ l1.map (fun o => (o, []))) w) s s') (h0' : s'.psi ≠ 0) :
    ∃ flip : Key → Bool, (∀ key, correctString D m (joinSp (['0'] :: groups s'.mem (q.ops (l0 ++ l.map Prod.fst ++ l1) w).circ.cregs)) (rtypeOf key) none =
      .ok (some (bit (flip key)))) ∧
      ∃ ζ, HasValue (logZ cls.code q.lat.name dw) false ζ ∧
        undo cls.code q.lat.name dh dw flip s'.psi = α • ζ + β • logX cls.code q.lat.name dh dw ζ := by
  have H := A.after.own.2.placed.odd
  have hsyn : SynZero q.lat.name dh dw s.psi := by
    rw [hs]
    have hx : SynZero q.lat.name dh dw (logX cls.code q.lat.name dh dw φ) := logX_onData.synZero hφ
    refine ⟨fun k hk => ?_, fun k hk => ?_⟩
    · have h1 := hφ.1 k hk
      have h2 := hx.1 k hk
      unfold IsZero at *
      rw [map_add, map_smul, map_smul, h1, h2, smul_zero, smul_zero, add_zero]
    · have h1 := hφ.2 k hk
      have h2 := hx.2 k hk
      unfold IsZero at *
      rw [map_add, map_smul, map_smul, h1, h2, smul_zero, smul_zero, add_zero]
  obtain ⟨K, flip, e, -, h⟩ := C125_memory A hq hn hbig hl0 h1 hl hb hl1 h2 hT hD hdh hdw hg hDT hm hf h0 hsyn hR h0'
  have hu := C106_undone H (fun key φ hφ => (h key).2 φ hφ)
  have hodd : ∀ key, decide ((l0 ++ l.map Prod.fst ++ l1).count (flipGate key) % 2 = 1) = false := fun key =>
    decide_eq_false (by rw [heven key]; decide)
  refine ⟨flip, fun key => (h key).1, undo cls.code q.lat.name dh dw flip (K φ), ?_, ?_⟩
  · have := hu .Z hφ
    rw [hodd, sg_false, one_smul] at this
    show logZ cls.code q.lat.name dw _ = _
    have hz' : logZ cls.code q.lat.name dw φ = sg false • φ := hz
    rw [show logZ cls.code q.lat.name dw _ = _ from this, show logical cls.code .Z q.lat.name dh dw φ = _ from hz', sg_false, one_smul, one_smul]
  · have := hu .X hφ
    rw [hodd, sg_false, one_smul] at this
    rw [e, hs, map_add, map_add, map_smul, map_smul, map_smul, map_smul]
    congr 2
    exact this.symm

/-- The superposition `3 |0⟩ + 4i |1⟩` on a 5 × 5 lattice, with the data qubit in the middle turned by 90° in the course of the second round. -/
example : ∃ q w, AfterAlone .xxzz q 5 5 [] w ∧ ∃ D m s',
    Happens (fun _ => 0) (struckAll q [(.stabilize, []), (.stabilize, [⟨20, [dataQ "a".toList 12], quarterTurn (dataQ "a".toList 12)⟩]), (.stabilize, []),
      (.stabilize, [])] w) ⟨(3 : ℂ) • ground + (4 * Complex.I) • logX .xxzz "a".toList 5 5 ground, fun _ => false⟩ s' ∧ s'.psi ≠ 0 ∧
    ∃ flip : Key → Bool, (∀ key, correctString D m
      (joinSp (['0'] :: groups s'.mem (q.ops [.stabilize, .stabilize, .stabilize, .stabilize] w).circ.cregs)) (rtypeOf key) none =
        .ok (some (bit (flip key)))) ∧
      ∃ ζ, HasValue (logZ .xxzz "a".toList 5) false ζ ∧
        undo .xxzz "a".toList 5 5 flip s'.psi = (3 : ℂ) • ζ + (4 * Complex.I) • logX .xxzz "a".toList 5 5 ζ := by
  obtain ⟨q, w, A, hn⟩ := afterAlone_exists (dh := 5) (dw := 5) .xxzz "a".toList (by unfold OddPos; decide) (by simp) []
  obtain ⟨D, sx, sz, h, h1, h2, h3, h4, h5⟩ := C21_surface_built 900 { d := some (.tup [.int 5, .int 5]), T := some 3 } 5 5 3
    (by unfold OddPos; decide) (Or.inl rfl) rfl (by decide)
  obtain ⟨m, hm⟩ := contract_exists
  have H : OddPos 5 5 := by unfold OddPos; decide
  have h0 : (3 : ℂ) • ground + (4 * Complex.I) • logX .xxzz "a".toList 5 5 ground ≠ 0 := by
    intro e
    have hz : logZ .xxzz "a".toList 5 ground = sg false • ground := ground_Z
    have hx := congrArg (fun B : Op => B ground) (logX_logZ (code := .xxzz) (name := "a".toList) H).symm
    simp only [LinearMap.smul_apply, Module.End.mul_apply] at hx
    have e' := congrArg (logZ .xxzz "a".toList 5) e
    rw [map_add, map_zero, map_smul, map_smul, hx, hz, sg_false, one_smul, sg_true, neg_one_smul] at e'
    have : (6 : ℂ) • ground = 0 := by
      have := congrArg₂ (· + ·) e e'
      simp only [add_zero] at this
      rw [← this]
      module
    exact ground_ne_zero ((smul_eq_zero.1 this).resolve_left (by norm_num))
  obtain ⟨s', hs', h0'⟩ := struck_exists (sz := fun _ => 0) A.after (l := [(.stabilize, []),
    (.stabilize, [⟨20, [dataQ "a".toList 12], quarterTurn (dataQ "a".toList 12)⟩]), (.stabilize, []), (.stabilize, [])]) (by
      intro a ha b hb
      simp only [List.mem_cons, List.not_mem_nil, or_false] at ha
      rcases ha with rfl | rfl | rfl | rfl
      · cases hb
      · rw [List.mem_singleton.1 hb]
        exact quarterTurn_inv _
      · cases hb
      · cases hb) ⟨(3 : ℂ) • ground + (4 * Complex.I) • logX .xxzz "a".toList 5 5 ground, fun _ => false⟩ h0
  refine ⟨q, w, A, D, m, s', hs', h0', ?_⟩
  have := C125_superposition (T := 3) (l0 := [.stabilize]) (l1 := [.stabilize, .stabilize])
    (l := [(.stabilize, [⟨20, [dataQ "a".toList 12], quarterTurn (dataQ "a".toList 12)⟩])]) A (fun o h => absurd h List.not_mem_nil) rfl (by decide)
    (by intro o ho; rw [List.mem_singleton.1 ho]; trivial) (by decide) (by intro a ha; rw [List.mem_singleton.1 ha]; trivial) (by
      intro a ha b hb
      obtain rfl := List.mem_singleton.1 ha
      rw [List.mem_singleton.1 hb]
      show OnQubits [dataQ "a".toList 12] (quarterTurn (dataQ "a".toList 12))
      unfold quarterTurn
      exact C124_matrix List.mem_cons_self _)
    (by
      intro o ho
      simp only [List.mem_cons, List.not_mem_nil, or_false] at ho
      rcases ho with rfl | rfl <;> trivial) (by decide) rfl (by rintro (_ | _) <;> rfl) (Or.inl ⟨_, _, h⟩) h1 h2
    (by rintro (_ | _); exact ⟨_, h4⟩; exact ⟨_, h5⟩) (by rw [h3]; decide) hm (by rintro (_ | _) <;> decide) (φ := ground) (α := 3) (β := 4 * Complex.I)
    ground_synZero ground_Z (s := ⟨(3 : ℂ) • ground + (4 * Complex.I) • logX .xxzz "a".toList 5 5 ground, fun _ => false⟩) h0 (by rw [hn]; rfl) hs' h0'
  rw [hn] at this
  exact this

end Qtc
