import Verif.Proof.SharedTwo
import Verif.Props.Environment
/-!
C128: a qubit in a circuit that it shares with others.
-/
namespace Qtc
open Spec Function Classical

variable {cls : QClass} {q : TQubit} {dh dw : Int} {ops : List QOp} {w : World} {sz : Str → Nat} {key : Key} {name : Str}

/-! ### Counting -/

theorem ownCount_cons (b : Block) (l : List Block) : ownCount name (b :: l) = (b.blows.map (ownPart name)).sum + ownCount name l := by
  unfold ownCount
  rw [List.flatMap_cons, List.map_append, List.sum_append]
  rfl

/-- Operations with errors, no more than there are in the blocks. -/
def BlockShape (name : Str) (l : List Block) (L : List (QOp × List Slip)) : Prop :=
  List.Forall₂ (fun b a => a.1 = b.op ∧ a.2.length ≤ (b.blows.map (ownPart name)).sum) l L

theorem BlockShape.fst {l : List Block} {L : List (QOp × List Slip)} (h : BlockShape name l L) : L.map Prod.fst = l.map Block.op := by
  induction h with
  | nil => rfl
  | cons h _ ih => rw [List.map_cons, List.map_cons, h.1, ih]

theorem BlockShape.count {l : List Block} {L : List (QOp × List Slip)} (h : BlockShape name l L) : slipCount L ≤ ownCount name l := by
  induction h with
  | nil => exact le_refl _
  | cons h _ ih =>
    rw [ownCount_cons]
    exact Nat.add_le_add h.2 ih

theorem BlockShape.memory {l : List Block} {L : List (QOp × List Slip)} (h : BlockShape name l L) (hl : ∀ b ∈ l, MemoryOp b.op) : ∀ a ∈ L, MemoryOp a.1 := by
  intro a ha
  have : a.1 ∈ l.map Block.op := h.fst ▸ List.mem_map_of_mem ha
  obtain ⟨b, hb, e⟩ := List.mem_map.1 this
  rw [← e]
  exact hl b hb

theorem BlockShape.split {l1 l2 : List Block} {L : List (QOp × List Slip)} (h : BlockShape name (l1 ++ l2) L) :
    ∃ L1 L2, L = L1 ++ L2 ∧ BlockShape name l1 L1 ∧ BlockShape name l2 L2 := by
  induction l1 generalizing L with
  | nil => exact ⟨[], L, rfl, .nil, h⟩
  | cons b l1 ih =>
    cases h with
    | cons h h' =>
      obtain ⟨L1, L2, rfl, h1, h2⟩ := ih h'
      exact ⟨_ :: L1, L2, rfl, .cons h h1, h2⟩

theorem BlockShape.clean {l : List Block} {L : List (QOp × List Slip)} (h : BlockShape name l L) (h0 : ownCount name l = 0) :
    L = (l.map Block.op).map fun o => (o, []) := by
  induction h with
  | nil => rfl
  | @cons b a l L h _ ih =>
    rw [ownCount_cons] at h0
    obtain ⟨o, E⟩ := a
    have hE : E = [] := List.length_eq_zero_iff.1 (by have := h.2; dsimp only at this; omega)
    have ho : o = b.op := h.1
    rw [List.map_cons, List.map_cons, ← ih (by omega), ho, hE]

theorem BlockShape.middle {l1 l2 l3 : List Block} {L : List (QOp × List Slip)} (h : BlockShape name (l1 ++ l2 ++ l3) L) (h1 : ownCount name l1 = 0)
    (h3 : ownCount name l3 = 0) : ∃ L', BlockShape name l2 L' ∧ L = (l1.map Block.op).map (fun o => (o, [])) ++ L' ++ (l3.map Block.op).map fun o => (o, []) := by
  obtain ⟨L12, L3, rfl, h12, g3⟩ := h.split
  obtain ⟨L1, L2, rfl, g1, g2⟩ := h12.split
  rw [g1.clean h1, g3.clean h3]
  exact ⟨L2, g2, rfl⟩

theorem blockShape_of {c : Circ} {l : List Block} {L : List (QOp × List Blow)} {L' : List (QOp × List Slip)}
    (h : List.Forall₂ (fun b a => a.1 = b.op ∧ (a.2.map fun x => x.qubits.length).sum ≤ (b.blows.map (ownPart name)).sum ∧
        ∀ x ∈ a.2, WithEnv c x.qubits x.op) l L) (h' : SameShape L L') : BlockShape name l L' := by
  induction h generalizing L' with
  | nil => cases h'; exact .nil
  | cons h _ ih =>
    cases h' with
    | cons g g' => exact .cons ⟨g.1.trans h.1, g.2.trans_le h.2.1⟩ (ih g')

theorem groups_same {m m' : Mem} (h : SameBits name m m') (c : Circ) : groups m (ownCregs name c) = groups m' (ownCregs name c) := by
  unfold groups
  refine List.map_congr_left fun r hr => ?_
  have hr := (List.mem_filter.1 (List.mem_reverse.1 hr)).2
  have hr : OwnName name r.name := by simpa using hr
  unfold groupString
  refine congrArg List.reverse (List.map_congr_left fun d hd => ?_)
  obtain ⟨i, -, rfl⟩ := List.mem_map.1 hd
  rw [h ⟨r.name, i⟩ hr]

/-- What a qubit in a shared circuit shows is what one alone may show, with some Pauli errors. -/
theorem shared_slips (W : Waiting cls q dh dw w) {l : List Block} (hw : ∀ u, AfterAlone cls q dh dw [] u → Works q (l.map Block.op) u)
    (hk : ∀ b ∈ l, ∀ r v, ¬b.op.cond r v) (hu : Undisturbed q l w)
    (hb : ∀ b ∈ l, ∀ x ∈ b.blows, OnQubits x.qubits x.op) {s s' : QState} (hs : SynZero q.lat.name dh dw s.psi)
    (h : Happens sz (blockEvents q l w) s s') (h0 : s'.psi ≠ 0) :
    ∃ u L, AfterAlone cls q dh dw [] u ∧ BlockShape q.lat.name l L ∧ ∃ t t' : QState, t.psi ≠ 0 ∧ SynZero q.lat.name dh dw t.psi ∧
      Run sz (slippedAll q L u) t t' ∧
      groups s'.mem (ownCregs q.lat.name (blocksAfter q l w).circ) = groups t'.mem (q.ops (l.map Block.op) u).circ.cregs := by
  obtain ⟨u, A, T, hc⟩ := waiting_twin W
  obtain ⟨L, hL, T', t, f1, f2, f3⟩ := blocks_alone hc A.after T (hw u A) hk hu hb h (m := s.mem) fun _ _ => rfl
  have hE : ∀ a ∈ L, ∀ b ∈ a.2, WithEnv u.circ b.qubits b.op := by
    clear f1
    intro a ha
    obtain ⟨i, hi, rfl⟩ := List.mem_iff_getElem.1 ha
    exact (hL.get (by rw [hL.length_eq]; exact hi) hi).2.2
  obtain ⟨L', hL', C, hC, hne, t', r1, r2⟩ := happens_outside A.after hE f1 (by rw [f2]; exact h0)
  refine ⟨u, L', A, blockShape_of hL hL', _, t', hne, apart_synZero A.after hC hs, r1, ?_⟩
  rw [r2, T'.cregs]
  exact groups_same f3 _

theorem memory_cond {o : QOp} (h : MemoryOp o) {r : Str} {v : Int} (hk : o.cond r v) : False := by
  cases o with
  | xCIf => exact h
  | zCIf => exact h
  | _ => exact hk

/-! ### Few errors -/

/-- C128: as C127, for a qubit in a circuit that it shares with others: in between its operations anything may be done to other qubits,
also depending on what the qubit's classical registers hold, and errors may happen everywhere, also errors that couple the qubit to other
ones. Only the qubit's own physical qubits are counted. The decoder is given the qubit's own classical registers. -/
theorem C128_lattice_z (W : Waiting cls q dh dw w) (hbig : 1 < dh * dw) {b0 b2 : Block} {l0 l : List Block} (hb0 : b0.op = .resetZ)
    (hb2 : b2.op = .latticeReadoutZ) (hl0 : ∀ b ∈ l0, MemoryOp b.op) (h1 : 1 ≤ (l0.map Block.op).count .stabilize) (hl : ∀ b ∈ l, MemoryOp b.op)
    (hu : Undisturbed q (b0 :: l0 ++ l ++ [b2]) w) (hb : ∀ b ∈ b0 :: l0 ++ l ++ [b2], ∀ x ∈ b.blows, OnQubits x.qubits x.op)
    (hc0 : ownCount q.lat.name (b0 :: l0) = 0) (hc2 : ownCount q.lat.name [b2] = 0) {T : Nat}
    (hT : ((l0 ++ l).map Block.op).count .stabilize = T + 1)
    {D : Decoder} (hD : Made D) (hdh : D.dh = dh) (hdw : D.dw = dw) {g : SGraph} (hg : D.S .Z = some g) (hDT : (T : Int) + 1 ≤ D.T)
    {m : Matcher} (hm : Contract m) (hf : 3 * (ownCount q.lat.name l : Int) < dh) {s s' : QState} (hs : SynZero q.lat.name dh dw s.psi)
    (hR : Happens sz (blockEvents q (b0 :: l0 ++ l ++ [b2]) w) s s') (h0' : s'.psi ≠ 0) :
    correctString D m (joinSp (groups s'.mem (ownCregs q.lat.name (blocksAfter q (b0 :: l0 ++ l ++ [b2]) w).circ))) .Z none =
      .ok (some (if ((l0 ++ l).map Block.op).count .x % 2 = 1 then 1 else 0)) := by
  have hmem : ∀ o ∈ (l0 ++ l).map Block.op, MemoryOp o := by
    intro o ho
    obtain ⟨b, hb, rfl⟩ := List.mem_map.1 ho
    exact (List.mem_append.1 hb).elim (hl0 b) (hl b)
  have eops : (b0 :: l0 ++ l ++ [b2]).map Block.op = .resetZ :: ((l0 ++ l).map Block.op ++ [.latticeReadoutZ]) := by
    simp only [List.cons_append, List.map_cons, List.map_append, List.append_assoc, List.map_nil, hb0, hb2]
  obtain ⟨u, L, A, hL, t, t', hne, hs', r, e⟩ := shared_slips W (fun u A => by
    rw [eops]
    refine ⟨works_prep (key := .Z) A.after hbig, works_append.2 ⟨works_memory hmem (A.after.next _), works_lattice ((A.after.next _).all_next _), True.intro⟩⟩)
    (fun b hb r v hk => by
      rcases List.mem_append.1 hb with hb | hb
      · rcases List.mem_append.1 hb with hb | hb
        · rcases List.mem_cons.1 hb with rfl | hb
          · rw [hb0] at hk; exact hk
          · exact memory_cond (hl0 b hb) hk
        · exact memory_cond (hl b hb) hk
      · rw [List.mem_singleton.1 hb, hb2] at hk; exact hk) hu hb hs hR h0'
  obtain ⟨L', hL', rfl⟩ := hL.middle hc0 hc2
  rw [e, eops]
  have hcount := hL'.count
  have key := lattice_slips A (by simp) rfl hbig (l0 := l0.map Block.op) (l := L') (fun o ho => hmem o (by
      rw [List.map_append]; exact List.mem_append_left _ ho)) h1 (hL'.memory hl) (by rw [hL'.fst, ← List.map_append]; exact hT)
      hD hdh hdw hg hDT hm (by
        rw [show slipCost cls.code .Z = 3 by cases cls.code <;> rfl]
        push_cast
        omega) hne hs' (by
        rw [List.map_cons, hb0, List.map_singleton, hb2] at r
        exact r)
  rw [hL'.fst, ← List.map_append] at key
  exact key

/-- C128: the same with a readout of the logical operator of either type, after two more rounds in which the qubit is spared. -/
theorem C128_logical (W : Waiting cls q dh dw w) (hbig : 1 < dh * dw) (hcan : CanRead cls dh dw key) {b0 b2 : Block} {l0 l l1 : List Block}
    (hb0 : b0.op = prepOp key) (hb2 : b2.op = readOp key) (hl0 : ∀ b ∈ l0, MemoryOp b.op) (h1 : 1 ≤ (l0.map Block.op).count .stabilize)
    (hl : ∀ b ∈ l, MemoryOp b.op) (hl1 : ∀ b ∈ l1, MemoryOp b.op) (h2 : 2 ≤ (l1.map Block.op).count .stabilize)
    (hu : Undisturbed q (b0 :: l0 ++ l ++ (l1 ++ [b2])) w) (hb : ∀ b ∈ b0 :: l0 ++ l ++ (l1 ++ [b2]), ∀ x ∈ b.blows, OnQubits x.qubits x.op)
    (hc0 : ownCount q.lat.name (b0 :: l0) = 0) (hc2 : ownCount q.lat.name (l1 ++ [b2]) = 0) {T : Nat}
    (hT : ((l0 ++ l ++ l1).map Block.op).count .stabilize = T + 1)
    {D : Decoder} (hD : Made D) (hdh : D.dh = dh) (hdw : D.dw = dw) {g : SGraph} (hg : D.S key = some g) (hDT : (T : Int) ≤ D.T)
    {m : Matcher} (hm : Contract m) (hf : partTolerated cls key * (ownCount q.lat.name l : Int) < distance key dh dw) {s s' : QState}
    (hs : SynZero q.lat.name dh dw s.psi) (hR : Happens sz (blockEvents q (b0 :: l0 ++ l ++ (l1 ++ [b2])) w) s s') (h0' : s'.psi ≠ 0) :
    correctString D m (joinSp (groups s'.mem (ownCregs q.lat.name (blocksAfter q (b0 :: l0 ++ l ++ (l1 ++ [b2])) w).circ))) (rtypeOf key) none =
      .ok (some (bit (decide (((l0 ++ l ++ l1).map Block.op).count (flipGate key) % 2 = 1)))) := by
  have hmem : ∀ o ∈ (l0 ++ l ++ l1).map Block.op, MemoryOp o := by
    intro o ho
    obtain ⟨b, hb, rfl⟩ := List.mem_map.1 ho
    rcases List.mem_append.1 hb with hb | hb
    · exact (List.mem_append.1 hb).elim (hl0 b) (hl b)
    · exact hl1 b hb
  have eops : (b0 :: l0 ++ l ++ (l1 ++ [b2])).map Block.op = prepOp key :: ((l0 ++ l ++ l1).map Block.op ++ [readOp key]) := by
    simp only [List.cons_append, List.map_cons, List.map_append, List.append_assoc, List.map_nil, hb0, hb2]
  obtain ⟨u, L, A, hL, t, t', hne, hs', r, e⟩ := shared_slips W (fun u A => by
    rw [eops]
    refine ⟨works_prep A.after hbig, works_append.2 ⟨works_memory hmem (A.after.next _), works_read ((A.after.next _).all_next _) hcan, True.intro⟩⟩)
    (fun b hb r v hk => by
      rcases List.mem_append.1 hb with hb | hb
      · rcases List.mem_append.1 hb with hb | hb
        · rcases List.mem_cons.1 hb with rfl | hb
          · rw [hb0] at hk; cases key <;> exact hk
          · exact memory_cond (hl0 b hb) hk
        · exact memory_cond (hl b hb) hk
      · rcases List.mem_append.1 hb with hb | hb
        · exact memory_cond (hl1 b hb) hk
        · rw [List.mem_singleton.1 hb, hb2] at hk; cases key <;> exact hk) hu hb hs hR h0'
  obtain ⟨L', hL', rfl⟩ := hL.middle hc0 hc2
  rw [e, eops]
  have hcount : (slipCount L' : Int) ≤ (ownCount q.lat.name l : Int) := by exact_mod_cast hL'.count
  have hpos : 0 ≤ partTolerated cls key := by unfold partTolerated; split <;> decide
  have := mul_le_mul_of_nonneg_left hcount hpos
  have key' := logical_slips A (by simp) rfl hbig hcan (l0 := l0.map Block.op) (l := L') (l1 := l1.map Block.op) (fun o ho => by
      obtain ⟨b, hb, rfl⟩ := List.mem_map.1 ho; exact hl0 b hb) h1 (hL'.memory hl) (fun o ho => by
      obtain ⟨b, hb, rfl⟩ := List.mem_map.1 ho; exact hl1 b hb) h2 (by rw [hL'.fst, ← List.map_append, ← List.map_append]; exact hT)
      hD hdh hdw hg hDT hm (by
        rw [show (slipCost cls.code key : Int) = partTolerated cls key by cases cls <;> cases key <;> rfl]
        omega) hne hs' (by
        rw [List.map_cons, hb0, List.map_append (l₁ := l1), List.map_singleton, hb2] at r
        exact r)
  rw [hL'.fst, ← List.map_append, ← List.map_append] at key'
  exact key'

/-! ### Who leaves the qubit alone -/

/-- C128: what is done to another qubit of the register, in a history in which qubits do not share dictionaries, leaves the qubit alone,
if no physical bits of the qubit are given to it. -/
theorem C128_other_qubit {s : TState} (S : SaneState s) {j k : Int} {q' : TQubit} (hj : s.treg.find? j = some q) (hk : s.treg.find? k = some q')
    (hjk : j ≠ k) (o : QOp) (ha : ∀ x, o.args x → ¬OwnName q.lat.name x.reg) (hc : ∀ r, o.creg r → ¬OwnName q.lat.name r) :
    Elsewhere q s.world (onQubit (.idx k) o s).2.world := by
  have e : onQubit (.idx k) o s = ((q'.op o s.world).1, { s with world := (q'.op o s.world).2 }) := by
    unfold onQubit
    have : getIndex (.idx k) s = (.ok q', s) := by unfold getIndex; simp only [hk]
    rw [CM.bind_ok this]; rfl
  rw [e]
  exact S.inv.op_elsewhere hj hk hjk o ha hc

/-- C128: so does a logical CNOT of two other qubits, if the qubit is not in the sub-register of ancillas, whether an ancilla has to be made or not. -/
theorem C128_other_cx {s : TState} (S : SaneState s) {j kc kt : Int} {kind : Option Str} {p : Option Nat} (h : Sane s (.cx (.idx kc) (.idx kt) kind p))
    (hj : s.treg.find? j = some q) (jc : j ≠ kc) (jt : j ≠ kt)
    (hn : ∀ d, s.treg.tqubits.get? "ancilla".toList = some d → ∀ e ∈ d, (e.1 : Int) ≠ j) :
    Elsewhere q s.world (cxT (.idx kc) (.idx kt) kind p s).2.world := cx_elsewhere S.inv h hj jc jt hn

/-- C128: making further qubits leaves the qubit alone, and a qubit that was made is a waiting one. -/
theorem C128_added {s : TState} (S : SaneState s) (sub ctype : Str) {p : Option Nat} (hp : OwnDict s p) :
    (∀ j q, s.treg.find? j = some q → Elsewhere q s.world (addTqubit sub ctype p s).2.world) ∧
    ((addTqubit sub ctype p s).1 = .ok () → ∃ q dh dw, (addTqubit sub ctype p s).2.treg.find? s.treg.n = some q ∧
      Waiting q.cls q dh dw (addTqubit sub ctype p s).2.world) := add_elsewhere S.inv sub ctype hp

/-- A waiting qubit waits while something happens elsewhere. -/
theorem C128_wait {w' : World} (W : Waiting cls q dh dw w) (h : Elsewhere q w w') : Waiting cls q dh dw w' := by
  obtain ⟨w0, w1, h1, h2, h3⟩ := W
  exact ⟨w0, w1, h1, h2, h3.trans h⟩

/-! ### An example -/

/-- Blocks as instructions and errors. -/
def blockBy (q : TQubit) : List Block → World → List (Instr ⊕ Blow)
  | [], _ => []
  | b :: l, w => struckBy b.errors 0 (added q b.op w) ++ othersBy b.others (q.op b.op w).2 ++ blockBy q l (othersAfter b.others (q.op b.op w).2)
where
  /-- The same for what happens elsewhere. -/
  othersBy : List (World × List Blow) → World → List (Instr ⊕ Blow)
  | [], _ => []
  | (w', E) :: l, w => struckBy E 0 (w'.circ.instrs.drop w.circ.instrs.length) ++ othersBy l w'

theorem othersBy_events (l : List (World × List Blow)) (w : World) : (blockBy.othersBy l w).map eventOf = othersEvents l w := by
  induction l generalizing w with
  | nil => rfl
  | cons a l ih => rw [blockBy.othersBy, othersEvents, List.map_append, struckBy_events, ih]

theorem blockBy_events (q : TQubit) (l : List Block) (w : World) : (blockBy q l w).map eventOf = blockEvents q l w := by
  induction l generalizing w with
  | nil => rfl
  | cons a l ih => rw [blockBy, blockEvents, List.map_append, List.map_append, struckBy_events, othersBy_events, ih]

theorem othersBy_mem {l : List (World × List Blow)} {w : World} {x : Blow} (h : .inr x ∈ blockBy.othersBy l w) : x ∈ l.flatMap Prod.snd := by
  induction l generalizing w with
  | nil => cases h
  | cons a l ih =>
    rw [List.flatMap_cons]
    rcases List.mem_append.1 (show .inr x ∈ struckBy a.2 0 _ ++ blockBy.othersBy l a.1 from h) with h | h
    · exact List.mem_append_left _ (struckBy_mem h)
    · exact List.mem_append_right _ (ih h)

theorem blockBy_mem {l : List Block} {w : World} {x : Blow} (h : .inr x ∈ blockBy q l w) : ∃ b ∈ l, x ∈ b.blows := by
  induction l generalizing w with
  | nil => cases h
  | cons a l ih =>
    rcases List.mem_append.1 (show .inr x ∈ struckBy a.errors 0 _ ++ blockBy.othersBy a.others _ ++ blockBy q l _ from h) with h | h
    · refine ⟨a, List.mem_cons_self, ?_⟩
      rcases List.mem_append.1 h with h | h
      · exact List.mem_append_left _ (struckBy_mem h)
      · exact List.mem_append_right _ (othersBy_mem h)
    · obtain ⟨b, hb, h⟩ := ih h
      exact ⟨b, List.mem_cons_of_mem _ hb, h⟩

theorem proper_of_wf {c : Circ} (h : WellFormed c) {n : Nat} {i : Instr} (hi : i ∈ c.instrs.drop n) : i.Proper := by
  have := h.fits i (List.mem_of_mem_drop hi)
  cases i with
  | gate2 g a b => exact this.2.2
  | _ => trivial

/-- The first qubit is prepared and stabilized, then something happens elsewhere, and in the middle of the next round of the qubit the data qubits 0
of two qubits become entangled by an unwanted controlled phase gate. -/
noncomputable def twoQubitBlocks (wb : World) : List Block := [⟨.resetZ, [], []⟩, ⟨.stabilize, [], [(wb, [])]⟩] ++
  [⟨.stabilize, [⟨30, [dataQ "r_0".toList 0, dataQ "r_1".toList 0], opCZ (dataQ "r_0".toList 0) (dataQ "r_1".toList 0)⟩], []⟩, ⟨.x, [], []⟩] ++
  [⟨.latticeReadoutZ, [], []⟩]

theorem opCZ_on {x y : Qubit} (h : x ≠ y) : OnQubits [x, y] (opCZ x y) := by
  have : opCZ x y = matOp2 x y fun i j a b => if i = a ∧ j = b then (if i && j then -1 else 1) else 0 := by
    refine LinearMap.ext fun ψ => funext fun c => ?_
    have hu : update (update c x (c x)) y (c y) = c := by rw [update_eq_self, update_eq_self]
    show (if c x && c y then -ψ c else ψ c) = _
    simp only [matOp2, LinearMap.coe_mk, AddHom.coe_mk]
    cases hx : c x <;> cases hy : c y <;> rw [hx, hy] at hu <;> simp [hu]
  rw [this]
  exact C124_matrix2 List.mem_cons_self (List.mem_cons_of_mem _ List.mem_cons_self) h _

/-- Two qubits of height and width 5 in one circuit. Between the rounds of the first the second is stabilized, and an error entangles them. There is an
execution, and the decoder finds the right value. -/
example : ∃ q q', twoQubits2.treg.find? 0 = some q ∧ twoQubits2.treg.find? 1 = some q' ∧ Waiting .xxzz q 5 5 twoQubits2.world ∧
    ∃ wb D m s', wb = (q'.op .stabilize (q.op .stabilize (q.op .resetZ twoQubits2.world).2).2).2 ∧
    Happens (fun _ => 0) (blockEvents q (twoQubitBlocks wb) twoQubits2.world) ⟨ground, fun _ => false⟩ s' ∧ s'.psi ≠ 0 ∧
    correctString D m (joinSp (groups s'.mem (ownCregs q.lat.name (blocksAfter q (twoQubitBlocks wb) twoQubits2.world).circ))) .Z none = .ok (some 1) := by
  obtain ⟨q, q', T, hq, hq', hn, hn', W⟩ := twoQubits_facts
  have step : ∀ {s : TState} {k : Int} {p : TQubit} (o : QOp), TInv s → s.treg.find? k = some p → TInv { s with world := (p.op o s.world).2 } :=
    fun o T h => (T.op h o).1
  have Ta := step .resetZ T hq
  have Tb := step .stabilize Ta hq
  have Tc := step .stabilize Tb hq'
  have Td := step .stabilize Tc hq
  have Te := step .x Td hq
  have Tf := step .latticeReadoutZ Te hq
  have hE : Elsewhere q (q.op .stabilize (q.op .resetZ twoQubits2.world).2).2
      (q'.op .stabilize (q.op .stabilize (q.op .resetZ twoQubits2.world).2).2).2 :=
    Tb.op_elsewhere hq hq' (by decide) .stabilize (fun _ h => h.elim) (fun _ h => h.elim)
  obtain ⟨wb, hwb⟩ : ∃ wb, wb = (q'.op .stabilize (q.op .stabilize (q.op .resetZ twoQubits2.world).2).2).2 := ⟨_, rfl⟩
  rw [← hwb] at hE
  have hne : dataQ "r_0".toList 0 ≠ dataQ "r_1".toList 0 := by decide
  have only : ∀ b ∈ twoQubitBlocks wb, ∀ x ∈ b.blows, x = ⟨30, [dataQ "r_0".toList 0, dataQ "r_1".toList 0], opCZ (dataQ "r_0".toList 0) (dataQ "r_1".toList 0)⟩ := by
    intro b hb x hx
    simp only [twoQubitBlocks, List.cons_append, List.nil_append, List.mem_cons, List.not_mem_nil, or_false] at hb
    rcases hb with rfl | rfl | rfl | rfl | rfl
    · cases hx
    · cases hx
    · exact List.mem_singleton.1 hx
    · cases hx
    · cases hx
  obtain ⟨D, sx, sz, h, h1, h2, h3, h4, h5⟩ := C21_surface_built 900 { d := some (.tup [.int 5, .int 5]), T := some 2 } 5 5 2
    (by unfold OddPos; decide) (Or.inl rfl) rfl (by decide)
  obtain ⟨m, hm⟩ := contract_exists
  obtain ⟨s', hs', h0'⟩ := happens_exists (sz := fun _ => 0) (L := blockBy q (twoQubitBlocks wb) twoQubits2.world) (by
      intro x hx
      obtain ⟨b, hb, hx⟩ := blockBy_mem hx
      rw [only b hb x hx]
      exact ⟨_, opCZ_sq _ _⟩) (by
      intro i hi
      simp only [twoQubitBlocks, blockBy, blockBy.othersBy, othersAfter, List.cons_append, List.nil_append, List.mem_append, List.not_mem_nil, or_false] at hi
      rcases hi with h | (h | h) | h | h | h
      · exact proper_of_wf Ta.wf (struckBy_instr h)
      · exact proper_of_wf Tb.wf (struckBy_instr h)
      · rw [hwb] at h
        exact proper_of_wf Tc.wf (struckBy_instr h)
      · rw [hwb] at h
        exact proper_of_wf Td.wf (struckBy_instr h)
      · rw [hwb] at h
        exact proper_of_wf Te.wf (struckBy_instr h)
      · rw [hwb] at h
        exact proper_of_wf Tf.wf (struckBy_instr h)) ⟨ground, fun _ => false⟩ ground_ne_zero
  rw [blockBy_events] at hs'
  have own0 : OwnName q.lat.name (dataQ "r_0".toList 0).reg := ⟨"data".toList, by rw [hn]; decide⟩
  have own1 : ¬OwnName q.lat.name (dataQ "r_1".toList 0).reg := by
    rintro ⟨rest, e⟩
    rw [hn] at e
    have := congrArg (fun s : Str => s[2]?) e
    simp [dataQ] at this
  refine ⟨q, q', hq, hq', W, wb, D, m, s', hwb, hs', h0', C128_lattice_z (T := 1) (b0 := ⟨.resetZ, [], []⟩) (b2 := ⟨.latticeReadoutZ, [], []⟩)
    (l0 := [⟨.stabilize, [], [(wb, [])]⟩]) W (by decide) rfl rfl ?_ (le_refl 1) ?_ ?_ ?_ ?_ ?_ rfl (Or.inl ⟨_, _, h⟩) h1 h2 h5 (by rw [h3]; decide) hm
    ?_ (s := ⟨ground, fun _ => false⟩) ground_synZero hs' h0'⟩
  · intro b hb
    rw [List.mem_singleton.1 hb]; trivial
  · intro b hb
    simp only [List.mem_cons, List.not_mem_nil, or_false] at hb
    rcases hb with rfl | rfl <;> trivial
  · exact ⟨trivial, ⟨hE, trivial⟩, trivial, trivial, trivial, trivial⟩
  · intro b hb x hx
    rw [only b hb x hx]
    exact opCZ_on hne
  · simp [ownCount, Block.blows]
  · simp [ownCount, Block.blows]
  · have : ownCount q.lat.name [⟨.stabilize, [⟨30, [dataQ "r_0".toList 0, dataQ "r_1".toList 0], opCZ (dataQ "r_0".toList 0) (dataQ "r_1".toList 0)⟩], []⟩,
      ⟨.x, [], []⟩] = 1 := by
      rw [ownCount_cons]
      have : ∀ x y : Qubit, OwnName q.lat.name x.reg → ¬OwnName q.lat.name y.reg → [x, y].countP (fun x => decide (OwnName q.lat.name x.reg)) = 1 := by
        intro x y hx hy
        rw [List.countP_cons_of_pos (by simpa using hx), List.countP_cons_of_neg (by simpa using hy)]; rfl
      have := this _ _ own0 own1
      simp only [Block.blows, List.flatMap_nil, List.append_nil, List.map_cons, List.map_nil, List.sum_cons, List.sum_nil, ownPart, this]
      simp [ownCount, Block.blows]
    rw [this]; decide

end Qtc
