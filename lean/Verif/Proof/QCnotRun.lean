import Verif.Proof.TCnot
import Verif.Spec.QuantumCnot
/-!
What a call of `cx` runs.
-/
namespace Qtc
open Spec

variable {s s' : TState} {i j : Int} {c t : TQubit} {φ φ' : QState} {ch cw th tw : Int}

theorem Spec.Points.index {k : Int} {q : TQubit} {a : QArg} (h : Points s a k q) : getIndex a s = (.ok q, s) := by
  obtain ⟨h, rfl | rfl⟩ := h
  · unfold getIndex
    simp only [h]
  · rfl

theorem Placed.sized {q : TQubit} {dh dw dh' dw' : Int} (P : Placed q.lat dh dw s.world) (h : HasSize s q dh' dw') : Placed q.lat dh' dw' s.world := by
  obtain ⟨r, h⟩ := h
  obtain ⟨r', h'⟩ := P.d
  rw [h] at h'
  cases h'
  exact P

theorem Grown.sized {q : TQubit} (G : Grown s s') {dh dw : Int} (hr : q.lat.pref < s.world.next) (P : Placed q.lat dh dw s.world)
    (h : ∃ k, s'.treg.find? k = some q) : Placed q.lat dh dw s'.world := by
  obtain ⟨k, h⟩ := h
  obtain ⟨dh', dw', P'⟩ := (G.inv.held k q h).placed
  obtain ⟨h1, -, -⟩ := (G.heap _ hr).dims dh dw P.dims
  exact P'.sized h1

/-- What a call of `cx` works on. -/
structure Worked (s : TState) (i j : Int) (c t : TQubit) (ch cw th tw : Int) (φ φ' : QState) (a : Patch) : Prop where
  sep : Separate (patchOf c ch cw) (patchOf t th tw) a ⟨helperQ, 0⟩
  Hc : OddPos ch cw
  proper : ∀ x ∈ cnotInstrs (patchOf c ch cw) (patchOf t th tw) a ⟨helperQ, 0⟩, x.Proper
  run : ∃ sz : Str → Nat, (∀ n ∈ helperC, sz n = 1) ∧ Run sz (cnotInstrs (patchOf c ch cw) (patchOf t th tw) a ⟨helperQ, 0⟩) φ φ'
  other : ∀ k q, s.treg.find? k = some q → k ≠ i → k ≠ j →
    (∀ d, s.treg.tqubits.get? "ancilla".toList = some d → ∀ e ∈ d, (e.1 : Int) ≠ k) →
    Far q.lat.name c.lat.name ∧ Far q.lat.name t.lat.name ∧ Far q.lat.name a.name ∧ Outside q.lat.name ⟨helperQ, 0⟩

/-- What a call of `cx` works on, also if control and target are the same qubit. -/
theorem cx_worked (fair : FairState s)
    (call : ∃ ca ta ctype p, Points s ca i c ∧ Points s ta j t ∧ GivenDict s p ∧ cxT ca ta ctype p s = (.ok (), s'))
    (ancilla : ∀ d, s.treg.tqubits.get? "ancilla".toList = some d → ∀ e ∈ d, (e.1 : Int) ≠ i ∧ (e.1 : Int) ≠ j)
    (run : ∃ sz : Str → Nat, (∀ r ∈ s'.world.circ.cregs, sz r.name = r.size) ∧
      Run sz (s'.world.circ.instrs.drop s.world.circ.instrs.length) φ φ')
    (hc : HasSize s c ch cw) (ht : HasSize s t th tw) :
    ∃ a, ((OddPos th tw ∧ OddPos a.dh a.dw) ∧ (i ≠ j → Far c.lat.name t.lat.name) ∧ (Far c.lat.name a.name ∧ Far t.lat.name a.name) ∧
      Outside c.lat.name ⟨helperQ, 0⟩ ∧ Outside t.lat.name ⟨helperQ, 0⟩ ∧ Outside a.name ⟨helperQ, 0⟩) ∧ OddPos ch cw ∧
      (∀ x ∈ cnotInstrs (patchOf c ch cw) (patchOf t th tw) a ⟨helperQ, 0⟩, x.Proper) ∧
      (∃ sz : Str → Nat, (∀ n ∈ helperC, sz n = 1) ∧ Run sz (cnotInstrs (patchOf c ch cw) (patchOf t th tw) a ⟨helperQ, 0⟩) φ φ') ∧
      ∀ k q, s.treg.find? k = some q → k ≠ i → k ≠ j →
        (∀ d, s.treg.tqubits.get? "ancilla".toList = some d → ∀ e ∈ d, (e.1 : Int) ≠ k) →
        Far q.lat.name c.lat.name ∧ Far q.lat.name t.lat.name ∧ Far q.lat.name a.name ∧ Outside q.lat.name ⟨helperQ, 0⟩ := by
  have F := fair.inv
  obtain ⟨ca, ta, ctype, p, pc, pt, hp, hcall⟩ := call
  obtain ⟨sz, hsz, hrun⟩ := run
  rcases F.cxFound (kt := j) pc.1 pc.index pt.index (ctype := ctype) hp with ⟨e, h, -⟩ | ⟨kind, b, d, ka, a, he, G, hd, hm, hf, hr⟩
  · rw [hcall] at h; cases h
  have fc := G.keep _ _ pc.1
  have ft := G.keep _ _ pt.1
  have hb : cxBody c t a b = (.ok (), s') := hr.symm.trans hcall
  have Fb := G.inv
  obtain ⟨ah, aw, Pa⟩ := (Fb.held _ _ hf).placed
  obtain ⟨h1, h2, P1⟩ := (F.held _ _ pc.1).placed
  obtain ⟨h3, h4, P2⟩ := (F.held _ _ pt.1).placed
  have Pc := G.sized (F.held _ _ pc.1).ref (P1.sized hc) ⟨i, fc⟩
  have Pt := G.sized (F.held _ _ pt.1).ref (P2.sized ht) ⟨j, ft⟩
  have name : ∀ k q, b.treg.find? k = some q → q.lat.name = qname s.treg.name k.toNat := by
    intro k q h
    rw [← G.name]
    exact (Fb.held k q h).name
  have out : ∀ k q, b.treg.find? k = some q → Outside q.lat.name ⟨helperQ, 0⟩ := by
    intro k q h y e
    rw [name k q h] at e
    exact helper_ne (Or.inr rfl) e
  have far : ∀ k q k' q', b.treg.find? k = some q → b.treg.find? k' = some q' → k ≠ k' → Far q.lat.name q'.lat.name := by
    intro k q k' q' h h' hk x y e
    rw [name k q h, name k' q' h'] at e
    have := (qname_inj e).1
    have := (Fb.find_range h).1
    have := (Fb.find_range h').1
    omega
  have anc : ∀ k q, s.treg.find? k = some q → (∀ d, s.treg.tqubits.get? "ancilla".toList = some d → ∀ e ∈ d, (e.1 : Int) ≠ k) → k ≠ ka := by
    intro k q hk hn
    cases ho : s.treg.tqubits.get? "ancilla".toList with
    | some d' =>
      have : b = s := by
        have := he
        unfold ensureAncilla at this
        rw [ho] at this
        cases this
        rfl
      subst this
      exact (hn d hd _ hm).symm
    | none =>
      rintro rfl
      obtain ⟨log, tried, A⟩ := F.agrees
      have hlt := (F.find_range hk).2
      have hnot : "ancilla".toList ∉ tried := by
        intro hh
        have := A.get "ancilla".toList
        rw [ho, if_pos hh] at this
        cases this
      unfold ensureAncilla at he
      rw [ho] at he
      have he : addTqubit "ancilla".toList kind.1 kind.2 s = (.ok (), b) := he
      rcases addTqubit_run "ancilla".toList kind.1 kind.2 s with ⟨-, h⟩ | ⟨cls, -, ⟨q', w', -, h⟩ | ⟨e', w', -, h⟩⟩
      · rw [h] at he; cases he
      · rw [h] at he
        cases he
        have hin : "ancilla".toList ∈ tried ++ ["ancilla".toList] := List.mem_append_right _ (List.mem_singleton.2 rfl)
        have A' := (A.touched "ancilla".toList).stored hin q' kind.2
        have hg := A'.get "ancilla".toList
        rw [hd, if_pos hin] at hg
        cases hg
        have hm := mem_entriesOf.1 hm
        rw [A.n] at hlt
        rw [List.getElem?_append_left (by simpa using hlt)] at hm
        exact hnot (A.used _ (List.mem_of_getElem? hm))
      · rw [h] at he; cases he
  obtain ⟨-, -, hi, hC⟩ := cxBody_closed Fb.ready Pc Pt Pa (out _ _ fc) (out _ _ ft) (out _ _ hf) hb
  have Fs : FInv s' := by
    have := (Fb.cxBody fc ft hf).2
    rw [hb] at this
    exact this
  have hi' : s'.world.circ.instrs = s.world.circ.instrs ++ cnotInstrs (patchOf c ch cw) (patchOf t th tw) (patchOf a ah aw) ⟨helperQ, 0⟩ := by
    rw [hi, G.instrs]
  have ni := anc i c pc.1 fun d hd e he => (ancilla d hd e he).1
  have nj := anc j t pt.1 fun d hd e he => (ancilla d hd e he).2
  refine ⟨patchOf a ah aw, ⟨⟨Pt.odd, Pa.odd⟩, far _ _ _ _ fc ft, ⟨far _ _ _ _ fc hf ni, far _ _ _ _ ft hf nj⟩, out _ _ fc, out _ _ ft, out _ _ hf⟩,
    Pc.odd, ?_, ⟨sz, ?_, ?_⟩, ?_⟩
  · intro x hx
    refine proper_of_fits (Fs.wf.fits x ?_)
    rw [hi']
    exact List.mem_append_right _ hx
  · intro n hn
    exact hsz _ (hC n hn)
  · rw [hi', List.drop_left] at hrun
    exact hrun
  · intro k q hk h1 h2 h3
    have hk' := G.keep _ _ hk
    exact ⟨far _ _ _ _ hk' fc h1, far _ _ _ _ hk' ft h2, far _ _ _ _ hk' hf (anc k q hk h3), out _ _ hk'⟩

theorem Spec.CxRun.worked (R : CxRun s i j c t s' φ φ') (hc : HasSize s c ch cw) (ht : HasSize s t th tw) :
    ∃ a, Worked s i j c t ch cw th tw φ φ' a := by
  obtain ⟨a, ⟨⟨h1, h2⟩, h3, ⟨h4, h5⟩, h6, h7, h8⟩, h9, h10, h11, h12⟩ := cx_worked R.fair R.call R.ancilla R.run hc ht
  exact ⟨a, ⟨h1, h2, h3 R.ne, h4, h5, h6, h7, h8⟩, h9, h10, h11, h12⟩

end Qtc
