import Verif.Proof.TCxRuns
import Verif.Props.QuantumCnot
/-!
C86, C87: when `TopologicalCircuit.cx` raises, and what it leaves behind then.
-/
namespace Qtc
open Spec

variable {s : TState} {ca ta : QArg} {i j : Int} {c t : TQubit} {ch cw : Int}

theorem Spec.Points.getIndex (h : Points s ca i c) : getIndex ca s = (.ok c, s) := by
  obtain ⟨h, rfl | rfl⟩ := h
  · unfold Qtc.getIndex; simp only [h]
  · rfl

theorem wide_iff {q : TQubit} {dw : Int} (h : q.lat.code = q.cls.code) : Wide q dw ↔ q.cls ≠ .xzzx ∨ 1 < dw := by
  unfold Wide
  rw [h]
  cases q.cls <;> simp [QClass.code]

/-- C86: in every state, `cx` with the default ancilla succeeds if and only if the logical Z of the control and of the last qubit of the
sub-register "ancilla" can be read (an XZZX code must be wider than 1, see C62); if that sub-register exists, it must not be empty. -/
theorem C86_iff (S : FairState s) (pc : Points s ca i c) (pt : Points s ta j t) (hc : HasSize s c ch cw) :
    (cxT ca ta none none s).1 = .ok () ↔ (c.cls ≠ .xzzx ∨ 1 < cw) ∧ ∀ d, s.treg.tqubits.get? "ancilla".toList = some d →
      ∃ k a ah aw, d.getLast? = some (k, a) ∧ HasSize s a ah aw ∧ (a.cls ≠ .xzzx ∨ 1 < aw) := by
  have F := S.inv
  have gc := pc.getIndex
  have gt := pt.getIndex
  have fc := pc.1
  have ft := pt.1
  obtain ⟨rest, hd⟩ := hc
  obtain ⟨dh, dw, Pc⟩ := (F.held _ _ fc).placed
  obtain ⟨rfl, rfl⟩ := Pc.of_size hd
  have hkind : ancillaKind ca none none s = (.ok (c.cls.ctype, some c.lat.pref), s) := by
    unfold ancillaKind
    simp only
    rw [CM.bind_ok gc]; rfl
  rw [cxT_eq, CM.bind_ok hkind, CM.bind_ok gc, CM.bind_ok gt]
  have wc := wide_iff (dw := cw) (F.held _ _ fc).code
  cases hn : s.treg.tqubits.get? "ancilla".toList with
  | none =>
    obtain ⟨b, hb, hg⟩ := F.ensure_default fc hn Pc
    have G := F.ensure (kind := (c.cls.ctype, some c.lat.pref)) (fun r hr => by
      cases hr
      exact ⟨(F.held _ _ fc).ref, (F.held _ _ fc).nonneg⟩)
    rw [hb] at G
    replace G : Grown s b := G
    rw [CM.bind_ok hb]
    obtain ⟨d, k, a, hd', hm, hf, hr⟩ | ⟨e, hr⟩ := G.inv.lastAncilla
    swap
    · rw [lastAncilla_of hg rfl] at hr; cases hr
    rw [hg] at hd'
    cases hd'
    cases List.mem_singleton.1 hm
    rw [CM.bind_ok hr]
    have D := (G.heap _ (F.held _ _ fc).ref).dims _ _ Pc.dims
    obtain ⟨rest', hd'⟩ := D.1
    obtain ⟨dh, dw, Pc'⟩ := (G.inv.held _ _ (G.keep _ _ fc)).placed
    obtain ⟨rfl, rfl⟩ := Pc'.of_size hd'
    obtain ⟨dh, dw, Pa⟩ := (G.inv.held _ _ hf).placed
    obtain ⟨rfl, rfl⟩ := Pa.of_size hd'
    rw [G.inv.cxBody_iff (G.keep _ _ fc) (G.keep _ _ ft) hf Pc' Pa, wc, wide_iff (G.inv.held _ _ hf).code]
    simp
  | some d =>
    have hb : ensureAncilla (c.cls.ctype, some c.lat.pref) s = (.ok (), s) := by
      unfold ensureAncilla
      rw [hn]
    rw [CM.bind_ok hb]
    obtain ⟨d', k, a, hd', hm, hf, hr⟩ | ⟨e, hr⟩ := F.lastAncilla
    · rw [hn] at hd'
      cases hd'
      rw [CM.bind_ok hr]
      obtain ⟨ah, aw, Pa⟩ := (F.held _ _ hf).placed
      rw [F.cxBody_iff fc ft hf Pc Pa, wc, wide_iff (F.held _ _ hf).code]
      have hlast : ∃ e, d.getLast? = some e ∧ e.2 = a := by
        unfold lastAncilla at hr
        rw [hn] at hr
        simp only at hr
        split at hr
        · rename_i e he
          exact ⟨e, he, by cases hr; rfl⟩
        · cases hr
      obtain ⟨e, he, rfl⟩ := hlast
      constructor
      · rintro ⟨h1, h2⟩
        refine ⟨h1, fun d' hd' => ?_⟩
        cases hd'
        exact ⟨e.1, e.2, ah, aw, he, Pa.d, h2⟩
      · rintro ⟨h1, h2⟩
        refine ⟨h1, ?_⟩
        obtain ⟨k', a', ah', aw', h3, h4, h5⟩ := h2 d rfl
        rw [he] at h3
        cases h3
        obtain ⟨rest', h4⟩ := h4
        obtain ⟨rfl, rfl⟩ := Pa.of_size h4
        exact h5
    · rw [CM.bind_error hr]
      constructor
      · intro h; cases h
      · rintro ⟨-, h2⟩
        obtain ⟨k', a', ah', aw', h3, -⟩ := h2 d rfl
        rw [lastAncilla_of hn h3] at hr
        cases hr

/-- C86, partial: succeeds on codes that are not XZZX codes of width 1, as long as no ancilla of that kind has been made. What is missing
(and false, see `C86_iff`): XZZX codes of width 1, and an empty sub-register "ancilla". -/
theorem C86_partial (S : FairState s) (pc : Points s ca i c) (pt : Points s ta j t) (hc : HasSize s c ch cw) (hr : c.cls ≠ .xzzx ∨ 1 < cw)
    (hn : s.treg.tqubits.get? "ancilla".toList = none) : (cxT ca ta none none s).1 = .ok () :=
  (C86_iff S pc pt hc).2 ⟨hr, fun d hd => by rw [hn] at hd; cases hd⟩

/-- C86 is false for controls that are XZZX codes of width 1. -/
theorem C86_false (S : FairState s) (pc : Points s ca i c) (pt : Points s ta j t) (hc : HasSize s c ch 1) (hx : c.cls = .xzzx) :
    ∃ e, (cxT ca ta none none s).1 = .error e := by
  rcases h : (cxT ca ta none none s).1 with e | u
  · exact ⟨e, rfl⟩
  · have := ((C86_iff S pc pt hc).1 h).1
    rcases this with h | h
    · exact absurd hx h
    · omega

/-! ### C87 -/

/-- The sub-register "ancilla" exists and is empty. -/
def NoAncilla (s : TState) : Prop := s.treg.tqubits.get? "ancilla".toList = some []

theorem getIndex_either (s : TState) (a : QArg) : (∃ q, getIndex a s = (.ok q, s)) ∨ getIndex a s = (.error .valueError, s) := by
  cases a with
  | idx k =>
    cases hk : s.treg.find? k with
    | none => exact Or.inr (by unfold getIndex; simp only [hk])
    | some q => exact Or.inl ⟨q, by unfold getIndex; simp only [hk]⟩
  | obj q => exact Or.inl ⟨q, rfl⟩

theorem NoAncilla.cx (h : NoAncilla s) (ca ta : QArg) (ctype : Option Str) (p : Option Nat) :
    ∃ e, cxT ca ta ctype p s = (.error e, s) := by
  have keep : ∀ a : QArg, (∃ q, getIndex a s = (.ok q, s)) ∨ ∃ e, getIndex a s = (.error e, s) := by
    exact fun a => (getIndex_either s a).imp_right fun h => ⟨_, h⟩
  have main : ∀ kind, ∃ e, (getIndex ca >>= fun c => getIndex ta >>= fun t => ensureAncilla kind >>= fun _ => lastAncilla >>= fun a => cxBody c t a) s =
      (.error e, s) := by
    intro kind
    rcases keep ca with ⟨q, hq⟩ | ⟨e, he⟩
    · rw [CM.bind_ok hq]
      rcases keep ta with ⟨q', hq'⟩ | ⟨e, he⟩
      · rw [CM.bind_ok hq']
        have h1 : ensureAncilla kind s = (.ok (), s) := by unfold ensureAncilla; rw [h]
        have h2 : lastAncilla s = (.error .indexError, s) := by unfold lastAncilla; rw [h]; rfl
        rw [CM.bind_ok h1, CM.bind_error h2]
        exact ⟨_, rfl⟩
      · rw [CM.bind_error he]; exact ⟨_, rfl⟩
    · rw [CM.bind_error he]; exact ⟨_, rfl⟩
  rw [cxT_eq]
  unfold ancillaKind
  match ctype, p with
  | some k, some p => exact main (k, some p)
  | some k, none => exact ⟨_, rfl⟩
  | none, some p => exact ⟨_, rfl⟩
  | none, none =>
    simp only
    rcases keep ca with ⟨q, hq⟩ | ⟨e, he⟩
    · have e : (getIndex ca >>= fun q => pure (q.cls.ctype, some q.lat.pref) : TM (Str × Option Nat)) s = (.ok (q.cls.ctype, some q.lat.pref), s) := by
        rw [CM.bind_ok hq]; rfl
      rw [CM.bind_ok e]
      exact main _
    · have e' : (getIndex ca >>= fun q => pure (q.cls.ctype, some q.lat.pref) : TM (Str × Option Nat)) s = (.error e, s) := by
        rw [CM.bind_error he]
      rw [CM.bind_error e']
      exact ⟨_, rfl⟩

theorem NoAncilla.addTqubit (h : NoAncilla s) {sub : Str} (hs : sub ≠ "ancilla".toList) (ctype : Str) (p : Option Nat) :
    NoAncilla (addTqubit sub ctype p s).2 := by
  have h1 : (s.treg.touched sub).tqubits.get? "ancilla".toList = some [] := (touched_get_ne _ hs.symm).trans h
  rcases addTqubit_run sub ctype p s with ⟨-, hr⟩ | ⟨cls, -, ⟨q, w, -, hr⟩ | ⟨e, w, -, hr⟩⟩ <;> rw [hr]
  · exact h1
  · exact (Dict.get?_set_ne _ _ hs.symm).trans h1
  · exact h1

theorem NoAncilla.step (h : NoAncilla s) {o : TOp} (ho : NotToAncilla o) : NoAncilla (o.run s).2 := by
  cases o with
  | addQubits sub cs ps =>
    show NoAncilla (addTqubits sub cs ps s).2
    unfold addTqubits
    split
    · exact h
    · split
      · exact h
      · generalize (cs.getD []).zip (ps.getD []) = l
        unfold addAll
        induction l generalizing s with
        | nil => exact h
        | cons e l ih =>
          rw [CM.forEach_cons, CM.bind_run]
          have h1 := h.addTqubit ho e.1 e.2
          rcases hr : Qtc.addTqubit sub e.1 e.2 s with ⟨err | u, s1⟩
          · rw [hr] at h1; exact h1
          · rw [hr] at h1; exact ih h1
  | addQubit sub c p => exact h.addTqubit ho c p
  | on a o =>
    show NoAncilla (onQubit a o s).2
    unfold onQubit
    rcases getIndex_either s a with ⟨q, hq⟩ | he
    · rw [CM.bind_ok hq]; exact h
    · rw [CM.bind_error he]; exact h
  | cx c t k p =>
    obtain ⟨e, he⟩ := h.cx c t k p
    show NoAncilla (cxT c t k p s).2
    rw [he]; exact h
  | addCreg n x b =>
    show NoAncilla (addCregT n x b s).2
    unfold addCregT
    split
    · exact h
    · split <;> exact h
  | addQreg n x b =>
    show NoAncilla (addQregT n x b s).2
    unfold addQregT
    split
    · exact h
    · split <;> exact h

/-- C87 is false: a call of `cx` with a misspelt code type raises `KeyError` but leaves an empty sub-register "ancilla" behind. From then
on, whatever else is done (except adding a qubit to this sub-register by hand), every call of `cx` raises, with any arguments. -/
theorem C87_false (pc : Points s ca i c) (pt : Points s ta j t) (hn : s.treg.tqubits.get? "ancilla".toList = none) (k : Str)
    (hk : str2qtype k = none) (p : Nat) : (cxT ca ta (some k) (some p) s).1 = .error .keyError ∧
      ∀ ops : List TOp, (∀ o ∈ ops, NotToAncilla o) → ∀ ca' ta' ctype' p', ∃ e,
        (cxT ca' ta' ctype' p' (runOps ops (cxT ca ta (some k) (some p) s).2)).1 = .error e := by
  have h : cxT ca ta (some k) (some p) s = (.error .keyError, { s with treg := s.treg.touched "ancilla".toList }) := by
    have hkind : ancillaKind ca (some k) (some p) s = (.ok (k, some p), s) := rfl
    rw [cxT_eq, CM.bind_ok hkind, CM.bind_ok pc.getIndex, CM.bind_ok pt.getIndex]
    refine CM.bind_error ?_
    unfold ensureAncilla
    rw [hn]
    rcases addTqubit_run "ancilla".toList k (some p) s with ⟨-, hr⟩ | ⟨cls, hc, -⟩
    · exact hr
    · rw [hk] at hc; cases hc
  rw [h]
  refine ⟨rfl, fun ops ho ca' ta' ctype' p' => ?_⟩
  have h0 : NoAncilla { s with treg := s.treg.touched "ancilla".toList } := by
    unfold NoAncilla
    simp only [touched_get, hn]
    rfl
  have h1 : NoAncilla (runOps ops { s with treg := s.treg.touched "ancilla".toList }) := by
    generalize ({ s with treg := s.treg.touched "ancilla".toList } : TState) = s0 at h0
    induction ops generalizing s0 with
    | nil => exact h0
    | cons o l ih => exact ih (fun x hx => ho x (by simp [hx])) _ (h0.step (ho o (by simp)))
  obtain ⟨e, he⟩ := h1.cx ca' ta' ctype' p'
  exact ⟨e, by rw [he]⟩

/-- C87, partial: nothing changes if the arguments are rejected before the ancilla is made: only one of type and parameters given, or an
index that no qubit has. -/
theorem C87_early_partial (ctype : Option Str) (p : Option Nat)
    (h : ctype.isSome ≠ p.isSome ∨ (∃ k, ca = .idx k ∧ s.treg.find? k = none) ∨ ∃ k, ta = .idx k ∧ s.treg.find? k = none) :
    cxT ca ta ctype p s = (.error .valueError, s) := by
  by_cases hp : ctype.isSome ≠ p.isSome
  · exact C73_arguments s _ _ _ _ hp
  replace h := h.resolve_left hp
  have bad : ∀ k, s.treg.find? k = none → getIndex (.idx k) s = (.error .valueError, s) := by
    intro k hk
    unfold getIndex
    simp only [hk]
  have good : (∃ q, getIndex ca s = (.ok q, s)) ∨ getIndex ca s = (.error .valueError, s) := getIndex_either s ca
  have main : ∀ kind, (getIndex ca >>= fun c => getIndex ta >>= fun t => ensureAncilla kind >>= fun _ => lastAncilla >>= fun a => cxBody c t a) s =
      (.error .valueError, s) := by
    intro kind
    rcases good with ⟨q, hq⟩ | hb
    · rw [CM.bind_ok hq]
      rcases h with ⟨k, rfl, hk⟩ | ⟨k, rfl, hk⟩
      · rw [bad k hk] at hq; cases hq
      · rw [CM.bind_error (bad k hk)]
    · rw [CM.bind_error hb]
  rw [cxT_eq]
  unfold ancillaKind
  match ctype, p, hp with
  | some k, some p, _ => exact main (k, some p)
  | some k, none, hp => exact absurd Bool.noConfusion hp
  | none, some p, hp => exact absurd Bool.noConfusion hp
  | none, none, _ =>
    simp only
    rcases good with ⟨q, hq⟩ | he
    · have e : (getIndex ca >>= fun q => pure (q.cls.ctype, some q.lat.pref) : TM (Str × Option Nat)) s = (.ok (q.cls.ctype, some q.lat.pref), s) := by
        rw [CM.bind_ok hq]; rfl
      rw [CM.bind_ok e]
      exact main _
    · have e' : (getIndex ca >>= fun q => pure (q.cls.ctype, some q.lat.pref) : TM (Str × Option Nat)) s = (.error .valueError, s) := by
        rw [CM.bind_error he]
      rw [CM.bind_error e']

/-- On the two repetition codes of `cxPair`, `cx` works; after a call with a misspelt code type it does not work any more. -/
example : (cxT (.idx 0) (.idx 1) none none cxPair).1 = .ok () ∧
    (cxT (.idx 0) (.idx 1) (some "xxzz".toList) (some 0) cxPair).1 = .error .keyError ∧
    (cxT (.idx 0) (.idx 1) none none (cxT (.idx 0) (.idx 1) (some "xxzz".toList) (some 0) cxPair).2).1 = .error .indexError := by
  refine ⟨by decide +kernel, by decide +kernel, by decide +kernel⟩

/-- XZZX codes of height 3 and width 1. -/
def narrowPair : TState := runOps [.addQubits "data".toList (some ["XZZX".toList, "XZZX".toList]) (some [some 0, some 1])]
  (TState.fresh "r".toList (oneSize (.tup [.int 3, .int 1])))

/-- On them `cx` raises, after having added an ancilla and instructions. -/
example : (cxT (.idx 0) (.idx 1) none none narrowPair).1 = .error .valueError ∧
    (cxT (.idx 0) (.idx 1) none none narrowPair).2.treg.n = 3 ∧
    (cxT (.idx 0) (.idx 1) none none narrowPair).2.world.circ.instrs ≠ [] ∧ narrowPair.world.circ.instrs = [] := by
  refine ⟨by decide +kernel, by decide +kernel, by decide +kernel, by decide +kernel⟩

end Qtc
