import Verif.Props.LogicalErrors
/-!
Property C141: undoing any few errors that explain the syndromes restores the state.
-/
namespace Qtc
open Spec

variable {dh dw : Int} {code : Code} {name : Str} {m : Nat → Bool} {ψ : Psi}

/-! ### Values of the plaquettes -/

theorem syndrome_values (h : Syndrome code name dh dw m ψ) {key : Key} {s : Int × Int} (hs : s ∈ sitesOf key dh dw) :
    HasValue (checkOp code name dh dw key s) (told dh dw m key s) ψ := by
  cases key
  · exact h _ _ (checks_at_x hs)
  · exact h _ _ (checks_at_z hs)

theorem checkOp_listed {key : Key} {s : Int × Int} (hs : s ∈ sitesOf key dh dw) : checkOp code name dh dw key s ∈ checks code name dh dw := by
  cases key
  · exact List.mem_of_getElem? (checks_at_x hs)
  · exact List.mem_of_getElem? (checks_at_z hs)

theorem values_syndrome (hψ : ∀ key, ∀ s ∈ sitesOf key dh dw, HasValue (checkOp code name dh dw key s) (told dh dw m key s) ψ) :
    Syndrome code name dh dw m ψ := by
  intro k C h
  unfold checks at h
  by_cases hk : k < (zSites dh dw).length
  · rw [List.getElem?_append_left (by simpa using hk), List.getElem?_map, List.getElem?_eq_getElem hk] at h
    have h' := hψ .Z _ (List.getElem_mem hk)
    simp only [Option.map_some, Option.some.injEq] at h
    rw [h] at h'
    have e : told dh dw m .Z (zSites dh dw)[k] = m k := by
      show m _ = m k
      rw [(zSites_nodup dh dw).idxOf_getElem]
    rwa [e] at h'
  · rw [List.getElem?_append_right (by simpa using hk), List.length_map, List.getElem?_map] at h
    obtain ⟨p, hp, rfl⟩ := Option.map_eq_some_iff.1 h
    obtain ⟨hk', rfl⟩ := List.getElem?_eq_some_iff.1 hp
    have h' := hψ .X _ (List.getElem_mem hk')
    have e : told dh dw m .X (xSites dh dw)[k - (zSites dh dw).length] = m k := by
      show m _ = m k
      rw [(xSites_nodup dh dw).idxOf_getElem]
      congr 1
      omega
    rwa [e] at h'

theorem values_paulis (H : OddPos dh dw) {key : Key} {s : Int × Int} (hs : s ∈ sitesOf key dh dw) : ∀ (l : List (Letter × Int)),
    (∀ e ∈ l, e.2 ∈ allQubits dh dw) → ∀ {v : Bool} {ψ : Psi}, HasValue (checkOp code name dh dw key s) v ψ →
      HasValue (checkOp code name dh dw key s) (v ^^ xorAll (l.map fun e => detects code dh dw key e.1 e.2 s)) (afterPaulis name l ψ)
  | [], _, v, ψ, h => by
    rw [List.map_nil, show xorAll [] = false from rfl, Bool.xor_false]
    exact h
  | e :: l, hl, v, ψ, h => by
    rw [List.map_cons, xorAll_cons, ← Bool.xor_assoc]
    exact values_paulis H hs l (fun e h => hl e (by simp [h])) (h.passes (detects_passes H (sites_sound hs) e.1 (mem_allQubits.1 (hl e (by simp))).1).symm)

/-! ### Errors as operators -/

/-- The operator of errors one after the other. -/
def pauliOp (name : Str) : List (Letter × Int) → Op
  | [] => 1
  | e :: l => pauliOp name l * e.1.op (dataQ name e.2)

theorem pauliOp_apply (name : Str) : ∀ (l : List (Letter × Int)) (ψ : Psi), pauliOp name l ψ = afterPaulis name l ψ
  | [], _ => rfl
  | _ :: l, _ => pauliOp_apply name l _

theorem afterPaulis_append (name : Str) : ∀ (l l' : List (Letter × Int)) (ψ : Psi), afterPaulis name (l ++ l') ψ = afterPaulis name l' (afterPaulis name l ψ)
  | [], _, _ => rfl
  | _ :: l, l', _ => afterPaulis_append name l l' _

theorem onQubits_pauli {S : List Int} : ∀ {l : List (Letter × Int)}, (∀ e ∈ l, e.2 ∈ S) → OnQubits (S.map (dataQ name)) (pauliOp name l)
  | [], _ => Subalgebra.one_mem _
  | e :: l, h => by
    refine Subalgebra.mul_mem _ (onQubits_pauli fun e he => h e (by simp [he])) (Algebra.subset_adjoin ⟨_, List.mem_map.2 ⟨e.2, h e (by simp), rfl⟩, ?_⟩)
    cases e.1
    · exact Or.inl rfl
    · exact Or.inr rfl

/-- C141: errors on some data qubits, and errors on the same qubits that the same plaquettes notice: if these are fewer qubits than the
height and the width, the second errors, in reverse order, undo the first ones, up to a phase that does not depend on the state. -/
theorem C141_undone (H : OddPos dh dw) (code : Code) (name : Str) {S : List Int} (hS : ∀ i ∈ S, i ∈ allQubits dh dw) (h1 : (S.length : Int) < dh)
    (h2 : (S.length : Int) < dw) {l l' : List (Letter × Int)} (hl : ∀ e ∈ l, e.2 ∈ S) (hl' : ∀ e ∈ l', e.2 ∈ S)
    (hs : ∀ key, ∀ s ∈ sitesOf key dh dw, xorAll (l.map fun e => detects code dh dw key e.1 e.2 s) = xorAll (l'.map fun e => detects code dh dw key e.1 e.2 s))
    (m : Nat → Bool) :
    ∃ c : ℂ, Complex.normSq c = 1 ∧ ∀ ψ, Syndrome code name dh dw m ψ → afterPaulis name l'.reverse (afterPaulis name l ψ) = c • ψ := by
  have hb : ∀ e ∈ l ++ l'.reverse, e.2 ∈ S := by
    intro e he
    rcases List.mem_append.1 he with he | he
    · exact hl e he
    · exact hl' e (List.mem_reverse.1 he)
  obtain ⟨c, hc⟩ := C138_scalar H code name hS h1 h2 (onQubits_pauli (name := name) hb) m
  have key : ∀ ψ, Syndrome code name dh dw m ψ → afterPaulis name l'.reverse (afterPaulis name l ψ) = c • ψ := by
    intro ψ hψ
    have hv : Syndrome code name dh dw m (afterPaulis name (l ++ l'.reverse) ψ) := by
      refine values_syndrome fun key s h => ?_
      have := values_paulis (name := name) (code := code) H h (l ++ l'.reverse) (fun e he => hS _ (hb e he)) (syndrome_values hψ h)
      rw [List.map_append, xorAll_append, List.map_reverse, xorAll_perm (List.reverse_perm _), hs key s h, Bool.xor_self, Bool.xor_false] at this
      exact this
    have e := congrArg (fun B : Op => B ψ) hc
    simp only [Module.End.mul_apply, LinearMap.smul_apply, joint_fixed _ m hψ, pauliOp_apply] at e
    rw [joint_fixed _ m hv, afterPaulis_append] at e
    exact e
  refine ⟨c, ?_, key⟩
  obtain ⟨φ, ⟨n0, nb, nm, -, -⟩, -⟩ := C139_all H code name m
  have e := congrArg norm2 (key φ nm)
  rw [← afterPaulis_append, norm2_paulis _ nb, norm2_smul] at e
  exact mul_right_cancel₀ (norm2_pos nb n0).ne' (e.symm.trans (one_mul _).symm)

theorem pauliOp_reverse (name : Str) : ∀ L : List (Letter × Int), pauliOp name L.reverse = pstr (L.map fun e => (e.1, dataQ name e.2)) := by
  have app : ∀ (l : List (Letter × Int)) (e : Letter × Int), pauliOp name (l ++ [e]) = e.1.op (dataQ name e.2) * pauliOp name l := by
    intro l e
    induction l with
    | nil => exact (one_mul _).trans (mul_one _).symm
    | cons a l ih =>
      show pauliOp name (l ++ [e]) * _ = _ * (pauliOp name l * _)
      rw [ih, mul_assoc]
  intro L
  induction L with
  | nil => rfl
  | cons e L ih =>
    rw [List.reverse_cons, app, ih]
    simp [pstr]

/-- C141: this is sharp in the height. There are errors on as many qubits as the height that no plaquette notices (so that no errors at all
explain the syndromes) and that change a state. -/
theorem C141_sharp_x (H : OddPos dh dw) (code : Code) (name : Str) (m : Nat → Bool) :
    ∃ l : List (Letter × Int), (l.length : Int) = dh ∧ (∀ e ∈ l, e.2 ∈ allQubits dh dw) ∧
      (∀ key, ∀ s ∈ sitesOf key dh dw, xorAll (l.map fun e => detects code dh dw key e.1 e.2 s) = false) ∧
      ∃ φ, Syndrome code name dh dw m φ ∧ ∀ c : ℂ, afterPaulis name l φ ≠ c • φ := by
  obtain ⟨φ, ⟨h0, -, hm, -, hv⟩, -⟩ := C139_all H code name m
  let L : List (Letter × Int) := (colQubits dh dw 0).map fun i => (if code = .xzzx ∧ i % 2 = 0 then .Z else .X, i)
  have hL : ∀ e ∈ L.reverse, e.2 ∈ allQubits dh dw := by
    intro e he
    obtain ⟨i, hi, rfl⟩ := List.mem_map.1 (List.mem_reverse.1 he)
    exact col_all H i hi
  have e1 : ∀ ψ, afterPaulis name L.reverse ψ = logX code name dh dw ψ := by
    intro ψ
    rw [← pauliOp_apply, pauliOp_reverse]
    unfold logX
    rw [List.map_map]
    rfl
  have hne : logX code name dh dw φ ≠ 0 := fun e => h0 (by rw [← logX_twice (code := code) (name := name) H φ, e, map_zero])
  have hv1 := logical_one H hv
  refine ⟨L.reverse, ?_, hL, fun key s hs => ?_, φ, hm, fun c hc => ?_⟩
  · rw [List.length_reverse, List.length_map]
    unfold colQubits
    rw [List.length_map, List.length_range]
    have := H
    unfold OddPos at this
    omega
  · have a := values_paulis (name := name) (code := code) H hs L.reverse hL (syndrome_values hm hs)
    rw [e1] at a
    have b := (syndrome_values hm hs).of_comm (logX_check (code := code) (name := name) H (sites_sound hs)).symm
    exact (by decide : ∀ a b : Bool, (a ^^ b) = a → b = false) _ _ (a.unique b hne)
  · rw [e1] at hc
    have b : HasValue (logZ code name dw) false (logX code name dh dw φ) := by
      rw [hc]
      unfold HasValue at hv ⊢
      rw [map_smul, hv, smul_comm]
    exact absurd (hv1.unique b hne) (by simp)

/-- C141: and in the width. -/
theorem C141_sharp_z (H : OddPos dh dw) (code : Code) (name : Str) (m : Nat → Bool) :
    ∃ l : List (Letter × Int), (l.length : Int) = dw ∧ (∀ e ∈ l, e.2 ∈ allQubits dh dw) ∧
      (∀ key, ∀ s ∈ sitesOf key dh dw, xorAll (l.map fun e => detects code dh dw key e.1 e.2 s) = false) ∧
      ∃ φ, Syndrome code name dh dw m φ ∧ ∀ c : ℂ, afterPaulis name l φ ≠ c • φ := by
  obtain ⟨φ, ⟨h0, -, hm, -, hv⟩, -⟩ := C139_all H code name m
  let L : List (Letter × Int) := (rowQubits dw 0).map fun i => (if code = .xzzx ∧ i % 2 = 0 then .X else .Z, i)
  have hL : ∀ e ∈ L.reverse, e.2 ∈ allQubits dh dw := by
    intro e he
    obtain ⟨i, hi, rfl⟩ := List.mem_map.1 (List.mem_reverse.1 he)
    exact row_all H i hi
  have e1 : ∀ ψ, afterPaulis name L.reverse ψ = logZ code name dw ψ := by
    intro ψ
    rw [← pauliOp_apply, pauliOp_reverse]
    unfold logZ
    rw [List.map_map]
    rfl
  have hφ : logZ code name dw φ = φ := by
    unfold HasValue at hv
    rw [hv, sg_false, one_smul]
  refine ⟨L.reverse, ?_, hL, fun key s hs => ?_, encoded code name dh dw φ (1, 1), encoded_syndrome H hm, fun c hc => ?_⟩
  · rw [List.length_reverse, List.length_map]
    unfold rowQubits
    rw [List.length_map, List.length_range]
    have := H
    unfold OddPos at this
    omega
  · have a := values_paulis (name := name) (code := code) H hs L.reverse hL (syndrome_values hm hs)
    rw [e1, hφ] at a
    exact (by decide : ∀ a b : Bool, (a ^^ b) = a → b = false) _ _ (a.unique (syndrome_values hm hs) h0)
  · rw [e1, encoded_z H hv] at hc
    have a := congrArg (projOf (logZ code name dw) false) hc
    have b := congrArg (projOf (logZ code name dw) true) hc
    rw [map_smul, encoded_projZ H hv, encoded_projZ H hv, if_pos rfl, if_pos rfl, one_smul] at a
    rw [map_smul, encoded_projZ H hv, encoded_projZ H hv, if_neg (by simp), if_neg (by simp), one_smul, neg_smul, one_smul] at b
    have c1 : c = 1 := by
      have : (c - 1) • φ = 0 := by rw [sub_smul, one_smul, ← a, sub_self]
      exact sub_eq_zero.1 ((smul_eq_zero.1 this).resolve_right h0)
    rw [c1, one_smul] at b
    have hne : logX code name dh dw φ ≠ 0 := fun e => h0 (by rw [← logX_twice (code := code) (name := name) H φ, e, map_zero])
    have : (2 : ℂ) • logX code name dh dw φ = 0 := by
      rw [two_smul]
      exact neg_eq_iff_add_eq_zero.1 b
    exact hne ((smul_eq_zero.1 this).resolve_left (by norm_num))

/-! ### Circuits -/

variable {cls : QClass} {q : TQubit} {ops : List QOp} {w : World} {sz : Str → Nat}

theorem synZero_paulis : ∀ (l : List (Letter × Int)) {ψ : Psi}, SynZero name dh dw ψ → SynZero name dh dw (afterPaulis name l ψ)
  | [], _, h => h
  | e :: l, _, h => synZero_paulis l (synZero_data e.1 e.2 h)

theorem paulis_ne : ∀ (l : List (Letter × Int)) {ψ : Psi}, ψ ≠ 0 → afterPaulis name l ψ ≠ 0
  | [], _, h => h
  | e :: l, _, h => paulis_ne l (fault_ne_zero e.1 _ h)

/-- C141: errors, a stabilization, and then a guess at the errors that explains the changes of the syndromes: undoing the guess restores the
state from before the errors, whatever it was, if guess and errors together are on fewer qubits than the height and the width. -/
theorem C141_restored (A : After cls q dh dw ops w) {S : List Int} (hS : ∀ i ∈ S, i ∈ allQubits dh dw) (h1 : (S.length : Int) < dh)
    (h2 : (S.length : Int) < dw) {l l' : List (Letter × Int)} (hl : ∀ e ∈ l, e.2 ∈ S) (hl' : ∀ e ∈ l', e.2 ∈ S) (m : Nat → Bool) :
    ∃ c : ℂ, Complex.normSq c = 1 ∧ ∀ s t : QState, s.psi ≠ 0 → SynZero q.lat.name dh dw s.psi → Syndrome cls.code q.lat.name dh dw m s.psi →
      Run sz (added q .stabilize w) ⟨afterPaulis q.lat.name l s.psi, s.mem⟩ t →
      (∀ key, ∀ p ∈ sitesOf key dh dw, xorAll (l'.map fun e => detects cls.code dh dw key e.1 e.2 p) =
        (told dh dw m key p ^^ told dh dw (fun k => t.mem ⟨q.lat.name ++ "_c".toList ++ strNat (ops.count .stabilize), k⟩) key p)) →
      afterPaulis q.lat.name l'.reverse t.psi = c • s.psi := by
  have H := A.own.2.placed.odd
  have run : ∀ s t : QState, s.psi ≠ 0 → SynZero q.lat.name dh dw s.psi → Syndrome cls.code q.lat.name dh dw m s.psi →
      Run sz (added q .stabilize w) ⟨afterPaulis q.lat.name l s.psi, s.mem⟩ t → t.psi = afterPaulis q.lat.name l s.psi ∧
        ∀ key, ∀ p ∈ sitesOf key dh dw, told dh dw (fun k => t.mem ⟨q.lat.name ++ "_c".toList ++ strNat (ops.count .stabilize), k⟩) key p =
          (told dh dw m key p ^^ xorAll (l.map fun e => detects cls.code dh dw key e.1 e.2 p)) := by
    intro s t h0 hz hm hR
    obtain ⟨m', e, hne, hmem⟩ := (run_stabilize A (s := ⟨afterPaulis q.lat.name l s.psi, s.mem⟩) (paulis_ne l h0) (synZero_paulis l hz)).1 hR
    unfold roundName at hmem
    rw [strInt_nat] at hmem
    have hval : ∀ key, ∀ p ∈ sitesOf key dh dw, HasValue (checkOp cls.code q.lat.name dh dw key p)
        (told dh dw m key p ^^ xorAll (l.map fun e => detects cls.code dh dw key e.1 e.2 p)) (afterPaulis q.lat.name l s.psi) := fun key p hp =>
      values_paulis H hp l (fun e he => hS _ (hl e he)) (syndrome_values hm hp)
    have htold : ∀ key, ∀ p ∈ sitesOf key dh dw, told dh dw m' key p = (told dh dw m key p ^^ xorAll (l.map fun e => detects cls.code dh dw key e.1 e.2 p)) := by
      intro key p hp
      by_contra hn
      have a := syndrome_values (syndrome_joint (code := cls.code) (name := q.lat.name) H m' (afterPaulis q.lat.name l s.psi)) hp
      have b : HasValue (checkOp cls.code q.lat.name dh dw key p) (told dh dw m key p ^^ xorAll (l.map fun e => detects cls.code dh dw key e.1 e.2 p))
          (jointProj (checks cls.code q.lat.name dh dw) m' (afterPaulis q.lat.name l s.psi)) :=
        (hval key p hp).of_comm (jointProj_comm (fun B hB => checks_comm H (checkOp_listed hp) hB) m')
      exact hn (a.unique b (by rw [← e]; exact hne))
    have hbits : ∀ key, ∀ p ∈ sitesOf key dh dw,
        told dh dw (fun k => t.mem ⟨q.lat.name ++ "_c".toList ++ strNat (ops.count .stabilize), k⟩) key p = told dh dw m' key p := by
      intro key p hp
      cases key
      · have := List.idxOf_lt_length_of_mem (show p ∈ xSites dh dw from hp)
        show t.mem _ = m' _
        rw [hmem, writeReg_at (by omega)]
      · have := List.idxOf_lt_length_of_mem (show p ∈ zSites dh dw from hp)
        show t.mem _ = m' _
        rw [hmem, writeReg_at (by omega)]
    refine ⟨?_, fun key p hp => by rw [hbits key p hp, htold key p hp]⟩
    rw [e]
    exact joint_fixed _ m' (values_syndrome fun key p hp => by rw [htold key p hp]; exact hval key p hp)
  by_cases hs : ∀ key, ∀ p ∈ sitesOf key dh dw, xorAll (l.map fun e => detects cls.code dh dw key e.1 e.2 p) =
      xorAll (l'.map fun e => detects cls.code dh dw key e.1 e.2 p)
  · obtain ⟨c, hc, h⟩ := C141_undone H cls.code q.lat.name hS h1 h2 hl hl' hs m
    refine ⟨c, hc, fun s t h0 hz hm hR _ => ?_⟩
    rw [(run s t h0 hz hm hR).1]
    exact h s.psi hm
  · refine ⟨1, by simp, fun s t h0 hz hm hR hg => absurd (fun key p hp => ?_) hs⟩
    rw [hg key p hp, (run s t h0 hz hm hR).2 key p hp, ← Bool.xor_assoc, Bool.xor_self, Bool.false_xor]

theorem checks_index {k : Nat} {C : Op} (h : (checks code name dh dw)[k]? = some C) :
    ∃ key, ∃ p ∈ sitesOf key dh dw, C = checkOp code name dh dw key p ∧ ∀ m : Nat → Bool, told dh dw m key p = m k := by
  unfold checks at h
  by_cases hk : k < (zSites dh dw).length
  · rw [List.getElem?_append_left (by simpa using hk), List.getElem?_map, List.getElem?_eq_getElem hk] at h
    simp only [Option.map_some, Option.some.injEq] at h
    refine ⟨.Z, _, List.getElem_mem hk, h.symm, fun m => ?_⟩
    show m _ = m k
    rw [(zSites_nodup dh dw).idxOf_getElem]
  · rw [List.getElem?_append_right (by simpa using hk), List.length_map, List.getElem?_map] at h
    obtain ⟨p, hp, rfl⟩ := Option.map_eq_some_iff.1 h
    obtain ⟨hk', rfl⟩ := List.getElem?_eq_some_iff.1 hp
    refine ⟨.X, _, List.getElem_mem hk', rfl, fun m => ?_⟩
    show m _ = m k
    rw [(xSites_nodup dh dw).idxOf_getElem]
    congr 1
    omega

theorem pauliOp_passes (H : OddPos dh dw) {key : Key} {p : Int × Int} (hp : p ∈ sitesOf key dh dw) : ∀ {l : List (Letter × Int)},
    (∀ e ∈ l, e.2 ∈ allQubits dh dw) → Passes (xorAll (l.map fun e => detects code dh dw key e.1 e.2 p)) (pauliOp name l) (checkOp code name dh dw key p)
  | [], _ => (Passes.one_right _).symm
  | e :: l, h => by
    rw [List.map_cons, xorAll_cons, Bool.xor_comm]
    exact (pauliOp_passes H hp fun e he => h e (by simp [he])).mul_left (detects_passes H (sites_sound hp) e.1 (mem_allQubits.1 (h e (by simp))).1)

/-- C141: the same for errors of any kind (any operator on the qubits): undoing a guess, made of X and Z errors, that explains the changes of
the recorded syndromes restores the state up to a factor that does not depend on it. -/
theorem C141_any (A : After cls q dh dw ops w) {S : List Int} (hS : ∀ i ∈ S, i ∈ allQubits dh dw) (h1 : (S.length : Int) < dh)
    (h2 : (S.length : Int) < dw) {E : Op} (hE : OnQubits (S.map (dataQ q.lat.name)) E) {l' : List (Letter × Int)} (hl' : ∀ e ∈ l', e.2 ∈ S) (m : Nat → Bool) :
    ∃ c : ℂ, ∀ s t : QState, SynZero q.lat.name dh dw s.psi → Syndrome cls.code q.lat.name dh dw m s.psi → E s.psi ≠ 0 →
      Run sz (added q .stabilize w) ⟨E s.psi, s.mem⟩ t →
      (∀ key, ∀ p ∈ sitesOf key dh dw, xorAll (l'.map fun e => detects cls.code dh dw key e.1 e.2 p) =
        (told dh dw m key p ^^ told dh dw (fun k => t.mem ⟨q.lat.name ++ "_c".toList ++ strNat (ops.count .stabilize), k⟩) key p)) →
      c ≠ 0 ∧ afterPaulis q.lat.name l'.reverse t.psi = c • s.psi := by
  have H := A.own.2.placed.odd
  have hr : ∀ e ∈ l'.reverse, e.2 ∈ S := fun e he => hl' e (List.mem_reverse.1 he)
  obtain ⟨c, hc⟩ := C138_scalar H cls.code q.lat.name hS h1 h2 (Subalgebra.mul_mem _ (onQubits_pauli (name := q.lat.name) hr) hE) m
  refine ⟨c, fun s t hz hm h0 hR hg => ?_⟩
  have hz' : SynZero q.lat.name dh dw (E s.psi) :=
    ⟨fun k hk => IsZero.of_comm (hz.1 k hk) (onQubits_other (fun i => dataQ_ne_mzQ k i) hE),
      fun k hk => IsZero.of_comm (hz.2 k hk) (onQubits_other (fun i => dataQ_ne_mxQ k i) hE)⟩
  obtain ⟨m', e, hne, hmem⟩ := (run_stabilize A (s := ⟨E s.psi, s.mem⟩) h0 hz').1 hR
  unfold roundName at hmem
  rw [strInt_nat] at hmem
  have hpass : ∀ k C, (checks cls.code q.lat.name dh dw)[k]? = some C → Passes (m k ^^ m' k) (pauliOp q.lat.name l'.reverse) C := by
    intro k C hC
    obtain ⟨key, p, hp, rfl, ht⟩ := checks_index hC
    have hk : k < (xSites dh dw).length + (zSites dh dw).length := by
      have := (List.getElem?_eq_some_iff.1 hC).1
      unfold checks at this
      simp only [List.length_append, List.length_map] at this
      omega
    have := pauliOp_passes (code := cls.code) (name := q.lat.name) H hp (l := l'.reverse) fun e he => hS _ (hr e he)
    rw [List.map_reverse, xorAll_perm (List.reverse_perm _), hg key p hp, ht, ht, hmem, writeReg_at hk] at this
    exact this
  have hj := congrArg (fun B : Op => B (E s.psi)) (jointProj_passes hpass m')
  have hcc := congrArg (fun B : Op => B s.psi) hc
  simp only [Module.End.mul_apply, LinearMap.smul_apply, joint_fixed _ m hm] at hj hcc
  rw [jointProj_congr (m := fun k => m' k ^^ (m k ^^ m' k)) (m' := m) fun k _ => by cases m k <;> cases m' k <;> rfl] at hj
  have key : afterPaulis q.lat.name l'.reverse t.psi = c • s.psi := by
    rw [e, ← pauliOp_apply]
    exact hj.trans hcc
  refine ⟨fun e0 => ?_, key⟩
  rw [e0, zero_smul] at key
  exact paulis_ne _ hne key

/-- On the 5 × 5 lattice errors X on qubits 6 and 11 next to each other, and a guess X on qubits 11 and 6: undone up to a phase. -/
example (name : Str) (m : Nat → Bool) : ∃ c : ℂ, Complex.normSq c = 1 ∧ ∀ ψ, Syndrome .xxzz name 5 5 m ψ →
    afterPaulis name [(.X, 6), (.X, 11)] (afterPaulis name [(.X, 6), (.X, 11)] ψ) = c • ψ :=
  C141_undone (l := [(.X, 6), (.X, 11)]) (l' := [(.X, 11), (.X, 6)]) (S := [6, 11]) (by unfold OddPos; decide) .xxzz name (by decide) (by decide) (by decide)
    (by decide) (by decide) (fun key s _ => by simp [xorAll, Bool.xor_comm]) m

/-- Y on the qubit in the corner of the 3 × 3 lattice (X and Z), guessed right. -/
example (name : Str) (m : Nat → Bool) : ∃ c : ℂ, Complex.normSq c = 1 ∧ ∀ ψ, Syndrome .xzzx name 3 3 m ψ →
    afterPaulis name [(.X, 0), (.Z, 0)] (afterPaulis name [(.X, 0), (.Z, 0)] ψ) = c • ψ :=
  C141_undone (l := [(.X, 0), (.Z, 0)]) (l' := [(.Z, 0), (.X, 0)]) (S := [0]) (by unfold OddPos; decide) .xzzx name (by decide) (by decide) (by decide)
    (by decide) (by decide) (fun key s _ => by simp [xorAll, Bool.xor_comm]) m

end Qtc
