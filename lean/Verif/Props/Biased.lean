import Verif.Proof.Biased
import Verif.Props.Quantum
/-!
C117: errors of one kind only on the XZZX code.
-/
namespace Qtc
open Spec Function

variable {cls : QClass} {q : TQubit} {dh dw d : Int} {ops : List QOp} {w : World} {sz : Str → Nat} {name : Str} {a : Letter} {E : Int → Int → Bool}

/-- C117: on an XZZX lattice, Z errors on a set of data qubits are noticed by no plaquette if and only if the set consists of whole
diagonals, from top left to bottom right, of these kinds: an even one (row plus column even) that leads from the top row to the bottom
row, or an odd one that leads from the left column to the right column. -/
theorem C117_z (H : OddPos dh dw) : Unnoticed .xzzx name dh dw (onSites .Z name dh dw E) ↔
    (∀ r c, InLat dh dw r c → InLat dh dw (r + 1) (c + 1) → E (r + 1) (c + 1) = E r c) ∧
    ∀ r c, InLat dh dw r c → E r c = true →
      if (r + c) % 2 = 0 then 0 ≤ c - r ∧ c - r ≤ dw - dh else 0 ≤ r - c ∧ r - c ≤ dh - dw :=
  (unnoticed_iff H).trans (silent_z H)

/-- C117: X errors likewise, with diagonals from bottom left to top right: an even one from the left column to the right column, or an
odd one from the bottom row to the top row. -/
theorem C117_x (H : OddPos dh dw) : Unnoticed .xzzx name dh dw (onSites .X name dh dw E) ↔
    (∀ r c, InLat dh dw r c → InLat dh dw (r - 1) (c + 1) → E (r - 1) (c + 1) = E r c) ∧
    ∀ r c, InLat dh dw r c → E r c = true →
      if (r + c) % 2 = 0 then dw - 1 ≤ r + c ∧ r + c ≤ dh - 1 else dh - 1 ≤ r + c ∧ r + c ≤ dw - 1 :=
  (unnoticed_iff H).trans (silent_x H)

/-- C117: on a square XZZX lattice there are only two sets of Z errors that no plaquette notices: none, and the diagonal. -/
theorem C117_square_z (H : OddPos d d) : Unnoticed .xzzx name d d (onSites .Z name d d E) ↔
    (∀ r c, InLat d d r c → E r c = false) ∨ ∀ r c, InLat d d r c → E r c = decide (r = c) := by
  rw [C117_z H]
  have hd := H.1
  constructor
  · rintro ⟨h1, h2⟩
    have off : ∀ r c, InLat d d r c → r ≠ c → E r c = false := by
      intro r c hi hne
      rw [Bool.eq_false_iff]
      intro ht
      have := h2 r c hi ht
      split at this <;> omega
    have diag : ∀ k : Nat, (k : Int) < d → E k k = E 0 0 := by
      intro k
      induction k with
      | zero => intro _; rfl
      | succ k ih =>
        intro hk
        push_cast at hk ⊢
        rw [h1 k k (by unfold InLat; omega) (by unfold InLat; omega), ih (by omega)]
    have diag' : ∀ r, InLat d d r r → E r r = E 0 0 := by
      intro r hi
      unfold InLat at hi
      have := diag r.toNat (by omega)
      rwa [Int.toNat_of_nonneg (by omega)] at this
    cases h0 : E 0 0
    · refine Or.inl fun r c hi => ?_
      by_cases he : r = c
      · subst he; rw [diag' r hi, h0]
      · exact off r c hi he
    · refine Or.inr fun r c hi => ?_
      by_cases he : r = c
      · subst he; rw [diag' r hi, h0, decide_eq_true rfl]
      · rw [off r c hi he, decide_eq_false he]
  · rintro (h | h)
    · refine ⟨fun r c hi hj => by rw [h _ _ hi, h _ _ hj], fun r c hi ht => ?_⟩
      rw [h r c hi] at ht
      cases ht
    · refine ⟨fun r c hi hj => ?_, fun r c hi ht => ?_⟩
      · rw [h _ _ hi, h _ _ hj, decide_eq_decide]; omega
      · rw [h r c hi, decide_eq_true_eq] at ht
        split <;> omega

/-- C117: and only two sets of X errors: none, and the other diagonal. -/
theorem C117_square_x (H : OddPos d d) : Unnoticed .xzzx name d d (onSites .X name d d E) ↔
    (∀ r c, InLat d d r c → E r c = false) ∨ ∀ r c, InLat d d r c → E r c = decide (r + c = d - 1) := by
  rw [C117_x H]
  have hd := H.1
  constructor
  · rintro ⟨h1, h2⟩
    have off : ∀ r c, InLat d d r c → r + c ≠ d - 1 → E r c = false := by
      intro r c hi hne
      rw [Bool.eq_false_iff]
      intro ht
      have := h2 r c hi ht
      split at this <;> omega
    have diag : ∀ k : Nat, (k : Int) < d → E (d - 1 - k) k = E (d - 1) 0 := by
      intro k
      induction k with
      | zero => intro _; simp
      | succ k ih =>
        intro hk
        push_cast at hk ⊢
        have := h1 (d - 1 - k) k (by unfold InLat; omega) (by unfold InLat; omega)
        rw [show d - 1 - (k + 1 : Int) = d - 1 - k - 1 by omega, this, ih (by omega)]
    have diag' : ∀ r c, InLat d d r c → r + c = d - 1 → E r c = E (d - 1) 0 := by
      intro r c hi he
      unfold InLat at hi
      have := diag c.toNat (by omega)
      rwa [Int.toNat_of_nonneg (by omega), show d - 1 - c = r by omega] at this
    cases h0 : E (d - 1) 0
    · refine Or.inl fun r c hi => ?_
      by_cases he : r + c = d - 1
      · rw [diag' r c hi he, h0]
      · exact off r c hi he
    · refine Or.inr fun r c hi => ?_
      by_cases he : r + c = d - 1
      · rw [diag' r c hi he, h0, decide_eq_true he]
      · rw [off r c hi he, decide_eq_false he]
  · have hodd := H.2.1
    rintro (h | h)
    · refine ⟨fun r c hi hj => by rw [h _ _ hi, h _ _ hj], fun r c hi ht => ?_⟩
      rw [h r c hi] at ht
      cases ht
    · refine ⟨fun r c hi hj => ?_, fun r c hi ht => ?_⟩
      · rw [h _ _ hi, h _ _ hj, decide_eq_decide]; omega
      · rw [h r c hi, decide_eq_true_eq] at ht
        split <;> omega

theorem line_passes {l : List (Letter × Int)} (hl : ∀ e ∈ l, e.2 ∈ allQubits dh dw) :
    Passes (xorAll (l.map fun e => decide (e.1 ≠ a) && E (e.2 / dw) (e.2 % dw))) (onSites a name dh dw E)
      (pstr (l.map fun e => (e.1, dataQ name e.2))) := by
  induction l with
  | nil => exact Passes.one_right _
  | cons e l ih =>
    have h := (sites_passes (a := a) (name := name) (E := E) e.1 (hl e (by simp))).mul_right (ih fun e he => hl e (by simp [he]))
    have e2 : pstr ((e :: l).map fun e => (e.1, dataQ name e.2)) = e.1.op (dataQ name e.2) * pstr (l.map fun e => (e.1, dataQ name e.2)) := by
      simp [pstr]
    rw [e2, List.map_cons, xorAll_cons]
    exact h

theorem logZ_passes (hd : 0 < d) : Passes (xorAll ((List.range d.toNat).map fun (c : Nat) =>
    decide ((if (c : Int) % 2 = 0 then Letter.X else .Z) ≠ a) && E 0 c)) (onSites a name d d E) (logZ .xzzx name d) := by
  have := line_passes (a := a) (name := name) (E := E) (dh := d) (dw := d)
    (l := (rowQubits d 0).map fun i => (if Code.xzzx = .xzzx ∧ i % 2 = 0 then Letter.X else .Z, i)) (by
      intro e he
      obtain ⟨i, hi, rfl⟩ := List.mem_map.1 he
      obtain ⟨c, hc, rfl⟩ := List.mem_map.1 hi
      rw [List.mem_range] at hc
      exact site_mem (by omega))
  unfold logZ
  rw [List.map_map, List.map_map] at this
  unfold rowQubits at this ⊢
  rw [List.map_map] at this
  convert this using 2
  rotate_left
  · rfl
  refine List.map_congr_left fun c hc => ?_
  rw [List.mem_range] at hc
  simp only [comp, Int.zero_mul, Int.zero_add, true_and]
  rw [Int.ediv_eq_zero_of_lt (b := d) (by omega) (by omega), Int.emod_eq_of_lt (b := d) (by omega) (by omega)]

theorem logX_passes (hd : 0 < d) (hodd : d % 2 = 1) : Passes (xorAll ((List.range d.toNat).map fun (r : Nat) =>
    decide ((if (r : Int) % 2 = 0 then Letter.Z else .X) ≠ a) && E r 0)) (onSites a name d d E) (logX .xzzx name d d) := by
  have := line_passes (a := a) (name := name) (E := E) (dh := d) (dw := d)
    (l := (colQubits d d 0).map fun i => (if Code.xzzx = .xzzx ∧ i % 2 = 0 then Letter.Z else .X, i)) (by
      intro e he
      obtain ⟨i, hi, rfl⟩ := List.mem_map.1 he
      obtain ⟨c, hc, rfl⟩ := List.mem_map.1 hi
      rw [List.mem_range] at hc
      exact site_mem (by omega))
  unfold logX
  rw [List.map_map, List.map_map] at this
  unfold colQubits at this ⊢
  rw [List.map_map] at this
  convert this using 2
  rotate_left
  · rfl
  refine List.map_congr_left fun r hr => ?_
  simp only [comp, Int.add_zero, true_and]
  rw [Int.mul_ediv_cancel _ (by omega), Int.mul_emod_left]
  have : ((r : Int) * d) % 2 = (r : Int) % 2 := by rw [Int.mul_emod, hodd]; omega
  rw [this]

theorem passes_neg {A B : Op} (h : Passes true A B) : A * B = -(B * A) := by
  have : A * B = sg true • (B * A) := h
  rw [this, show sg true = -1 from rfl]
  exact neg_one_smul ℂ (B * A)

/-- C117: the first diagonal of Z errors is a logical error: it flips the logical Z and leaves the logical X. -/
theorem C117_diagonal_z (H : OddPos d d) (hE : ∀ r c, InLat d d r c → E r c = decide (r = c)) :
    onSites .Z name d d E * logZ .xzzx name d = -(logZ .xzzx name d * onSites .Z name d d E) ∧
    Commute (onSites .Z name d d E) (logX .xzzx name d d) := by
  have hd := H.1
  constructor
  · refine passes_neg ?_
    have := logZ_passes (a := .Z) (name := name) (E := E) hd
    rw [xorAll_single List.nodup_range (a := 0) (List.mem_range.2 (by omega))] at this
    · have e : E 0 ((0 : Nat) : Int) = true := by rw [hE _ _ (by unfold InLat; omega)]; rfl
      rw [e] at this
      exact this
    · intro c hc hne
      rw [List.mem_range] at hc
      rw [hE _ _ (by unfold InLat; omega), decide_eq_false (p := (0 : Int) = c) (by omega), Bool.and_false]
  · rw [← passes_false]
    have := logX_passes (a := .Z) (name := name) (E := E) hd H.2.1
    rw [xorAll_eq_false] at this
    · exact this
    · intro b hb
      obtain ⟨r, hr, rfl⟩ := List.mem_map.1 hb
      rw [List.mem_range] at hr
      rw [hE _ _ (by unfold InLat; omega)]
      by_cases h0 : r = 0
      · subst h0; rfl
      · rw [decide_eq_false (p := (r : Int) = 0) (by omega), Bool.and_false]

/-- C117: the second diagonal of X errors is a logical error too: it flips the logical X and leaves the logical Z. -/
theorem C117_diagonal_x (H : OddPos d d) (hE : ∀ r c, InLat d d r c → E r c = decide (r + c = d - 1)) :
    onSites .X name d d E * logX .xzzx name d d = -(logX .xzzx name d d * onSites .X name d d E) ∧
    Commute (onSites .X name d d E) (logZ .xzzx name d) := by
  have hd := H.1
  have hodd := H.2.1
  constructor
  · refine passes_neg ?_
    have := logX_passes (a := .X) (name := name) (E := E) hd H.2.1
    rw [xorAll_single List.nodup_range (a := (d - 1).toNat) (List.mem_range.2 (by omega))] at this
    · have e : E (((d - 1).toNat : Nat) : Int) 0 = true := by
        rw [Int.toNat_of_nonneg (by omega), hE _ _ (by unfold InLat; omega), decide_eq_true (by omega)]
      rw [e, if_pos (by omega)] at this
      exact this
    · intro c hc hne
      rw [List.mem_range] at hc
      rw [hE _ _ (by unfold InLat; omega), decide_eq_false (p := (c : Int) + 0 = d - 1) (by omega), Bool.and_false]
  · rw [← passes_false]
    have := logZ_passes (a := .X) (name := name) (E := E) hd
    rw [xorAll_eq_false] at this
    · exact this
    · intro b hb
      obtain ⟨r, hr, rfl⟩ := List.mem_map.1 hb
      rw [List.mem_range] at hr
      rw [hE _ _ (by unfold InLat; omega)]
      by_cases h0 : (r : Int) = d - 1
      · rw [if_pos (by omega)]; rfl
      · rw [decide_eq_false (p := (0 : Int) + r = d - 1) (by omega), Bool.and_false]

/-- C117, in executions: any qubit of the library, any state with syndrome qubits in state 0, two stabilizations with errors of one
kind on a set of data qubits in between. The two syndrome registers are the same if and only if no plaquette notices the errors. -/
theorem C117_bits (A : After cls q dh dw ops w) (a : Letter) (E : Int → Int → Bool) {s t s' : QState} (h0 : s.psi ≠ 0)
    (hs : SynZero q.lat.name dh dw s.psi) (h1 : Run sz (added q .stabilize w) s t)
    (h2 : Run sz (added q .stabilize (q.op .stabilize w).2) ⟨onSites a q.lat.name dh dw E t.psi, t.mem⟩ s') :
    (∀ k < (xSites dh dw).length + (zSites dh dw).length,
      s'.mem ⟨q.lat.name ++ "_c".toList ++ strNat (ops.count .stabilize + 1), k⟩ =
        s'.mem ⟨q.lat.name ++ "_c".toList ++ strNat (ops.count .stabilize), k⟩) ↔
    Unnoticed cls.code q.lat.name dh dw (onSites a q.lat.name dh dw E) := by
  have H := A.own.2.placed.odd
  have A1 := A.next .stabilize
  obtain ⟨m, e1, e2, e3⟩ := (run_stabilize A h0 hs).1 h1
  have hsy : Syndrome cls.code q.lat.name dh dw m t.psi := by rw [e1]; exact syndrome_joint H m _
  have hz : SynZero q.lat.name dh dw t.psi := gentle_synZero (o := .stabilize) A trivial h0 h1 hs
  have hv : ∀ C ∈ checks cls.code q.lat.name dh dw, ∃ u, Passes u (onSites a q.lat.name dh dw E) C := by
    intro C hC
    obtain ⟨key, p, -, rfl⟩ := mem_checks hC
    exact ⟨_, check_passes H.2.2.1 key p⟩
  obtain ⟨u, hu⟩ : ∃ u : Nat → Bool, ∀ k C, (checks cls.code q.lat.name dh dw)[k]? = some C → Passes (u k) (onSites a q.lat.name dh dw E) C := by
    have : ∀ k : Nat, ∃ u, ∀ C, (checks cls.code q.lat.name dh dw)[k]? = some C → Passes u (onSites a q.lat.name dh dw E) C := by
      intro k
      cases hk : (checks cls.code q.lat.name dh dw)[k]? with
      | none => exact ⟨false, fun C h => by cases h⟩
      | some C =>
        obtain ⟨u, hu⟩ := hv C (List.mem_of_getElem? hk)
        exact ⟨u, fun C' h => by cases h; exact hu⟩
    exact ⟨fun k => (this k).choose, fun k => (this k).choose_spec⟩
  have hsy' : Syndrome cls.code q.lat.name dh dw (fun k => m k ^^ u k) (onSites a q.lat.name dh dw E t.psi) := fun k C hC =>
    (hsy k C hC).passes (hu k C hC).symm
  have hon : OnData q.lat.name (onSites a q.lat.name dh dw E) := by
    unfold onSites
    have := OnData.pstr (name := q.lat.name) (l := ((allQubits dh dw).filter fun i => E (i / dw) (i % dw)).map fun i => (a, i))
    rwa [List.map_map] at this
  obtain ⟨m', f1, f2, f3⟩ := (run_stabilize A1 (s := ⟨onSites a q.lat.name dh dw E t.psi, t.mem⟩)
    (ne_zero_of_sq (onSites_sq _ _ _ _ _) e2) (hon.synZero hz)).1 h2
  have hm := syndrome_outcome H hsy' (f1 ▸ f2)
  have hc : (ops ++ [QOp.stabilize]).count .stabilize = ops.count .stabilize + 1 := by rw [List.count_append]; rfl
  rw [hc] at f3
  unfold roundName at f3 e3
  rw [strInt_nat] at f3 e3
  have hne : q.lat.name ++ "_c".toList ++ strNat (ops.count .stabilize) ≠ q.lat.name ++ "_c".toList ++ strNat (ops.count .stabilize + 1) := by
    intro h
    have := roundName_inj (name := q.lat.name) (j := (ops.count .stabilize : Nat)) (k := (ops.count .stabilize + 1 : Nat))
      (by unfold roundName; rw [strInt_nat, strInt_nat]; exact h)
    omega
  have key : ∀ k < (xSites dh dw).length + (zSites dh dw).length,
      s'.mem ⟨q.lat.name ++ "_c".toList ++ strNat (ops.count .stabilize + 1), k⟩ =
        (s'.mem ⟨q.lat.name ++ "_c".toList ++ strNat (ops.count .stabilize), k⟩ ^^ u k) := by
    intro k hk
    rw [f3, writeReg_mem hk, writeReg_other hne, e3, writeReg_mem hk]
    exact hm k hk
  constructor
  · intro h C hC
    obtain ⟨k, hk, hkC⟩ := List.getElem_of_mem hC
    have hk' := hk
    rw [checks_length] at hk'
    have h1 := hu k C (by rw [List.getElem?_eq_getElem hk, hkC])
    have h3 := key k hk'
    rw [h k hk'] at h3
    have : u k = false := by
      revert h3
      cases u k <;> cases s'.mem ⟨q.lat.name ++ "_c".toList ++ strNat (ops.count .stabilize), k⟩ <;> simp
    rw [this] at h1
    exact passes_false.1 h1
  · intro h k hk
    have hk' := hk
    rw [← checks_length (code := cls.code) (name := q.lat.name)] at hk'
    have h1 := hu k _ (List.getElem?_eq_getElem hk')
    have := (h1.commute_iff (onSites_sq _ _ _ _ _) (checks_sq H (List.getElem_mem hk'))).1 (h _ (List.getElem_mem hk'))
    rw [key k hk, this, Bool.xor_false]

/-- C117: the XXZZ code is different: Z errors on the four qubits in the top left corner are not noticed either. -/
theorem C117_xxzz (H : OddPos dh dw) (hh : 1 < dh) (hw : 1 < dw) :
    Unnoticed .xxzz name dh dw (onSites .Z name dh dw fun r c => decide (r ≤ 1 ∧ c ≤ 1)) := by
  rw [unnoticed_iff H]
  rintro key ⟨r2, c2⟩ hp
  cases key
  · have hx : XSite dh dw r2 c2 := hp
    unfold XSite at hx
    simp only [seenAt, checkLetters, hasAt, ne_eq, reduceCtorEq, not_false_eq_true, decide_true, Bool.true_and]
    obtain ⟨r, rfl⟩ : ∃ r, r2 = 2 * r + 1 := ⟨r2 / 2, by omega⟩
    obtain ⟨c, rfl⟩ : ∃ c, c2 = 2 * c + 1 := ⟨c2 / 2, by omega⟩
    simp only [show (2 * r + 1 - 1) / 2 = r by omega, show (2 * c + 1 - 1) / 2 = c by omega, show (2 * r + 1 + 1) / 2 = r + 1 by omega,
      show (2 * c + 1 + 1) / 2 = c + 1 by omega, ← Bool.decide_and]
    have cases9 : 1 < r ∨ 1 < c ∨ (r = -1 ∧ c = 0) ∨ (r = 0 ∧ c = 1) ∨ (r = 1 ∧ c = 0) := by omega
    rcases cases9 with h | h | ⟨rfl, rfl⟩ | ⟨rfl, rfl⟩ | ⟨rfl, rfl⟩
    · rw [decide_eq_false (by omega), decide_eq_false (by omega), decide_eq_false (by omega), decide_eq_false (by omega)]; rfl
    · rw [decide_eq_false (by omega), decide_eq_false (by omega), decide_eq_false (by omega), decide_eq_false (by omega)]; rfl
    · rw [decide_eq_false (by omega), decide_eq_false (by omega), decide_eq_true (by omega), decide_eq_true (by omega)]; rfl
    · rw [decide_eq_true (by omega), decide_eq_false (by omega), decide_eq_true (by omega), decide_eq_false (by omega)]; rfl
    · rw [decide_eq_true (by omega), decide_eq_true (by omega), decide_eq_false (by omega), decide_eq_false (by omega)]; rfl
  · simp [seenAt, checkLetters]

/-- On a 3 × 5 XZZX lattice three Z errors from the top row to the bottom row go unnoticed, if they start in the first or third column. -/
example : Unnoticed .xzzx name 3 5 (onSites .Z name 3 5 fun r c => decide (c = r + 2)) ∧
    ¬ Unnoticed .xzzx name 3 5 (onSites .Z name 3 5 fun r c => decide (c = r + 1)) := by
  rw [C117_z (by unfold OddPos; decide), C117_z (by unfold OddPos; decide)]
  refine ⟨⟨fun r c _ _ => by rw [decide_eq_decide]; omega, fun r c hi h => ?_⟩, fun h => ?_⟩
  · unfold InLat at hi
    simp only [decide_eq_true_eq] at h
    split <;> omega
  · have := h.2 0 1 (by unfold InLat; decide) rfl
    simp at this

/-- The XZZX code notices the four Z errors that the XXZZ code does not. -/
example : ¬ Unnoticed .xzzx name 3 3 (onSites .Z name 3 3 fun r c => decide (r ≤ 1 ∧ c ≤ 1)) := by
  rw [C117_square_z (by unfold OddPos; decide)]
  rintro (h | h)
  · have := h 0 0 (by unfold InLat; decide)
    simp at this
  · have := h 0 1 (by unfold InLat; decide)
    simp at this

/-- Executions: two stabilizations of a 3 × 3 XZZX lattice; Z errors on the diagonal change no bit, an error on the first qubit does. -/
example : ∃ q w, AfterAlone .xzzx q 3 3 [] w ∧ ∃ t, Run (fun _ => 0) (added q .stabilize w) ⟨ground, fun _ => false⟩ t ∧
    (∃ s', Run (fun _ => 0) (added q .stabilize (q.op .stabilize w).2)
      ⟨onSites .Z q.lat.name 3 3 (fun r c => decide (r = c)) t.psi, t.mem⟩ s' ∧
      ∀ k < 8, s'.mem ⟨q.lat.name ++ "_c".toList ++ strNat 1, k⟩ = s'.mem ⟨q.lat.name ++ "_c".toList ++ strNat 0, k⟩) ∧
    ∃ s', Run (fun _ => 0) (added q .stabilize (q.op .stabilize w).2)
      ⟨onSites .Z q.lat.name 3 3 (fun r c => decide (r = 0 ∧ c = 0)) t.psi, t.mem⟩ s' ∧
      ¬ ∀ k < 8, s'.mem ⟨q.lat.name ++ "_c".toList ++ strNat 1, k⟩ = s'.mem ⟨q.lat.name ++ "_c".toList ++ strNat 0, k⟩ := by
  obtain ⟨q, w, A, -⟩ := afterAlone_exists (dh := 3) (dw := 3) .xzzx "a".toList (by unfold OddPos; decide) (by simp) []
  obtain ⟨t, ht⟩ := run_exists (sz := fun _ => 0) (A.after.proper .stabilize) ⟨ground, fun _ => false⟩ ground_ne_zero
  have h0 := A.after.ne_zero (s := ⟨ground, fun _ => false⟩) ground_ne_zero ht
  have next : ∀ E : Int → Int → Bool, ∃ s', Run (fun _ => 0) (added q .stabilize (q.op .stabilize w).2)
      ⟨onSites .Z q.lat.name 3 3 E t.psi, t.mem⟩ s' := fun E =>
    run_exists ((A.after.next .stabilize).proper .stabilize) ⟨onSites .Z q.lat.name 3 3 E t.psi, t.mem⟩
      (ne_zero_of_sq (onSites_sq _ _ _ _ _) h0)
  obtain ⟨s1, hs1⟩ := next fun r c => decide (r = c)
  obtain ⟨s2, hs2⟩ := next fun r c => decide (r = 0 ∧ c = 0)
  refine ⟨q, w, A, t, ht, ⟨s1, hs1, ?_⟩, s2, hs2, ?_⟩
  · exact (C117_bits A.after .Z _ (s := ⟨ground, fun _ => false⟩) ground_ne_zero ground_synZero ht hs1).2
      ((C117_square_z (by unfold OddPos; decide)).2 (Or.inr fun r c _ => rfl))
  · intro h
    have := (C117_bits A.after .Z _ (s := ⟨ground, fun _ => false⟩) ground_ne_zero ground_synZero ht hs2).1 h
    rcases (C117_square_z (by unfold OddPos; decide)).1 this with h | h
    · have := h 0 0 (by unfold InLat; decide)
      simp at this
    · have := h 1 1 (by unfold InLat; decide)
      simp at this

end Qtc
