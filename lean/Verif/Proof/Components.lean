import Verif.Proof.QSlipRun
/-!
Executions from any state: a state is a sum of states in which the observables of a type have certain values, and an execution is linear.
-/
namespace Qtc
open Spec Function

variable {cls : QClass} {q : TQubit} {dh dw : Int} {ops : List QOp} {w : World} {sz : Str → Nat} {code : Code} {name : Str} {key : Key}

/-! ### Parts of a state -/

/-- What is true of all states with certain values of commuting observables, and of sums, is true of all states. -/
theorem by_values (l : List Op) (hsq : ∀ A ∈ l, A * A = 1) (hcomm : ∀ A ∈ l, ∀ B ∈ l, Commute A B) {S G : Psi → Prop}
    (hS : ∀ A ∈ l, ∀ v ψ, S ψ → S (projOf A v ψ)) (hG : ∀ a b, G a → G b → G (a + b))
    (h : ∀ ψ, S ψ → (∀ A ∈ l, ∃ v, HasValue A v ψ) → G ψ) (ψ : Psi) (hψ : S ψ) : G ψ := by
  induction l generalizing S ψ with
  | nil => exact h ψ hψ fun A hA => absurd hA List.not_mem_nil
  | cons A l ih =>
    have key : ∀ v, G (projOf A v ψ) := by
      intro v
      refine ih (fun B hB => hsq B (List.mem_cons_of_mem _ hB)) (fun B hB C hC => hcomm B (List.mem_cons_of_mem _ hB) C (List.mem_cons_of_mem _ hC))
        (S := fun φ => S φ ∧ HasValue A v φ) (fun B hB u φ hφ => ⟨hS B (List.mem_cons_of_mem _ hB) u φ hφ.1, hφ.2.of_comm ?_⟩) (fun φ hφ hv => ?_) _ ?_
      · exact Commute.proj (hcomm A (by simp) B (List.mem_cons_of_mem _ hB)) u
      · refine h φ hφ.1 fun B hB => ?_
        rcases List.mem_cons.1 hB with rfl | hB
        · exact ⟨v, hφ.2⟩
        · exact hv B hB
      · refine ⟨hS A (by simp) v ψ hψ, ?_⟩
        show A (projOf A v ψ) = sg v • projOf A v ψ
        rw [← Module.End.mul_apply, mul_projOf (hsq A (by simp)), LinearMap.smul_apply]
    have := hG _ _ (key false) (key true)
    rwa [← LinearMap.add_apply, projOf_add, Module.End.one_apply] at this

/-! ### Flips before the first round that explain what is read -/

/-- Flips of a column above a Z plaquette, or of a row left of an X plaquette. They change nothing else of the type. -/
def chainTo : Key → Int × Int → List Fault
  | .Z, p => (List.range ((p.1 + 1) / 2).toNat).map fun (r : Nat) => .data (-1) r ((p.2 - 1) / 2)
  | .X, p => (List.range ((p.2 + 1) / 2).toNat).map fun (c : Nat) => .data (-1) ((p.1 - 1) / 2) c

theorem steps_sum {a : Int} (ha : 0 < a) (k : Nat) :
    xorAll ((List.range k).map fun (r : Nat) => (a == 2 * (r : Int) - 1 || a == 2 * (r : Int) + 1)) = decide (a = 2 * (k : Int) - 1) := by
  induction k with
  | zero =>
    rw [decide_eq_false (by push_cast; omega)]
    rfl
  | succ k ih =>
    rw [List.range_succ, List.map_append, xorAll_append, ih, List.map_cons, List.map_nil, xorAll_cons]
    by_cases h1 : a = 2 * (k : Int) - 1
    · rw [decide_eq_true h1, beq_iff_eq.2 h1, decide_eq_false (by push_cast; omega)]
      rfl
    · rw [decide_eq_false h1, beq_eq_false_iff_ne.2 h1]
      by_cases h2 : a = 2 * (k : Int) + 1
      · rw [beq_iff_eq.2 h2, decide_eq_true (by push_cast; omega)]
        rfl
      · rw [beq_eq_false_iff_ne.2 h2, decide_eq_false (by push_cast; omega)]
        rfl

theorem xorAll_and {α : Type} (b : Bool) (f : α → Bool) (l : List α) : xorAll (l.map fun a => b && f a) = (b && xorAll (l.map f)) := by
  cases b
  · simp only [Bool.false_and]
    exact xorAll_eq_false fun b hb => by
      obtain ⟨_, _, rfl⟩ := List.mem_map.1 hb
      rfl
  · simp only [Bool.true_and]

theorem chainTo_reading {p p' : Int × Int} (hp : SiteOf dh dw key p) (hp' : SiteOf dh dw key p') {t : Int} (ht : 0 ≤ t) :
    reading (chainTo key p) t p' = decide (p' = p) := by
  obtain ⟨a, b⟩ := p'
  obtain ⟨r2, c2⟩ := p
  cases key
  · simp only [SiteOf, XSite] at hp hp'
    unfold reading chainTo
    rw [List.map_map]
    have : (Fault.affects t a b ∘ fun (c : Nat) => Fault.data (-1) ((r2 - 1) / 2) c) =
        fun (c : Nat) => (a == 2 * ((r2 - 1) / 2) - 1 || a == 2 * ((r2 - 1) / 2) + 1) && (b == 2 * (c : Int) - 1 || b == 2 * (c : Int) + 1) := by
      funext c
      simp only [comp_apply, Fault.affects]
      rw [decide_eq_true (by omega), Bool.true_and]
    simp only [this]
    rw [xorAll_and, steps_sum (by omega), Bool.eq_iff_iff]
    simp only [Bool.and_eq_true, Bool.or_eq_true, beq_iff_eq, decide_eq_true_eq, Prod.mk.injEq]
    omega
  · simp only [SiteOf, ZSite] at hp hp'
    unfold reading chainTo
    rw [List.map_map]
    have : (Fault.affects t a b ∘ fun (r : Nat) => Fault.data (-1) r ((c2 - 1) / 2)) =
        fun (r : Nat) => (b == 2 * ((c2 - 1) / 2) - 1 || b == 2 * ((c2 - 1) / 2) + 1) && (a == 2 * (r : Int) - 1 || a == 2 * (r : Int) + 1) := by
      funext r
      simp only [comp_apply, Fault.affects]
      rw [decide_eq_true (by omega), Bool.true_and, Bool.and_comm]
    simp only [this]
    rw [xorAll_and, steps_sum (by omega), Bool.eq_iff_iff]
    simp only [Bool.and_eq_true, Bool.or_eq_true, beq_iff_eq, decide_eq_true_eq, Prod.mk.injEq]
    omega

theorem chainTo_time {p : Int × Int} : ∀ f ∈ chainTo key p, Fault.time f = -1 := by
  intro f hf
  cases key
  · obtain ⟨_, _, rfl⟩ := List.mem_map.1 hf
    rfl
  · obtain ⟨_, _, rfl⟩ := List.mem_map.1 hf
    rfl

/-- Flips before the first round explain whatever the plaquettes read. -/
theorem explained (ref : Int × Int → Bool) : ∃ fs : List Fault, (∀ f ∈ fs, Fault.time f = -1) ∧
    ∀ p, SiteOf dh dw key p → ∀ t : Int, 0 ≤ t → reading fs t p = ref p := by
  refine ⟨((sitesOf key dh dw).filter ref).flatMap (chainTo key), ?_, fun p hp t ht => ?_⟩
  · intro f hf
    obtain ⟨p, -, h⟩ := List.mem_flatMap.1 hf
    exact chainTo_time f h
  · have hsum : ∀ l : List (Int × Int), (∀ p ∈ l, SiteOf dh dw key p) → l.Nodup → reading (l.flatMap (chainTo key)) t p = decide (p ∈ l) := by
      intro l hl hn
      induction l with
      | nil => rfl
      | cons a l ih =>
        rw [List.nodup_cons] at hn
        rw [List.flatMap_cons, reading_append, chainTo_reading (hl a (by simp)) hp ht, ih (fun p hp => hl p (by simp [hp])) hn.2]
        by_cases h : p = a
        · subst h
          simp [hn.1]
        · simp [h]
    rw [hsum _ (fun p hp => site_mem_iff.2 (List.mem_of_mem_filter hp)) ((sitesOf_nodup key dh dw).filter _)]
    have := site_mem_iff.1 hp
    cases h : ref p <;> simp [h, this]

/-! ### Executions -/

/-- What a circuit does to the values of the observables of a type, whatever they are before the first round: it flips the logical operator
if `g`, has `n` rounds, and `F` are the faults. -/
def Carries (sz : Str → Nat) (code : Code) (key : Key) (name : Str) (dh dw : Int) (l : List Instr) (g : Bool) (n : Nat) (F : List Fault) : Prop :=
  ∀ (v : Bool) (fs : List Fault) (s s' : QState), Keeps code key name dh dw v 0 fs s → Run sz l s s' → Keeps code key name dh dw (v ^^ g) n (fs ++ F) s'

theorem keeps_start {ψ : Psi} (h0 : ψ ≠ 0) (hs : SynZero name dh dw ψ) {ref : Int × Int → Bool} {b : Bool}
    (hc : ∀ p, SiteOf dh dw key p → HasValue (checkOp code name dh dw key p) (ref p) ψ) (hl : HasValue (logOp code key name dh dw) b ψ) (m : Mem) :
    ∃ fs, (∀ p, SiteOf dh dw key p → ∀ t : Int, 0 ≤ t → reading fs t p = ref p) ∧ Keeps code key name dh dw (b ^^ readoutFlipped key fs) 0 fs ⟨ψ, m⟩ := by
  obtain ⟨fs, h1, h2⟩ := explained (key := key) (dh := dh) (dw := dw) ref
  refine ⟨fs, h2, h0, fun f hf => by rw [h1 f hf]; decide, fun p hp => ?_, ⟨fun _ => false, synZero_values hs, fun k p hk => ?_⟩, ?_, fun t ht => absurd ht (Nat.not_lt_zero _)⟩
  · rw [h2 p hp _ (by decide)]; exact hc p hp
  · have hp := site_mem_iff.2 (List.mem_of_getElem? hk)
    rw [h2 p hp _ (by decide), h2 p hp _ (by decide), Bool.xor_self]
  · rw [Bool.xor_assoc, Bool.xor_self, Bool.xor_false]; exact hl

/-- The observables of a type. -/
def obsOf (code : Code) (key : Key) (name : Str) (dh dw : Int) : List Op :=
  logOp code key name dh dw :: (sitesOf key dh dw).map (checkOp code name dh dw key)

theorem obsOf_sq (H : OddPos dh dw) : ∀ A ∈ obsOf code key name dh dw, A * A = 1 := by
  intro A hA
  rcases List.mem_cons.1 hA with rfl | hA
  · exact fstr_sq key (line_nonneg H)
  · obtain ⟨p, hp, rfl⟩ := List.mem_map.1 hA
    exact check_sq H (site_mem_iff.2 hp)

theorem mem_checks_of {p : Int × Int} (hp : p ∈ sitesOf key dh dw) : checkOp code name dh dw key p ∈ checks code name dh dw := by
  obtain ⟨k, hk⟩ := List.getElem?_of_mem hp
  exact List.mem_of_getElem? (check_index hk)

theorem obsOf_comm (H : OddPos dh dw) : ∀ A ∈ obsOf code key name dh dw, ∀ B ∈ obsOf code key name dh dw, Commute A B := by
  intro A hA B hB
  rcases List.mem_cons.1 hA with rfl | hA <;> rcases List.mem_cons.1 hB with rfl | hB
  · exact Commute.refl _
  · obtain ⟨p, hp, rfl⟩ := List.mem_map.1 hB
    exact logOp_checks H (mem_checks_of hp)
  · obtain ⟨p, hp, rfl⟩ := List.mem_map.1 hA
    exact (logOp_checks H (mem_checks_of hp)).symm
  · obtain ⟨p, hp, rfl⟩ := List.mem_map.1 hA
    obtain ⟨p', hp', rfl⟩ := List.mem_map.1 hB
    exact check_comm H (site_mem_iff.2 hp) (site_mem_iff.2 hp')

theorem obsOf_synZero (H : OddPos dh dw) : ∀ A ∈ obsOf code key name dh dw, ∀ v ψ, SynZero name dh dw ψ → SynZero name dh dw (projOf A v ψ) := by
  intro A hA v ψ h
  have hd : OnData name A := by
    rcases List.mem_cons.1 hA with rfl | hA
    · exact logOp_onData
    · obtain ⟨p, hp, rfl⟩ := List.mem_map.1 hA
      exact check_onData H (site_mem_iff.2 hp)
  refine OnData.synZero (fun x hx a => ?_) h
  exact (Commute.proj (hd x hx a).symm v).symm

open Classical in
/-- What is true of all states with certain values of the observables of a type, and of sums, is true of all states. -/
theorem by_obs (H : OddPos dh dw) {G : Psi → Prop} (h00 : G 0) (hG : ∀ a b, G a → G b → G (a + b))
    (h : ∀ (ψ : Psi) (ref : Int × Int → Bool) (b : Bool), ψ ≠ 0 → SynZero name dh dw ψ → (∀ p, SiteOf dh dw key p → HasValue (checkOp code name dh dw key p) (ref p) ψ) →
      HasValue (logOp code key name dh dw) b ψ → G ψ) (ψ : Psi) (hψ : SynZero name dh dw ψ) : G ψ := by
  refine by_values (obsOf code key name dh dw) (obsOf_sq H) (obsOf_comm H) (S := SynZero name dh dw) (obsOf_synZero H) hG (fun φ hs hv => ?_) ψ hψ
  by_cases h0 : φ = 0
  · rw [h0]; exact h00
  obtain ⟨b, hb⟩ := hv _ List.mem_cons_self
  have hr : ∀ p, SiteOf dh dw key p → ∃ v, HasValue (checkOp code name dh dw key p) v φ := fun p hp =>
    hv _ (List.mem_cons_of_mem _ (List.mem_map.2 ⟨p, site_mem_iff.1 hp, rfl⟩))
  refine h φ (fun p => if hp : SiteOf dh dw key p then (hr p hp).choose else false) b h0 hs (fun p hp => ?_) hb
  simp only [dif_pos hp]
  exact (hr p hp).choose_spec

/-- An execution, as a linear operator, takes the logical operator of a type to itself, up to a sign. -/
theorem Carries.passes (H : OddPos dh dw) {l : List Instr} (hl : ∀ i ∈ l, i.Proper) {g : Bool} {n : Nat} {F : List Fault}
    (hC : Carries sz code key name dh dw l g n F) {m m' : Mem} {K : Op} (hK : Kraus sz l m K m') {ψ : Psi} (hs : SynZero name dh dw ψ) :
    logOp code key name dh dw (K ψ) = sg (g ^^ readoutFlipped key F) • K (logOp code key name dh dw ψ) := by
  refine by_obs (code := code) (key := key) (name := name) H
    (G := fun ψ => logOp code key name dh dw (K ψ) = sg (g ^^ readoutFlipped key F) • K (logOp code key name dh dw ψ)) ?_ ?_ ?_ ψ hs
  · simp only [map_zero, smul_zero]
  · intro a b ha hb
    simp only [map_add, smul_add, ha, hb]
  · intro φ ref b h0 hz hc hb
    by_cases hk : K φ = 0
    · have hb' : logOp code key name dh dw φ = sg b • φ := hb
      rw [hb', map_smul, hk, map_zero, smul_zero, smul_zero]
    · obtain ⟨fs, -, h2⟩ := keeps_start h0 hz hc hb m
      have hR : Run sz l ⟨φ, m⟩ ⟨K φ, m'⟩ := (run_iff hl h0).2 ⟨K, hK, rfl, hk⟩
      have h3 : logOp code key name dh dw (K φ) = _ := (hC _ _ _ _ h2 hR).log
      have hb' : logOp code key name dh dw φ = sg b • φ := hb
      rw [h3, hb', map_smul, smul_smul, readoutFlipped_append, ← sg_xor]
      congr 2
      generalize readoutFlipped key fs = x
      generalize readoutFlipped key F = y
      exact (by decide : ∀ b g x y : Bool, (b ^^ x ^^ g ^^ (x ^^ y)) = (g ^^ y ^^ b)) b g x y

/-- What is read in the rounds of an execution from any state. -/
theorem Carries.reads (H : OddPos dh dw) {l : List Instr} (hl : ∀ i ∈ l, i.Proper) {g : Bool} {n : Nat} {F : List Fault}
    (hC : Carries sz code key name dh dw l g n F) {s s' : QState} (h0 : s.psi ≠ 0) (hs : SynZero name dh dw s.psi) (hR : Run sz l s s') :
    ∃ ref : Int × Int → Bool, ∀ t : Nat, t < n → ∀ (k : Nat) p, (sitesOf key dh dw)[k]? = some p →
      s'.mem ⟨roundName name t, offsetOf key dh dw + k⟩ = (ref p ^^ reading F t p) := by
  obtain ⟨K, hK, e, hne⟩ := (run_iff hl h0).1 hR
  rw [e] at hne
  refine by_obs (code := code) (key := key) (name := name) H (G := fun ψ => K ψ ≠ 0 → ∃ ref : Int × Int → Bool, ∀ t : Nat, t < n →
    ∀ (k : Nat) p, (sitesOf key dh dw)[k]? = some p → s'.mem ⟨roundName name t, offsetOf key dh dw + k⟩ = (ref p ^^ reading F t p))
    ?_ ?_ ?_ s.psi hs hne
  · exact fun h => absurd (map_zero K) h
  · intro a b ha hb h
    by_cases h' : K a = 0
    · refine hb fun h'' => h ?_
      rw [map_add, h', h'', add_zero]
    · exact ha h'
  · intro φ ref b h0 hz hc hb hk
    obtain ⟨fs, h1, h2⟩ := keeps_start h0 hz hc hb s.mem
    have hR : Run sz l ⟨φ, s.mem⟩ ⟨K φ, s'.mem⟩ := (run_iff hl h0).2 ⟨K, hK, rfl, hk⟩
    have h3 := hC _ _ _ _ h2 hR
    refine ⟨ref, fun t ht k p hp => ?_⟩
    have := h3.mem t ht k p hp
    rw [reading_append, h1 p (site_mem_iff.2 (List.mem_of_getElem? hp)) t (by omega)] at this
    exact this

end Qtc
