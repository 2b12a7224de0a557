import Verif.Proof.Sites
namespace Qtc
open Spec

@[simp] theorem xorAll_nil : xorAll [] = false := rfl
@[simp] theorem xorAll_cons (b : Bool) (l : List Bool) : xorAll (b :: l) = (b ^^ xorAll l) := rfl

theorem xorAll_append (l l' : List Bool) : xorAll (l ++ l') = (xorAll l ^^ xorAll l') := by
  induction l with
  | nil => simp
  | cons b l ih => simp [ih]

theorem xorAll_map_xor {α : Type} (f g : α → Bool) (l : List α) :
    xorAll (l.map fun a => (f a ^^ g a)) = (xorAll (l.map f) ^^ xorAll (l.map g)) := by
  induction l with
  | nil => simp
  | cons b l ih =>
    simp only [List.map_cons, xorAll_cons, ih]
    cases f b <;> cases g b <;> simp

theorem xorAll_map_false {α : Type} (l : List α) : xorAll (l.map fun _ => false) = false := by
  induction l with
  | nil => rfl
  | cons b l ih => simpa using ih

theorem xorAll_eq_false {l : List Bool} (h : ∀ b ∈ l, b = false) : xorAll l = false := by
  induction l with
  | nil => rfl
  | cons b l ih => simp [h b (by simp), ih fun x hx => h x (by simp [hx])]

theorem xorAll_congr {α : Type} {f g : α → Bool} {l : List α} (h : ∀ a ∈ l, f a = g a) :
    xorAll (l.map f) = xorAll (l.map g) := by rw [List.map_congr_left h]

theorem xorAll_perm {l l' : List Bool} (h : l.Perm l') : xorAll l = xorAll l' := by
  induction h with
  | nil => rfl
  | cons x _ ih => simp [ih]
  | swap x y l => cases x <;> cases y <;> simp
  | trans _ _ ih1 ih2 => exact ih1.trans ih2

theorem xorAll_flatMap {α : Type} (l : List α) (f : α → List Bool) :
    xorAll (l.flatMap f) = xorAll (l.map fun a => xorAll (f a)) := by
  induction l with
  | nil => rfl
  | cons b l ih => simp [xorAll_append, ih]

theorem xorAll_eq_countP (l : List Bool) : xorAll l = decide (l.count true % 2 = 1) := by
  induction l with
  | nil => rfl
  | cons b l ih =>
    rw [xorAll_cons, ih]
    cases b
    · simp
    · rw [List.count_cons_self]
      by_cases h : List.count true l % 2 = 1
      · have : ¬ (List.count true l + 1) % 2 = 1 := by omega
        simp [h, this]
      · have : (List.count true l + 1) % 2 = 1 := by omega
        simp [h, this]

theorem xorAll_true_exists {α : Type} {f : α → Bool} {l : List α} (h : xorAll (l.map f) = true) :
    ∃ a ∈ l, f a = true := by
  by_contra hc
  push Not at hc
  have : xorAll (l.map f) = false := xorAll_eq_false (by
    intro b hb
    obtain ⟨a, ha, rfl⟩ := List.mem_map.1 hb
    simpa using hc a ha)
  simp [this] at h

/-- Value of the flips at a site, `false` outside the lattice. -/
def at' (dh dw : Int) (f : Int → Bool) (r c : Int) : Bool := optFlip f (dataAt dh dw r c)

theorem at'_in {dh dw r c : Int} (f : Int → Bool) (h : 0 ≤ r ∧ r < dh ∧ 0 ≤ c ∧ c < dw) :
    at' dh dw f r c = f (r * dw + c) := by
  unfold at' dataAt; rw [if_pos h]; rfl

theorem at'_out {dh dw r c : Int} (f : Int → Bool) (h : ¬ (0 ≤ r ∧ r < dh ∧ 0 ≤ c ∧ c < dw)) :
    at' dh dw f r c = false := by
  unfold at' dataAt; rw [if_neg h]; rfl

theorem parityOn_cornersOf (dh dw : Int) (f : Int → Bool) (r2 c2 : Int) :
    parityOn f (cornersOf dh dw r2 c2) =
      ((at' dh dw f ((r2-1)/2) ((c2-1)/2) ^^ at' dh dw f ((r2-1)/2) ((c2+1)/2)) ^^
       (at' dh dw f ((r2+1)/2) ((c2-1)/2) ^^ at' dh dw f ((r2+1)/2) ((c2+1)/2))) := by
  simp only [parityOn, cornersOf, List.map_cons, List.map_nil, xorAll_cons, xorAll_nil, at']
  generalize optFlip f _ = a
  generalize optFlip f _ = b
  generalize optFlip f _ = c
  generalize optFlip f _ = d
  cases a <;> cases b <;> cases c <;> cases d <;> rfl

/-- Telescoping pairs: the sum of `F(2o) + F(2o+1)` over `o < n` is the sum of `F(c)` over `c < 2n`. -/
theorem xor_pairs (F : Int → Bool) (n : Nat) :
    xorAll ((List.range n).map fun (o : Nat) => (F (2*(o:Int)) ^^ F (2*(o:Int)+1))) =
      xorAll ((List.range (2*n)).map fun (c : Nat) => F (c:Int)) := by
  induction n with
  | zero => rfl
  | succ n ih =>
    rw [List.range_succ, List.map_append, xorAll_append, ih,
      show 2*(n+1) = 2*n+1+1 by omega, List.range_succ, List.range_succ]
    simp only [List.map_append, xorAll_append, List.map_cons, List.map_nil, xorAll_cons, xorAll_nil,
      Bool.xor_false, Bool.xor_assoc]
    push_cast
    rfl

/-- Parity of a row of the lattice. -/
def rowPar (dh : Int) (w : Nat) (f : Int → Bool) (r : Int) : Bool :=
  xorAll ((List.range (2*w+1)).map fun (c : Nat) => at' dh (2*w+1) f r c)

def colPar (h : Nat) (dw : Int) (f : Int → Bool) (c : Int) : Bool :=
  xorAll ((List.range (2*h+1)).map fun (r : Nat) => at' (2*h+1) dw f r c)

theorem pairs_cover (F : Int → Bool) (w : Nat) (p : Int) (hp : p = 0 ∨ p = 1)
    (h0 : F (-1) = false) (h1 : F (2*w+1) = false) :
    xorAll ((List.range (w+1)).map fun (o : Nat) => (F (2*(o:Int)-p) ^^ F (2*(o:Int)-p+1))) =
      xorAll ((List.range (2*w+1)).map fun (c : Nat) => F c) := by
  rcases hp with rfl | rfl
  · have := xor_pairs F (w+1)
    simp only [Int.sub_zero]
    rw [this, show 2*(w+1) = 2*w+1+1 by omega, List.range_succ, List.map_append, xorAll_append]
    simp only [List.map_cons, List.map_nil, xorAll_cons, xorAll_nil]
    push_cast
    rw [h1]; simp
  · have := xor_pairs (fun k => F (k-1)) (w+1)
    rw [show 2*(w+1) = 2*w+1+1 by omega, List.range_succ_eq_map (n := 2*w+1)] at this
    simp only [List.map_cons (l := List.map Nat.succ _), xorAll_cons, List.map_map] at this
    rw [show ((0:Nat):Int)-1 = -1 by rfl, h0, Bool.false_xor] at this
    have e1 : (fun (o : Nat) => (F (2*(o:Int)-1) ^^ F (2*(o:Int)-1+1))) =
        fun (o : Nat) => (F (2*(o:Int)-1) ^^ F (2*(o:Int)+1-1)) := by
      funext o; congr 2; omega
    have e2 : (fun (c : Nat) => F (c:Int)) = ((fun (c : Nat) => F ((c:Int)-1)) ∘ Nat.succ) := by
      funext c; simp
    rw [e1, e2]
    exact this

end Qtc
namespace Qtc
open Spec

/-- Adding up the Z plaquettes between rows `q` and `q+1` gives the sum of the two row parities. -/
theorem row_step (h w : Nat) (f : Int → Bool) (q : Int) :
    (rowPar (2*h+1) w f q ^^ rowPar (2*h+1) w f (q+1)) =
      xorAll ((List.range (w+1)).map fun (o : Nat) =>
        parityOn f (cornersOf (2*h+1) (2*w+1) (2*q+1) (1 - 2*(q%2) + 4*o))) := by
  have hp : q % 2 = 0 ∨ q % 2 = 1 := by omega
  have out : ∀ r : Int, at' (2*h+1) (2*w+1) f r (-1) = false ∧ at' (2*h+1) (2*w+1) f r (2*w+1) = false :=
    fun r => ⟨at'_out f (by omega), at'_out f (by omega)⟩
  have e := fun r => pairs_cover (fun c => at' (2*h+1) (2*w+1) f r c) w (q%2) hp (out r).1 (out r).2
  unfold rowPar
  rw [← e q, ← e (q+1), ← xorAll_map_xor]
  refine xorAll_congr fun o _ => ?_
  rw [parityOn_cornersOf]
  rw [show (2*q+1-1)/2 = q by omega, show (2*q+1+1)/2 = q+1 by omega,
    show (1 - 2*(q%2) + 4*(o:Int) - 1)/2 = 2*o - q%2 by omega,
    show (1 - 2*(q%2) + 4*(o:Int) + 1)/2 = 2*o - q%2 + 1 by omega]

/-- Adding up the X plaquettes between columns `c` and `c+1` gives the sum of the two column parities. -/
theorem col_step (h w : Nat) (f : Int → Bool) (c : Int) :
    (colPar h (2*w+1) f c ^^ colPar h (2*w+1) f (c+1)) =
      xorAll ((List.range (h+1)).map fun (o : Nat) =>
        parityOn f (cornersOf (2*h+1) (2*w+1) (1 - 2*(1 - c%2) + 4*o) (2*c+1))) := by
  have hp : 1 - c % 2 = 0 ∨ 1 - c % 2 = 1 := by omega
  have out : ∀ c : Int, at' (2*h+1) (2*w+1) f (-1) c = false ∧ at' (2*h+1) (2*w+1) f (2*h+1) c = false :=
    fun r => ⟨at'_out f (by omega), at'_out f (by omega)⟩
  have e := fun c' => pairs_cover (fun r => at' (2*h+1) (2*w+1) f r c') h (1-c%2) hp (out c').1 (out c').2
  unfold colPar
  rw [← e c, ← e (c+1), ← xorAll_map_xor]
  refine xorAll_congr fun o _ => ?_
  rw [parityOn_cornersOf]
  rw [show (2*c+1-1)/2 = c by omega, show (2*c+1+1)/2 = c+1 by omega,
    show (1 - 2*(1-c%2) + 4*(o:Int) - 1)/2 = 2*o - (1-c%2) by omega,
    show (1 - 2*(1-c%2) + 4*(o:Int) + 1)/2 = 2*o - (1-c%2) + 1 by omega]
  generalize at' _ _ _ _ _ = a
  generalize at' _ _ _ _ _ = b
  generalize at' _ _ _ _ _ = c
  generalize at' _ _ _ _ _ = d
  cases a <;> cases b <;> cases c <;> cases d <;> rfl

theorem rowPar_const (h w : Nat) (f : Int → Bool)
    (H : ∀ r2 c2, ZSite (2*h+1) (2*w+1) r2 c2 → parityOn f (cornersOf (2*h+1) (2*w+1) r2 c2) = false)
    (r : Nat) (hr : r < 2*h+1) : rowPar (2*h+1) w f r = rowPar (2*h+1) w f 0 := by
  induction r with
  | zero => rfl
  | succ r ih =>
    rw [← ih (by omega)]
    have := row_step h w f r
    rw [xorAll_eq_false (l := List.map _ _)] at this
    · push_cast
      revert this
      cases rowPar (2*h+1) w f r <;> cases rowPar (2*h+1) w f (r+1) <;> simp
    · intro b hb
      obtain ⟨o, ho, rfl⟩ := List.mem_map.1 hb
      rw [List.mem_range] at ho
      apply H
      unfold ZSite
      omega

theorem colPar_const (h w : Nat) (f : Int → Bool)
    (H : ∀ r2 c2, XSite (2*h+1) (2*w+1) r2 c2 → parityOn f (cornersOf (2*h+1) (2*w+1) r2 c2) = false)
    (r : Nat) (hr : r < 2*w+1) : colPar h (2*w+1) f r = colPar h (2*w+1) f 0 := by
  induction r with
  | zero => rfl
  | succ r ih =>
    rw [← ih (by omega)]
    have := col_step h w f r
    rw [xorAll_eq_false (l := List.map _ _)] at this
    · push_cast
      revert this
      cases colPar h (2*w+1) f r <;> cases colPar h (2*w+1) f (r+1) <;> simp
    · intro b hb
      obtain ⟨o, ho, rfl⟩ := List.mem_map.1 hb
      rw [List.mem_range] at ho
      apply H
      unfold XSite
      omega

theorem rowPar_eq (h w : Nat) (f : Int → Bool) (r : Int) (hr : 0 ≤ r ∧ r < 2*h+1) :
    rowPar (2*h+1) w f r = xorAll ((rowQubits (2*w+1) r).map f) := by
  unfold rowPar rowQubits
  rw [List.map_map, show ((2*(w:Int)+1)).toNat = 2*w+1 by omega]
  refine xorAll_congr fun c hc => ?_
  rw [List.mem_range] at hc
  rw [at'_in f (by omega)]; rfl

theorem colPar_eq (h w : Nat) (f : Int → Bool) (c : Int) (hc : 0 ≤ c ∧ c < 2*w+1) :
    colPar h (2*w+1) f c = xorAll ((colQubits (2*h+1) (2*w+1) c).map f) := by
  unfold colPar colQubits
  rw [List.map_map, show ((2*(h:Int)+1)).toNat = 2*h+1 by omega]
  refine xorAll_congr fun r hr => ?_
  rw [List.mem_range] at hr
  rw [at'_in f (by omega)]; rfl

theorem site_inj {dw r c r' c' : Int} (hc : 0 ≤ c ∧ c < dw) (hc' : 0 ≤ c' ∧ c' < dw)
    (h : r * dw + c = r' * dw + c') : r = r' ∧ c = c' := by
  have hd : 0 < dw := by omega
  have h1 : (r * dw + c) / dw = r := by
    rw [Int.add_comm, Int.add_mul_ediv_right _ _ (by omega), Int.ediv_eq_zero_of_lt hc.1 hc.2]; omega
  have h2 : (r' * dw + c') / dw = r' := by
    rw [Int.add_comm, Int.add_mul_ediv_right _ _ (by omega), Int.ediv_eq_zero_of_lt hc'.1 hc'.2]; omega
  have e : r = r' := by rw [← h1, h, h2]
  subst e
  exact ⟨rfl, by omega⟩

theorem mem_allQubits {dh dw q : Int} : q ∈ allQubits dh dw ↔ 0 ≤ q ∧ q < dh * dw := by
  have : allQubits dh dw = pyRange (dh*dw) := rfl
  rw [this, mem_pyRange]

theorem site_mem {dh dw r c : Int} (h : 0 ≤ r ∧ r < dh ∧ 0 ≤ c ∧ c < dw) : r * dw + c ∈ allQubits dh dw := by
  rw [mem_allQubits]
  have h1 : 0 ≤ r * dw := Int.mul_nonneg h.1 (by omega)
  have h2 : (r + 1) * dw ≤ dh * dw := Int.mul_le_mul_of_nonneg_right (by omega) (by omega)
  rw [Int.add_mul] at h2
  omega

/-- If every row of the lattice contains a flip there are at least as many flips as rows. -/
theorem support_ge_rows (h w : Nat) (f : Int → Bool)
    (H : ∀ r : Nat, r < h → ∃ c : Nat, c < w ∧ f ((r:Int) * w + c) = true) :
    h ≤ (support h w f).length := by
  choose! c hc hf using H
  have hsub : (List.range h).map (fun (r : Nat) => (r:Int) * w + c r) ⊆ support h w f := by
    intro q hq
    obtain ⟨r, hr, rfl⟩ := List.mem_map.1 hq
    rw [List.mem_range] at hr
    unfold support
    rw [List.mem_filter]
    exact ⟨site_mem (by have := hc r hr; omega), hf r hr⟩
  have hnd : ((List.range h).map (fun (r : Nat) => (r:Int) * w + c r)).Nodup := by
    refine (List.nodup_map_iff_inj_on List.nodup_range).2 ?_
    intro a ha b hb hab
    rw [List.mem_range] at ha hb
    have := (site_inj (by have := hc a ha; omega) (by have := hc b hb; omega) hab).1
    omega
  have := (List.subperm_of_subset hnd hsub).length_le
  simpa using this

theorem support_ge_cols (h w : Nat) (f : Int → Bool)
    (H : ∀ c : Nat, c < w → ∃ r : Nat, r < h ∧ f ((r:Int) * w + c) = true) :
    w ≤ (support h w f).length := by
  choose! c hc hf using H
  have hsub : (List.range w).map (fun (r : Nat) => (c r:Int) * w + r) ⊆ support h w f := by
    intro q hq
    obtain ⟨r, hr, rfl⟩ := List.mem_map.1 hq
    rw [List.mem_range] at hr
    unfold support
    rw [List.mem_filter]
    exact ⟨site_mem (by have := hc r hr; omega), hf r hr⟩
  have hnd : ((List.range w).map (fun (r : Nat) => (c r:Int) * w + r)).Nodup := by
    refine (List.nodup_map_iff_inj_on List.nodup_range).2 ?_
    intro a ha b hb hab
    rw [List.mem_range] at ha hb
    have := (site_inj (by have := hc a ha; omega) (by have := hc b hb; omega) hab).2
    omega
  have := (List.subperm_of_subset hnd hsub).length_le
  simpa using this

end Qtc
