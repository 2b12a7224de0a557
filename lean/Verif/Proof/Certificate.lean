import Mathlib.Tactic.Positivity
import Mathlib.Tactic.FieldSimp
import Mathlib.Algebra.Order.BigOperators.Group.Finset
import Mathlib.Algebra.Order.Field.Basic
import Mathlib.Data.Real.Basic
import Verif.Proof.CountTable
/-!
Comparing the probabilities of two kinds of sets of flips by a computation.
-/
namespace Qtc
open Spec Finset

/-- Of the two kinds of sets with these numbers of members of size 0, 1, …, does the first one have a smallest member? -/
def leads : List Nat → List Nat → Bool
  | x :: xs, y :: ys => x != 0 || (y == 0 && leads xs ys)
  | _, _ => false

theorem leads_of : ∀ (n : Nat) (N N' : Nat → Nat) (k : Nat), k < n → N k ≠ 0 → (∀ j, j < k → N' j = 0) →
    leads ((List.range n).map N) ((List.range n).map N') = true
  | 0, _, _, _, h, _, _ => absurd h (Nat.not_lt_zero _)
  | n + 1, N, N', 0, _, h, _ => by
    rw [List.range_succ_eq_map, List.map_cons, List.map_cons, leads]
    simp [h]
  | n + 1, N, N', k + 1, hk, h, hz => by
    rw [List.range_succ_eq_map, List.map_cons, List.map_cons, leads, List.map_map, List.map_map, hz 0 (by omega)]
    have := leads_of n (N ∘ Nat.succ) (N' ∘ Nat.succ) k (by omega) h fun j hj => hz (j + 1) (by omega)
    rw [this]
    simp

/-! ### Polynomials as lists of coefficients, the constant one first -/

/-- The value of a polynomial. -/
noncomputable def ev (l : List Int) (x : ℝ) : ℝ := l.foldr (fun (c : Int) (r : ℝ) => (c : ℝ) + x * r) 0

theorem ev_cons (c : Int) (l : List Int) (x : ℝ) : ev (c :: l) x = c + x * ev l x := rfl

/-- The sum. -/
def padd : List Int → List Int → List Int
  | x :: xs, y :: ys => (x + y) :: padd xs ys
  | [], l => l
  | l, [] => l

theorem ev_padd : ∀ (l l' : List Int) (x : ℝ), ev (padd l l') x = ev l x + ev l' x
  | a :: l, b :: l', x => by
    rw [padd, ev_cons, ev_cons, ev_cons, ev_padd l l' x]
    push_cast
    ring
  | [], l, x => by
    cases l <;> simp [padd, ev]
  | a :: l, [], x => by simp [padd, ev]

theorem ev_map_mul (a : Int) (l : List Int) (x : ℝ) : ev (l.map (a * ·)) x = a * ev l x := by
  induction l with
  | nil => simp [ev]
  | cons c l ih =>
    rw [List.map_cons, ev_cons, ev_cons, ih]
    push_cast
    ring

theorem ev_zeros (k : Nat) (l : List Int) (x : ℝ) : ev (List.replicate k 0 ++ l) x = x ^ k * ev l x := by
  induction k with
  | zero => simp
  | succ k ih =>
    rw [List.replicate_succ, List.cons_append, ev_cons, ih, pow_succ]
    push_cast
    ring

/-- The product with `1 - a * x + x ^ 2`. -/
def pmul3 (a : Int) (l : List Int) : List Int := padd l (padd ((0 :: l).map (-a * ·)) (0 :: 0 :: l))

theorem ev_pmul3 (a : Int) (l : List Int) (x : ℝ) : ev (pmul3 a l) x = (1 - a * x + x ^ 2) * ev l x := by
  unfold pmul3
  rw [ev_padd, ev_padd, ev_map_mul, ev_cons, ev_cons, ev_cons]
  push_cast
  ring

/-- From `r` of degree `2 * k` on, a multiplication with `1 - a * x + x ^ 2` and the addition of a coefficient in the middle, for every
coefficient of the list. -/
def expandFrom (a : Int) : List Int → List Int → List Int
  | [], r => r
  | e :: es, r => expandFrom a es (padd (pmul3 a r) (List.replicate (r.length / 2 + 1) 0 ++ [e]))

/-- The polynomial with this certificate. -/
def expand (a : Int) : List Int → List Int
  | [] => []
  | e :: es => padd (expandFrom a es [e]) (0 :: (expandFrom a es [e]).map (-1 * ·))

theorem expandFrom_nonneg (a : Int) {x : ℝ} (hx : 0 ≤ x) (hu : 0 ≤ 1 - a * x + x ^ 2) : ∀ (es r : List Int), (∀ e ∈ es, 0 ≤ e) → 0 ≤ ev r x →
    0 ≤ ev (expandFrom a es r) x
  | [], r, _, h => h
  | e :: es, r, he, h => by
    rw [expandFrom]
    refine expandFrom_nonneg a hx hu es _ (fun e h => he e (List.mem_cons_of_mem _ h)) ?_
    rw [ev_padd, ev_pmul3, ev_zeros]
    have : (0 : ℝ) ≤ e := by exact_mod_cast he e List.mem_cons_self
    have h1 : ev [e] x = e := by simp [ev]
    rw [h1]
    positivity

theorem expand_nonneg (a : Int) {x : ℝ} (hx : 0 ≤ x) (hx1 : x ≤ 1) (hu : 0 ≤ 1 - a * x + x ^ 2) (es : List Int) (he : ∀ e ∈ es, 0 ≤ e) :
    0 ≤ ev (expand a es) x := by
  cases es with
  | nil => simp [expand, ev]
  | cons e es =>
    rw [expand, ev_padd, ev_cons, ev_map_mul]
    have h1 : ev [e] x = e := by simp [ev]
    have := expandFrom_nonneg a hx hu es [e] (fun e h => he e (List.mem_cons_of_mem _ h))
      (by rw [h1]; exact_mod_cast he e List.mem_cons_self)
    push_cast
    nlinarith

/-- The differences of the numbers. -/
def diff : List Nat → List Nat → List Int
  | x :: xs, y :: ys => ((x : Int) - y) :: diff xs ys
  | _, _ => []

theorem ev_diff : ∀ (n : Nat) (N N' : Nat → Nat) (x : ℝ),
    ev (diff ((List.range n).map N) ((List.range n).map N')) x = ∑ k ∈ range n, ((N k : ℝ) - N' k) * x ^ k
  | 0, N, N', x => by simp [diff, ev]
  | n + 1, N, N', x => by
    rw [List.range_succ_eq_map, List.map_cons, List.map_cons, diff, List.map_map, List.map_map, ev_cons,
      ev_diff n (N ∘ Nat.succ) (N' ∘ Nat.succ) x, sum_range_succ', mul_sum, add_comm]
    congr 1
    · refine sum_congr rfl fun k _ => ?_
      simp only [Function.comp, Nat.succ_eq_add_one]
      ring
    · push_cast
      ring

/-! ### Equal polynomials from equal values at one place -/

/-- The value at a whole number. -/
def evInt (l : List Int) (b : Int) : Int := l.foldr (fun c r => c + b * r) 0

theorem evInt_cons (c : Int) (l : List Int) (b : Int) : evInt (c :: l) b = c + b * evInt l b := rfl

theorem evInt_cast (l : List Int) (b : Int) : ((evInt l b : Int) : ℝ) = ev l b := by
  induction l with
  | nil => simp [evInt, ev]
  | cons c l ih => rw [evInt_cons, ev_cons, ← ih]; push_cast; ring

/-- The sum of the absolute values of the coefficients. -/
def weight (l : List Int) : Nat := (l.map Int.natAbs).sum

theorem weight_cons (c : Int) (l : List Int) : weight (c :: l) = c.natAbs + weight l := by
  simp [weight]

theorem weight_padd : ∀ l l' : List Int, weight (padd l l') ≤ weight l + weight l'
  | a :: l, b :: l' => by
    rw [padd, weight_cons, weight_cons, weight_cons]
    have := weight_padd l l'
    have := Int.natAbs_add_le a b
    omega
  | [], l => by cases l <;> simp [padd, weight]
  | a :: l, [] => by simp [padd, weight]

theorem weight_mul (a : Int) (l : List Int) : weight (l.map (a * ·)) = a.natAbs * weight l := by
  induction l with
  | nil => simp [weight]
  | cons c l ih =>
    rw [List.map_cons, weight_cons, weight_cons, ih, Int.natAbs_mul]
    ring

theorem weight_zeros (k : Nat) (l : List Int) : weight (List.replicate k 0 ++ l) = weight l := by
  induction k with
  | zero => rfl
  | succ k ih => rw [List.replicate_succ, List.cons_append, weight_cons, ih]; simp

theorem weight_pmul3 (a : Nat) (l : List Int) : weight (pmul3 a l) ≤ (a + 2) * weight l := by
  unfold pmul3
  have h1 := weight_padd l (padd ((0 :: l).map (-(a : Int) * ·)) (0 :: 0 :: l))
  have h2 := weight_padd ((0 :: l).map (-(a : Int) * ·)) (0 :: 0 :: l)
  rw [weight_mul, weight_cons, weight_cons, weight_cons] at h2
  simp only [Int.natAbs_neg, Int.natAbs_natCast, Int.natAbs_zero, zero_add] at h2
  nlinarith

/-- A polynomial with small coefficients whose value at `b` is 0 is 0. -/
theorem ev_zero_of_small {b : Nat} (hb : 0 < b) : ∀ l : List Int, (∀ c ∈ l, c.natAbs < b) → evInt l b = 0 → ∀ x : ℝ, ev l x = 0
  | [], _, _, x => by simp [ev]
  | c :: l, hc, h, x => by
    rw [evInt_cons] at h
    have hd : (b : Int) ∣ c := ⟨-evInt l b, by linarith⟩
    have h0 : c = 0 := Int.eq_zero_of_abs_lt_dvd hd (by rw [Int.abs_eq_natAbs]; exact_mod_cast hc c List.mem_cons_self)
    subst h0
    have hb' : (b : Int) ≠ 0 := by omega
    rw [zero_add] at h
    rw [ev_cons, ev_zero_of_small hb l (fun c hm => hc c (List.mem_cons_of_mem _ hm)) ((mul_eq_zero.1 h).resolve_left hb') x]
    simp

theorem natAbs_le_weight {c : Int} : ∀ {l : List Int}, c ∈ l → c.natAbs ≤ weight l
  | d :: l, h => by
    rw [weight_cons]
    rcases List.mem_cons.1 h with rfl | h
    · omega
    · have := natAbs_le_weight h
      omega

/-! ### Finding certificates -/

/-- The coefficients of the powers of `1 - a * x + x ^ 2`, the highest power first, from the value at `b`. (Nothing is proved about them: whether
they are right is checked.) -/
def peel (b u : Nat) : Nat → Nat → List Nat
  | 0, q => [q]
  | h + 1, q => forceNat (q % b) fun e => e :: forceNat ((q - e * u ^ (h + 1)) / b) fun q => peel b u h q

/-- The value at `b` of the polynomial with these coefficients, where `u` is the value of `1 - a * x + x ^ 2` and `t` the power of `b` in the
middle; `r` is the value of the first ones. -/
def valueFrom (b u : Nat) : List Nat → Nat → Nat → Nat
  | [], r, _ => r
  | e :: es, r, t => forceNat (b * t) fun t => forceNat (u * r + t * e) fun r => valueFrom b u es r t

/-- A bound of the coefficients. -/
def boundFrom (a : Nat) : List Nat → Nat → Nat
  | [], r => r
  | e :: es, r => forceNat ((a + 2) * r + e) fun r => boundFrom a es r

/-- Are these the coefficients of the difference of the polynomials with the values `u` and `v` at `b`? -/
def rightCert (a n b : Nat) (u v : Nat) : List Nat → Bool
  | [] => false
  | e :: es => (u + (b - 1) * valueFrom b (b * b + 1 - a * b) es e 1).beq v && Nat.blt (2 ^ n + 2 * boundFrom a es e) b

theorem expandFrom_value {a b : Nat} (hab : a ≤ b) : ∀ (es : List Nat) (r : List Int) (w t : Nat), evInt r b = w → r.length % 2 = 1 →
    t = b ^ (r.length / 2) → evInt (expandFrom a (es.map Int.ofNat) r) b = valueFrom b (b * b + 1 - a * b) es w t
  | [], r, w, t, h, _, _ => by
    rw [List.map_nil, expandFrom, valueFrom]
    exact h
  | e :: es, r, w, t, h, hl, ht => by
    rw [List.map_cons, expandFrom, valueFrom, forceNat_eq, forceNat_eq]
    have hlen : (padd (pmul3 (a : Int) r) (List.replicate (r.length / 2 + 1) 0 ++ [Int.ofNat e])).length = r.length + 2 := by
      have hp : ∀ l l' : List Int, (padd l l').length = max l.length l'.length := by
        intro l
        induction l with
        | nil => intro l'; cases l' <;> simp [padd]
        | cons c l ih => intro l'; cases l' <;> simp [padd, ih]
      unfold pmul3
      simp only [hp, List.length_map, List.length_cons, List.length_append, List.length_replicate, List.length_nil]
      omega
    refine expandFrom_value hab es _ _ _ ?_ (by omega) (by rw [ht, hlen, ← pow_succ']; congr 1; omega)
    have hc : ((evInt (padd (pmul3 (a : Int) r) (List.replicate (r.length / 2 + 1) 0 ++ [Int.ofNat e])) b : Int) : ℝ) =
        (((b * b + 1 - a * b) * w + b * t * e : Nat) : ℝ) := by
      have he : ev [Int.ofNat e] ((b : Int) : ℝ) = e := by
        rw [ev_cons, show ev [] ((b : Int) : ℝ) = 0 from rfl]
        simp
      rw [evInt_cast, ev_padd, ev_pmul3, ev_zeros, ← evInt_cast, h, he]
      have hs : a * b ≤ b * b + 1 := (Nat.mul_le_mul_right b hab).trans (Nat.le_succ _)
      rw [Nat.cast_add, Nat.cast_mul, Nat.cast_sub hs, ht]
      push_cast
      ring
    exact_mod_cast hc

theorem expandFrom_weight (a : Nat) : ∀ (es : List Nat) (r : List Int) (w : Nat), weight r ≤ w →
    weight (expandFrom a (es.map Int.ofNat) r) ≤ boundFrom a es w
  | [], r, w, h => by
    rw [List.map_nil, expandFrom, boundFrom]
    exact h
  | e :: es, r, w, h => by
    rw [List.map_cons, expandFrom, boundFrom, forceNat_eq]
    refine expandFrom_weight a es _ _ ((weight_padd _ _).trans ?_)
    rw [weight_zeros]
    have h1 := weight_pmul3 a r
    have h2 : weight [Int.ofNat e] = e := by simp [weight]
    rw [h2]
    have := Nat.mul_le_mul_left (a + 2) h
    omega

theorem diff_value : ∀ (n : Nat) (N N' : Nat → Nat) (b : Nat),
    evInt (diff ((List.range n).map N) ((List.range n).map N')) b = ((∑ k ∈ range n, N k * b ^ k : Nat) : Int) - (∑ k ∈ range n, N' k * b ^ k : Nat) := by
  intro n N N' b
  have h := ev_diff n N N' (b : ℝ)
  have h1 := evInt_cast (diff ((List.range n).map N) ((List.range n).map N')) b
  rw [Int.cast_natCast] at h1
  rw [h] at h1
  have : ((evInt (diff ((List.range n).map N) ((List.range n).map N')) b : Int) : ℝ) =
      ((((∑ k ∈ range n, N k * b ^ k : Nat) : Int) - (∑ k ∈ range n, N' k * b ^ k : Nat) : Int) : ℝ) := by
    rw [h1]
    push_cast
    rw [← sum_sub_distrib]
    exact sum_congr rfl fun k _ => by ring
  exact_mod_cast this

theorem diff_small {m : Nat} : ∀ (l l' : List Nat), (∀ x ∈ l, x ≤ m) → (∀ x ∈ l', x ≤ m) → ∀ c ∈ diff l l', c.natAbs ≤ m
  | x :: xs, y :: ys, h, h', c, hc => by
    rw [diff] at hc
    rcases List.mem_cons.1 hc with rfl | hc
    · have := h x List.mem_cons_self
      have := h' y List.mem_cons_self
      omega
    · exact diff_small xs ys (fun x hx => h x (List.mem_cons_of_mem _ hx)) (fun x hx => h' x (List.mem_cons_of_mem _ hx)) c hc
  | [], _, _, _, c, hc => by simp [diff] at hc
  | _ :: _, [], _, _, c, hc => by simp [diff] at hc

theorem padd_small {m k : Nat} : ∀ (l l' : List Int), (∀ c ∈ l, c.natAbs ≤ m) → (∀ c ∈ l', c.natAbs ≤ k) → ∀ c ∈ padd l l', c.natAbs ≤ m + k
  | x :: xs, y :: ys, h, h', c, hc => by
    rw [padd] at hc
    rcases List.mem_cons.1 hc with rfl | hc
    · have := h x List.mem_cons_self
      have := h' y List.mem_cons_self
      omega
    · exact padd_small xs ys (fun x hx => h x (List.mem_cons_of_mem _ hx)) (fun x hx => h' x (List.mem_cons_of_mem _ hx)) c hc
  | [], l, _, h', c, hc => by
    have : c ∈ l := by
      rw [padd] at hc
      exact hc
    have := h' c this
    omega
  | x :: xs, [], h, _, c, hc => by
    have : c ∈ x :: xs := by simpa [padd] using hc
    have := h c this
    omega

/-- If the sets that change `s` have a smallest one, their probability minus the one of those that change `s` and the value has a certificate. -/
def Likelier (a : Nat) (cols : List Nat) (s : Nat) : Prop := leads (counts cols s) (counts cols (s ^^^ 1)) = true →
  ∃ es : List Nat, ∀ x : ℝ, ev (diff (counts cols s) (counts cols (s ^^^ 1))) x = ev (expand a (es.map Int.ofNat)) x

theorem ev_of_cert {a b : Nat} {cols : List Nat} {s s' : Nat} {es : List Nat} (hab : a ≤ b)
    (h : rightCert a cols.length b (whole cols b s) (whole cols b s') es = true) (x : ℝ) :
    ev (diff (counts cols s) (counts cols s')) x = ev (expand a (es.map Int.ofNat)) x := by
  cases es with
  | nil => simp [rightCert] at h
  | cons e es =>
    rw [rightCert, Bool.and_eq_true] at h
    have hv := Nat.eq_of_beq_eq_true h.1
    have hb : 2 ^ cols.length + 2 * boundFrom a es e < b := by simpa [Nat.blt_eq] using h.2
    have h1 := expandFrom_value hab es [Int.ofNat e] e 1 (by simp [evInt]) (by simp) (by simp)
    have h2 := expandFrom_weight a es [Int.ofNat e] e (by simp [weight])
    generalize hE : expandFrom (a : Int) (es.map Int.ofNat) [Int.ofNat e] = E at h1 h2
    have hx : ∀ x : ℝ, ev (expand a ((e :: es).map Int.ofNat)) x = (1 - x) * ev E x := by
      intro x
      rw [List.map_cons, expand, ev_padd, ev_cons, ev_map_mul, hE]
      push_cast
      ring
    have hs : ∀ c ∈ padd (diff (counts cols s) (counts cols s')) ((padd E (0 :: E.map (-1 * ·))).map (-1 * ·)), c.natAbs < b := by
      intro c hc
      refine lt_of_le_of_lt (padd_small (m := 2 ^ cols.length) (k := 2 * boundFrom a es e) _ _ (diff_small _ _ ?_ ?_) ?_ c hc) hb
      · intro x hx
        obtain ⟨k, _, rfl⟩ := List.mem_map.1 hx
        exact plain_le _ _ _
      · intro x hx
        obtain ⟨k, _, rfl⟩ := List.mem_map.1 hx
        exact plain_le _ _ _
      · intro c hc
        have h3 := natAbs_le_weight hc
        have h4 := weight_padd E (0 :: E.map (-1 * ·))
        rw [weight_cons, weight_mul] at h4
        rw [weight_mul] at h3
        simp only [Int.natAbs_neg, Int.natAbs_one, Int.natAbs_zero, zero_add, one_mul] at h3 h4
        omega
    have hb0 : 0 < b := Nat.lt_of_le_of_lt (Nat.zero_le _) hb
    have hz : evInt (padd (diff (counts cols s) (counts cols s')) ((padd E (0 :: E.map (-1 * ·))).map (-1 * ·))) b = 0 := by
      have hd := diff_value (cols.length + 1) (plain cols s) (plain cols s') b
      have : ((evInt (padd (diff (counts cols s) (counts cols s')) ((padd E (0 :: E.map (-1 * ·))).map (-1 * ·))) b : Int) : ℝ) = ((0 : Int) : ℝ) := by
        rw [evInt_cast, ev_padd, ev_map_mul, ev_padd, ev_cons, ev_map_mul, ← evInt_cast, ← evInt_cast, h1]
        unfold counts
        rw [hd]
        have hv' : (∑ k ∈ range (cols.length + 1), plain cols s' k * b ^ k) =
            (∑ k ∈ range (cols.length + 1), plain cols s k * b ^ k) + (b - 1) * valueFrom b (b * b + 1 - a * b) es e 1 := hv.symm
        rw [hv', Nat.cast_add, Nat.cast_mul, Nat.cast_sub hb0]
        push_cast
        ring
      exact_mod_cast this
    have := ev_zero_of_small hb0 _ hs hz x
    rw [ev_padd, ev_map_mul, ev_padd, ev_cons, ev_map_mul] at this
    rw [hx]
    push_cast at this
    linarith

/-- If the first kind of sets has a smallest one, there is a certificate. -/
def hasCert (a n b u v : Nat) : Bool :=
  !leads (digitsOf b (n + 1) u) (digitsOf b (n + 1) v) || rightCert a n b u v (peel b (b * b + 1 - a * b) ((n - 1) / 2) ((v - u) / (b - 1)))

theorem pow_le_of {b e n w : Nat} (hb : b ≤ 2 ^ e) (hw : w = e * (n + 1)) : b ^ (n + 1) ≤ 2 ^ w := by
  rw [hw, pow_mul]
  exact Nat.pow_le_pow_left hb _

theorem counts_of_table {l r : List Nat} {n b e d w s : Nat} (hn : l.length = n) (hr : r.reverse = l) (hl : l.all (· < 2 ^ d) = true) (hb : 2 ^ n < b)
    (he : b ≤ 2 ^ e) (hw : w = e * (n + 1)) (hs : s < 2 ^ d) : counts l s = digitsOf b (n + 1) (digitAt w (tableFrom w d b r 1) s) := by
  subst hn
  have hr : r = l.reverse := by rw [← hr, List.reverse_reverse]
  subst hr
  exact (counts_of_sum hb ((table_whole hb (pow_le_of he hw) fun c hm => by simpa using List.all_eq_true.1 hl c hm).2 s hs)).symm

/-- The check for all changes. -/
def allCerts (a n b w d : Nat) (t : Nat) : Bool := forceNat t fun t => allPairs w (fun u v => hasCert a n b u v && hasCert a n b v u) d t

theorem likelier_of_table {a n b e d w : Nat} {cols r : List Nat} (hn : cols.length = n) (hr : r.reverse = cols)
    (hc : cols.all (· < 2 ^ (d + 1)) = true) (hab : a ≤ b) (hb : 2 ^ n < b) (he : b ≤ 2 ^ e) (hw : w = e * (n + 1))
    (h : allCerts a n b w d (tableFrom w (d + 1) b r 1) = true) {s : Nat} (hs : s < 2 ^ (d + 1)) : Likelier a cols s := by
  subst hn
  have hr : r = cols.reverse := by rw [← hr, List.reverse_reverse]
  subst hr
  have ht := table_whole hb (pow_le_of he hw) fun c hm => by simpa using List.all_eq_true.1 hc c hm
  rw [allCerts, forceNat_eq] at h
  have h2 := allPairs_digitAt h ht.1 (s / 2) (by rw [pow_succ] at hs; omega)
  rw [Bool.and_eq_true] at h2
  have h3 : (s ^^^ 1) / 2 = s / 2 := by
    have := Nat.shiftRight_xor_distrib (a := s) (b := 1) (i := 1)
    simpa [Nat.shiftRight_one] using this
  have h4 : (s ^^^ 1) % 2 = (s + 1) % 2 := Nat.xor_mod_two_eq
  have h1 : 1 < 2 ^ (d + 1) := Nat.one_lt_two_pow (by omega)
  have hx := Nat.xor_lt_two_pow hs h1
  have hin : hasCert a cols.length b (whole cols b s) (whole cols b (s ^^^ 1)) = true := by
    by_cases hs2 : s % 2 = 0
    · have e1 : 2 * (s / 2) = s := by omega
      have e2 : 2 * (s / 2) + 1 = s ^^^ 1 := by omega
      rw [e2, e1, ht.2 s hs, ht.2 _ hx] at h2
      exact h2.1
    · have e1 : 2 * (s / 2) = s ^^^ 1 := by omega
      have e2 : 2 * (s / 2) + 1 = s := by omega
      rw [e2, e1, ht.2 s hs, ht.2 _ hx] at h2
      exact h2.2
  rw [hasCert, Bool.or_eq_true, counts_of_sum hb (whole.eq_1 ..), counts_of_sum hb (whole.eq_1 ..)] at hin
  intro hlead
  rw [hlead] at hin
  exact ⟨_, ev_of_cert hab (hin.resolve_left (by simp))⟩

/-- The probability that the columns of the flips have the sum `s`, if every flip has the probability `p`. -/
noncomputable def mass (cols : List Nat) (p : ℝ) (s : Nat) : ℝ :=
  ∑ k ∈ range (cols.length + 1), (plain cols s k : ℝ) * (p ^ k * (1 - p) ^ (cols.length - k))

theorem mass_sub (cols : List Nat) {p : ℝ} (h1 : p < 1) (s s' : Nat) :
    mass cols p s - mass cols p s' = (1 - p) ^ cols.length * ev (diff (counts cols s) (counts cols s')) (p / (1 - p)) := by
  unfold mass
  unfold counts
  rw [ev_diff, ← sum_sub_distrib, mul_sum]
  refine sum_congr rfl fun k hk => ?_
  obtain ⟨m, hm⟩ := Nat.exists_eq_add_of_le (Nat.lt_succ_iff.1 (mem_range.1 hk))
  have h : (1 - p) ≠ 0 := by linarith
  rw [hm, Nat.add_sub_cancel_left, pow_add, div_pow]
  field_simp

theorem likelier_mass {a : Nat} {cols : List Nat} {s : Nat} (h : Likelier a cols s) {p : ℝ} (h0 : 0 ≤ p) (h1 : p ≤ 1 / 2)
    (hu : a * (p * (1 - p)) ≤ p ^ 2 + (1 - p) ^ 2) {k : Nat} (hk : k < cols.length + 1) (hs : plain cols s k ≠ 0)
    (hz : ∀ j, j < k → plain cols (s ^^^ 1) j = 0) : mass cols p (s ^^^ 1) ≤ mass cols p s := by
  obtain ⟨es, he⟩ := h (leads_of _ _ _ k hk hs hz)
  have hq : 0 < 1 - p := by linarith
  have := mass_sub cols (show p < 1 by linarith) s (s ^^^ 1)
  rw [he] at this
  have hn := expand_nonneg a (x := p / (1 - p)) (by positivity) (by rw [div_le_one hq]; linarith)
    (by
      have e : 1 - ((a : Int) : ℝ) * (p / (1 - p)) + (p / (1 - p)) ^ 2 = (p ^ 2 + (1 - p) ^ 2 - a * (p * (1 - p))) / (1 - p) ^ 2 := by
        rw [Int.cast_natCast]
        field_simp
        ring
      rw [e]
      exact div_nonneg (by linarith) (by positivity)) (es.map Int.ofNat) (fun e he => by
        obtain ⟨n, _, rfl⟩ := List.mem_map.1 he
        exact Int.natCast_nonneg n)
  have : 0 ≤ mass cols p s - mass cols p (s ^^^ 1) := by
    rw [this]
    positivity
  linarith

end Qtc
