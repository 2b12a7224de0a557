import Verif.Proof.LoneHit
import Verif.Props.FirstRound
/-!
C132: what becomes of a single misreading, in whatever round.
-/
namespace Qtc
open Spec Function

variable {cls : QClass} {q : TQubit} {dh dw : Int} {ops : List QOp} {w : World} {sz : Str → Nat} {key : Key}

/-- C132: a lone syndrome hit flips the measured value just if its stabilizer is nearer to the edge on which the value is measured, whatever
optimal matching the library picks. -/
theorem C132_hit (D : Decoder) (hD : Made D) (key : Key) (s : SGraph) (hs : D.S key = some s) (HO : OddPos D.dh D.dw)
    (m : Matcher) (hm : Contract m) (t : Int) (p : Int × Int) (h0 : 0 ≤ t) (ht : t < D.T) (hp : Site key D.dh D.dw p.1 p.2)
    (syn : SynDict) (hsyn : syn (rtypeOf key) = some [⟨t, p.1, p.2⟩]) (b : Bool) :
    ∃ syn', correctHits D m syn (rtypeOf key) (some (bit b)) none = .ok (some (bit (b ^^ nearReadout key D.dh D.dw p)), syn') := by
  have hp' : SiteOf D.dh D.dw key p := site_mem_iff.2 (mem_sitesOf.2 hp)
  have hc := edgeChain_correctable HO hp' h0 ht
  have := C31_corrects D hD key s hs HO m hm (edgeChain key D.dh D.dw t p) hc [⟨t, p.1, p.2⟩] (by simp) (by
    intro n
    obtain ⟨a, r, c⟩ := n
    have hpar : ∀ _ : Site key D.dh D.dw r c, (edgeChain key D.dh D.dw t p).countP (Fault.changes ⟨a, r, c⟩) % 2 = 1 ↔ (a = t ∧ (r, c) = p) := by
      intro hz
      have hz' : SiteOf D.dh D.dw key (r, c) := site_mem_iff.2 (mem_sitesOf.2 hz)
      have e : xorAll ((edgeChain key D.dh D.dw t p).map (Fault.changes ⟨a, r, c⟩)) = (decide (a = t) && decide ((r, c) = p)) := by
        have e1 : (Fault.changes ⟨a, r, c⟩) = fun f => (Fault.affects a r c f ^^ Fault.affects (a + 1) r c f) :=
          funext fun f => (affects_step a r c f).symm
        have e2 := edgeChain_affects HO hp' hz' t a
        have e3 := edgeChain_affects HO hp' hz' t (a + 1)
        rw [e1, xorAll_map_xor, e2, e3, Bool.eq_iff_iff]
        by_cases h1 : t < a <;> by_cases h2 : t < a + 1 <;> by_cases h3 : a = t <;> cases decide ((r, c) = p) <;> simp [h1, h2, h3] <;> omega
      rw [xorAll_countP, Bool.eq_iff_iff] at e
      simpa using e
    constructor
    · intro h
      rw [List.mem_singleton, Node.mk.injEq] at h
      obtain ⟨rfl, rfl, rfl⟩ := h
      exact ⟨h0, ht, hp, (hpar hp).2 ⟨rfl, rfl⟩⟩
    · rintro ⟨-, -, hz, h⟩
      obtain ⟨rfl, rfl⟩ := (hpar hz).1 h
      exact List.mem_singleton.2 rfl) syn hsyn (b ^^ nearReadout key D.dh D.dw p)
  rwa [edgeChain_readout HO hp', Bool.xor_assoc, Bool.xor_self, Bool.xor_false] at this

theorem meas_affects (t t' : Int) (p p' : Int × Int) :
    Fault.affects t' p'.1 p'.2 (.meas t p.1 p.2) = (decide (p' = p) && decide (t' = t + 1)) := by
  rw [Bool.eq_iff_iff]
  simp [Fault.affects, Prod.ext_iff]

/-- C132: a misreading is the only error, in one of `T + 1` rounds before the logical operator is measured. In the first or last round it flips
the decoded value just if the stabilizer is nearer to the edge on which the operator is measured; in any other it does nothing. -/
theorem C132_logical (A : AfterAlone cls q dh dw ops w) (hq : ∀ o ∈ ops, o.quiet = true) (hn : ops.count .stabilize = 0) (hbig : 1 < dh * dw)
    (hc : CanRead cls dh dw key) {e0 e1 : Errs} {l : List (QOp × Errs)} (hl : ∀ a ∈ l, MemoryOp a.1) {T : Nat} (hT0 : 0 < T)
    (hT : (l.map Prod.fst).count .stabilize = T + 1) {D : Decoder} (hD : Made D) (hdh : D.dh = dh) (hdw : D.dw = dw) {g : SGraph}
    (hg : D.S key = some g) (hDT : (T : Int) ≤ D.T) {m : Matcher} (hm : Contract m) {t : Int} {p : Int × Int} (ht0 : -1 ≤ t) (htT : t < T)
    (hp : Site key dh dw p.1 p.2) (hf : takePlace T (faultsOf cls.code key q.lat.name dh dw 0 l) = [.meas t p.1 p.2]) {s s' : QState} (h0 : s.psi ≠ 0)
    (hs : SynZero q.lat.name dh dw s.psi) (hR : Run sz (noisyAll q ((prepOp key, e0) :: l ++ [(readOp key, e1)]) w) s s') :
    correctString D m (joinSp (groups s'.mem (q.ops (prepOp key :: l.map Prod.fst ++ [readOp key]) w).circ.cregs)) (rtypeOf key) none =
      .ok (some (bit (decide ((l.map Prod.fst).count (flipGate key) % 2 = 1) ^^
        (decide (t = -1 ∨ t = T - 1) && nearReadout key dh dw p)))) := by
  have H := A.after.own.2.placed.odd
  obtain ⟨rounds, hlen, hrr, hgr⟩ := endToEnd_strings A hq hn hbig hc hl hT h0 hs hR
  subst hdh hdw
  rw [hf] at hrr hgr
  have hp' : SiteOf D.dh D.dw key p := site_mem_iff.2 (mem_sitesOf.2 hp)
  obtain ⟨a1, a2, a3, a4, a5⟩ := site_along H hp'
  have hro : readoutFlipped key [.meas t p.1 p.2] = false := by cases key <;> rfl
  rw [hro, Bool.xor_false] at hgr
  rw [hgr]
  have hkey : ∀ (t1 : Int) (ref : Int × Int → Bool), 0 ≤ t1 → t1 < T →
      (∀ t' : Nat, (t' : Int) ≤ T → ∀ p', SiteOf D.dh D.dw key p' → (decide (p' = p) && decide ((t' : Int) = t + 1)) = (ref p' ^^ (decide (t1 < t') && decide (p' = p)))) →
      correctString D m (joinSp ([if decide ((l.map Prod.fst).count (flipGate key) % 2 = 1) then '1' else '0'] :: rounds.reverse)) (rtypeOf key) none =
        .ok (some (bit (decide ((l.map Prod.fst).count (flipGate key) % 2 = 1) ^^ nearReadout key D.dh D.dw p))) := by
    intro t1 ref b1 b2 href
    have hrr' : RoundsRead key D.dh D.dw (fun r c => ref (r, c)) (edgeChain key D.dh D.dw t1 p) rounds := by
      refine ⟨hrr.1, fun t' k s p' hs hk => ?_⟩
      have ht' := (List.getElem?_eq_some_iff.1 hs).1
      have hz : SiteOf D.dh D.dw key p' := site_mem_iff.2 (List.mem_of_getElem? hk)
      rw [hrr.2 t' k s p' hs hk]
      show (false ^^ xorAll [_]) = (ref p' ^^ xorAll _)
      rw [edgeChain_affects H hp' hz, xorAll_cons, xorAll_nil, Bool.xor_false, Bool.false_xor, meas_affects, href t' (by omega) p' hz]
    have := C32_strings_single D hD key g hg H hbig m hm T hDT _ (edgeChain_correctable H hp' b1 b2) _ _ hlen hrr'
      (decide ((l.map Prod.fst).count (flipGate key) % 2 = 1) ^^ nearReadout key D.dh D.dw p)
    rwa [edgeChain_readout H hp', Bool.xor_assoc, Bool.xor_self, Bool.xor_false] at this
  by_cases h1 : t = -1
  · rw [hkey 0 (fun p' => decide (p' = p)) (by omega) (by omega) (by
      intro t' _ p' _
      rw [Bool.eq_iff_iff]
      by_cases h : p' = p <;> by_cases h' : t' = 0 <;> simp [h, h', h1])]
    rw [decide_eq_true (Or.inl h1), Bool.true_and]
  by_cases h2 : t = T - 1
  · rw [hkey (T - 1) (fun _ => false) (by omega) (by omega) (by
      intro t' ht' p' _
      rw [Bool.eq_iff_iff]
      by_cases h : p' = p <;> simp [h, h2]
      omega)]
    rw [decide_eq_true (Or.inr h2), Bool.true_and]
  · have := C98_strings_single D hD key g hg H hbig m hm T hDT [.meas t p.1 p.2] (by
      refine ⟨fun f hf => ?_, ?_⟩
      · rw [List.mem_singleton.1 hf]
        exact ⟨by omega, by omega, hp⟩
      · have e : oddLines key (distance key D.dh D.dw).toNat [.meas t p.1 p.2] = 0 := by
          unfold oddLines
          refine List.countP_eq_zero.2 fun k _ => ?_
          cases key <;> simp [Fault.inLine]
        rw [e]
        show ((1 : Nat) : Int) + (0 : Nat) < _
        omega) _ _ hlen hrr (decide ((l.map Prod.fst).count (flipGate key) % 2 = 1))
    rw [hro, Bool.xor_false] at this
    have h3 : ¬ (t = -1 ∨ t = T - 1) := by omega
    rw [this, decide_eq_false h3, Bool.false_and, Bool.xor_false]

/-- C132: the same with a readout of all data qubits in the end: only a misreading in the first round can do harm. -/
theorem C132_lattice (A : AfterAlone cls q dh dw ops w) (hq : ∀ o ∈ ops, o.quiet = true) (hn : ops.count .stabilize = 0) (hbig : 1 < dh * dw)
    {e0 e1 : Errs} {l : List (QOp × Errs)} (hl : ∀ a ∈ l, MemoryOp a.1) {T : Nat}
    (hT : (l.map Prod.fst).count .stabilize = T + 1) {D : Decoder} (hD : Made D) (hdh : D.dh = dh) (hdw : D.dw = dw) {g : SGraph}
    (hg : D.S .Z = some g) (hDT : (T : Int) + 1 ≤ D.T) {m : Matcher} (hm : Contract m) {t : Int} {p : Int × Int} (ht0 : -1 ≤ t) (htT : t < T)
    (hp : Site .Z dh dw p.1 p.2) (hf : takePlace T (faultsOf cls.code .Z q.lat.name dh dw 0 l) = [.meas t p.1 p.2]) {s s' : QState} (h0 : s.psi ≠ 0)
    (hs : SynZero q.lat.name dh dw s.psi) (hR : Run sz (noisyAll q ((.resetZ, e0) :: l ++ [(.latticeReadoutZ, e1)]) w) s s') :
    correctString D m (joinSp (groups s'.mem (q.ops (.resetZ :: l.map Prod.fst ++ [.latticeReadoutZ]) w).circ.cregs)) .Z none =
      .ok (some (bit (decide ((l.map Prod.fst).count .x % 2 = 1) ^^ (decide (t = -1) && nearReadout .Z dh dw p)))) := by
  have H := A.after.own.2.placed.odd
  have hp' : SiteOf dh dw .Z p := site_mem_iff.2 (mem_sitesOf.2 hp)
  obtain ⟨a1, a2, a3, a4, a5⟩ := site_along H hp'
  by_cases h1 : t = -1
  · rw [noisyAll_append, Run.append] at hR
    obtain ⟨u, h2, h3⟩ := hR
    have hH := held_run (key := .Z) A.after hbig hn hl h0 hs h2
    rw [hT] at hH
    have A' := A.all_next (.resetZ :: l.map Prod.fst)
    have hq' : ∀ o ∈ ops ++ .resetZ :: l.map Prod.fst, o.quiet = true := by
      intro o ho
      rcases List.mem_append.1 ho with h | h
      · exact hq o h
      rcases List.mem_cons.1 h with rfl | h
      · rfl
      · obtain ⟨a, ha, rfl⟩ := List.mem_map.1 h
        exact memoryOp_quiet (hl a ha)
    have hcount : (ops ++ .resetZ :: l.map Prod.fst).count .stabilize = T + 1 := by
      rw [List.count_append, hn, List.count_cons, hT]
      simp
    have h3' : Run sz (withErrors e1 (added q .latticeReadoutZ (q.ops (.resetZ :: l.map Prod.fst) w)) ++ []) u s' := h3
    rw [List.append_nil, noErr_lattice A'.after] at h3'
    have hcor := edgeChain_correctable H hp' (t := 0) (T := T + 1) (by omega) (by omega)
    have hd : Decided .Z dh dw D.T (edgeChain .Z dh dw 0 p) false := by
      subst hdh hdw
      exact tolerable_decided H hDT (tolerable_of_correctable hcor)
    have hread : ∀ t' p', reading [.meas t p.1 p.2] t' p' = (decide (p' = p) && decide (t' = t + 1)) := by
      intro t' p'
      show xorAll [_] = _
      rw [xorAll_cons, xorAll_nil, Bool.xor_false, meas_affects]
    have := lattice_reads A' hq' hbig hcount hD hdh hdw hg hDT hm (ref := fun p' => decide (p' = p))
      (v' := decide ((l.map Prod.fst).count (flipGate .Z) % 2 = 1) ^^ nearReadout .Z dh dw p)
      (fs' := edgeChain .Z dh dw 0 p) (by
        intro t' ht p' hz
        rw [← reading_takePlace (last := T) (by omega), hf, hread]
        show _ = (_ ^^ xorAll _)
        rw [edgeChain_affects H hp' hz, Bool.eq_iff_iff]
        by_cases h : p' = p <;> by_cases h' : t' = 0 <;> simp [h, h', h1]) (by
        intro p' hz
        have e := reading_takePlace_end hH.time (p := p')
        push_cast at e
        rw [show (T : Int) + 1 - 1 = T by omega, hf] at e
        push_cast
        rw [← e, hread]
        show _ = (_ ^^ xorAll _)
        rw [edgeChain_affects H hp' hz, Bool.eq_iff_iff]
        by_cases h : p' = p <;> simp [h, h1]
        omega) (by
        rw [edgeChain_readout H hp', ← readoutFlipped_takePlace (last := T), hf]
        show (_ ^^ false) = _
        rw [Bool.xor_assoc, Bool.xor_self]) hcor.1 hd hH h3'
    rw [← ops_snoc, Bool.xor_false] at this
    rw [decide_eq_true h1, Bool.true_and]
    exact this
  · have := C98_lattice_z A hq hn hbig hl hT hD hdh hdw hg hDT hm (by
      rw [hf]
      refine ⟨fun f hf => ?_, ?_⟩
      · rw [List.mem_singleton.1 hf]
        exact ⟨by omega, by omega, hp⟩
      · have e : oddLines .Z (distance .Z dh dw).toNat [.meas t p.1 p.2] = 0 := by
          unfold oddLines
          exact List.countP_eq_zero.2 fun k _ => by simp [Fault.inLine]
        rw [e]
        show ((1 : Nat) : Int) + (0 : Nat) < _
        omega) h0 hs hR
    rw [this, decide_eq_false h1, Bool.false_and, Bool.xor_false]
    unfold bit
    simp only [decide_eq_true_eq]

/-- A misreading in the first (`x.1`) or the last round. -/
def edgeMisread (T : Int) (x : Bool × Int × Int) : Fault := .meas (if x.1 then -1 else T - 1) x.2.1 x.2.2

/-- C132, several misreadings: those in the first and last round count as many faults as data qubits lie between the stabilizer and the nearer
edge. If all faults together are at most `(distance - 1) / 2`, the decoded value is right just if an even number of the misreadings in the
first and last round are nearer to the edge on which the operator is measured. -/
theorem C132_several (A : AfterAlone cls q dh dw ops w) (hq : ∀ o ∈ ops, o.quiet = true) (hn : ops.count .stabilize = 0) (hbig : 1 < dh * dw)
    (hc : CanRead cls dh dw key) {e0 e1 : Errs} {l : List (QOp × Errs)} (hl : ∀ a ∈ l, MemoryOp a.1) {T : Nat} (hT0 : 0 < T)
    (hT : (l.map Prod.fst).count .stabilize = T + 1) {D : Decoder} (hD : Made D) (hdh : D.dh = dh) (hdw : D.dw = dw) {g : SGraph}
    (hg : D.S key = some g) (hDT : (T : Int) ≤ D.T) {m : Matcher} (hm : Contract m) {E : List (Bool × Int × Int)} {F : List Fault}
    (hE : ∀ x ∈ E, Site key dh dw x.2.1 x.2.2) (hF : ∀ f ∈ F, f.Fits key dh dw T)
    (hf : (takePlace T (faultsOf cls.code key q.lat.name dh dw 0 l)).Perm (E.map (edgeMisread T) ++ F))
    (hfew : (F.length : Int) + (E.map fun x => edgeDist key dh dw x.2).sum ≤ (distance key dh dw - 1) / 2) {s s' : QState} (h0 : s.psi ≠ 0)
    (hs : SynZero q.lat.name dh dw s.psi) (hR : Run sz (noisyAll q ((prepOp key, e0) :: l ++ [(readOp key, e1)]) w) s s') :
    correctString D m (joinSp (groups s'.mem (q.ops (prepOp key :: l.map Prod.fst ++ [readOp key]) w).circ.cregs)) (rtypeOf key) none =
      .ok (some (bit (decide ((l.map Prod.fst).count (flipGate key) % 2 = 1) ^^ xorAll (E.map fun x => nearReadout key dh dw x.2)))) := by
  have H := A.after.own.2.placed.odd
  obtain ⟨rounds, hlen, hrr, hgr⟩ := endToEnd_strings A hq hn hbig hc hl hT h0 hs hR
  subst hdh hdw
  have hE' : ∀ x ∈ E, SiteOf D.dh D.dw key x.2 := fun x hx => site_mem_iff.2 (mem_sitesOf.2 (hE x hx))
  let tm : Bool × Int × Int → Int := fun x => if x.1 then 0 else T - 1
  let C : List Fault := E.flatMap fun x => edgeChain key D.dh D.dw (tm x) x.2
  have htm : ∀ x, 0 ≤ tm x ∧ tm x < T := by
    intro x
    show 0 ≤ (if x.1 then (0 : Int) else T - 1) ∧ (if x.1 then (0 : Int) else T - 1) < T
    split <;> omega
  have hcor : Correctable key D.dh D.dw T (C ++ F) := by
    refine ⟨fun f hf => ?_, ?_⟩
    · rcases List.mem_append.1 hf with h | h
      · obtain ⟨x, hx, h⟩ := List.mem_flatMap.1 h
        exact (edgeChain_correctable H (hE' x hx) (htm x).1 (htm x).2).1 f h
      · exact hF f h
    · have e : (C.length : Int) = (E.map fun x => edgeDist key D.dh D.dw x.2).sum := by
        show ((E.flatMap fun x => edgeChain key D.dh D.dw (tm x) x.2).length : Int) = _
        clear hfew hf hE
        induction E with
        | nil => rfl
        | cons x E ih =>
          rw [List.flatMap_cons, List.length_append, List.map_cons, List.sum_cons, ← ih fun y hy => hE' y (List.mem_cons_of_mem _ hy),
            ← edgeChain_length H (hE' x List.mem_cons_self) (tm x)]
          push_cast
          rfl
      rw [List.length_append]
      push_cast
      omega
  have hro : readoutFlipped key (C ++ F) =
      (xorAll (E.map fun x => nearReadout key D.dh D.dw x.2) ^^ readoutFlipped key (takePlace T (faultsOf cls.code key q.lat.name D.dh D.dw 0 l))) := by
    have e1 : readoutFlipped key C = xorAll (E.map fun x => nearReadout key D.dh D.dw x.2) := by
      show xorAll ((E.flatMap fun x => edgeChain key D.dh D.dw (tm x) x.2).map _) = _
      rw [List.map_flatMap, xorAll_flatMap]
      exact xorAll_congr fun x hx => edgeChain_readout H (hE' x hx) (tm x)
    have e2 : readoutFlipped key (takePlace T (faultsOf cls.code key q.lat.name D.dh D.dw 0 l)) = readoutFlipped key F := by
      have e3 : readoutFlipped key (E.map (edgeMisread T)) = false := by
        refine xorAll_eq_false fun b hb => ?_
        obtain ⟨f, hf, rfl⟩ := List.mem_map.1 hb
        obtain ⟨x, -, rfl⟩ := List.mem_map.1 hf
        cases key <;> rfl
      refine (xorAll_perm (hf.map _)).trans ?_
      show readoutFlipped key (E.map (edgeMisread T) ++ F) = _
      rw [readoutFlipped_append, e3, Bool.false_xor]
    rw [readoutFlipped_append, e1, e2]
  have hrr' : RoundsRead key D.dh D.dw (fun r c => xorAll (E.map fun x => x.1 && decide ((r, c) = x.2))) (C ++ F) rounds := by
    refine ⟨hrr.1, fun t' k s p' hs hk => ?_⟩
    have ht' := (List.getElem?_eq_some_iff.1 hs).1
    have hz : SiteOf D.dh D.dw key p' := site_mem_iff.2 (List.mem_of_getElem? hk)
    rw [hrr.2 t' k s p' hs hk]
    show (false ^^ xorAll _) = (xorAll _ ^^ xorAll _)
    rw [Bool.false_xor, xorAll_perm (hf.map _), List.map_append, List.map_append, xorAll_append, xorAll_append, ← Bool.xor_assoc]
    congr 1
    rw [List.map_flatMap, xorAll_flatMap, ← xorAll_map_xor, List.map_map]
    refine xorAll_congr fun x hx => ?_
    rw [edgeChain_affects H (hE' x hx) hz]
    show Fault.affects t' p'.1 p'.2 (.meas (if x.1 then -1 else T - 1) x.2.1 x.2.2) =
      ((x.1 && decide (p' = x.2)) ^^ (decide ((if x.1 then (0 : Int) else T - 1) < t') && decide (p' = x.2)))
    rw [meas_affects]
    obtain ⟨b, p⟩ := x
    cases b
    · show (decide (p' = p) && decide ((t' : Int) = T - 1 + 1)) = ((false && _) ^^ (decide ((T : Int) - 1 < t') && decide (p' = p)))
      rw [Bool.false_and, Bool.false_xor, Bool.and_comm, show decide ((t' : Int) = T - 1 + 1) = decide ((T : Int) - 1 < t') from
        decide_eq_decide.2 (by omega)]
    · show (decide (p' = p) && decide ((t' : Int) = -1 + 1)) = ((true && decide (p' = p)) ^^ (decide ((0 : Int) < t') && decide (p' = p)))
      rw [show decide ((t' : Int) = -1 + 1) = !decide ((0 : Int) < t') by rw [← decide_not]; exact decide_eq_decide.2 (by omega)]
      generalize decide (p' = p) = a, decide ((0 : Int) < t') = b
      revert a b
      decide
  have := C32_strings_single D hD key g hg H hbig m hm T hDT _ hcor _ _ hlen hrr'
    (decide ((l.map Prod.fst).count (flipGate key) % 2 = 1) ^^ xorAll (E.map fun x => nearReadout key D.dh D.dw x.2))
  rw [hro, ← Bool.xor_assoc, Bool.xor_assoc (decide _), Bool.xor_self, Bool.xor_false] at this
  rw [hgr]
  exact this

/-- The fourth plaquette of a 3 × 5 lattice, (3, -1) in doubled coordinates, is nearer to the lower edge, the first one to the upper edge. -/
example : ZSite 3 5 3 (-1) ∧ nearReadout .Z 3 5 (3, -1) = false ∧ ZSite 3 5 1 1 ∧ nearReadout .Z 3 5 (1, 1) = true := by decide

/-- Misreading the fourth plaquette in the last of two rounds does no harm, misreading the first one does. -/
example : ∃ q w, AfterAlone .xxzz q 3 5 [] w ∧ ∃ D m s',
    Run (fun _ => 0) (noisyAll q [(.resetZ, noErrs), (.stabilize, noErrs), (.id, onlyOn (synQ .Z q.lat.name 3) (true, false)), (.stabilize, noErrs),
      (.readoutZ none, noErrs)] w) ⟨ground, fun _ => false⟩ s' ∧
    correctString D m (joinSp (groups s'.mem (q.ops [.resetZ, .stabilize, .id, .stabilize, .readoutZ none] w).circ.cregs))
      .Z none = .ok (some 0) := by
  obtain ⟨q, w, A, hn⟩ := afterAlone_exists (dh := 3) (dw := 5) .xxzz "a".toList (by unfold OddPos; decide) (by simp) []
  obtain ⟨D, sx, sz, h, h1, h2, h3, h4, h5, h6, h7⟩ := demo_decoder
  obtain ⟨m, hm⟩ := contract_exists
  obtain ⟨s', hs'⟩ := noisy_exists (sz := fun _ => 0) A.after ⟨ground, fun _ => false⟩ ground_ne_zero
    (l := [(.resetZ, noErrs), (.stabilize, noErrs), (.id, onlyOn (synQ .Z q.lat.name 3) (true, false)), (.stabilize, noErrs),
      (.readoutZ none, noErrs)])
  refine ⟨q, w, A, D, m, s', hs', C132_logical (T := 1) (key := .Z) (t := 0) (p := (3, -1))
    (l := [(.stabilize, noErrs), (.id, onlyOn (synQ .Z q.lat.name 3) (true, false)), (.stabilize, noErrs)]) A
    (fun o h => absurd h List.not_mem_nil) rfl (by decide) (Or.inl (by decide)) ?_ (by decide) rfl h h1 h2 h5 (by rw [h3]; decide) hm
    (by decide) (by decide) (show ZSite 3 5 3 (-1) by decide) ?_ (s := ⟨ground, fun _ => false⟩) ground_ne_zero ground_synZero hs'⟩
  · intro a ha
    simp only [List.mem_cons, List.not_mem_nil, or_false] at ha
    rcases ha with rfl | rfl | rfl <;> trivial
  · rw [hn]
    decide +kernel

example : ∃ q w, AfterAlone .xxzz q 3 5 [] w ∧ ∃ D m s',
    Run (fun _ => 0) (noisyAll q [(.resetZ, noErrs), (.stabilize, noErrs), (.id, onlyOn (synQ .Z q.lat.name 0) (true, false)), (.stabilize, noErrs),
      (.readoutZ none, noErrs)] w) ⟨ground, fun _ => false⟩ s' ∧
    correctString D m (joinSp (groups s'.mem (q.ops [.resetZ, .stabilize, .id, .stabilize, .readoutZ none] w).circ.cregs))
      .Z none = .ok (some 1) := by
  obtain ⟨q, w, A, hn⟩ := afterAlone_exists (dh := 3) (dw := 5) .xxzz "a".toList (by unfold OddPos; decide) (by simp) []
  obtain ⟨D, sx, sz, h, h1, h2, h3, h4, h5, h6, h7⟩ := demo_decoder
  obtain ⟨m, hm⟩ := contract_exists
  obtain ⟨s', hs'⟩ := noisy_exists (sz := fun _ => 0) A.after ⟨ground, fun _ => false⟩ ground_ne_zero
    (l := [(.resetZ, noErrs), (.stabilize, noErrs), (.id, onlyOn (synQ .Z q.lat.name 0) (true, false)), (.stabilize, noErrs),
      (.readoutZ none, noErrs)])
  refine ⟨q, w, A, D, m, s', hs', C132_logical (T := 1) (key := .Z) (t := 0) (p := (1, 1))
    (l := [(.stabilize, noErrs), (.id, onlyOn (synQ .Z q.lat.name 0) (true, false)), (.stabilize, noErrs)]) A
    (fun o h => absurd h List.not_mem_nil) rfl (by decide) (Or.inl (by decide)) ?_ (by decide) rfl h h1 h2 h5 (by rw [h3]; decide) hm
    (by decide) (by decide) (show ZSite 3 5 1 1 by decide) ?_ (s := ⟨ground, fun _ => false⟩) ground_ne_zero ground_synZero hs'⟩
  · intro a ha
    simp only [List.mem_cons, List.not_mem_nil, or_false] at ha
    rcases ha with rfl | rfl | rfl <;> trivial
  · rw [hn]
    decide +kernel

/-- If all data qubits are read out, misreading the first plaquette in the last round does no harm. -/
example : ∃ q w, AfterAlone .xzzx q 3 5 [] w ∧ ∃ D m s',
    Run (fun _ => 0) (noisyAll q [(.resetZ, noErrs), (.stabilize, noErrs), (.id, onlyOn (synQ .Z q.lat.name 0) (true, false)), (.stabilize, noErrs),
      (.latticeReadoutZ, noErrs)] w) ⟨ground, fun _ => false⟩ s' ∧
    correctString D m (joinSp (groups s'.mem (q.ops [.resetZ, .stabilize, .id, .stabilize, .latticeReadoutZ] w).circ.cregs))
      .Z none = .ok (some 0) := by
  obtain ⟨q, w, A, hn⟩ := afterAlone_exists (dh := 3) (dw := 5) .xzzx "a".toList (by unfold OddPos; decide) (by simp) []
  obtain ⟨D, sx, sz, h, h1, h2, h3, h4, h5, h6, h7⟩ := demo_decoder
  obtain ⟨m, hm⟩ := contract_exists
  obtain ⟨s', hs'⟩ := noisy_exists (sz := fun _ => 0) A.after ⟨ground, fun _ => false⟩ ground_ne_zero
    (l := [(.resetZ, noErrs), (.stabilize, noErrs), (.id, onlyOn (synQ .Z q.lat.name 0) (true, false)), (.stabilize, noErrs),
      (.latticeReadoutZ, noErrs)])
  refine ⟨q, w, A, D, m, s', hs', C132_lattice (T := 1) (t := 0) (p := (1, 1))
    (l := [(.stabilize, noErrs), (.id, onlyOn (synQ .Z q.lat.name 0) (true, false)), (.stabilize, noErrs)]) A
    (fun o h => absurd h List.not_mem_nil) rfl (by decide) ?_ rfl h h1 h2 h5 (by rw [h3]; decide) hm
    (by decide) (by decide) (show ZSite 3 5 1 1 by decide) ?_ (s := ⟨ground, fun _ => false⟩) ground_ne_zero ground_synZero hs'⟩
  · intro a ha
    simp only [List.mem_cons, List.not_mem_nil, or_false] at ha
    rcases ha with rfl | rfl | rfl <;> trivial
  · rw [hn]
    decide +kernel

/-- Two stabilizers next to the left edge of a 3 × 5 lattice are misread in the first of two rounds before X is measured: together they do no harm. -/
example : ∃ q w, AfterAlone .xxzz q 3 5 [] w ∧ ∃ D m s',
    Run (fun _ => 0) (noisyAll q [(.resetX, noErrs), (.id, onlyOn (synQ .X q.lat.name 0) (true, false)), (.id, onlyOn (synQ .X q.lat.name 4) (true, false)),
      (.stabilize, noErrs), (.stabilize, noErrs), (.readoutX none, noErrs)] w) ⟨ground, fun _ => false⟩ s' ∧
    correctString D m (joinSp (groups s'.mem (q.ops [.resetX, .id, .id, .stabilize, .stabilize, .readoutX none] w).circ.cregs))
      .X none = .ok (some 0) := by
  obtain ⟨q, w, A, hn⟩ := afterAlone_exists (dh := 3) (dw := 5) .xxzz "a".toList (by unfold OddPos; decide) (by simp) []
  obtain ⟨D, sx, sz, h, h1, h2, h3, h4, h5, h6, h7⟩ := demo_decoder
  obtain ⟨m, hm⟩ := contract_exists
  obtain ⟨s', hs'⟩ := noisy_exists (sz := fun _ => 0) A.after ⟨ground, fun _ => false⟩ ground_ne_zero
    (l := [(.resetX, noErrs), (.id, onlyOn (synQ .X q.lat.name 0) (true, false)), (.id, onlyOn (synQ .X q.lat.name 4) (true, false)),
      (.stabilize, noErrs), (.stabilize, noErrs), (.readoutX none, noErrs)])
  refine ⟨q, w, A, D, m, s', hs', C132_several (T := 1) (key := .X) (E := [(true, -1, 1), (true, 3, 1)]) (F := [])
    (l := [(.id, onlyOn (synQ .X q.lat.name 0) (true, false)), (.id, onlyOn (synQ .X q.lat.name 4) (true, false)), (.stabilize, noErrs),
      (.stabilize, noErrs)]) A
    (fun o h => absurd h List.not_mem_nil) rfl (by decide) (Or.inl (by decide)) ?_ (by decide) rfl h h1 h2 h4 (by rw [h3]; decide) hm
    (fun x hx => ?_) (fun f hf => absurd hf List.not_mem_nil) ?_ (by decide) (s := ⟨ground, fun _ => false⟩) ground_ne_zero ground_synZero hs'⟩
  · intro a ha
    simp only [List.mem_cons, List.not_mem_nil, or_false] at ha
    rcases ha with rfl | rfl | rfl | rfl <;> trivial
  · show XSite 3 5 x.2.1 x.2.2
    revert x
    decide
  · rw [hn]
    decide +kernel

end Qtc
