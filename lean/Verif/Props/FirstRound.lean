import Verif.Proof.Memory
import Verif.Props.EndToEnd
/-!
C104: errors before the first round of stabilization.
-/
namespace Qtc
open Spec Function

variable {cls : QClass} {q : TQubit} {dh dw : Int} {ops : List QOp} {w : World} {sz : Str → Nat} {key : Key} {code : Code} {name : Str}

theorem faultsOf_append (l l' : List (QOp × Errs)) (n : Nat) :
    faultsOf code key name dh dw n (l ++ l') = faultsOf code key name dh dw n l ++ faultsOf code key name dh dw (n + (l.map Prod.fst).count .stabilize) l' := by
  induction l generalizing n with
  | nil => rfl
  | cons a l ih =>
    obtain ⟨o, e⟩ := a
    show faultsIn code key name dh dw (n - 1) o e ++ faultsOf code key name dh dw _ (l ++ l') = (faultsIn code key name dh dw (n - 1) o e ++ _) ++ _
    rw [ih, List.append_assoc]
    congr 3
    rw [List.map_cons, List.count_cons]
    by_cases h : o = .stabilize
    · simp [h]; omega
    · simp [h]

theorem takePlace_append (T : Int) (fs gs : List Fault) : takePlace T (fs ++ gs) = takePlace T fs ++ takePlace T gs := List.filter_append fs gs

theorem faultsOf_early {pre : List (QOp × Errs)} (hp : (pre.map Prod.fst).count .stabilize = 0) :
    ∀ f ∈ faultsOf code key name dh dw 0 pre, Fault.time f = -1 := by
  induction pre with
  | nil => exact fun f hf => absurd hf List.not_mem_nil
  | cons a l ih =>
    obtain ⟨o, e⟩ := a
    rw [List.map_cons, List.count_cons] at hp
    have ho : o ≠ .stabilize := by
      rintro rfl
      simp at hp
    intro f hf
    rcases List.mem_append.1 (show f ∈ faultsIn code key name dh dw ((0 : Nat) - 1) o e ++ faultsOf code key name dh dw (if o = .stabilize then 0 + 1 else 0) l from hf) with h | h
    · exact faultsIn_time f h
    · rw [if_neg ho] at h
      exact ih (by omega) f h

/-- Flips of data qubits before the first round change what is read in all rounds. -/
theorem early_reading {E : List Fault} (hE : ∀ f ∈ E, ∃ r c, f = .data (-1) r c) (t : Nat) (p : Int × Int) :
    reading E t p = reading E 0 p := by
  refine xorAll_congr fun f hf => ?_
  obtain ⟨r, c, rfl⟩ := hE f hf
  unfold Fault.affects
  congr 2

section
variable {pre post : List (QOp × Errs)} {e : Errs}

/-- C104, what is true: errors before the first round that are not misreadings are not noticed. The decoded value is what it would be without
them, flipped if they flip the logical operator: the readout of a logical operator. -/
theorem C104_logical_partial (A : AfterAlone cls q dh dw ops w) (hq : ∀ o ∈ ops, o.quiet = true) (hn : ops.count .stabilize = 0) (hbig : 1 < dh * dw)
    (hc : CanRead cls dh dw key) {e0 e1 : Errs} (hpre : ∀ a ∈ pre, MemoryOp a.1) (hp0 : (pre.map Prod.fst).count .stabilize = 0)
    (hpost : ∀ a ∈ post, MemoryOp a.1) {T : Nat} (hT : (post.map Prod.fst).count .stabilize = T) {D : Decoder} (hD : Made D) (hdh : D.dh = dh)
    (hdw : D.dw = dw) {g : SGraph} (hg : D.S key = some g) (hDT : (T : Int) ≤ D.T) {m : Matcher} (hm : Contract m)
    (hE : ∀ f ∈ faultsOf cls.code key q.lat.name dh dw 0 pre, ∃ t r c, f = .data t r c)
    (hf : Tolerable key dh dw T (takePlace T (faultsOf cls.code key q.lat.name dh dw 1 post))) {s s' : QState} (h0 : s.psi ≠ 0)
    (hs : SynZero q.lat.name dh dw s.psi)
    (hR : Run sz (noisyAll q ((prepOp key, e0) :: (pre ++ (.stabilize, e) :: post) ++ [(readOp key, e1)]) w) s s') :
    correctString D m (joinSp (groups s'.mem (q.ops (prepOp key :: (pre ++ (.stabilize, e) :: post).map Prod.fst ++ [readOp key]) w).circ.cregs))
      (rtypeOf key) none =
      .ok (some (bit (decide (((pre ++ (.stabilize, e) :: post).map Prod.fst).count (flipGate key) % 2 = 1) ^^
        readoutFlipped key (faultsOf cls.code key q.lat.name dh dw 0 pre)))) := by
  have H := A.after.own.2.placed.odd
  obtain ⟨rounds, hlen, hrr, hgr⟩ := endToEnd_strings A hq hn hbig hc (l := pre ++ (.stabilize, e) :: post) (T := T) (by
      intro a ha
      rcases List.mem_append.1 ha with h | h
      · exact hpre a h
      rcases List.mem_cons.1 h with rfl | h
      · trivial
      · exact hpost a h) (by rw [List.map_append, List.map_cons, List.count_append, hp0, List.count_cons, hT]; simp) h0 hs hR
  have hsplit : takePlace T (faultsOf cls.code key q.lat.name dh dw 0 (pre ++ (.stabilize, e) :: post)) =
      faultsOf cls.code key q.lat.name dh dw 0 pre ++ takePlace T (faultsOf cls.code key q.lat.name dh dw 1 post) := by
    rw [faultsOf_append, hp0, takePlace_append]
    congr 1
    refine List.filter_eq_self.2 fun f hf => ?_
    obtain ⟨t, r, c, rfl⟩ := hE f hf
    rfl
  have hE' : ∀ f ∈ faultsOf cls.code key q.lat.name dh dw 0 pre, ∃ r c, f = .data (-1) r c := by
    intro f hf
    obtain ⟨t, r, c, rfl⟩ := hE f hf
    have : t = -1 := faultsOf_early hp0 _ hf
    exact ⟨r, c, by rw [this]⟩
  rw [hsplit] at hrr hgr
  subst hdh hdw
  rw [hgr, readoutFlipped_append, ← Bool.xor_assoc]
  refine C98_strings_single D hD key g hg H hbig m hm T hDT _ hf
    (fun r c => reading (faultsOf cls.code key q.lat.name D.dh D.dw 0 pre) 0 (r, c)) rounds hlen ⟨hrr.1, fun t k s p hs hp => ?_⟩ _
  rw [hrr.2 t k s p hs hp]
  unfold readBit
  rw [List.map_append, xorAll_append, Bool.false_xor]
  congr 1
  exact early_reading hE' t p

/-- The same for the readout of all data qubits. -/
theorem C104_lattice_partial (A : AfterAlone cls q dh dw ops w) (hq : ∀ o ∈ ops, o.quiet = true) (hn : ops.count .stabilize = 0) (hbig : 1 < dh * dw)
    {e0 e1 : Errs} (hpre : ∀ a ∈ pre, MemoryOp a.1) (hp0 : (pre.map Prod.fst).count .stabilize = 0)
    (hpost : ∀ a ∈ post, MemoryOp a.1) {T : Nat} (hT : (post.map Prod.fst).count .stabilize = T) {D : Decoder} (hD : Made D) (hdh : D.dh = dh)
    (hdw : D.dw = dw) {g : SGraph} (hg : D.S .Z = some g) (hDT : (T : Int) + 1 ≤ D.T) {m : Matcher} (hm : Contract m)
    (hE : ∀ f ∈ faultsOf cls.code .Z q.lat.name dh dw 0 pre, ∃ t r c, f = .data t r c)
    (hf : Tolerable .Z dh dw (T + 1) (takePlace T (faultsOf cls.code .Z q.lat.name dh dw 1 post))) {s s' : QState} (h0 : s.psi ≠ 0)
    (hs : SynZero q.lat.name dh dw s.psi)
    (hR : Run sz (noisyAll q ((.resetZ, e0) :: (pre ++ (.stabilize, e) :: post) ++ [(.latticeReadoutZ, e1)]) w) s s') :
    correctString D m (joinSp (groups s'.mem (q.ops (.resetZ :: (pre ++ (.stabilize, e) :: post).map Prod.fst ++ [.latticeReadoutZ]) w).circ.cregs))
      .Z none =
      .ok (some (bit (decide (((pre ++ (.stabilize, e) :: post).map Prod.fst).count .x % 2 = 1) ^^
        readoutFlipped .Z (faultsOf cls.code .Z q.lat.name dh dw 0 pre)))) := by
  have H := A.after.own.2.placed.odd
  have hl : ∀ a ∈ pre ++ (.stabilize, e) :: post, MemoryOp a.1 := by
    intro a ha
    rcases List.mem_append.1 ha with h | h
    · exact hpre a h
    rcases List.mem_cons.1 h with rfl | h
    · trivial
    · exact hpost a h
  have hTl : ((pre ++ (.stabilize, e) :: post).map Prod.fst).count .stabilize = T + 1 := by
    rw [List.map_append, List.map_cons, List.count_append, hp0, List.count_cons, hT]; simp
  have hfs : faultsOf cls.code .Z q.lat.name dh dw 0 (pre ++ (.stabilize, e) :: post) =
      faultsOf cls.code .Z q.lat.name dh dw 0 pre ++ faultsOf cls.code .Z q.lat.name dh dw 1 post := by
    rw [faultsOf_append, hp0]
    rfl
  generalize pre ++ (.stabilize, e) :: post = l at *
  rw [noisyAll_append, Run.append] at hR
  obtain ⟨t, h1, h2⟩ := hR
  have hH := held_run (key := .Z) A.after hbig hn hl h0 hs h1
  rw [hTl] at hH
  have A' := A.all_next (.resetZ :: l.map Prod.fst)
  have hq' : ∀ o ∈ ops ++ .resetZ :: l.map Prod.fst, o.quiet = true := by
    intro o ho
    rcases List.mem_append.1 ho with h | h
    · exact hq o h
    rcases List.mem_cons.1 h with rfl | h
    · rfl
    · obtain ⟨a, ha, rfl⟩ := List.mem_map.1 h
      exact memoryOp_quiet (hl a ha)
  have hcount : (ops ++ .resetZ :: l.map Prod.fst).count .stabilize = T + 1 := by
    rw [List.count_append, hn, List.count_cons, hTl]
    simp
  have h2' : Run sz (withErrors e1 (added q .latticeReadoutZ (q.ops (.resetZ :: l.map Prod.fst) w)) ++ []) t s' := h2
  rw [List.append_nil, noErr_lattice A'.after] at h2'
  have hE' : ∀ f ∈ faultsOf cls.code .Z q.lat.name dh dw 0 pre, ∃ r c, f = .data (-1) r c := by
    intro f hf
    obtain ⟨t, r, c, rfl⟩ := hE f hf
    have : t = -1 := faultsOf_early hp0 _ hf
    exact ⟨r, c, by rw [this]⟩
  have hd : Decided .Z dh dw D.T (takePlace T (faultsOf cls.code .Z q.lat.name dh dw 1 post)) false := by
    subst hdh hdw
    exact tolerable_decided H hDT hf
  have htime := hH.time
  rw [hfs] at hH htime
  have := lattice_reads A' hq' hbig hcount hD hdh hdw hg hDT hm
    (ref := reading (faultsOf cls.code .Z q.lat.name dh dw 0 pre) 0)
    (v' := decide ((l.map Prod.fst).count (flipGate .Z) % 2 = 1) ^^ readoutFlipped .Z (faultsOf cls.code .Z q.lat.name dh dw 0 pre))
    (fs' := takePlace T (faultsOf cls.code .Z q.lat.name dh dw 1 post)) (by
      intro t ht p _
      rw [reading_append, early_reading hE' t, reading_takePlace (by omega)]) (by
      intro p _
      rw [reading_append, ← early_reading hE' ((T + 1) + 1) p]
      congr 1
      rw [← reading_takePlace_end (fun f hf => htime f (List.mem_append_right _ hf))]
      push_cast
      rw [show (T : Int) + 1 - 1 = T by omega]) (by
      rw [readoutFlipped_append, readoutFlipped_takePlace, Bool.xor_assoc]) hf.1 hd hH h2'
  rw [← ops_snoc, Bool.xor_false] at this
  exact this

end

/-! ### One error -/

/-- One error, on qubit `x`. -/
def onlyOn (x : Qubit) (v : Bool × Bool) : Errs := fun y => if y = x then v else (false, false)

theorem turnedBy_none (i : Int) : turnedBy code key i (false, false) = false := by
  unfold turnedBy
  split <;> cases key <;> rfl

theorem only_data (hdh : 0 < dh) (hdw : 0 < dw) {v : Bool × Bool} (hv : turnedBy code key 0 v = true) :
    faultsOf code key name dh dw 0 [(.idData, onlyOn (dataQ name 0) v)] = [.data (-1) 0 0] := by
  show faultsIn code key name dh dw (-1) .idData _ ++ [] = _
  rw [List.append_nil]
  refine List.perm_singleton.1 ((List.perm_ext_iff_of_nodup (faultsIn_nodup hdw) (List.nodup_singleton _)).2 fun f => ?_)
  show f ∈ faultsIn.dataFaults code key name dh dw (-1) _ ↔ _
  rw [mem_dataFaults hdw, List.mem_singleton]
  constructor
  · rintro ⟨r, c, rfl, h1, h2, h3, h4, h5⟩
    have hz : r * dw + c = 0 := by
      by_contra hne
      have hpos : 0 ≤ r * dw + c := by positivity
      rw [onlyOn, if_neg (fun h => hne (dataQ_inj hpos (le_refl 0) h)), turnedBy_none] at h5
      cases h5
    have hr : r = 0 := by
      by_contra hne
      have : dw ≤ r * dw := by nlinarith [show 1 ≤ r by omega]
      omega
    subst hr
    rw [show c = 0 by omega]
  · rintro rfl
    refine ⟨0, 0, rfl, le_refl _, hdh, le_refl _, hdw, ?_⟩
    rw [show (0 : Int) * dw + 0 = 0 by omega, onlyOn, if_pos rfl]
    exact hv

theorem only_syn (hdw : 0 < dw) {k : Nat} {p : Int × Int} (hp : (sitesOf key dh dw)[k]? = some p) {v : Bool × Bool} (hv : v.1 = true) :
    faultsOf code key name dh dw 0 [(.id, onlyOn (synQ key name k) v)] = [.meas (-1) p.1 p.2] := by
  show faultsIn code key name dh dw (-1) .id _ ++ [] = _
  rw [List.append_nil]
  refine List.perm_singleton.1 ((List.perm_ext_iff_of_nodup (faultsIn_nodup hdw) (List.nodup_singleton _)).2 fun f => ?_)
  show f ∈ faultsIn.dataFaults code key name dh dw (-1) _ ++ faultsIn.measFaults key name dh dw (-1) _ ↔ _
  rw [List.mem_append, mem_dataFaults hdw, mem_measFaults, List.mem_singleton]
  have hidx : siteIndex key dh dw p.1 p.2 = k := by
    obtain ⟨h1, h2⟩ := List.getElem?_eq_some_iff.1 hp
    unfold siteIndex
    rw [show (p.1, p.2) = p from rfl, ← h2]
    exact (sitesOf_nodup key dh dw).idxOf_getElem k h1
  constructor
  · rintro (⟨r, c, rfl, h1, h2, h3, h4, h5⟩ | ⟨r2, c2, rfl, h1, h2⟩)
    · rw [onlyOn, if_neg (show dataQ name _ ≠ synQ key name k by cases key; exacts [dataQ_ne_mxQ k _, dataQ_ne_mzQ k _]), turnedBy_none] at h5
      cases h5
    · have hk : siteIndex key dh dw r2 c2 = k := by
        by_contra hne
        rw [onlyOn, if_neg (fun h => hne (synQ_inj h))] at h2
        cases h2
      have hm : (r2, c2) ∈ sitesOf key dh dw := mem_sitesOf.2 h1
      have : (sitesOf key dh dw)[siteIndex key dh dw r2 c2]? = some (r2, c2) :=
        List.getElem?_eq_some_iff.2 ⟨List.idxOf_lt_length_iff.2 hm, List.getElem_idxOf _⟩
      rw [hk, hp, Option.some.injEq] at this
      rw [this]
  · rintro rfl
    refine Or.inr ⟨p.1, p.2, rfl, mem_sitesOf.1 (List.mem_of_getElem? hp), ?_⟩
    rw [hidx, onlyOn, if_pos rfl]
    exact hv

section
variable {post : List (QOp × Errs)} {e : Errs}

/-- C104 is false: a single error of a data qubit between the preparation and the first round makes the decoded value the opposite of the right one,
in every code, size and basis, however many rounds follow. -/
theorem C104_single_flip (A : AfterAlone cls q dh dw ops w) (hq : ∀ o ∈ ops, o.quiet = true) (hn : ops.count .stabilize = 0) (hbig : 1 < dh * dw)
    (hc : CanRead cls dh dw key) {e0 e1 : Errs} {v : Bool × Bool} (hv : turnedBy cls.code key 0 v = true)
    (hpost : ∀ a ∈ post, MemoryOp a.1) {T : Nat} (hT : (post.map Prod.fst).count .stabilize = T) {D : Decoder} (hD : Made D) (hdh : D.dh = dh)
    (hdw : D.dw = dw) {g : SGraph} (hg : D.S key = some g) (hDT : (T : Int) ≤ D.T) {m : Matcher} (hm : Contract m)
    (hf : takePlace T (faultsOf cls.code key q.lat.name dh dw 1 post) = []) {s s' : QState} (h0 : s.psi ≠ 0)
    (hs : SynZero q.lat.name dh dw s.psi)
    (hR : Run sz (noisyAll q ((prepOp key, e0) :: (.idData, onlyOn (dataQ q.lat.name 0) v) :: (.stabilize, e) :: post ++ [(readOp key, e1)]) w) s s') :
    correctString D m (joinSp (groups s'.mem (q.ops (prepOp key :: .idData :: .stabilize :: post.map Prod.fst ++ [readOp key]) w).circ.cregs))
      (rtypeOf key) none = .ok (some (bit (!decide ((post.map Prod.fst).count (flipGate key) % 2 = 1)))) := by
  have H := A.after.own.2.placed.odd
  have hE := only_data (code := cls.code) (key := key) (name := q.lat.name) (dh := dh) (dw := dw) H.1 H.2.2.1 hv
  have := C104_logical_partial (pre := [(.idData, onlyOn (dataQ q.lat.name 0) v)]) (post := post) (e := e) A hq hn hbig hc (e0 := e0) (e1 := e1)
    (by intro a ha; rw [List.mem_singleton.1 ha]; trivial) rfl hpost hT hD hdh hdw hg hDT hm
    (by rw [hE]; intro f hf; exact ⟨_, _, _, List.mem_singleton.1 hf⟩) (by
      rw [hf]
      refine ⟨fun f hf => absurd hf List.not_mem_nil, ?_⟩
      have := H.1
      have := H.2.2.1
      cases key <;> simp [oddLines, distance] <;> omega) h0 hs hR
  rw [hE] at this
  refine Eq.trans this ?_
  have h1 : readoutFlipped key [.data (-1) 0 0] = true := by cases key <;> rfl
  have h2 : (([(QOp.idData, onlyOn (dataQ q.lat.name 0) v)] ++ (QOp.stabilize, e) :: post).map Prod.fst).count (flipGate key) =
      (post.map Prod.fst).count (flipGate key) := by
    cases key <;> simp [flipGate]
  rw [h1, h2, Bool.xor_true]

/-- The check next to the logical operator, on the line where the operator is read. -/
def firstSite : Key → Int × Int
  | .Z => (1, 1)
  | .X => (-1, 1)

/-- C104 is false: a single misreading in the first round makes the decoded value the opposite of the right one. The syndrome qubit of the check is not
0 when the first round starts. -/
theorem C104_single_misread (A : AfterAlone cls q dh dw ops w) (hq : ∀ o ∈ ops, o.quiet = true) (hn : ops.count .stabilize = 0) (hbig : 1 < dh * dw)
    (hc : CanRead cls dh dw key) {e0 e1 : Errs} {k : Nat} (hk : (sitesOf key dh dw)[k]? = some (firstSite key)) {v : Bool × Bool} (hv : v.1 = true)
    (hpost : ∀ a ∈ post, MemoryOp a.1) {T : Nat} (hT0 : 0 < T) (hT : (post.map Prod.fst).count .stabilize = T) {D : Decoder} (hD : Made D) (hdh : D.dh = dh)
    (hdw : D.dw = dw) {g : SGraph} (hg : D.S key = some g) (hDT : (T : Int) ≤ D.T) {m : Matcher} (hm : Contract m)
    (hf : takePlace T (faultsOf cls.code key q.lat.name dh dw 1 post) = []) {s s' : QState} (h0 : s.psi ≠ 0)
    (hs : SynZero q.lat.name dh dw s.psi)
    (hR : Run sz (noisyAll q ((prepOp key, e0) :: (.id, onlyOn (synQ key q.lat.name k) v) :: (.stabilize, e) :: post ++ [(readOp key, e1)]) w) s s') :
    correctString D m (joinSp (groups s'.mem (q.ops (prepOp key :: .id :: .stabilize :: post.map Prod.fst ++ [readOp key]) w).circ.cregs))
      (rtypeOf key) none = .ok (some (bit (!decide ((post.map Prod.fst).count (flipGate key) % 2 = 1)))) := by
  have H := A.after.own.2.placed.odd
  have hE := only_syn (code := cls.code) (key := key) (name := q.lat.name) (dh := dh) (dw := dw) H.2.2.1 hk hv
  obtain ⟨rounds, hlen, hrr, hgr⟩ := endToEnd_strings A hq hn hbig hc (l := (.id, onlyOn (synQ key q.lat.name k) v) :: (.stabilize, e) :: post) (T := T) (by
      intro a ha
      rcases List.mem_cons.1 ha with rfl | h
      · trivial
      rcases List.mem_cons.1 h with rfl | h
      · trivial
      · exact hpost a h) (by rw [List.map_cons, List.map_cons, List.count_cons, List.count_cons, hT]; simp) h0 hs hR
  have hfs : takePlace T (faultsOf cls.code key q.lat.name dh dw 0 ((.id, onlyOn (synQ key q.lat.name k) v) :: (.stabilize, e) :: post)) =
      [.meas (-1) (firstSite key).1 (firstSite key).2] := by
    rw [show (.id, onlyOn (synQ key q.lat.name k) v) :: (.stabilize, e) :: post = [(.id, onlyOn (synQ key q.lat.name k) v)] ++ (.stabilize, e) :: post
      from rfl, faultsOf_append, hE, takePlace_append]
    rw [show takePlace T (faultsOf cls.code key q.lat.name dh dw (0 + _) ((QOp.stabilize, e) :: post)) =
      takePlace T (faultsOf cls.code key q.lat.name dh dw 1 post) from rfl, hf, List.append_nil]
    refine List.filter_eq_self.2 fun f hf => ?_
    rw [List.mem_singleton.1 hf]
    exact decide_eq_true (by omega)
  rw [hfs] at hrr hgr
  subst hdh hdw
  have hsite := mem_sitesOf.1 (List.mem_of_getElem? hk)
  -- the same bits are read if data qubit 0 flips after the first round and the check is not 0
  have hrr' : RoundsRead key D.dh D.dw (fun r c => decide ((r, c) = firstSite key)) [.data 0 0 0] rounds := by
    refine ⟨hrr.1, fun t k s p hs hp => ?_⟩
    rw [hrr.2 t k s p hs hp]
    have hz := mem_sitesOf.1 (List.mem_of_getElem? hp)
    obtain ⟨r2, c2⟩ := p
    have hm : Fault.affects t r2 c2 (.meas (-1) (firstSite key).1 (firstSite key).2) = (decide ((r2, c2) = firstSite key) && decide ((t : Int) = 0)) := by
      rw [Bool.eq_iff_iff]
      cases key <;> simp [Fault.affects, firstSite]
    have hd : Fault.affects t r2 c2 (.data 0 0 0) = (decide ((r2, c2) = firstSite key) && !decide ((t : Int) = 0)) := by
      rw [Bool.eq_iff_iff]
      cases key
      · have hz : XSite D.dh D.dw r2 c2 := hz
        unfold XSite at hz
        simp only [Fault.affects, firstSite, Bool.and_eq_true, Bool.or_eq_true, beq_iff_eq, decide_eq_true_eq, Prod.mk.injEq, Bool.not_eq_true',
          decide_eq_false_iff_not]
        omega
      · have hz : ZSite D.dh D.dw r2 c2 := hz
        unfold ZSite at hz
        simp only [Fault.affects, firstSite, Bool.and_eq_true, Bool.or_eq_true, beq_iff_eq, decide_eq_true_eq, Prod.mk.injEq, Bool.not_eq_true',
          decide_eq_false_iff_not]
        omega
    unfold readBit
    rw [List.map_singleton, List.map_singleton, hm, hd]
    show (false ^^ (_ ^^ false)) = (decide ((r2, c2) = firstSite key) ^^ (_ ^^ false))
    cases decide ((r2, c2) = firstSite key) <;> cases decide ((t : Int) = 0) <;> rfl
  have := C32_strings_single D hD key g hg H hbig m hm T hDT [.data 0 0 0] (by
    refine ⟨?_, ?_⟩
    · intro f hf
      rw [List.mem_singleton.1 hf]
      have := H.1
      have := H.2.2.1
      show _ ∧ _ ∧ _ ∧ _ ∧ _ ∧ _
      omega
    · have H' := H
      unfold OddPos at H'
      cases key
      · have hsite : XSite D.dh D.dw (-1) 1 := hsite
        unfold XSite at hsite
        show (1 : Int) ≤ (D.dw - 1) / 2
        omega
      · have hsite : ZSite D.dh D.dw 1 1 := hsite
        unfold ZSite at hsite
        show (1 : Int) ≤ (D.dh - 1) / 2
        omega) _ _ hlen hrr' (!decide ((post.map Prod.fst).count (flipGate key) % 2 = 1))
  rw [show prepOp key :: .id :: .stabilize :: post.map Prod.fst ++ [readOp key] =
    prepOp key :: ((.id, onlyOn (synQ key q.lat.name k) v) :: (.stabilize, e) :: post).map Prod.fst ++ [readOp key] from rfl, hgr]
  refine Eq.trans ?_ this
  have h2 : (((QOp.id, onlyOn (synQ key q.lat.name k) v) :: (QOp.stabilize, e) :: post).map Prod.fst).count (flipGate key) =
      (post.map Prod.fst).count (flipGate key) := by
    cases key <;> simp [flipGate]
  have h3 : readoutFlipped key [.meas (-1) (firstSite key).1 (firstSite key).2] = false := by cases key <;> rfl
  have h4 : readoutFlipped key [.data 0 0 0] = true := by cases key <;> rfl
  rw [h2, h3, h4, Bool.xor_false, Bool.xor_true, Bool.not_not]

/-- There is such a check in every lattice whose distance is more than 1. -/
theorem C104_site (H : OddPos dh dw) (hd : 1 < distance key dh dw) : ∃ k : Nat, (sitesOf key dh dw)[k]? = some (firstSite key) := by
  have : firstSite key ∈ sitesOf key dh dw := by
    refine mem_sitesOf.2 ?_
    unfold OddPos at H
    cases key
    · show XSite dh dw (-1) 1
      have hd : 1 < dw := hd
      unfold XSite
      omega
    · show ZSite dh dw 1 1
      have hd : 1 < dh := hd
      unfold ZSite
      omega
  obtain ⟨k, h1, h2⟩ := List.mem_iff_getElem.1 this
  exact ⟨k, List.getElem?_eq_some_iff.2 ⟨h1, h2⟩⟩

end

/-- Two rounds on a 3 × 5 XXZZ lattice with an X error of data qubit 0 before the first one: whatever is measured, the decoded value is 1. -/
example : ∃ q w, AfterAlone .xxzz q 3 5 [] w ∧ ∃ D m s',
    Run (fun _ => 0) (noisyAll q [(.resetZ, noErrs), (.idData, onlyOn (dataQ q.lat.name 0) (true, false)), (.stabilize, noErrs), (.stabilize, noErrs),
      (.readoutZ none, noErrs)] w) ⟨ground, fun _ => false⟩ s' ∧
    correctString D m (joinSp (groups s'.mem (q.ops [.resetZ, .idData, .stabilize, .stabilize, .readoutZ none] w).circ.cregs))
      .Z none = .ok (some 1) := by
  obtain ⟨q, w, A, hn⟩ := afterAlone_exists (dh := 3) (dw := 5) .xxzz "a".toList (by unfold OddPos; decide) (by simp) []
  obtain ⟨D, sx, sz, h, h1, h2, h3, h4, h5, h6, h7⟩ := demo_decoder
  obtain ⟨m, hm⟩ := contract_exists
  obtain ⟨s', hs'⟩ := noisy_exists (sz := fun _ => 0) A.after ⟨ground, fun _ => false⟩ ground_ne_zero
    (l := [(.resetZ, noErrs), (.idData, onlyOn (dataQ q.lat.name 0) (true, false)), (.stabilize, noErrs), (.stabilize, noErrs),
      (.readoutZ none, noErrs)])
  refine ⟨q, w, A, D, m, s', hs', C104_single_flip (T := 1) (key := .Z) (post := [(.stabilize, noErrs)]) A
    (fun o h => absurd h List.not_mem_nil) rfl (by decide) (Or.inl (by decide)) rfl ?_ rfl h h1 h2 h5 (by rw [h3]; decide) hm ?_
    (s := ⟨ground, fun _ => false⟩) ground_ne_zero ground_synZero hs'⟩
  · intro a ha
    rw [List.mem_singleton.1 ha]
    trivial
  · rfl

/-- An error of the first Z syndrome qubit before the first of two rounds on a 3 × 5 XZZX lattice. -/
example : ∃ q w, AfterAlone .xzzx q 3 5 [] w ∧ ∃ D m s',
    Run (fun _ => 0) (noisyAll q [(.resetZ, noErrs), (.id, onlyOn (synQ .Z q.lat.name 0) (true, false)), (.stabilize, noErrs), (.stabilize, noErrs),
      (.readoutZ none, noErrs)] w) ⟨ground, fun _ => false⟩ s' ∧
    correctString D m (joinSp (groups s'.mem (q.ops [.resetZ, .id, .stabilize, .stabilize, .readoutZ none] w).circ.cregs))
      .Z none = .ok (some 1) := by
  obtain ⟨q, w, A, hn⟩ := afterAlone_exists (dh := 3) (dw := 5) .xzzx "a".toList (by unfold OddPos; decide) (by simp) []
  obtain ⟨D, sx, sz, h, h1, h2, h3, h4, h5, h6, h7⟩ := demo_decoder
  obtain ⟨m, hm⟩ := contract_exists
  obtain ⟨s', hs'⟩ := noisy_exists (sz := fun _ => 0) A.after ⟨ground, fun _ => false⟩ ground_ne_zero
    (l := [(.resetZ, noErrs), (.id, onlyOn (synQ .Z q.lat.name 0) (true, false)), (.stabilize, noErrs), (.stabilize, noErrs),
      (.readoutZ none, noErrs)])
  refine ⟨q, w, A, D, m, s', hs', C104_single_misread (T := 1) (key := .Z) (k := 0) (post := [(.stabilize, noErrs)]) A
    (fun o h => absurd h List.not_mem_nil) rfl (by decide) (Or.inr (by decide)) (by decide +kernel) rfl ?_ (by decide) rfl h h1 h2 h5 (by rw [h3]; decide) hm ?_
    (s := ⟨ground, fun _ => false⟩) ground_ne_zero ground_synZero hs'⟩
  · intro a ha
    rw [List.mem_singleton.1 ha]
    trivial
  · rfl

/-- Errors before the first round that the first theorem covers. -/
example : ∀ f ∈ faultsOf .xxzz .Z "a".toList 3 5 0 [(.idData, onlyOn (dataQ "a".toList 7) (true, false))], ∃ t r c, f = .data t r c := by
  intro f hf
  refine ⟨-1, 1, 2, ?_⟩
  have : faultsOf .xxzz .Z "a".toList 3 5 0 [(.idData, onlyOn (dataQ "a".toList 7) (true, false))] = [.data (-1) 1 2] := by decide +kernel
  rw [this] at hf
  exact List.mem_singleton.1 hf

end Qtc
