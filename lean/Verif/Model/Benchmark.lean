import Verif.Model.LookUp
import Mathlib.Data.Real.Basic
/-!
Benchmarking and its data files, /repo/qtcodes/tools/benchmarking.py.
Simplifications: floats are exact (physical rates real, logical rates rational, no NaN); the decoder and the simulator are
arbitrary functions; plotting and progress bars are left out; a file is absent, unreadable (truncated, or no such arrays) or
holds the four saved arrays.
-/
namespace Qtc

/-- `decoder.correct_readout(readout, "Z", err_prob=err_prob)` as a function of `readout` and `err_prob`; it may raise or return
`None`. -/
abbrev DecodeFn := Str → Option ℝ → Py (Option Int)

/-- The loop body of `logical_error_rate`, /repo/qtcodes/tools/benchmarking.py:57-63; the state is
`(total_errors, total_count)`. -/
def errStep (dec : DecodeFn) (correct : Int) (ep : Option ℝ) (s : Int × Int) (rc : Str × Int) : Py (Int × Int) := do
  let predicted ← dec rc.1 ep
  return (if predicted ≠ some correct then s.1 + rc.2 else s.1, s.2 + rc.2)

/-- `logical_error_rate`, /repo/qtcodes/tools/benchmarking.py:42-65. -/
def logicalErrorRate (dec : DecodeFn) (correct : Int) (readouts : Counts) (ep : Option ℝ) : Py ℚ := do
  let s ← readouts.foldlM (errStep dec correct ep) (0, 0)
  if s.2 = 0 then .error .zeroDivisionError else .ok ((s.1 : ℚ) / s.2)

/-- The contents of the data file. -/
inductive DataFile where
  | absent
  | unreadable
  | saved (d : Int × Int) (T : Int) (phys : List ℝ) (logical : List ℚ)

/-- `np.argsort` on real numbers: any function that returns a sorting permutation (the default algorithm is not stable). -/
abbrev ArgSort := List ℝ → List Nat

/-- `a[indxs]` for a numpy array: `IndexError` out of range. -/
def takeIdx {α : Type} (a : List α) (indxs : List Nat) : Py (List α) :=
  indxs.mapM fun i => match a[i]? with
    | some x => .ok x
    | none => .error .indexError

/-- The `try … except` of `append_data`, /repo/qtcodes/tools/benchmarking.py:200-206. -/
def loadArrays : DataFile → List ℝ × List ℚ
  | .saved _ _ phys logical => (phys, logical)
  | _ => ([], [])

/-- The arrays `append_data` saves, /repo/qtcodes/tools/benchmarking.py:208-218. -/
def newArrays (argsort : ArgSort) (old : List ℝ × List ℚ) (p : ℝ) (l : ℚ) : Py (List ℝ × List ℚ) := do
  let phys ← takeIdx (old.1 ++ [p]) (argsort (old.1 ++ [p]))
  let logical ← takeIdx (old.2 ++ [l]) (argsort (old.1 ++ [p]))
  return (phys, logical)

/-- `append_data`, /repo/qtcodes/tools/benchmarking.py:199-218, when nothing else touches the file. -/
def appendData (argsort : ArgSort) (d : Int × Int) (T : Int) (f : DataFile) (p : ℝ) (l : ℚ) : Py DataFile := do
  let a ← newArrays argsort (loadArrays f) p l
  return .saved d T a.1 a.2

/-- A `TopologicalBenchmark`, /repo/qtcodes/tools/benchmarking.py:24-40: decoder (with its parameters), expected value, and the
circuit run under the noise model. `execute n r` is the outcome of the `n`-th execution, at noise rate `r` (it may raise);
it is `none` if there is no noise model function. -/
structure Benchmark where
  dec : DecodeFn
  correct : Int
  d : Int × Int
  T : Int
  execute : Option (Nat → ℝ → Py Counts)

/-- The changing state: `self.data`, the data file and the number of executions so far. -/
structure BenchState where
  phys : List ℝ
  logical : List ℚ
  file : DataFile
  runs : Nat

/-- A stateful call: the state after the call, and its result or exception. -/
abbrev BenchM (α : Type) := BenchState → Py α × BenchState

/-- The expected number of an execution at rate `r`: run the circuit and compute the logical error rate,
/repo/qtcodes/tools/benchmarking.py:103-116 and 179-192. Without noise model, calling `None` is a `TypeError`. -/
def Benchmark.measure (B : Benchmark) (n : Nat) (r : ℝ) (ep : Option ℝ) : Py ℚ :=
  match B.execute with
  | none => .error .typeError
  | some ex => do
    let counts ← ex n r
    logicalErrorRate B.dec B.correct counts ep

/-- The loop body of `sweep`, /repo/qtcodes/tools/benchmarking.py:102-120. -/
def Benchmark.sweepStep (B : Benchmark) (argsort : ArgSort) (save deg : Bool) (r : ℝ) : BenchM Unit := fun st =>
  match B.measure st.runs r (if deg then some r else none) with
  | .error e => (.error e, { st with runs := st.runs + 1 })
  | .ok l =>
    let st' : BenchState := { st with phys := st.phys ++ [r], logical := st.logical ++ [l], runs := st.runs + 1 }
    if save then
      match appendData argsort B.d B.T st.file r l with
      | .error e => (.error e, st')
      | .ok f => (.ok (), { st' with file := f })
    else (.ok (), st')

/-- The loop of `sweep`; an exception ends it. -/
def Benchmark.sweepLoop (B : Benchmark) (argsort : ArgSort) (save deg : Bool) : List ℝ → BenchM Unit
  | [], st => (.ok (), st)
  | r :: rs, st =>
    match B.sweepStep argsort save deg r st with
    | (.error e, st') => (.error e, st')
    | (.ok _, st') => B.sweepLoop argsort save deg rs st'

/-- `physical_error_rates if physical_error_rates is not None else [0.04, 0.07, 0.10, 0.13, 0.16]`,
/repo/qtcodes/tools/benchmarking.py:95-97 and 150-152. -/
noncomputable def requestedRates : Option (List ℝ) → List ℝ
  | none => [0.04, 0.07, 0.10, 0.13, 0.16]
  | some l => l

/-- `sorted(l, reverse=True)`, /repo/qtcodes/tools/benchmarking.py:94-99. -/
noncomputable def sortedDesc (l : List ℝ) : List ℝ := open Classical in l.mergeSort (fun a b => decide (b ≤ a))

/-- `sorted(l)`, /repo/qtcodes/tools/benchmarking.py:149-153. -/
noncomputable def sortedAsc (l : List ℝ) : List ℝ := open Classical in l.mergeSort (fun a b => decide (a ≤ b))

/-- The final sort of `sweep`, /repo/qtcodes/tools/benchmarking.py:122-127. -/
def finalSort (argsort : ArgSort) : BenchM Unit := fun st =>
  match takeIdx st.phys (argsort st.phys) with
  | .error e => (.error e, st)
  | .ok phys =>
    match takeIdx st.logical (argsort st.phys) with
    | .error e => (.error e, { st with phys := phys })
    | .ok logical => (.ok (), { st with phys := phys, logical := logical })

/-- `sweep`, /repo/qtcodes/tools/benchmarking.py:67-127. -/
noncomputable def Benchmark.sweep (B : Benchmark) (argsort : ArgSort) (rates : Option (List ℝ)) (save deg : Bool) :
    BenchM Unit := fun st =>
  match B.sweepLoop argsort save deg (sortedDesc (requestedRates rates)) { st with phys := [], logical := [] } with
  | (.error e, st') => (.error e, st')
  | (.ok _, st') => finalSort argsort st'

/-- `single`, /repo/qtcodes/tools/benchmarking.py:163-197. -/
def Benchmark.single (B : Benchmark) (argsort : ArgSort) (r : ℝ) (save : Bool) : BenchM ℚ := fun st =>
  match B.measure st.runs r (some r) with
  | .error e => (.error e, { st with runs := st.runs + 1 })
  | .ok l =>
    if save then
      match appendData argsort B.d B.T st.file r l with
      | .error e => (.error e, { st with runs := st.runs + 1 })
      | .ok f => (.ok l, { st with runs := st.runs + 1, file := f })
    else (.ok l, { st with runs := st.runs + 1 })

/-- `multiprocessing.Pool.map(f, l)` by contract: the function is sent to the workers with `pickle`, and a function defined
inside another function cannot be pickled (`AttributeError`); only for an empty list nothing is sent.
`results` is what the workers would return. -/
def poolMap {α : Type} (picklable : Bool) (l : List ℝ) (results : Py (List α)) : Py (List α) :=
  if l = [] then .ok [] else if picklable then results else .error .attributeError

/-- `sweep_mp`, /repo/qtcodes/tools/benchmarking.py:129-161: the mapped function is a lambda of the method, hence not picklable.
`workers` stands for the (never computed) results. -/
noncomputable def Benchmark.sweepMp (_B : Benchmark) (rates : Option (List ℝ)) (workers : Py (List ℚ)) : BenchM Unit := fun st =>
  match poolMap false (sortedAsc (requestedRates rates)) workers with
  | .error e => (.error e, st)
  | .ok l => (.ok (), { st with phys := sortedAsc (requestedRates rates), logical := l })

/-! ### Several processes and crashes -/

/-- Where a process is inside `append_data(p, l)`: before loading; arrays loaded and sorted; file opened for writing (and
thereby truncated); done. -/
inductive SavePc where
  | start
  | loaded (a : List ℝ × List ℚ)
  | opened (a : List ℝ × List ℚ)
  | done
  | failed

/-- One step of `append_data(p, l)` by one process. `np.savez` truncates the file and then writes it,
/repo/qtcodes/tools/benchmarking.py:200-218. -/
def saveStep (argsort : ArgSort) (d : Int × Int) (T : Int) (p : ℝ) (l : ℚ) (f : DataFile) : SavePc → DataFile × SavePc
  | .start =>
    match newArrays argsort (loadArrays f) p l with
    | .ok a => (f, .loaded a)
    | .error _ => (f, .failed)
  | .loaded a => (.unreadable, .opened a)
  | .opened a => (.saved d T a.1 a.2, .done)
  | .done => (f, .done)
  | .failed => (f, .failed)

/-- A schedule of processes: `sched` lists which process makes the next step; process `i` appends `pt i`. -/
def runSaves (argsort : ArgSort) (d : Int × Int) (T : Int) (pt : Nat → ℝ × ℚ) :
    List Nat → DataFile × (Nat → SavePc) → DataFile × (Nat → SavePc)
  | [], s => s
  | i :: is, (f, pc) =>
    let r := saveStep argsort d T (pt i).1 (pt i).2 f (pc i)
    runSaves argsort d T pt is (r.1, fun j => if j = i then r.2 else pc j)

/-! ### Analyses -/

/-- A loaded `TopologicalAnalysis`. -/
structure Analysis where
  d : Int × Int
  T : Int
  phys : List ℝ
  logical : List ℚ

/-- `load_data`, /repo/qtcodes/tools/benchmarking.py:227-232. -/
def loadData : DataFile → Py Analysis
  | .saved d T phys logical => .ok ⟨d, T, phys, logical⟩
  | _ => .error .osError

/-- `TopologicalBatchAnalysis.__init__`, /repo/qtcodes/tools/benchmarking.py:253-268; `files` are the files `glob` lists, in any
order. -/
def batch (argsort : ArgSort) (files : List DataFile) : Py (List Analysis) := do
  let l ← files.mapM loadData
  takeIdx l (argsort (l.map fun a => (a.d.1 : ℝ)))

end Qtc
