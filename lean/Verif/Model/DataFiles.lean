import Verif.Model.Benchmark
import Verif.Model.Params
/-!
Several benchmarks in one directory: the names of their data files, what their calls do to the files, and the plots of a batch analysis;
/repo/qtcodes/tools/benchmarking.py. A benchmark refers to its decoder's dictionary of parameters, which it reads again for every save.
Simplifications as in `Model/Benchmark.lean`; dictionaries whose size is not a pair of integers are not saved (the code saves them, but
`load_data` needs a pair); the text of a `float` is a parameter.
-/
namespace Qtc

/-- `str(n)` of an `int`. -/
def decStr : Int → Str
  | .ofNat k => Nat.toDigits 10 k
  | .negSucc k => '-' :: Nat.toDigits 10 (k + 1)

/-- `str(x)` of a number. -/
def numStr (fstr : Rat → Str) : Num → Str
  | .int n => decStr n
  | .flt q => fstr q

/-- `", ".join(l)`. -/
def joinComma : List Str → Str
  | [] => []
  | [x] => x
  | x :: y :: l => x ++ ',' :: ' ' :: joinComma (y :: l)

/-- `str(params["d"])`; a tuple with one element is written with a comma. -/
def sizeStr (fstr : Rat → Str) : DVal → Str
  | .num n => numStr fstr n
  | .tup [x] => '(' :: numStr fstr x ++ [',', ')']
  | .tup l => '(' :: joinComma (l.map (numStr fstr)) ++ [')']
  | .lst l => '[' :: joinComma (l.map (numStr fstr)) ++ [']']
  | .str s => s
  | .other => "None".toList

/-- `f"d_{self.decoder.params['d']}_T_{self.decoder.params['T']}.npz"`, /repo/qtcodes/tools/benchmarking.py:33: `KeyError` if one is
missing. -/
def fileName (fstr : Rat → Str) (p : Params) : Py Str :=
  match p.d, p.T with
  | some d, some T => .ok ("d_".toList ++ sizeStr fstr d ++ "_T_".toList ++ decStr T ++ ".npz".toList)
  | _, _ => .error .keyError

/-- What `append_data` saves of the size, /repo/qtcodes/tools/benchmarking.py:212-213. -/
def savedSize (p : Params) : Py ((Int × Int) × Int) :=
  match p.d, p.T with
  | some (.tup [.int a, .int b]), some T => .ok ((a, b), T)
  | some (.lst [.int a, .int b]), some T => .ok ((a, b), T)
  | none, _ => .error .keyError
  | _, none => .error .keyError
  | _, _ => .error .typeError

/-- A `TopologicalBenchmark`: its file name, the reference to the dictionary of its decoder, and the rest as in `Benchmark`. -/
structure BenchObj where
  name : Str
  pref : Nat
  dec : DecodeFn
  correct : Int
  execute : Option (Nat → ℝ → Py Counts)

/-- `TopologicalBenchmark.__init__`, /repo/qtcodes/tools/benchmarking.py:24-40. -/
def newBench (fstr : Rat → Str) (heap : Nat → Params) (pref : Nat) (dec : DecodeFn) (correct : Int)
    (execute : Option (Nat → ℝ → Py Counts)) : Py BenchObj := do
  let name ← fileName fstr (heap pref)
  return ⟨name, pref, dec, correct, execute⟩

/-- Dictionaries, files, and the data and number of executions of every benchmark. -/
structure Desk where
  heap : Nat → Params
  files : Str → DataFile
  phys : Nat → List ℝ
  logical : Nat → List ℚ
  runs : Nat → Nat

/-- What a user does: calls of benchmark number `i`, and changes of a dictionary. -/
inductive DeskAct where
  | sweep (i : Nat) (rates : Option (List ℝ)) (save deg : Bool)
  | single (i : Nat) (r : ℝ) (save : Bool)
  | change (ref : Nat) (p : Params)

/-- The benchmark a call is of. -/
def DeskAct.of : DeskAct → Option Nat
  | .sweep i .. => some i
  | .single i .. => some i
  | .change .. => none

/-- A call of benchmark `i`, /repo/qtcodes/tools/benchmarking.py:67-127 and 163-197: it sees its own data and its own file. For a dictionary
without a size nothing is said (here: nothing happens). -/
noncomputable def Desk.call (S : Desk) (b : BenchObj) (i : Nat) (f : Benchmark → BenchState → BenchState) : Desk :=
  match savedSize (S.heap b.pref) with
  | .error _ => S
  | .ok s =>
    let st := f ⟨b.dec, b.correct, s.1, s.2, b.execute⟩ ⟨S.phys i, S.logical i, S.files b.name, S.runs i⟩
    { S with
      files := fun x => if x = b.name then st.file else S.files x
      phys := fun j => if j = i then st.phys else S.phys j
      logical := fun j => if j = i then st.logical else S.logical j
      runs := fun j => if j = i then st.runs else S.runs j }

/-- One action. After an exception the user goes on with what is left. -/
noncomputable def Desk.act (argsort : ArgSort) (objs : Nat → BenchObj) (S : Desk) : DeskAct → Desk
  | .sweep i rates save deg => S.call (objs i) i fun B st => (B.sweep argsort rates save deg st).2
  | .single i r save => S.call (objs i) i fun B st => (B.single argsort r save st).2
  | .change ref p => { S with heap := fun x => if x = ref then p else S.heap x }

noncomputable def Desk.acts (argsort : ArgSort) (objs : Nat → BenchObj) (S : Desk) (l : List DeskAct) : Desk :=
  l.foldl (Desk.act argsort objs) S

/-! ### Plots -/

/-- `TopologicalAnalysis.plot`, /repo/qtcodes/tools/benchmarking.py:234-249: the points of the curve; `ZeroDivisionError` does not happen,
numpy divides by 0 with a warning (here excluded: the rates per round are only asked for with `T ≠ 0`). -/
def Analysis.curve (a : Analysis) (perRound : Bool) : List (ℝ × ℚ) :=
  a.phys.zip (a.logical.map fun l => l / (if perRound then (a.T : ℚ) else 1))

/-- A figure of `TopologicalBatchAnalysis.plot`: curves with their labels, the break-even line, and whether the axes are logarithmic. -/
structure Figure where
  curves : List (((Int × Int) × Int) × List (ℝ × ℚ))
  breakeven : List (ℝ × ℝ)
  log : Bool

/-- `TopologicalBatchAnalysis.plot`, /repo/qtcodes/tools/benchmarking.py:270-300: the figures that are saved. `self.analyses[0]` raises
`IndexError` if there are none. -/
def batchPlot (l : List Analysis) : Py (List Figure) :=
  [true, false].mapM fun log =>
    match l with
    | [] => .error .indexError
    | a :: _ => .ok ⟨l.map fun a => ((a.d, a.T), a.curve false), a.phys.map fun x => (x, x), log⟩

end Qtc
