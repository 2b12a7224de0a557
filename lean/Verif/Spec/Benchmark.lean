import Verif.Model.Benchmark
/-!
Specification vocabulary for benchmark data.
-/
namespace Qtc.Spec

/-- What `np.argsort` guarantees: a permutation of the indices that lists the values in ascending order. -/
def SortsIndices (argsort : ArgSort) : Prop := ∀ l : List ℝ, (argsort l).Perm (List.range l.length) ∧
  (argsort l).Pairwise fun i j => ∀ x y, l[i]? = some x → l[j]? = some y → x ≤ y

/-- The number of shots of a dictionary of counts. -/
def shots (c : Counts) : Int := (c.map (·.2)).sum

/-- The number of shots whose readout satisfies `P`. -/
def shotsWhere (P : Str → Bool) (c : Counts) : Int := ((c.filter fun q => P q.1).map (·.2)).sum

/-- The count of a string (0 if it does not occur). -/
def countOf (c : Counts) (s : Str) : Int := (c.lookup s).getD 0

/-- The file holds exactly the pairs `pts` (in some order), sorted by physical rate, together with size and `T`. -/
def FileHolds (f : DataFile) (d : Int × Int) (T : Int) (pts : List (ℝ × ℚ)) : Prop :=
  ∃ phys logical, f = .saved d T phys logical ∧ phys.length = logical.length ∧ phys.Pairwise (· ≤ ·) ∧
    (phys.zip logical).Perm pts

end Qtc.Spec
