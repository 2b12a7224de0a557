import Mathlib.Data.Rat.Floor
import Verif.Model.Params
namespace Qtc

theorem toInt_flt_nonneg (q : Rat) (h : 0 ≤ q) : (Num.flt q).toInt = ⌊q⌋ := by
  have hn : 0 ≤ q.num := Rat.num_nonneg.2 h
  rw [Rat.floor_def']
  show q.num.tdiv q.den = q.num / q.den
  exact Int.tdiv_eq_ediv_of_nonneg hn

theorem toInt_flt_neg (q : Rat) : (Num.flt (-q)).toInt = - (Num.flt q).toInt := by
  show (-q).num.tdiv (-q).den = - (q.num.tdiv q.den)
  rw [Rat.neg_num, Rat.neg_den, Int.neg_tdiv]

end Qtc
