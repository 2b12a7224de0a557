import Verif.Proof.RuleRate
/-!
The computations for lattices of sizes 3 × 3, 3 × 5, 5 × 3 and 5 × 5. (The base of the numbers is not a power of two, since the kernel looks up
numbers by their lowest bits.)
-/
namespace Qtc
open Spec

/-! ### Type Z, 3 × 3 -/

theorem colsZ33 : colsOf .Z 3 3 = [3, 3, 5, 10, 18, 20, 8, 16, 16] := by decide +kernel

theorem certsZ33 : allCerts 2 9 97301 170 4 (tableFrom 170 5 97301 [16, 16, 8, 20, 18, 10, 5, 3, 3] 1) = true := by decide +kernel

theorem checkZ33 : ∀ s < 2 ^ ((sitesOf .Z 3 3).length + 1), Likelier 2 (colsOf .Z 3 3) s := by
  rw [colsZ33, show (sitesOf .Z 3 3).length + 1 = 5 from by decide +kernel]
  exact fun s hs => likelier_of_table (a := 2) (n := 9) (b := 97301) (e := 17) (d := 4) (w := 170)
    (r := [16, 16, 8, 20, 18, 10, 5, 3, 3]) rfl (by decide) (by decide +kernel) (by norm_num) (by norm_num) (by norm_num) (by norm_num) certsZ33 hs

/-! ### Type X, 3 × 3 -/

theorem colsX33 : colsOf .X 3 3 = [3, 6, 4, 9, 12, 4, 9, 24, 16] := by decide +kernel

theorem certsX33 : allCerts 2 9 97301 170 4 (tableFrom 170 5 97301 [16, 24, 9, 4, 12, 9, 4, 6, 3] 1) = true := by decide +kernel

theorem checkX33 : ∀ s < 2 ^ ((sitesOf .X 3 3).length + 1), Likelier 2 (colsOf .X 3 3) s := by
  rw [colsX33, show (sitesOf .X 3 3).length + 1 = 5 from by decide +kernel]
  exact fun s hs => likelier_of_table (a := 2) (n := 9) (b := 97301) (e := 17) (d := 4) (w := 170)
    (r := [16, 24, 9, 4, 12, 9, 4, 6, 3]) rfl (by decide) (by decide +kernel) (by norm_num) (by norm_num) (by norm_num) (by norm_num) certsX33 hs

/-! ### Type Z, 3 × 5 -/

theorem colsZ35 : colsOf .Z 3 5 = [3, 3, 5, 5, 9, 18, 34, 36, 68, 72, 16, 32, 32, 64, 64] := by decide +kernel

theorem certsZ35 : allCerts 9 15 1346460351509 656 6 (tableFrom 656 7 1346460351509 [64, 64, 32, 32, 16, 72, 68, 36, 34, 18, 9, 5, 5, 3, 3] 1) = true := by decide +kernel

theorem checkZ35 : ∀ s < 2 ^ ((sitesOf .Z 3 5).length + 1), Likelier 9 (colsOf .Z 3 5) s := by
  rw [colsZ35, show (sitesOf .Z 3 5).length + 1 = 7 from by decide +kernel]
  exact fun s hs => likelier_of_table (a := 9) (n := 15) (b := 1346460351509) (e := 41) (d := 6) (w := 656)
    (r := [64, 64, 32, 32, 16, 72, 68, 36, 34, 18, 9, 5, 5, 3, 3]) rfl (by decide) (by decide +kernel) (by norm_num) (by norm_num) (by norm_num) (by norm_num) certsZ35 hs

theorem countsZ35 : counts (colsOf .Z 3 5) 61 = [0, 0, 0, 1, 0, 48, 0, 106, 0, 88, 0, 13, 0, 0, 0, 0] ∧
    counts (colsOf .Z 3 5) (61 ^^^ 1) = [0, 0, 0, 0, 13, 0, 88, 0, 106, 0, 48, 0, 1, 0, 0, 0] := by
  rw [colsZ35, counts_of_table (l := [3, 3, 5, 5, 9, 18, 34, 36, 68, 72, 16, 32, 32, 64, 64]) (r := [64, 64, 32, 32, 16, 72, 68, 36, 34, 18, 9, 5, 5, 3, 3]) (b := 1346460351509) (d := 7) (e := 41) (w := 656) rfl (by decide) (by decide +kernel) (by norm_num) (by norm_num) rfl
    (by norm_num), counts_of_table (l := [3, 3, 5, 5, 9, 18, 34, 36, 68, 72, 16, 32, 32, 64, 64]) (r := [64, 64, 32, 32, 16, 72, 68, 36, 34, 18, 9, 5, 5, 3, 3]) (b := 1346460351509) (d := 7) (e := 41) (w := 656) rfl (by decide) (by decide +kernel) (by norm_num)
    (by norm_num) rfl (by decide)]
  decide +kernel

/-! ### Type X, 3 × 5 -/

theorem colsX35 : colsOf .X 3 5 = [3, 10, 12, 20, 16, 33, 40, 72, 80, 16, 33, 160, 192, 320, 256] := by decide +kernel

theorem certsX35 : allCerts 7 15 1346460351509 656 8 (tableFrom 656 9 1346460351509 [256, 320, 192, 160, 33, 16, 80, 72, 40, 33, 16, 20, 12, 10, 3] 1) = true := by decide +kernel

theorem checkX35 : ∀ s < 2 ^ ((sitesOf .X 3 5).length + 1), Likelier 7 (colsOf .X 3 5) s := by
  rw [colsX35, show (sitesOf .X 3 5).length + 1 = 9 from by decide +kernel]
  exact fun s hs => likelier_of_table (a := 7) (n := 15) (b := 1346460351509) (e := 41) (d := 8) (w := 656)
    (r := [256, 320, 192, 160, 33, 16, 80, 72, 40, 33, 16, 20, 12, 10, 3]) rfl (by decide) (by decide +kernel) (by norm_num) (by norm_num) (by norm_num) (by norm_num) certsX35 hs

theorem countsX35 : counts (colsOf .X 3 5) 147 = [0, 0, 0, 1, 0, 13, 0, 27, 0, 15, 0, 8, 0, 0, 0, 0] ∧
    counts (colsOf .X 3 5) (147 ^^^ 1) = [0, 0, 0, 0, 8, 0, 15, 0, 27, 0, 13, 0, 1, 0, 0, 0] := by
  rw [colsX35, counts_of_table (l := [3, 10, 12, 20, 16, 33, 40, 72, 80, 16, 33, 160, 192, 320, 256]) (r := [256, 320, 192, 160, 33, 16, 80, 72, 40, 33, 16, 20, 12, 10, 3]) (b := 1346460351509) (d := 9) (e := 41) (w := 656) rfl (by decide) (by decide +kernel) (by norm_num) (by norm_num) rfl
    (by norm_num), counts_of_table (l := [3, 10, 12, 20, 16, 33, 40, 72, 80, 16, 33, 160, 192, 320, 256]) (r := [256, 320, 192, 160, 33, 16, 80, 72, 40, 33, 16, 20, 12, 10, 3]) (b := 1346460351509) (d := 9) (e := 41) (w := 656) rfl (by decide) (by decide +kernel) (by norm_num)
    (by norm_num) rfl (by decide)]
  decide +kernel

/-! ### Type Z, 5 × 3 -/

theorem colsZ53 : colsOf .Z 5 3 = [3, 3, 5, 10, 18, 20, 40, 48, 80, 160, 288, 320, 128, 256, 256] := by decide +kernel

theorem certsZ53 : allCerts 7 15 1346460351509 656 8 (tableFrom 656 9 1346460351509 [256, 256, 128, 320, 288, 160, 80, 48, 40, 20, 18, 10, 5, 3, 3] 1) = true := by decide +kernel

theorem checkZ53 : ∀ s < 2 ^ ((sitesOf .Z 5 3).length + 1), Likelier 7 (colsOf .Z 5 3) s := by
  rw [colsZ53, show (sitesOf .Z 5 3).length + 1 = 9 from by decide +kernel]
  exact fun s hs => likelier_of_table (a := 7) (n := 15) (b := 1346460351509) (e := 41) (d := 8) (w := 656)
    (r := [256, 256, 128, 320, 288, 160, 80, 48, 40, 20, 18, 10, 5, 3, 3]) rfl (by decide) (by decide +kernel) (by norm_num) (by norm_num) (by norm_num) (by norm_num) certsZ53 hs

theorem countsZ53 : counts (colsOf .Z 5 3) 194 = [0, 0, 0, 1, 0, 13, 0, 27, 0, 15, 0, 8, 0, 0, 0, 0] ∧
    counts (colsOf .Z 5 3) (194 ^^^ 1) = [0, 0, 0, 0, 8, 0, 15, 0, 27, 0, 13, 0, 1, 0, 0, 0] := by
  rw [colsZ53, counts_of_table (l := [3, 3, 5, 10, 18, 20, 40, 48, 80, 160, 288, 320, 128, 256, 256]) (r := [256, 256, 128, 320, 288, 160, 80, 48, 40, 20, 18, 10, 5, 3, 3]) (b := 1346460351509) (d := 9) (e := 41) (w := 656) rfl (by decide) (by decide +kernel) (by norm_num) (by norm_num) rfl
    (by norm_num), counts_of_table (l := [3, 3, 5, 10, 18, 20, 40, 48, 80, 160, 288, 320, 128, 256, 256]) (r := [256, 256, 128, 320, 288, 160, 80, 48, 40, 20, 18, 10, 5, 3, 3]) (b := 1346460351509) (d := 9) (e := 41) (w := 656) rfl (by decide) (by decide +kernel) (by norm_num)
    (by norm_num) rfl (by decide)]
  decide +kernel

/-! ### Type X, 5 × 3 -/

theorem colsX53 : colsOf .X 5 3 = [3, 6, 4, 9, 12, 4, 9, 24, 16, 33, 48, 16, 33, 96, 64] := by decide +kernel

theorem certsX53 : allCerts 9 15 1346460351509 656 6 (tableFrom 656 7 1346460351509 [64, 96, 33, 16, 48, 33, 16, 24, 9, 4, 12, 9, 4, 6, 3] 1) = true := by decide +kernel

theorem checkX53 : ∀ s < 2 ^ ((sitesOf .X 5 3).length + 1), Likelier 9 (colsOf .X 5 3) s := by
  rw [colsX53, show (sitesOf .X 5 3).length + 1 = 7 from by decide +kernel]
  exact fun s hs => likelier_of_table (a := 9) (n := 15) (b := 1346460351509) (e := 41) (d := 6) (w := 656)
    (r := [64, 96, 33, 16, 48, 33, 16, 24, 9, 4, 12, 9, 4, 6, 3]) rfl (by decide) (by decide +kernel) (by norm_num) (by norm_num) (by norm_num) (by norm_num) certsX53 hs

theorem countsX53 : counts (colsOf .X 5 3) 91 = [0, 0, 0, 1, 0, 48, 0, 106, 0, 88, 0, 13, 0, 0, 0, 0] ∧
    counts (colsOf .X 5 3) (91 ^^^ 1) = [0, 0, 0, 0, 13, 0, 88, 0, 106, 0, 48, 0, 1, 0, 0, 0] := by
  rw [colsX53, counts_of_table (l := [3, 6, 4, 9, 12, 4, 9, 24, 16, 33, 48, 16, 33, 96, 64]) (r := [64, 96, 33, 16, 48, 33, 16, 24, 9, 4, 12, 9, 4, 6, 3]) (b := 1346460351509) (d := 7) (e := 41) (w := 656) rfl (by decide) (by decide +kernel) (by norm_num) (by norm_num) rfl
    (by norm_num), counts_of_table (l := [3, 6, 4, 9, 12, 4, 9, 24, 16, 33, 48, 16, 33, 96, 64]) (r := [64, 96, 33, 16, 48, 33, 16, 24, 9, 4, 12, 9, 4, 6, 3]) (b := 1346460351509) (d := 7) (e := 41) (w := 656) rfl (by decide) (by decide +kernel) (by norm_num)
    (by norm_num) rfl (by decide)]
  decide +kernel

/-! ### Type Z, 5 × 5 -/

theorem colsZ55 : colsOf .Z 5 5 = [3, 3, 5, 5, 9, 18, 34, 36, 68, 72, 144, 160, 288, 320, 576, 1152, 2176, 2304, 4352, 4608, 1024, 2048, 2048, 4096, 4096] := by decide +kernel

theorem certsZ55 : allCerts 37 25 1208937220329448497904661 2106 12 (tableFrom 2106 13 1208937220329448497904661 [4096, 4096, 2048, 2048, 1024, 4608, 4352, 2304, 2176, 1152, 576, 320, 288, 160, 144, 72, 68, 36, 34, 18, 9, 5, 5, 3, 3] 1) = true := by decide +kernel

theorem checkZ55 : ∀ s < 2 ^ ((sitesOf .Z 5 5).length + 1), Likelier 37 (colsOf .Z 5 5) s := by
  rw [colsZ55, show (sitesOf .Z 5 5).length + 1 = 13 from by decide +kernel]
  exact fun s hs => likelier_of_table (a := 37) (n := 25) (b := 1208937220329448497904661) (e := 81) (d := 12) (w := 2106)
    (r := [4096, 4096, 2048, 2048, 1024, 4608, 4352, 2304, 2176, 1152, 576, 320, 288, 160, 144, 72, 68, 36, 34, 18, 9, 5, 5, 3, 3]) rfl (by decide) (by decide +kernel) (by norm_num) (by norm_num) (by norm_num) (by norm_num) certsZ55 hs

theorem countsZ55 : counts (colsOf .Z 5 5) 3878 = [0, 0, 0, 0, 0, 1, 0, 122, 0, 567, 0, 1012, 0, 1247, 0, 842, 0, 265, 0, 40, 0, 0, 0, 0, 0, 0] ∧
    counts (colsOf .Z 5 5) (3878 ^^^ 1) = [0, 0, 0, 0, 0, 0, 40, 0, 265, 0, 842, 0, 1247, 0, 1012, 0, 567, 0, 122, 0, 1, 0, 0, 0, 0, 0] := by
  rw [colsZ55, counts_of_table (l := [3, 3, 5, 5, 9, 18, 34, 36, 68, 72, 144, 160, 288, 320, 576, 1152, 2176, 2304, 4352, 4608, 1024, 2048, 2048, 4096, 4096]) (r := [4096, 4096, 2048, 2048, 1024, 4608, 4352, 2304, 2176, 1152, 576, 320, 288, 160, 144, 72, 68, 36, 34, 18, 9, 5, 5, 3, 3]) (b := 1208937220329448497904661) (d := 13) (e := 81) (w := 2106) rfl (by decide) (by decide +kernel) (by norm_num) (by norm_num) rfl
    (by norm_num), counts_of_table (l := [3, 3, 5, 5, 9, 18, 34, 36, 68, 72, 144, 160, 288, 320, 576, 1152, 2176, 2304, 4352, 4608, 1024, 2048, 2048, 4096, 4096]) (r := [4096, 4096, 2048, 2048, 1024, 4608, 4352, 2304, 2176, 1152, 576, 320, 288, 160, 144, 72, 68, 36, 34, 18, 9, 5, 5, 3, 3]) (b := 1208937220329448497904661) (d := 13) (e := 81) (w := 2106) rfl (by decide) (by decide +kernel) (by norm_num)
    (by norm_num) rfl (by decide)]
  decide +kernel

/-! ### Type X, 5 × 5 -/

theorem colsX55 : colsOf .X 5 5 = [3, 10, 12, 20, 16, 33, 40, 72, 80, 16, 33, 160, 192, 320, 256, 513, 640, 1152, 1280, 256, 513, 2560, 3072, 5120, 4096] := by decide +kernel

theorem certsX55 : allCerts 37 25 1208937220329448497904661 2106 12 (tableFrom 2106 13 1208937220329448497904661 [4096, 5120, 3072, 2560, 513, 256, 1280, 1152, 640, 513, 256, 320, 192, 160, 33, 16, 80, 72, 40, 33, 16, 20, 12, 10, 3] 1) = true := by decide +kernel

theorem checkX55 : ∀ s < 2 ^ ((sitesOf .X 5 5).length + 1), Likelier 37 (colsOf .X 5 5) s := by
  rw [colsX55, show (sitesOf .X 5 5).length + 1 = 13 from by decide +kernel]
  exact fun s hs => likelier_of_table (a := 37) (n := 25) (b := 1208937220329448497904661) (e := 81) (d := 12) (w := 2106)
    (r := [4096, 5120, 3072, 2560, 513, 256, 1280, 1152, 640, 513, 256, 320, 192, 160, 33, 16, 80, 72, 40, 33, 16, 20, 12, 10, 3]) rfl (by decide) (by decide +kernel) (by norm_num) (by norm_num) (by norm_num) (by norm_num) certsX55 hs

theorem countsX55 : counts (colsOf .X 5 5) 2547 = [0, 0, 0, 0, 0, 1, 0, 122, 0, 567, 0, 1012, 0, 1247, 0, 842, 0, 265, 0, 40, 0, 0, 0, 0, 0, 0] ∧
    counts (colsOf .X 5 5) (2547 ^^^ 1) = [0, 0, 0, 0, 0, 0, 40, 0, 265, 0, 842, 0, 1247, 0, 1012, 0, 567, 0, 122, 0, 1, 0, 0, 0, 0, 0] := by
  rw [colsX55, counts_of_table (l := [3, 10, 12, 20, 16, 33, 40, 72, 80, 16, 33, 160, 192, 320, 256, 513, 640, 1152, 1280, 256, 513, 2560, 3072, 5120, 4096]) (r := [4096, 5120, 3072, 2560, 513, 256, 1280, 1152, 640, 513, 256, 320, 192, 160, 33, 16, 80, 72, 40, 33, 16, 20, 12, 10, 3]) (b := 1208937220329448497904661) (d := 13) (e := 81) (w := 2106) rfl (by decide) (by decide +kernel) (by norm_num) (by norm_num) rfl
    (by norm_num), counts_of_table (l := [3, 10, 12, 20, 16, 33, 40, 72, 80, 16, 33, 160, 192, 320, 256, 513, 640, 1152, 1280, 256, 513, 2560, 3072, 5120, 4096]) (r := [4096, 5120, 3072, 2560, 513, 256, 1280, 1152, 640, 513, 256, 320, 192, 160, 33, 16, 80, 72, 40, 33, 16, 20, 12, 10, 3]) (b := 1208937220329448497904661) (d := 13) (e := 81) (w := 2106) rfl (by decide) (by decide +kernel) (by norm_num)
    (by norm_num) rfl (by decide)]
  decide +kernel

/-! ### Using them -/

theorem plain_counts {cols c : List Nat} {s : Nat} (h : counts cols s = c) (k : Nat) : plain cols s k = c[k]?.getD 0 := by
  by_cases hk : k < cols.length + 1
  · rw [← h, counts_get cols s k hk]
    rfl
  · rw [plain_large cols s k (by omega), ← h, List.getElem?_eq_none (by rw [counts_length]; omega)]
    rfl

theorem mass_less {cols c c' : List Nat} {s : Nat} (h : counts cols s = c) (h' : counts cols (s ^^^ 1) = c') {p : ℝ} (h1 : p < 1)
    (hd : ev (diff c c') (p / (1 - p)) < 0) : mass cols p s < mass cols p (s ^^^ 1) := by
  have := mass_sub cols h1 s (s ^^^ 1)
  rw [h, h'] at this
  have hq : 0 < (1 - p) ^ cols.length := pow_pos (by linarith) _
  nlinarith [mul_neg_of_pos_of_neg hq hd]

theorem odds_bounds {p : ℝ} {m : ℝ} (hm : 0 < m) (h0 : 1 / (m + 1) ≤ p) (h1 : p < 1 / 2) : 1 ≤ m * (p / (1 - p)) ∧ 0 < p / (1 - p) ∧ p / (1 - p) < 1 := by
  have hp : 0 < p := lt_of_lt_of_le (by positivity) h0
  have hq : 0 < 1 - p := by linarith
  refine ⟨?_, by positivity, by rw [div_lt_one hq]; linarith⟩
  rw [← mul_div_assoc, le_div_iff₀ hq]
  rw [div_le_iff₀ (by positivity)] at h0
  nlinarith

end Qtc
