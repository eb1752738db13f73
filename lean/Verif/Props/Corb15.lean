import Verif.Props.Corb7
import Verif.Props.Corb14

/-! # C143-C145: examples -/

namespace Fruits

namespace Demo

/-- The hypotheses of `C144_groups`. -/
example := C144_groups (K := K) (w := ext.2.2) (i₁ := 1) (i₂ := 4) (source := .all) (a := ext.2.1) (nbins := 50) (by decide)
  (l₁ := "INC | [1] | END!-1![, ]".toList) (l₂ := "[1] | END!-1![, ]".toList) (x := [4, 0, 4, 0]) (y := [7, 1, 7, 1]) (by decide +kernel)
  (by decide +kernel) (by decide)

/-- The hypotheses of `C145_scores`: classifiers that score the sum of column `t` of the test features. -/
example := C145_scores (T := ℕ) (R := ℚ) (fun t _ _ G _ => .ok (G.map fun r => r.getD t 0).sum) none (a := ext.2.1) (by decide +kernel) (cases := [1, 4])
  (by decide) (fun t => if t = 1 then 4 else 8) (by decide +kernel)

end Demo

end Fruits
