import Verif.Props.Demo
import Verif.Props.Fruit7

/-! # The concrete history: labels (property C75) -/

namespace Fruits
namespace Demo

/-- The hypotheses of `C75_label_of_column` hold for the history. -/
example : ∃ cols : List Col, ∀ i < X.length, (A.getD i []).length = cols.length ∧ ∀ (c : ℕ) (hc : c < cols.length),
    (A.getD i [])[c]? = (colValue K w X X i cols[c]).map K.post ∧
    fruitLabel K w true .features 0 (c : ℤ) = colLabel K w true cols[c] :=
  C75_label_of_column (builtin_keepsRows lib) (builtin_countsRight lib) (builtin_keepsN lib) hist w0_empty (by decide +kernel)
    positive rfl transform_eq true

/-- The labels of the six columns and what happens outside. -/
example : ((List.range 6).map fun c => (fruitLabel K w true .features 0 (c : ℤ)).toOption) =
    ["INC | [1] | PPV(quantile=[], constant=[False], sample_size=, segments=False)", "INC | [1] | END!-1![, ]",
      "INC | [1][1] | PPV(quantile=[], constant=[False], sample_size=, segments=False)", "INC | [1][1] | END!-1![, ]",
      "[1] | END!-1![, ]", "[1][1] | END!-1![, ]"].map (fun s => some s.toList) ∧
    (fruitLabel K w true .features 0 6).toOption = none ∧ (fruitLabel K w true .features 0 (-1)).toOption = none := by
  decide +kernel

/-- The hypotheses of `C75_label` and `C75_iterated_label` hold for the history: six columns and four iterated sums. -/
example : (∀ s ∈ (w.fruit 0).slices, (w.slice s).iss ≠ []) ∧ ((columns K w 0).toOption.map List.length) = some 6 ∧
    ((items K w 0).toOption) = some [(0, [0]), (0, [1]), (1, [0]), (1, [1])] := by decide +kernel

end Demo
end Fruits
