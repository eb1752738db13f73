import Verif.Props.Demo3
import Verif.Props.Demo4
import Verif.Props.Series2

/-! # The concrete histories: series are independent (property C97) -/

namespace Fruits
namespace Demo

/-- The hypotheses of `C97_library` hold: two slices with preparateur, ISS and sieves, and two series. -/
example : ∀ i < X.length, (fruitTransform K w 0 0 [X.getD i []] [X.getD i []]).1 = .ok [A.getD i []] :=
  (C97_library lib (by decide +kernel) 2 0 (HasShape.uni (m := 2) (d := 1) (n := 3) (by simp [X, HasShape])) (by
    show (fruitTransform K w 2 0 X X).1 = _
    rw [transform_eq])).2

end Demo
end Fruits
