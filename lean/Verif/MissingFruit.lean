import Verif.MissingPrep

/-!
# A fitted fruit on datasets with missing values

`Fruit.transform` with the models of preparateurs, iterated sums and sieves on numbers and `nan` (`Verif.MissingPrep`, `Verif.Missing`,
`Verif.MissingSieve`).

Simplifications: a slice has one `ISS` with simple words, whose weights (if any) depend on the time step only (no weighting or `Indices`); the features of
the sieves are put side by side instead of being written to an array of zeros; callbacks are left out.
-/

namespace Fruits
set_option linter.unusedSectionVars false

namespace Mv
variable {R : Type} [Field R] [LinearOrder R] [FloorRing R]

/-- A simple word in a calculation: its letters, its weights `alpha` and the number of prefixes that are returned (`iss.py:21-67`). -/
structure MWord (R : Type) where
  els : List (List ℤ)
  alpha : List R
  ext : ℕ

/-- A fitted slice (`fruit.py:308-322`): its preparateurs, its words with the semiring, and for each iterated sum its fitted sieves. -/
structure MSlice (R : Type) where
  preps : List (MPrep R)
  kind : SemiringKind
  words : List (MWord R)
  total : Bool := false
  weights : ℕ → R
  sieves : List (List (MSieve R))

/-- `fruit.py:525-528`. -/
def prepare [NpMath R] (C : Data (Mv R)) : List (MPrep R) → Data (Mv R) → Except Err (Data (Mv R))
  | [], X => .ok X
  | p :: ps, X => do
    let Y ← p.transformC C X
    prepare C ps Y

/-- Prefix number `r` of the word: an array of shape `(n_series, length)` (`iss.py:21-67`, `semiring.py:88-140`). -/
def itsum (expf : R → R) (s : MSlice R) (X : Data (Mv R)) (w : MWord R) (r : ℕ) : List (List (Mv R)) :=
  tab2 X.length (shape2 X) fun i t =>
    ((fastSum expf s.kind (X.getD i []) w.els w.alpha (tab (shape2 X) s.weights) w.ext s.total).getD r []).getD t 0

/-- All iterated sums of the slice, in order (`fruit.py:538`, `iss.py:152-185`). -/
def itsums (expf : R → R) (s : MSlice R) (X : Data (Mv R)) : List (List (List (Mv R))) :=
  s.words.flatMap fun w => (List.range w.ext).map (itsum expf s X w)

/-- New columns to the right: `sieved_data[:, k:k+nf] = A` (`fruit.py:547`). -/
def hcat (D A : List (List (Mv R))) : Except Err (List (List (Mv R))) :=
  if A.length = D.length then .ok (List.zipWith (· ++ ·) D A) else .error .valueError

/-- `fruit.py:544-550`: the sieves applied to one iterated sum. -/
def sieveAll (C : Data (Mv R)) (it : List (List (Mv R))) : List (MSieve R) → List (List (Mv R)) → Except Err (List (List (Mv R)))
  | [], D => .ok D
  | s :: ss, D => do
    let A ← s.transformC C it
    let D' ← hcat D A
    sieveAll C it ss D'

/-- `fruit.py:538-550`: the loop over the iterated sums. -/
def sieveItems (C : Data (Mv R)) : List (List (MSieve R)) → List (List (List (Mv R))) → List (List (Mv R)) → Except Err (List (List (Mv R)))
  | _, [], D => .ok D
  | [], _ :: _, _ => .error .indexError
  | ss :: sss, it :: its, D => do
    let D' ← sieveAll C it ss D
    sieveItems C sss its D'

/-- `FruitSlice.transform`, `fruit.py:498-553`, for a fitted slice; `C` is the input of the shared cache. -/
def MSlice.transform [NpMath R] (expf : R → R) (C : Data (Mv R)) (s : MSlice R) (X : Data (Mv R)) : Except Err (List (List (Mv R))) := do
  let Y ← prepare C s.preps X
  sieveItems C s.sieves (itsums expf s Y) (List.replicate Y.length [])

/-- The loop over the slices, `fruit.py:166-171`. -/
def slicesAll [NpMath R] (expf : R → R) (X : Data (Mv R)) : List (MSlice R) → List (List (Mv R)) → Except Err (List (List (Mv R)))
  | [], D => .ok D
  | s :: ss, D => do
    let A ← s.transform expf X X
    let D' ← hcat D A
    slicesAll expf X ss D'

/-- `np.nan_to_num(result, copy=False, nan=0.0)`, `fruit.py:172`, without infinities. -/
def nanToNum : Mv R → R
  | num x => x
  | nan => 0

/-- `Fruit.transform`, `fruit.py:138-173`, for a fitted fruit with these slices. -/
def fruitFeatures [NpMath R] (expf : R → R) (ss : List (MSlice R)) (X : Data (Mv R)) : Except Err (List (List R)) := do
  let D ← slicesAll expf X ss (List.replicate X.length [])
  pure (D.map (List.map nanToNum))

end Mv

end Fruits
