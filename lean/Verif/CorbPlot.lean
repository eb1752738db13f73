import Verif.CorbTools
import Verif.Np

/-! # Model of `experiments/corbeille/corbeille/fruitalyser.py`: legends, `test_classifier` and `scatter_features` -/

namespace Fruits

variable {R P I W S V T : Type}

/-- fruitalyser.py 318, 331: the legend `f"Class {i+1}"` of a line of the class number `i`. -/
def legendText (i : ℕ) : PStr := "Class ".toList ++ showNat (i + 1)

section
variable [Field R] [LinearOrder R] [FloorRing R]

/-- `np.argmax` of a list: the first position of the largest number; `best` and `v` are those found before position `i`. -/
def bestLoop : List R → ℕ → ℕ → R → ℕ
  | [], _, best, _ => best
  | x :: xs, i, best, v => if v < x then bestLoop xs (i + 1) i x else bestLoop xs (i + 1) best v

/-- `np.argmax`, which raises for an empty array. -/
def bestPos : List R → Except Err ℕ
  | [] => .error .valueError
  | x :: xs => .ok (bestLoop xs 1 0 x)

/-- fruitalyser.py 270-282: the accuracies of the classifiers made for the test cases; `make t` stands for `classifier(**kwargs)` with the
test case `t`, followed by `fit` and `score`.  The features are attributes that may be missing. -/
def caseScores (make : T → List (List V) → List ℤ → List (List V) → List ℤ → Except Err R) (indices : Option (List ℤ)) (a : Analyser R V) :
    List T → Except Err (List R)
  | [] => .ok []
  | t :: ts => do
    let F ← attr a.trainFeat
    let G ← attr a.testFeat
    let s ← match indices with
      | none => make t F a.ytrain G a.ytest
      | some is => do
        let F' ← selectCols F is
        let G' ← selectCols G is
        make t F' a.ytrain G' a.ytest
    let rest ← caseScores make indices a ts
    pure (s :: rest)

/-- fruitalyser.py 244-300 `Fruitalyser.test_classifier`: the points of the line in the plot and the place of the red line.  (`min` and `max`
of the accuracies, lines 287-288, cannot fail once `np.argmax` has not.) -/
def testClassifier (make : T → List (List V) → List ℤ → List (List V) → List ℤ → Except Err R) (cases : List T) (indices : Option (List ℤ))
    (a : Analyser R V) : Except Err (List (T × R) × T) := do
  let acc ← caseScores make indices a cases
  let b ← bestPos acc
  let best ← pyAt cases (b : ℤ)
  pure (cases.zip acc, best)

/-- `np.linspace(lo, hi, num=n)` for `n ≥ 2`. -/
def linspace (lo hi : R) (n : ℕ) : List R := tab n fun k => lo + (k : R) * ((hi - lo) / ((n - 1 : ℕ) : R))

/-- The bars of `hist(xs, bins=edges)`: the values `e_k ≤ x < e_{k+1}`; the last bar includes the last edge. -/
def histCounts (edges xs : List R) : List ℕ :=
  tab (edges.length - 1) fun k => xs.countP fun x =>
    decide (edges.getD k 0 ≤ x ∧ (x < edges.getD (k + 1) 0 ∨ (k + 2 = edges.length ∧ x ≤ edges.getD (k + 1) 0)))

/-- `feat.x.min()`, `feat.x.max()` of a non-empty column. -/
def colMin : List R → R
  | [] => 0
  | x :: xs => xs.foldl min x

@[inherit_doc colMin] def colMax : List R → R
  | [] => 0
  | x :: xs => xs.foldl max x

/-- One group of `scatter_features`: its class, its points, and the bars of both histograms, each with `bottom` (nothing is 0) and height. -/
structure Group (R : Type) where
  label : ℤ
  xs : List R
  ys : List R
  bottomx : Option (List ℕ)
  barsx : List ℕ
  bottomy : Option (List ℕ)
  barsy : List ℕ
  deriving DecidableEq

/-- fruitalyser.py 572-603: the loop over `feat.groupby("target")`, which is in increasing order of the classes.  `hist` returns the heights of
the bars without `bottom`. -/
def scatterLoop (ex ey : List R) (x y : List R) (target : List ℤ) : List ℤ → Option (List ℕ) → Option (List ℕ) → List (Group R)
  | [], _, _ => []
  | c :: cs, lastx, lasty =>
    let gx := rowsOfClass x target c
    let gy := rowsOfClass y target c
    let bx := histCounts ex gx
    let by_ := histCounts ey gy
    ⟨c, gx, gy, lastx, bx, lasty, by_⟩ :: scatterLoop ex ey x y target cs (some bx) (some by_)

/-- fruitalyser.py 526-609 `Fruitalyser.scatter_features` with `axes=None` and `nbins ≥ 2`: the texts on the axes and the groups.  The number
of targets must be the number of rows (pandas raises otherwise), and there is at least one row.  Features are numbers (no NaN). -/
def scatterFeatures (K : Sem R P I W S R) (w : World R P I W S) (index1 index2 : ℤ) (source : Source) (nbins : ℕ) (a : Analyser R R) :
    Except Err (PStr × PStr × List (Group R)) := do
  let feat ← featureTable K w (some [index1, index2]) source a
  match feat with
  | [(l1, x), (l2, y)] =>
    let target := sourceTargets a source
    if target.length = x.length then
      pure (l1, l2, scatterLoop (linspace (colMin x) (colMax x) nbins) (linspace (colMin y) (colMax y) nbins) x y target (sortedClasses target) none none)
    else .error .valueError
  | _ => .error .valueError

end

end Fruits
