import Verif.CorbTools
import Verif.CorbLoad

/-!
# Model of `experiments/corbeille/corbeille/fruitifier.py`

Classifiers are arbitrary functions from training features, training classes, test features and test classes to a score (`fit` followed by
`score`; a new `fit` forgets the previous one).  `train_test_split` is an arbitrary function of the number of the call.  Timings are left out.
-/

namespace Fruits
set_option linter.unusedSectionVars false
variable {R P I W S V : Type} [Field R] [LinearOrder R] [FloorRing R]

/-- A classifier: `fit(F, y)` followed by `score(G, z)`. -/
abbrev Classifier (R V : Type) := List (List V) → List ℤ → List (List V) → List ℤ → Except Err R

/-- `np.nan_to_num(x)` for one number, fruitifier.py 55-56. -/
def numOf (big : R) : Fl R → R
  | .finite x => x
  | .nan => 0
  | .posInf => big
  | .negInf => -big

/-- fruitifier.py 64-70: one run, without the timing. -/
def fruitifyOnce (K : Sem R P I W S V) (ρ : ℕ → Rng R) (clf : Classifier R V) (f : ℕ) (Xtrain : Data R) (ytrain : List ℤ) (Xtest : Data R) (ytest : List ℤ)
    (w : World R P I W S) : Except Err R × World R P I W S :=
  match fruitFit K ρ f Xtrain Xtrain w with
  | (.error e, w) => (.error e, w)
  | (.ok (), w) => ((do
      let F ← (fruitTransform K w 0 f Xtrain Xtrain).1
      let G ← (fruitTransform K w 0 f Xtest Xtest).1
      clf F ytrain G ytest), w)

/-- fruitifier.py 62-70: the loop over the runs; the list of the scores. -/
def fruitifyRuns (K : Sem R P I W S V) (ρ : ℕ → Rng R) (clf : Classifier R V) (f : ℕ) (Xtrain : Data R) (ytrain : List ℤ) (Xtest : Data R) (ytest : List ℤ) :
    ℕ → World R P I W S → Except Err (List R) × World R P I W S
  | 0, w => (.ok [], w)
  | n + 1, w =>
    match fruitifyOnce K ρ clf f Xtrain ytrain Xtest ytest w with
    | (.error e, w) => (.error e, w)
    | (.ok a, w) =>
      match fruitifyRuns K ρ clf f Xtrain ytrain Xtest ytest n w with
      | (.error e, w) => (.error e, w)
      | (.ok as, w) => (.ok (a :: as), w)

/-- `np.mean` of numbers; NaN for the empty list. -/
def npMean (l : List R) : Fl R := if l = [] then .nan else .finite (l.sum / (l.length : R))

/-- fruitifier.py 60-72: the second value that `fruitify` returns for a fruit and data without NaN. -/
def fruitify (K : Sem R P I W S V) (ρ : ℕ → Rng R) (clf : Classifier R V) (n f : ℕ) (Xtrain : Data R) (ytrain : List ℤ) (Xtest : Data R) (ytest : List ℤ)
    (w : World R P I W S) : Except Err (Fl R) × World R P I W S :=
  match fruitifyRuns K ρ clf f Xtrain ytrain Xtest ytest n w with
  | (.error e, w) => (.error e, w)
  | (.ok as, w) => (.ok (npMean as), w)

/-- fruitifier.py 22-23: a fruit, or a function that returns one. -/
inductive FruitArg (R P I W S : Type)
  | fruit (f : ℕ)
  | decide (choose : Data R → List ℤ → World R P I W S → Except Err ℕ × World R P I W S)

/-- fruitifier.py 58-59: `if callable(fruit): fruit = fruit(X_train, y_train)`. -/
def FruitArg.get (a : FruitArg R P I W S) (X : Data R) (y : List ℤ) (w : World R P I W S) : Except Err ℕ × World R P I W S :=
  match a with
  | .fruit f => (.ok f, w)
  | .decide choose => choose X y w

/-- fruitifier.py 20-72 `fruitify`. -/
def fruitifyCall (K : Sem R P I W S V) (ρ : ℕ → Rng R) (big : R) (clf : Classifier R V) (n : ℕ) (arg : FruitArg R P I W S) (D : Loaded R)
    (w : World R P I W S) : Except Err (Fl R) × World R P I W S :=
  let Xtrain := mapEntries (numOf big) D.Xtrain
  let Xtest := mapEntries (numOf big) D.Xtest
  match arg.get Xtrain D.ytrain w with
  | (.error e, w) => (.error e, w)
  | (.ok f, w) => fruitify K ρ clf n f Xtrain D.ytrain Xtest D.ytest w

/-! ### decide_which_fruit -/

/-- One of the `choices`: the fruit used in the experiments and the fruit that is returned; they are the same if no tuple is given. -/
structure Choice where
  experiment : ℕ
  final : ℕ

/-- `train_test_split(X, y, test_size=vs, stratify=y)`: `x_train, x_test, y_train, y_test` of the call with this number. -/
abbrev Splitter (R : Type) := ℕ → R → Data R → List ℤ → Except Err (Data R × Data R × List ℤ × List ℤ)

/-- `np.unique(y, return_counts=True)[1]`, fruitifier.py 147. -/
def classCounts (y : List ℤ) : List ℕ := (sortedClasses y).map fun c => y.countP (· = c)

/-- fruitifier.py 153: the size of the validation set. -/
def validationSize (size : R) (y : List ℤ) (m : ℕ) : R := max size (((classCounts y).length : R) / (m : R))

/-- fruitifier.py 157-168: the scores of one choice; `c` is the number of the next call of `train_test_split`. -/
def scoresOf (K : Sem R P I W S V) (ρ : ℕ → Rng R) (clf : Classifier R V) (runs : ℕ) (split : Splitter R) (vs : R) (X : Data R) (y : List ℤ) (f : ℕ) :
    ℕ → ℕ → World R P I W S → Except Err (List (Fl R)) × World R P I W S
  | 0, _, w => (.ok [], w)
  | n + 1, c, w =>
    match split c vs X y with
    | .error e => (.error e, w)
    | .ok (xtrain, xtest, ytrain, ytest) =>
      match fruitify K ρ clf runs f xtrain ytrain xtest ytest w with
      | (.error e, w) => (.error e, w)
      | (.ok a, w) =>
        match scoresOf K ρ clf runs split vs X y f n (c + 1) w with
        | (.error e, w) => (.error e, w)
        | (.ok as, w) => (.ok (a :: as), w)

/-- The finite numbers of a list, if there is nothing else in it. -/
def allFinite : List (Fl R) → Option (List R)
  | [] => some []
  | .finite x :: l => (allFinite l).map (x :: ·)
  | _ :: _ => none

/-- `np.mean` of scores: NaN if the list is empty or has a NaN (infinite scores do not occur). -/
def meanScore (l : List (Fl R)) : Fl R :=
  match allFinite l with
  | some xs => npMean xs
  | none => .nan

/-- fruitifier.py 154-169: the loop over the choices. -/
def accuracies (K : Sem R P I W S V) (ρ : ℕ → Rng R) (clf : Classifier R V) (runs nSplits : ℕ) (split : Splitter R) (vs : R) (X : Data R) (y : List ℤ) :
    List Choice → ℕ → World R P I W S → Except Err (List (Fl R)) × World R P I W S
  | [], _, w => (.ok [], w)
  | ch :: chs, c, w =>
    match scoresOf K ρ clf runs split vs X y ch.experiment nSplits c w with
    | (.error e, w) => (.error e, w)
    | (.ok as, w) =>
      match accuracies K ρ clf runs nSplits split vs X y chs (c + nSplits) w with
      | (.error e, w) => (.error e, w)
      | (.ok bs, w) => (.ok (meanScore as :: bs), w)

/-- `a >= b` for numbers that may be NaN. -/
def flGe : Fl R → Fl R → Bool
  | .finite a, .finite b => b ≤ a
  | _, _ => false

/-- `np.argmax`: the loop over the values after the first; it stops at a NaN. -/
def flArgmaxLoop : List (Fl R) → ℕ → ℕ → Fl R → ℕ
  | [], _, best, _ => best
  | x :: xs, i, best, v => if v = .nan then best else if flGe v x then flArgmaxLoop xs (i + 1) best v else flArgmaxLoop xs (i + 1) i x

/-- `np.argmax`. -/
def npArgmax : List (Fl R) → Except Err ℕ
  | [] => .error .valueError
  | x :: xs => .ok (flArgmaxLoop xs 1 0 x)

/-- fruitifier.py 146-173: the function that `decide_which_fruit` returns. -/
def chooseFruit (K : Sem R P I W S V) (ρ : ℕ → Rng R) (clf : Classifier R V) (runs nSplits : ℕ) (size : R) (split : Splitter R) (choices : List Choice)
    (X : Data R) (y : List ℤ) (w : World R P I W S) : Except Err ℕ × World R P I W S :=
  if 1 ≤ (classCounts y).countP (· = 1) then
    match choices[0]? with
    | none => (.error .indexError, w)
    | some ch => fruitDeepcopy K ch.final w
  else
    match accuracies K ρ clf runs nSplits split (validationSize size y X.length) X y choices 0 w with
    | (.error e, w) => (.error e, w)
    | (.ok as, w) =>
      match npArgmax as with
      | .error e => (.error e, w)
      | .ok k =>
        match choices[k]? with
        | none => (.error .indexError, w)
        | some ch => fruitDeepcopy K ch.final w

/-! ### fruitify_all -/

/-- fruitifier.py 85-91: the name of the result file; `exist` says which files are there, `stamp` is the time. -/
def csvName (exist : PStr → Bool) (stamp : PStr) (output : Option PStr) : PStr :=
  let base := match output with
    | none => "results_fruits".toList
    | some s => if ".csv".toList <:+ s then s.take (s.length - 4) else s
  let base := if exist (base ++ ".csv".toList) then base ++ '_' :: stamp else base
  base ++ ".csv".toList

/-- fruitifier.py 93-104: the loop over the datasets.  The last component lists the contents of the result file after each time it was written. -/
def fruitifyAll (K : Sem R P I W S V) (ρ : ℕ → Rng R) (big : R) (clf : Classifier R V) (n : ℕ) (arg : FruitArg R P I W S) :
    List (PStr × Except FileErr (Loaded R)) → List (PStr × Fl R) → World R P I W S →
      Except FileErr (List (PStr × Fl R)) × List (List (PStr × Fl R)) × World R P I W S
  | [], results, w => (.ok results, [], w)
  | (_, .error e) :: _, _, w => (.error e, [], w)
  | (name, .ok D) :: ds, results, w =>
    match fruitifyCall K ρ big clf n arg D w with
    | (.error e, w) => (.error (.python e), [], w)
    | (.ok a, w) =>
      let r := fruitifyAll K ρ big clf n arg ds (results ++ [(name, a)]) w
      (r.1, (results ++ [(name, a)]) :: r.2.1, r.2.2)

end Fruits
