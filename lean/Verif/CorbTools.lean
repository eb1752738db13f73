import Verif.Fruit

/-!
# Model of `experiments/corbeille/corbeille/tools.py` and `fruitalyser.py`

`split_index`, the callback that saves intermediate results and the class `Fruitalyser`.  Arrays are values: the callback keeps
references to arrays that nothing changes afterwards.  Timings, printing and the drawing itself are left out; `plot` is modelled
as the lines it hands to matplotlib and the title.  Classifier and postprocessing are arbitrary functions.
-/

namespace Fruits
set_option linter.unusedSectionVars false
variable {R P I W S V : Type} [Field R] [LinearOrder R] [FloorRing R]

/-! ### split_index -/

/-- One of the nested loops of `split_index`, tools.py 30-51: the body is run for every element; it ends with the result of
`return` (left) or with the new value of `index` (right). -/
def forReturn {α β : Type} (body : α → ℤ → Except Err (β ⊕ ℤ)) : List α → ℤ → Except Err (β ⊕ ℤ)
  | [], index => .ok (.inr index)
  | a :: as, index => do
    match ← body a index with
    | .inl b => pure (.inl b)
    | .inr index => forReturn body as index

/-- tools.py 32-34, 39-41, 47-51: `if index == 0: return path`, `index -= 1`. -/
def countDown (path : List ℕ) (index : ℤ) : Except Err (List ℕ ⊕ ℤ) :=
  if index = 0 then .ok (.inl path) else .ok (.inr (index - 1))

/-- tools.py 37-38, 44-45: `range(np.prod([iss.n_iterated_sums() for iss in slc.get_iss()]))`; the product of an empty list is the float
1.0, for which `range` raises. -/
def wordRange (K : Sem R P I W S V) (w : World R P I W S) (s : ℕ) : Except Err (List ℕ) := do
  let ns ← (w.slice s).iss.mapM fun a => K.issCount (w.issAt a).1 (w.issAt a).2
  if ns = [] then .error .typeError else .ok (List.range ns.prod)

/-- tools.py 8-52 `split_index`.  `enumerate(fruit)` walks through the slices in order. -/
def splitIndex (K : Sem R P I W S V) (w : World R P I W S) (f : ℕ) (index : ℤ) (level : Level) : Except Err (List ℕ) := do
  let r ← match level with
    | .prepared => forReturn (fun i index => countDown [i] index) (List.range (w.fruit f).slices.length) index
    | .iterated => forReturn (fun slc index => do
        let words ← wordRange K w slc.1
        forReturn (fun word index => countDown [slc.2, word] index) words index) (w.fruit f).slices.zipIdx index
    | .features => forReturn (fun slc index => do
        let words ← wordRange K w slc.1
        forReturn (fun word index =>
          forReturn (fun sieve index =>
            forReturn (fun feature index => countDown [slc.2, word, sieve.2, feature] index)
              (List.range (K.sieveN (w.sieve sieve.1)).toNat) index)
            (w.slice slc.1).sieves.zipIdx index) words index) (w.fruit f).slices.zipIdx index
  match r with
  | .inl path => pure path
  | .inr _ => .error .valueError

/-! ### The callback that saves intermediate results -/

/-- `l[i]` for a Python integer `i`. -/
def pyAt {α : Type} (l : List α) (i : ℤ) : Except Err α :=
  if 0 ≤ i then (match l[i.toNat]? with | some a => .ok a | none => .error .indexError)
  else if 0 ≤ (l.length : ℤ) + i then (match l[((l.length : ℤ) + i).toNat]? with | some a => .ok a | none => .error .indexError)
  else .error .indexError

/-- fruitalyser.py 75-90 `_TransformationCallback.__init__`: `none` where nothing is saved. -/
structure Saved (R V : Type) where
  slc : ℤ := -1
  prepared : Option (List (Data R))
  iterated : Option (List (List (List (List R))))
  sieved : Option (List (List (List V)))

/-- fruitalyser.py 75-90: a new callback. -/
def Saved.new (prepared iterated sieved : Bool) : Saved R V :=
  { prepared := if prepared then some [] else none
    iterated := if iterated then some [] else none
    sieved := if sieved then some [] else none }

/-- fruitalyser.py 110-126: the methods of the callback. -/
def Saved.on (c : Saved R V) : Event R V → Except Err (Saved R V)
  | .nextSlice => .ok { c with
      slc := c.slc + 1
      iterated := c.iterated.map fun l => if c.slc + 1 ≤ (l.length : ℤ) then l ++ [[]] else l }
  | .preparationEnd X => .ok { c with prepared := c.prepared.map fun l => l ++ [X] }
  | .iteratedSum X =>
    match c.iterated with
    | none => .ok c
    | some l => do
      let row ← pyAt l c.slc
      pure { c with iterated := some (l.set (if 0 ≤ c.slc then c.slc else (l.length : ℤ) + c.slc).toNat (row ++ [X])) }
  | .sievingEnd X => .ok { c with sieved := c.sieved.map fun l => l ++ [X] }
  | .preparateur _ => .ok c
  | .sieve _ => .ok c

/-- The callback after a sequence of calls of its methods. -/
def Saved.after (c : Saved R V) (es : List (Event R V)) : Except Err (Saved R V) := es.foldlM Saved.on c

/-! ### Fruitalyser -/

/-- fruitalyser.py 139-147 `Fruitalyser.__init__`: the fruit, the data and the attributes set later. -/
structure Analyser (R V : Type) where
  fruit : ℕ
  Xtrain : Data R
  ytrain : List ℤ
  Xtest : Data R
  ytest : List ℤ
  extracted : Bool := false
  trainFeat : Option (List (List V)) := none
  testFeat : Option (List (List V)) := none
  saved : Option (Saved R V) := none

/-- An object with `fit_transform` and `transform`: what `fit_transform` returns, and how `transform` works afterwards. -/
abbrev Postprocess (V : Type) := List (List V) → Except Err (List (List V) × (List (List V) → Except Err (List (List V))))

/-- fruitalyser.py 183-184, 193-194: `if postprocess: … fit_transform`; without it nothing is changed.  The object is assumed to be truthy
(the first test is `if postprocess`, the second one `is not None`). -/
def runPost (post : Option (Postprocess V)) (F : List (List V)) :
    Except Err (List (List V) × (List (List V) → Except Err (List (List V)))) :=
  match post with
  | none => .ok (F, Except.ok)
  | some q => q F

/-- fruitalyser.py 149-199 `Fruitalyser.transform_all`.  The attributes that were set before an exception keep their new values.
An exception of the callback would end `transform`. -/
def transformAll (K : Sem R P I W S V) (ρ : ℕ → Rng R) (post : Option (Postprocess V)) (prepared iterated sieved : Bool)
    (a : Analyser R V) (w : World R P I W S) : Except Err Unit × Analyser R V × World R P I W S :=
  let a := { a with saved := some (Saved.new prepared iterated sieved) }
  match fruitFit K ρ a.fruit a.Xtrain a.Xtrain w with
  | (.error e, w) => (.error e, a, w)
  | (.ok (), w) =>
    match (fruitTransform K w 0 a.fruit a.Xtrain a.Xtrain).1 with
    | .error e => (.error e, a, w)
    | .ok F =>
      let a := { a with trainFeat := some F }
      match runPost post F with
      | .error e => (.error e, a, w)
      | .ok (F', q') =>
        let a := { a with trainFeat := some F' }
        let r := fruitTransform K w 1 a.fruit a.Xtest a.Xtest
        match (Saved.new prepared iterated sieved).after ((r.2.filter fun p => p.1 = 0).map Prod.snd) with
        | .error e => (.error e, a, w)
        | .ok c =>
          let a := { a with saved := some c }
          match r.1 with
          | .error e => (.error e, a, w)
          | .ok G =>
            let a := { a with testFeat := some G }
            match q' G with
            | .error e => (.error e, a, w)
            | .ok G' => (.ok (), { a with testFeat := some G', extracted := true }, w)

/-- `features[:, indices]`. -/
def selectCols (F : List (List V)) (indices : List ℤ) : Except Err (List (List V)) := F.mapM fun r => indices.mapM (pyAt r)

/-- An attribute that may not be set. -/
def attr {α : Type} : Option α → Except Err α
  | none => .error .attributeError
  | some a => .ok a

/-- fruitalyser.py 201-242 `Fruitalyser.classify`; `classifier` stands for `fit` followed by `score`. -/
def classify (classifier : List (List V) → List ℤ → List (List V) → List ℤ → Except Err R) (indices : Option (List ℤ))
    (a : Analyser R V) : Except Err R :=
  if a.extracted then do
    let F ← attr a.trainFeat
    let G ← attr a.testFeat
    match indices with
    | none => classifier F a.ytrain G a.ytest
    | some is => do
      let F' ← selectCols F is
      let G' ← selectCols G is
      classifier F' a.ytrain G' a.ytest
  else .error .runtimeError

/-- fruitalyser.py 471: the option `source`. -/
inductive Source
  | train | test | all
  deriving DecidableEq

/-- fruitalyser.py 480-487: the feature matrix of the source; `np.r_` puts the rows of the test set under those of the training
set and raises if the numbers of columns differ. -/
def sourceFeatures (a : Analyser R V) : Source → Except Err (List (List V))
  | .train => attr a.trainFeat
  | .test => attr a.testFeat
  | .all => do
    let F ← attr a.trainFeat
    let G ← attr a.testFeat
    if (F.getD 0 []).length = (G.getD 0 []).length then .ok (F ++ G) else .error .valueError

/-- fruitalyser.py 468-497 `Fruitalyser.features`: the columns of the table with their names. -/
def featureTable (K : Sem R P I W S V) (w : World R P I W S) (indices : Option (List ℤ)) (source : Source) (a : Analyser R V) :
    Except Err (List (PStr × List V)) := do
  let is ← match indices with
    | some is => .ok is
    | none => do
      let n ← fruitN K w a.fruit
      pure ((List.range n.toNat).map (Nat.cast : ℕ → ℤ))
  let F ← sourceFeatures a source
  is.mapM fun index => do
    let col ← F.mapM fun r => pyAt r index
    let name ← fruitLabel K w true .features a.fruit index
    pure (name, col)

/-- fruitalyser.py 560-565: the targets of the rows of the table. -/
def sourceTargets (a : Analyser R V) : Source → List ℤ
  | .train => a.ytrain
  | .test => a.ytest
  | .all => a.ytrain ++ a.ytest

/-! ### Plots -/

/-- A line of a plot: its series, the number of its class if it has a label or colour of its own, and the bounds around it. -/
structure Line (R : Type) where
  cls : Option ℕ
  series : List R
  bounds : Option (List R × List R) := none
  deriving DecidableEq

/-- The mean over the rows. -/
def meanRow (rows : List (List R)) : List R :=
  tab (rows.getD 0 []).length fun t => (rows.map fun r => r.getD t 0).sum / (rows.length : R)

/-- The largest (or smallest) value of each column. -/
def foldRow (op : R → R → R) (rows : List (List R)) : List R :=
  tab (rows.getD 0 []).length fun t => (rows.drop 1).foldl (fun acc r => op acc (r.getD t 0)) ((rows.getD 0 []).getD t 0)

/-- fruitalyser.py 312: `sorted(list(set(y)))`. -/
def sortedClasses (y : List ℤ) : List ℤ := y.dedup.mergeSort (· ≤ ·)

/-- `X[y == c]`. -/
def rowsOfClass {α : Type} (X : List α) (y : List ℤ) (c : ℤ) : List α := ((X.zip y).filter fun p => p.2 = c).map Prod.fst

/-- fruitalyser.py 302-338 `Fruitalyser._plot`: the lines that are drawn, in order. -/
def plotLines (mean bounds : Bool) (nseries : ℕ) (perClass : Bool) (X : List (List R)) (y : List ℤ) : Except Err (List (Line R)) :=
  if mean then
    .ok ((sortedClasses y).zipIdx.map fun c =>
      let rows := rowsOfClass X y c.1
      ⟨some c.2, meanRow rows, if bounds then some (foldRow max rows, foldRow min rows) else none⟩)
  else if perClass then do
    let ls ← (sortedClasses y).zipIdx.mapM fun c => (List.range nseries).mapM fun (j : ℕ) => do
      let x ← pyAt (rowsOfClass X y c.1) (j : ℤ)
      pure (⟨some c.2, x, none⟩ : Line R)
    pure ls.flatten
  else (List.range nseries).mapM fun (j : ℕ) => do
    let x ← pyAt X (j : ℤ)
    pure ⟨none, x, none⟩

/-- fruitalyser.py 371: what is plotted. -/
inductive PlotLevel
  | input | prepared | iterated
  deriving DecidableEq

/-- The property of the callback: `RuntimeError` if nothing was saved, fruitalyser.py 92-108. -/
def savedOr {α : Type} : Option α → Except Err α
  | none => .error .runtimeError
  | some a => .ok a

/-- fruitalyser.py 414-454: the series shown by `plot`. -/
def plotData (K : Sem R P I W S V) (w : World R P I W S) (level : PlotLevel) (index : Option ℤ) (dim : ℕ) (a : Analyser R V) :
    Except Err (List (List R)) :=
  match level with
  | .input => a.Xtest.mapM fun Z => pyAt Z (dim : ℤ)
  | .prepared => do
    let c ← attr a.saved
    let l ← savedOr c.prepared
    let X ← pyAt l (index.getD 0)
    X.mapM fun Z => pyAt Z (dim : ℤ)
  | .iterated => do
    let path ← splitIndex K w a.fruit (index.getD 0) .iterated
    let c ← attr a.saved
    let l ← savedOr c.iterated
    let row ← pyAt l ((path.getD 0 0 : ℕ) : ℤ)
    pyAt row ((path.getD 1 0 : ℕ) : ℤ)

/-- fruitalyser.py 456-462: the title. -/
def plotTitle (K : Sem R P I W S V) (w : World R P I W S) (level : PlotLevel) (index : Option ℤ) (a : Analyser R V) : Except Err PStr :=
  match level with
  | .input => .ok "Input Data".toList
  | .prepared => fruitLabel K w true .prepared a.fruit (index.getD 0)
  | .iterated => fruitLabel K w true .iterated a.fruit (index.getD 0)

/-- fruitalyser.py 369-466 `Fruitalyser.plot`: the lines and the title. -/
def plot (K : Sem R P I W S V) (w : World R P I W S) (level : PlotLevel) (index : Option ℤ) (dim : ℕ) (mean bounds : Bool) (nseries : ℕ)
    (perClass : Bool) (a : Analyser R V) : Except Err (List (Line R) × PStr) := do
  let X ← plotData K w level index dim a
  let ls ← plotLines mean bounds nseries perClass X a.ytest
  let title ← plotTitle K w level index a
  pure (ls, title)

end Fruits
