import Verif.Word
import Verif.CachePlan
import Verif.Arr

/-! # Model of `fruits/iss/iss.py` and `Semiring.iterated_sums`

A dataset is a list of series, each a list of dimensions, each a list of values:
`numpy` shape `(n_series, n_dims, length)`. -/

namespace Fruits
variable {R : Type}

/-- A numpy array: all series have `D` dimensions and length `n`. -/
def IsData (X : Data R) (D n : ℕ) : Prop := ∀ Z ∈ X, Z.length = D ∧ Rect Z n

/-- A weighting (weighting.py 16-40): the flag `total` and `get_lookup`, a function of the dataset (one
lookup row per series).  The concrete weightings are in `Verif.Weighting`. -/
structure Weighting (R : Type) where
  total : Bool
  lookup : Data R → List (List R)
  name : PStr := []

/-- semiring.py 14-41 `Semiring.iterated_sums`; result shape `(n_series, rows, length)`.  For the built-in
semirings the `NotImplementedError` branch is never taken.  A general `Word` ignores the weighting, as in the
code. -/
def iteratedSums [Field R] [LinearOrder R] [FloorRing R] (expf : R → R) (k : SemiringKind)
    (X : Data R) (word : IWord R) (extended : ℕ) (weighting : Option (Weighting R)) : Data R :=
  match word with
  | .simple w =>
    let alpha := match weighting with
      | some _ => w.getAlpha
      | none => zeros w.els.length
    let lookup := match weighting with
      | some wt => wt.lookup X
      | none => X.map (fun Z => zeros (ncols Z))
    let total := match weighting with
      | some wt => wt.total
      | none => true
    X.mapIdx (fun j Z => fastSingle expf k Z w.els alpha (lookup.getD j []) extended total)
  | .general w => X.map (fun Z => slowSingle k Z (w.els.map ELetter.bound) extended)

/-- `np.swapaxes(A, 0, 1)` for an array with `rows` entries on axis 1. -/
def swapAxes (rows : ℕ) (A : Data R) : Data R := tab rows (fun r => A.map (fun a => a.getD r []))

/-- Number of rows a semiring returns for one word. -/
def rowsOf (k : SemiringKind) (word : IWord R) (extended : ℕ) : ℕ :=
  match k, word with
  | .arcticArgmax, .simple w => triIndex w.els.length
  | _, _ => extended

/-- `results[index:index+m, :, :] = rows`: numpy requires `m` rows, or one row which is broadcast. -/
def setRows (results : Data R) (index m : ℕ) (rows : Data R) : Except Err (Data R) :=
  if rows.length = m then .ok (results.take index ++ rows ++ results.drop (index + m))
  else match rows with
    | [r] => .ok (results.take index ++ List.replicate m r ++ results.drop (index + m))
    | _ => .error .valueError

/-- Mode of an ISS, iss.py 14-18. -/
inductive ISSMode
  | single | extended
  deriving DecidableEq, Repr

/-- iss.py 95-109 `ISS.__init__`: configuration (the cache plan is computed from `words`). -/
structure ISSConf (R : Type) where
  words : List (IWord R)
  mode : ISSMode
  semiring : SemiringKind
  weighting : Option (Weighting R)

/-- iss.py 105-107: `CachePlan(words if mode == EXTENDED else [])`. -/
def ISSConf.plan (c : ISSConf R) : List ℕ :=
  match c.mode with
  | .extended => cachePlan (c.words.map IWord.str)
  | .single => []

/-- iss.py 52-53: depth passed to the semiring for word `i`. -/
def ISSConf.depth (c : ISSConf R) (i : ℕ) : ℕ :=
  match c.mode with
  | .single => 1
  | .extended => c.plan.getD i 0

/-- iss.py 51-55: `n_itsum_word`. -/
def ISSConf.nWord (c : ISSConf R) (i : ℕ) (word : IWord R) : ℕ :=
  match c.semiring with
  | .arcticArgmax => triIndex word.len
  | _ => c.depth i

/-- iss.py 34-46: number of result rows of the batch `words[i:i+b]`. -/
def ISSConf.nBatch (c : ISSConf R) (i b : ℕ) : Except Err ℕ :=
  match c.semiring, c.mode with
  | .arcticArgmax, .single => .error .notImplementedError
  | .arcticArgmax, .extended => .ok (((c.words.drop i).take b).map (fun w => triIndex w.len)).sum
  | _, .extended => .ok (planCountRange c.plan i b)
  | _, .single => .ok b

/-- iss.py 50-65: the loop over the words of one batch; state `(i, index, results)`. -/
def ISSConf.batchLoop [Field R] [LinearOrder R] [FloorRing R] (expf : R → R) (c : ISSConf R)
    (X : Data R) : List (IWord R) → ℕ → ℕ → Data R → Except Err (Data R)
  | [], _, _, results => .ok results
  | word :: ws, i, index, results => do
    let rows := swapAxes (rowsOf c.semiring word (c.depth i))
      (iteratedSums expf c.semiring X word (c.depth i) c.weighting)
    let results ← setRows results index (c.nWord i word) rows
    c.batchLoop expf X ws (i + 1) (index + c.nWord i word) results

/-- iss.py 33-67: one iteration of the `while` loop: the batch starting at word `i`. -/
def ISSConf.batch [Field R] [LinearOrder R] [FloorRing R] (expf : R → R) (c : ISSConf R)
    (X : Data R) (i b : ℕ) : Except Err (Data R) := do
  let m ← c.nBatch i b
  c.batchLoop expf X ((c.words.drop i).take b) i 0
    (List.replicate m (X.map (fun Z => zeros (ncols Z))))

/-- iss.py 21-67 `_calculate_ISS`: the list of yielded arrays.  `fuel` bounds the number of loop iterations
(with `batch_size = 0` the Python generator never ends); the flag says whether the generator ended.  An error
stops the generator. -/
def ISSConf.calc [Field R] [LinearOrder R] [FloorRing R] (expf : R → R) (c : ISSConf R) (X : Data R) :
    (fuel i b : ℕ) → Except Err (List (Data R) × Bool)
  | 0, i, _ => .ok ([], decide (¬ i < c.words.length))
  | fuel + 1, i, b =>
    if i < c.words.length then do
      let b := if i + b > c.words.length then c.words.length - i else b
      let r ← c.batch expf X i b
      let (rs, fin) ← c.calc expf X fuel (i + b) b
      return (r :: rs, fin)
    else .ok ([], true)

/-- iss.py 118-134 `ISS._transform`: the first array of the generator with `batch_size=len(words)`. -/
def ISSConf.transform [Field R] [LinearOrder R] [FloorRing R] (expf : R → R) (c : ISSConf R)
    (X : Data R) : Except Err (Data R) :=
  if c.words.length = 0 then .error .stopIteration
  else c.batch expf X 0 c.words.length

/-- iss.py 154-188 `ISS.batch_transform`. -/
def ISSConf.batchTransform [Field R] [LinearOrder R] [FloorRing R] (expf : R → R) (c : ISSConf R)
    (X : Data R) (fuel b : ℕ) : Except Err (List (Data R) × Bool) :=
  if b > c.words.length then .error .valueError else c.calc expf X fuel 0 b

/-- iss.py 136-152 `ISS.n_iterated_sums`. -/
def ISSConf.nIteratedSums (c : ISSConf R) : Except Err ℕ :=
  match c.mode, c.semiring with
  | .extended, .arcticArgmax => .ok ((c.words.map (fun w => triIndex w.len)).sum)
  | .extended, _ => .ok (planCount c.plan)
  | .single, .arcticArgmax => .error .notImplementedError
  | .single, _ => .ok c.words.length

/-- Class name of the semiring. -/
def SemiringKind.className : SemiringKind → PStr
  | .reals => "Reals".toList
  | .arctic | .arcticArgmax => "Arctic".toList
  | .bayesian => "Bayesian".toList

/-- iss.py 197-201: the word string of `ISS._label` for a non-negative index. -/
def ISSConf.labelBase (c : ISSConf R) (index : ℕ) : Except Err PStr :=
  match c.mode with
  | .extended => getWordString c.plan (c.words.map IWord.str) index
  | .single => match c.words[index]? with
    | some w => .ok w.str
    | none => .error .indexError

/-- iss.py 197-205 `ISS._label` for a non-negative index. -/
def ISSConf.label (c : ISSConf R) (index : ℕ) : Except Err PStr := do
  let s ← c.labelBase index
  let s := if c.semiring = .reals then s else s ++ " : ".toList ++ c.semiring.className
  let s := match c.weighting with
    | none => s
    | some wt => s ++ " : ".toList ++ wt.name
  return s

end Fruits
