import Verif.Missing
import Verif.Sieve

/-!
# Feature sieves on arrays with missing values

The sieves of `Verif.Sieve` on arrays whose entries are numbers or `nan`.  A comparison with `nan` is false, `np.quantile` of an array with `nan`
is `nan`, and `np.sort` puts `nan` behind all numbers.

Simplifications as in `Verif.Missing` and `Verif.Sieve`; moreover the coquantiles are computed without the detour over the text keys of the cache
(`Verif.Cache`).  Infinite entries of the array are not modelled (infinite quantiles are).
-/

namespace Fruits
set_option linter.unusedSectionVars false

namespace Mv

/-- `a < b`; false if one of them is `nan`. -/
def lt {A : Type} [LT A] [DecidableLT A] : Mv A → Mv A → Bool
  | num x, num y => decide (x < y)
  | _, _ => false

/-- `a <= b`; false if one of them is `nan`. -/
def le {A : Type} [LE A] [DecidableLE A] : Mv A → Mv A → Bool
  | num x, num y => decide (x ≤ y)
  | _, _ => false

/-- The number as a value that may be compared with quantiles. -/
def qv {R : Type} : Mv R → Mv (QVal R)
  | num x => num (QVal.of x)
  | nan => nan

/-- The order of `np.sort`: `nan` is behind all numbers (`segment.py:75`). -/
def sortLe {A : Type} [LE A] : Mv A → Mv A → Prop
  | _, nan => True
  | num x, num y => x ≤ y
  | nan, num _ => False

instance {A : Type} [LE A] [DecidableLE A] : DecidableRel (sortLe (A := A)) := fun a b =>
  match a, b with
  | num x, num y => inferInstanceAs (Decidable (x ≤ y))
  | nan, num _ => isFalse not_false
  | num _, nan => isTrue trivial
  | nan, nan => isTrue trivial

/-- The number, if it is one. -/
def get? {R : Type} : Mv R → Option R
  | num x => some x
  | nan => none

variable {R : Type} [Field R] [LinearOrder R] [FloorRing R]

/-- `np.quantile(x, q)` (`segment.py:74`, `implicit.py:109-112`): `nan` if there is a `nan` in the array. -/
def quantile (x : List (Mv R)) (q : R) : Except Err (Mv R) :=
  if nan ∈ x then (if 0 ≤ q ∧ q ≤ 1 then .ok nan else .error .valueError)
  else do
    let v ← Fruits.quantile (x.filterMap get?) q
    pure (num v)

/-- The attributes of a `SegmentSieve` (`segment.py:34-42`); a fitted quantile may be `nan`. -/
structure MSeg (R : Type) where
  cut : List (Cut R) := [.int (-1)]
  q : List R
  norm : Norm := .L2
  quantiles : Option (List (Mv (QVal R))) := none

/-- `SegmentSieve.requires_fitting`, `segment.py:44-49`. -/
def MSeg.requiresFitting (p : MSeg R) : Bool := p.q.any fun q => decide (q ≠ -1 ∧ q ≠ 0 ∧ q ≠ 1)

/-- `cache.py:25-40` `_L1_sum`, `_L2_sum`. -/
def normSum (nm : Norm) (C : Data (Mv R)) : Except Err (List (List (Mv R))) :=
  C.mapM fun s => do
    let y ← increments1 1 (s.getD 0 [])
    pure (cumsum (y.map (lift nm.val)))

/-- `cache.py:16-22` `_coquantile`, one row. -/
def coquantile1 (q : R) (x : List (Mv R)) : ℕ := (x.filter fun v => le v (num q * x.getD (x.length - 1) 0)).length

/-- One column of `new_cuts`, `segment.py:53-62`. -/
def MSeg.cutColumn (C : Data (Mv R)) (p : MSeg R) (m n : ℕ) : Cut R → Except Err (List ℤ)
  | .float f => do
    let s ← normSum p.norm C
    if s.length = m then pure (s.map fun x => (coquantile1 f x : ℤ)) else .error .valueError
  | .int k => .ok (List.replicate m (if k ≥ 0 then k else (n : ℤ) + k + 1))

/-- `SegmentSieve._get_transformed_cuts`, `segment.py:51-64`. -/
def MSeg.cuts (C : Data (Mv R)) (p : MSeg R) (m n : ℕ) : Except Err (List (List ℤ)) := do
  let cols ← p.cut.mapM (p.cutColumn C m n)
  pure ((List.range m).map fun i => ((0 : ℤ) :: cols.map fun c => c.getD i 0).insertionSort (· ≤ ·))

/-- `segment.py:67-73`: the value of one quantile. -/
def quantileValue (entries : List (Mv R)) (q : R) : Except Err (Mv (QVal R)) :=
  if q = 1 then .ok (num ⊤)
  else if q = -1 then .ok (num ⊥)
  else if q ≠ 0 then do
    let v ← quantile entries q
    pure (qv v)
  else .ok (num (QVal.of 0))

/-- `SegmentSieve._fit`, `segment.py:66-75`. -/
def MSeg.fit (p : MSeg R) (X : List (List (Mv R))) : Except Err (MSeg R) := do
  let qs ← p.q.mapM (quantileValue X.flatten)
  pure { p with quantiles := some (qs.insertionSort sortLe) }

/-- The quantiles a `_transform` uses (`segment.py:77-85`, `142-145`). -/
def MSeg.useQuantiles (p : MSeg R) : Except Err (List (Mv (QVal R))) :=
  if p.requiresFitting then
    match p.quantiles with
    | none => .error .attributeError
    | some qs => .ok qs
  else do
    let qs ← p.q.mapM unfittedValue
    pure (qs.map num)

/-- `lo < v <= hi`. -/
def inBand (lo hi : Mv (QVal R)) (v : Mv R) : Bool := lt lo (qv v) && le (qv v) hi

/-- The values `v` with `lo < v <= hi`. -/
def band (lo hi : Mv (QVal R)) (arr : List (Mv R)) : List (Mv R) := arr.filter (inBand lo hi)

/-- `np.max`: raises for an empty array, `nan` if there is one. -/
def maxE : List (Mv R) → Except Err (Mv R)
  | [] => .error .valueError
  | x :: xs => .ok (xs.foldl npMax x)

/-- `np.min`: raises for an empty array, `nan` if there is one. -/
def minE : List (Mv R) → Except Err (Mv R)
  | [] => .error .valueError
  | x :: xs => .ok (xs.foldl (lift₂ min) x)

/-- `np.mean`. -/
def mean (x : List (Mv R)) : Mv R := x.sum / num (x.length : R)

/-- A segment operation: the row, the two cut points and the two quantiles. -/
abbrev MOp (R : Type) := List (Mv R) → ℤ → ℤ → Mv (QVal R) → Mv (QVal R) → Except Err (Mv R)

/-- `segment.py:132-139` `MAX._backend`. -/
def opMax : MOp R := fun x a b lo hi => if a = b then .ok 0 else maxE (band lo hi (slc x a b))
/-- `segment.py:180-187` `MIN._backend`. -/
def opMin : MOp R := fun x a b lo hi => if a = b then .ok 0 else minE (band lo hi (slc x a b))
/-- `segment.py:255-259` `CUR._backend` on the second increments `x`. -/
def opCur : MOp R := fun x a b lo hi => .ok (((band lo hi (slc x a b)).map fun v => v * v).sum)
/-- `increment.py:124-128` `NPI._backend`. -/
def opNpi : MOp R := fun x a b lo hi => .ok (num ((band lo hi (slc x a b)).length : R))
/-- `increment.py:155-162` `MPI._backend`. -/
def opMpi : MOp R := fun x a b lo hi =>
  let arr := band lo hi (slc x a b)
  .ok (if arr.length = 0 then 0 else mean arr)
/-- `increment.py:190-197` `XPI._backend`. -/
def opXpi : MOp R := fun x a b lo hi =>
  let ind : List R := ((slc x a b).zipIdx.filter fun e => inBand lo hi e.1).map fun e => (e.2 : R)
  .ok (num (if ind.length = 0 then 0 else Fruits.mean ind))
/-- `increment.py:225-238` `LPI._backend`. -/
def opLpi : MOp R := fun x a b lo hi => .ok (num ((longestRun ((slc x a b).map (inBand lo hi)) 0 0 : ℕ) : R))

/-- The loops all `_backend` functions share (e.g. `segment.py:127-140`) on one row. -/
def backendRow (op : MOp R) (cuts : List ℤ) (qs : List (Mv (QVal R))) (x : List (Mv R)) : Except Err (List (Mv R)) :=
  if qs = [] ∧ cuts.length ≠ 1 then .error .valueError
  else fillGrid (cuts.length - 1) (qs.length - 1) fun j k =>
    op x (cuts.getD j 0) (cuts.getD (j + 1) 0) (qs.getD k (num ⊥)) (qs.getD (k + 1) (num ⊥))

/-- The rows of the result. -/
def backend (op : MOp R) (cuts : List (List ℤ)) (qs : List (Mv (QVal R))) (X : List (List (Mv R))) : Except Err (List (List (Mv R))) :=
  (List.range X.length).mapM fun i => backendRow op (cuts.getD i []) qs (X.getD i [])

/-- `_transform` of the classes in `segment.py` (`MAX` 142-146, `MIN` 190-194, `END` 210-219, `CUR` 262-266; `AVG` 305-309 and `STD` 348-352 call
`CUR._backend`). -/
def MSeg.transform (C : Data (Mv R)) (k : SegKind) (p : MSeg R) (X : List (List (Mv R))) : Except Err (List (List (Mv R))) :=
  match k with
  | .max => do
    let qs ← p.useQuantiles
    let cuts ← p.cuts C X.length (rowLen X)
    backend opMax cuts qs X
  | .min => do
    let qs ← p.useQuantiles
    let cuts ← p.cuts C X.length (rowLen X)
    backend opMin cuts qs X
  | .end_ => do
    let cuts ← p.cuts C X.length (rowLen X)
    (List.range X.length).mapM fun i => endRow (cuts.getD i []) (X.getD i [])
  | _ => do
    let qs ← p.useQuantiles
    let cuts ← p.cuts C X.length (rowLen X)
    let X2 ← X.mapM secondIncrements
    backend opCur cuts qs X2

/-- The `_backend` of the classes in `increment.py`. -/
def incOp : IncKind → MOp R
  | .npi => opNpi
  | .mpi => opMpi
  | .xpi => opXpi
  | .lpi => opLpi

/-- `IncrementSieve._fit`, `increment.py:73-74`. -/
def MSeg.incFit (inc : ℤ) (p : MSeg R) (X : List (List (Mv R))) : Except Err (MSeg R) := do
  let A ← preTransform inc X
  p.fit A

/-- `IncrementSieve._transform`, `increment.py:76-81`. -/
def MSeg.incTransform (C : Data (Mv R)) (k : IncKind) (inc : ℤ) (p : MSeg R) (X : List (List (Mv R))) : Except Err (List (List (Mv R))) := do
  let qs ← p.useQuantiles
  let A ← preTransform inc X
  let cuts ← p.cuts C A.length (rowLen A)
  backend (incOp k) cuts qs A

/-- The attributes of `PPV` (`implicit.py:53-91`); a fitted quantile may be `nan`. -/
structure MPPV (R : Type) where
  qc : List (R × Bool)
  sampleSize : R
  segments : Bool
  q : Option (List (Mv R)) := none

/-- `PPV._nfeatures`, `implicit.py:93-97`. -/
def MPPV.nfeatures (p : MPPV R) : ℤ := if p.segments then (p.qc.length : ℤ) - 1 else p.qc.length

/-- `implicit.py:101-112`: the value for quantile number `e.2`. -/
def MPPV.fitValue (g : Rng R) (p : MPPV R) (X : List (List (Mv R))) (e : (R × Bool) × ℕ) : Except Err (Mv R) :=
  if e.1.2 then .ok (num e.1.1)
  else quantile ((g.choice e.2 X.length (max (pyInt (p.sampleSize * (X.length : R))) 1).toNat).map
    fun i => X.getD i []).flatten e.1.1

/-- `PPV._fit`, `implicit.py:99-112`. -/
def MPPV.fit (g : Rng R) (p : MPPV R) (X : List (List (Mv R))) : Except Err (MPPV R) := do
  let qs ← p.qc.zipIdx.mapM (p.fitValue g X)
  pure { p with q := some qs }

/-- `implicit.py:118-128`, `176-189`: the features of one row. -/
def ppvRow (count : List Bool → R) (segments : Bool) (qs : List (Mv R)) (x : List (Mv R)) : List R :=
  if segments then (List.range (qs.length - 1)).map fun j =>
    count (x.map fun v => le (qs.getD j 0) v && lt v (qs.getD (j + 1) 0))
  else qs.map fun q => count (x.map fun v => le q v)

/-- `PPV._transform`, `implicit.py:114-129` (`CPV._transform`, `169-190`). -/
def MPPV.transform (count : List Bool → R) (p : MPPV R) (X : List (List (Mv R))) : Except Err (List (List (Mv R))) :=
  match p.q with
  | none => .error .runtimeError
  | some qs => if p.nfeatures < 0 then .error .valueError else .ok (X.map fun x => nums (ppvRow count p.segments qs x))

/-- A feature sieve with its settings and fitted state. -/
inductive MSieve (R : Type)
  | seg (k : SegKind) (p : MSeg R)
  | inc (k : IncKind) (inc : ℤ) (p : MSeg R)
  | ppv (p : MPPV R)
  | cpv (p : MPPV R)
  | wrapInc (s : MSieve R) (depth : ℕ) (shift : ℤ)
  | wrapInt (s : MSieve R)

/-- `_fit` of all sieves. -/
def MSieve.fit (g : Rng R) : MSieve R → List (List (Mv R)) → Except Err (MSieve R)
  | .seg k p, X => do
    let p ← p.fit X
    pure (.seg k p)
  | .inc k i p, X => do
    let p ← p.incFit i X
    pure (.inc k i p)
  | .ppv p, X => do
    let p ← p.fit g X
    pure (.ppv p)
  | .cpv p, X => do
    let p ← p.fit g X
    pure (.cpv p)
  | .wrapInc s d k, X => do
    let Y ← wrapIncData d k X
    let s ← s.fit g Y
    pure (.wrapInc s d k)
  | .wrapInt s, X => do
    let s ← s.fit g (X.map cumsum)
    pure (.wrapInt s)

/-- `_transform` of all sieves; `C` is the input of the cache. -/
def MSieve.transformC (C : Data (Mv R)) : MSieve R → List (List (Mv R)) → Except Err (List (List (Mv R)))
  | .seg k p, X => p.transform C k X
  | .inc k i p, X => p.incTransform C k i X
  | .ppv p, X => p.transform ppvCount X
  | .cpv p, X => p.transform cpvCount X
  | .wrapInc s d k, X => do
    let Y ← wrapIncData d k X
    MSieve.transformC (newAxis Y) s Y
  | .wrapInt s, X => MSieve.transformC (newAxis (X.map cumsum)) s (X.map cumsum)

end Mv

end Fruits
