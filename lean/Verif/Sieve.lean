import Verif.Prep
import Verif.WordOps
import Mathlib.Order.WithBot

/-! # Feature sieves: `fruits/sieving/{segment,increment,implicit,wrapper}.py`

The input of a sieve is a two-dimensional array (series, time), here a list of rows.  Arithmetic is exact; infinite
quantiles are the ends of `WithBot (WithTop R)`.  The attribute `_cache` is represented by its input `C` (see `Prep.coqs`).
`fastmath`, parallel loops and 64-bit overflow are not modelled. -/

namespace Fruits
set_option linter.unusedSectionVars false

variable {R : Type} [Field R] [LinearOrder R] [FloorRing R]

/-- A quantile value: a number, `np.inf` or `np.NINF`. -/
abbrev QVal (R : Type) := WithBot (WithTop R)

/-- A number as a quantile value. -/
def QVal.of (v : R) : QVal R := ((v : WithTop R) : WithBot (WithTop R))

/-- An entry of the argument `cut`: an integer index or a float (a coquantile level). -/
inductive Cut (R : Type)
  | int (k : ℤ)
  | float (f : R)

/-- The attributes of a `SegmentSieve`, `segment.py:34-42`: `cut`, `q` (both already sequences), the norm of the coquantiles
and `_quantiles` (`none`: the attribute does not exist). -/
structure Seg (R : Type) where
  cut : List (Cut R) := [.int (-1)]
  q : List R
  norm : Norm := .L2
  quantiles : Option (List (QVal R)) := none

/-- `SegmentSieve.requires_fitting`, `segment.py:44-49`. -/
def Seg.requiresFitting (p : Seg R) : Bool := p.q.any fun q => decide (q ≠ -1 ∧ q ≠ 0 ∧ q ≠ 1)

/-- One column of `new_cuts`, `segment.py:53-62`, for `m` series of length `n`; `C` is the input of the cache. An array of
another length than `m` raises (numpy would broadcast an array of length one). -/
def Seg.cutColumn (T : FloatText R) (C : Data R) (p : Seg R) (m n : ℕ) : Cut R → Except Err (List ℤ)
  | .float f => do
    let c ← coqs T C f p.norm.str
    if c.length = m then pure (c.map fun v : ℕ => (v : ℤ)) else .error .valueError
  | .int k => .ok (List.replicate m (if k ≥ 0 then k else (n : ℤ) + k + 1))

/-- `SegmentSieve._get_transformed_cuts`, `segment.py:51-64`: a column of zeros, one column for each cut, each row sorted. -/
def Seg.cuts (T : FloatText R) (C : Data R) (p : Seg R) (m n : ℕ) : Except Err (List (List ℤ)) := do
  let cols ← p.cut.mapM (p.cutColumn T C m n)
  pure ((List.range m).map fun i => ((0 : ℤ) :: cols.map fun c => c.getD i 0).insertionSort (· ≤ ·))

/-- `segment.py:67-73`: the value of one quantile; `X` are all entries of the array. -/
def quantileValue (entries : List R) (q : R) : Except Err (QVal R) :=
  if q = 1 then .ok ⊤
  else if q = -1 then .ok ⊥
  else if q ≠ 0 then do
    let v ← quantile entries q
    pure (QVal.of v)
  else .ok (QVal.of 0)

/-- `SegmentSieve._fit`, `segment.py:66-75`. -/
def Seg.fit (p : Seg R) (X : List (List R)) : Except Err (Seg R) := do
  let qs ← p.q.mapM (quantileValue X.flatten)
  pure { p with quantiles := some (qs.insertionSort (· ≤ ·)) }

/-- `segment.py:80-85`: the value of one quantile of an unfitted sieve. -/
def unfittedValue (q : R) : Except Err (QVal R) :=
  if q = 1 then .ok ⊤
  else if q = -1 then .ok ⊥
  else if q ≠ 0 then .error .runtimeError
  else .ok (QVal.of 0)

/-- `SegmentSieve._get_unfitted_quantiles`, `segment.py:77-85`; not sorted. -/
def Seg.unfittedQuantiles (p : Seg R) : Except Err (List (QVal R)) := p.q.mapM unfittedValue

/-- The quantiles a `_transform` uses, e.g. `segment.py:142-145`: recomputed unless the sieve requires fitting. (The code
stores the recomputed ones in `_quantiles`; as every later `_transform` recomputes them, this is not observable.) -/
def Seg.useQuantiles (p : Seg R) : Except Err (List (QVal R)) :=
  if p.requiresFitting then
    match p.quantiles with
    | none => .error .attributeError
    | some qs => .ok qs
  else p.unfittedQuantiles

/-- The values `v` with `lo < v <= hi`. -/
def band (lo hi : QVal R) (arr : List R) : List R := arr.filter fun v => decide (lo < QVal.of v ∧ QVal.of v ≤ hi)

/-- The nested loops `for j in range(J): for k in range(K): result[i, j*K + k] = v j k` on the row `np.zeros(J * K)`. -/
def fillGrid {R : Type} [Zero R] (J K : ℕ) (v : ℕ → ℕ → Except Err R) : Except Err (List R) :=
  ((List.range J).flatMap fun j => (List.range K).map fun k => (j, k)).foldlM
    (fun (res : List R) (e : ℕ × ℕ) => do
      let y ← v e.1 e.2
      pure (res.set (e.1 * K + e.2) y)) (zeros (J * K))

/-- A segment operation: the row, the two cut points and the two quantiles. -/
abbrev SegOp (R : Type) := List R → ℤ → ℤ → QVal R → QVal R → Except Err R

/-- The loops all `_backend` functions share (e.g. `segment.py:127-140`) on one row. No quantiles at all (with a cut) means
a negative number of features, which raises. -/
def backendRow (op : SegOp R) (cuts : List ℤ) (qs : List (QVal R)) (x : List R) : Except Err (List R) :=
  if qs = [] ∧ cuts.length ≠ 1 then .error .valueError
  else fillGrid (cuts.length - 1) (qs.length - 1) fun j k =>
    op x (cuts.getD j 0) (cuts.getD (j + 1) 0) (qs.getD k ⊥) (qs.getD (k + 1) ⊥)

/-- `segment.py:132-139` `MAX._backend`. -/
def opMax : SegOp R := fun x a b lo hi =>
  if a = b then .ok 0 else maxE (band lo hi (slc x a b))
/-- `segment.py:180-187` `MIN._backend`. -/
def opMin : SegOp R := fun x a b lo hi =>
  if a = b then .ok 0 else minE (band lo hi (slc x a b))
/-- `segment.py:255-259` `CUR._backend` on the second increments `x`. -/
def opCur : SegOp R := fun x a b lo hi => .ok (((band lo hi (slc x a b)).map fun v => v ^ 2).sum)
/-- `increment.py:124-128` `NPI._backend`. -/
def opNpi : SegOp R := fun x a b lo hi => .ok ((band lo hi (slc x a b)).length : R)
/-- `increment.py:155-162` `MPI._backend`. -/
def opMpi : SegOp R := fun x a b lo hi =>
  let arr := band lo hi (slc x a b)
  .ok (if arr.length = 0 then 0 else mean arr)
/-- `increment.py:190-197` `XPI._backend`. -/
def opXpi : SegOp R := fun x a b lo hi =>
  let ind : List R := ((slc x a b).zipIdx.filter fun e => decide (lo < QVal.of e.1 ∧ QVal.of e.1 ≤ hi)).map fun e => (e.2 : R)
  .ok (if ind.length = 0 then 0 else mean ind)

/-- `increment.py:229-237`: the loop of `LPI._backend` with the variables `longest`, `current`. -/
def longestRun : List Bool → ℕ → ℕ → ℕ
  | [], longest, _ => longest
  | true :: bs, longest, current => longestRun bs (if current + 1 > longest then current + 1 else longest) (current + 1)
  | false :: bs, longest, _ => longestRun bs longest 0

/-- `increment.py:225-238` `LPI._backend`. -/
def opLpi : SegOp R := fun x a b lo hi =>
  .ok ((longestRun ((slc x a b).map fun v => decide (lo < QVal.of v ∧ QVal.of v ≤ hi)) 0 0 : ℕ) : R)

/-- The classes derived from `SegmentSieve` directly. -/
inductive SegKind
  | max | min | end_ | cur | avg | std
  deriving DecidableEq, Repr

/-- The classes derived from `IncrementSieve` (constructor: `sieving/increment.py:49-61`). -/
inductive IncKind
  | npi | mpi | xpi | lpi
  deriving DecidableEq, Repr

/-- The rows of the result, for matching rows of the array and of the cuts. -/
def backend (op : SegOp R) (cuts : List (List ℤ)) (qs : List (QVal R)) (X : List (List R)) : Except Err (List (List R)) :=
  (List.range X.length).mapM fun i => backendRow op (cuts.getD i []) qs (X.getD i [])

/-- An index of an array of length `n`; negative ones count from the end (`segment.py:214-218`). -/
def takeIdx {R : Type} [Zero R] (x : List R) (k : ℤ) : Except Err R := do
  let j ← normIdx x.length k
  pure (x.getD j 0)

/-- `END._transform`, `segment.py:210-219`, on one row. -/
def endRow {R : Type} [Zero R] (cuts : List ℤ) (x : List R) : Except Err (List R) :=
  (List.range (cuts.length - 1)).mapM fun j => takeIdx x (cuts.getD (j + 1) 0 - 1)

/-- The length of the rows: `X.shape[1]`. -/
def rowLen {R : Type} (X : List (List R)) : ℕ := (X.getD 0 []).length

/-- `_increments(_increments(...))` of `CUR._backend`, `segment.py:249-251`, on one row. -/
def secondIncrements {R : Type} [Sub R] [Zero R] (x : List R) : Except Err (List R) := do
  let y ← increments1 1 x
  increments1 1 y

/-- `_transform` of the classes in `segment.py`. `AVG._transform` (309) and `STD._transform` (352) call `CUR._backend`, so
their own `_backend` functions (288-303, 331-346) are never used. `MIN._transform` 190-194, `CUR._transform` 262-266. -/
def Seg.transform (T : FloatText R) (C : Data R) (k : SegKind) (p : Seg R) (X : List (List R)) : Except Err (List (List R)) :=
  match k with
  | .max => do
    let qs ← p.useQuantiles
    let cuts ← p.cuts T C X.length (rowLen X)
    backend opMax cuts qs X
  | .min => do
    let qs ← p.useQuantiles
    let cuts ← p.cuts T C X.length (rowLen X)
    backend opMin cuts qs X
  | .end_ => do
    let cuts ← p.cuts T C X.length (rowLen X)
    (List.range X.length).mapM fun i => endRow (cuts.getD i []) (X.getD i [])
  | _ => do
    let qs ← p.useQuantiles
    let cuts ← p.cuts T C X.length (rowLen X)
    let X2 ← X.mapM secondIncrements
    backend opCur cuts qs X2

/-- `x` after `f` was applied `k` times. -/
def iterM {α : Type} (f : α → Except Err α) : ℕ → α → Except Err α
  | 0, x => .ok x
  | k + 1, x => do
    let y ← f x
    iterM f k y

/-- `IncrementSieve._pre_transform`, `increment.py:63-71`. -/
def preTransform {R : Type} [Add R] [Sub R] [Zero R] (inc : ℤ) (X : List (List R)) : Except Err (List (List R)) :=
  if inc > 0 then iterM (fun A => A.mapM (increments1 1)) inc.toNat X
  else if inc < 0 then iterM (fun A => .ok (A.map cumsum)) (-inc).toNat X
  else .ok X

/-- The `_backend` of the classes in `increment.py` (abstract: `increment.py:42-47`). -/
def IncKind.op : IncKind → SegOp R
  | .npi => opNpi
  | .mpi => opMpi
  | .xpi => opXpi
  | .lpi => opLpi

/-- `IncrementSieve._fit`, `increment.py:73-74`. -/
def Seg.incFit (inc : ℤ) (p : Seg R) (X : List (List R)) : Except Err (Seg R) := do
  let A ← preTransform inc X
  p.fit A

/-- `IncrementSieve._transform`, `increment.py:76-81`. -/
def Seg.incTransform (T : FloatText R) (C : Data R) (k : IncKind) (inc : ℤ) (p : Seg R) (X : List (List R)) :
    Except Err (List (List R)) := do
  let qs ← p.useQuantiles
  let A ← preTransform inc X
  let cuts ← p.cuts T C A.length (rowLen A)
  backend k.op cuts qs A

/-! ### PPV and CPV -/

/-- The attributes of `PPV`: `_q_c_input`, `_sample_size`, `_segments`, `_q`. -/
structure PPV (R : Type) where
  qc : List (R × Bool)
  sampleSize : R
  segments : Bool
  q : Option (List R) := none

/-- The arguments `quantile` and `constant` of `PPV`: a value or a list. -/
inductive OneOrList (α : Type)
  | one (a : α)
  | list (l : List α)

/-- `PPV.__init__`, `implicit.py:60-78`: the two arguments as lists. -/
def PPV.args (quantile : OneOrList R) (constant : OneOrList Bool) : Except Err (List R × List Bool) :=
  match quantile, constant with
  | .list qs, .one c =>
    let cs := qs.map fun _ => c
    if (qs.zip cs).any fun e => !e.2 && !decide (0 ≤ e.1 ∧ e.1 ≤ 1) then .error .valueError else .ok (qs, cs)
  | .list qs, .list cs =>
    if qs.length ≠ cs.length then .error .valueError
    else if (qs.zip cs).any fun e => !e.2 && !decide (0 ≤ e.1 ∧ e.1 ≤ 1) then .error .valueError else .ok (qs, cs)
  | .one q, .list cs => if cs.length > 1 then .error .valueError else .ok ([q], cs)
  | .one q, .one c => .ok ([q], [c])

/-- `PPV.__init__`, `implicit.py:53-91`. `setOrder` is the iteration order of `set(quantile)`, an arbitrary order of the
different elements. `sorted(…, key=…)` is stable. -/
def PPV.new (setOrder : List R → List R) (quantile : OneOrList R) (constant : OneOrList Bool) (sampleSize : R)
    (segments : Bool) : Except Err (PPV R) := do
  let (qs, cs) ← PPV.args quantile constant
  let qc := if segments then ((setOrder qs).zip cs).insertionSort (fun a b => a.1 ≤ b.1) else qs.zip cs
  if ¬(0 < sampleSize ∧ sampleSize ≤ 1) then .error .valueError
  else if segments && decide (qs.length = 1) then .error .valueError
  else pure ⟨qc, sampleSize, segments, none⟩

/-- `PPV._nfeatures`, `implicit.py:93-97`. -/
def PPV.nfeatures (p : PPV R) : ℤ := if p.segments then (p.qc.length : ℤ) - 1 else p.qc.length

/-- `implicit.py:101-112`: the value for quantile number `e.2`; call number `e.2` of the random generator selects the rows. -/
def PPV.fitValue (g : Rng R) (p : PPV R) (X : List (List R)) (e : (R × Bool) × ℕ) : Except Err R :=
  if e.1.2 then .ok e.1.1
  else quantile ((g.choice e.2 X.length (max (pyInt (p.sampleSize * (X.length : R))) 1).toNat).map
    fun i => X.getD i []).flatten e.1.1

/-- `PPV._fit`, `implicit.py:99-112`. -/
def PPV.fit (g : Rng R) (p : PPV R) (X : List (List R)) : Except Err (PPV R) := do
  let qs ← p.qc.zipIdx.mapM (p.fitValue g X)
  pure { p with q := some qs }

/-- `implicit.py:118-128`: the features of one row of `PPV._transform`, and with another counting function (`CPV`,
`implicit.py:176-189`) of `CPV._transform`. -/
def PPV.row (count : List Bool → R) (segments : Bool) (qs : List R) (x : List R) : List R :=
  if segments then (List.range (qs.length - 1)).map fun j =>
    count (x.map fun v => decide (qs.getD j 0 ≤ v ∧ v < qs.getD (j + 1) 0))
  else qs.map fun q => count (x.map fun v => decide (v ≥ q))

/-- The number of `True` entries. -/
def countTrue (bs : List Bool) : ℕ := (bs.filter id).length

/-- `np.sum(mask) / X.shape[1]`. -/
def ppvCount (bs : List Bool) : R := (countTrue bs : R) / (bs.length : R)

/-- `implicit.py:173-175`, `178-182`: `2 * np.sum(diff == 1) / n`, `n` rounded up to an even number, `diff` the increments of
the mask. -/
def cpvCount (bs : List Bool) : R :=
  let n : ℕ := if bs.length % 2 = 1 then bs.length + 1 else bs.length
  let mask : List R := bs.map fun b => if b then 1 else 0
  match increments1 1 mask with
  | .error _ => 0
  | .ok d => 2 * ((d.filter fun v => decide (v = 1)).length : R) / (n : R)

/-- `PPV._transform`, `implicit.py:114-129` (`CPV._transform`, `169-190`). Without quantiles and with `segments` the number of
features is negative, which raises. -/
def PPV.transform (count : List Bool → R) (p : PPV R) (X : List (List R)) : Except Err (List (List R)) :=
  match p.q with
  | none => .error .runtimeError
  | some qs => if p.nfeatures < 0 then .error .valueError else .ok (X.map (PPV.row count p.segments qs))

/-! ### All sieves -/

/-- A feature sieve with its settings and fitted state (`INT(sieve)`: `sieving/wrapper.py:78-79`). -/
inductive Sieve (R : Type)
  | seg (k : SegKind) (p : Seg R)
  | inc (k : IncKind) (inc : ℤ) (p : Seg R)
  | ppv (p : PPV R)
  | cpv (p : PPV R)
  | wrapInc (s : Sieve R) (depth : ℕ) (shift : ℤ)
  | wrapInt (s : Sieve R)

/-- `requires_fitting`: `seed.py:17-19`, `segment.py:44-49`, `wrapper.py:35-37,81-83`. -/
def Sieve.requiresFitting : Sieve R → Bool
  | .seg _ p => p.requiresFitting
  | .inc _ _ p => p.requiresFitting
  | .ppv _ => true
  | .cpv _ => true
  | .wrapInc s _ _ => s.requiresFitting
  | .wrapInt s => s.requiresFitting

/-- `nfeatures()`: `sieving/abstract.py:21-23`, `segment.py:87-88`, `implicit.py:93-97`, `wrapper.py:39-40,85-86`. -/
def Sieve.nfeatures : Sieve R → ℤ
  | .seg _ p => (p.cut.length : ℤ) * ((p.q.length : ℤ) - 1)
  | .inc _ _ p => (p.cut.length : ℤ) * ((p.q.length : ℤ) - 1)
  | .ppv p => p.nfeatures
  | .cpv p => p.nfeatures
  | .wrapInc s _ _ => s.nfeatures
  | .wrapInt s => s.nfeatures

/-- `wrapper.py:43-45`, `49-51`: the increments of `X` (not of the previous result) are assigned `depth` times. -/
def wrapIncData {R : Type} [Sub R] [Zero R] (depth : ℕ) (shift : ℤ) (X : List (List R)) : Except Err (List (List R)) :=
  (List.range depth).foldlM (fun _ _ => X.mapM (increments1 shift)) X

/-- `_fit` of all sieves (the default, `sieving/abstract.py:25-26`, does nothing). The wrappers call the public `fit` of the wrapped sieve (`wrapper.py:46,89`). -/
def Sieve.fit (g : Rng R) : Sieve R → List (List R) → Except Err (Sieve R)
  | .seg k p, X => do
    let p ← p.fit X
    pure (.seg k p)
  | .inc k i p, X => do
    let p ← p.incFit i X
    pure (.inc k i p)
  | .ppv p, X => do
    let p ← p.fit g X
    pure (.ppv p)
  | .cpv p, X => do
    let p ← p.fit g X
    pure (.cpv p)
  | .wrapInc s d k, X => do
    let Y ← wrapIncData d k X
    let s ← s.fit g Y
    pure (.wrapInc s d k)
  | .wrapInt s, X => do
    let s ← s.fit g (X.map cumsum)
    pure (.wrapInt s)

/-- A two-dimensional array as the input of a cache, `seed.py:28-31`: `X[:, np.newaxis, :]`. -/
def newAxis {R : Type} (X : List (List R)) : Data R := X.map fun r => [r]

/-- `_transform` of all sieves; `C` is the input of the cache. The wrappers call the public `transform` of the wrapped sieve,
which makes its own cache from the data it is given (`wrapper.py:48-52,91-92`). -/
def Sieve.transformC (T : FloatText R) (C : Data R) : Sieve R → List (List R) → Except Err (List (List R))
  | .seg k p, X => p.transform T C k X
  | .inc k i p, X => p.incTransform T C k i X
  | .ppv p, X => p.transform ppvCount X
  | .cpv p, X => p.transform cpvCount X
  | .wrapInc s d k, X => do
    let Y ← wrapIncData d k X
    Sieve.transformC T (newAxis Y) s Y
  | .wrapInt s, X => Sieve.transformC T (newAxis (X.map cumsum)) s (X.map cumsum)

/-- The public `transform` of a sieve without a cache, `seed.py:41-51`. -/
def Sieve.transform (T : FloatText R) (s : Sieve R) (X : List (List R)) : Except Err (List (List R)) :=
  Sieve.transformC T (newAxis X) s X

/-! ### Labels -/

/-- `self.__class__.__name__`. -/
def SegKind.name : SegKind → PStr
  | .max => "MAX".toList
  | .min => "MIN".toList
  | .end_ => "END".toList
  | .cur => "CUR".toList
  | .avg => "AVG".toList
  | .std => "STD".toList

/-- `self.__class__.__name__`. -/
def IncKind.name : IncKind → PStr
  | .npi => "NPI".toList
  | .mpi => "MPI".toList
  | .xpi => "XPI".toList
  | .lpi => "LPI".toList

/-- The text of an integer. -/
def intText (k : ℤ) : PStr := showInt k

/-- The text of a cut. -/
def Cut.text (T : FloatText R) : Cut R → PStr
  | .int k => intText k
  | .float f => T.toText f

/-- `SegmentSieve._label`, `segment.py:96-101`, for indices `>= 0`: `divmod` by zero and missing entries raise. -/
def Seg.label (T : FloatText R) (name : PStr) (p : Seg R) (index : ℕ) : Except Err PStr :=
  if p.q.length = 1 then .error .zeroDivisionError
  else
    let K := p.q.length - 1
    match p.cut[index / K]?, p.q[index % K]?, p.q[index % K + 1]? with
    | some c, some a, some b => .ok (name ++ '!' :: c.text T ++ "![".toList ++ T.toText a ++ ", ".toList ++ T.toText b ++ "]".toList)
    | _, _, _ => .error .indexError

/-- `_label` of all sieves: `segment.py:96-101`, `increment.py:90-92`, `wrapper.py:60-61,100-101`; the others use `str`
(`ppvText` here, which is `PPV.str` of `Verif.Texts`). -/
def Sieve.label (T : FloatText R) (ppvText : Bool → PPV R → PStr) : Sieve R → ℕ → Except Err PStr
  | .seg k p, i => p.label T k.name i
  | .inc k n p, i => do
    let l ← p.label T k.name i
    pure (l.take 3 ++ "[inc=".toList ++ intText n ++ "]".toList ++ l.drop 3)
  | .ppv p, _ => .ok (ppvText false p)
  | .cpv p, _ => .ok (ppvText true p)
  | .wrapInc s _ _, i => do
    let l ← s.label T ppvText i
    pure ("INC of ".toList ++ l)
  | .wrapInt s, i => do
    let l ← s.label T ppvText i
    pure ("INT of ".toList ++ l)

/-! ### Copies -/

/-- `_copy` of all sieves: `segment.py:90-91` and `increment.py:83-84` do not pass `coquantile_norm`; `implicit.py:131-137,
192-197`; `wrapper.py:54-55,94-95`. Copies are not fitted. -/
def Sieve.copy (setOrder : List R → List R) : Sieve R → Except Err (Sieve R)
  | .seg k p => .ok (.seg k { cut := p.cut, q := p.q })
  | .inc k n p => .ok (.inc k n { cut := p.cut, q := p.q })
  | .ppv p => do
    let p ← PPV.new setOrder (.list (p.qc.map (·.1))) (.list (p.qc.map (·.2))) p.sampleSize p.segments
    pure (.ppv p)
  | .cpv p => do
    let p ← PPV.new setOrder (.list (p.qc.map (·.1))) (.list (p.qc.map (·.2))) p.sampleSize p.segments
    pure (.cpv p)
  | .wrapInc s d k => do
    let s ← s.copy setOrder
    pure (.wrapInc s d k)
  | .wrapInt s => do
    let s ← s.copy setOrder
    pure (.wrapInt s)

end Fruits
