import Verif.Checked
import Verif.Sieve

/-! # The compiled functions of the sieves and of the cache with bounds checks

See `Verif.Checked`.  Slices `x[a:b]` never leave an array; masks are applied to the array they were computed from. -/

namespace Fruits
set_option linter.unusedSectionVars false
variable {R : Type} [Field R] [LinearOrder R] [FloorRing R]

/-- The loops `for j in range(J): for k in range(K): result[i, j*K + k] = v j k` with a check of the write. -/
def fillGridE (J K : ℕ) (v : ℕ → ℕ → Except Err R) : Except Err (List R) :=
  ((List.range J).flatMap fun j => (List.range K).map fun k => (j, k)).foldlM
    (fun (res : List R) (e : ℕ × ℕ) => do
      let y ← v e.1 e.2
      writeAt res (e.1 * K + e.2) y) (zeros (J * K))

/-- The loops of the `_backend` functions (segment.py 127-140, 175-188, 247-260; increment.py 119-129, 150-163, 185-198, 220-239) on one row. -/
def backendRowE (op : SegOp R) (cuts : List ℤ) (qs : List (QVal R)) (x : List R) : Except Err (List R) :=
  if qs = [] ∧ cuts.length ≠ 1 then .error .valueError
  else fillGridE (cuts.length - 1) (qs.length - 1) fun j k => do
    let a ← readAt cuts j
    let b ← readAt cuts (j + 1)
    let lo ← readAt qs k
    let hi ← readAt qs (k + 1)
    op x a b lo hi

/-- `for i in prange(X.shape[0])` of the `_backend` functions: `X[i]` and `cuts[i]` are read. -/
def backendE (op : SegOp R) (cuts : List (List ℤ)) (qs : List (QVal R)) (X : List (List R)) : Except Err (List (List R)) :=
  (List.range X.length).mapM fun i => do
    let c ← readAt cuts i
    let x ← readAt X i
    backendRowE op c qs x

/-- `_transform` of the classes in segment.py with a compiled `_backend` (`END` has none). -/
def Seg.transformE (T : FloatText R) (C : Data R) (k : SegKind) (p : Seg R) (X : List (List R)) : Except Err (List (List R)) :=
  match k with
  | .max => do
    let qs ← p.useQuantiles
    let cuts ← p.cuts T C X.length (rowLen X)
    backendE opMax cuts qs X
  | .min => do
    let qs ← p.useQuantiles
    let cuts ← p.cuts T C X.length (rowLen X)
    backendE opMin cuts qs X
  | .end_ => p.transform T C .end_ X
  | _ => do
    let qs ← p.useQuantiles
    let cuts ← p.cuts T C X.length (rowLen X)
    let X2 ← X.mapM secondIncrements
    backendE opCur cuts qs X2

/-- `IncrementSieve._transform`, increment.py 76-81. -/
def Seg.incTransformE (T : FloatText R) (C : Data R) (k : IncKind) (inc : ℤ) (p : Seg R) (X : List (List R)) : Except Err (List (List R)) := do
  let qs ← p.useQuantiles
  let A ← preTransform inc X
  let cuts ← p.cuts T C A.length (rowLen A)
  backendE k.op cuts qs A

/-- cache.py 16-22 `_coquantile`, one row: `X[i, -1]` is read. -/
def coquantile1E (q : R) (x : List R) : Except Err ℕ := do
  if x.length = 0 then .error .indexError
  else do
    let l ← readAt x (x.length - 1)
    pure (x.filter fun v => decide (v ≤ q * l)).length

/-- cache.py 25-40 `_L1_sum`, `_L2_sum`: dimension 0 is read. -/
def normSumE (nm : Norm) (X : Data R) : Except Err (List (List R)) :=
  X.mapM fun s => do
    let r ← readAt s 0
    let y ← increments1 1 r
    pure (cumsum (y.map nm.val))

/-- cache.py 98-112 and 118-132 with the checked functions. -/
def computeKeyE (T : FloatText R) (ty : CacheType) (key : PStr) (X : Data R) : Except Err (Option (CacheVal R)) :=
  match ty with
  | .coquantile =>
    match psplit ':' key with
    | [c, norm] =>
      match normOf norm with
      | none => .ok none
      | some nm => do
        let S ← normSumE nm X
        match T.ofText c with
        | none => .error .valueError
        | some q => do
          let l ← S.mapM (coquantile1E q)
          pure (some (.idx l))
    | _ => .error .valueError
  | .iss =>
    match normOf key with
    | none => .ok none
    | some nm => do
      let S ← normSumE nm X
      pure (some (.sums S))

end Fruits
