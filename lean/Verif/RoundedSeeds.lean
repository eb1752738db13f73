import Verif.Rounded
import Verif.Sieve

/-!
# Rounded arithmetic in the cache, in preparateurs and in sieves

As in `Verif.Rounded`, every arithmetic operation is followed by a rounding; comparisons, minima, maxima, counting and
copies are exact.
-/

namespace Fruits
set_option linter.unusedSectionVars false
variable {R : Type} [Field R] [LinearOrder R] [FloorRing R] (F : Fp R)

/-- `fruits/cache.py:25-40` `_L1_sum`, `_L2_sum`, rounded. -/
def Fp.normSum (nm : Norm) (X : Data R) : List (List R) := X.map fun s => F.normSum1 nm (s.getD 0 [])

/-- `fruits/cache.py:16-22` `_coquantile(_L1_sum(X), q)` / `_coquantile(_L2_sum(X), q)`, rounded. -/
def Fp.coquantiles (nm : Norm) (q : R) (X : Data R) : List ℕ := (F.normSum nm X).map (F.coquantile1 q)

/-- `INC()._transform`, `transform.py:60-75` with the default arguments (shift 1, depth 1, zero padding), rounded. -/
def Fp.inc (X : Data R) : Data R := X.map fun s => s.map F.increments1

/-- `transform.py:196`: `(x - min_) / (max_ - min_)` on one row, rounded. -/
def Fp.nrmRow (mn mx : R) (x : List R) : List R := x.map fun v => F.rnd (F.rnd (v - mn) / F.rnd (mx - mn))

/-- `NRM._transform` with `scale_dim=False`, `transform.py:184-198`, rounded (cf. `NRM.perDim`; `out[mask] = …`,
`out[~mask] = 0` is written row by row). -/
def Fp.nrmPerDim (X : Data R) : Except Err (Data R) :=
  X.mapM fun s => s.mapM fun x => do
    let mn ← minE x
    let mx ← maxE x
    pure (if mn ≠ mx then F.nrmRow mn mx x else x.map fun _ => 0)

/-- `NRM._transform` with `scale_dim=True`, rounded (cf. `NRM.perSeries`). -/
def Fp.nrmPerSeries (X : Data R) : Except Err (Data R) :=
  X.mapM fun s => do
    let mins ← s.mapM minE
    let maxs ← s.mapM maxE
    let mn ← minE mins
    let mx ← maxE maxs
    pure (if mn ≠ mx then s.map (F.nrmRow mn mx) else s.map fun x => x.map fun _ => 0)

/-- `NRM._transform`, `transform.py:184-198`, rounded. -/
def Fp.nrm (scaleDim : Bool) (X : Data R) : Except Err (Data R) :=
  if scaleDim then F.nrmPerSeries X else F.nrmPerDim X

/-- `IncrementSieve._pre_transform`, `increment.py:63-71`, rounded. -/
def Fp.preTransform (inc : ℤ) (X : List (List R)) : List (List R) :=
  if inc > 0 then (fun A => A.map F.increments1)^[inc.toNat] X
  else if inc < 0 then (fun A => A.map F.cumsum)^[(-inc).toNat] X
  else X

/-- One column of `new_cuts`, `segment.py:53-62` (cf. `Seg.cutColumn`), with the coquantiles of the rounded cache. -/
def Fp.cutColumn (C : Data R) (p : Seg R) (m n : ℕ) : Cut R → Except Err (List ℤ)
  | .float f =>
    let c := F.coquantiles p.norm f C
    if c.length = m then .ok (c.map fun v : ℕ => (v : ℤ)) else .error .valueError
  | .int k => .ok (List.replicate m (if k ≥ 0 then k else (n : ℤ) + k + 1))

/-- `SegmentSieve._get_transformed_cuts`, `segment.py:51-64` (cf. `Seg.cuts`). -/
def Fp.cuts (C : Data R) (p : Seg R) (m n : ℕ) : Except Err (List (List ℤ)) := do
  let cols ← p.cut.mapM (F.cutColumn C p m n)
  pure ((List.range m).map fun i => ((0 : ℤ) :: cols.map fun c => c.getD i 0).insertionSort (· ≤ ·))

/-- `np.mean(arr)`: the rounded sum, divided by the number of entries, rounded. -/
def Fp.mean (arr : List R) : R := F.rnd ((F.cumsum arr).getD (arr.length - 1) 0 / (arr.length : R))

/-- The `_backend`s of `increment.py:124-128, 155-162, 190-197, 225-238`, rounded: NPI and LPI count, MPI and XPI take a
mean. -/
def Fp.incOp : IncKind → SegOp R
  | .npi => opNpi
  | .lpi => opLpi
  | .mpi => fun x a b lo hi =>
    let arr := band lo hi (slc x a b)
    .ok (if arr.length = 0 then 0 else F.mean arr)
  | .xpi => fun x a b lo hi =>
    let ind : List R :=
      ((slc x a b).zipIdx.filter fun e => decide (lo < QVal.of e.1 ∧ QVal.of e.1 ≤ hi)).map fun e => (e.2 : R)
    .ok (if ind.length = 0 then 0 else F.mean ind)

/-- `IncrementSieve._transform`, `increment.py:76-81`, rounded. -/
def Fp.incTransform (C : Data R) (k : IncKind) (inc : ℤ) (p : Seg R) (X : List (List R)) : Except Err (List (List R)) := do
  let qs ← p.useQuantiles
  let A := F.preTransform inc X
  let cuts ← F.cuts C p A.length (rowLen A)
  backend (F.incOp k) cuts qs A

/-- `np.sum(mask) / X.shape[1]`, `implicit.py:118-128`, rounded (cf. `ppvCount`). -/
def Fp.ppvCount (bs : List Bool) : R := F.rnd ((countTrue bs : R) / (bs.length : R))

/-- `2 * np.sum(diff == 1) / n`, `implicit.py:173-189`, rounded (cf. `cpvCount`; the increments of the mask are exact). -/
def Fp.cpvCount (bs : List Bool) : R :=
  let n : ℕ := if bs.length % 2 = 1 then bs.length + 1 else bs.length
  let mask : List R := bs.map fun b => if b then 1 else 0
  F.rnd (2 * (((F.increments1 mask).filter fun v => decide (v = 1)).length : R) / (n : R))

end Fruits
