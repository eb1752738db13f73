import Verif.Prep
import Verif.ISS

/-! # Arrays with a data type

The other modules model float arrays.  A user may also pass an array of integers (`np.array([[[0, 1, 2]]])` has dtype `int64`).
Then

* functions that numba compiled for `f8` arguments only (`numba.njit("f8[:,:,:](f8[:,:,:], …)")`) raise a `TypeError`,
* `np.zeros_like(X)`, `X.copy()` and `np.zeros(…, dtype=X.dtype)` give integer arrays, and assigning floats to the entries of
  such an array truncates them towards zero,
* `np.zeros(shape)`, quotients and means give float arrays.

Only `int64` and `float64` are modelled; integer overflow is not.  A `FUN` is taken to return floats, computed from the
numbers only. -/

namespace Fruits
set_option linter.unusedSectionVars false

/-- The two data types. -/
inductive DType
  | int64 | float64
  deriving DecidableEq, Repr

/-- A numpy array of shape `(m, d, n)` with its data type; the numbers of an `int64` array are meant to be integers. -/
structure TArr (R : Type) where
  dtype : DType
  data : Data R
  deriving DecidableEq

variable {R : Type} [Field R] [LinearOrder R] [FloorRing R]

/-- Conversion of a float to an integer: truncation towards zero. -/
def truncZ (x : R) : R := if 0 ≤ x then (⌊x⌋ : R) else (⌈x⌉ : R)

/-- What is kept of a float that is assigned to an entry of an array. -/
def DType.store : DType → R → R
  | .int64, x => truncZ x
  | .float64, x => x

/-- `out[...] = Y` for a new array `out` of the given data type. -/
def storeData (t : DType) (Y : Data R) : TArr R := ⟨t, Y.map (·.map (·.map t.store))⟩

/-- The common data type of two arrays (`np.concatenate`). -/
def DType.join : DType → DType → DType
  | .int64, .int64 => .int64
  | _, _ => .float64

/-- A call of a function compiled for float arrays, after the checks `pre`: integers raise a `TypeError`.  Models the numba
signatures at `fruits/cache.py:8,25,34`, `preparation/transform.py:227-228,441-442,645-646,853-854`. -/
def compiled (pre : Except Err Unit) (t : DType) (run : Except Err (Data R)) : Except Err (TArr R) :=
  match t with
  | .int64 => pre >>= fun _ => .error .typeError
  | .float64 => run.map (TArr.mk .float64)

/-- `preparateur._transform(X)` for typed arrays; `C` is the input of the object's cache.

* `INC` (`transform.py:60-75`, depth zero returns the input), `MAV` (`:258-263`), `RIN` (`:525-544`), `JLD` (`:724-731`), `RPE`
  (`:885-894`): compiled functions, after the checks in front of the call.
* `SPE` (`:789-812`) with a step transform and `WIN` (`filter.py:93-108`): the cache calls a compiled function on its own input.
* `NRM` (`transform.py:195`): `np.zeros_like(X)`, so the quotients are truncated.
* `STD`, `LAG`, `FFN`, `RDW`, `QTC`, `DOT`, `SPE`: float results (`:133-144`, `:292`, `:362-376`, `:601-602`, `:990-1001`,
  `filter.py:192`).
* `DIL`, `PDD` (`X.copy()`, `filter.py:59,255`), `CTS` (`transform.py:939`), `WIN` (`np.zeros_like(X)`, `filter.py:102`),
  `NEW(None)` (`wrapper.py:80-86`): the type of `X`.
* `DIM` (`wrapper.py:40-44`): `np.concatenate` takes the common type.
* `NEW(p)` (`wrapper.py:88-95`): an array of the type of `X`, so floats are truncated. -/
def Prep.transformT [NpMath R] (T : FloatText R) (C : TArr R) : Prep R → TArr R → Except Err (TArr R)
  | .inc p, X => if p.depth = 0 then (p.transform X.data).map (TArr.mk X.dtype)
      else compiled (.ok ()) X.dtype (p.transform X.data)
  | .std p, X => (p.transform X.data).map (TArr.mk .float64)
  | .nrm b, X => (NRM.transform b X.data).map (storeData X.dtype)
  | .mav p, X => compiled (if p.w = none then .error .runtimeError else .ok ()) X.dtype (p.transform X.data)
  | .lag, X => (LAG.transform X.data).map (TArr.mk .float64)
  | .ffn p, X => (p.transform X.data).map (TArr.mk .float64)
  | .rin p, X => compiled (if p.fitted.isNone then .error .runtimeError else .ok ()) X.dtype (p.transform X.data)
  | .rdw p, X => (p.transform X.data).map (TArr.mk .float64)
  | .jld p, X => compiled (if p.fitted.isNone then .error .attributeError else .ok ()) X.dtype (p.transform X.data)
  | .spe p, X =>
    if p.step.isNone then (p.transform T C.data X.data).map (TArr.mk .float64)
    else compiled (.ok ()) C.dtype (p.transform T C.data X.data)
  | .rpe p, X => compiled (if shape1 X.data ≠ 2 then .error .valueError else .ok ()) X.dtype (p.transform X.data)
  | .cts p, X => (p.transform X.data).map (TArr.mk X.dtype)
  | .qtc p, X => (p.transform X.data).map (TArr.mk .float64)
  | .func f, X => (f X.data).map (TArr.mk .float64)
  | .dil p, X => (p.transform X.data).map (TArr.mk X.dtype)
  | .win p, X => match C.dtype with
    | .int64 => .error .typeError
    | .float64 => (p.transform T C.data X.data).map (TArr.mk X.dtype)
  | .dot p, X => (p.transform X.data).map (TArr.mk .float64)
  | .pdd p, X => (p.transform X.data).map (TArr.mk X.dtype)
  | .dim p dims, X => do
    let sub ← selectDims dims X.data
    let Y ← Prep.transformT T ⟨X.dtype, sub⟩ p ⟨X.dtype, sub⟩
    let rest ← deleteDims dims X.data
    (concatDims rest Y.data).map (TArr.mk (X.dtype.join Y.dtype))
  | .new none, X => .ok ⟨X.dtype, X.data.map fun s => s ++ s⟩
  | .new (some p), X => do
    let Y ← Prep.transformT T X p X
    (appendDims X.data Y.data).map (storeData X.dtype)

/-- The preparateurs of a slice, one after the other; they share the cache of the input `C` (`fruits/fruit.py:523-528`). -/
def prepsT [NpMath R] (T : FloatText R) (C : TArr R) : List (Prep R) → TArr R → Except Err (TArr R)
  | [], X => .ok X
  | p :: ps, X => do
    let Y ← p.transformT T C X
    prepsT T C ps Y

/-- iss.py 50-65 for a typed array: a `SimpleWord` calls a compiled function (`semiring.py:168-169,355-356,538-539`), which raises
for integers; a general `Word` (`semiring.py:54-75`, `:428-446`) starts from `np.ones`/`np.zeros` of floats and works for both. -/
def ISSConf.batchLoopT (expf : R → R) (c : ISSConf R) (t : DType) (X : Data R) :
    List (IWord R) → ℕ → ℕ → Data R → Except Err (Data R)
  | [], _, _, results => .ok results
  | .simple w :: ws, i, index, results =>
    match t with
    | .int64 => .error .typeError
    | .float64 => do
      let rows := swapAxes (rowsOf c.semiring (.simple w) (c.depth i))
        (iteratedSums expf c.semiring X (.simple w) (c.depth i) c.weighting)
      let results ← setRows results index (c.nWord i (.simple w)) rows
      c.batchLoopT expf t X ws (i + 1) (index + c.nWord i (.simple w)) results
  | .general w :: ws, i, index, results => do
    let rows := swapAxes (rowsOf c.semiring (.general w) (c.depth i))
      (iteratedSums expf c.semiring X (.general w) (c.depth i) c.weighting)
    let results ← setRows results index (c.nWord i (.general w)) rows
    c.batchLoopT expf t X ws (i + 1) (index + c.nWord i (.general w)) results

/-- iss.py 118-134 `ISS._transform` for a typed array, called on its own (a weighting then reads the same array); the result is a float array (`iss.py:47`, `np.zeros`). -/
def ISSConf.transformT (expf : R → R) (c : ISSConf R) (X : TArr R) : Except Err (Data R) :=
  if c.words.length = 0 then .error .stopIteration
  else do
    let m ← c.nBatch 0 c.words.length
    c.batchLoopT expf X.dtype X.data c.words 0 0 (List.replicate m (X.data.map (fun Z => zeros (ncols Z))))

end Fruits
