import Verif.Np
import Mathlib.Algebra.Order.Floor.Ring

/-!
# Model of `fruits/iss/semiring.py`

`R` stands for `float64`.  `expf` is `np.exp`.  `alpha[k]` out of range cannot happen through the API
(`alpha` has `len(word)` entries, see `Word.alpha`); `getD … 0` is used for the read.
Dataset-level functions loop over the series one after another (`numba.prange` in the code: every iteration
writes its own row `result[j]`).
-/

namespace Fruits
variable {R : Type*}

/-- Number of time steps `Z.shape[1]` of a series with at least one dimension. -/
def ncols (Z : List (List R)) : ℕ := (Z.headD []).length

/-- semiring.py 111-116 (also 149-154, 475-480, 512-517): multiply (`occ > 0`) or divide (`occ < 0`)
`abs(occ)` times by dimension `letter`. -/
def letterMul [Mul R] [Div R] (Z : List (List R)) (letter : ℕ) (occ : ℤ) (tmp : List R) : List R :=
  if occ > 0 then (fun tmp => vmul tmp (row Z letter))^[occ.toNat] tmp
  else if occ < 0 then (fun tmp => vdiv tmp (row Z letter))^[(-occ).toNat] tmp
  else tmp

/-- semiring.py 110-116: the loop over the letters of one extended letter. -/
def lettersMul [Mul R] [Div R] (Z : List (List R)) (el : List ℤ) (tmp : List R) : List R :=
  enumFold (fun letter occ tmp => letterMul Z letter occ tmp) 0 el tmp

/-- semiring.py 296-297, 328-329: `for dim, el in enumerate(extended_letter): tmp = tmp + el*Z[dim]`. -/
def lettersAdd [Add R] [Mul R] [IntCast R] (Z : List (List R)) (el : List ℤ) (tmp : List R) : List R :=
  enumFold (fun dim (e : ℤ) tmp => vadd tmp ((row Z dim).map (fun x => (e : R) * x))) 0 el tmp

/-- `np.exp(weights * a)`. -/
def expW [Mul R] (expf : R → R) (weights : List R) (a : R) : List R :=
  weights.map (fun w => expf (w * a))

/-- `np.exp(-weights * a)`. -/
def expNegW [Mul R] [Neg R] (expf : R → R) (weights : List R) (a : R) : List R :=
  weights.map (fun w => expf (-w * a))

/-- semiring.py 93-125 `_reals_single`. State: `(tmp, result)`. -/
def realsSingle [Zero R] [One R] [Add R] [Mul R] [Div R] [Neg R] (expf : R → R) (Z : List (List R)) (word : List (List ℤ))
    (alpha weights : List R) (extended : ℕ) : List (List R) :=
  (enumFold (fun k el (s : List R × List (List R)) =>
      let tmp := s.1
      let result := s.2
      let tmp := if k > 0 then roll1z tmp else tmp
      let tmp := lettersMul Z el tmp
      let tmp := if k > 0 then vmul tmp (expNegW expf weights (alpha.getD (k - 1) 0)) else tmp
      let result := if word.length - k ≤ extended
        then result.set (extended - (word.length - k)) (cumsum tmp) else result
      let tmp := if k < word.length - 1
        then cumsum (vmul tmp (expW expf weights (alpha.getD k 0))) else tmp
      (tmp, result))
    0 word (ones (ncols Z), List.replicate extended (zeros (ncols Z)))).2

/-- semiring.py 128-158 `_total_weighted_reals_single`. -/
def totalReals [Zero R] [One R] [Add R] [Mul R] [Div R] [Neg R] (expf : R → R) (Z : List (List R)) (word : List (List ℤ))
    (alpha weights : List R) (extended : ℕ) : List (List R) :=
  (enumFold (fun k el (s : List R × List (List R)) =>
      let tmp := s.1
      let result := s.2
      let tmp := lettersMul Z el tmp
      let tmp := vmul tmp (expW expf weights (alpha.getD k 0))
      let tmp := cumsum tmp
      let result := if word.length - k ≤ extended
        then result.set (extended - (word.length - k))
          (vmul tmp (expNegW expf weights (alpha.getD k 0))) else result
      let tmp := if k < word.length - 1
        then vmul (roll1z tmp) (expNegW expf weights (alpha.getD k 0)) else tmp
      (tmp, result))
    0 word (ones (ncols Z), List.replicate extended (zeros (ncols Z)))).2

/-- semiring.py 282-311 `_arctic_single`. -/
def arcticSingle [Zero R] [Add R] [Sub R] [Mul R] [IntCast R] [Max R] (Z : List (List R)) (word : List (List ℤ))
    (alpha weights : List R) (extended : ℕ) : List (List R) :=
  (enumFold (fun k el (s : List R × List (List R)) =>
      let tmp := s.1
      let result := s.2
      let tmp := lettersAdd Z el tmp
      let tmp := if k > 0 then vsub tmp (vscale weights (alpha.getD (k - 1) 0)) else tmp
      let result := if word.length - k ≤ extended
        then result.set (extended - (word.length - k))
          (maxRowLoop (result.getD (extended - (word.length - k)) []) tmp) else result
      let tmp := if k < word.length - 1
        then maxLoop (vadd tmp (vscale weights (alpha.getD k 0))) else tmp
      (tmp, result))
    0 word (zeros (ncols Z), List.replicate extended (zeros (ncols Z)))).2

/-- semiring.py 314-338 `_total_weighted_arctic_single`. -/
def totalArctic [Zero R] [Add R] [Sub R] [Mul R] [IntCast R] [Max R] (Z : List (List R)) (word : List (List ℤ))
    (alpha weights : List R) (extended : ℕ) : List (List R) :=
  (enumFold (fun k el (s : List R × List (List R)) =>
      let tmp := s.1
      let result := s.2
      let tmp := lettersAdd Z el tmp
      let tmp := vadd tmp (vscale weights (alpha.getD k 0))
      let tmp := maxLoop tmp
      let result := if word.length - k ≤ extended
        then result.set (extended - (word.length - k))
          (vsub tmp (vscale weights (alpha.getD k 0))) else result
      let tmp := if k < word.length - 1
        then vsub tmp (vscale weights (alpha.getD k 0)) else tmp
      (tmp, result))
    0 word (zeros (ncols Z), List.replicate extended (zeros (ncols Z)))).2

/-- semiring.py 461-495 `_bayesian_single`. -/
def bayesianSingle [Zero R] [One R] [Mul R] [Div R] [Neg R] [Max R] (expf : R → R) (Z : List (List R))
    (word : List (List ℤ)) (alpha weights : List R) (extended : ℕ) : List (List R) :=
  (enumFold (fun k el (s : List R × List (List R)) =>
      let tmp := s.1
      let result := s.2
      let tmp := lettersMul Z el tmp
      let tmp := if k > 0 then vmul tmp (expNegW expf weights (alpha.getD (k - 1) 0)) else tmp
      let result := if word.length - k ≤ extended
        then result.set (extended - (word.length - k))
          (maxRowLoop (result.getD (extended - (word.length - k)) []) tmp) else result
      let tmp := if k < word.length - 1
        then maxLoop (vmul tmp (expW expf weights (alpha.getD k 0))) else tmp
      (tmp, result))
    0 word (ones (ncols Z), List.replicate extended (ones (ncols Z)))).2

/-- semiring.py 498-527 `_total_weighted_bayesian_single`. -/
def totalBayesian [Zero R] [One R] [Mul R] [Div R] [Neg R] [Max R] (expf : R → R) (Z : List (List R))
    (word : List (List ℤ)) (alpha weights : List R) (extended : ℕ) : List (List R) :=
  (enumFold (fun k el (s : List R × List (List R)) =>
      let tmp := s.1
      let result := s.2
      let tmp := lettersMul Z el tmp
      let tmp := vmul tmp (expW expf weights (alpha.getD k 0))
      let tmp := maxLoop tmp
      let result := if word.length - k ≤ extended
        then result.set (extended - (word.length - k))
          (vmul tmp (expNegW expf weights (alpha.getD k 0))) else result
      let tmp := if k < word.length - 1
        then vmul tmp (expNegW expf weights (alpha.getD k 0)) else tmp
      (tmp, result))
    0 word (ones (ncols Z), List.replicate extended (zeros (ncols Z)))).2

/-! ### the generic path for words with arbitrary letters -/

/-- A bound letter, `letters.py 8`: a function from a series `(dims, n)` to an array of length `n`. -/
abbrev BoundLetter (R : Type*) := List (List R) → List R

/-- semiring.py 65-67 (434-436): `C = identity; for letter in ext_letter: C = op(C, letter(Z))`. -/
def lettersOp (ident : R) (op : R → R → R) (Z : List (List R))
    (el : List (BoundLetter R)) : List R :=
  el.foldl (fun C letter => List.zipWith op C (letter Z)) (List.replicate (ncols Z) ident)

/-- `tmp[k:] = v` for a slice assignment of matching length. -/
def setFrom (tmp : List R) (k : ℕ) (v : List R) : List R := tmp.take k ++ v

/-- semiring.py 54-75 `Semiring._iterated_sum` for one series `Z[i]`; `ident`, `op`, `cum` are the abstract
`_identity`, `_operation`, `_cumulative_operation` (semiring.py 222-223, 226-227, 230-231, 449-450, 453-454, 457-458, 592-593, 596-597, 600-601). -/
def genericSingle [Zero R] (ident : R) (op : R → R → R) (cum : List R → List R)
    (Z : List (List R)) (word : List (List (BoundLetter R))) (extended : ℕ) : List (List R) :=
  (enumFold (fun k el (s : List R × List (List R)) =>
      let tmp := s.1
      let result := s.2
      let C := lettersOp ident op Z el
      let tmp := if k > 0 then roll1z tmp else tmp
      let tmp := setFrom tmp k (List.zipWith op (tmp.drop k) (C.drop k))
      let tmp := setFrom tmp k (cum (tmp.drop k))
      let result := if word.length - k ≤ extended
        then result.set (extended - (word.length - k)) tmp else result
      (tmp, result))
    0 word (List.replicate (ncols Z) ident, List.replicate extended (zeros (ncols Z)))).2

/-- semiring.py 423-445 `Arctic._iterated_sum` for one series. -/
def arcticGenericSingle [Zero R] [Add R] [Max R]
    (Z : List (List R)) (word : List (List (BoundLetter R))) (extended : ℕ) : List (List R) :=
  (enumFold (fun k el (s : List R × List (List R)) =>
      let tmp := s.1
      let result := s.2
      let C := lettersOp 0 (· + ·) Z el
      let tmp := vadd tmp C
      let tmp := maxAcc tmp
      let result := if word.length - k ≤ extended
        then result.set (extended - (word.length - k)) tmp else result
      (tmp, result))
    0 word (zeros (ncols Z), List.replicate extended (zeros (ncols Z)))).2

/-! ### `Arctic(argmax=True)` -/

/-- semiring.py 259-266: `result[2k,0] = tmp[0]; for i in range(1, n): if result[2k,i-1] >= tmp[i]: …`;
the pair is (row `2k`, row `2k+1`). -/
def argmaxRows [Field R] [LinearOrder R] (tmp : List R) : List R × List R :=
  (List.range' 1 (tmp.length - 1)).foldl
    (fun (r : List R × List R) i =>
      if r.1.getD (i - 1) 0 ≥ tmp.getD i 0
      then (r.1.set i (r.1.getD (i - 1) 0), r.2.set i (r.2.getD (i - 1) 0))
      else (r.1.set i (tmp.getD i 0), r.2.set i (i : R)))
    ((zeros tmp.length).set 0 (tmp.getD 0 0), zeros tmp.length)

/-- semiring.py 246-270: first loop of `_arctic_argmax_single`; state `(tmp, result)`. -/
def argmaxLoop [Field R] [LinearOrder R] (Z : List (List R)) (word : List (List ℤ))
    (alpha weights : List R) : List (List R) :=
  (enumFold (fun k el (s : List R × List (List R)) =>
      let tmp := s.1
      let result := s.2
      if el.all (· == 0) then (tmp, result) else
      let C := lettersAdd Z el (zeros (ncols Z))
      let tmp := vadd tmp C
      let tmp := if k > 0 then vsub tmp (vscale weights (alpha.getD (k - 1) 0)) else tmp
      let rows := argmaxRows tmp
      let result := (result.set (2 * k) rows.1).set (2 * k + 1) rows.2
      let tmp := if k < word.length - 1
        then maxLoop (vadd tmp (vscale weights (alpha.getD k 0))) else tmp
      (tmp, result))
    0 word (zeros (ncols Z), List.replicate (2 * word.length) (zeros (ncols Z)))).2

/-- `int(k + (k * (k+1) / 2))`. -/
def triIndex (k : ℕ) : ℕ := k + k * (k + 1) / 2

/-- semiring.py 278-281: the inner loop `for s in range(k, 0, -1)`, `s` the next value. -/
def translateInner [Field R] [LinearOrder R] [FloorRing R] (n : ℕ) (result : List (List R))
    (index : ℕ) : ℕ → List (List R) → List (List R)
  | 0, tr => tr
  | s + 1, tr =>
    let c := (⌊(row tr (index + (s + 1) + 1)).getD (n - 1) 0⌋ + 1).toNat
    let src := row result (2 * s + 1)
    translateInner n result index s
      (tr.set (index + (s + 1)) (src.take c ++ List.replicate (n - c) (src.getD (c - 1) 0)))

/-- semiring.py 274-281: the outer loop `for k in range(word.shape[0]-1, -1, -1)`. -/
def translateLoop [Field R] [LinearOrder R] [FloorRing R] (n : ℕ) (result : List (List R)) :
    ℕ → List (List R) → List (List R)
  | 0, tr => tr
  | k + 1, tr =>
    let index := triIndex k
    let tr := tr.set index (row result (2 * k))
    let tr := tr.set (index + k + 1) (row result (2 * k + 1))
    translateLoop n result k (translateInner n result index k tr)

/-- semiring.py 234-282 `_arctic_argmax_single`. -/
def arcticArgmax [Field R] [LinearOrder R] [FloorRing R] (Z : List (List R))
    (word : List (List ℤ)) (alpha weights : List R) : List (List R) :=
  translateLoop (ncols Z) (argmaxLoop Z word alpha weights) word.length
    (List.replicate (triIndex word.length) (zeros (ncols Z)))

/-- The semirings of the library: `Reals()`, `Arctic()`, `Arctic(argmax=True)` (`iss/semiring.py:406-407`), `Bayesian()`. -/
inductive SemiringKind
  | reals | arctic | arcticArgmax | bayesian
  deriving DecidableEq, Repr

/-- `Reals._iterated_sum_fast` 175-206, `Arctic._iterated_sum_fast` 362-400, `Bayesian._iterated_sum_fast`
544-574, for one series: select the kernel by `total_weighting`. -/
def fastSingle [Field R] [LinearOrder R] [FloorRing R] (expf : R → R) (k : SemiringKind) (Z : List (List R))
    (word : List (List ℤ)) (alpha lookup : List R) (extended : ℕ) (total : Bool) :
    List (List R) :=
  match k, total with
  | .reals, true => totalReals expf Z word alpha lookup extended
  | .reals, false => realsSingle expf Z word alpha lookup extended
  | .arctic, true => totalArctic Z word alpha lookup extended
  | .arctic, false => arcticSingle Z word alpha lookup extended
  | .arcticArgmax, _ => arcticArgmax Z word alpha lookup
  | .bayesian, true => totalBayesian expf Z word alpha lookup extended
  | .bayesian, false => bayesianSingle expf Z word alpha lookup extended

/-- `_iterated_sum` of the three semirings for one series: `Reals` 221-231, `Arctic` 423-457,
`Bayesian` 591-601 (which inherits `Semiring._iterated_sum`). -/
def slowSingle [Field R] [LinearOrder R] (k : SemiringKind) (Z : List (List R))
    (word : List (List (BoundLetter R))) (extended : ℕ) : List (List R) :=
  match k with
  | .reals => genericSingle 1 (· * ·) cumsum Z word extended
  | .arctic | .arcticArgmax => arcticGenericSingle Z word extended
  | .bayesian => genericSingle 1 (· * ·) maxAcc Z word extended

end Fruits
