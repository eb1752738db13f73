import Verif.ISS
import Verif.Cache
import Mathlib.Algebra.Order.Round
import Mathlib.Data.Int.Log

/-!
# Rounded arithmetic

The rest of the model computes in an exact ordered field.  Here the kernels of `fruits/iss/semiring.py` and the cumulated
norms of `fruits/cache.py` are written a second time with a rounding after **every** arithmetic operation, as `float64`
does: `x * y` becomes `rnd (x * y)`.

Simplifications: the rounding has a relative error bound for every number, that is, overflow, underflow, infinities and
NaN are not modelled; `fastmath=True` allows the compiler to reassociate and fuse operations, here the operations are
executed in the order of the source.  The operations `max`, comparisons and copies are exact in `float64` and are not rounded.
-/

namespace Fruits
set_option linter.unusedSectionVars false

/-- A floating-point format with round-to-nearest (or any other monotone rounding of relative error at most `u`); for
`float64` without exponent limits `u = 2⁻⁵³` (see `Fp.binary`). -/
structure Fp (R : Type) [Field R] [LinearOrder R] where
  /-- The machine number a real result is rounded to. -/
  rnd : R → R
  /-- The unit roundoff. -/
  u : R
  u_nonneg : 0 ≤ u
  u_lt_one : u < 1
  err : ∀ x, |rnd x - x| ≤ u * |x|
  mono : Monotone rnd
  idem : ∀ x, rnd (rnd x) = rnd x
  one : rnd 1 = 1

variable {R : Type}

section ops
variable [Field R] [LinearOrder R] (F : Fp R)

/-- `x` is a machine number. -/
def Fp.Rep (x : R) : Prop := F.rnd x = x

/-- `x + y`, elementwise (numpy). -/
def Fp.vadd (x y : List R) : List R := List.zipWith (fun a b => F.rnd (a + b)) x y
/-- `x - y`, elementwise (numpy). -/
def Fp.vsub (x y : List R) : List R := List.zipWith (fun a b => F.rnd (a - b)) x y
/-- `x * y`, elementwise (numpy). -/
def Fp.vmul (x y : List R) : List R := List.zipWith (fun a b => F.rnd (a * b)) x y
/-- `x / y`, elementwise (numpy). -/
def Fp.vdiv (x y : List R) : List R := List.zipWith (fun a b => F.rnd (a / b)) x y
/-- `x * a` with a scalar. -/
def Fp.vscale (x : List R) (a : R) : List R := x.map fun b => F.rnd (b * a)

/-- The loop of `np.cumsum` (numba: `c = 0; for v in a: c += v; out[i] = c`), started with the sum `acc`. -/
def Fp.cumsumFrom (acc : R) : List R → List R
  | [] => []
  | x :: xs => F.rnd (acc + x) :: Fp.cumsumFrom (F.rnd (acc + x)) xs

/-- `np.cumsum(x)`. -/
def Fp.cumsum (x : List R) : List R := F.cumsumFrom 0 x

/-- `np.exp(weights * a)`, with a rounded argument and a rounded result of the (otherwise exact) exponential. -/
def Fp.expW (expf : R → R) (weights : List R) (a : R) : List R :=
  weights.map fun w => F.rnd (expf (F.rnd (w * a)))

/-- `np.exp(-weights * a)`. -/
def Fp.expNegW (expf : R → R) (weights : List R) (a : R) : List R :=
  weights.map fun w => F.rnd (expf (F.rnd (-w * a)))

/-- semiring.py 111-116 (also 149-154, 475-480, 512-517), rounded. -/
def Fp.letterMul (Z : List (List R)) (letter : ℕ) (occ : ℤ) (tmp : List R) : List R :=
  if occ > 0 then (fun tmp => F.vmul tmp (row Z letter))^[occ.toNat] tmp
  else if occ < 0 then (fun tmp => F.vdiv tmp (row Z letter))^[(-occ).toNat] tmp
  else tmp

/-- semiring.py 110-116, rounded. -/
def Fp.lettersMul (Z : List (List R)) (el : List ℤ) (tmp : List R) : List R :=
  enumFold (fun letter occ tmp => F.letterMul Z letter occ tmp) 0 el tmp

/-- semiring.py 296-297, 328-329, rounded: the product `el*Z[dim]` and the sum are rounded. -/
def Fp.lettersAdd (Z : List (List R)) (el : List ℤ) (tmp : List R) : List R :=
  enumFold (fun dim (e : ℤ) tmp => F.vadd tmp ((row Z dim).map (fun x => F.rnd ((e : R) * x)))) 0 el tmp

/-- semiring.py 93-125 `_reals_single`, rounded. -/
def Fp.realsSingle (expf : R → R) (Z : List (List R)) (word : List (List ℤ))
    (alpha weights : List R) (extended : ℕ) : List (List R) :=
  (enumFold (fun k el (s : List R × List (List R)) =>
      let tmp := s.1
      let result := s.2
      let tmp := if k > 0 then roll1z tmp else tmp
      let tmp := F.lettersMul Z el tmp
      let tmp := if k > 0 then F.vmul tmp (F.expNegW expf weights (alpha.getD (k - 1) 0)) else tmp
      let result := if word.length - k ≤ extended
        then result.set (extended - (word.length - k)) (F.cumsum tmp) else result
      let tmp := if k < word.length - 1
        then F.cumsum (F.vmul tmp (F.expW expf weights (alpha.getD k 0))) else tmp
      (tmp, result))
    0 word (ones (ncols Z), List.replicate extended (zeros (ncols Z)))).2

/-- semiring.py 128-158 `_total_weighted_reals_single`, rounded. -/
def Fp.totalReals (expf : R → R) (Z : List (List R)) (word : List (List ℤ))
    (alpha weights : List R) (extended : ℕ) : List (List R) :=
  (enumFold (fun k el (s : List R × List (List R)) =>
      let tmp := s.1
      let result := s.2
      let tmp := F.lettersMul Z el tmp
      let tmp := F.vmul tmp (F.expW expf weights (alpha.getD k 0))
      let tmp := F.cumsum tmp
      let result := if word.length - k ≤ extended
        then result.set (extended - (word.length - k))
          (F.vmul tmp (F.expNegW expf weights (alpha.getD k 0))) else result
      let tmp := if k < word.length - 1
        then F.vmul (roll1z tmp) (F.expNegW expf weights (alpha.getD k 0)) else tmp
      (tmp, result))
    0 word (ones (ncols Z), List.replicate extended (zeros (ncols Z)))).2

/-- semiring.py 282-311 `_arctic_single`, rounded. -/
def Fp.arcticSingle (Z : List (List R)) (word : List (List ℤ))
    (alpha weights : List R) (extended : ℕ) : List (List R) :=
  (enumFold (fun k el (s : List R × List (List R)) =>
      let tmp := s.1
      let result := s.2
      let tmp := F.lettersAdd Z el tmp
      let tmp := if k > 0 then F.vsub tmp (F.vscale weights (alpha.getD (k - 1) 0)) else tmp
      let result := if word.length - k ≤ extended
        then result.set (extended - (word.length - k))
          (maxRowLoop (result.getD (extended - (word.length - k)) []) tmp) else result
      let tmp := if k < word.length - 1
        then maxLoop (F.vadd tmp (F.vscale weights (alpha.getD k 0))) else tmp
      (tmp, result))
    0 word (zeros (ncols Z), List.replicate extended (zeros (ncols Z)))).2

/-- semiring.py 314-338 `_total_weighted_arctic_single`, rounded. -/
def Fp.totalArctic (Z : List (List R)) (word : List (List ℤ))
    (alpha weights : List R) (extended : ℕ) : List (List R) :=
  (enumFold (fun k el (s : List R × List (List R)) =>
      let tmp := s.1
      let result := s.2
      let tmp := F.lettersAdd Z el tmp
      let tmp := F.vadd tmp (F.vscale weights (alpha.getD k 0))
      let tmp := maxLoop tmp
      let result := if word.length - k ≤ extended
        then result.set (extended - (word.length - k))
          (F.vsub tmp (F.vscale weights (alpha.getD k 0))) else result
      let tmp := if k < word.length - 1
        then F.vsub tmp (F.vscale weights (alpha.getD k 0)) else tmp
      (tmp, result))
    0 word (zeros (ncols Z), List.replicate extended (zeros (ncols Z)))).2

/-- semiring.py 461-495 `_bayesian_single`, rounded. -/
def Fp.bayesianSingle (expf : R → R) (Z : List (List R))
    (word : List (List ℤ)) (alpha weights : List R) (extended : ℕ) : List (List R) :=
  (enumFold (fun k el (s : List R × List (List R)) =>
      let tmp := s.1
      let result := s.2
      let tmp := F.lettersMul Z el tmp
      let tmp := if k > 0 then F.vmul tmp (F.expNegW expf weights (alpha.getD (k - 1) 0)) else tmp
      let result := if word.length - k ≤ extended
        then result.set (extended - (word.length - k))
          (maxRowLoop (result.getD (extended - (word.length - k)) []) tmp) else result
      let tmp := if k < word.length - 1
        then maxLoop (F.vmul tmp (F.expW expf weights (alpha.getD k 0))) else tmp
      (tmp, result))
    0 word (ones (ncols Z), List.replicate extended (ones (ncols Z)))).2

/-- semiring.py 498-527 `_total_weighted_bayesian_single`, rounded. -/
def Fp.totalBayesian (expf : R → R) (Z : List (List R))
    (word : List (List ℤ)) (alpha weights : List R) (extended : ℕ) : List (List R) :=
  (enumFold (fun k el (s : List R × List (List R)) =>
      let tmp := s.1
      let result := s.2
      let tmp := F.lettersMul Z el tmp
      let tmp := F.vmul tmp (F.expW expf weights (alpha.getD k 0))
      let tmp := maxLoop tmp
      let result := if word.length - k ≤ extended
        then result.set (extended - (word.length - k))
          (F.vmul tmp (F.expNegW expf weights (alpha.getD k 0))) else result
      let tmp := if k < word.length - 1
        then F.vmul tmp (F.expNegW expf weights (alpha.getD k 0)) else tmp
      (tmp, result))
    0 word (ones (ncols Z), List.replicate extended (zeros (ncols Z)))).2

/-- The semirings whose rounded kernels are modelled (`Arctic(argmax=True)` is not). -/
inductive RKind
  | reals | arctic | bayesian
  deriving DecidableEq, Repr

/-- The semiring of the exact model. -/
def RKind.toKind : RKind → SemiringKind
  | .reals => .reals
  | .arctic => .arctic
  | .bayesian => .bayesian

/-- `Reals._iterated_sum_fast` 175-206, `Arctic._iterated_sum_fast` 362-400, `Bayesian._iterated_sum_fast` 544-574, for
one series, rounded. -/
def Fp.fastSingle (expf : R → R) (k : RKind) (Z : List (List R))
    (word : List (List ℤ)) (alpha lookup : List R) (extended : ℕ) (total : Bool) : List (List R) :=
  match k, total with
  | .reals, true => F.totalReals expf Z word alpha lookup extended
  | .reals, false => F.realsSingle expf Z word alpha lookup extended
  | .arctic, true => F.totalArctic Z word alpha lookup extended
  | .arctic, false => F.arcticSingle Z word alpha lookup extended
  | .bayesian, true => F.totalBayesian expf Z word alpha lookup extended
  | .bayesian, false => F.bayesianSingle expf Z word alpha lookup extended

/-- semiring.py 14-41 `Semiring.iterated_sums` for a `SimpleWord`, rounded. -/
def Fp.iteratedSums (expf : R → R) (k : RKind) (X : Data R) (w : SWord R) (extended : ℕ)
    (weighting : Option (Weighting R)) : Data R :=
  let alpha := match weighting with
    | some _ => w.getAlpha
    | none => zeros w.els.length
  let lookup := match weighting with
    | some wt => wt.lookup X
    | none => X.map (fun Z => zeros (ncols Z))
  let total := match weighting with
    | some wt => wt.total
    | none => true
  X.mapIdx (fun j Z => F.fastSingle expf k Z w.els alpha (lookup.getD j []) extended total)

/-- iss.py 21-67, 118-134 `ISS.transform` in mode SINGLE for a list of `SimpleWord`s, rounded: one array per word. -/
def Fp.issSingle (expf : R → R) (k : RKind) (words : List (SWord R)) (weighting : Option (Weighting R)) (X : Data R) :
    Data R :=
  words.map fun w => (F.iteratedSums expf k X w 1 weighting).map fun rows => rows.getD 0 []

/-! ### `fruits/cache.py` -/

/-- `fruits/cache.py:8-13` `_increments` with `k = 1`, one row, rounded: `result[0] = 0; result[1:] = x[1:] - x[:-1]`. -/
def Fp.increments1 (x : List R) : List R :=
  match x with
  | [] => []
  | _ :: _ => 0 :: F.vsub (x.drop 1) (x.take (x.length - 1))

/-- `np.abs(v)` (exact) / `v*v` (rounded). -/
def Fp.normVal : Norm → R → R
  | .L1, v => |v|
  | .L2, v => F.rnd (v * v)

/-- `fruits/cache.py:25-40` `_L1_sum`, `_L2_sum` for the first dimension `x` of one series, rounded. -/
def Fp.normSum1 (nm : Norm) (x : List R) : List R := F.cumsum ((F.increments1 x).map (F.normVal nm))

/-- `fruits/cache.py:16-22` `_coquantile`, one row, rounded. -/
def Fp.coquantile1 (q : R) (x : List R) : ℕ :=
  (x.filter fun v => decide (v ≤ F.rnd (q * x.getD (x.length - 1) 0))).length

end ops

/-- Exact arithmetic as a special case. -/
def Fp.exact [Field R] [LinearOrder R] [IsStrictOrderedRing R] : Fp R where
  rnd x := x
  u := 0
  u_nonneg := le_rfl
  u_lt_one := zero_lt_one
  err x := by simp
  mono := fun _ _ h => h
  idem _ := rfl
  one := rfl

end Fruits
