import Verif.KernelLemmas

/-!
# Arithmetic with missing values

`numpy` marks a missing value with `nan`.  `Mv R` are the numbers together with `nan`; the kernels of `Verif.Semiring` are executed on `Mv R`
unchanged.

Simplifications: infinities are not modelled, hence a quotient by zero is not described (as in `Verif.Semiring`).  The kernels are compiled with
`fastmath=True`, under which a compiler need not respect `nan`; modelled is what the source text says.
-/

namespace Fruits
set_option linter.unusedSectionVars false

/-- A `float64` which is a number or `nan` (semiring.py 1-10: `np.float64`). -/
inductive Mv (R : Type) where
  | num (x : R)
  | nan
  deriving DecidableEq, Repr

namespace Mv
variable {R : Type}

/-- An operation with a missing operand has the result `nan`. -/
def lift₂ (op : R → R → R) : Mv R → Mv R → Mv R
  | num x, num y => num (op x y)
  | _, _ => nan

/-- `np.exp` and the sign: `nan` at a missing value. -/
def lift (f : R → R) : Mv R → Mv R
  | num x => num (f x)
  | nan => nan

/-- The built-in `max(a, b)` of compiled code (semiring.py 304-306, 310, 333, 488-490, 494, 522): `b if b > a else a`; a comparison with `nan` is
false. -/
def pyMax [LinearOrder R] : Mv R → Mv R → Mv R
  | nan, _ => nan
  | num x, nan => num x
  | num x, num y => num (max x y)

instance [Zero R] : Zero (Mv R) := ⟨num 0⟩
instance [One R] : One (Mv R) := ⟨num 1⟩
instance [IntCast R] : IntCast (Mv R) := ⟨fun z => num z⟩
instance [Add R] : Add (Mv R) := ⟨lift₂ (· + ·)⟩
instance [Sub R] : Sub (Mv R) := ⟨lift₂ (· - ·)⟩
instance [Mul R] : Mul (Mv R) := ⟨lift₂ (· * ·)⟩
instance [Div R] : Div (Mv R) := ⟨lift₂ (· / ·)⟩
instance [Neg R] : Neg (Mv R) := ⟨lift fun x => -x⟩
instance [LinearOrder R] : Max (Mv R) := ⟨pyMax⟩

/-- An array without missing values (`alpha` and `weights`, semiring.py 96-97, 131-132, 288-289, 320-321, 467-468, 504-505). -/
def nums (x : List R) : List (Mv R) := x.map num

/-- `Reals`/`Arctic`/`Bayesian._iterated_sum_fast` (semiring.py 175-206, 362-400, 544-574) for one series with missing values; `Arctic(argmax=True)`
is not modelled. -/
def fastSum [Field R] [LinearOrder R] (expf : R → R) (k : SemiringKind) (Z : List (List (Mv R))) (word : List (List ℤ)) (alpha lookup : List R)
    (extended : ℕ) (total : Bool) : List (List (Mv R)) :=
  match k, total with
  | .reals, true => totalReals (lift expf) Z word (nums alpha) (nums lookup) extended
  | .reals, false => realsSingle (lift expf) Z word (nums alpha) (nums lookup) extended
  | .arctic, true => totalArctic Z word (nums alpha) (nums lookup) extended
  | .arctic, false => arcticSingle Z word (nums alpha) (nums lookup) extended
  | .bayesian, true => totalBayesian (lift expf) Z word (nums alpha) (nums lookup) extended
  | .bayesian, false => bayesianSingle (lift expf) Z word (nums alpha) (nums lookup) extended
  | .arcticArgmax, _ => []

/-- The loops over the series (semiring.py 183-205, 376-399, 552-573). -/
def fastData [Field R] [LinearOrder R] (expf : R → R) (k : SemiringKind) (X : List (List (List (Mv R)))) (word : List (List ℤ)) (alpha : List R)
    (lookup : List (List R)) (extended : ℕ) (total : Bool) : List (List (List (Mv R))) :=
  List.zipWith (fun Z l => fastSum expf k Z word alpha l extended total) X lookup

/-- `np.maximum`, which returns `nan` if one of its arguments is `nan` (semiring.py 457-458, 600-601). -/
def npMax [LinearOrder R] : Mv R → Mv R → Mv R := lift₂ max

/-- `_iterated_sum` of the three semirings, for words with arbitrary letters, for one series with missing values (semiring.py 54-75, 221-231,
428-458, 591-601). -/
def slowSum [Field R] [LinearOrder R] (k : SemiringKind) (Z : List (List (Mv R))) (word : List (List (BoundLetter (Mv R)))) (extended : ℕ) :
    List (List (Mv R)) :=
  match k with
  | .reals => genericSingle 1 (· * ·) cumsum Z word extended
  | .arctic | .arcticArgmax => @arcticGenericSingle (Mv R) _ _ ⟨npMax⟩ Z word extended
  | .bayesian => genericSingle 1 (· * ·) (@maxAcc (Mv R) ⟨npMax⟩) Z word extended

end Mv

end Fruits
