import Verif.RoundedKernels

/-!
# `fastmath=True`

All kernels of `fruits/iss/semiring.py` are compiled with `fastmath=True`, which allows the compiler to reorder and regroup additions and
multiplications, to multiply with reciprocals instead of dividing and to skip the rounding of intermediate results (fused operations).  Here the
kernels are executed symbolically: every entry of the result is the expression (`Expr`) that the source text prescribes.  A compiled program may
rewrite this expression (`Rw`) and evaluate the result with or without a rounding after each operation (`Ev`); `Fast` are all numbers it may return.

Simplifications: as in `Verif.Rounded`, overflow, underflow, infinities and NaN are not modelled (`fastmath` assumes that they do not occur); the values
of the exponential function, computed by a library function, are constants of the expression; dividing by a product instead of dividing twice is not
among the rewrites.
-/

namespace Fruits
set_option linter.unusedSectionVars false

/-- Arithmetic expressions. -/
inductive Expr (R : Type) where
  /-- A number of the input, or a constant. -/
  | const (c : R)
  | add (a b : Expr R)
  | neg (a : Expr R)
  | mul (a b : Expr R)
  /-- `a / z` for a number `z` of the input. -/
  | divBy (a : Expr R) (z : R)
  /-- `1 / z` for a number `z` of the input. -/
  | recip (z : R)
  | max (a b : Expr R)

namespace Expr
variable {R : Type}

instance [Zero R] : Zero (Expr R) := ⟨.const 0⟩
instance : Max (Expr R) := ⟨.max⟩

/-- The number of summands of the outermost sum. -/
def terms : Expr R → ℕ
  | add a b => a.terms + b.terms
  | neg a => a.terms
  | _ => 1

/-- What a compiler may do to an expression under `fastmath`. -/
inductive Rw [Zero R] [One R] : Expr R → Expr R → Prop
  | refl (a) : Rw a a
  | trans {a b c} : Rw a b → Rw b c → Rw a c
  | add_congr {a a' b b'} : Rw a a' → Rw b b' → Rw (add a b) (add a' b')
  | mul_congr {a a' b b'} : Rw a a' → Rw b b' → Rw (mul a b) (mul a' b')
  | max_congr {a a' b b'} : Rw a a' → Rw b b' → Rw (max a b) (max a' b')
  | neg_congr {a a'} : Rw a a' → Rw (neg a) (neg a')
  | div_congr {a a'} (z) : Rw a a' → Rw (divBy a z) (divBy a' z)
  | add_comm (a b) : Rw (add a b) (add b a)
  | add_assoc (a b c) : Rw (add (add a b) c) (add a (add b c))
  | add_assoc' (a b c) : Rw (add a (add b c)) (add (add a b) c)
  | mul_comm (a b) : Rw (mul a b) (mul b a)
  | mul_assoc (a b c) : Rw (mul (mul a b) c) (mul a (mul b c))
  | mul_assoc' (a b c) : Rw (mul a (mul b c)) (mul (mul a b) c)
  | max_comm (a b) : Rw (max a b) (max b a)
  | max_assoc (a b c) : Rw (max (max a b) c) (max a (max b c))
  | max_assoc' (a b c) : Rw (max a (max b c)) (max (max a b) c)
  | zero_add (a) : Rw (add (const 0) a) a
  | one_mul (c) : Rw (mul (const 1) (const c)) (const c)
  | neg_neg (a) : Rw (neg (neg a)) a
  | neg_add (a b) : Rw (neg (add a b)) (add (neg a) (neg b))
  | neg_add' (a b) : Rw (add (neg a) (neg b)) (neg (add a b))
  | mul_neg (a b) : Rw (mul a (neg b)) (neg (mul a b))
  | mul_neg' (a b) : Rw (neg (mul a b)) (mul a (neg b))
  | div_recip (a z) : Rw (divBy a z) (mul a (recip z))
  | div_mul (a b z) : Rw (divBy (mul a b) z) (mul a (divBy b z))
  | div_mul' (a b z) : Rw (mul a (divBy b z)) (divBy (mul a b) z)
  /-- Factoring out, if `a` and `b` are no sums. -/
  | factor (x a b) : a.terms = 1 → b.terms = 1 → Rw (add (mul x a) (mul x b)) (mul x (add a b))

section eval
variable [Field R] [LinearOrder R] (F : Fp R)

/-- `y` is a possible result of an operation with exact result `v`: rounded or, in a fused operation, not rounded. -/
def Rounds (v y : R) : Prop := y = F.rnd v ∨ y = v

/-- The numbers an evaluation of an expression may yield; `max` and the change of the sign are exact. -/
inductive Ev : Expr R → R → Prop
  | const (c) : Ev (const c) c
  | add {a b x y z} : Ev a x → Ev b y → Rounds F (x + y) z → Ev (add a b) z
  | neg {a x} : Ev a x → Ev (neg a) (-x)
  | mul {a b x y z} : Ev a x → Ev b y → Rounds F (x * y) z → Ev (mul a b) z
  | divBy {a x w z} : Ev a x → Rounds F (x / w) z → Ev (divBy a w) z
  | recip {w z} : Rounds F w⁻¹ z → Ev (recip w) z
  | max {a b x y} : Ev a x → Ev b y → Ev (max a b) (Max.max x y)

/-- `y` may be returned by a compiled program whose source text prescribes the expression `e`. -/
def Fast (e : Expr R) (y : R) : Prop := ∃ e', Rw e e' ∧ Ev F e' y

/-- The evaluation that the source text prescribes: every operation is rounded, none is moved. -/
def ev : Expr R → R
  | const c => c
  | add a b => F.rnd (a.ev + b.ev)
  | neg a => -a.ev
  | mul a b => F.rnd (a.ev * b.ev)
  | divBy a z => F.rnd (a.ev / z)
  | recip z => F.rnd z⁻¹
  | max a b => Max.max a.ev b.ev

end eval

/-! ### symbolic execution of the kernels -/

/-- `x + y`, elementwise. -/
def vadd (x y : List (Expr R)) : List (Expr R) := List.zipWith add x y
/-- `x - y`, elementwise. -/
def vsub (x y : List (Expr R)) : List (Expr R) := List.zipWith (fun a b => add a (neg b)) x y
/-- `x * y` with an array of numbers, elementwise. -/
def vmul (x : List (Expr R)) (y : List R) : List (Expr R) := List.zipWith (fun a c => mul a (const c)) x y
/-- `x / y` with an array of numbers, elementwise. -/
def vdiv (x : List (Expr R)) (y : List R) : List (Expr R) := List.zipWith divBy x y
/-- `weights * a` with a scalar. -/
def vscale (weights : List R) (a : R) : List (Expr R) := weights.map fun w => mul (const w) (const a)

/-- The loop of `np.cumsum` (numba: `c = 0; for v in a: c += v; out[i] = c`). -/
def cumsumFrom (acc : Expr R) : List (Expr R) → List (Expr R)
  | [] => []
  | x :: xs => add acc x :: cumsumFrom (add acc x) xs

section kernels
variable [Field R] [LinearOrder R]

/-- `np.cumsum(x)`. -/
def cumsum (x : List (Expr R)) : List (Expr R) := cumsumFrom 0 x

/-- semiring.py 111-116 (also 149-154, 475-480, 512-517), symbolic. -/
def letterMul (Z : List (List R)) (letter : ℕ) (occ : ℤ) (tmp : List (Expr R)) : List (Expr R) :=
  if occ > 0 then (fun tmp => vmul tmp (row Z letter))^[occ.toNat] tmp
  else if occ < 0 then (fun tmp => vdiv tmp (row Z letter))^[(-occ).toNat] tmp
  else tmp

/-- semiring.py 110-116, symbolic. -/
def lettersMul (Z : List (List R)) (el : List ℤ) (tmp : List (Expr R)) : List (Expr R) :=
  enumFold (fun letter occ tmp => letterMul Z letter occ tmp) 0 el tmp

/-- semiring.py 296-297, 328-329, symbolic. -/
def lettersAdd (Z : List (List R)) (el : List ℤ) (tmp : List (Expr R)) : List (Expr R) :=
  enumFold (fun dim (e : ℤ) tmp => vadd tmp ((row Z dim).map fun x => mul (const (e : R)) (const x))) 0 el tmp

/-- `np.exp(weights * a)`, `m` being the exponential function of the machine. -/
def expW (m : R → R) (weights : List R) (a : R) : List R := weights.map fun w => m (w * a)
/-- `np.exp(-weights * a)`. -/
def expNegW (m : R → R) (weights : List R) (a : R) : List R := weights.map fun w => m (-w * a)

/-- `np.zeros`. -/
def zeros (n : ℕ) : List (Expr R) := List.replicate n (const 0)
/-- `np.ones`. -/
def ones (n : ℕ) : List (Expr R) := List.replicate n (const 1)

/-- semiring.py 93-125 `_reals_single`, symbolic. -/
def realsSingle (m : R → R) (Z : List (List R)) (word : List (List ℤ))
    (alpha weights : List R) (extended : ℕ) : List (List (Expr R)) :=
  (enumFold (fun k el (s : List (Expr R) × List (List (Expr R))) =>
      let tmp := s.1
      let result := s.2
      let tmp := if k > 0 then roll1z tmp else tmp
      let tmp := lettersMul Z el tmp
      let tmp := if k > 0 then vmul tmp (expNegW m weights (alpha.getD (k - 1) 0)) else tmp
      let result := if word.length - k ≤ extended
        then result.set (extended - (word.length - k)) (cumsum tmp) else result
      let tmp := if k < word.length - 1
        then cumsum (vmul tmp (expW m weights (alpha.getD k 0))) else tmp
      (tmp, result))
    0 word (ones (ncols Z), List.replicate extended (zeros (ncols Z)))).2

/-- semiring.py 128-158 `_total_weighted_reals_single`, symbolic. -/
def totalReals (m : R → R) (Z : List (List R)) (word : List (List ℤ))
    (alpha weights : List R) (extended : ℕ) : List (List (Expr R)) :=
  (enumFold (fun k el (s : List (Expr R) × List (List (Expr R))) =>
      let tmp := s.1
      let result := s.2
      let tmp := lettersMul Z el tmp
      let tmp := vmul tmp (expW m weights (alpha.getD k 0))
      let tmp := cumsum tmp
      let result := if word.length - k ≤ extended
        then result.set (extended - (word.length - k)) (vmul tmp (expNegW m weights (alpha.getD k 0))) else result
      let tmp := if k < word.length - 1
        then vmul (roll1z tmp) (expNegW m weights (alpha.getD k 0)) else tmp
      (tmp, result))
    0 word (ones (ncols Z), List.replicate extended (zeros (ncols Z)))).2

/-- semiring.py 282-311 `_arctic_single`, symbolic. -/
def arcticSingle (Z : List (List R)) (word : List (List ℤ))
    (alpha weights : List R) (extended : ℕ) : List (List (Expr R)) :=
  (enumFold (fun k el (s : List (Expr R) × List (List (Expr R))) =>
      let tmp := s.1
      let result := s.2
      let tmp := lettersAdd Z el tmp
      let tmp := if k > 0 then vsub tmp (vscale weights (alpha.getD (k - 1) 0)) else tmp
      let result := if word.length - k ≤ extended
        then result.set (extended - (word.length - k))
          (maxRowLoop (result.getD (extended - (word.length - k)) []) tmp) else result
      let tmp := if k < word.length - 1
        then maxLoop (vadd tmp (vscale weights (alpha.getD k 0))) else tmp
      (tmp, result))
    0 word (zeros (ncols Z), List.replicate extended (zeros (ncols Z)))).2

/-- semiring.py 314-338 `_total_weighted_arctic_single`, symbolic. -/
def totalArctic (Z : List (List R)) (word : List (List ℤ))
    (alpha weights : List R) (extended : ℕ) : List (List (Expr R)) :=
  (enumFold (fun k el (s : List (Expr R) × List (List (Expr R))) =>
      let tmp := s.1
      let result := s.2
      let tmp := lettersAdd Z el tmp
      let tmp := vadd tmp (vscale weights (alpha.getD k 0))
      let tmp := maxLoop tmp
      let result := if word.length - k ≤ extended
        then result.set (extended - (word.length - k)) (vsub tmp (vscale weights (alpha.getD k 0))) else result
      let tmp := if k < word.length - 1
        then vsub tmp (vscale weights (alpha.getD k 0)) else tmp
      (tmp, result))
    0 word (zeros (ncols Z), List.replicate extended (zeros (ncols Z)))).2

/-- semiring.py 461-495 `_bayesian_single`, symbolic. -/
def bayesianSingle (m : R → R) (Z : List (List R))
    (word : List (List ℤ)) (alpha weights : List R) (extended : ℕ) : List (List (Expr R)) :=
  (enumFold (fun k el (s : List (Expr R) × List (List (Expr R))) =>
      let tmp := s.1
      let result := s.2
      let tmp := lettersMul Z el tmp
      let tmp := if k > 0 then vmul tmp (expNegW m weights (alpha.getD (k - 1) 0)) else tmp
      let result := if word.length - k ≤ extended
        then result.set (extended - (word.length - k))
          (maxRowLoop (result.getD (extended - (word.length - k)) []) tmp) else result
      let tmp := if k < word.length - 1
        then maxLoop (vmul tmp (expW m weights (alpha.getD k 0))) else tmp
      (tmp, result))
    0 word (ones (ncols Z), List.replicate extended (ones (ncols Z)))).2

/-- semiring.py 498-527 `_total_weighted_bayesian_single`, symbolic. -/
def totalBayesian (m : R → R) (Z : List (List R))
    (word : List (List ℤ)) (alpha weights : List R) (extended : ℕ) : List (List (Expr R)) :=
  (enumFold (fun k el (s : List (Expr R) × List (List (Expr R))) =>
      let tmp := s.1
      let result := s.2
      let tmp := lettersMul Z el tmp
      let tmp := vmul tmp (expW m weights (alpha.getD k 0))
      let tmp := maxLoop tmp
      let result := if word.length - k ≤ extended
        then result.set (extended - (word.length - k)) (vmul tmp (expNegW m weights (alpha.getD k 0))) else result
      let tmp := if k < word.length - 1
        then vmul tmp (expNegW m weights (alpha.getD k 0)) else tmp
      (tmp, result))
    0 word (ones (ncols Z), List.replicate extended (zeros (ncols Z)))).2

/-- `Reals._iterated_sum_fast` 175-206, `Arctic._iterated_sum_fast` 362-400, `Bayesian._iterated_sum_fast` 544-574, for
one series, symbolic. -/
def fastSingle (m : R → R) (k : RKind) (Z : List (List R))
    (word : List (List ℤ)) (alpha lookup : List R) (extended : ℕ) (total : Bool) : List (List (Expr R)) :=
  match k, total with
  | .reals, true => totalReals m Z word alpha lookup extended
  | .reals, false => realsSingle m Z word alpha lookup extended
  | .arctic, true => totalArctic Z word alpha lookup extended
  | .arctic, false => arcticSingle Z word alpha lookup extended
  | .bayesian, true => totalBayesian m Z word alpha lookup extended
  | .bayesian, false => bayesianSingle m Z word alpha lookup extended

end kernels
end Expr

/-- All arrays that a compiled `_iterated_sum_fast` may return for one series: every entry is a possible result of its expression. -/
def Fp.FastSingle {R : Type} [Field R] [LinearOrder R] (F : Fp R) (expf : R → R) (k : RKind) (Z : List (List R))
    (word : List (List ℤ)) (alpha lookup : List R) (extended : ℕ) (total : Bool) (out : List (List R)) : Prop :=
  List.Forall₂ (List.Forall₂ (Expr.Fast F)) (Expr.fastSingle (F.mexp expf) k Z word alpha lookup extended total) out

/-- semiring.py 14-41 `Semiring.iterated_sums` for a `SimpleWord`: all arrays a compiled program may return. -/
def Fp.FastSums {R : Type} [Field R] [LinearOrder R] (F : Fp R) (expf : R → R) (k : RKind) (X : Data R) (w : SWord R) (extended : ℕ)
    (weighting : Option (Weighting R)) (out : Data R) : Prop :=
  let alpha := match weighting with
    | some _ => w.getAlpha
    | none => Fruits.zeros w.els.length
  let lookup := match weighting with
    | some wt => wt.lookup X
    | none => X.map (fun Z => Fruits.zeros (ncols Z))
  let total := match weighting with
    | some wt => wt.total
    | none => true
  out.length = X.length ∧ ∀ j < X.length,
    F.FastSingle expf k (X.getD j []) w.els alpha (lookup.getD j []) extended total (out.getD j [])

/-- iss.py 21-67, 118-134 `ISS.transform` in mode SINGLE for a list of `SimpleWord`s: all arrays a compiled program may return. -/
def Fp.FastISS {R : Type} [Field R] [LinearOrder R] (F : Fp R) (expf : R → R) (k : RKind) (words : List (SWord R))
    (weighting : Option (Weighting R)) (X : Data R) (out : Data R) : Prop :=
  List.Forall₂ (fun w A => ∃ B, F.FastSums expf k X w 1 weighting B ∧ A = B.map fun rows => rows.getD 0 []) words out

end Fruits
