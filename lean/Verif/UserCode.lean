import Verif.WordOps
import Verif.ISS

/-! # User-defined letters and semirings

`fruits/iss/words/letters.py` (the decorator `letter`) and the part of `fruits/iss/semiring.py` that a user-defined
subclass of `Semiring` uses. -/

namespace Fruits
set_option linter.unusedSectionVars false

variable {R : Type}

/-! ### The decorator `letter` -/

/-- A user's function `func(X, i)` with its `__name__`. -/
structure UserLetter (R : Type) where
  name : PStr
  fn : List (List R) → ℤ → List R

/-- letters.py 185-189, 197-201: `wrapper(i)` returns `index_manipulation`, which calls `func(X, i)`. -/
def UserLetter.wrap (f : UserLetter R) : ℤ → BoundLetter R := fun i X => f.fn X i

/-- A positional argument of `letter`: a function, or something that is not callable. -/
inductive LetterArg (R : Type)
  | fn (f : UserLetter R)
  | other

/-- What `letter` returns: the wrapper of a registered letter, or a decorator that still waits for the function. -/
inductive LetterResult (R : Type)
  | wrapper (f : ℤ → BoundLetter R)
  | decorator (name : PStr)

/-- letters.py 123-129 (overloads), 132-206 `letter(*args, name=...)`: the new registry and the returned value.  With a name the positional
argument is not used. -/
def letterCall (reg : Registry R) (args : List (LetterArg R)) (name : Option PStr) :
    Except Err (Registry R × LetterResult R) :=
  if 1 < args.length then .error .runtimeError
  else match name, args with
    | none, [.fn f] => do
      let reg' ← reg.log f.name f.wrap
      .ok (reg', .wrapper f.wrap)
    | none, _ => .error .valueError
    | some n, _ => .ok (reg, .decorator n)

/-- letters.py 195-204: calling the returned decorator with a function. -/
def letterDecorate (reg : Registry R) (name : PStr) (f : UserLetter R) :
    Except Err (Registry R × (ℤ → BoundLetter R)) := do
  let reg' ← reg.log name f.wrap
  .ok (reg', f.wrap)

/-- letters.py 74-75 `ExtendedLetter.__len__`. -/
def ELetter.len (el : ELetter R) : ℕ := el.letters.length

/-- letters.py 77-78 `ExtendedLetter.__getitem__` for an index `>= 0`. -/
def ELetter.getItem (el : ELetter R) (i : ℕ) : Except Err (BoundLetter R) :=
  match el.letters[i]?, el.dims[i]? with
  | some l, some d => .ok (l d)
  | _, _ => .error .indexError

/-- letters.py 55-61 `ExtendedLetter.copy`. -/
def ELetter.copy (el : ELetter R) : ELetter R := { (ELetter.empty : ELetter R) with letters := el.letters, dims := el.dims, repr := el.repr }

/-! ### User-defined semirings -/

/-- The three abstract methods of a subclass of `Semiring`, semiring.py 77-90: `_identity` (an array filled with `ident`),
`_operation` (entrywise) and `_cumulative_operation`. -/
structure UserSemiring (R : Type) where
  ident : R
  op : R → R → R
  cum : List R → List R

/-- semiring.py 14-41 `Semiring.iterated_sums` for a subclass that only defines the three abstract methods:
`iterated_sum_fast` (43-52) raises `NotImplementedError`, which is caught, and a simple word is replaced by a word with `DIM`
letters; then `_iterated_sum` (54-75).  (A weighting has no effect, except that its lookup is computed and thrown away.) -/
def UserSemiring.iteratedSums [Field R] (reg : Registry R) (s : UserSemiring R) (X : Data R) (word : IWord R)
    (extended : ℕ) : Except Err (Data R) := do
  let w ← match word with
    | .simple w => (replaceLetters reg w ["DIM".toList]).map Prod.fst
    | .general w => .ok w
  .ok (X.map fun Z => genericSingle s.ident s.op s.cum Z (w.els.map ELetter.bound) extended)

end Fruits
