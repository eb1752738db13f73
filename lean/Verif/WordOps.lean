import Verif.Word
import Mathlib.Computability.RegularExpressions
import Mathlib.Data.Nat.Digits.Defs
import Mathlib.Data.List.Sections
import Mathlib.Data.List.Permutation
import Mathlib.Data.List.Dedup

/-! # Model of the operations on words

`fruits/iss/words/word.py`, `creation.py` and `letters.py`.

Simplifications: `\d` and `int()` are modelled for the ten ASCII digits only (Python also accepts other Unicode
decimal digits); `alpha` is stored exactly (`np.float32` in the code). -/

namespace Fruits
variable {R : Type}

/-! ### `int(s)` and `str(n)` -/

/-- The digit character of `d < 10`. -/
def digitC (d : ℕ) : Char := Char.ofNat (48 + d)

/-- Value of a digit character. -/
def digitV (c : Char) : Option ℕ := if 48 ≤ c.toNat ∧ c.toNat ≤ 57 then some (c.toNat - 48) else none

/-- `int(s)` on a string of digits; other strings raise `ValueError`. -/
def pnat (s : PStr) : Except Err ℕ :=
  match s.mapM digitV with
  | none => .error .valueError
  | some [] => .error .valueError
  | some ds => .ok (ds.foldl (fun a d => 10 * a + d) 0)

/-- `int(s)` on a string of digits with an optional leading minus. -/
def pint (s : PStr) : Except Err ℤ :=
  match s with
  | '-' :: t => (pnat t).map fun n => -(n : ℤ)
  | _ => (pnat s).map fun n => (n : ℤ)

/-- `str(n)` of a natural number. -/
def showNat (n : ℕ) : PStr := if n = 0 then ['0'] else (Nat.digits 10 n).reverse.map digitC

/-- `str(i)` of an integer. -/
def showInt (i : ℤ) : PStr := if i < 0 then '-' :: showNat i.natAbs else showNat i.natAbs

/-! ### `SimpleWord` -/

section regex
open RegularExpression

/-- The regular expression `\d`. -/
def reDigit : RegularExpression Char :=
  char '0' + char '1' + char '2' + char '3' + char '4' + char '5' + char '6' + char '7' + char '8' + char '9'

/-- `-?`. -/
def reMinus : RegularExpression Char := 1 + char '-'

/-- `P+`. -/
def rePlus (P : RegularExpression Char) : RegularExpression Char := P * star P

/-- word.py 211 `(\[(-?\d|\(-?\d+\))+\])+`. -/
def simpleWordRe : RegularExpression Char :=
  rePlus (char '[' *
    rePlus (reMinus * reDigit + char '(' * (reMinus * (rePlus reDigit * char ')'))) * char ']')

end regex

/-- Position of the scan of one extended letter in word.py 219-240. -/
inductive ScanState
  | top
  /-- a `-` has been read at the top level -/
  | minus
  /-- inside parentheses, `temp` read so far -/
  | paren (temp : PStr)
  deriving DecidableEq

/-- word.py 221-239: the `while j < len(el_raw)` loop turning one raw extended letter into integers, written as a
one-pass scan (the inner `while el_raw[j] != ")"` loop is the state `paren`; running off the end there is an
`IndexError`). -/
def scanEl : ScanState → PStr → Except Err (List ℤ)
  | .top, [] => .ok []
  | .top, c :: r =>
    if c = '(' then scanEl (.paren []) r
    else if c = '-' then scanEl .minus r
    else do
      let v ← pint [c]
      let t ← scanEl .top r
      .ok (v :: t)
  | .minus, [] => .ok [-1]
  | .minus, c :: r => do
    let v ← pint ['-', c]
    let t ← scanEl .top r
    .ok (v :: t)
  | .paren _, [] => .error .indexError
  | .paren temp, c :: r =>
    if c = ')' then do
      let v ← pint (if temp = [] then ['1'] else temp)
      let t ← scanEl .top r
      .ok (v :: t)
    else scanEl (.paren (temp ++ [c])) r

/-- word.py 241 `max(abs(letter) for el_int in els_int for letter in el_int)` (0 for no letters, which the regular
expression excludes). -/
def maxLetter (els : List (List ℤ)) : ℕ := (els.flatten.map Int.natAbs).foldr max 0

/-- `el[abs(letter)-1]`: Python index of a letter in a list of length `len`; letter `0` addresses the last entry. -/
def letterIndex (len : ℕ) (letter : ℤ) : ℕ := if letter = 0 then len - 1 else letter.natAbs - 1

/-- word.py 249-253: one pass of the loop over `set(el_int)`. -/
def addLetter (elInt : List ℤ) (el : List ℤ) (letter : ℤ) : Except Err (List ℤ) :=
  let i := letterIndex el.length letter
  match el[i]? with
  | none => .error .indexError
  | some v => .ok (el.set i (v + if letter > 0 then (elInt.count letter : ℤ) else -(elInt.count letter : ℤ)))

/-- word.py 247-254: one extended letter; the set is iterated in the order `order`. -/
def countLetters (maxDim : ℕ) (order : List ℤ → List ℤ) (elInt : List ℤ) : Except Err (List ℤ) :=
  (order elInt).foldlM (addLetter elInt) (List.replicate maxDim 0)

/-- An order in which Python may iterate `set(xs)`, for every `xs`. -/
def SetOrder {α : Type} [DecidableEq α] (order : List α → List α) : Prop :=
  ∀ xs, (order xs).Perm xs.dedup

/-- word.py 203-254 `SimpleWord.multiply`. An exception after line 216 (which has already changed `_name`) only occurs
while the constructor runs, when the object is lost anyway. -/
def SWord.multiply (order : List ℤ → List ℤ) (w : SWord R) (other : PStr) : Except Err (SWord R) :=
  if simpleWordRe.rmatch other then do
    let name := w.name ++ other
    let elsRaw := (((psplit ']' other).map (List.drop 1)).dropLast)
    let elsInt ← elsRaw.mapM (scanEl .top)
    let m := maxLetter elsInt
    let els := if m > w.maxDim then w.els.map (· ++ List.replicate (m - w.maxDim) 0) else w.els
    let maxDim := if m > w.maxDim then m else w.maxDim
    let new ← elsInt.mapM (countLetters maxDim order)
    .ok { els := els ++ new, maxDim := maxDim, name := name, alpha := w.alpha }
  else .error .valueError

/-- word.py 196-201 `SimpleWord.__init__`. -/
def SWord.mk' (R : Type) (order : List ℤ → List ℤ) (s : PStr) : Except Err (SWord R) :=
  SWord.multiply order { els := [], maxDim := 0, name := [], alpha := none } s

/-- word.py 262-265 `SimpleWord.__eq__` between simple words. -/
def SWord.eqv (u v : SWord R) : Bool := u.els == v.els

/-- word.py 256-259 `SimpleWord.copy` (after `SimpleWord(self._name)`). -/
def SWord.copy (order : List ℤ → List ℤ) (w : SWord R) : Except Err (SWord R) := do
  let sw ← SWord.mk' R order w.name
  .ok { sw with els := w.els }

/-- word.py 78-82 `alpha` setter. -/
def SWord.setAlpha (w : SWord R) (a : List R) : Except Err (SWord R) :=
  if a.length ≠ w.els.length then .error .valueError else .ok { w with alpha := some a }

/-! ### `creation.py` -/

/-- creation.py 8-12 `_partitions_of` (`fuel` bounds the recursion depth; `n` is always enough). -/
def partitionsAux : ℕ → ℕ → ℕ → List (List ℕ)
  | 0, n, _ => [[n]]
  | fuel + 1, n, start =>
    [n] :: (List.range' start (n / 2 + 1 - start)).flatMap
      (fun i => (partitionsAux fuel (n - i) i).map (i :: ·))

/-- creation.py 8-12 `_partitions_of(n)`. -/
def partitionsOf (n : ℕ) : List (List ℕ) := partitionsAux n n 1

/-- `itertools.combinations_with_replacement(xs, w)`. -/
def combsRepl {α : Type} : List α → ℕ → List (List α)
  | _, 0 => [[]]
  | [], _ + 1 => []
  | x :: xs, w + 1 => (combsRepl (x :: xs) w).map (x :: ·) ++ combsRepl xs (w + 1)

/-- creation.py 16-18: a letter inside the brackets. -/
def showLetter (x : ℕ) : PStr :=
  if (showNat x).length > 1 then '(' :: (showNat x ++ [')']) else showNat x

/-- creation.py 15-22 `_extended_letters_by_weight`. -/
def extLettersByWeight (w d : ℕ) : List PStr :=
  (combsRepl (List.range' 1 d) w).map (fun el => '[' :: (el.flatMap showLetter ++ [']']))

/-- creation.py 40-50 `of_weight`: the strings given to `SimpleWord`, in order. `permSet` lists the elements of
`set(itertools.permutations(partition))` in Python's iteration order; `itertools.product` is `List.sections`
up to order of the arguments, see `cartesian`. `extended_letters[weight-1]` is
`_extended_letters_by_weight(weight, dim)`. -/
def cartesian {α : Type} : List (List α) → List (List α)
  | [] => [[]]
  | l :: ls => l.flatMap (fun x => (cartesian ls).map (x :: ·))

/-- creation.py 40-50, see `cartesian`; `w = 0` reads `extended_letters[-1]` of an empty list. -/
def ofWeightStrings (permSet : List ℕ → List (List ℕ)) (w dim : ℕ) : Except Err (List PStr) :=
  if w = 0 then .error .indexError
  else .ok <| (partitionsOf w).flatMap fun partition =>
    (permSet partition).flatMap fun mixed =>
      (cartesian (mixed.map fun weight => extLettersByWeight weight dim)).map List.flatten

/-- creation.py 25-51 `of_weight`. -/
def ofWeight (R : Type) (order : List ℤ → List ℤ) (permSet : List ℕ → List (List ℕ)) (w dim : ℕ) :
    Except Err (List (SWord R)) := do
  let strs ← ofWeightStrings permSet w dim
  strs.mapM (SWord.mk' R order)

/-- creation.py 92-94: `s += letter*f"-{dim+1}"` over the dimensions (a negative count repeats nothing). -/
def signString (el : List ℤ) : PStr :=
  enumFold (fun dim (letter : ℤ) s => s ++ (List.replicate letter.toNat ('-' :: showNat (dim + 1))).flatten) 0 el []

/-- `s.replace('-', '')`. -/
def dropMinus (s : PStr) : PStr := s.filter (· ≠ '-')

/-- creation.py 88-101: the two new strings of one word. -/
def alternateStrings (els : List (List ℤ)) : PStr × PStr :=
  enumFold (fun i el (nw : PStr × PStr) =>
    let s := signString el
    if i % 2 = 0 then (nw.1 ++ '[' :: (s ++ [']']), nw.2 ++ '[' :: (dropMinus s ++ [']']))
    else (nw.1 ++ '[' :: (dropMinus s ++ [']']), nw.2 ++ '[' :: (s ++ [']']))) 0 els ([], [])

/-- creation.py 85-103 `alternate_sign`. -/
def alternateSign (order : List ℤ → List ℤ) : List (SWord R) → Except Err (List (SWord R))
  | [] => .ok []
  | w :: ws => do
    let nw := alternateStrings w.els
    let a ← SWord.mk' R order nw.1
    let b ← SWord.mk' R order nw.2
    let rest ← alternateSign order ws
    .ok (a :: b :: rest)

/-! ### Registered letters -/

/-- letters.py 96-99: the global dictionary of registered letters. -/
abbrev Registry (R : Type) := List (PStr × (ℤ → BoundLetter R))

/-- letters.py 102-105 `_log`: new dictionary and possibly an exception. -/
def Registry.log (reg : Registry R) (name : PStr) (f : ℤ → BoundLetter R) : Except Err (Registry R) :=
  if name ∈ reg.map Prod.fst then .error .runtimeError else .ok (reg ++ [(name, f)])

/-- letters.py 108-112 `_get`. -/
def Registry.get (reg : Registry R) (name : PStr) : Except Err (ℤ → BoundLetter R) :=
  match reg.find? (fun p => p.1 = name) with
  | none => .error .runtimeError
  | some p => .ok p.2

/-- letters.py 115-119 `get_available`. -/
def Registry.available (reg : Registry R) : List PStr := reg.map Prod.fst

/-- letters.py 28-33: an empty extended letter. -/
def ELetter.empty : ELetter R := ⟨[], [], []⟩

/-- letters.py 41-53 `ExtendedLetter.append`. -/
def ELetter.append (reg : Registry R) (el : ELetter R) (letter : PStr) (dim : ℤ) : Except Err (ELetter R) := do
  let f ← reg.get letter
  .ok ⟨el.letters ++ [f], el.dims ++ [dim], el.repr ++ letter ++ '(' :: (showInt (dim + 1) ++ [')'])⟩

/-- letters.py 37-39: `l, d = letter.split("("); self.append(l, int(d)-1)`. -/
def ELetter.appendRaw (reg : Registry R) (el : ELetter R) (letter : PStr) : Except Err (ELetter R) :=
  match psplit '(' letter with
  | [l, d] => do
    let v ← pint d
    el.append reg l (v - 1)
  | _ => .error .valueError

/-- letters.py 35-39 `ExtendedLetter(letter_string)`. -/
def ELetter.parse (reg : Registry R) (s : PStr) : Except Err (ELetter R) :=
  (psplit ')' s).dropLast.foldlM (ELetter.appendRaw reg) ELetter.empty

/-- word.py 92-97: `Word.multiply(str)`. An exception in the middle leaves a partly extended word; only the
constructor's outcome is used in the theorems. -/
def GWord.multiplyStr (reg : Registry R) (w : GWord R) (s : PStr) : Except Err (GWord R) := do
  let els ← (psplit ']' s).dropLast.mapM (fun el => ELetter.parse reg (el.drop 1))
  .ok { w with els := w.els ++ els }

/-- word.py 64-69 `Word(word_string)`. -/
def GWord.parse (reg : Registry R) (s : PStr) : Except Err (GWord R) :=
  GWord.multiplyStr reg { els := [] } s

/-! ### `replace_letters` -/

/-- `letter_gen`: the names still to come; `next` on an exhausted iterator raises, and the code uses `"DIM"`. -/
abbrev Gen := List PStr

/-- creation.py 77-81: `try: letter = next(letter_gen) except StopIteration: letter = "DIM"`. -/
def Gen.next (g : Gen) : PStr × Gen :=
  match g with
  | [] => ("DIM".toList, [])
  | x :: xs => (x, xs)

/-- creation.py 76-82: `for _ in range(ndim)`. -/
def replLetter (reg : Registry R) (dim : ℕ) : ℕ → ELetter R × Gen → Except Err (ELetter R × Gen)
  | 0, s => .ok s
  | n + 1, (el, g) => do
    let el' ← el.append reg g.next.1 dim
    replLetter reg dim n (el', g.next.2)

/-- creation.py 75-82: `for dim, ndim in enumerate(el)` (a negative count gives an empty range). -/
def replDims (reg : Registry R) : ℕ → List ℤ → ELetter R × Gen → Except Err (ELetter R × Gen)
  | _, [], s => .ok s
  | dim, c :: cs, s => do
    let s' ← replLetter reg dim c.toNat s
    replDims reg (dim + 1) cs s'

/-- creation.py 72-84 `replace_letters`. -/
def replWord (reg : Registry R) : List (List ℤ) → GWord R × Gen → Except Err (GWord R × Gen)
  | [], s => .ok s
  | el :: els, (w, g) => do
    let s ← replDims reg 0 el (ELetter.empty, g)
    replWord reg els ({ w with els := w.els ++ [s.1] }, s.2)

/-- creation.py 54-84 `replace_letters`. -/
def replaceLetters (reg : Registry R) (w : SWord R) (g : Gen) : Except Err (GWord R × Gen) :=
  replWord reg w.els ({ els := [] }, g)

end Fruits
