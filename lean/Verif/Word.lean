import Verif.Py
import Verif.Semiring

/-! # Model of `fruits/iss/words/word.py` and `letters.py`: the data

Parsing and the operations on words are in `Verif.WordOps`. -/

namespace Fruits
variable {R : Type}

/-- letters.py 12-33 `ExtendedLetter`: `_letters`, `_dimensions`, `_string_repr` (the iteration cursor
`_iter_index` is modelled separately in `Verif.Cursor`). -/
structure ELetter (R : Type) where
  letters : List (ℤ → BoundLetter R)
  dims : List ℤ
  repr : PStr

/-- letters.py 67-72: iterating an extended letter yields the bound letters. -/
def ELetter.bound (el : ELetter R) : List (BoundLetter R) :=
  List.zipWith (fun l d => l d) el.letters el.dims

/-- letters.py 80-81 `ExtendedLetter.__str__`. -/
def ELetter.str (el : ELetter R) : PStr := '[' :: el.repr ++ [']']

/-- word.py 64-69 `Word`: `_extended_letters` and `_alpha`. -/
structure GWord (R : Type) where
  els : List (ELetter R)
  alpha : Option (List R) := none

/-- word.py 124-125 `Word.__str__`. -/
def GWord.str (w : GWord R) : PStr := w.els.flatMap ELetter.str

/-- word.py 189-194 `SimpleWord`: `_extended_letters`, `_max_dim`, `_name`, `_alpha`. -/
structure SWord (R : Type) where
  els : List (List ℤ)
  maxDim : ℕ
  name : PStr
  alpha : Option (List R) := none
  deriving DecidableEq, Repr

/-- word.py 71-76 `Word.alpha` (getter): ones if never set. -/
def SWord.getAlpha [One R] (w : SWord R) : List R :=
  match w.alpha with
  | none => List.replicate w.els.length 1
  | some a => a

/-- A word as accepted by `ISS`: a `SimpleWord` or a general `Word`. -/
inductive IWord (R : Type)
  | simple (w : SWord R)
  | general (w : GWord R)

/-- `len(word)`, word.py 104-105. -/
def IWord.len : IWord R → ℕ
  | .simple w => w.els.length
  | .general w => w.els.length

/-- `str(word)`, word.py 124-125 and 267-268. -/
def IWord.str : IWord R → PStr
  | .simple w => w.name
  | .general w => w.str

end Fruits
