import Verif.WordOps

/-! # Model of `==` between words (`fruits/iss/words/word.py`) -/

namespace Fruits
variable {R : Type}

/-- `a == b` for two words, word.py 119-122 and 262-265. `SimpleWord` is a subclass of `Word` with its own `__eq__`, so
Python calls `SimpleWord.__eq__` first when either side is a `SimpleWord`; with a general word on the other side it raises
(lines 263-264). Two general words: line 122. -/
def wordEq (a b : IWord R) : Except Err Bool :=
  match a, b with
  | .simple u, .simple v => .ok (u.eqv v)
  | .general _, .general _ => .ok false
  | _, _ => .error .notImplementedError

/-- `a == x` for an object `x` that is not a word, word.py 120-121 and 263-264 (the exception is raised, not returned, so
Python doesn't try the other side). -/
def wordEqOther (_a : IWord R) : Except Err Bool := .error .notImplementedError

end Fruits
