import Verif.Np

/-! # Python values: exceptions and strings

Strings are lists of characters.  `Err` names the Python exception classes the code raises. -/

namespace Fruits

/-- Exception classes raised by the modelled code; `diverged` is no exception: it stands for a call that does not return. -/
inductive Err
  | valueError | indexError | keyError | typeError | runtimeError | notImplementedError
  | stopIteration | attributeError | zeroDivisionError
  | diverged
  deriving DecidableEq, Repr

@[simp] theorem ok_bind {ε α β : Type} (a : α) (f : α → Except ε β) : (Except.ok a >>= f) = f a := rfl

@[simp] theorem err_bind {ε α β : Type} (e : ε) (f : α → Except ε β) :
    ((Except.error e : Except ε α) >>= f) = .error e := rfl

/-- Python `str`. -/
abbrev PStr := List Char

/-- `sep.join(parts)` for a one-character separator. -/
def pjoin (sep : Char) : List PStr → PStr
  | [] => []
  | [p] => p
  | p :: q :: ps => p ++ sep :: pjoin sep (q :: ps)

/-- `s.split(c)` for a one-character separator. -/
def psplit (c : Char) : PStr → List PStr
  | [] => [[]]
  | x :: xs =>
    if x = c then [] :: psplit c xs
    else match psplit c xs with
      | [] => [[x]]
      | p :: ps => (x :: p) :: ps

/-- `xs[:i]` with Python's treatment of a negative stop. -/
def sliceTo {α : Type*} (xs : List α) (i : ℤ) : List α :=
  if 0 ≤ i then xs.take i.toNat else xs.take (xs.length - (-i).toNat)

/-- `s.startswith(p)`. -/
def pstartswith (s p : PStr) : Bool := p.isPrefixOf s

theorem psplit_ne_nil (c : Char) (s : PStr) : psplit c s ≠ [] := by
  cases s with
  | nil => simp [psplit]
  | cons x xs =>
    rw [psplit]
    split
    · simp
    · split <;> simp

theorem psplit_notMem (c : Char) (b : PStr) (h : c ∉ b) : psplit c b = [b] := by
  induction b with
  | nil => rfl
  | cons x xs ih =>
    simp only [List.mem_cons, not_or] at h
    rw [psplit, if_neg (Ne.symm h.1), ih h.2]

theorem psplit_append (c : Char) (b rest : PStr) (h : c ∉ b) :
    psplit c (b ++ c :: rest) = b :: psplit c rest := by
  induction b with
  | nil => simp [psplit]
  | cons x xs ih =>
    simp only [List.mem_cons, not_or] at h
    rw [List.cons_append, psplit, if_neg (Ne.symm h.1), ih h.2]

end Fruits
