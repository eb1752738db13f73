import Verif.PrepFit

/-! # `==` of preparateurs

`fruits/preparation/{abstract,transform,filter,wrapper}.py`, the methods `__eq__`.  No class is a subclass of another one,
so `a == b` is `a.__eq__(b)`; an exception raised inside is an error here. -/

namespace Fruits
set_option linter.unusedSectionVars false

variable {R : Type} [Field R] [LinearOrder R] [FloorRing R]

/-- `==` of Python callables is the identity of the objects.  Functions are values in the model, so the identity is a
parameter; what is known about it is `PyId.Lawful`. -/
structure PyId (R : Type) where
  nat : (ℕ → ℤ) → (ℕ → ℤ) → Bool
  fld : (R → R) → (R → R) → Bool

/-- One object is one function, and an object is identical to itself. (So two different objects that compute the same
function count as one; for the results below this is the stronger reading.) -/
structure PyId.Lawful (I : PyId R) : Prop where
  nat_iff : ∀ f g, I.nat f g = true ↔ f = g
  fld_iff : ∀ f g, I.fld f g = true ↔ f = g

/-- `==` of numbers: an integer equals the float of the same value. -/
def IntOrFloat.pyEq : IntOrFloat R → IntOrFloat R → Bool
  | .int a, .int b => decide (a = b)
  | .float a, .float b => decide (a = b)
  | .int a, .float b => decide ((a : R) = b)
  | .float a, .int b => decide (a = (b : R))

/-- `==` of two optional values: `None == x` is false unless `x` is `None`. -/
def optEq {α : Type*} (e : α → α → Bool) : Option α → Option α → Bool
  | none, none => true
  | some a, some b => e a b
  | _, _ => false

/-- `self._shift == other._shift`, `transform.py:82`. -/
def Shift.pyEq (I : PyId R) : Shift R → Shift R → Bool
  | .int a, .int b => decide (a = b)
  | .float a, .float b => decide (a = b)
  | .int a, .float b => decide ((a : R) = b)
  | .float a, .int b => decide (a = (b : R))
  | .call f, .call g => I.nat f g
  | _, _ => false

/-- `self._width == other._width`, `transform.py:556`. -/
def Width.pyEq (I : PyId R) : Width → Width → Bool
  | .int a, .int b => decide (a = b)
  | .call f, .call g => I.nat f g
  | _, _ => false

/-- The truth value of `self._const_kernel == other._const_kernel`, `transform.py:560`.  The comparison of arrays is
entrywise and an array has a truth value only if it has exactly one entry.  (Two arrays whose shapes do not fit raise as
well; older versions of numpy return `False` there.) -/
def kernelEq (a b : Option (List (List R))) : Except Err Bool :=
  match a, b with
  | none, none => .ok true
  | some [[_]], none => .ok false
  | none, some [[_]] => .ok false
  | some [[x]], some [[y]] => .ok (decide (x = y))
  | _, _ => .error .valueError

/-- `a == b` for preparateurs: `INC` `transform.py:80-86`, `STD` 149-155, `NRM` 203-206, `MAV` 268-271, `LAG` 303-306,
`RIN` 555-562, `RDW` 607-610, `JLD` 736-743, `SPE` 823-831, `RPE` 899-904, `CTS` 950-955, `QTC` 1006-1012, `FUN` 1044-1045;
`WIN` `filter.py:113-117`, `DOT` 199-203, `PDD` 263-267; `FFN`, `DIL`, `DIM`, `NEW` inherit `abstract.py:19-20`.
The fitted state is not compared. -/
def Prep.pyEq (I : PyId R) : Prep R → Prep R → Except Err Bool
  | .inc a, .inc b => .ok (a.shift.pyEq I b.shift && decide (a.depth = b.depth) && decide (a.zeroPadding = b.zeroPadding))
  | .inc _, _ => .ok false
  | .std a, .std b => .ok (decide (a.separately = b.separately) && decide (a.var = b.var))
  | .std _, _ => .ok false
  | .nrm a, .nrm b => .ok (decide (a = b))
  | .nrm _, _ => .ok false
  | .mav a, .mav b => .ok (a.given.pyEq b.given)
  | .mav _, _ => .ok false
  | .lag, .lag => .ok true
  | .lag, _ => .ok false
  | .rin a, .rin b =>
    if a.width.pyEq I b.width && decide (a.adaptive = b.adaptive) && decide (a.outDim = b.outDim)
      && decide (a.forceSumOne = b.forceSumOne) then kernelEq a.constKernel b.constKernel else .ok false
  | .rin _, _ => .ok false
  | .rdw a, .rdw b => .ok (decide (b.dirichlet = a.dirichlet))
  | .rdw _, _ => .ok false
  | .jld a, .jld b => .ok (a.d.pyEq b.d && decide (a.distribute = b.distribute) && decide (a.bias = b.bias))
  | .jld _, _ => .ok false
  | .spe a, .spe b => .ok (decide (a.freq = b.freq) && decide (a.additive = b.additive) && optEq I.fld a.function b.function
      && decide (a.step = b.step) && decide (a.maxLength = b.maxLength))
  | .spe _, _ => .ok false
  | .rpe a, .rpe b => .ok (decide (a.freq = b.freq) && decide (a.maxLength = b.maxLength))
  | .rpe _, _ => .ok false
  | .cts a, .cts b => .ok (decide (a.s = b.s) && decide (a.pseudo = b.pseudo))
  | .cts _, _ => .ok false
  | .qtc a, .qtc b => .ok (decide (a.q = b.q) && decide (a.lower = b.lower) && decide (a.bound = b.bound))
  | .qtc _, _ => .ok false
  | .func _, _ => .ok false
  | .win a, .win b => .ok (decide (a.start = b.start) && decide (a.stop = b.stop))
  | .win _, _ => .error .typeError
  | .dot a, .dot b => .ok (a.given.pyEq b.given && optEq IntOrFloat.pyEq a.firstGiven b.firstGiven)
  | .dot _, _ => .error .typeError
  | .pdd a, .pdd b => .ok (decide (a.density = b.density) && decide (a.proportion = b.proportion))
  | .pdd _, _ => .error .typeError
  | .ffn _, _ => .ok false
  | .dil _, _ => .ok false
  | .dim _ _, _ => .ok false
  | .new _, _ => .ok false

end Fruits
