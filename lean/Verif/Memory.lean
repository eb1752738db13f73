import Verif.Prep

/-! # Preparateurs as programs that write to memory

In the other modules an array is a value.  Here it is an object in memory that can be overwritten: `X_new = X.copy()` makes a new
object, `X_new[:, :, a:b] = 0` changes its content, `out = X` gives the same object a second name.  This shows that
the assignments of the code only reach objects that the code has made itself.  A call that raises leaves the memory as it is at
that moment.

Arrays are whole objects; the views that the code makes (`X[:, :, s:]` on the right of an assignment, `swapaxes`, `np.delete`, slices
of new arrays that are returned) are read at once or belong to a new object.  A function given to `FUN` or `SPE` is assumed to return
a new array and not to write. -/

namespace Fruits
set_option linter.unusedSectionVars false
variable {R : Type} [Field R] [LinearOrder R] [FloorRing R]

/-- The memory: the contents of the array objects `0, …, next - 1`. -/
structure Mem (R : Type) where
  cell : ℕ → Data R
  next : ℕ

/-- A program: it changes the memory and returns a value or raises. -/
def MemAct (R : Type) (α : Type) := Mem R → Except Err α × Mem R

/-- Statements one after the other; an exception ends the program and leaves the memory as it is. -/
instance : Monad (MemAct R) where
  pure v := fun m => (.ok v, m)
  bind a f := fun m => match a m with
    | (.ok v, m') => f v m'
    | (.error e, m') => (.error e, m')

/-- The content of an array. -/
def readArr (x : ℕ) : MemAct R (Data R) := fun m => (.ok (m.cell x), m)

/-- A new array object. -/
def newArr (D : Data R) : MemAct R ℕ := fun m => (.ok m.next, ⟨Function.update m.cell m.next D, m.next + 1⟩)

/-- An assignment to (a part of) the array `y`: its content changes by `f`; if numpy refuses the assignment nothing is written. -/
def assign (y : ℕ) (f : Data R → Except Err (Data R)) : MemAct R Unit := fun m =>
  match f (m.cell y) with
  | .error e => (.error e, m)
  | .ok D => (.ok (), { m with cell := Function.update m.cell y D })

/-- Raises the error of a computation or returns its value. -/
def ofExcept {α : Type} (r : Except Err α) : MemAct R α := fun m => (r, m)

/-- `x.copy()`. -/
def copyArr (x : ℕ) : MemAct R ℕ := do
  let D ← readArr x
  newArr D

/-- An array computed by numpy expressions or a compiled function from the content of `x`. -/
def compute (f : Data R → Except Err (Data R)) (x : ℕ) : MemAct R ℕ := do
  let D ← readArr x
  let E ← ofExcept (f D)
  newArr E

/-- `out = np.zeros(…); out[…] = …; return out`: a new array filled from the content of `x` (the assignments that fill it
are one step here). -/
def fillNew (f : Data R → Except Err (Data R)) (x : ℕ) : MemAct R ℕ := do
  let D ← readArr x
  let y ← newArr (D.map fun s => s.map fun r => zeros r.length)
  assign y (fun _ => f D)
  return y

/-- Applies `f` to the pairs of entries of two lists. -/
def zipM {α β γ : Type} (f : α → β → Except Err γ) : List α → List β → Except Err (List γ)
  | a :: as, b :: bs => do
    let c ← f a b
    let cs ← zipM f as bs
    return c :: cs
  | _, _ => .ok []

/-- `out[:, :, :self._shift] = X[:, :, :self._shift]`, `transform.py:74`, on all rows of all series. -/
def restoreData (s : Shift R) (X out : Data R) : Except Err (Data R) := zipM (zipM s.restore) X out

/-- `INC._transform`, `transform.py:70-75`: `out` is the input itself before the first round, and a new array (made by
`_increments`, `cache.py:8-13`) after each call. -/
def incLoop (p : INC R) (x n : ℕ) : ℕ → ℕ → MemAct R ℕ
  | 0, out => pure out
  | k + 1, out => do
    let out ← compute (mapRowsM (increments1 (p.shift.eval n))) out
    if p.zeroPadding then pure () else do
      let X ← readArr x
      assign out (restoreData p.shift X)
    incLoop p x n k out

/-- The loop `for …: X_new[:, :, a:b] = 0` of `DIL` (`filter.py:60-61`) and `PDD` (`:256-257`). -/
def zeroLoop {β : Type} (f : ℕ → β → ℕ × ℕ) (y : ℕ) : List β → MemAct R Unit
  | [] => pure ()
  | e :: es => do
    assign y (fun D => .ok (mapRows (fun r => fillSlc r (f r.length e).1 (f r.length e).2 0) D))
    zeroLoop f y es

/-- The assignments to the copy in `CTS._transform`, `transform.py:940-944`. -/
def CTS.fill (p : CTS R) (shift : ℤ) (y : ℕ) : MemAct R Unit :=
  if p.pseudo then assign y (fun D => .ok (mapRows (fun r => fillSlc r 0 (pyClip r.length shift) 0) D))
  else do
    assign y (mapRowsM fun r => setSlc r 0 (pyClip r.length (-shift)) (slcFrom r shift))
    assign y (mapRowsM fun r => setSlc r (pyClip r.length (-shift)) r.length (slcFrom r (-1)))

/-- `preparateur._transform(x)` for the array object `x`; the result is an array object.  `C` is the content of the input of the
cache (the cache writes to its own dictionary only, `cache.py:85-140`).  Lines as in `Prep.transformC`. -/
def Prep.exec [NpMath R] (T : FloatText R) (C : Data R) : Prep R → ℕ → MemAct R ℕ
  -- `transform.py:60-75`
  | .inc p, x => do
    let X ← readArr x
    incLoop p x (shape2 X) p.depth x
  | .std p, x => compute p.transform x
  -- `transform.py:195-198`: `np.zeros_like` and two assignments
  | .nrm b, x => fillNew (NRM.transform b) x
  | .mav p, x => compute p.transform x
  -- `transform.py:292-298`
  | .lag, x => fillNew LAG.transform x
  | .ffn p, x => compute p.transform x
  | .rin p, x => compute p.transform x
  | .rdw p, x => compute p.transform x
  | .jld p, x => compute p.transform x
  | .spe p, x => compute (p.transform T C) x
  | .rpe p, x => compute p.transform x
  -- `transform.py:935-945`
  | .cts p, x => do
    let X ← readArr x
    let shift := p.shift (shape2 X)
    let y ← copyArr x
    p.fill shift y
    return y
  | .qtc p, x => compute p.transform x
  | .func f, x => compute f x
  -- `filter.py:56-62`
  | .dil p, x =>
    match p.fitted with
    | none => ofExcept (.error .runtimeError)
    | some (indices, lens) => do
      let y ← copyArr x
      zeroLoop (fun n (e : ℕ × ℕ) => (pyClip n (e.1 : ℤ), pyClip n ((e.1 + lens.getD e.2 0 : ℕ) : ℤ))) y indices.zipIdx
      return y
  -- `filter.py:93-108`
  | .win p, x => fillNew (p.transform T C) x
  -- `filter.py:192-194`
  | .dot p, x => fillNew p.transform x
  -- `filter.py:252-258`
  | .pdd p, x =>
    match p.fitted with
    | none => ofExcept (.error .runtimeError)
    | some (indices, width) => do
      let y ← copyArr x
      zeroLoop (fun n (i : ℤ) => (pyClip n i, pyClip n (i + width))) y indices
      return y
  -- `wrapper.py:40-44`: `X[:, dims, :]`, `np.delete` and `np.concatenate` make new arrays
  | .dim p dims, x => do
    let sub ← compute (selectDims dims) x
    let S ← readArr sub
    let y ← Prep.exec T S p sub
    let rest ← compute (deleteDims dims) x
    let A ← readArr rest
    compute (concatDims A) y
  -- `wrapper.py:79-86`
  | .new none, x => fillNew (fun X => .ok (X.map fun s => s ++ s)) x
  -- `wrapper.py:88-95`
  | .new (some p), x => do
    let X ← readArr x
    let y ← Prep.exec T X p x
    let X ← readArr x
    fillNew (appendDims X) y

/-- `fruit.py:525-528`: the preparateurs of a slice, one after the other. -/
def prepsRun [NpMath R] (T : FloatText R) (C : Data R) : List (Prep R) → ℕ → MemAct R ℕ
  | [], x => pure x
  | p :: ps, x => do
    let y ← p.exec T C x
    prepsRun T C ps y

end Fruits
