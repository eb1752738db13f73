import Verif.WordOps

/-! # Objects that own mutable cells, and Python's iterator cursors

`Word._extended_letters` is a list of references to `ExtendedLetter` objects, `SimpleWord._extended_letters` a list of
references to mutable lists. To state that a copy is independent of its original these references are made explicit:
a heap of cells, and objects holding addresses. -/

namespace Fruits

/-- An object: addresses of the cells it refers to, and its other attributes (held by value). -/
structure Obj (A : Type) where
  addrs : List ℕ
  attrs : A

variable {C A : Type}

/-- What one sees of an object: the contents of its cells and its attributes. -/
def Obj.view [Inhabited C] (h : List C) (o : Obj A) : List C × A := (o.addrs.map fun a => h.getD a default, o.attrs)

/-- `cells[addr] = c` for several addresses, one after another. -/
def writeAll (h : List C) : List ℕ → List C → List C
  | a :: as, c :: cs => writeAll (h.set a c) as cs
  | _, _ => h

/-- Runs an operation of the object: its cells are changed in place, additional cells are newly allocated (appended to
the list of references). `op` says what happens to the contents and the attributes. -/
def Obj.run [Inhabited C] (h : List C) (o : Obj A) (op : List C × A → List C × A) : List C × Obj A :=
  let r := op (o.view h)
  let n := o.addrs.length
  (writeAll h o.addrs (r.1.take n) ++ r.1.drop n,
    ⟨o.addrs ++ List.range' h.length (r.1.length - n), r.2⟩)

/-- A copy: every cell is copied (`[el.copy() for el in self._extended_letters]`, word.py 100-101 and 258), the attributes
become `attrs`. -/
def Obj.copy [Inhabited C] (h : List C) (o : Obj A) (attrs : A) : List C × Obj A :=
  (h ++ (o.view h).1, ⟨List.range' h.length o.addrs.length, attrs⟩)

/-! ### Iterators -/

/-- The cursor of `Word`, `SimpleWord`, `ExtendedLetter` and `Fruit`: the object is its own iterator, the position is an
attribute of the object (word.py 107-115, letters.py 62-72, fruit.py 263-271). -/
structure Cursor (α : Type) where
  items : List α
  index : ℤ

/-- `__iter__`. -/
def Cursor.iter {α : Type} (c : Cursor α) : Cursor α := { c with index := -1 }

/-- `__next__`: `none` stands for `StopIteration`. -/
def Cursor.next {α : Type} (c : Cursor α) : Option (α × Cursor α) :=
  if c.index < c.items.length - 1 then
    match c.items[(c.index + 1).toNat]? with
    | some x => some (x, { c with index := c.index + 1 })
    | none => none
  else none

/-- `for x in obj: body(x)`, without the initial `__iter__`; `body` may use the same object (`fuel` bounds the number of
passes). Returns the visited elements and the final object. -/
def Cursor.loop {α : Type} (body : α → Cursor α → Cursor α) : ℕ → Cursor α → List α × Cursor α
  | 0, c => ([], c)
  | fuel + 1, c =>
    match c.next with
    | none => ([], c)
    | some (x, c') =>
      let r := Cursor.loop body fuel (body x c')
      (x :: r.1, r.2)

/-- `for x in obj: body(x)`. -/
def Cursor.forIn {α : Type} (body : α → Cursor α → Cursor α) (fuel : ℕ) (c : Cursor α) : List α × Cursor α :=
  Cursor.loop body fuel c.iter

/-- `for x in obj: … break` after `k` elements. -/
def Cursor.abandoned {α : Type} (k : ℕ) (c : Cursor α) : Cursor α := (Cursor.loop (fun _ c => c) k c.iter).2

end Fruits
