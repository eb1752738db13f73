import Verif.PrepFit
import Mathlib.Data.Rat.Floor

/-! # Model of `fruits/fruit.py` and `fruits/callback.py`

`Fruit` and `FruitSlice` only use the interface of the seeds (`fruits/seed.py`).  The model is therefore parametrised by
the meaning `Sem` of that interface; `Verif.Builtin` instantiates it with the preparateurs, iterated sums and sieves of the
library.

Python objects live in a heap (`World`): the same seed can be part of several slices and the same slice of several fruits.
Heaps are total functions together with the number of allocated objects; cells above that number are never looked at.
The state of the world survives an exception, so every operation returns an outcome and a world.

What is left out: `_cache` attributes of seeds (they are overwritten by the slice before every use of the seed; by
property C35 a shared cache is determined by its input array, here `C`), the iterator state of a `Fruit` (property C29 of
`Verif.Objects`), `summary`, and the attribute `iss_mode`, which nothing reads. -/

namespace Fruits
set_option linter.unusedSectionVars false

/-- The values yielded by a Python generator and the exception that ended it, if any. -/
abbrev Yields (α : Type) := List α × Option Err

/-- `for a in gen: yield from f(a)`. -/
def Yields.bind {α β : Type} (f : α → Yields β) : List α → Option Err → Yields β
  | [], e => ([], e)
  | a :: as, e =>
    match f a with
    | (bs, some e') => (bs, some e')
    | (bs, none) => (bs ++ (Yields.bind f as e).1, (Yields.bind f as e).2)

/-- The interface of the seeds, `fruits/seed.py:23-24,38-39` (abstract methods), `preparation/abstract.py`, `iss/iss.py`, `sieving/abstract.py`.
`P` preparateurs, `I` ISS objects without their words, `W` the list of words of an ISS object, `S` sieves, `V` the values
of features.  The argument `C` is the input array of the shared cache. -/
structure Sem (R P I W S V : Type) where
  /-- `prep.fit(X)` with the shared cache of `C` -/
  prepFit : Rng R → P → (C X : Data R) → Except Err P
  /-- `prep.transform(X)` -/
  prepTransform : P → (C X : Data R) → Except Err (Data R)
  /-- `prep.copy()` -/
  prepCopy : P → P
  /-- `prep.label()` -/
  prepLabel : P → PStr
  /-- `iss.requires_fitting` -/
  issRequires : I → Bool
  /-- `iss.fit(X)` -/
  issFit : Rng R → I → W → (C X : Data R) → Except Err I
  /-- the iterated sums (arrays of shape `(n_series, length)`) in all batches of `iss.batch_transform(X)` -/
  issGen : I → W → (C X : Data R) → Yields (List (List R))
  /-- `iss.n_iterated_sums()` -/
  issCount : I → W → Except Err ℕ
  /-- `iss.copy()`; the copy has the same list of words -/
  issCopy : I → W → Except Err I
  /-- `iss.label(i)` -/
  issLabel : I → W → ℕ → Except Err PStr
  /-- `sieve.requires_fitting` -/
  sieveRequires : S → Bool
  /-- `sieve.fit(X)` -/
  sieveFit : Rng R → S → (C : Data R) → (X : List (List R)) → Except Err S
  /-- `sieve.transform(X)` -/
  sieveTransform : S → (C : Data R) → (X : List (List R)) → Except Err (List (List V))
  /-- `sieve.nfeatures()` -/
  sieveN : S → ℤ
  /-- `sieve.copy()` -/
  sieveCopy : S → Except Err S
  /-- `sieve.label(i)` -/
  sieveLabel : S → ℕ → Except Err PStr
  /-- the zeros of `np.zeros` -/
  zero : V
  /-- what `np.nan_to_num` does to one value -/
  post : V → V

/-- `FruitSlice.__init__`, `fruit.py:308-322`.  Seeds are referenced by their addresses.  The sieves in
`_sieves_extended` are copies made by `fit` that nothing else refers to, so they are stored by value. -/
structure SliceObj (R S : Type) where
  preps : List ℕ := []
  iss : List ℕ := []
  sieves : List ℕ := []
  ext : List (List S) := []
  fitted : Bool := false
  sample : IntOrFloat R := .int 1

/-- `Fruit.__init__`, `fruit.py:52-59`. -/
structure FruitObj where
  name : PStr := []
  slices : List ℕ := []
  cur : ℕ := 0
  fitted : Bool := false

/-- The heap and the number of random draws so far.  An ISS cell holds the address of its list of words: `ISS._copy`
(`iss.py:187-193`) passes the same list object on. -/
structure World (R P I W S : Type) where
  prep : ℕ → P
  iss : ℕ → I × ℕ
  words : ℕ → W
  sieve : ℕ → S
  slice : ℕ → SliceObj R S
  fruit : ℕ → FruitObj
  nPrep : ℕ := 0
  nIss : ℕ := 0
  nWords : ℕ := 0
  nSieve : ℕ := 0
  nSlice : ℕ := 0
  nFruit : ℕ := 0
  rnd : ℕ := 0

section

variable {R P I W S V : Type} [Field R] [LinearOrder R] [FloorRing R]

/-- The outcome of a method call and the world after it. -/
abbrev Res (R P I W S α : Type) := Except Err α × World R P I W S

namespace World

/-- Overwrites the attributes of a preparateur. -/
def setPrep (w : World R P I W S) (a : ℕ) (p : P) : World R P I W S := { w with prep := Function.update w.prep a p }
/-- Overwrites the attributes of an ISS object. -/
def setIss (w : World R P I W S) (a : ℕ) (i : I) : World R P I W S :=
  { w with iss := Function.update w.iss a (i, (w.iss a).2) }
/-- Changes a list of words in place. -/
def setWords (w : World R P I W S) (a : ℕ) (ws : W) : World R P I W S := { w with words := Function.update w.words a ws }
/-- Overwrites the attributes of a sieve. -/
def setSieve (w : World R P I W S) (a : ℕ) (s : S) : World R P I W S := { w with sieve := Function.update w.sieve a s }
/-- Overwrites the attributes of a slice. -/
def setSlice (w : World R P I W S) (a : ℕ) (o : SliceObj R S) : World R P I W S :=
  { w with slice := Function.update w.slice a o }
/-- Overwrites the attributes of a fruit. -/
def setFruit (w : World R P I W S) (a : ℕ) (o : FruitObj) : World R P I W S :=
  { w with fruit := Function.update w.fruit a o }
/-- Consumes one random draw. -/
def tick (w : World R P I W S) : World R P I W S := { w with rnd := w.rnd + 1 }

/-- Creates a preparateur. -/
def newPrep (w : World R P I W S) (p : P) : World R P I W S := { w.setPrep w.nPrep p with nPrep := w.nPrep + 1 }
/-- Creates a list of words. -/
def newWords (w : World R P I W S) (ws : W) : World R P I W S := { w.setWords w.nWords ws with nWords := w.nWords + 1 }
/-- Creates an ISS object for an existing list of words. -/
def newIss (w : World R P I W S) (i : I) (ws : ℕ) : World R P I W S :=
  { w with iss := Function.update w.iss w.nIss (i, ws), nIss := w.nIss + 1 }
/-- Creates a sieve. -/
def newSieve (w : World R P I W S) (s : S) : World R P I W S := { w.setSieve w.nSieve s with nSieve := w.nSieve + 1 }
/-- `FruitSlice()`. -/
def newSlice (w : World R P I W S) : World R P I W S := { w.setSlice w.nSlice {} with nSlice := w.nSlice + 1 }
/-- `Fruit(name)`. -/
def newFruit (w : World R P I W S) (name : PStr) : World R P I W S :=
  { w.setFruit w.nFruit { name := name } with nFruit := w.nFruit + 1 }

/-- The ISS object at an address together with its words. -/
def issAt (w : World R P I W S) (a : ℕ) : I × W := ((w.iss a).1, w.words (w.iss a).2)

end World

/-! ### Configuration of a slice -/

/-- `FruitSlice.add_preparateur`, `fruit.py:324-329` (for a `Preparateur`). -/
def sliceAddPrep (s a : ℕ) (w : World R P I W S) : World R P I W S :=
  w.setSlice s { w.slice s with preps := (w.slice s).preps ++ [a], fitted := false }
/-- `FruitSlice.clear_preparateurs`, `fruit.py:335-338`. -/
def sliceClearPreps (s : ℕ) (w : World R P I W S) : World R P I W S :=
  w.setSlice s { w.slice s with preps := [], fitted := false }
/-- `FruitSlice.add_iss`, `fruit.py:340-345`. -/
def sliceAddIss (s a : ℕ) (w : World R P I W S) : World R P I W S :=
  w.setSlice s { w.slice s with iss := (w.slice s).iss ++ [a], fitted := false }
/-- `FruitSlice.clear_iss`, `fruit.py:351-355`. -/
def sliceClearIss (s : ℕ) (w : World R P I W S) : World R P I W S :=
  w.setSlice s { w.slice s with iss := [], ext := [], fitted := false }
/-- `FruitSlice.add_sieve`, `fruit.py:357-362`. -/
def sliceAddSieve (s a : ℕ) (w : World R P I W S) : World R P I W S :=
  w.setSlice s { w.slice s with sieves := (w.slice s).sieves ++ [a], fitted := false }
/-- `FruitSlice.clear_sieves`, `fruit.py:368-372`. -/
def sliceClearSieves (s : ℕ) (w : World R P I W S) : World R P I W S :=
  w.setSlice s { w.slice s with sieves := [], ext := [], fitted := false }
/-- Assignment to the public attribute `fit_sample_size`, `fruit.py:322`. -/
def sliceSetSample (s : ℕ) (k : IntOrFloat R) (w : World R P I W S) : World R P I W S :=
  w.setSlice s { w.slice s with sample := k }
/-- `FruitSlice.clear`, `fruit.py:397-408`. -/
def sliceClear (s : ℕ) (w : World R P I W S) : World R P I W S :=
  sliceSetSample s (.int 1) (sliceClearSieves s (sliceClearIss s (sliceClearPreps s w)))

/-- An argument of `add`: a seed object, a class whose constructor call without arguments returns a preparateur or a sieve,
or something else (an object of another type, or a class whose constructor call raises). -/
inductive Arg (P S : Type)
  | prep (a : ℕ)
  | iss (a : ℕ)
  | sieve (a : ℕ)
  | prepClass (p : P)
  | sieveClass (s : S)
  | bad (e : Err)

/-- `FruitSlice.add`, `fruit.py:374-395`. -/
def sliceAdd (s : ℕ) : List (Arg P S) → World R P I W S → Res R P I W S Unit
  | [], w => (.ok (), w)
  | .prep a :: as, w => sliceAdd s as (sliceAddPrep s a w)
  | .iss a :: as, w => sliceAdd s as (sliceAddIss s a w)
  | .sieve a :: as, w => sliceAdd s as (sliceAddSieve s a w)
  | .prepClass p :: as, w => sliceAdd s as (sliceAddPrep s w.nPrep (w.newPrep p))
  | .sieveClass v :: as, w => sliceAdd s as (sliceAddSieve s w.nSieve (w.newSieve v))
  | .bad e :: _, w => (.error e, w)

/-- `FruitSlice.niteratedsums`, `fruit.py:416-420`; `np.prod` of an empty list is one. -/
def sliceCount (K : Sem R P I W S V) (w : World R P I W S) (s : ℕ) : Except Err ℕ := do
  let ns ← (w.slice s).iss.mapM fun a => K.issCount (w.issAt a).1 (w.issAt a).2
  pure ns.prod

/-- `sum(s.nfeatures() for s in self._sieves)`. -/
def sieveTotal (K : Sem R P I W S V) (w : World R P I W S) (s : ℕ) : ℤ :=
  ((w.slice s).sieves.map fun a => K.sieveN (w.sieve a)).sum

/-- `FruitSlice.nfeatures`, `fruit.py:410-414`. -/
def sliceN (K : Sem R P I W S V) (w : World R P I W S) (s : ℕ) : Except Err ℤ := do
  let n ← sliceCount K w s
  pure (sieveTotal K w s * (n : ℤ))

/-! ### Fitting a slice -/

/-- `X[indices, :, :]` for `s` indices drawn without replacement; numpy raises if there are not that many. -/
def chooseSample (g : Rng R) (s : ℕ) (X : Data R) : Except Err (Data R) :=
  if X.length < s then .error .valueError else .ok ((g.choice 0 X.length s).map fun i => X.getD i [])

/-- `int(self.fit_sample_size * X.shape[0])`. -/
def sampleCount (k : IntOrFloat R) (n : ℕ) : ℤ :=
  match k with
  | .int k => k * (n : ℤ)
  | .float f => pyInt (f * (n : R))

/-- `FruitSlice._select_fit_sample`, `fruit.py:430-438`. -/
def selectSample (g : Rng R) (k : IntOrFloat R) (X : Data R) : Except Err (Data R) :=
  match k with
  | .int 1 =>
    if X.length = 0 then .error .valueError
    else .ok (slc X (g.randint 0 0 X.length) (g.randint 0 0 X.length + 1))
  | k => chooseSample g (max (sampleCount k X.length) 1).toNat X

/-- `fruit.py:473-477`: the preparateurs are fitted and applied one after the other. -/
def fitPreps (K : Sem R P I W S V) (ρ : ℕ → Rng R) (C : Data R) : List ℕ → Data R → World R P I W S → Res R P I W S (Data R)
  | [], X, w => (.ok X, w)
  | a :: as, X, w =>
    match K.prepFit (ρ w.rnd) (w.prep a) C X with
    | .error e => (.error e, w.tick)
    | .ok p =>
      match K.prepTransform p C X with
      | .error e => (.error e, w.tick.setPrep a p)
      | .ok Y => fitPreps K ρ C as Y (w.tick.setPrep a p)

/-- `fruit.py:479-482`: the ISS objects that need it are fitted, all on the prepared data. -/
def fitIss (K : Sem R P I W S V) (ρ : ℕ → Rng R) (C X : Data R) : List ℕ → World R P I W S → Res R P I W S Unit
  | [], w => (.ok (), w)
  | a :: as, w =>
    if K.issRequires (w.issAt a).1 then
      match K.issFit (ρ w.rnd) (w.issAt a).1 (w.issAt a).2 C X with
      | .error e => (.error e, w.tick)
      | .ok i => fitIss K ρ C X as (w.tick.setIss a i)
    else fitIss K ρ C X as w

/-- `FruitSlice._iterate_iss`, `fruit.py:440-454`: `X[:, 0, :]` after the last ISS, else every iterated sum is passed on
as a dataset with one dimension. -/
def iterateIss (K : Sem R P I W S V) (C : Data R) : List (I × W) → Data R → Yields (List (List R))
  | [], X => ([X.map fun s => s.getD 0 []], none)
  | i :: is, X => Yields.bind (fun it => iterateIss K C is (newAxis it)) (K.issGen i.1 i.2 C X).1 (K.issGen i.1 i.2 C X).2

/-- `fruit.py:492-494`: the copies of the sieves are fitted to one iterated sum; `r` counts the random draws. -/
def fitSieves (K : Sem R P I W S V) (ρ : ℕ → Rng R) (C : Data R) (it : List (List R)) : List S → ℕ → Except Err (List S) × ℕ
  | [], r => (.ok [], r)
  | s :: ss, r =>
    match K.sieveFit (ρ r) s C it with
    | .error e => (.error e, r + 1)
    | .ok s' =>
      match fitSieves K ρ C it ss (r + 1) with
      | (.error e, r') => (.error e, r')
      | (.ok ss', r') => (.ok (s' :: ss'), r')

/-- `fruit.py:490-495`: the loop over the iterated sums; the rows of `_sieves_extended` made so far survive an exception. -/
def fitItems (K : Sem R P I W S V) (ρ : ℕ → Rng R) (C : Data R) (sieves : List S) :
    List (List (List R)) → Option Err → ℕ → Yields (List S) × ℕ
  | [], e, r => (([], e), r)
  | it :: its, e, r =>
    match sieves.mapM K.sieveCopy with
    | .error e' => (([], some e'), r)
    | .ok cs =>
      match fitSieves K ρ C it cs r with
      | (.error e', r') => (([], some e'), r')
      | (.ok row, r') =>
        ((row :: (fitItems K ρ C sieves its e r').1.1, (fitItems K ρ C sieves its e r').1.2),
          (fitItems K ρ C sieves its e r').2)

/-- `any(sieve.requires_fitting for sieve in self._sieves)`. -/
def anyRequires (K : Sem R P I W S V) (w : World R P I W S) (s : ℕ) : Bool :=
  (w.slice s).sieves.any fun a => K.sieveRequires (w.sieve a)

/-- `fruit.py:484-496`: fitting of the sieves. -/
def fitFinish (K : Sem R P I W S V) (ρ : ℕ → Rng R) (s : ℕ) (C X : Data R) (w : World R P I W S) : Res R P I W S Unit :=
  if anyRequires K w s then
    match fitItems K ρ C ((w.slice s).sieves.map w.sieve) (iterateIss K C ((w.slice s).iss.map w.issAt) X).1
        (iterateIss K C ((w.slice s).iss.map w.issAt) X).2 w.rnd with
    | ((rows, some e), r) => (.error e, { w.setSlice s { w.slice s with ext := rows } with rnd := r })
    | ((rows, none), r) => (.ok (), { w.setSlice s { w.slice s with ext := rows, fitted := true } with rnd := r })
  else (.ok (), w.setSlice s { w.slice s with fitted := true })

/-- `FruitSlice.fit`, `fruit.py:456-496`, with `_compile`, `fruit.py:422-428`. -/
def sliceFit (K : Sem R P I W S V) (ρ : ℕ → Rng R) (s : ℕ) (C X : Data R) (w : World R P I W S) : Res R P I W S Unit :=
  if (w.slice s).iss = [] then (.error .runtimeError, w)
  else if (w.slice s).sieves = [] then (.error .runtimeError, w)
  else
    match selectSample (ρ w.rnd) (w.slice s).sample X with
    | .error e => (.error e, w.tick)
    | .ok D =>
      match fitPreps K ρ C (w.slice s).preps D w.tick with
      | (.error e, w1) => (.error e, w1)
      | (.ok Y, w1) =>
        match fitIss K ρ C Y (w.slice s).iss w1 with
        | (.error e, w2) => (.error e, w2)
        | (.ok (), w2) => fitFinish K ρ s C Y w2

/-! ### Transforming with a slice -/

/-- The methods of a callback with their arguments, `callback.py:14-41`. -/
inductive Event (R V : Type)
  | nextSlice
  | preparateur (X : Data R)
  | preparationEnd (X : Data R)
  | iteratedSum (X : List (List R))
  | sieve (X : List (List V))
  | sievingEnd (X : List (List V))

/-- The calls of callback methods, in order: number of the callback and method.  Callbacks are assumed not to raise and not
to change the arrays they are given. -/
abbrev Trace (R V : Type) := List (ℕ × Event R V)

/-- `for callback in callbacks: callback.method(...)` for `n` callbacks. -/
def emit (n : ℕ) (e : Event R V) : Trace R V := (List.range n).map fun j => (j, e)

/-- `fruit.py:525-530`. -/
def transformPreps (K : Sem R P I W S V) (w : World R P I W S) (n : ℕ) (C : Data R) :
    List ℕ → Data R → Except Err (Data R) × Trace R V
  | [], X => (.ok X, [])
  | a :: as, X =>
    match K.prepTransform (w.prep a) C X with
    | .error e => (.error e, [])
    | .ok Y => ((transformPreps K w n C as Y).1, emit n (.preparateur Y) ++ (transformPreps K w n C as Y).2)

/-- `D[:, a:b] = A` for two-dimensional arrays. -/
def setCols (D : List (List V)) (a b : ℤ) (A : List (List V)) : Except Err (List (List V)) :=
  if A.length = D.length then
    (List.zip D A).mapM fun (p : List V × List V) => setSlc p.1 (pyClip p.1.length a) (pyClip p.1.length b) p.2
  else match A with
    | [r] => D.mapM fun (d : List V) => setSlc d (pyClip d.length a) (pyClip d.length b) r
    | _ => .error .valueError

/-- `fruit.py:544-550`: the sieves applied to one iterated sum; `k` is the next column.  Callbacks get the rows `k:k+nf`. -/
def sieveLoop (K : Sem R P I W S V) (n : ℕ) (C : Data R) (it : List (List R)) :
    List S → List (List V) → ℤ → Except Err (List (List V) × ℤ) × Trace R V
  | [], D, k => (.ok (D, k), [])
  | s :: ss, D, k =>
    match K.sieveTransform s C it with
    | .error e => (.error e, [])
    | .ok A =>
      match setCols D k (k + K.sieveN s) A with
      | .error e => (.error e, [])
      | .ok D' =>
        ((sieveLoop K n C it ss D' (k + K.sieveN s)).1,
          emit n (.sieve (slc D' k (k + K.sieveN s))) ++ (sieveLoop K n C it ss D' (k + K.sieveN s)).2)

/-- `fruit.py:541-543`: the sieves for iterated sum number `i`. -/
def sievesFor (ext : List (List S)) (sieves : List S) (i : ℕ) : Except Err (List S) :=
  if ext.isEmpty then .ok sieves
  else match ext[i]? with
    | some row => .ok row
    | none => .error .indexError

/-- `fruit.py:537-550`: the loop over the iterated sums. -/
def itemLoop (K : Sem R P I W S V) (n : ℕ) (C : Data R) (ext : List (List S)) (sieves : List S) :
    List (List (List R)) → Option Err → ℕ → List (List V) → ℤ → Except Err (List (List V)) × Trace R V
  | [], none, _, D, _ => (.ok D, [])
  | [], some e, _, _, _ => (.error e, [])
  | it :: its, e, i, D, k =>
    match sievesFor ext sieves i with
    | .error e' => (.error e', emit n (.iteratedSum it))
    | .ok row =>
      match sieveLoop K n C it row D k with
      | (.error e', tr) => (.error e', emit n (.iteratedSum it) ++ tr)
      | (.ok (D', k'), tr) =>
        ((itemLoop K n C ext sieves its e (i + 1) D' k').1,
          emit n (.iteratedSum it) ++ tr ++ (itemLoop K n C ext sieves its e (i + 1) D' k').2)

/-- `np.zeros((m, N))`. -/
def zerosE (K : Sem R P I W S V) (m : ℕ) (N : ℤ) : Except Err (List (List V)) :=
  if N < 0 then .error .valueError else .ok (List.replicate m (List.replicate N.toNat K.zero))

/-- `fruit.py:534-553`: the second part of `FruitSlice.transform`. -/
def transformSieve (K : Sem R P I W S V) (w : World R P I W S) (n : ℕ) (s : ℕ) (C X : Data R) :
    Except Err (List (List V)) × Trace R V :=
  match sliceN K w s >>= zerosE K X.length with
  | .error e => (.error e, [])
  | .ok D =>
    match itemLoop K n C (w.slice s).ext ((w.slice s).sieves.map w.sieve)
        (iterateIss K C ((w.slice s).iss.map w.issAt) X).1 (iterateIss K C ((w.slice s).iss.map w.issAt) X).2 0 D 0 with
    | (.error e, tr) => (.error e, tr)
    | (.ok A, tr) => (.ok A, tr ++ emit n (.sievingEnd A))

/-- `FruitSlice.transform`, `fruit.py:498-553`, with `n` callbacks.  The world is not changed. -/
def sliceTransform (K : Sem R P I W S V) (w : World R P I W S) (n : ℕ) (s : ℕ) (C X : Data R) :
    Except Err (List (List V)) × Trace R V :=
  if (w.slice s).fitted then
    match transformPreps K w n C (w.slice s).preps X with
    | (.error e, tr) => (.error e, tr)
    | (.ok Y, tr) =>
      ((transformSieve K w n s C Y).1, tr ++ emit n (.preparationEnd Y) ++ (transformSieve K w n s C Y).2)
  else (.error .runtimeError, [])

/-! ### Copies of a slice -/

/-- `FruitSlice.copy`, `fruit.py:598-609`: a new slice with the same seed objects; `fit_sample_size` is not copied.
`copy_.add(x)` appends to the list of the type of `x`. -/
def sliceCopy (s : ℕ) (w : World R P I W S) : Res R P I W S ℕ :=
  match sliceAdd w.nSlice ((w.slice s).preps.map Arg.prep ++ (w.slice s).iss.map Arg.iss ++ (w.slice s).sieves.map Arg.sieve :
      List (Arg P S)) w.newSlice with
  | (.error e, w') => (.error e, w')
  | (.ok (), w') => (.ok w.nSlice, w')

/-- `copy_.add(preparateur.copy())`, `fruit.py:616-617`. -/
def deepPreps (K : Sem R P I W S V) (d : ℕ) : List ℕ → World R P I W S → World R P I W S
  | [], w => w
  | a :: as, w => deepPreps K d as (sliceAddPrep d w.nPrep (w.newPrep (K.prepCopy (w.prep a))))

/-- `copy_.add(iss.copy())`, `fruit.py:618-619`. -/
def deepIss (K : Sem R P I W S V) (d : ℕ) : List ℕ → World R P I W S → Res R P I W S Unit
  | [], w => (.ok (), w)
  | a :: as, w =>
    match K.issCopy (w.issAt a).1 (w.issAt a).2 with
    | .error e => (.error e, w)
    | .ok i => deepIss K d as (sliceAddIss d w.nIss (w.newIss i (w.iss a).2))

/-- `copy_.add(sieve.copy())`, `fruit.py:620-621`. -/
def deepSieves (K : Sem R P I W S V) (d : ℕ) : List ℕ → World R P I W S → Res R P I W S Unit
  | [], w => (.ok (), w)
  | a :: as, w =>
    match K.sieveCopy (w.sieve a) with
    | .error e => (.error e, w)
    | .ok v => deepSieves K d as (sliceAddSieve d w.nSieve (w.newSieve v))

/-- `FruitSlice.deepcopy`, `fruit.py:611-623`. -/
def sliceDeepcopy (K : Sem R P I W S V) (s : ℕ) (w : World R P I W S) : Res R P I W S ℕ :=
  match deepIss K w.nSlice (w.slice s).iss (deepPreps K w.nSlice (w.slice s).preps w.newSlice) with
  | (.error e, w1) => (.error e, w1)
  | (.ok (), w1) =>
    match deepSieves K w.nSlice (w.slice s).sieves w1 with
    | (.error e, w2) => (.error e, w2)
    | (.ok (), w2) => (.ok w.nSlice, sliceSetSample w.nSlice (w.slice s).sample w2)

/-! ### Fruits -/

/-- `Fruit.cut(slice)`, `fruit.py:61-73`. -/
def fruitCut (f s : ℕ) (w : World R P I W S) : World R P I W S :=
  w.setFruit f { w.fruit f with slices := (w.fruit f).slices ++ [s], cur := (w.fruit f).slices.length, fitted := false }

/-- `Fruit.cut()`, `fruit.py:69-70`. -/
def fruitCutNew (f : ℕ) (w : World R P I W S) : World R P I W S := fruitCut f w.nSlice w.newSlice

/-- `Fruit.get_slice()`, `fruit.py:86-87`. -/
def currentSlice (w : World R P I W S) (f : ℕ) : Except Err ℕ :=
  match (w.fruit f).slices[(w.fruit f).cur]? with
  | some s => .ok s
  | none => .error .indexError

/-- `Fruit.get_slice(index)` and `Fruit[index]`, `fruit.py:88,276-277`, with Python's negative indices. -/
def getSlice (w : World R P I W S) (f : ℕ) (i : ℤ) : Except Err ℕ :=
  if 0 ≤ i then
    match (w.fruit f).slices[i.toNat]? with
    | some s => .ok s
    | none => .error .indexError
  else if -i ≤ ((w.fruit f).slices.length : ℤ) then
    match (w.fruit f).slices[(w.fruit f).slices.length - (-i).toNat]? with
    | some s => .ok s
    | none => .error .indexError
  else .error .indexError

/-- `Fruit.copycut`, `fruit.py:75-80`. -/
def fruitCopycut (K : Sem R P I W S V) (f : ℕ) (w : World R P I W S) : Res R P I W S Unit :=
  match currentSlice w f with
  | .error e => (.error e, w)
  | .ok s =>
    match sliceDeepcopy K s w with
    | (.error e, w') => (.error e, w')
    | (.ok d, w') => (.ok (), fruitCut f d w')

/-- `Fruit.switch_slice`, `fruit.py:90-98`. -/
def fruitSwitch (f : ℕ) (i : ℤ) (w : World R P I W S) : Res R P I W S Unit :=
  if 0 ≤ i ∧ i < ((w.fruit f).slices.length : ℤ) then (.ok (), w.setFruit f { w.fruit f with cur := i.toNat })
  else (.error .indexError, w)

/-- `fruit.py:112-113`: `if len(self._slices) == 0: self.cut()`. -/
def ensureSlice (f : ℕ) (w : World R P I W S) : World R P I W S :=
  if (w.fruit f).slices = [] then fruitCutNew f w else w

/-- `Fruit.add`, `fruit.py:100-115`. -/
def fruitAdd (f : ℕ) (args : List (Arg P S)) (w : World R P I W S) : Res R P I W S Unit :=
  match currentSlice (ensureSlice f w) f with
  | .error e => (.error e, ensureSlice f w)
  | .ok s =>
    match sliceAdd s args (ensureSlice f w) with
    | (.error e, w') => (.error e, w')
    | (.ok (), w') => (.ok (), w'.setFruit f { w'.fruit f with fitted := false })

/-- `Fruit.nfeatures`, `fruit.py:117-119`. -/
def fruitN (K : Sem R P I W S V) (w : World R P I W S) (f : ℕ) : Except Err ℤ := do
  let ns ← (w.fruit f).slices.mapM (sliceN K w)
  pure ns.sum

/-- `fruit.py:134-135`: `for slc in self._slices: slc.fit(X, cache=cache_)`. -/
def fitSlices (K : Sem R P I W S V) (ρ : ℕ → Rng R) (C X : Data R) : List ℕ → World R P I W S → Res R P I W S Unit
  | [], w => (.ok (), w)
  | s :: ss, w =>
    match sliceFit K ρ s C X w with
    | (.error e, w') => (.error e, w')
    | (.ok (), w') => fitSlices K ρ C X ss w'

/-- `Fruit.fit`, `fruit.py:121-136`. -/
def fruitFit (K : Sem R P I W S V) (ρ : ℕ → Rng R) (f : ℕ) (C X : Data R) (w : World R P I W S) : Res R P I W S Unit :=
  match fitSlices K ρ C X (w.fruit f).slices w with
  | (.error e, w') => (.error e, w')
  | (.ok (), w') => (.ok (), w'.setFruit f { w'.fruit f with fitted := true })

/-- `fruit.py:166-171`: the loop over the slices; `k` is the next column. -/
def slicesLoop (K : Sem R P I W S V) (w : World R P I W S) (n : ℕ) (C X : Data R) :
    List ℕ → List (List V) → ℤ → Except Err (List (List V)) × Trace R V
  | [], D, _ => (.ok D, [])
  | s :: ss, D, k =>
    match sliceN K w s with
    | .error e => (.error e, emit n .nextSlice)
    | .ok N =>
      match sliceTransform K w n s C X with
      | (.error e, tr) => (.error e, emit n .nextSlice ++ tr)
      | (.ok A, tr) =>
        match setCols D k (k + N) A with
        | .error e => (.error e, emit n .nextSlice ++ tr)
        | .ok D' =>
          ((slicesLoop K w n C X ss D' (k + N)).1, emit n .nextSlice ++ tr ++ (slicesLoop K w n C X ss D' (k + N)).2)

/-- `Fruit.transform`, `fruit.py:138-173`, with `n` callbacks. -/
def fruitTransform (K : Sem R P I W S V) (w : World R P I W S) (n : ℕ) (f : ℕ) (C X : Data R) :
    Except Err (List (List V)) × Trace R V :=
  if (w.fruit f).fitted then
    match fruitN K w f >>= zerosE K X.length with
    | .error e => (.error e, [])
    | .ok D =>
      match slicesLoop K w n C X (w.fruit f).slices D 0 with
      | (.error e, tr) => (.error e, tr)
      | (.ok A, tr) => (.ok (A.map fun r => r.map K.post), tr)
  else (.error .runtimeError, [])

/-- `copy_.cut(slc.copy())`, `fruit.py:218-219`. -/
def copySlices (f : ℕ) : List ℕ → World R P I W S → Res R P I W S Unit
  | [], w => (.ok (), w)
  | s :: ss, w =>
    match sliceCopy s w with
    | (.error e, w') => (.error e, w')
    | (.ok d, w') => copySlices f ss (fruitCut f d w')

/-- `Fruit.copy`, `fruit.py:215-220`. -/
def fruitCopy (f : ℕ) (w : World R P I W S) : Res R P I W S ℕ :=
  match copySlices w.nFruit (w.fruit f).slices (w.newFruit ((w.fruit f).name ++ " (Copy)".toList)) with
  | (.error e, w') => (.error e, w')
  | (.ok (), w') => (.ok w.nFruit, w')

/-- `copy_.cut(slc.deepcopy())`, `fruit.py:225-226`. -/
def deepSlices (K : Sem R P I W S V) (f : ℕ) : List ℕ → World R P I W S → Res R P I W S Unit
  | [], w => (.ok (), w)
  | s :: ss, w =>
    match sliceDeepcopy K s w with
    | (.error e, w') => (.error e, w')
    | (.ok d, w') => deepSlices K f ss (fruitCut f d w')

/-- `Fruit.deepcopy`, `fruit.py:222-227`. -/
def fruitDeepcopy (K : Sem R P I W S V) (f : ℕ) (w : World R P I W S) : Res R P I W S ℕ :=
  match deepSlices K w.nFruit (w.fruit f).slices (w.newFruit ((w.fruit f).name ++ " (Deepcopy)".toList)) with
  | (.error e, w') => (.error e, w')
  | (.ok (), w') => (.ok w.nFruit, w')

/-! ### Labels -/

/-- `level` of `label`, `fruit.py:232`. -/
inductive Level
  | prepared | iterated | features
  deriving DecidableEq

/-- `text.split(sep)[0]` for a non-empty `sep`: everything before its first occurrence. -/
def beforeSep (sep : PStr) : PStr → PStr
  | [] => []
  | c :: cs => if pstartswith (c :: cs) sep then [] else c :: beforeSep sep cs

/-- `fruit.py:648-650,655-657`: the label of a preparateur; `verbose == 1` cuts it at the first parenthesis. -/
def prepText (K : Sem R P I W S V) (verbose1 : Bool) (p : P) : PStr :=
  if verbose1 then beforeSep "(".toList (K.prepLabel p) else K.prepLabel p

/-- `string += f"{label} -> "` for a list of labels. -/
def arrows (ls : List PStr) : PStr := ls.flatMap fun l => l ++ " -> ".toList

/-- `s[:-4]`. -/
def dropArrow (s : PStr) : PStr := s.take (s.length - 4)

/-- The first `k` elements, or `IndexError` if there are fewer: the loop `fruit.py:647-651`. -/
def takeE {α : Type} (l : List α) (k : ℕ) : Except Err (List α) :=
  if k ≤ l.length then .ok (l.take k) else .error .indexError

/-- Python's `a % b` for a rational number `b ≠ 0` (a float in the code; the numbers are exact). -/
def qmod (a b : ℚ) : ℚ := a - b * (⌊a / b⌋ : ℚ)

/-- `fruit.py:667-677`: the loop over the ISS objects; `n` is `n_i`. -/
def issTexts (K : Sem R P I W S V) (verbose1 : Bool) (index : ℚ) : List (I × W) → ℚ → Except Err (List PStr)
  | [], _ => .ok []
  | i :: is, n => do
    let c ← K.issCount i.1 i.2
    if n = 0 ∨ c = 0 then .error .zeroDivisionError
    else do
      let l ← K.issLabel i.1 i.2 ⌊qmod index n / (n / (c : ℚ))⌋.toNat
      let rest ← issTexts K verbose1 index is (n / (c : ℚ))
      pure ((if verbose1 then beforeSep " : ".toList l else l) :: rest)

/-- `fruit.py:681-685`: the sieve the feature number `findex` belongs to. -/
def sieveText (K : Sem R P I W S V) : List S → ℤ → Except Err PStr
  | [], _ => .error .runtimeError
  | s :: ss, findex => if findex < K.sieveN s then K.sieveLabel s findex.toNat else sieveText K ss (findex - K.sieveN s)

/-- `fruit.py:659-660,679-680`: `if string != "": string = string[:-4] + " | "`. -/
def barred (s : PStr) : PStr := if s = [] then [] else dropArrow s ++ " | ".toList

/-- `"input" if string == "" else string[:-4]`. -/
def orInput (s : PStr) : PStr := if s = [] then "input".toList else dropArrow s

/-- `fruit.py:654-677`: the label up to the iterated sum number `index`. -/
def itsumText (K : Sem R P I W S V) (w : World R P I W S) (verbose1 : Bool) (s : ℕ) (index : ℤ) : Except Err PStr := do
  let n ← sliceCount K w s
  let ls ← issTexts K verbose1 (index : ℚ) ((w.slice s).iss.map w.issAt) (n : ℚ)
  pure (barred (arrows ((w.slice s).preps.map fun a => prepText K verbose1 (w.prep a))) ++ arrows ls)

/-- `FruitSlice.label`, `fruit.py:625-686`. -/
def sliceLabel (K : Sem R P I W S V) (w : World R P I W S) (verbose1 : Bool) (level : Level) (s : ℕ) (index : ℤ) :
    Except Err PStr :=
  match level with
  | .prepared => do
    let ps ← takeE (w.slice s).preps (index + 1).toNat
    pure (orInput (arrows (ps.map fun a => prepText K verbose1 (w.prep a))))
  | .iterated => do
    let t ← itsumText K w verbose1 s index
    pure (orInput t)
  | .features =>
    if sieveTotal K w s = 0 then .error .zeroDivisionError
    else do
      let t ← itsumText K w verbose1 s (Int.fdiv index (sieveTotal K w s))
      let l ← sieveText K ((w.slice s).sieves.map w.sieve) (Int.fmod index (sieveTotal K w s))
      pure (barred t ++ l)

/-- `fruit.py:252-257`: how many indices of the level belong to a slice. -/
def levelCount (K : Sem R P I W S V) (w : World R P I W S) (level : Level) (s : ℕ) : Except Err ℤ :=
  match level with
  | .prepared => .ok ((w.slice s).preps.length : ℤ)
  | .iterated => do
    let n ← sliceCount K w s
    pure (n : ℤ)
  | .features => sliceN K w s

/-- `fruit.py:249-261`: the loop of `Fruit.label` over the slices; behind the last one `get_slice` raises. -/
def labelLoop (K : Sem R P I W S V) (w : World R P I W S) (verbose1 : Bool) (level : Level) : List ℕ → ℤ → Except Err PStr
  | ss, index =>
    if 0 ≤ index then
      match ss with
      | [] => .error .indexError
      | s :: ss => do
        let total ← levelCount K w level s
        if index < total then sliceLabel K w verbose1 level s index
        else labelLoop K w verbose1 level ss (index - total)
    else .error .runtimeError

/-- `Fruit.label`, `fruit.py:229-261`. -/
def fruitLabel (K : Sem R P I W S V) (w : World R P I W S) (verbose1 : Bool) (level : Level) (f : ℕ) (index : ℤ) :
    Except Err PStr :=
  labelLoop K w verbose1 level (w.fruit f).slices index

/-! ### Histories -/

/-- The calls a user can make.  Data arguments come with the input array of the cache that is passed (`none`: no cache
argument, the cache is made from the data).  `editIss` and `editWords` stand for any change of the public attributes of an
ISS object and of its words. -/
inductive Op (R P I W S : Type)
  | newPrep (p : P)
  | newWords (ws : W)
  | newIss (i : I) (ws : ℕ)
  | newSieve (v : S)
  | newSlice
  | newFruit (name : PStr)
  | prepFit (a : ℕ) (C X : Data R)
  | issFit (a : ℕ) (C X : Data R)
  | sieveFit (a : ℕ) (C : Data R) (X : List (List R))
  | editIss (a : ℕ) (i : I)
  | editWords (a : ℕ) (ws : W)
  | add (s : ℕ) (args : List (Arg P S))
  | clearPreps (s : ℕ)
  | clearIss (s : ℕ)
  | clearSieves (s : ℕ)
  | clear (s : ℕ)
  | setSample (s : ℕ) (k : IntOrFloat R)
  | fit (s : ℕ) (C : Option (Data R)) (X : Data R)
  | transform (s : ℕ) (C : Option (Data R)) (X : Data R)
  | copy (s : ℕ)
  | deepcopy (s : ℕ)
  | cut (f : ℕ) (s : Option ℕ)
  | copycut (f : ℕ)
  | switch (f : ℕ) (i : ℤ)
  | fruitAdd (f : ℕ) (args : List (Arg P S))
  | fruitFit (f : ℕ) (C : Option (Data R)) (X : Data R)
  | fruitTransform (f : ℕ) (C : Option (Data R)) (X : Data R)
  | fruitCopy (f : ℕ)
  | fruitDeepcopy (f : ℕ)

/-- `SharedSeedCache(X) if cache is None else cache`, `fruit.py:133,163,471-472,522-523`. -/
def cacheInput (C : Option (Data R)) (X : Data R) : Data R := C.getD X

/-- The outcome of a call of a seed method that changes the seed. -/
def Except.write {α : Type} (r : Except Err α) (w : World R P I W S) (f : α → World R P I W S) : Res R P I W S Unit :=
  match r with
  | .error e => (.error e, w)
  | .ok a => (.ok (), f a)

/-- Forgets the returned value. -/
def Res.void {α : Type} (r : Res R P I W S α) : Res R P I W S Unit := (r.1.map fun _ => (), r.2)

/-- One call: its outcome (without the returned value) and the world after it. -/
def step (K : Sem R P I W S V) (ρ : ℕ → Rng R) : Op R P I W S → World R P I W S → Res R P I W S Unit
  | .newPrep p, w => (.ok (), w.newPrep p)
  | .newWords ws, w => (.ok (), w.newWords ws)
  | .newIss i ws, w => (.ok (), w.newIss i ws)
  | .newSieve v, w => (.ok (), w.newSieve v)
  | .newSlice, w => (.ok (), w.newSlice)
  | .newFruit name, w => (.ok (), w.newFruit name)
  | .prepFit a C X, w => Except.write (K.prepFit (ρ w.rnd) (w.prep a) C X) w.tick (w.tick.setPrep a)
  | .issFit a C X, w => Except.write (K.issFit (ρ w.rnd) (w.issAt a).1 (w.issAt a).2 C X) w.tick (w.tick.setIss a)
  | .sieveFit a C X, w => Except.write (K.sieveFit (ρ w.rnd) (w.sieve a) C X) w.tick (w.tick.setSieve a)
  | .editIss a i, w => (.ok (), w.setIss a i)
  | .editWords a ws, w => (.ok (), w.setWords a ws)
  | .add s args, w => sliceAdd s args w
  | .clearPreps s, w => (.ok (), sliceClearPreps s w)
  | .clearIss s, w => (.ok (), sliceClearIss s w)
  | .clearSieves s, w => (.ok (), sliceClearSieves s w)
  | .clear s, w => (.ok (), sliceClear s w)
  | .setSample s k, w => (.ok (), sliceSetSample s k w)
  | .fit s C X, w => sliceFit K ρ s (cacheInput C X) X w
  | .transform s C X, w => ((sliceTransform K w 0 s (cacheInput C X) X).1.map fun _ => (), w)
  | .copy s, w => (sliceCopy s w).void
  | .deepcopy s, w => (sliceDeepcopy K s w).void
  | .cut f (some s), w => (.ok (), fruitCut f s w)
  | .cut f none, w => (.ok (), fruitCutNew f w)
  | .copycut f, w => fruitCopycut K f w
  | .switch f i, w => fruitSwitch f i w
  | .fruitAdd f args, w => fruitAdd f args w
  | .fruitFit f C X, w => fruitFit K ρ f (cacheInput C X) X w
  | .fruitTransform f C X, w => ((fruitTransform K w 0 f (cacheInput C X) X).1.map fun _ => (), w)
  | .fruitCopy f, w => (fruitCopy f w).void
  | .fruitDeepcopy f, w => (fruitDeepcopy K f w).void

/-- The addresses in an argument of `add` exist. -/
def Arg.Live (w : World R P I W S) : Arg P S → Prop
  | .prep a => a < w.nPrep
  | .iss a => a < w.nIss
  | .sieve a => a < w.nSieve
  | _ => True

/-- The objects a call refers to exist. -/
def Op.Live (w : World R P I W S) : Op R P I W S → Prop
  | .newPrep _ | .newWords _ | .newSieve _ | .newSlice | .newFruit _ => True
  | .newIss _ ws => ws < w.nWords
  | .prepFit a _ _ => a < w.nPrep
  | .issFit a _ _ => a < w.nIss
  | .sieveFit a _ _ => a < w.nSieve
  | .editIss a _ => a < w.nIss
  | .editWords a _ => a < w.nWords
  | .add s args => s < w.nSlice ∧ ∀ x ∈ args, x.Live w
  | .clearPreps s | .clearIss s | .clearSieves s | .clear s | .setSample s _ | .fit s _ _ | .transform s _ _ | .copy s
  | .deepcopy s => s < w.nSlice
  | .cut f s => f < w.nFruit ∧ ∀ a, s = some a → a < w.nSlice
  | .copycut f | .switch f _ | .fruitFit f _ _ | .fruitTransform f _ _ | .fruitCopy f | .fruitDeepcopy f => f < w.nFruit
  | .fruitAdd f args => f < w.nFruit ∧ ∀ x ∈ args, x.Live w

/-- A history: the world after the calls `ops`, each of which refers to existing objects, whether they raised or not. -/
inductive Hist (K : Sem R P I W S V) (ρ : ℕ → Rng R) (w₀ : World R P I W S) : List (Op R P I W S) → World R P I W S → Prop
  | nil : Hist K ρ w₀ [] w₀
  | snoc {ops : List (Op R P I W S)} {w : World R P I W S} (o : Op R P I W S) :
      Hist K ρ w₀ ops w → o.Live w → Hist K ρ w₀ (ops ++ [o]) (step K ρ o w).2

/-- Nothing has been created yet. -/
def World.Empty (w : World R P I W S) : Prop :=
  w.nPrep = 0 ∧ w.nIss = 0 ∧ w.nWords = 0 ∧ w.nSieve = 0 ∧ w.nSlice = 0 ∧ w.nFruit = 0

end

end Fruits
