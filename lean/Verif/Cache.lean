import Verif.Arr

/-! # The shared cache and the seed base class: `fruits/cache.py`, `fruits/seed.py`

Arithmetic is exact, see DESIGN.md.  `float(c)` and `str(q)` are the parameter `FloatText`; the only law used is that
printing and parsing a number gives it back (Python guarantees this for floats). -/

namespace Fruits
set_option linter.unusedSectionVars false

variable {R : Type}

/-- Applies a function that may raise to every row. -/
def mapRowsM {R S : Type} (f : List R → Except Err (List S)) (X : Data R) : Except Err (Data S) :=
  X.mapM fun s => s.mapM f

/-- `fruits/cache.py:8-13` `_increments`, on one row: `result = zeros; result[k:] = x[k:] - x[:-k]`. The subtraction
of arrays of different lengths raises `ValueError` (this happens for `k = 0` and a non-empty row). -/
def increments1 [Sub R] [Zero R] (k : ℤ) (x : List R) : Except Err (List R) :=
  let a := slcFrom x k
  let b := slcTo x (-k)
  if a.length = b.length then setSlc (zeros x.length) (pyClip x.length k) x.length (vsub a b)
  else .error .valueError

/-- `fruits/cache.py:8-13` `_increments(X, k)`. -/
def increments [Sub R] [Zero R] (X : Data R) (k : ℤ) : Except Err (Data R) := mapRowsM (increments1 k) X

/-- `fruits/cache.py:16-22` `_coquantile`, one row: `np.sum(x <= q * x[-1])`. (`x[-1]` of an empty row is an
out-of-bounds read in the compiled code; the model uses 0, theorems assume a non-empty row.) -/
def coquantile1 [Mul R] [Zero R] [LE R] [DecidableLE R] (q : R) (x : List R) : ℕ :=
  (x.filter fun v => decide (v ≤ q * x.getD (x.length - 1) 0)).length

/-- The norms of the cache keys. -/
inductive Norm
  | L1 | L2
  deriving DecidableEq, Repr

/-- `np.abs(v)` / `v*v`: the summand of `_L1_sum` / `_L2_sum`. -/
def Norm.val [LinearOrder R] [Ring R] : Norm → R → R
  | .L1, v => |v|
  | .L2, v => v * v

/-- `fruits/cache.py:25-40` `_L1_sum`, `_L2_sum`: cumulative sums of the (absolute or squared) increments of the first
dimension, one row per series. -/
def normSum [LinearOrder R] [Ring R] (nm : Norm) (X : Data R) : Except Err (List (List R)) :=
  X.mapM fun s => do
    let y ← increments1 1 (s.getD 0 [])
    pure (cumsum (y.map nm.val))

/-- `fruits/cache.py:43-48` `CacheType`. -/
inductive CacheType
  | coquantile | iss
  deriving DecidableEq, Repr

/-- An array of the cache: indices (`int64`) for coquantiles, sums (`float64`) otherwise. -/
inductive CacheVal (R : Type)
  | idx (v : List ℕ)
  | sums (v : List (List R))

/-- The text form of floats: `str(q)` and `float(c)`. -/
structure FloatText (R : Type) where
  toText : R → PStr
  ofText : PStr → Option R

/-- Printing then parsing is the identity and the text contains no colon. -/
structure FloatText.Lawful (T : FloatText R) : Prop where
  ofText_toText : ∀ q, T.ofText (T.toText q) = some q
  no_colon : ∀ q, ':' ∉ T.toText q

/-- An input array of one, two or three dimensions. -/
inductive NdArr (R : Type)
  | d1 (x : List R)
  | d2 (x : List (List R))
  | d3 (x : Data R)

/-- `fruits/cache.py:68-73` / `114-117`: `X[np.newaxis, np.newaxis, :]`, `X[:, np.newaxis, :]` or `X`. -/
def NdArr.toData : NdArr R → Data R
  | .d1 x => [[x]]
  | .d2 x => x.map fun r => [r]
  | .d3 X => X

/-- `fruits/cache.py:62-75` `SharedSeedCache`: the two dictionaries (as one association list) and the stored input. -/
structure Cache (R : Type) where
  input : Option (Data R)
  store : List ((CacheType × PStr) × CacheVal R)

/-- `fruits/cache.py:62-75` `SharedSeedCache(X)`. -/
def Cache.new (X : Option (NdArr R)) : Cache R := ⟨X.map NdArr.toData, []⟩

/-- The dictionary entry of a key. -/
def Cache.lookup (c : Cache R) (ty : CacheType) (key : PStr) : Option (CacheVal R) :=
  (c.store.find? fun e => decide (e.1 = (ty, key))).map (·.2)

/-- The norm a string names. -/
def normOf (s : PStr) : Option Norm :=
  if s = "L1".toList then some .L1 else if s = "L2".toList then some .L2 else none

/-- `fruits/cache.py:98-112` and `118-132`: the value stored for a key, computed from `X`; `none` if the key names no norm
(then nothing is stored). `c, norm = key.split(":")` raises `ValueError` if the key has not exactly one colon, `float(c)`
if `c` is no number. -/
def computeKey [LinearOrder R] [Ring R] (T : FloatText R) (ty : CacheType) (key : PStr) (X : Data R) :
    Except Err (Option (CacheVal R)) :=
  match ty with
  | .coquantile =>
    match psplit ':' key with
    | [c, norm] =>
      match normOf norm with
      | none => .ok none
      | some nm => do
        let S ← normSum nm X
        match T.ofText c with
        | none => .error .valueError
        | some q => pure (some (.idx (S.map (coquantile1 q))))
    | _ => .error .valueError
  | .iss =>
    match normOf key with
    | none => .ok none
    | some nm => do
      let S ← normSum nm X
      pure (some (.sums S))

/-- Lines 98-112 or 118-132 of `fruits/cache.py`, followed by line 135 (`KeyError` if nothing was stored). -/
def Cache.fill [LinearOrder R] [Ring R] (T : FloatText R) (c : Cache R) (ty : CacheType) (key : PStr) (I : Data R) :
    Except Err (CacheVal R) × Cache R :=
  match computeKey T ty key I with
  | .error e => (.error e, c)
  | .ok none => (.error .keyError, c)
  | .ok (some v) => (.ok v, ⟨c.input, ((ty, key), v) :: c.store⟩)

/-- `fruits/cache.py:77-135` `SharedSeedCache.get(cache_id, key, X)`; the result and the changed cache. (A stored `None`
never occurs, so the second condition of line 96 is not modelled.) -/
def Cache.get [LinearOrder R] [Ring R] (T : FloatText R) (c : Cache R) (ty : CacheType) (key : PStr)
    (X : Option (NdArr R)) : Except Err (CacheVal R) × Cache R :=
  match c.lookup ty key with
  | some v => (.ok v, c)
  | none =>
    match c.input, X with
    | some I, _ => Cache.fill T c ty key I
    | none, some Y => Cache.fill T c ty key Y.toData
    | none, none => (.error .runtimeError, c)

/-! ### Seeds -/

/-- What a seed class implements: `_fit` and `_transform` read and change the seed's own state and its cache, and may
raise; after an exception the state and cache are whatever they were at that moment. -/
structure SeedImpl (R σ α : Type) where
  fit : Data R → σ → Cache R → Except Err Unit × σ × Cache R
  transform : Data R → σ → Cache R → Except Err α × σ × Cache R

/-- A seed object: its state and the attribute `_cache` (`none`: the attribute does not exist). -/
structure SeedObj (R σ : Type) where
  st : σ
  cache : Option (Cache R)

/-- `fruits/seed.py:26-35` `Seed.fit` (and `41-51` `transform`): create a cache if there is none, run, delete it again.
There is no `try/finally`, so an exception skips the deletion. -/
def SeedObj.call {σ α : Type} (f : Data R → σ → Cache R → Except Err α × σ × Cache R) (X : Data R) (o : SeedObj R σ) :
    Except Err α × SeedObj R σ :=
  let hasCache := o.cache.isSome
  let c := o.cache.getD (Cache.new (some (.d3 X)))
  match f X o.st c with
  | (.error e, st, c) => (.error e, ⟨st, some c⟩)
  | (.ok a, st, c) => (.ok a, ⟨st, if hasCache then some c else none⟩)

/-- `fruits/seed.py:26-35`. -/
def SeedObj.fit {σ α : Type} (I : SeedImpl R σ α) (X : Data R) (o : SeedObj R σ) : Except Err Unit × SeedObj R σ :=
  o.call I.fit X

/-- `fruits/seed.py:41-51`. -/
def SeedObj.transform {σ α : Type} (I : SeedImpl R σ α) (X : Data R) (o : SeedObj R σ) :
    Except Err α × SeedObj R σ :=
  o.call I.transform X

/-- `fruits/seed.py:53-58`. -/
def SeedObj.fitTransform {σ α : Type} (I : SeedImpl R σ α) (X : Data R) (o : SeedObj R σ) :
    Except Err α × SeedObj R σ :=
  match o.fit I X with
  | (.error e, o) => (.error e, o)
  | (.ok _, o) => o.transform I X

end Fruits
