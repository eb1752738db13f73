import Verif.Cache

/-! # Preparateurs: `fruits/preparation/{transform,filter,wrapper}.py`

Data are float arrays of shape `(m, d, n)` with `m, d ≥ 1`; arithmetic is exact.  Every class is split in its settings, its
fitted state, `fit` and `transform`.  Random draws come from an arbitrary generator `Rng`; a call number distinguishes the
calls inside one `fit`.  `sqrt`, `log`, `**`, `sin`, `cos` are parameters (`NpMath`). -/

namespace Fruits
set_option linter.unusedSectionVars false

/-- The non-algebraic functions of numpy used by the preparateurs. -/
class NpMath (R : Type) where
  sqrt : R → R
  log : R → R
  pow : R → R → R
  sin : R → R
  cos : R → R

/-- A random generator: the results of `np.random.randint(lo, hi)`, `np.random.choice(n, size, replace=False)`,
normal and uniform (on `[-1, 1)` and `[0, 1)`) draws, by call number. -/
structure Rng (R : Type) where
  randint : ℕ → ℤ → ℤ → ℤ
  choice : ℕ → ℕ → ℕ → List ℕ
  normal : ℕ → ℕ → ℕ → R
  uniform : ℕ → ℕ → ℕ → R
  unit : ℕ → ℕ → R
  dirichlet : List R → List R

/-- What numpy guarantees about the draws. -/
structure Rng.Valid {R : Type} [Field R] [LinearOrder R] (g : Rng R) : Prop where
  randint_range : ∀ c lo hi, lo < hi → lo ≤ g.randint c lo hi ∧ g.randint c lo hi < hi
  choice_length : ∀ c n k, k ≤ n → (g.choice c n k).length = k
  choice_nodup : ∀ c n k, k ≤ n → (g.choice c n k).Nodup
  choice_lt : ∀ c n k, k ≤ n → ∀ x ∈ g.choice c n k, x < n
  uniform_range : ∀ c i j, -1 ≤ g.uniform c i j ∧ g.uniform c i j < 1

variable {R : Type} [Field R] [LinearOrder R] [FloorRing R]

/-- All entries of a dataset, in order (`X.ravel()`). -/
def entries (X : Data R) : List R := X.flatten.flatten

/-! ### INC -/

/-- The argument `shift` of `INC`: an integer, a float or a callable. -/
inductive Shift (R : Type)
  | int (k : ℤ)
  | float (f : R)
  | call (f : ℕ → ℤ)

/-- `INC.__init__`, `transform.py:44-54`. -/
structure INC (R : Type) where
  shift : Shift R := .int 1
  depth : ℕ := 1
  zeroPadding : Bool := true

/-- `transform.py:61-69`: the shift used for series of length `n`. (`np.ceil` returns a float that the compiled
`_increments` converts to an integer.) -/
def Shift.eval (n : ℕ) : Shift R → ℤ
  | .int k => k
  | .float f => ⌈f * (n : R)⌉
  | .call f => f n

/-- `transform.py:73-74`: `out[:, :, :self._shift] = X[:, :, :self._shift]` on a row; a float or a callable is no slice
bound (`TypeError`). -/
def Shift.restore {A : Type} (s : Shift R) (x out : List A) : Except Err (List A) :=
  match s with
  | .int k => setSlc out 0 (pyClip out.length k) (slcTo x k)
  | .float _ => .error .typeError
  | .call _ => .error .typeError

/-- `transform.py:70-74`: the loop on one row `x`. -/
def INC.loop {A : Type} [Sub A] [Zero A] (p : INC R) (n : ℕ) (x : List A) : ℕ → List A → Except Err (List A)
  | 0, out => .ok out
  | k + 1, out => do
    let out ← increments1 (p.shift.eval n) out
    let out ← if p.zeroPadding then pure out else p.shift.restore x out
    INC.loop p n x k out

/-- `INC._transform`, `transform.py:60-75`. -/
def INC.transform (p : INC R) (X : Data R) : Except Err (Data R) :=
  mapRowsM (fun x => p.loop (shape2 X) x p.depth x) X

/-! ### STD -/

/-- `STD`, `transform.py:113-124`; `fitted` holds `_mean`, `_std`. -/
structure STD (R : Type) where
  separately : Bool := true
  var : Bool := true
  eps : R
  fitted : Option (R × R) := none

/-- `np.std(x)`. -/
def npStd [NpMath R] (x : List R) : R := NpMath.sqrt (variance x)

/-- `STD._fit`, `transform.py:125-131`. -/
def STD.fit [NpMath R] (p : STD R) (X : Data R) : STD R :=
  if p.separately then p
  else { p with fitted := some (mean (entries X), if p.var then npStd (entries X) else 1) }

/-- `STD._transform`, `transform.py:133-144`: the means and deviations are computed as arrays of shape `(m, d)` first and
then broadcast along time. -/
def STD.transform [NpMath R] (p : STD R) (X : Data R) : Except Err (Data R) :=
  if p.separately then
    let means : List (List R) := X.map fun s => s.map mean
    let stds : List (List R) := if p.var then X.map (fun s => s.map npStd) else X.map fun s => s.map fun _ => 1
    .ok (List.zipWith (fun s (q : List R × List R) =>
      List.zipWith (fun x (c : R × R) => x.map fun v => (v - c.1) / (c.2 + p.eps)) s (List.zip q.1 q.2))
      X (List.zip means stds))
  else match p.fitted with
    | none => .error .runtimeError
    | some (mu, sd) => .ok (mapEntries (fun v => (v - mu) / (sd + p.eps)) X)

/-! ### NRM -/

/-- `x[mask]`: the selected entries. -/
def compress {α : Type*} (mask : List Bool) (xs : List α) : List α := ((xs.zip mask).filter (·.2)).map (·.1)

/-- `out[mask] = vals`. -/
def scatter {α : Type*} : List Bool → List α → List α → List α
  | [], out, _ => out
  | _, [], _ => []
  | false :: ms, o :: os, vs => o :: scatter ms os vs
  | true :: ms, o :: os, [] => o :: scatter ms os []
  | true :: ms, _ :: os, v :: vs => v :: scatter ms os vs

/-- The least value of an array; `np.min` of an empty one raises. -/
def minE (x : List R) : Except Err R := match listMin x with | none => .error .valueError | some v => .ok v
/-- The greatest value of an array. -/
def maxE (x : List R) : Except Err R := match listMax x with | none => .error .valueError | some v => .ok v

/-- `NRM._transform` with `scale_dim=False`, `transform.py:185-198`: minima and maxima per row, and a boolean mask over the
rows `(i, j)` (here: over the list of all rows) that selects the non-constant ones. -/
def NRM.perDim (X : Data R) : Except Err (Data R) := do
  let rows := X.flatten
  let mins ← rows.mapM minE
  let maxs ← rows.mapM maxE
  let mask := List.zipWith (fun a b : R => decide (a ≠ b)) mins maxs
  let vals := List.zipWith (fun x (c : R × R) => x.map fun v => (v - c.1) / (c.2 - c.1)) (compress mask rows)
    (List.zip (compress mask mins) (compress mask maxs))
  let out := scatter mask (rows.map fun x => x.map fun _ => 0) vals
  pure (regroup (X.map List.length) out)
where
  /-- Splits the list of rows into series again. -/
  regroup {α : Type} : List ℕ → List α → List (List α)
    | [], _ => []
    | k :: ks, xs => xs.take k :: regroup ks (xs.drop k)

/-- `NRM._transform` with `scale_dim=True`: one minimum and maximum per series, the mask selects series. -/
def NRM.perSeries (X : Data R) : Except Err (Data R) := do
  let mins ← X.mapM fun s => do
    let r ← s.mapM minE
    minE r
  let maxs ← X.mapM fun s => do
    let r ← s.mapM maxE
    maxE r
  let mask := List.zipWith (fun a b : R => decide (a ≠ b)) mins maxs
  let vals := List.zipWith (fun (s : Series R) (c : R × R) => s.map fun x => x.map fun v => (v - c.1) / (c.2 - c.1))
    (compress mask X) (List.zip (compress mask mins) (compress mask maxs))
  pure (scatter mask (X.map fun s => s.map fun x => x.map fun _ => 0) vals)

/-- `NRM._transform`, `transform.py:184-198`. -/
def NRM.transform (scaleDim : Bool) (X : Data R) : Except Err (Data R) :=
  if scaleDim then NRM.perSeries X else NRM.perDim X

/-! ### MAV -/

/-- An integer or a float setting. -/
inductive IntOrFloat (R : Type)
  | int (k : ℤ)
  | float (f : R)

/-- `MAV`, `transform.py:241-248`; `w` is the attribute `_w` (absent until fitted). -/
structure MAV (R : Type) where
  given : IntOrFloat R := .int 5
  w : Option ℕ := none

/-- `MAV.__init__`, `transform.py:241-248`. -/
def MAV.new (given : IntOrFloat R) : Except Err (MAV R) :=
  match given with
  | .float f => if 0 < f ∧ f < 1 then .ok ⟨given, none⟩ else .error .valueError
  | .int _ => .ok ⟨given, none⟩

/-- `MAV._fit`, `transform.py:250-256`. A non-positive integer width sets nothing. -/
def MAV.fit {A : Type} (p : MAV R) (X : Data A) : MAV R :=
  match p.given with
  | .float f =>
    let w := pyInt (f * (shape2 X : R))
    { p with w := some (if w ≤ 0 then 1 else w.toNat) }
  | .int k => if 0 < k then { p with w := some k.toNat } else p

/-- `MAV._backend`, `transform.py:226-239`, on one row. -/
def MAV.row {A : Type} [Add A] [Zero A] [Div A] [NatCast A] (w : ℕ) (x : List A) : List A :=
  (List.range' w (x.length + 1 - w)).foldl
    (fun res (k : ℕ) => res.set (k - 1) ((slc x ((k : ℤ) - w) k).sum / (w : A))) (zeros x.length)

/-- `MAV._transform`, `transform.py:258-263`. (With `width=-1` the attribute `_w` is never set, so lines 261-262 are
unreachable.) -/
def MAV.transform (p : MAV R) (X : Data R) : Except Err (Data R) :=
  match p.w with
  | none => .error .runtimeError
  | some w => .ok (mapRows (MAV.row w) X)

/-! ### LAG -/

/-- `x[a::k] = v`. -/
def setStride {α : Type*} (x : List α) (a k : ℕ) (v : List α) : Except Err (List α) :=
  if v.length = (x.length - a + (k - 1)) / k then
    .ok (x.mapIdx fun t y => if a ≤ t ∧ (t - a) % k = 0 then v.getD ((t - a) / k) y else y)
  else .error .valueError

/-- `LAG._transform`, `transform.py:291-298`, for one dimension: the lead and the lag row. (`np.zeros` with length `2n-1`
raises for `n = 0`.) -/
def LAG.rows {A : Type} [Zero A] (x : List A) : Except Err (List (List A)) :=
  if x.length = 0 then .error .valueError
  else do
    let z := zeros (2 * x.length - 1)
    let lead ← setStride z 0 2 x
    let lead ← setStride lead 1 2 (slcFrom x 1)
    let lag ← setStride z 0 2 x
    let lag ← setStride lag 1 2 (slcTo x (-1))
    pure [lead, lag]

/-- `LAG._transform`, `transform.py:291-298`. -/
def LAG.transform {A : Type} [Zero A] (X : Data A) : Except Err (Data A) :=
  X.mapM fun s => do
    let rs ← s.mapM LAG.rows
    pure rs.flatten

/-! ### CTS -/

/-- `CTS`, `transform.py:926-932`. (An integer `s` is the number with that value.) -/
structure CTS (R : Type) where
  s : R
  pseudo : Bool := false

/-- `transform.py:935-938`. -/
def CTS.shift (p : CTS R) (n : ℕ) : ℤ :=
  if 0 < p.s ∧ p.s < 1 then max 1 (pyInt (p.s * (n : R))) else pyInt p.s

/-- `transform.py:939-945` on one row. -/
def CTS.row {A : Type} [Zero A] (pseudo : Bool) (shift : ℤ) (x : List A) : Except Err (List A) :=
  if pseudo then .ok (fillSlc x 0 (pyClip x.length shift) 0)
  else do
    let y ← setSlc x 0 (pyClip x.length (-shift)) (slcFrom x shift)
    setSlc y (pyClip y.length (-shift)) y.length (slcFrom y (-1))

/-- `CTS._transform`, `transform.py:934-945`. -/
def CTS.transform (p : CTS R) (X : Data R) : Except Err (Data R) :=
  mapRowsM (CTS.row p.pseudo (p.shift (shape2 X))) X

/-! ### QTC -/

/-- `np.quantile(x, q)` with linear interpolation. -/
def quantile (x : List R) (q : R) : Except Err R :=
  if 0 ≤ q ∧ q ≤ 1 then
    let a := x.insertionSort (· ≤ ·)
    let v := q * ((a.length : R) - 1)
    let lo := ⌊v⌋.toNat
    match a[lo]? with
    | none => .error .indexError
    | some u =>
      let w := a.getD (min (lo + 1) (a.length - 1)) u
      .ok (u + (w - u) * (v - (⌊v⌋ : R)))
  else .error .valueError

/-- `QTC`, `transform.py:977-985`. -/
structure QTC (R : Type) where
  q : R
  lower : Bool := false
  bound : Option R := none
  quantile : Option R := none

/-- `QTC._fit`, `transform.py:987-988`. -/
def QTC.fit (p : QTC R) (X : Data R) : Except Err (QTC R) := do
  let v ← Fruits.quantile (entries X) p.q
  pure { p with quantile := some v }

/-- `QTC._transform`, `transform.py:990-1001` (unfitted: `AttributeError`). -/
def QTC.transform (p : QTC R) (X : Data R) : Except Err (Data R) :=
  match p.quantile with
  | none => .error .attributeError
  | some c =>
    let b := p.bound.getD c
    if p.lower then .ok (mapEntries (fun v => if v < c then b else v) X)
    else .ok (mapEntries (fun v => if v > c then b else v) X)

/-! ### DIL -/

/-- `DIL`, `filter.py:28-31`. -/
structure DIL (R : Type) where
  clusters : Option R := none
  fitted : Option (List ℕ × List ℕ) := none

/-- `filter.py:34-41`: the number of strips. -/
def DIL.nclusters (g : Rng R) (p : DIL R) (n : ℕ) : ℤ :=
  match p.clusters with
  | some c => pyInt (c * (n : R))
  | none => let ub : ℤ := ((n / 10 : ℕ) : ℤ)
            if ub ≤ 1 then 1 else g.randint 0 1 ub

/-- `filter.py:48-54`: the loop that draws the lengths; `max_length < 1` makes `randint` raise. -/
def DIL.lengths (g : Rng R) (n : ℕ) (indices : List ℕ) (k : ℕ) : Except Err (List ℕ) :=
  (List.range k).mapM fun i =>
    match indices[i]? with
    | none => .error .indexError
    | some a =>
      if i + 1 = k then
        let len : ℤ := (n : ℤ) - a
        if len < 1 then .error .valueError else .ok (g.randint (i + 1) 1 (len + 1)).toNat
      else match indices[i + 1]? with
        | none => .error .indexError
        | some b =>
          let len : ℤ := (b : ℤ) - a
          if len < 1 then .error .valueError else .ok (g.randint (i + 1) 1 (len + 1)).toNat

/-- `DIL._fit`, `filter.py:33-54`. -/
def DIL.fit {A : Type} (g : Rng R) (p : DIL R) (X : Data A) : Except Err (DIL R) :=
  let n := shape2 X
  let k := p.nclusters g n
  if k < 0 then .error .valueError
  else do
    let indices := if k ≥ n then List.range n else (g.choice 0 n k.toNat).insertionSort (· ≤ ·)
    let lens ← DIL.lengths g n indices k.toNat
    pure { p with fitted := some (indices, lens) }

/-- `DIL._transform`, `filter.py:56-62`, on one row. (`self._lengths[i]` exists for every index after a successful fit; a
missing one counts as 0 here.) -/
def DIL.row {A : Type} [Zero A] (indices lengths : List ℕ) (x : List A) : List A :=
  (indices.zipIdx).foldl (fun y (e : ℕ × ℕ) => fillSlc y (pyClip y.length (e.1 : ℤ))
    (pyClip y.length ((e.1 + lengths.getD e.2 0 : ℕ) : ℤ)) 0) x

/-- `DIL._transform`, `filter.py:56-62`. -/
def DIL.transform (p : DIL R) (X : Data R) : Except Err (Data R) :=
  match p.fitted with
  | none => .error .runtimeError
  | some (indices, lens) => .ok (mapRows (DIL.row indices lens) X)

/-! ### WIN -/

/-- `WIN`, `filter.py:85-87`. -/
structure WIN (R : Type) where
  start : R
  stop : R

/-- The coquantiles `cache.get(COQUANTILE, str(q) + ":L2")` of a cache with input `C`. (By `C35_history` the answer does not
depend on earlier requests, so a fresh cache stands for the shared one.) -/
def coqs (T : FloatText R) (C : Data R) (q : R) (nm : PStr) : Except Err (List ℕ) :=
  match ((Cache.new (some (.d3 C))).get T .coquantile (T.toText q ++ ':' :: nm) none).1 with
  | .error e => .error e
  | .ok (.idx c) => .ok c
  | .ok (.sums _) => .error .typeError

/-- The sums `cache.get(ISS, norm)` of a cache with input `C`. -/
def issSums (T : FloatText R) (C : Data R) (nm : PStr) : Except Err (List (List R)) :=
  match ((Cache.new (some (.d3 C))).get T .iss nm none).1 with
  | .error e => .error e
  | .ok (.idx _) => .error .typeError
  | .ok (.sums s) => .ok s

/-- `filter.py:104-107` on one row: `result = zeros; result[a-1:b] = x[a-1:b]`. -/
def WIN.row {A : Type} [Zero A] (a b : ℕ) (x : List A) : Except Err (List A) :=
  setSlc (zeros x.length) (pyClip x.length ((a : ℤ) - 1)) (pyClip x.length (b : ℤ)) (slc x ((a : ℤ) - 1) (b : ℤ))

/-- `WIN._transform`, `filter.py:93-108`; `C` is the input of the seed's cache. A missing coquantile is an `IndexError`. -/
def WIN.transform (T : FloatText R) (C : Data R) (p : WIN R) (X : Data R) : Except Err (Data R) := do
  let a ← coqs T C p.start "L2".toList
  let b ← coqs T C p.stop "L2".toList
  (List.range X.length).mapM fun i =>
    match a[i]?, b[i]? with
    | some u, some v => (X.getD i []).mapM (WIN.row u v)
    | _, _ => .error .indexError

/-! ### DOT -/

/-- `DOT`, `filter.py:141-163`; `n`, `first` are the fitted attributes. Negative `n` is not modelled. -/
structure DOT (R : Type) where
  given : IntOrFloat R := .int 2
  firstGiven : Option (IntOrFloat R) := none
  fitted : Option (ℤ × ℤ) := none

/-- `DOT.__init__`, `filter.py:146-160`: floats have to lie in `(0, 1)`. -/
def DOT.new (given : IntOrFloat R) (first : Option (IntOrFloat R)) : Except Err (DOT R) :=
  let bad : IntOrFloat R → Bool := fun x => match x with
    | .float f => !decide (0 < f ∧ f < 1)
    | .int _ => false
  if bad given then .error .valueError
  else match first with
    | none => .ok ⟨given, first, none⟩
    | some f => if bad f then .error .valueError else .ok ⟨given, first, none⟩

/-- `DOT._fit`, `filter.py:166-173`: the step. -/
def DOT.fitN (L : ℤ) : IntOrFloat R → ℤ
  | .float f => if pyInt (f * (L : R)) ≤ 0 then 1 else pyInt (f * (L : R))
  | .int k => if k ≥ L then L else k

/-- `DOT._fit`, `filter.py:174-187`: the first index; `n` is the fitted step. -/
def DOT.fitFirst (L n : ℤ) : Option (IntOrFloat R) → ℤ
  | some (.float f) =>
    let a := if pyInt (f * (L : R)) ≤ 0 then 1 else pyInt (f * (L : R))
    if a ≥ L then L - 1 else a
  | some (.int a) => if a ≥ L then L - 1 else a
  | none => n - 1

/-- `DOT._fit`, `filter.py:165-187`. -/
def DOT.fit {A : Type} (p : DOT R) (X : Data A) : DOT R :=
  let L : ℤ := shape2 X
  let n := DOT.fitN L p.given
  { p with fitted := some (n, DOT.fitFirst L n p.firstGiven) }

/-- `filter.py:192-193` on one row: `out = zeros; out[first::n] = x[first::n]`. (Step 0 raises; negative steps are not
modelled and raise here.) -/
def DOT.row {A : Type} [Zero A] (n first : ℤ) (x : List A) : Except Err (List A) :=
  if n ≤ 0 then .error .valueError
  else
    let a := pyClip x.length first
    .ok (x.mapIdx fun t v => if a ≤ t ∧ (t - a) % n.toNat = 0 then v else 0)

/-- `DOT._transform`, `filter.py:189-194`. -/
def DOT.transform (p : DOT R) (X : Data R) : Except Err (Data R) :=
  match p.fitted with
  | none => .error .runtimeError
  | some (n, first) => mapRowsM (DOT.row n first) X

/-! ### PDD -/

/-- `PDD`, `filter.py:224-237`; `fitted` holds the indices and the width. -/
structure PDD (R : Type) where
  density : R
  proportion : R
  fitted : Option (List ℤ × ℤ) := none

/-- `np.linspace(0, stop, num, dtype="int")`. (`num < 0` raises.) -/
def linspaceInt (stop : ℤ) (num : ℤ) : Except Err (List ℤ) :=
  if num < 0 then .error .valueError
  else if num = 1 then .ok [0]
  else .ok ((List.range num.toNat).map fun i : ℕ => Int.fdiv ((i : ℤ) * stop) (num - 1))

/-- `PDD._fit`, `filter.py:239-250`. -/
def PDD.fit {A : Type} (p : PDD R) (X : Data A) : Except Err (PDD R) := do
  let n : ℤ := shape2 X
  let k := max (pyInt (p.proportion * (n : R))) 1
  let points := max (pyInt ((1 - p.density) * (n : R))) 1
  let width := pyInt ((k : R) / (points : R))
  let points := if points = n - width then points - 1 else points
  let indices ← linspaceInt (n - width) points
  pure { p with fitted := some (indices, width) }

/-- `PDD._transform`, `filter.py:255-258`, on one row. -/
def PDD.row {A : Type} [Zero A] (indices : List ℤ) (width : ℤ) (x : List A) : List A :=
  indices.foldl (fun y (i : ℤ) => fillSlc y (pyClip y.length i) (pyClip y.length (i + width)) 0) x

/-- `PDD._transform`, `filter.py:252-258`. -/
def PDD.transform (p : PDD R) (X : Data R) : Except Err (Data R) :=
  match p.fitted with
  | none => .error .runtimeError
  | some (indices, width) => .ok (mapRows (PDD.row indices width) X)

/-! ### FFN -/

/-- `FFN`, `transform.py:332-342`; `fitted` holds the two weight matrices and the biases. -/
structure FFN (R : Type) where
  dOut : ℕ := 1
  dHidden : Option ℕ := none
  center : Bool := true
  reluOut : Bool := false
  fitted : Option (List (List R) × List R × List (List R)) := none

/-- `FFN._fit`, `transform.py:344-360`. -/
def FFN.fit (g : Rng R) (p : FFN R) (X : Data R) : FFN R :=
  let h := p.dHidden.getD (2 * shape1 X)
  let w1 := (List.range h).map fun i => (List.range (shape1 X)).map fun j => g.normal 0 i j
  let b := (List.range h).map fun i => g.normal 1 i 0
  let w2 := (List.range p.dOut).map fun i => (List.range h).map fun j => g.normal 2 i j
  { p with fitted := some (w1, b, w2) }

/-- `temp * (temp > 0)`. -/
def relu (v : R) : R := if 0 < v then v else 0

/-- The scalar product of two arrays. -/
def dotp (a b : List R) : R := (List.zipWith (· * ·) a b).sum

/-- Column `t` of a series: the values of all dimensions at time `t`. -/
def column (s : Series R) (t : ℕ) : List R := s.map fun x => x.getD t 0

/-- `transform.py:365-377`: the network on one series of length `n`. The matrix `weights1` has to have as many columns as
the series has dimensions (`tensordot` raises otherwise). -/
def FFN.series (p : FFN R) (w1 : List (List R)) (b : List R) (w2 : List (List R)) (n : ℕ) (s : Series R) :
    Except Err (Series R) :=
  if w1.any fun r => r.length ≠ s.length then .error .valueError
  else
    let s := if p.center then s.map (fun x => let mu := mean x; x.map fun v => v - mu) else s
    let temp : List (List R) := List.zipWith (fun (r : List R) (c : R) =>
      (List.range n).map fun t => dotp r (column s t) + c) w1 b
    let out : List (List R) := w2.map fun r =>
      (List.range n).map fun t => dotp r (column (temp.map fun x => x.map relu) t)
    .ok (if p.reluOut then out.map (fun x => x.map relu) else out)

/-- `FFN._transform`, `transform.py:362-377`. -/
def FFN.transform (p : FFN R) (X : Data R) : Except Err (Data R) :=
  match p.fitted with
  | none => .error .runtimeError
  | some (w1, b, w2) => X.mapM (p.series w1 b w2 (shape2 X))

/-! ### RIN -/

/-- The argument `width` of `RIN`. -/
inductive Width
  | int (k : ℤ)
  | call (f : ℕ → ℤ)

/-- The fitted attributes `_kernel`, `_ndim_per_kernel`, `_dims_per_kernel`. -/
structure RINState (R : Type) where
  kernel : List (List R)
  ndim : List ℕ
  dims : List ℕ

/-- `RIN`, `transform.py:470-482`. -/
structure RIN (R : Type) where
  width : Width := .int 1
  adaptive : Bool := false
  outDim : ℤ := -1
  forceSumOne : Bool := false
  constKernel : Option (List (List R)) := none
  fitted : Option (RINState R) := none

/-- `transform.py:500-504` (and `JLD`, `transform.py:699-703`): `[quotient + 1] * remainder + [quotient] * (out_dim -
remainder)`. -/
def groupSizes (d k : ℕ) : List ℕ := List.replicate (d % k) (d / k + 1) ++ List.replicate (k - d % k) (d / k)

/-- `transform.py:510-520`: one round of the loop; `none` is `continue` (some `diffsum` is below `1e-5`). -/
def RIN.sumOne (kernel : List (List R)) : Option (List (List R)) :=
  let change := kernel.map fun r => 1 - r.sum
  let diff := kernel.map fun r => r.map fun v => 1 - |v|
  let diffsum := diff.map List.sum
  if diffsum.any fun v => decide (v < 1 / 100000) then none
  else some (List.zipWith (fun r (e : List R × R) => List.zipWith (fun v u => v + u * e.2) r e.1) kernel
    (List.zip diff (List.zipWith (· / ·) change diffsum)))

/-- `transform.py:509-520`: `while True`, given the number of rounds it may take; `none` if it has not ended. -/
def RIN.drawSumOne (g : Rng R) (d w : ℕ) : ℕ → ℕ → Option (List (List R))
  | 0, _ => none
  | fuel + 1, round =>
    let kernel := (List.range d).map fun i => (List.range w).map fun j => g.uniform round i j
    match RIN.sumOne kernel with
    | some k => some k
    | none => RIN.drawSumOne g d w fuel (round + 1)

/-- `transform.py:522-523`. -/
def RIN.centered (kernel : List (List R)) : List (List R) :=
  kernel.map fun r => let mu := mean r; r.map fun v => v - mu

/-- `transform.py:491-493`: the kernel width for series of length `n`. -/
def Width.eval (n : ℕ) : Width → ℤ
  | .call f => f n
  | .int k => min k ((n : ℤ) - 1)

/-- `RIN._fit`, `transform.py:484-523`. The result `none` means that the loop has not ended after `fuel` rounds. A negative
kernel width raises. -/
def RIN.fit (g : Rng R) (fuel : ℕ) (p : RIN R) (X : Data R) : Except Err (Option (RIN R)) :=
  let d := shape1 X
  let n := shape2 X
  match p.constKernel with
  | some k => .ok (some { p with fitted := some ⟨k, List.replicate d 1, List.range d⟩ })
  | none =>
    let width : ℤ := p.width.eval n
    let outDim : ℤ := if 0 < p.outDim then p.outDim else d
    if outDim > d then .error .valueError
    else if width < 0 then .error .valueError
    else
      let ndim := groupSizes d outDim.toNat
      let dims := g.choice 0 d d
      if p.forceSumOne then
        .ok ((RIN.drawSumOne g d width.toNat fuel 0).map fun k => { p with fitted := some ⟨k, ndim, dims⟩ })
      else
        let kernel := (List.range d).map fun i => (List.range width.toNat).map fun j => g.normal 0 i j
        .ok (some { p with fitted := some ⟨RIN.centered kernel, ndim, dims⟩ })

/-- `transform.py:453-468`: the loop over the output dimensions of `RIN._backend`, on one series of length `n`, with kernel
width `w`; `start` is `start_dim`. -/
def RIN.outDims (s : Series R) (kernel : List (List R)) (dims : List ℕ) (w n : ℕ) : ℕ → List ℕ → Series R
  | _, [] => []
  | start, c :: cs =>
    ((List.range n).map fun k =>
      if k < w then 0
      else ((List.range' start c).map fun j =>
        ((List.range' (k - w) w).map fun l => - at2 s (dims.getD j 0) l * at2 kernel j (l + w - k)).sum
          + at2 s j k).sum)
    :: RIN.outDims s kernel dims w n (start + c) cs

/-- `RIN._transform`, `transform.py:525-544`, on one series. With `adaptive_width` zeros are put in front and the result is
cut again. -/
def RIN.series (adaptive : Bool) (st : RINState R) (n : ℕ) (s : Series R) : Series R :=
  let w := (st.kernel.getD 0 []).length
  if adaptive then
    (RIN.outDims (s.map fun x => zeros w ++ x) st.kernel st.dims w (n + w) 0 st.ndim).map fun x => x.drop w
  else RIN.outDims s st.kernel st.dims w n 0 st.ndim

/-- `RIN._transform`, `transform.py:525-544`. -/
def RIN.transform (p : RIN R) (X : Data R) : Except Err (Data R) :=
  match p.fitted with
  | none => .error .runtimeError
  | some st => .ok (X.map (RIN.series p.adaptive st (shape2 X)))

/-! ### RDW -/

/-- `RDW`, `transform.py:584-588`. -/
structure RDW (R : Type) where
  dirichlet : Bool := true
  weights : Option (List R) := none

/-- `RDW._transform`, `transform.py:601-602`: `X ** weights` (unfitted: `AttributeError`). -/
def RDW.transform [NpMath R] (p : RDW R) (X : Data R) : Except Err (Data R) :=
  match p.weights with
  | none => .error .attributeError
  | some w => X.mapM fun s =>
    if s.length = w.length then .ok (List.zipWith (fun x e => x.map fun v => NpMath.pow v e) s w)
    else .error .valueError

/-! ### JLD -/

/-- The fitted attributes of `JLD`. -/
structure JLDState (R : Type) where
  kernel : List R
  bias : List R
  ndim : List ℕ
  dims : List ℕ

/-- `JLD`, `transform.py:672-685`. -/
structure JLD (R : Type) where
  d : IntOrFloat R
  distribute : Bool := false
  bias : Bool := false
  fitted : Option (JLDState R) := none

/-- `JLD._fit`, `transform.py:688-692`: the number of output dimensions for `din` input dimensions. -/
def JLD.outDim [NpMath R] (din : ℕ) : IntOrFloat R → ℤ
  | .float f => pyInt (24 * NpMath.log (din : R) / (3 * f ^ 2 - 2 * f ^ 3)) + 1
  | .int k => k

/-- `JLD._fit`, `transform.py:687-722`. -/
def JLD.fit [NpMath R] (g : Rng R) (p : JLD R) (X : Data R) : Except Err (JLD R) :=
  let din := shape1 X
  let outDim : ℤ := JLD.outDim din p.d
  let bias := (List.range outDim.toNat).map fun i => if p.bias then g.normal 1 i 0 else 0
  if p.distribute then
    if outDim > din then .error .valueError
    else if outDim = 0 then .error .zeroDivisionError
    else if outDim < 0 then .error .valueError
    else
      let st : JLDState R := ⟨(List.range din).map (fun i => g.normal 0 i 0), bias, groupSizes din outDim.toNat,
        g.choice 0 din din⟩
      .ok { p with fitted := some st }
  else if outDim < 0 then .error .valueError
  else
    let st : JLDState R := ⟨(List.range (din * outDim.toNat)).map (fun i => g.normal 0 i 0), bias,
      List.replicate outDim.toNat din, (List.replicate outDim.toNat (List.range din)).flatten⟩
    .ok { p with fitted := some st }

/-- `transform.py:658-670`: the loop over the output dimensions of `JLD._backend` on one series; `k` is the number of the
output dimension. The bias is added once for every input dimension of the group. -/
def JLD.outDims (s : Series R) (st : JLDState R) (n : ℕ) : ℕ → ℕ → List ℕ → Series R
  | _, _, [] => []
  | start, k, c :: cs =>
    ((List.range n).map fun t => ((List.range' start c).map fun j =>
      at2 s (st.dims.getD j 0) t * st.kernel.getD j 0 + st.bias.getD k 0).sum)
    :: JLD.outDims s st n (start + c) (k + 1) cs

/-- `JLD._transform`, `transform.py:724-731`. -/
def JLD.transform (p : JLD R) (X : Data R) : Except Err (Data R) :=
  match p.fitted with
  | none => .error .attributeError
  | some st => .ok (X.map fun s => JLD.outDims s st (shape2 X) 0 0 st.ndim)

/-! ### SPE, RPE -/

/-- `SPE`, `transform.py:775-787`. -/
structure SPE (R : Type) where
  freq : R
  additive : Bool := false
  function : Option (R → R) := none
  step : Option Norm := none
  maxLength : Option ℕ := none

/-- The text of a norm (`"L1"`, `"L2"`). -/
def Norm.str : Norm → PStr
  | .L1 => "L1".toList
  | .L2 => "L2".toList

/-- `SPE._transform`, `transform.py:803-810`: the wave along the cached sums `r` of one series. -/
def SPE.wave [NpMath R] (p : SPE R) (r : List R) : List R :=
  let len : R := match p.maxLength with | none => r.getD (r.length - 1) 0 | some k => (k : R)
  r.map fun v => p.function.getD NpMath.sin (v / NpMath.pow len p.freq)

/-- `SPE._transform`, `transform.py:789-812`; `C` is the input of the seed's cache. `function` acts entrywise here. An
operation other than the two named ones raises in the code and is not modelled. With `step_transform` the wave has one row per
series of the cache, and `X * wave` broadcasts along the series: if the data or the cache consist of one series, this one is
combined with all the others (so a slice that is fitted on a sample of one series goes on with as many series as the whole
training data).  Cached sums of another length than the data raise (numpy would broadcast sums of length one). -/
def SPE.transform [NpMath R] (T : FloatText R) (C : Data R) (p : SPE R) (X : Data R) : Except Err (Data R) :=
  let n := shape2 X
  let op : R → R → R := if p.additive then (· + ·) else (· * ·)
  let f := p.function.getD NpMath.sin
  match p.step with
  | none =>
    let len : R := ((p.maxLength.getD n : ℕ) : R)
    let wave := (List.range n).map fun t => f ((t : R) / NpMath.pow len p.freq)
    .ok (mapRows (fun x => List.zipWith op x wave) X)
  | some nm => do
    let sums ← issSums T C nm.str
    let waves := sums.map p.wave
    if ∀ w ∈ waves, w.length = shape2 X then
      if waves.length = X.length then pure (List.zipWith (fun s wave => s.map fun x => List.zipWith op x wave) X waves)
      else if X.length = 1 then pure (waves.map fun wave => (X.getD 0 []).map fun x => List.zipWith op x wave)
      else if waves.length = 1 then pure (X.map fun s => s.map fun x => List.zipWith op x (waves.getD 0 []))
      else .error .valueError
    else .error .valueError

/-- `RPE`, `transform.py:877-884`. -/
structure RPE (R : Type) where
  freq : R
  maxLength : Option ℕ := none

/-- `RPE._backend`, `transform.py:852-875`, on one series. -/
def RPE.series [NpMath R] (len : ℕ) (freq : R) (n : ℕ) (s : Series R) : Series R :=
  let ang : ℕ → R := fun k => (k : R) / NpMath.pow (len : R) freq
  [(List.range n).map fun k => NpMath.cos (ang k) * at2 s 0 k - NpMath.sin (ang k) * at2 s 1 k,
   (List.range n).map fun k => NpMath.sin (ang k) * at2 s 0 k + NpMath.cos (ang k) * at2 s 1 k]

/-- `RPE._transform`, `transform.py:885-894`. -/
def RPE.transform [NpMath R] (p : RPE R) (X : Data R) : Except Err (Data R) :=
  if shape1 X ≠ 2 then .error .valueError
  else .ok (X.map (RPE.series (p.maxLength.getD (shape2 X)) p.freq (shape2 X)))

/-! ### Wrappers -/

/-- An index into an axis of length `d`; negative ones count from the end. -/
def normIdx (d : ℕ) (k : ℤ) : Except Err ℕ :=
  if 0 ≤ k ∧ k < d then .ok k.toNat
  else if k < 0 ∧ -(d : ℤ) ≤ k then .ok (k + d).toNat
  else .error .indexError

/-- `X[:, dims, :]`. -/
def selectDims {A : Type} (dims : List ℤ) (X : Data A) : Except Err (Data A) :=
  X.mapM fun s => dims.mapM fun k => do
    let j ← normIdx s.length k
    pure (s.getD j [])

/-- `np.delete(X, dims, axis=1)`. -/
def deleteDims {A : Type} (dims : List ℤ) (X : Data A) : Except Err (Data A) :=
  X.mapM fun s => do
    let js ← dims.mapM (normIdx s.length)
    pure ((s.zipIdx.filter fun e => decide (e.2 ∉ js)).map (·.1))

/-- `np.concatenate((A, B), axis=1)`: the other axes have to agree. (An array without dimensions does not know its length
here, so it fits to everything; in `DIM` the lengths then agree anyway.) -/
def concatDims {R : Type} (A B : Data R) : Except Err (Data R) :=
  if A.length = B.length ∧ (shape1 A = 0 ∨ shape1 B = 0 ∨ shape2 A = shape2 B) then .ok (List.zipWith (· ++ ·) A B) else .error .valueError

/-- `NEW._transform`, `wrapper.py:88-95`: `result[:, d:, :] = transformed`; arrays of another length than the input (and
than 1, which numpy broadcasts) raise. -/
def appendDims {A : Type} [Zero A] (X Y : Data A) : Except Err (Data A) :=
  if X.length = Y.length then
    if shape2 Y = shape2 X then .ok (List.zipWith (· ++ ·) X Y)
    else if shape2 Y = 1 then
      .ok (List.zipWith (fun s t => s ++ t.map fun y => List.replicate (shape2 X) (y.getD 0 0)) X Y)
    else .error .valueError
  else .error .valueError

/-! ### All preparateurs -/

/-- A preparateur object with its settings and fitted state.  Models what the constructors keep: the classes cited at their settings above, and
`preparation/transform.py:177-178` (`NRM.__init__`), `:1031-1032` (`FUN.__init__`), `preparation/wrapper.py:25-31` (`DIM.__init__`: an int becomes
a list of one), `:65-66` (`NEW.__init__`). -/
inductive Prep (R : Type)
  | inc (p : INC R)
  | std (p : STD R)
  | nrm (scaleDim : Bool)
  | mav (p : MAV R)
  | lag
  | ffn (p : FFN R)
  | rin (p : RIN R)
  | rdw (p : RDW R)
  | jld (p : JLD R)
  | spe (p : SPE R)
  | rpe (p : RPE R)
  | cts (p : CTS R)
  | qtc (p : QTC R)
  | func (f : Data R → Except Err (Data R))
  | dil (p : DIL R)
  | win (p : WIN R)
  | dot (p : DOT R)
  | pdd (p : PDD R)
  | dim (p : Prep R) (dims : List ℤ)
  | new (p : Option (Prep R))

/-- `preparateur._transform(X)` for every class (`FUN`: `preparation/transform.py:1038-1039`); `C` is the input of the object's cache. The wrappers call the public
`transform` of the wrapped object (`wrapper.py:41,88`), which has no cache of its own and so creates one from its data. -/
def Prep.transformC [NpMath R] (T : FloatText R) (C : Data R) : Prep R → Data R → Except Err (Data R)
  | .inc p, X => p.transform X
  | .std p, X => p.transform X
  | .nrm b, X => NRM.transform b X
  | .mav p, X => p.transform X
  | .lag, X => LAG.transform X
  | .ffn p, X => p.transform X
  | .rin p, X => p.transform X
  | .rdw p, X => p.transform X
  | .jld p, X => p.transform X
  | .spe p, X => p.transform T C X
  | .rpe p, X => p.transform X
  | .cts p, X => p.transform X
  | .qtc p, X => p.transform X
  | .func f, X => f X
  | .dil p, X => p.transform X
  | .win p, X => p.transform T C X
  | .dot p, X => p.transform X
  | .pdd p, X => p.transform X
  -- `wrapper.py:40-44`
  | .dim p dims, X => do
    let sub ← selectDims dims X
    let Y ← Prep.transformC T sub p sub
    let rest ← deleteDims dims X
    concatDims rest Y
  -- `wrapper.py:78-95`
  | .new none, X => .ok (X.map fun s => s ++ s)
  | .new (some p), X => do
    let Y ← Prep.transformC T X p X
    appendDims X Y

/-- The public `preparateur.transform(X)` of an object without a cache: `fruits/seed.py:41-51`. -/
def Prep.transform [NpMath R] (T : FloatText R) (p : Prep R) (X : Data R) : Except Err (Data R) :=
  Prep.transformC T X p X

end Fruits
