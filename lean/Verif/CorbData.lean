import Verif.Prep
import Verif.Props.Fruit9

/-!
# Model of `experiments/corbeille/corbeille/data.py`

The helper functions of the package `corbeille` that make and change datasets.  Random draws come from an arbitrary generator
(`Rng`, by call number), the numbers are exact.  `np.random.randint(lo, hi)` raises `ValueError` if `hi ≤ lo`.
-/

namespace Fruits
set_option linter.unusedSectionVars false
variable {R : Type} [Field R] [LinearOrder R] [FloorRing R]

/-! ### lengthen and implant_stuttering -/

/-- data.py 334, 379: `int(length * X.shape[2])`.  A negative number is reported as `ValueError` (numpy raises when the series
is written to the shorter array; for series of length one and `length = -1` it does not, which is not modelled). -/
def additionalLength (length : R) (n : ℕ) : Except Err ℕ :=
  let a := pyInt (length * (n : R))
  if a < 0 then .error .valueError else .ok a.toNat

/-- data.py 368-386 `lengthen`. -/
def lengthen (length : R) (X : Data R) : Except Err (Data R) := do
  let n := shape2 X
  let a ← additionalLength length n
  X.mapM fun Z => Z.mapM fun x => do
    let y ← setSlc (zeros (n + a)) 0 n x
    setSlc y n (n + a) (slcFrom x (-1))

/-- `np.random.randint(lo, hi)`. -/
def randintE (g : Rng R) (c : ℕ) (lo hi : ℤ) : Except Err ℤ := if lo < hi then .ok (g.randint c lo hi) else .error .valueError

/-- data.py 345-364: the `while` loop for one row `x` of length `n` to which `a` values are added; `c` counts the random draws,
`lengthened` and `prop` are the variables `lengthened` and `prop_index`, `y` is `X_new[i, j, :]`.  The fuel bounds the number of
iterations; running out of it means that the loop does not end. (The draws are at least one, so they are taken as natural
numbers.) -/
def stutterLoop (g : Rng R) (n a : ℕ) (x : List R) : ℕ → ℕ → ℕ → ℕ → List R → Except Err (List R × ℕ)
  | 0, _, _, _, _ => .error .diverged
  | fuel + 1, c, lengthened, prop, y =>
    if lengthened < a then do
      let stlength := (← randintE g c 1 ((a : ℤ) - lengthened + 1)).toNat
      let stindex := (← randintE g (c + 1) ((prop : ℤ) + 1) ((n : ℤ) + a)).toNat
      if n + lengthened ≤ stindex + 1 then
        pure (fillSlc y (n + lengthened - 1) y.length (x.getD (n - 1) 0), c + 2)
      else do
        let start := stindex + 1
        let length := n + lengthened - start
        let target := stindex + stlength + 1
        let y ← setSlc y (pyClip y.length target) (pyClip y.length (target + length : ℕ)) (slc y start (start + length : ℕ))
        let y := fillSlc y (pyClip y.length (stindex + 1 : ℕ)) (pyClip y.length (stindex + stlength + 1 : ℕ)) (y.getD stindex 0)
        stutterLoop g n a x fuel (c + 2) (lengthened + stlength) (stindex + stlength) y
    else pure (y, c)

/-- data.py 340-364: the loop over the dimensions of one series. -/
def stutterRows (g : Rng R) (n a : ℕ) : List (List R) → ℕ → Except Err (List (List R) × ℕ)
  | [], c => .ok ([], c)
  | x :: Z, c => do
    let y ← setSlc (zeros (n + a)) 0 n x
    let (y, c) ← stutterLoop g n a x (a + 1) c 0 0 y
    let (Y, c) ← stutterRows g n a Z c
    pure (y :: Y, c)

/-- data.py 339-364: the loop over the series. -/
def stutterSeries (g : Rng R) (n a : ℕ) : Data R → ℕ → Except Err (Data R × ℕ)
  | [], c => .ok ([], c)
  | Z :: X, c => do
    let (Y, c) ← stutterRows g n a Z c
    let (W, c) ← stutterSeries g n a X c
    pure (Y :: W, c)

/-- data.py 311-365 `implant_stuttering`. -/
def implantStuttering (g : Rng R) (length : R) (X : Data R) : Except Err (Data R) := do
  let n := shape2 X
  let a ← additionalLength length n
  let (Y, _) ← stutterSeries g n a X 0
  pure Y

/-! ### downsample and upsample -/

/-- `x[::k]` for a positive step. -/
def everyNth {α : Type} (k : ℕ) (x : List α) : List α := (x.zipIdx.filter fun p => p.2 % k = 0).map (·.1)

/-- data.py 389-402 `downsample`. A negative step walks backwards. -/
def downsample (resolution : R) (X : Data R) : Except Err (Data R) :=
  if resolution = 0 then .error .zeroDivisionError
  else
    let k := pyInt (1 / resolution)
    if k = 0 then .error .valueError
    else if 0 < k then .ok (mapRows (everyNth k.toNat) X)
    else .ok (mapRows (fun x => everyNth (-k).toNat x.reverse) X)

/-- `np.roll(x, -1)`: the first value becomes the last. -/
def rollBack (x : List R) : List R := x.drop 1 ++ x.take 1

/-- `A.ravel(order="F")`: the first index changes fastest. -/
def ravelF (m d n : ℕ) (A : Data R) : List R :=
  (List.range n).flatMap fun t => (List.range d).flatMap fun j => (List.range m).map fun i => at3 A i j t

/-- `flat.reshape((m, d, n), order="F")` of a flat array with `m * d * n` entries. -/
def unravelF (m d n : ℕ) (flat : List R) : Data R := tab3 m d n fun i j t => flat.getD (i + m * (j + d * t)) 0

/-- data.py 415: `np.roll((X + np.roll(X, 1, axis=2)) / 2, -1, axis=2)` for one row. -/
def midpoints (x : List R) : List R := rollBack ((vadd x (roll1 x)).map fun v => v / 2)

/-- data.py 405-417 `upsample`. -/
def upsample (X : Data R) : Data R :=
  let m := X.length
  let d := shape1 X
  let n := shape2 X
  let C := X ++ mapRows midpoints X
  mapRows (fun x => slcTo x (-1)) (unravelF m d (2 * n) (ravelF (2 * m) d n C))

/-! ### replace_nan -/

/-- `np.nan_to_num(x, nan=value)` for one value. -/
def Fl.nanTo (value big : R) : Fl R → Fl R
  | .finite x => .finite x
  | .nan => .finite value
  | .posInf => .finite big
  | .negInf => .finite (-big)

/-- `A[i, j, t] = v` for indices in range. -/
def set3 {α : Type} (A : Data α) (i j t : ℕ) (v : α) : Data α := A.modify i fun Z => Z.modify j fun x => x.set t v

/-- `A[i, j, t]` for indices in range. -/
def get3 {α : Type} (A : Data α) (dflt : α) (i j t : ℕ) : α := ((A.getD i []).getD j []).getD t dflt

/-- `np.argwhere(np.isnan(X))`: the places of the NaN values, in order. -/
def nanPlaces (X : Data (Fl R)) : List (ℕ × ℕ × ℕ) :=
  X.zipIdx.flatMap fun Z => Z.1.zipIdx.flatMap fun x => (x.1.zipIdx.filter fun v => v.1 = .nan).map fun v => (Z.2, x.2, v.2)

/-- data.py 142-146: the body of the loop. -/
def fillNan (out : Data (Fl R)) (p : ℕ × ℕ × ℕ) : Data (Fl R) :=
  if p.2.2 = 0 then set3 out p.1 p.2.1 p.2.2 (.finite 0)
  else set3 out p.1 p.2.1 p.2.2 (get3 out (.finite 0) p.1 p.2.1 (p.2.2 - 1))

/-- data.py 126-147 `replace_nan`; `big` is the largest number of the type. -/
def replaceNan (big : R) (value : Option R) (X : Data (Fl R)) : Data (Fl R) :=
  match value with
  | some v => mapEntries (Fl.nanTo v big) X
  | none => (nanPlaces X).foldl fillNan X

/-! ### multisine -/

/-- data.py 70-72, 77-79: `while remain > 0: sizes[remain % k] += 1; remain -= 1`. -/
def spreadRest (k : ℕ) : ℕ → List ℕ → List ℕ
  | 0, sizes => sizes
  | remain + 1, sizes => spreadRest k remain (sizes.modify ((remain + 1) % k) (· + 1))

/-- data.py 67-72 and 74-79: the number of examples of every class. -/
def classSizes (total k : ℕ) : List ℕ := spreadRest k (total - total / k * k) (List.replicate k (total / k))

/-- data.py 14-22 `_multisine` (with numbers as frequencies). -/
def multisineAt [NpMath R] (coeff : List (List R)) (x : R) : R :=
  coeff.foldl (fun ret c => ret + c.getD 0 0 * NpMath.sin (c.getD 1 0 * x + c.getD 2 0)) 0

/-- data.py 81: `np.linspace(0, 2*np.pi, num=length)`. -/
def sineTimes (pi : R) (length : ℕ) : List R := tab length fun t => 2 * pi * (t : R) / ((length : R) - 1)

/-- data.py 97-106, 108-116: the loops that fill the arrays; `noise s t` is the noise added to sample `s` at time `t`. -/
def fillClasses (models : List (List R)) (noise : ℕ → ℕ → R) : List (ℕ × ℕ) → ℕ → List (List R) × List ℕ
  | [], _ => ([], [])
  | (i, k) :: rest, s =>
    let m := models.getD i []
    let rows := (List.range k).map fun j => m.mapIdx fun t v => v + noise (s + j) t
    let r := fillClasses models noise rest (s + k)
    (rows ++ r.1, List.replicate k i ++ r.2)

/-- data.py 25-123 `multisine` with given coefficients (of shape `(n_classes, _, 3)`); the noise of the training and of the test
set are arbitrary numbers (`np.random.normal` or the function given by the user). `np.vectorize` raises `ValueError` for an
empty array. Fewer coefficients than classes raise `IndexError`. -/
def multisine [NpMath R] (pi : R) (trainSize testSize length classes : ℕ) (coefficients : List (List (List R)))
    (noiseTrain noiseTest : ℕ → ℕ → R) : Except Err (Data R × List ℕ × Data R × List ℕ) :=
  if classes = 0 then .error .zeroDivisionError
  else if coefficients.length < classes then .error .indexError
  else if length = 0 then .error .valueError
  else
    let models := (coefficients.take classes).map fun c => (sineTimes pi length).map (multisineAt c)
    let number := fun l : List ℕ => l.zipIdx.map fun p => (p.2, p.1)
    let train := fillClasses models noiseTrain (number (classSizes trainSize classes)) 0
    let test := fillClasses models noiseTest (number (classSizes testSize classes)) 0
    .ok (train.1.map fun x => [x], train.2, test.1.map fun x => [x], test.2)

end Fruits
