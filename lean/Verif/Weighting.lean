import Verif.Sieve
import Verif.ISS

/-! # Model of `fruits/iss/weighting.py`

Numbers are exact; the only effect of integer arrays that is modelled is the one of `NRM` on `np.arange(1, l+1)`, which is an
array of integers (`Indices(relative=False)` without transform). -/

namespace Fruits
set_option linter.unusedSectionVars false

variable {R : Type} [Field R] [LinearOrder R] [FloorRing R]

/-- The weightings, `weighting.py:43-308`: constructor arguments without `total`.  A user transform is assumed to return floats
(`np.vectorize`).  `Plateaus` needs `n > 1` (`Plateaus.new`). -/
inductive WeightingKind (R : Type)
  | custom (transform : Data R → Except Err (List (List R)))
  | indices (relative : Bool) (transform : Option (R → R)) (scale : R)
  | norm (nm : Norm) (onPrepared relative : Bool) (transform : Option (R → R)) (scale : R)
  | plateaus (n : ℕ) (reverse : Bool) (scale : R)

/-- `Plateaus.__init__`, `weighting.py:281-293`. -/
def Plateaus.new (n : ℤ) (reverse : Bool) (scale : R) : Except Err (WeightingKind R) :=
  if n ≤ 1 then .error .valueError else .ok (.plateaus n.toNat reverse scale)

/-- `NRM(scale_dim=False)._transform(range_[:, np.newaxis, :])[:, 0, :] * self._scale`. -/
def rescale (scale : R) (rows : List (List R)) : Except Err (List (List R)) := do
  let A ← NRM.transform false (newAxis rows)
  pure (A.map fun s => (s.getD 0 []).map fun v => v * scale)

/-- `np.zeros_like(x)` filled with `(x - min)/(max - min)` where `x` is an array of integers: numpy truncates the quotients. -/
def nrmInts (x : List R) : Except Err (List R) := do
  let a ← minE x
  let b ← maxE x
  pure (if a = b then x.map fun _ => 0 else x.map fun v => ((pyInt ((v - a) / (b - a)) : ℤ) : R))

/-- `np.vectorize(self._transform)(range_)` if there is a transform. -/
def applyTransform (f : Option (R → R)) (rows : List (List R)) : List (List R) :=
  match f with
  | none => rows
  | some f => rows.map fun r => r.map f

/-- `np.ones((n, l)) * range_`. -/
def tileRow (m : ℕ) (x : List R) : List (List R) := List.replicate m x

/-- `range_ = np.arange(1, l+1)`, divided by `l` if `relative`, `weighting.py:103-105`. -/
def Indices.base (relative : Bool) (l : ℕ) : List R :=
  tab l fun t => if relative then ((t + 1 : ℕ) : R) / (l : R) else ((t + 1 : ℕ) : R)

/-- `Indices.get_lookup`, `weighting.py:101-111`. -/
def Indices.lookup (relative : Bool) (f : Option (R → R)) (scale : R) (X : Data R) : Except Err (List (List R)) := do
  let l := shape2 X
  match relative, f with
  | false, none => do
    let r ← nrmInts (Indices.base false l)
    pure (tileRow X.length (r.map fun v => v * scale))
  | _, _ => do
    let A ← rescale scale (applyTransform f [Indices.base relative l])
    pure (tileRow X.length (A.getD 0 []))

/-- `range_ / (range_[:, -1:] + 1e-5)`, `weighting.py:162-163,230-231`; the last element of an empty row is an empty array. -/
def relativeRows (rows : List (List R)) : List (List R) :=
  rows.map fun r => r.map fun v => v / (r.getD (r.length - 1) 0 + 1 / 100000)

/-- `L1.get_lookup` and `L2.get_lookup`, `weighting.py:157-169,225-237`; `C` is the input array of the cache. -/
def normLookup (T : FloatText R) (C : Data R) (nm : Norm) (onPrepared relative : Bool) (f : Option (R → R)) (scale : R) (X : Data R) :
    Except Err (List (List R)) := do
  let rows ← if onPrepared then normSum nm X else issSums T C nm.str
  rescale scale (applyTransform f (if relative then relativeRows rows else rows))

/-- `weighting.py:298-301`: `range_[i*step:(i+1)*step] = i / (n-1)` for `i` in `range(n)`. -/
def Plateaus.steps (n step : ℕ) : ℕ → ℕ → List R → List R
  | 0, _, x => x
  | fuel + 1, i, x =>
    Plateaus.steps n step fuel (i + 1)
      (fillSlc x (pyClip x.length ((i * step : ℕ) : ℤ)) (pyClip x.length (((i + 1) * step : ℕ) : ℤ)) ((i : R) / ((n - 1 : ℕ) : R)))

/-- `Plateaus.get_lookup`, `weighting.py:295-308`. -/
def Plateaus.lookup (n : ℕ) (reverse : Bool) (scale : R) (X : Data R) : Except Err (List (List R)) := do
  let l := shape2 X
  let r := Plateaus.steps n (l / n) n 0 (List.replicate l 1)
  let A ← rescale scale [if reverse then r.reverse else r]
  pure (tileRow X.length (A.getD 0 []))

/-- `get_lookup` of all weightings. -/
def WeightingKind.lookup (T : FloatText R) (C : Data R) : WeightingKind R → Data R → Except Err (List (List R))
  | .custom f, X => f X
  | .indices relative f scale, X => Indices.lookup relative f scale X
  | .norm nm onPrepared relative f scale, X => normLookup T C nm onPrepared relative f scale X
  | .plateaus n reverse scale, X => Plateaus.lookup n reverse scale X

/-- The class name, used by `ISS._label` (`iss.py:204`). -/
def WeightingKind.name : WeightingKind R → PStr
  | .custom _ => "Custom".toList
  | .indices .. => "Indices".toList
  | .norm nm .. => nm.str
  | .plateaus .. => "Plateaus".toList

end Fruits
