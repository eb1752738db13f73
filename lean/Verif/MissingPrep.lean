import Verif.MissingSieve
import Verif.PrepFit

/-!
# Preparateurs on datasets with missing values

The preparateurs of `Verif.Prep` on datasets whose entries are numbers or `nan`: `INC`, `STD`, `NRM`, `MAV`, `LAG`, `CTS`, `QTC`, `DIL`, `WIN`, `DOT`,
`PDD` and the wrappers `DIM` and `NEW`.  Rows are processed by the functions of `Verif.Prep`, which need only the operations they use.

Simplifications: as in `Verif.Missing` and `Verif.Prep`; `NRM` is modelled row by row (series by series) instead of with masks over the whole array.
-/

namespace Fruits
set_option linter.unusedSectionVars false

namespace Mv
variable {R : Type} [Field R] [LinearOrder R] [FloorRing R]

instance : NatCast (Mv R) := ⟨fun n => num n⟩

/-- `np.std(x)` (`transform.py:131`, `136`). -/
def npStd [NpMath R] (x : List (Mv R)) : Mv R := lift NpMath.sqrt (mean (x.map fun v => (v - mean x) * (v - mean x)))

/-- The attributes of `STD` (`transform.py:113-124`). -/
structure MSTD (R : Type) where
  separately : Bool := true
  var : Bool := true
  eps : R
  fitted : Option (Mv R × Mv R) := none

/-- `STD._fit`, `transform.py:125-131`. -/
def MSTD.fit [NpMath R] (p : MSTD R) (X : Data (Mv R)) : MSTD R :=
  if p.separately then p
  else { p with fitted := some (mean X.flatten.flatten, if p.var then npStd X.flatten.flatten else 1) }

/-- `transform.py:133-144`, one row: the mean and the deviation of the row. -/
def MSTD.row [NpMath R] (p : MSTD R) (x : List (Mv R)) : List (Mv R) :=
  x.map fun v => (v - mean x) / ((if p.var then npStd x else 1) + num p.eps)

/-- `STD._transform`, `transform.py:133-144`. -/
def MSTD.transform [NpMath R] (p : MSTD R) (X : Data (Mv R)) : Except Err (Data (Mv R)) :=
  if p.separately then .ok (mapRows p.row X)
  else match p.fitted with
    | none => .error .runtimeError
    | some (mu, sd) => .ok (mapEntries (fun v => (v - mu) / (sd + num p.eps)) X)

/-- `transform.py:185-198`: the entries scaled with the minimum and the maximum; zeros if these are equal (`nan` is not equal to `nan`). -/
def nrmEntry (lo hi v : Mv R) : Mv R :=
  match lo, hi with
  | num a, num b => if a ≠ b then (v - num a) / (num b - num a) else 0
  | lo, hi => (v - lo) / (hi - lo)

/-- `NRM._transform`, `transform.py:184-198`. -/
def nrmTransform (scaleDim : Bool) (X : Data (Mv R)) : Except Err (Data (Mv R)) :=
  if scaleDim then X.mapM fun s => do
    let los ← s.mapM minE
    let lo ← minE los
    let his ← s.mapM maxE
    let hi ← maxE his
    pure (s.map fun x => x.map (nrmEntry lo hi))
  else mapRowsM (fun x => do
    let lo ← minE x
    let hi ← maxE x
    pure (x.map (nrmEntry lo hi))) X

/-- The attributes of `QTC` (`transform.py:977-985`). -/
structure MQTC (R : Type) where
  q : R
  lower : Bool := false
  bound : Option R := none
  quantile : Option (Mv R) := none

/-- `QTC._fit`, `transform.py:987-988`. -/
def MQTC.fit (p : MQTC R) (X : Data (Mv R)) : Except Err (MQTC R) := do
  let v ← Mv.quantile X.flatten.flatten p.q
  pure { p with quantile := some v }

/-- `QTC._transform`, `transform.py:990-1001`. -/
def MQTC.transform (p : MQTC R) (X : Data (Mv R)) : Except Err (Data (Mv R)) :=
  match p.quantile with
  | none => .error .attributeError
  | some c =>
    let b := (p.bound.map num).getD c
    if p.lower then .ok (mapEntries (fun v => if lt v c then b else v) X)
    else .ok (mapEntries (fun v => if lt c v then b else v) X)

/-- The coquantiles of the norm `L2` (`filter.py:94-103`). -/
def coqs (C : Data (Mv R)) (q : R) : Except Err (List ℕ) := do
  let s ← normSum .L2 C
  pure (s.map (coquantile1 q))

/-- `WIN._transform`, `filter.py:93-108`. -/
def winTransform (C : Data (Mv R)) (p : WIN R) (X : Data (Mv R)) : Except Err (Data (Mv R)) := do
  let a ← coqs C p.start
  let b ← coqs C p.stop
  (List.range X.length).mapM fun i =>
    match a[i]?, b[i]? with
    | some u, some v => (X.getD i []).mapM (WIN.row u v)
    | _, _ => .error .indexError

/-- A preparateur with its settings and its fitted state. -/
inductive MPrep (R : Type)
  | inc (p : INC R)
  | std (p : MSTD R)
  | nrm (scaleDim : Bool)
  | mav (p : MAV R)
  | lag
  | cts (p : CTS R)
  | qtc (p : MQTC R)
  | dil (p : DIL R)
  | win (p : WIN R)
  | dot (p : DOT R)
  | pdd (p : PDD R)
  | dim (p : MPrep R) (dims : List ℤ)
  | dup
  | new (p : MPrep R)

/-- `preparateur._transform(X)`; `C` is the input of the object's cache (the methods cited at `Prep.transformC`, `wrapper.py:40-44`, `78-95`; `dup` is
`NEW()` without a preparateur). -/
def MPrep.transformC [NpMath R] (C : Data (Mv R)) : MPrep R → Data (Mv R) → Except Err (Data (Mv R))
  | .inc p, X => mapRowsM (fun x => p.loop (shape2 X) x p.depth x) X
  | .std p, X => p.transform X
  | .nrm b, X => nrmTransform b X
  | .mav p, X => match p.w with
    | none => .error .runtimeError
    | some w => .ok (mapRows (MAV.row w) X)
  | .lag, X => LAG.transform X
  | .cts p, X => mapRowsM (CTS.row p.pseudo (p.shift (shape2 X))) X
  | .qtc p, X => p.transform X
  | .dil p, X => match p.fitted with
    | none => .error .runtimeError
    | some (indices, lens) => .ok (mapRows (DIL.row indices lens) X)
  | .win p, X => winTransform C p X
  | .dot p, X => match p.fitted with
    | none => .error .runtimeError
    | some (n, first) => mapRowsM (DOT.row n first) X
  | .pdd p, X => match p.fitted with
    | none => .error .runtimeError
    | some (indices, width) => .ok (mapRows (PDD.row indices width) X)
  | .dim p dims, X => do
    let sub ← selectDims dims X
    let Y ← MPrep.transformC sub p sub
    let rest ← deleteDims dims X
    concatDims rest Y
  | .dup, X => .ok (X.map fun s => s ++ s)
  | .new p, X => do
    let Y ← MPrep.transformC X p X
    appendDims X Y

/-- `_fit` of these preparateurs (the methods cited at `Prep.fit`, `wrapper.py:37-38`, `74-76`). -/
def MPrep.fit [NpMath R] (g : Rng R) : MPrep R → Data (Mv R) → Except Err (MPrep R)
  | .std p, X => .ok (.std (p.fit X))
  | .mav p, X => .ok (.mav (p.fit X))
  | .qtc p, X => do
    let p ← p.fit X
    pure (.qtc p)
  | .dil p, X => do
    let p ← p.fit g X
    pure (.dil p)
  | .dot p, X => .ok (.dot (p.fit X))
  | .pdd p, X => do
    let p ← p.fit X
    pure (.pdd p)
  | .dim p dims, X => do
    let sub ← selectDims dims X
    let q ← p.fit g sub
    pure (.dim q dims)
  | .new p, X => do
    let q ← p.fit g X
    pure (.new q)
  | p, _ => .ok p

end Mv

end Fruits
