import Verif.Sieve
import Verif.ISS

/-! # Fitting and copying of all preparateurs, copying of an ISS

`fruits/preparation/{transform,filter,wrapper}.py`, `fruits/seed.py:61-67`. -/

namespace Fruits
set_option linter.unusedSectionVars false

variable {R : Type} [Field R] [LinearOrder R] [FloorRing R]

/-- The column-wise mean of several rows of length `n`: `np.mean(A, axis=0)` for a list of rows. -/
def meanRows (n : ℕ) (rows : List (List R)) : List R :=
  (List.range n).map fun t => (rows.map fun r => r.getD t 0).sum / (rows.length : R)

/-- `transform.py:592`: `np.max(np.mean(np.abs(X), axis=0), axis=1)`. -/
def RDW.alphas (X : Data R) : Except Err (List R) :=
  (List.range (shape1 X)).mapM fun j => maxE (meanRows (shape2 X) (X.map fun s => (s.getD j []).map fun v => |v|))

/-- `transform.py:590-599` `RDW._fit`: for `'dirichlet'` the non-zero parameters are divided by the largest non-zero one
(`np.max` of an empty array raises), `1e-5` is added if one of them is zero. The uniform weights are normalised. -/
def RDW.fit (g : Rng R) (p : RDW R) (X : Data R) : Except Err (RDW R) :=
  if p.dirichlet then do
    let al ← RDW.alphas X
    let m ← maxE (al.filter fun a => decide (a ≠ 0))
    let al := al.map fun a => if a ≠ 0 then a / m else a
    let al := if al.any fun a => decide (a = 0) then al.map (fun a => a + 1 / 100000) else al
    pure { p with weights := some (g.dirichlet al) }
  else
    let w := (List.range (shape1 X)).map fun i => g.unit 0 i
    .ok { p with weights := some (w.map fun v => v / w.sum) }

/-- `requires_fitting` of all preparateurs: `seed.py:17-20`, `transform.py:56-58,180-182,287-289,1034-1036`, `filter.py:89-91`,
`wrapper.py:33-35,68-72`. -/
def Prep.requiresFitting : Prep R → Bool
  | .inc _ | .nrm _ | .lag | .func _ | .win _ => false
  | .dim p _ => p.requiresFitting
  | .new none => false
  | .new (some p) => p.requiresFitting
  | _ => true

/-- `_fit` of all preparateurs (the default, `preparation/abstract.py:16-17`, does nothing); the wrappers call the public `fit` of
the wrapped object (`wrapper.py:37-38,74-76`). `none`: the loop of `RIN._fit` has not ended after `fuel` rounds. -/
def Prep.fit [NpMath R] (g : Rng R) (fuel : ℕ) : Prep R → Data R → Except Err (Option (Prep R))
  | .std p, X => .ok (some (.std (p.fit X)))
  | .mav p, X => .ok (some (.mav (p.fit X)))
  | .ffn p, X => .ok (some (.ffn (p.fit g X)))
  | .rin p, X => do
    let r ← p.fit g fuel X
    pure (r.map .rin)
  | .rdw p, X => do
    let p ← p.fit g X
    pure (some (.rdw p))
  | .jld p, X => do
    let p ← p.fit g X
    pure (some (.jld p))
  | .qtc p, X => do
    let p ← p.fit X
    pure (some (.qtc p))
  | .dil p, X => do
    let p ← p.fit g X
    pure (some (.dil p))
  | .dot p, X => .ok (some (.dot (p.fit X)))
  | .pdd p, X => do
    let p ← p.fit X
    pure (some (.pdd p))
  | .dim p dims, X => do
    let sub ← selectDims dims X
    let r ← p.fit g fuel sub
    pure (r.map fun q => .dim q dims)
  | .new (some p), X => do
    let r ← p.fit g fuel X
    pure (r.map fun q => .new (some q))
  | p, _ => .ok (some p)

/-- `_copy` of all preparateurs, `transform.py:77-78,200-201,265-266,300-301,378-384,546-553,604-605,733-734,814-821,896-897,
947-948,1003-1004,1041-1042`, `filter.py:64-65,110-111,196-197,260-261`: a new object with the settings of the old one, not fitted. `STD._copy` (`transform.py:146-147`)
does not pass `std_eps`, whose default is `1e-5`. -/
def Prep.copy : Prep R → Prep R
  | .inc p => .inc p
  | .std p => .std { separately := p.separately, var := p.var, eps := 1 / 100000 }
  | .nrm b => .nrm b
  | .mav p => .mav { given := p.given }
  | .lag => .lag
  | .ffn p => .ffn { dOut := p.dOut, dHidden := p.dHidden, center := p.center, reluOut := p.reluOut }
  | .rin p => .rin { width := p.width, adaptive := p.adaptive, outDim := p.outDim, forceSumOne := p.forceSumOne,
                     constKernel := p.constKernel }
  | .rdw p => .rdw { dirichlet := p.dirichlet }
  | .jld p => .jld { d := p.d, distribute := p.distribute, bias := p.bias }
  | .spe p => .spe p
  | .rpe p => .rpe p
  | .cts p => .cts p
  | .qtc p => .qtc { q := p.q, lower := p.lower, bound := p.bound }
  | .func f => .func f
  | .dil p => .dil { clusters := p.clusters }
  | .win p => .win p
  | .dot p => .dot { given := p.given, firstGiven := p.firstGiven }
  | .pdd p => .pdd { density := p.density, proportion := p.proportion }
  | .dim p dims => .dim p.copy dims
  | .new none => .new none
  | .new (some p) => .new (some p.copy)

/-- `ISS._copy`, `iss.py:187-193`. -/
def ISSConf.copy (c : ISSConf R) : ISSConf R :=
  { words := c.words, mode := c.mode, semiring := c.semiring, weighting := c.weighting }

end Fruits
