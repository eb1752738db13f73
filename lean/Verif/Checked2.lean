import Verif.Checked
import Verif.CosWISS

/-! # The other compiled kernels with bounds checks

`RIN`, `JLD`, `MAV` and `RPE` of `preparation/transform.py` and the kernels of `iss/cos.py`, written a second time with a check at each index (see
`Verif.Checked`). -/

namespace Fruits
set_option linter.unusedSectionVars false
variable {R : Type} [Field R] [LinearOrder R] [FloorRing R]

/-- `A[i, j]` with checks. -/
def at2E (A : List (List R)) (i j : ℕ) : Except Err R := do readAt (← readAt A i) j

/-- transform.py 457-464 `RIN._backend`: the value `s` of one time step `k`, for the group `start, …, start + c - 1`.  The last read is `X[i, j, k]`, not
`X[i, dims[j], k]`. -/
def RIN.cellE (s : Series R) (kernel : List (List R)) (dims : List ℕ) (w start c k : ℕ) : Except Err R := do
  let vs ← (List.range' start c).mapM fun j => do
    let us ← (List.range' (k - w) w).mapM fun l => do
      let x ← at2E s (← readAt dims j) l
      let v ← at2E kernel j (l + w - k)
      pure (-x * v)
    let x ← at2E s j k
    pure (us.sum + x)
  pure vs.sum

/-- transform.py 453-468 `RIN._backend` on one series. -/
def RIN.outDimsE (s : Series R) (kernel : List (List R)) (dims : List ℕ) (w n : ℕ) : ℕ → List ℕ → Except Err (Series R)
  | _, [] => .ok []
  | start, c :: cs => do
    let r ← (List.range n).mapM fun (k : ℕ) => if k < w then .ok 0 else RIN.cellE s kernel dims w start c k
    let rs ← RIN.outDimsE s kernel dims w n (start + c) cs
    pure (r :: rs)

/-- `RIN._transform`, transform.py 525-544, on one series. -/
def RIN.seriesE (adaptive : Bool) (st : RINState R) (n : ℕ) (s : Series R) : Except Err (Series R) :=
  let w := (st.kernel.getD 0 []).length
  if adaptive then do
    let r ← RIN.outDimsE (s.map fun x => zeros w ++ x) st.kernel st.dims w (n + w) 0 st.ndim
    pure (r.map fun x => x.drop w)
  else RIN.outDimsE s st.kernel st.dims w n 0 st.ndim

/-- `RIN._transform`, transform.py 525-544. -/
def RIN.transformE (p : RIN R) (X : Data R) : Except Err (Data R) :=
  match p.fitted with
  | none => .error .runtimeError
  | some st => X.mapM (RIN.seriesE p.adaptive st (shape2 X))

/-- transform.py 658-670 `JLD._backend` on one series. -/
def JLD.outDimsE (s : Series R) (st : JLDState R) (n : ℕ) : ℕ → ℕ → List ℕ → Except Err (Series R)
  | _, _, [] => .ok []
  | start, k, c :: cs => do
    let r ← (List.range n).mapM fun t => do
      let vs ← (List.range' start c).mapM fun j => do
        let x ← at2E s (← readAt st.dims j) t
        let v ← readAt st.kernel j
        let b ← readAt st.bias k
        pure (x * v + b)
      pure vs.sum
    let rs ← JLD.outDimsE s st n (start + c) (k + 1) cs
    pure (r :: rs)

/-- `JLD._transform`, transform.py 724-731. -/
def JLD.transformE (p : JLD R) (X : Data R) : Except Err (Data R) :=
  match p.fitted with
  | none => .error .attributeError
  | some st => X.mapM fun s => JLD.outDimsE s st (shape2 X) 0 0 st.ndim

/-- transform.py 235-238 `MAV._backend` on one row; slices never leave an array, the write at `k-1` does for `k = 0`. -/
def MAV.rowE (w : ℕ) (x : List R) : Except Err (List R) :=
  (List.range' w (x.length + 1 - w)).foldlM
    (fun res (k : ℕ) => if k = 0 then .error .indexError else writeAt res (k - 1) ((slc x ((k : ℤ) - w) k).sum / (w : R))) (zeros x.length)

/-- `MAV._transform`, transform.py 258-263. -/
def MAV.transformE (p : MAV R) (X : Data R) : Except Err (Data R) :=
  match p.w with
  | none => .error .runtimeError
  | some w => X.mapM fun s => s.mapM (MAV.rowE w)

/-- `RPE._backend`, transform.py 852-875, on one series. -/
def RPE.seriesE [NpMath R] (len : ℕ) (freq : R) (n : ℕ) (s : Series R) : Except Err (Series R) := do
  let ang : ℕ → R := fun k => (k : R) / NpMath.pow (len : R) freq
  let a ← (List.range n).mapM fun k => do
    let x ← at2E s 0 k
    let y ← at2E s 1 k
    pure (NpMath.cos (ang k) * x - NpMath.sin (ang k) * y)
  let b ← (List.range n).mapM fun k => do
    let x ← at2E s 0 k
    let y ← at2E s 1 k
    pure (NpMath.sin (ang k) * x + NpMath.cos (ang k) * y)
  pure [a, b]

/-- `RPE._transform`, transform.py 885-894. -/
def RPE.transformE [NpMath R] (p : RPE R) (X : Data R) : Except Err (Data R) :=
  if shape1 X ≠ 2 then .error .valueError
  else X.mapM (RPE.seriesE (p.maxLength.getD (shape2 X)) p.freq (shape2 X))

/-- cos.py 38-41, 44-47 (80-83, 87-90). -/
def mulTrigE (sinW cosW : List R) (a b : ℕ) (tmp : List R) : Except Err (List R) := do
  repeatE (· * ·) cosW b (← repeatE (· * ·) sinW a tmp)

/-- cos.py 84: `tmp[idx] = 0` writes at each index. -/
def zeroAtE (tmp : List R) (idx : List ℕ) : Except Err (List R) := idx.foldlM (fun tmp i => writeAt tmp i 0) tmp

/-- cos.py 84: `tmp[dropout[k]] = 0`; nothing happens in `_coswiss_single`. -/
def dropE (drop : Option (List (List ℕ))) (k : ℕ) (tmp : List R) : Except Err (List R) :=
  match drop with
  | none => .ok tmp
  | some d => do zeroAtE tmp (← readAt d k)

/-- cos.py 29-42 and 71-85: the body of the loop over the extended letters. -/
def cosStepE (Z : List (List R)) (sinW cosW : List R) (drop : Option (List (List ℕ))) (wt : List ℕ) (k : ℕ) (el : List ℤ) (tmp : List R) :
    Except Err (List R) := do
  let tmp ← (if k > 0 then rollE tmp else .ok tmp : Except Err (List R)) >>= lettersMulE Z el
  let a ← readAt wt (2 * k + 1)
  let b ← readAt wt (2 * k + 2)
  let tmp ← mulTrigE sinW cosW a b tmp
  let tmp ← dropE drop k tmp
  pure (cumsum tmp)

/-- cos.py 26-47 and 68-90 (`drop` is `none` in the first case). -/
def cosRowE (Z : List (List R)) (word : List (List ℤ)) (sinW cosW : List R) (drop : Option (List (List ℕ))) (wt : List ℕ) : Except Err (List R) := do
  let tmp ← enumFoldE (cosStepE Z sinW cosW drop wt) 0 word (ones (ncols Z))
  if wt.length = 2 * word.length + 3
    then do
      let a ← readAt wt (2 * word.length + 1)
      let b ← readAt wt (2 * word.length + 2)
      mulTrigE sinW cosW a b tmp
    else .ok tmp

/-- cos.py 11-49 `_coswiss_single` and 52-92 `_leaky_coswiss_single`. -/
def coswissSingleE [NpMath R] (pi : R) (Z : List (List R)) (word : List (List ℤ)) (freq : R) (weightings : List (List ℕ))
    (drop : Option (List (List ℕ))) : Except Err (List R) :=
  let sinW := (phases pi freq (ncols Z)).map NpMath.sin
  let cosW := (phases pi freq (ncols Z)).map NpMath.cos
  weightings.foldlM (fun result wt => do
    let tmp ← cosRowE Z word sinW cosW drop wt
    let c ← readAt wt 0
    opE (· + ·) result (tmp.map fun v => (c : R) * v)) (zeros (ncols Z))

/-- `np.sum(r * x)`; the lengths must agree. -/
def dotE (r x : List R) : Except Err R := if r.length = x.length then .ok (dotp r x) else .error .valueError

/-- cos.py 95-116 `_ffn`. -/
def cosFfnE (A : List (List R)) (b : List R) (C : List (List R)) (Z : List (List R)) : Except Err (List (List R)) := do
  let n := ncols Z
  let Y ← (List.range A.length).mapM fun d => (List.range n).mapM fun t => do
    let x ← Z.mapM fun z => readAt z t
    let v ← dotE (← readAt A d) x
    pure (v + (← readAt b d))
  let Y := Y.map fun y => y.map relu
  (List.range C.length).mapM fun d => (List.range n).mapM fun t => do
    let y ← Y.mapM fun z => readAt z t
    dotE (← readAt C d) y

/-- cos.py 306-329 with the checked kernels. -/
def CosWISS.wordResultE [NpMath R] (pi : R) (c : CosWISS R) (X : Data R) (w : ℕ) (word : SWord R) : Except Err (Data R) :=
  let wts := getWeightings c.exponent c.total word.els.length
  if word.els = [] ∧ c.total = false then .error .typeError
  else match c.ffnSize, c.dropout with
  | some _, _ => match c.net with
    | none => .error .attributeError
    | some nets => match nets[w]? with
      | none => .error .indexError
      | some row =>
        if word.els = [] then .error .typeError
        else (List.range c.freqs.length).mapM fun f => X.mapM fun Z => do
            let net ← readAt row f
            coswissSingleE pi (← cosFfnE net.A net.b net.C Z) word.els (← readAt c.freqs f) wts none
  | none, some _ => match c.drops with
    | none => .error .attributeError
    | some drops => match drops[w]? with
      | none => .error .indexError
      | some row =>
        if word.els = [] then .error .typeError
        else (List.range c.freqs.length).mapM fun f => X.mapM fun Z => do
            coswissSingleE pi Z word.els (← readAt c.freqs f) wts (some (← readAt row f))
  | none, none =>
    if word.els = [] then .error .typeError
    else (List.range c.freqs.length).mapM fun f => X.mapM fun Z => do
      coswissSingleE pi Z word.els (← readAt c.freqs f) wts none

/-- cos.py 304-333 with the checked kernels (`CosWISS.batchLoop`). -/
def CosWISS.batchLoopE [NpMath R] (pi : R) (c : CosWISS R) (X : Data R) (b : ℕ) : List (SWord R) → ℕ → List (Data R) → List (Data R) × Option Err
  | [], _, results => if results.length ≠ 0 then ([results.flatten], none) else ([], none)
  | word :: ws, w, results =>
    match c.wordResultE pi X w word with
    | .error e => ([], some e)
    | .ok r =>
      let results := results ++ [r]
      if results.length = b then
        let rest := c.batchLoopE pi X b ws (w + 1) []
        (results.flatten :: rest.1, rest.2)
      else c.batchLoopE pi X b ws (w + 1) results

/-- cos.py 289-333 `batch_transform`. -/
def CosWISS.batchTransformE [NpMath R] (pi : R) (c : CosWISS R) (words : List (SWord R)) (X : Data R) (b : ℕ) : List (Data R) × Option Err :=
  c.batchLoopE pi X b words 0 []

end Fruits
