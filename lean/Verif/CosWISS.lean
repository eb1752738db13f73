import Verif.Word
import Verif.Prep

/-! # Model of `fruits/iss/cos.py`

`pi` is `np.pi`; `sin` and `cos` come from `NpMath`.  Not modelled: `float32` rounding of the frequencies and `int32`
overflow of the coefficients. -/

namespace Fruits
set_option linter.unusedSectionVars false
variable {R : Type} [Field R] [LinearOrder R] [FloorRing R]

/-- cos.py 23-24, 65-66: the argument of `np.sin` and `np.cos`, `np.pi * np.arange(n) / (freq*(n-1))`. -/
def phases (pi freq : R) (n : ℕ) : List R :=
  (List.range n).map fun t : ℕ => pi * (t : R) / (freq * ((n : R) - 1))

/-- cos.py 38-41, 44-47 (80-83, 87-90): multiply `a` times with `sin_w` and `b` times with `cos_w`. -/
def mulTrig (sinW cosW : List R) (a b : ℕ) (tmp : List R) : List R :=
  (fun v => vmul v cosW)^[b] ((fun v => vmul v sinW)^[a] tmp)

/-- cos.py 26-47: the array `tmp` at the end of one iteration of the loop over the rows `wt` of `weightings`. -/
def cosRow [NpMath R] (Z : List (List R)) (word : List (List ℤ)) (sinW cosW : List R) (wt : List ℕ) : List R :=
  let tmp := enumFold (fun k el (tmp : List R) =>
      let tmp := if k > 0 then roll1z tmp else tmp
      let tmp := lettersMul Z el tmp
      let tmp := mulTrig sinW cosW (wt.getD (2 * k + 1) 0) (wt.getD (2 * k + 2) 0) tmp
      cumsum tmp)
    0 word (ones (ncols Z))
  if wt.length = 2 * word.length + 3
    then mulTrig sinW cosW (wt.getD (2 * word.length + 1) 0) (wt.getD (2 * word.length + 2) 0) tmp
    else tmp

/-- cos.py 11-49 `_coswiss_single`. -/
def coswissSingle [NpMath R] (pi : R) (Z : List (List R)) (word : List (List ℤ)) (freq : R)
    (weightings : List (List ℕ)) : List R :=
  let sinW := (phases pi freq (ncols Z)).map NpMath.sin
  let cosW := (phases pi freq (ncols Z)).map NpMath.cos
  weightings.foldl (fun result wt =>
    vadd result ((cosRow Z word sinW cosW wt).map fun v => ((wt.getD 0 0 : ℕ) : R) * v)) (zeros (ncols Z))

/-- cos.py 84: `tmp[idx] = 0`. -/
def zeroAt (tmp : List R) (idx : List ℕ) : List R := idx.foldl (fun tmp i => tmp.set i 0) tmp

/-- cos.py 68-90: as `cosRow`, with the values at the dropped indices set to zero before every cumulative sum. -/
def leakyRow [NpMath R] (Z : List (List R)) (word : List (List ℤ)) (sinW cosW : List R) (dropout : List (List ℕ))
    (wt : List ℕ) : List R :=
  let tmp := enumFold (fun k el (tmp : List R) =>
      let tmp := if k > 0 then roll1z tmp else tmp
      let tmp := lettersMul Z el tmp
      let tmp := mulTrig sinW cosW (wt.getD (2 * k + 1) 0) (wt.getD (2 * k + 2) 0) tmp
      let tmp := zeroAt tmp (dropout.getD k [])
      cumsum tmp)
    0 word (ones (ncols Z))
  if wt.length = 2 * word.length + 3
    then mulTrig sinW cosW (wt.getD (2 * word.length + 1) 0) (wt.getD (2 * word.length + 2) 0) tmp
    else tmp

/-- cos.py 52-92 `_leaky_coswiss_single`. -/
def leakyCoswissSingle [NpMath R] (pi : R) (Z : List (List R)) (word : List (List ℤ)) (freq : R)
    (weightings : List (List ℕ)) (dropout : List (List ℕ)) : List R :=
  let sinW := (phases pi freq (ncols Z)).map NpMath.sin
  let cosW := (phases pi freq (ncols Z)).map NpMath.cos
  weightings.foldl (fun result wt =>
    vadd result ((leakyRow Z word sinW cosW dropout wt).map fun v => ((wt.getD 0 0 : ℕ) : R) * v))
    (zeros (ncols Z))

/-- cos.py 95-116 `_ffn`. -/
def cosFfn (A : List (List R)) (b : List R) (C : List (List R)) (Z : List (List R)) : List (List R) :=
  let n := ncols Z
  let Y : List (List R) := List.zipWith (fun (r : List R) (c : R) =>
    (List.range n).map fun t => dotp r (column Z t) + c) A b
  let Y := Y.map fun y => y.map relu
  C.map fun r => (List.range n).map fun t => dotp r (column Y t)

/-- cos.py 267-274: the strings `f"{coeff}{exp0}{exp1}"`; the loop starts at `k` and runs `m` times. -/
def trigLoop (s : ℕ) : (m k e0 e1 coeff : ℕ) → List PStr
  | 0, _, _, _, _ => []
  | m + 1, k, e0, e1, coeff =>
    (Nat.toDigits 10 coeff ++ Nat.toDigits 10 e0 ++ Nat.toDigits 10 e1)
      :: trigLoop s m (k + 1) (e0 - 1) (e1 + 1) (coeff * (s - k) / (k + 1))

/-- cos.py 267-274: the list `trig_id`. -/
def trigIds (s : ℕ) : List PStr := trigLoop s (s + 1) 0 s 0 1

/-- `itertools.product(ids, repeat=q)`. -/
def productRepeat {α : Type} (ids : List α) : ℕ → List (List α)
  | 0 => [[]]
  | q + 1 => ids.flatMap fun a => (productRepeat ids q).map fun c => a :: c

/-- `int(comb[i][j])` for one character. -/
def charInt (s : PStr) (j : ℕ) : ℕ := (s.getD j '0').toNat - '0'.toNat

/-- cos.py 282-286: the assignments of one `i`. -/
def weightStep (i : ℕ) (id : PStr) (row : List ℕ) : List ℕ :=
  let row := row.modify 0 (· * charInt id 0)
  let row := row.modify (2 * i + 1) (· + charInt id 1)
  let row := row.modify (2 * i + 3) (· + charInt id 1)
  let row := row.modify (2 * i + 2) (· + charInt id 2)
  row.modify (2 * i + 4) (· + charInt id 2)

/-- cos.py 265-287 `_get_weightings` for a word of length `len`. -/
def getWeightings (s : ℕ) (total : Bool) (len : ℕ) : List (List ℕ) :=
  let p := if total then len + 1 else len
  (productRepeat (trigIds s) (p - 1)).map fun comb =>
    enumFold weightStep 0 comb (1 :: List.replicate (2 * p) 0)

/-- The random weights `_A[w, f]`, `_b[w, f]`, `_C[w, f]` of one network. -/
structure CosNet (R : Type) where
  A : List (List R)
  b : List R
  C : List (List R)

/-- cos.py 214-231 `CosWISS.__init__` and the attributes set by `_fit`; the list of words is kept outside. -/
structure CosWISS (R : Type) where
  freqs : List R
  exponent : ℕ := 2
  total : Bool := false
  ffnSize : Option ℕ := none
  dropout : Option R := none
  net : Option (List (List (CosNet R))) := none
  drops : Option (List (List (List (List ℕ)))) := none

/-- cos.py 226-228: the words have to be simple. -/
def simpleWords : List (IWord R) → Except Err (List (SWord R))
  | [] => .ok []
  | .simple w :: ws => do let r ← simpleWords ws; return w :: r
  | .general _ :: _ => .error .valueError

/-- cos.py 214-231 `CosWISS.__init__`. -/
def CosWISS.new (words : List (IWord R)) (freqs : List R) (exponent : ℕ) (total : Bool) (ffnSize : Option ℕ)
    (dropout : Option R) : Except Err (CosWISS R × List (SWord R)) := do
  let ws ← simpleWords words
  return ({ freqs, exponent, total, ffnSize, dropout }, ws)

/-- cos.py 233-237 `n_iterated_sums`. -/
def CosWISS.nIteratedSums (c : CosWISS R) (words : List (SWord R)) : ℕ := c.freqs.length * words.length

/-- cos.py 239-241 `requires_fitting`. -/
def CosWISS.requiresFitting (c : CosWISS R) : Bool := c.ffnSize.isSome || c.dropout.isSome

/-- cos.py 244-251: the arrays `_A`, `_b`, `_C` for hidden size `d` and `D` dimensions. -/
def cosNets (g : Rng R) (W F d D : ℕ) : List (List (CosNet R)) :=
  (List.range W).map fun w => (List.range F).map fun f =>
    { A := (List.range d).map fun i => (List.range D).map fun j => g.unit 0 (((w * F + f) * d + i) * D + j)
      b := (List.range d).map fun i => g.unit 1 ((w * F + f) * d + i)
      C := (List.range D).map fun i => (List.range d).map fun j => g.unit 2 (((w * F + f) * D + i) * d + j) }

/-- cos.py 252-259: the dropped indices; `np.random.choice` raises `ValueError` for a size it cannot draw. -/
def cosDrops (g : Rng R) (W F L n : ℕ) (rate : ℤ) : Except Err (List (List (List (List ℕ)))) :=
  if W = 0 ∨ F = 0 ∨ L = 0 ∨ (0 ≤ rate ∧ rate ≤ (n : ℤ)) then
    .ok ((List.range W).map fun w => (List.range F).map fun f => (List.range L).map fun k =>
      g.choice ((w * F + f) * L + k) n rate.toNat)
  else .error .valueError

/-- cos.py 243-259 `_fit`. -/
def CosWISS.fit (g : Rng R) (c : CosWISS R) (words : List (SWord R)) (X : Data R) : Except Err (CosWISS R) := do
  let net := match c.ffnSize with
    | some d => some (cosNets g words.length c.freqs.length d (shape1 X))
    | none => c.net
  match c.dropout with
  | some d => do
    let L := (words.map fun w => w.els.length).foldr max 0
    let drops ← cosDrops g words.length c.freqs.length L (shape2 X) (pyInt (d * (shape2 X : R)))
    return { c with net := net, drops := some drops }
  | none => return { c with net := net }

/-- cos.py 306-329: the iterated sums of word number `w`, one array per frequency (`_ffn_coswiss` 118-141,
`_leaky_coswiss` 144-163, `_coswiss` 166-181).  A word without letters becomes an array of shape `(0,)`, which the compiled
functions reject (without total weighting already `_get_weightings` raises); unfitted weights are missing attributes. -/
def CosWISS.wordResult [NpMath R] (pi : R) (c : CosWISS R) (X : Data R) (w : ℕ) (word : SWord R) :
    Except Err (Data R) :=
  let wts := getWeightings c.exponent c.total word.els.length
  if word.els = [] ∧ c.total = false then .error .typeError
  else match c.ffnSize, c.dropout with
  | some _, _ => match c.net with
    | none => .error .attributeError
    | some nets => match nets[w]? with
      | none => .error .indexError
      | some row =>
        if word.els = [] then .error .typeError
        else .ok ((List.range c.freqs.length).map fun f => X.map fun Z =>
            let net := row.getD f ⟨[], [], []⟩
            coswissSingle pi (cosFfn net.A net.b net.C Z) word.els (c.freqs.getD f 0) wts)
  | none, some _ => match c.drops with
    | none => .error .attributeError
    | some drops => match drops[w]? with
      | none => .error .indexError
      | some row =>
        if word.els = [] then .error .typeError
        else .ok ((List.range c.freqs.length).map fun f => X.map fun Z =>
            leakyCoswissSingle pi Z word.els (c.freqs.getD f 0) wts (row.getD f []))
  | none, none =>
    if word.els = [] then .error .typeError
    else .ok ((List.range c.freqs.length).map fun f => X.map fun Z =>
      coswissSingle pi Z word.els (c.freqs.getD f 0) wts)

/-- cos.py 304-333: the loop of `batch_transform` from word number `w` on, with the collected `results`; the yielded arrays
and the exception that stopped the generator, if any. -/
def CosWISS.batchLoop [NpMath R] (pi : R) (c : CosWISS R) (X : Data R) (b : ℕ) :
    List (SWord R) → ℕ → List (Data R) → List (Data R) × Option Err
  | [], _, results => if results.length ≠ 0 then ([results.flatten], none) else ([], none)
  | word :: ws, w, results =>
    match c.wordResult pi X w word with
    | .error e => ([], some e)
    | .ok r =>
      let results := results ++ [r]
      if results.length = b then
        let rest := c.batchLoop pi X b ws (w + 1) []
        (results.flatten :: rest.1, rest.2)
      else c.batchLoop pi X b ws (w + 1) results

/-- cos.py 289-333 `batch_transform`. -/
def CosWISS.batchTransform [NpMath R] (pi : R) (c : CosWISS R) (words : List (SWord R)) (X : Data R) (b : ℕ) :
    List (Data R) × Option Err := c.batchLoop pi X b words 0 []

/-- cos.py 261-263 `_transform`: the first yielded array. -/
def CosWISS.transform [NpMath R] (pi : R) (c : CosWISS R) (words : List (SWord R)) (X : Data R) : Except Err (Data R) :=
  match c.batchTransform pi words X (c.nIteratedSums words) with
  | (r :: _, _) => .ok r
  | ([], some e) => .error e
  | ([], none) => .error .stopIteration

/-- cos.py 335-343 `_copy`. -/
def CosWISS.copy (c : CosWISS R) : CosWISS R :=
  { freqs := c.freqs, exponent := c.exponent, total := c.total, ffnSize := c.ffnSize, dropout := c.dropout }

/-- cos.py 345-351 `_label` for a non-negative index; `fl` is `str` of a float.  `divmod` by zero raises. -/
def CosWISS.label (fl : R → PStr) (c : CosWISS R) (words : List (SWord R)) (index : ℕ) : Except Err PStr :=
  if c.freqs.length = 0 then .error .zeroDivisionError
  else match words[index / c.freqs.length]?, c.freqs[index % c.freqs.length]? with
    | some w, some f =>
      .ok (w.name ++ "!".toList ++ fl f ++ " : ^".toList ++ Nat.toDigits 10 c.exponent
        ++ (if c.total then " : total".toList else []))
    | _, _ => .error .indexError

end Fruits
