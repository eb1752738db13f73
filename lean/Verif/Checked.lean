import Verif.ISS

/-! # The compiled kernels of `semiring.py` with bounds checks

`numba` does not check array indices: a compiled kernel that reads `Z[d]` for a dimension that does not exist reads foreign memory.  Here the
kernels of `Verif.Semiring` are written a second time, statement by statement, with a check at each index and at each elementwise
operation; a violation is an error instead of an undefined value. -/

namespace Fruits
variable {R : Type}

/-- `for k, x in enumerate(xs)` with a body that may fail. -/
def enumFoldE {α σ : Type} (f : ℕ → α → σ → Except Err σ) : ℕ → List α → σ → Except Err σ
  | _, [], s => .ok s
  | k, x :: xs, s => do
    let s ← f k x s
    enumFoldE f (k + 1) xs s

/-- `l[i]` with a check. -/
def readAt {α : Type} (l : List α) (i : ℕ) : Except Err α :=
  match l[i]? with
  | some a => .ok a
  | none => .error .indexError

/-- `l[i] = v` with a check. -/
def writeAt {α : Type} (l : List α) (i : ℕ) (v : α) : Except Err (List α) :=
  if i < l.length then .ok (l.set i v) else .error .indexError

/-- `op(x, y)` for arrays; the lengths must agree. -/
def opE (op : R → R → R) (x y : List R) : Except Err (List R) :=
  if x.length = y.length then .ok (List.zipWith op x y) else .error .valueError

/-- `for _ in range(n): tmp = op(tmp, z)`. -/
def repeatE (op : R → R → R) (z : List R) : ℕ → List R → Except Err (List R)
  | 0, tmp => .ok tmp
  | n + 1, tmp => do repeatE op z n (← opE op tmp z)

/-- semiring.py 111-116 (also 149-154, 475-480, 512-517). `Z[letter, :]` is read only if the letter occurs. -/
def letterMulE [Field R] (Z : List (List R)) (letter : ℕ) (occ : ℤ) (tmp : List R) : Except Err (List R) :=
  if occ > 0 then do repeatE (· * ·) (← readAt Z letter) occ.toNat tmp
  else if occ < 0 then do repeatE (· / ·) (← readAt Z letter) (-occ).toNat tmp
  else .ok tmp

/-- semiring.py 110-116. -/
def lettersMulE [Field R] (Z : List (List R)) (el : List ℤ) (tmp : List R) : Except Err (List R) :=
  enumFoldE (fun letter occ tmp => letterMulE Z letter occ tmp) 0 el tmp

/-- semiring.py 296-297, 328-329 (also 250-251): `Z[dim, :]` is read for each entry of the extended letter, even if it is zero. -/
def lettersAddE [Field R] (Z : List (List R)) (el : List ℤ) (tmp : List R) : Except Err (List R) :=
  enumFoldE (fun dim (e : ℤ) tmp => do opE (· + ·) tmp ((← readAt Z dim).map fun x => (e : R) * x)) 0 el tmp

/-- `tmp = np.roll(tmp, 1); tmp[0] = 0`, semiring.py 108-109, 156-157. -/
def rollE [Zero R] (tmp : List R) : Except Err (List R) := writeAt (roll1 tmp) 0 0

/-- semiring.py 304-306, 331-332 (also 266-268, 487-489, 519-520): `for i in range(1, n): tmp[i] = max(tmp[i-1], tmp[i])`. -/
def maxLoopE [LinearOrder R] (n : ℕ) (tmp : List R) : Except Err (List R) :=
  (List.range' 1 (n - 1)).foldlM (fun t i => do writeAt t i (max (← readAt t (i - 1)) (← readAt t i))) tmp

/-- semiring.py 299-303, 482-486: `row[0] = tmp[0]; for i in range(1, n): row[i] = max(row[i-1], tmp[i])`. -/
def maxRowLoopE [LinearOrder R] (n : ℕ) (row tmp : List R) : Except Err (List R) := do
  let row ← writeAt row 0 (← readAt tmp 0)
  (List.range' 1 (n - 1)).foldlM (fun r i => do writeAt r i (max (← readAt r (i - 1)) (← readAt tmp i))) row

/-- `result[extended-(len(word)-k), :] = v`; the lengths must agree. -/
def saveE (result : List (List R)) (r : ℕ) (v : List R) : Except Err (List (List R)) := do
  if (← readAt result r).length = v.length then writeAt result r v else .error .valueError

/-- semiring.py 93-125 `_reals_single`. -/
def realsSingleE [Field R] (expf : R → R) (Z : List (List R)) (word : List (List ℤ)) (alpha weights : List R) (extended : ℕ) :
    Except Err (List (List R)) := do
  let s ← enumFoldE (fun k el (s : List R × List (List R)) => do
      let tmp ← if k > 0 then rollE s.1 else .ok s.1
      let tmp ← lettersMulE Z el tmp
      let tmp ← if k > 0 then do opE (· * ·) tmp (expNegW expf weights (← readAt alpha (k - 1))) else .ok tmp
      let result ← if word.length - k ≤ extended then saveE s.2 (extended - (word.length - k)) (cumsum tmp) else .ok s.2
      let tmp ← if k < word.length - 1 then do
          let tmp ← opE (· * ·) tmp (expW expf weights (← readAt alpha k))
          pure (cumsum tmp)
        else .ok tmp
      pure (tmp, result))
    0 word (ones (ncols Z), List.replicate extended (zeros (ncols Z)))
  pure s.2

/-- semiring.py 128-158 `_total_weighted_reals_single`. -/
def totalRealsE [Field R] (expf : R → R) (Z : List (List R)) (word : List (List ℤ)) (alpha weights : List R) (extended : ℕ) :
    Except Err (List (List R)) := do
  let s ← enumFoldE (fun k el (s : List R × List (List R)) => do
      let tmp ← lettersMulE Z el s.1
      let tmp ← opE (· * ·) tmp (expW expf weights (← readAt alpha k))
      let tmp := cumsum tmp
      let result ← if word.length - k ≤ extended then do
          saveE s.2 (extended - (word.length - k)) (← opE (· * ·) tmp (expNegW expf weights (← readAt alpha k))) else .ok s.2
      let tmp ← if k < word.length - 1 then do
          opE (· * ·) (← rollE tmp) (expNegW expf weights (← readAt alpha k))
        else .ok tmp
      pure (tmp, result))
    0 word (ones (ncols Z), List.replicate extended (zeros (ncols Z)))
  pure s.2

/-- semiring.py 282-311 `_arctic_single`. -/
def arcticSingleE [Field R] [LinearOrder R] (Z : List (List R)) (word : List (List ℤ)) (alpha weights : List R) (extended : ℕ) :
    Except Err (List (List R)) := do
  let s ← enumFoldE (fun k el (s : List R × List (List R)) => do
      let tmp ← lettersAddE Z el s.1
      let tmp ← if k > 0 then do opE (· - ·) tmp (vscale weights (← readAt alpha (k - 1))) else .ok tmp
      let result ← if word.length - k ≤ extended then do
          let r ← maxRowLoopE (ncols Z) (← readAt s.2 (extended - (word.length - k))) tmp
          writeAt s.2 (extended - (word.length - k)) r
        else .ok s.2
      let tmp ← if k < word.length - 1 then do
          maxLoopE (ncols Z) (← opE (· + ·) tmp (vscale weights (← readAt alpha k)))
        else .ok tmp
      pure (tmp, result))
    0 word (zeros (ncols Z), List.replicate extended (zeros (ncols Z)))
  pure s.2

/-- semiring.py 314-338 `_total_weighted_arctic_single`. -/
def totalArcticE [Field R] [LinearOrder R] (Z : List (List R)) (word : List (List ℤ)) (alpha weights : List R) (extended : ℕ) :
    Except Err (List (List R)) := do
  let s ← enumFoldE (fun k el (s : List R × List (List R)) => do
      let tmp ← lettersAddE Z el s.1
      let tmp ← opE (· + ·) tmp (vscale weights (← readAt alpha k))
      let tmp ← maxLoopE (ncols Z) tmp
      let result ← if word.length - k ≤ extended then do
          saveE s.2 (extended - (word.length - k)) (← opE (· - ·) tmp (vscale weights (← readAt alpha k))) else .ok s.2
      let tmp ← if k < word.length - 1 then do
          opE (· - ·) tmp (vscale weights (← readAt alpha k))
        else .ok tmp
      pure (tmp, result))
    0 word (zeros (ncols Z), List.replicate extended (zeros (ncols Z)))
  pure s.2

/-- semiring.py 461-495 `_bayesian_single`. -/
def bayesianSingleE [Field R] [LinearOrder R] (expf : R → R) (Z : List (List R)) (word : List (List ℤ)) (alpha weights : List R) (extended : ℕ) :
    Except Err (List (List R)) := do
  let s ← enumFoldE (fun k el (s : List R × List (List R)) => do
      let tmp ← lettersMulE Z el s.1
      let tmp ← if k > 0 then do opE (· * ·) tmp (expNegW expf weights (← readAt alpha (k - 1))) else .ok tmp
      let result ← if word.length - k ≤ extended then do
          let r ← maxRowLoopE (ncols Z) (← readAt s.2 (extended - (word.length - k))) tmp
          writeAt s.2 (extended - (word.length - k)) r
        else .ok s.2
      let tmp ← if k < word.length - 1 then do
          maxLoopE (ncols Z) (← opE (· * ·) tmp (expW expf weights (← readAt alpha k)))
        else .ok tmp
      pure (tmp, result))
    0 word (ones (ncols Z), List.replicate extended (ones (ncols Z)))
  pure s.2

/-- semiring.py 498-527 `_total_weighted_bayesian_single`. -/
def totalBayesianE [Field R] [LinearOrder R] (expf : R → R) (Z : List (List R)) (word : List (List ℤ)) (alpha weights : List R) (extended : ℕ) :
    Except Err (List (List R)) := do
  let s ← enumFoldE (fun k el (s : List R × List (List R)) => do
      let tmp ← lettersMulE Z el s.1
      let tmp ← opE (· * ·) tmp (expW expf weights (← readAt alpha k))
      let tmp ← maxLoopE (ncols Z) tmp
      let result ← if word.length - k ≤ extended then do
          saveE s.2 (extended - (word.length - k)) (← opE (· * ·) tmp (expNegW expf weights (← readAt alpha k))) else .ok s.2
      let tmp ← if k < word.length - 1 then do
          opE (· * ·) tmp (expNegW expf weights (← readAt alpha k))
        else .ok tmp
      pure (tmp, result))
    0 word (ones (ncols Z), List.replicate extended (zeros (ncols Z)))
  pure s.2

/-- semiring.py 257-264, on the rows `result[2*k]` and `result[2*k+1]`. -/
def argmaxRowsE [Field R] [LinearOrder R] (n : ℕ) (row0 row1 tmp : List R) : Except Err (List R × List R) := do
  let row0 ← writeAt row0 0 (← readAt tmp 0)
  (List.range' 1 (n - 1)).foldlM (fun (r : List R × List R) i => do
      let a ← readAt r.1 (i - 1)
      let b ← readAt tmp i
      if a ≥ b then do
        let x ← writeAt r.1 i a
        let y ← writeAt r.2 i (← readAt r.2 (i - 1))
        pure (x, y)
      else do
        let x ← writeAt r.1 i b
        let y ← writeAt r.2 i (i : R)
        pure (x, y)) (row0, row1)

/-- semiring.py 245-268. -/
def argmaxLoopE [Field R] [LinearOrder R] (Z : List (List R)) (word : List (List ℤ)) (alpha weights : List R) : Except Err (List (List R)) := do
  let s ← enumFoldE (fun k el (s : List R × List (List R)) =>
      if el.all (· == 0) then .ok s else do
      let C ← lettersAddE Z el (zeros (ncols Z))
      let tmp ← opE (· + ·) s.1 C
      let tmp ← if k > 0 then do opE (· - ·) tmp (vscale weights (← readAt alpha (k - 1))) else .ok tmp
      let rows ← argmaxRowsE (ncols Z) (← readAt s.2 (2 * k)) (← readAt s.2 (2 * k + 1)) tmp
      let result ← writeAt s.2 (2 * k) rows.1
      let result ← writeAt result (2 * k + 1) rows.2
      let tmp ← if k < word.length - 1 then do
          maxLoopE (ncols Z) (← opE (· + ·) tmp (vscale weights (← readAt alpha k)))
        else .ok tmp
      pure (tmp, result))
    0 word (zeros (ncols Z), List.replicate (2 * word.length) (zeros (ncols Z)))
  pure s.2

/-- semiring.py 276-279: a position `c - 1` that is not an index of the row is an error. -/
def translateInnerE [Field R] [LinearOrder R] [FloorRing R] (n : ℕ) (result : List (List R)) (index : ℕ) : ℕ → List (List R) →
    Except Err (List (List R))
  | 0, tr => .ok tr
  | s + 1, tr => do
    let v ← readAt (← readAt tr (index + (s + 1) + 1)) (n - 1)
    let c := ⌊v⌋ + 1
    if c ≤ 0 then .error .indexError else do
    let src ← readAt result (2 * s + 1)
    let x ← readAt src (c.toNat - 1)
    let tr ← saveE tr (index + (s + 1)) (src.take c.toNat ++ List.replicate (n - c.toNat) x)
    translateInnerE n result index s tr

/-- semiring.py 272-279. -/
def translateLoopE [Field R] [LinearOrder R] [FloorRing R] (n : ℕ) (result : List (List R)) : ℕ → List (List R) → Except Err (List (List R))
  | 0, tr => .ok tr
  | k + 1, tr => do
    let tr ← saveE tr (triIndex k) (← readAt result (2 * k))
    let tr ← saveE tr (triIndex k + k + 1) (← readAt result (2 * k + 1))
    let tr ← translateInnerE n result (triIndex k) k tr
    translateLoopE n result k tr

/-- semiring.py 234-280 `_arctic_argmax_single`. -/
def arcticArgmaxE [Field R] [LinearOrder R] [FloorRing R] (Z : List (List R)) (word : List (List ℤ)) (alpha weights : List R) :
    Except Err (List (List R)) := do
  let result ← argmaxLoopE Z word alpha weights
  translateLoopE (ncols Z) result word.length (List.replicate (triIndex word.length) (zeros (ncols Z)))

/-- `Reals._iterated_sum_fast` 175-206, `Arctic._iterated_sum_fast` 362-400, `Bayesian._iterated_sum_fast` 544-574, for one series. -/
def fastSingleE [Field R] [LinearOrder R] [FloorRing R] (expf : R → R) (k : SemiringKind) (Z : List (List R)) (word : List (List ℤ)) (alpha lookup : List R)
    (extended : ℕ) (total : Bool) : Except Err (List (List R)) :=
  match k, total with
  | .reals, true => totalRealsE expf Z word alpha lookup extended
  | .reals, false => realsSingleE expf Z word alpha lookup extended
  | .arctic, true => totalArcticE Z word alpha lookup extended
  | .arctic, false => arcticSingleE Z word alpha lookup extended
  | .bayesian, true => totalBayesianE expf Z word alpha lookup extended
  | .bayesian, false => bayesianSingleE expf Z word alpha lookup extended
  | .arcticArgmax, _ => arcticArgmaxE Z word alpha lookup

/-- semiring.py 14-41 `Semiring.iterated_sums` with the checked kernels.  The general words are numpy code (not compiled), which checks its
indices itself; they are kept as in `iteratedSums`. -/
def iteratedSumsE [Field R] [LinearOrder R] [FloorRing R] (expf : R → R) (k : SemiringKind) (X : Data R) (word : IWord R) (extended : ℕ)
    (weighting : Option (Weighting R)) : Except Err (Data R) :=
  match word with
  | .simple w =>
    let alpha := match weighting with
      | some _ => w.getAlpha
      | none => zeros w.els.length
    let lookup := match weighting with
      | some wt => wt.lookup X
      | none => X.map (fun Z => zeros (ncols Z))
    let total := match weighting with
      | some wt => wt.total
      | none => true
    (List.zipIdx X).mapM fun (p : List (List R) × ℕ) => do
      fastSingleE expf k p.1 w.els alpha (← readAt lookup p.2) extended total
  | .general w => .ok (X.map (fun Z => slowSingle k Z (w.els.map ELetter.bound) extended))

/-- iss.py 50-65 with the checked kernels. -/
def ISSConf.batchLoopE [Field R] [LinearOrder R] [FloorRing R] (expf : R → R) (c : ISSConf R) (X : Data R) : List (IWord R) → ℕ → ℕ → Data R →
    Except Err (Data R)
  | [], _, _, results => .ok results
  | word :: ws, i, index, results => do
    let sums ← iteratedSumsE expf c.semiring X word (c.depth i) c.weighting
    let results ← setRows results index (c.nWord i word) (swapAxes (rowsOf c.semiring word (c.depth i)) sums)
    c.batchLoopE expf X ws (i + 1) (index + c.nWord i word) results

/-- iss.py 33-67 with the checked kernels. -/
def ISSConf.batchE [Field R] [LinearOrder R] [FloorRing R] (expf : R → R) (c : ISSConf R) (X : Data R) (i b : ℕ) : Except Err (Data R) := do
  let m ← c.nBatch i b
  c.batchLoopE expf X ((c.words.drop i).take b) i 0 (List.replicate m (X.map (fun Z => zeros (ncols Z))))

/-- iss.py 118-134 `ISS._transform` with the checked kernels. -/
def ISSConf.transformE [Field R] [LinearOrder R] [FloorRing R] (expf : R → R) (c : ISSConf R) (X : Data R) : Except Err (Data R) :=
  if c.words.length = 0 then .error .stopIteration else c.batchE expf X 0 c.words.length

end Fruits
