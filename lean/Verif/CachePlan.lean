import Verif.Py

/-! # Model of `fruits/iss/cache.py` (`CachePlan`)

The plan depends on the words only through their strings. -/

namespace Fruits

/-- cache.py 30-37: the inner loop `for k in range(start, i): if word_strings[k].startswith(prefix): …`:
the first `k ≥ start` with the prefix, if any (`cnt = i - start` values left). -/
def findPrefix (strs : List PStr) (pre : PStr) (start : ℕ) : ℕ → Option ℕ
  | 0 => none
  | cnt + 1 =>
    if pstartswith (strs.getD start []) pre then some start
    else findPrefix strs pre (start + 1) cnt

/-- cache.py 29-41: the loop over `j` (`fuel = len(els) - j`), state `start`, `depth`. -/
def planLoop (strs : List PStr) (i : ℕ) (els : List PStr) : ℕ → ℕ → ℕ → ℕ → ℕ
  | 0, _, _, depth => depth
  | fuel + 1, j, start, depth =>
    match findPrefix strs ('[' :: pjoin '[' (els.take (j + 1))) start (i - start) with
    | some k => planLoop strs i els fuel (j + 1) k (depth - 1)
    | none => depth

/-- cache.py 24-42: depth of word number `i`. -/
def planDepth (strs : List PStr) (i : ℕ) : ℕ :=
  let els := (psplit '[' (strs.getD i [])).drop 1
  planLoop strs i els els.length 0 0 els.length

/-- iss/cache.py 13-15 `CachePlan.__init__`, 17-42 `CachePlan._create_plan`. -/
def cachePlan (strs : List PStr) : List ℕ := (List.range strs.length).map (planDepth strs)

/-- cache.py 44-48 `unique_el_depth`. -/
def uniqueElDepth (plan : List ℕ) (index : ℕ) : Except Err ℕ :=
  match plan[index]? with
  | some d => .ok d
  | none => .error .indexError

/-- cache.py 50-58 `get_word_index` (loop over the remaining plan; `i` the current word). -/
def getWordIndex : (plan : List ℕ) → (isIndex : ℤ) → (i : ℕ) → Except Err ℕ
  | [], _, _ => .error .indexError
  | d :: ds, isIndex, i =>
    let isIndex := isIndex - d
    if isIndex < 0 then .ok i else getWordIndex ds isIndex (i + 1)

/-- cache.py 60-70 `get_word_string`. -/
def getWordString : (plan : List ℕ) → (strs : List PStr) → (isIndex : ℤ) → Except Err PStr
  | d :: ds, s :: ss, isIndex =>
    let isIndex := isIndex - d
    if isIndex < 0 then .ok (pjoin ']' (sliceTo (psplit ']' s) isIndex) ++ [']'])
    else getWordString ds ss isIndex
  | _, _, _ => .error .indexError

/-- cache.py 72-81 `n_iterated_sums()` with `word_indices=None`. -/
def planCount (plan : List ℕ) : ℕ := plan.sum

/-- cache.py 72-81 `n_iterated_sums(range(i, i+b))`. -/
def planCountRange (plan : List ℕ) (i b : ℕ) : ℕ :=
  ((List.range' i b).map (fun k => plan.getD k 0)).sum

end Fruits
