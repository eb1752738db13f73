import Verif.CorbData

/-!
# Model of `load` and `load_all`, `experiments/corbeille/corbeille/data.py` 150-308

Text files are lists of lines; `float` is a parameter of the text reader.  What `scipy.io.arff.loadarff` returns is given: a list of
records with a table of values and a class label.  Four cache files (`.npy`) are the only thing that `load` writes; saving one is two steps
(the file is created, then it is complete), and a process may stop between any two steps.
-/

namespace Fruits
set_option linter.unusedSectionVars false
variable {R L : Type} [Field R] [LinearOrder R] [FloorRing R] [DecidableEq L]

/-- What `load` returns: `X_train, y_train, X_test, y_test`. -/
structure Loaded (R : Type) where
  Xtrain : Data (Fl R)
  ytrain : List ℤ
  Xtest : Data (Fl R)
  ytest : List ℤ
  deriving DecidableEq

/-- data.py 196-198, 263-265: `if not keep_nan: replace_nan`. -/
def Loaded.clean (big : R) (keepNan : Bool) (D : Loaded R) : Loaded R :=
  if keepNan then D else { D with Xtrain := replaceNan big none D.Xtrain, Xtest := replaceNan big none D.Xtest }

/-! ### Univariate data -/

/-- White space inside a line. -/
def isBlank (c : Char) : Bool := c = ' ' || c = '\t'

/-- The text is empty or starts with white space. -/
def atBlank : PStr → Bool
  | [] => true
  | c :: _ => isBlank c

/-- `s.split()`: the maximal blocks without white space. -/
def pwords : PStr → List PStr
  | [] => []
  | c :: s =>
    if isBlank c then pwords s
    else if atBlank s then [c] :: pwords s
    else match pwords s with
      | [] => [[c]]
      | w :: ws => (c :: w) :: ws

/-- `np.loadtxt`, comments: everything after `#` is dropped. -/
def dropComment (line : PStr) : PStr := line.takeWhile (· ≠ '#')

/-- The fields of a line, for `delimiter=None` and `delimiter=","`. -/
def fieldsOf (comma : Bool) (line : PStr) : List PStr := if comma then psplit ',' line else pwords line

/-- `float(field)`, or `ValueError`. -/
def readField (float : PStr → Option (Fl R)) (f : PStr) : Except Err (Fl R) :=
  match float f with
  | some v => .ok v
  | none => .error .valueError

/-- `np.loadtxt(file, delimiter=…)` without the removal of dimensions: lines without content are skipped, every field is read by `float`, and all
rows must have the same length. -/
def loadtxt (float : PStr → Option (Fl R)) (comma : Bool) (lines : List PStr) : Except Err (List (List (Fl R))) := do
  let rows ← ((lines.map dropComment).filter fun l => if comma then l ≠ [] else pwords l ≠ []).mapM fun l =>
    (fieldsOf comma l).mapM (readField float)
  if rows.all fun r => r.length = (rows.getD 0 []).length then .ok rows else .error .valueError

/-- `raw[:, 1:]`, `raw[:, 0]`: `np.loadtxt` removes dimensions of size one, and then the index has too many entries. -/
def asTable (rows : List (List (Fl R))) : Except Err (List (List (Fl R))) :=
  if rows.length ≤ 1 ∨ (rows.getD 0 []).length ≤ 1 then .error .indexError else .ok rows

/-- `.astype(np.int32)` of one value: truncation; what happens to NaN and infinite values depends on the platform (here: the smallest
number). -/
def flTrunc : Fl R → ℤ
  | .finite x => if 0 ≤ x then ⌊x⌋ else ⌈x⌉
  | .nan => -2147483648
  | .posInf => -2147483648
  | .negInf => -2147483648

/-- data.py 179-200: `load` with `univariate=True`; `train` and `test` are the lines of the two files. -/
def loadUnivariate (float : PStr → Option (Fl R)) (big : R) (keepNan : Bool) (train test : List PStr) : Except Err (Loaded R) := do
  let comma := (',' : Char) ∈ train.getD 0 []
  let trainRaw ← loadtxt float comma train
  let testRaw ← loadtxt float comma test
  let tr ← asTable trainRaw
  let te ← asTable testRaw
  pure (Loaded.clean big keepNan ⟨tr.map fun r => [r.drop 1], tr.map fun r => flTrunc (r.getD 0 .nan), te.map fun r => [r.drop 1],
    te.map fun r => flTrunc (r.getD 0 .nan)⟩)

/-! ### Multivariate data -/

/-- A record of an `.arff` file: the table of its values (one row for each dimension) and the class. -/
structure Record (R L : Type) where
  series : List (List (Fl R))
  label : L

/-- data.py 217-235: the shape that is taken from the first record. -/
def firstShape (rs : List (Record R L)) : Except Err (ℕ × ℕ) :=
  match rs with
  | [] => .error .indexError
  | r :: _ => match r.series with
    | [] => .error .indexError
    | x :: _ => .ok (r.series.length, x.length)

/-- data.py 239, 243: `X[m, :, :] = table`; numpy repeats a single row or column. -/
def assignRow (s : ℕ × ℕ) (Z : List (List (Fl R))) : Except Err (List (List (Fl R))) :=
  match Z with
  | [] => if s.2 = 0 then .ok (List.replicate s.1 []) else .error .valueError
  | x :: _ =>
    if (Z.all fun y => y.length = x.length) && (Z.length = s.1 || Z.length = 1) && (x.length = s.2 || x.length = 1) then
      .ok (tab s.1 fun j => tab s.2 fun t => (Z.getD (if Z.length = 1 then 0 else j) []).getD (if x.length = 1 then 0 else t) .nan)
    else .error .valueError

/-- data.py 237-245: `if label not in ys: ys.append(label)` for all labels. -/
def collectLabels (ys : List L) : List L → List L
  | [] => ys
  | l :: ls => collectLabels (if l ∈ ys then ys else ys ++ [l]) ls

/-- data.py 247: the dictionary `{ys[i]: i …}` as an association list, later entries first. -/
def labelDict (ys : List L) : List (L × ℕ) := ys.zipIdx.reverse

/-- `ylabels[label]`. -/
def lookupLabel (d : List (L × ℕ)) (l : L) : Except Err ℤ :=
  match d.find? fun p => p.1 = l with
  | some p => .ok (p.2 : ℤ)
  | none => .error .keyError

/-- data.py 217-251: the arrays made from the records. -/
def fromRecords (train test : List (Record R L)) : Except Err (Loaded R) := do
  let s ← firstShape train
  let s' ← firstShape test
  let Xtrain ← train.mapM fun r => assignRow s r.series
  let ys := collectLabels [] (train.map Record.label)
  let Xtest ← test.mapM fun r => assignRow s' r.series
  let ys := collectLabels ys (test.map Record.label)
  let ytrain ← train.mapM fun r => lookupLabel (labelDict ys) r.label
  let ytest ← test.mapM fun r => lookupLabel (labelDict ys) r.label
  pure ⟨Xtrain, ytrain, Xtest, ytest⟩

/-! ### Cache files -/

/-- Exceptions of `load`. -/
inductive FileErr
  | python (e : Err)
  | notFound
  | badFile
  deriving DecidableEq

/-- What is saved in one cache file. -/
inductive Content (R : Type)
  | series (X : Data (Fl R))
  | labels (y : List ℤ)
  deriving DecidableEq

/-- A cache file does not exist, is being written (or was left so), or is complete. -/
inductive FileState (R : Type)
  | absent
  | incomplete
  | complete (c : Content R)
  deriving DecidableEq

/-- The files `_XTRAIN`, `_yTRAIN`, `_XTEST`, `_yTEST`, in the order in which they are read and written: numbers 0 to 3. -/
abbrev Files (R : Type) := List (FileState R)

/-- The contents of the four files. -/
def Loaded.contents (D : Loaded R) : List (Content R) := [.series D.Xtrain, .labels D.ytrain, .series D.Xtest, .labels D.ytest]

/-- The arrays that were read from four files. -/
def ofContents : List (Content R) → Except FileErr (Loaded R)
  | [.series X, .labels y, .series X', .labels y'] => .ok ⟨X, y, X', y'⟩
  | _ => .error .badFile

/-- `np.load` of one file; a truncated file raises. -/
def readFile : FileState R → Except FileErr (Content R)
  | .absent => .error .notFound
  | .incomplete => .error .badFile
  | .complete c => .ok c

/-- The state of a call of `load(path, univariate=False, cache=…)`. -/
inductive Call (R : Type)
  | start (cache : Bool)
  | reading (got : List (Content R))
  | writing (D : Loaded R) (k : ℕ) (opened : Bool)
  | done (r : Except FileErr (Loaded R))
  | crashed

/-- data.py 204-261: one step of a call.  `parsed` is what the `.arff` files give; they do not change. -/
def Call.step (parsed : Except FileErr (Loaded R)) : Call R → Files R → Call R × Files R
  | .start cache, fs =>
    if cache = true ∧ fs.getD 0 .absent ≠ .absent then (.reading [], fs)
    else match parsed with
      | .error e => (.done (.error e), fs)
      | .ok D => if cache then (.writing D 0 false, fs) else (.done (.ok D), fs)
  | .reading got, fs =>
    if got.length = 4 then (.done (ofContents got), fs)
    else match readFile (fs.getD got.length .absent) with
      | .error e => (.done (.error e), fs)
      | .ok c => (.reading (got ++ [c]), fs)
  | .writing D k opened, fs =>
    match D.contents[k]? with
    | none => (.done (.ok D), fs)
    | some c => if opened then (.writing D (k + 1) false, fs.set k (.complete c)) else (.writing D k true, fs.set k .incomplete)
  | .done r, fs => (.done r, fs)
  | .crashed, fs => (.crashed, fs)

/-- The steps of several calls (in several processes), in any order; a call may stop at any time. -/
inductive Runs (parsed : Except FileErr (Loaded R)) : (ℕ → Call R) × Files R → (ℕ → Call R) × Files R → Prop
  | refl (s : (ℕ → Call R) × Files R) : Runs parsed s s
  | step {s : (ℕ → Call R) × Files R} {calls : ℕ → Call R} {fs : Files R} (i : ℕ) : Runs parsed s (calls, fs) →
      Runs parsed s (Function.update calls i ((calls i).step parsed fs).1, ((calls i).step parsed fs).2)
  | crash {s : (ℕ → Call R) × Files R} {calls : ℕ → Call R} {fs : Files R} (i : ℕ) : Runs parsed s (calls, fs) →
      Runs parsed s (Function.update calls i .crashed, fs)

/-- No cache file exists. -/
def noFiles : Files R := [.absent, .absent, .absent, .absent]

/-- data.py 204-261 as a function: a call of `load` that is neither interrupted nor disturbed. -/
def loadCached (parsed : Except FileErr (Loaded R)) (cache : Bool) (fs : Files R) : Except FileErr (Loaded R) × Files R :=
  if cache = true ∧ fs.getD 0 .absent ≠ .absent then
    ((do
      let c0 ← readFile (fs.getD 0 .absent)
      let c1 ← readFile (fs.getD 1 .absent)
      let c2 ← readFile (fs.getD 2 .absent)
      let c3 ← readFile (fs.getD 3 .absent)
      ofContents [c0, c1, c2, c3]), fs)
  else match parsed with
    | .error e => (.error e, fs)
    | .ok D => if cache then (.ok D, D.contents.map .complete) else (.ok D, fs)

/-- data.py 202-267: `load` with `univariate=False`. -/
def loadMultivariate (big : R) (parsed : Except FileErr (Loaded R)) (cache keepNan : Bool) (fs : Files R) : Except FileErr (Loaded R) × Files R :=
  let r := loadCached parsed cache fs
  (r.1.map (Loaded.clean big keepNan), r.2)

/-! ### load_all -/

/-- `a < b` for Python strings. -/
def strLt : PStr → PStr → Bool
  | [], [] => false
  | [], _ :: _ => true
  | _ :: _, [] => false
  | a :: as, b :: bs => if a = b then strLt as bs else a.toNat < b.toNat

/-- data.py 300-308 `load_all`: the names of the datasets that are loaded, in order.  `entries` is `os.listdir(path)` with the information
whether the entry is a directory. -/
def loadAllNames (entries : List (PStr × Bool)) (datasets : Option (List PStr)) : List PStr :=
  (((entries.mergeSort fun a b => !strLt b.1 a.1).filter fun e => e.2).map Prod.fst).filter fun n =>
    match datasets with
    | none => true
    | some ds => n ∈ ds

end Fruits
