import Verif.Fruit
import Verif.Weighting
import Verif.CosWISS
import Verif.WordOps
import Verif.Texts

/-! # The seeds of the library as an instance of `Sem`

The preparateurs of `Verif.Prep`, the ISS objects of `Verif.ISS` and `Verif.CosWISS` with the weightings of
`Verif.Weighting`, and the sieves of `Verif.Sieve` behind the interface that `fruit.py` uses. -/

namespace Fruits
set_option linter.unusedSectionVars false

variable {R : Type} [Field R] [LinearOrder R] [FloorRing R]

/-- Functions of numpy and of Python that the model takes as parameters: `str`/`float`, `np.exp`, `np.pi`, how long the loop
of `RIN._fit` may run, the iteration order of a set, and the texts of functions and arrays. -/
structure Lib (R : Type) [Field R] [LinearOrder R] [FloorRing R] where
  T : FloatText R
  expf : R → R
  pi : R
  fuel : ℕ
  setOrder : List R → List R
  setOrder_ok : SetOrder setOrder
  calls : CallText R

/-! ### Preparateurs -/

/-- The user functions inside of a preparateur (`FUN`) return as many series as they are given. -/
def Prep.KeepsSeries : Prep R → Prop
  | .func f => ∀ X Y, f X = .ok Y → Y.length = X.length
  | .dim p _ => p.KeepsSeries
  | .new (some p) => p.KeepsSeries
  | _ => True

/-- `preparateur.fit(X)`; `diverged` if the loop of `RIN._fit` does not end. -/
def Lib.prepFit [NpMath R] (L : Lib R) (g : Rng R) (p : Prep R) (X : Data R) : Except Err (Prep R) :=
  match p.fit g L.fuel X with
  | .error e => .error e
  | .ok none => .error .diverged
  | .ok (some q) => .ok q

theorem Prep.fit_keepsSeries [NpMath R] (g : Rng R) (fuel : ℕ) : ∀ (p q : Prep R) (X : Data R), p.fit g fuel X = .ok (some q) →
    p.KeepsSeries → q.KeepsSeries
  | .dim p dims, q, X, h, hp => by
    simp only [Prep.fit] at h
    rcases hs : selectDims dims X with e | sub
    · rw [hs] at h; cases h
    · rw [hs, ok_bind] at h
      rcases hr : p.fit g fuel sub with e | r
      · rw [hr] at h; cases h
      · rw [hr, ok_bind] at h
        cases r with
        | none => cases h
        | some p' =>
          cases h
          exact Prep.fit_keepsSeries g fuel p p' sub hr hp
  | .new (some p), q, X, h, hp => by
    simp only [Prep.fit] at h
    rcases hr : p.fit g fuel X with e | r
    · rw [hr] at h; cases h
    · rw [hr, ok_bind] at h
      cases r with
      | none => cases h
      | some p' =>
        cases h
        exact Prep.fit_keepsSeries g fuel p p' X hr hp
  | .new none, q, X, h, hp => by cases h; trivial
  | .func f, q, X, h, hp => by cases h; exact hp
  | .inc _, q, X, h, _ => by cases h; trivial
  | .nrm _, q, X, h, _ => by cases h; trivial
  | .lag, q, X, h, _ => by cases h; trivial
  | .win _, q, X, h, _ => by cases h; trivial
  | .spe _, q, X, h, _ => by cases h; trivial
  | .rpe _, q, X, h, _ => by cases h; trivial
  | .cts _, q, X, h, _ => by cases h; trivial
  | .std _, q, X, h, _ => by cases h; trivial
  | .mav _, q, X, h, _ => by cases h; trivial
  | .ffn _, q, X, h, _ => by cases h; trivial
  | .dot _, q, X, h, _ => by cases h; trivial
  | .rin p, q, X, h, _ => by
    simp only [Prep.fit] at h
    rcases hr : p.fit g fuel X with e | r
    · rw [hr] at h; cases h
    · rw [hr, ok_bind] at h
      cases r with
      | none => cases h
      | some p' => cases h; trivial
  | .rdw p, q, X, h, _ => by
    simp only [Prep.fit] at h
    rcases hr : p.fit g X with e | r
    · rw [hr] at h; cases h
    · rw [hr, ok_bind] at h; cases h; trivial
  | .jld p, q, X, h, _ => by
    simp only [Prep.fit] at h
    rcases hr : p.fit g X with e | r
    · rw [hr] at h; cases h
    · rw [hr, ok_bind] at h; cases h; trivial
  | .qtc p, q, X, h, _ => by
    simp only [Prep.fit] at h
    rcases hr : p.fit X with e | r
    · rw [hr] at h; cases h
    · rw [hr, ok_bind] at h; cases h; trivial
  | .dil p, q, X, h, _ => by
    simp only [Prep.fit] at h
    rcases hr : p.fit g X with e | r
    · rw [hr] at h; cases h
    · rw [hr, ok_bind] at h; cases h; trivial
  | .pdd p, q, X, h, _ => by
    simp only [Prep.fit] at h
    rcases hr : p.fit X with e | r
    · rw [hr] at h; cases h
    · rw [hr, ok_bind] at h; cases h; trivial

theorem Prep.copy_keepsSeries : ∀ p : Prep R, p.KeepsSeries → p.copy.KeepsSeries
  | .dim p _, h => Prep.copy_keepsSeries p h
  | .new (some p), h => Prep.copy_keepsSeries p h
  | .new none, _ => trivial
  | .func _, h => h
  | .inc _, _ | .nrm _, _ | .lag, _ | .win _, _ | .spe _, _ | .rpe _, _ | .cts _, _ | .std _, _ | .mav _, _ | .ffn _, _
  | .dot _, _ | .rin _, _ | .rdw _, _ | .jld _, _ | .qtc _, _ | .dil _, _ | .pdd _, _ => trivial

/-- A preparateur whose user functions keep the number of series. -/
abbrev SafePrep (R : Type) [Field R] [LinearOrder R] [FloorRing R] := { p : Prep R // p.KeepsSeries }

theorem Lib.prepFit_keepsSeries [NpMath R] {L : Lib R} {g : Rng R} {p q : Prep R} {X : Data R} (h : L.prepFit g p X = .ok q)
    (hp : p.KeepsSeries) : q.KeepsSeries := by
  unfold Lib.prepFit at h
  rcases hr : p.fit g L.fuel X with e | r
  · rw [hr] at h; cases h
  · rw [hr] at h
    cases r with
    | none => cases h
    | some p' => cases h; exact Prep.fit_keepsSeries g L.fuel p _ X hr hp

/-- `preparateur.fit(X)` for a `SafePrep`. -/
def Lib.safeFit [NpMath R] (L : Lib R) (g : Rng R) (p : SafePrep R) (X : Data R) : Except Err (SafePrep R) :=
  match h : L.prepFit g p.1 X with
  | .error e => .error e
  | .ok q => .ok ⟨q, Lib.prepFit_keepsSeries h p.2⟩

/-! ### Iterated sums -/

/-- The attributes of an `ISS` besides its words, `iss.py:95-109`: a weighting is the flag `total` and its kind. -/
structure ISSObj (R : Type) where
  mode : ISSMode
  semiring : SemiringKind
  weighting : Option (Bool × WeightingKind R)

/-- The ISS classes: `ISS` and its subclass `CosWISS`. -/
inductive BIss (R : Type)
  | iss (o : ISSObj R)
  | cos (c : CosWISS R)

/-- `weighting.get_lookup(Z)` as the weighting of `Verif.ISS`.  The compiled kernels read rows of `lookup` that do not fit to
the data out of bounds; here this raises. -/
def lookupFor (T : FloatText R) (C X : Data R) (k : Bool × WeightingKind R) : Except Err (Weighting R) := do
  let L ← k.2.lookup T C X
  if X.length ≤ L.length ∧ ∀ r ∈ L, r.length = shape2 X then .ok ⟨k.1, fun _ => L, k.2.name⟩
  else .error .indexError

/-- `semiring.py:22-27`: the weighting is only asked for simple words. -/
def weightingFor (T : FloatText R) (C X : Data R) (o : ISSObj R) (word : IWord R) : Except Err (Option (Weighting R)) :=
  match word, o.weighting with
  | .simple _, some k => do
    let w ← lookupFor T C X k
    pure (some w)
  | _, _ => .ok none

/-- The `ISS` object as in `Verif.ISS`, with a given weighting.  The cache plan is computed from the current words (the code
keeps the plan made by the constructor, so words that are changed afterwards are outside of the model). -/
def ISSObj.conf (o : ISSObj R) (ws : List (IWord R)) (wt : Option (Weighting R)) : ISSConf R := ⟨ws, o.mode, o.semiring, wt⟩

/-- `iss.py:33-67` for the batch that consists of word number `i`. -/
def ISSObj.wordSums (expf : R → R) (T : FloatText R) (o : ISSObj R) (ws : List (IWord R)) (C X : Data R) (i : ℕ) :
    Except Err (Data R) :=
  match ws[i]? with
  | none => .error .indexError
  | some word => do
    let _ ← (o.conf ws none).nBatch i 1
    let wt ← weightingFor T C X o word
    (o.conf ws wt).batch expf X i 1

/-- All the batches from a list of word numbers; an exception stops the generator. -/
def yieldWords (f : ℕ → Except Err (Data R)) : List ℕ → Yields (List (List R))
  | [] => ([], none)
  | i :: is =>
    match f i with
    | .error e => ([], some e)
    | .ok rows => (rows ++ (yieldWords f is).1, (yieldWords f is).2)

/-- `batch_transform(X)` of `ISS`, `iss.py:154-188`, and of `CosWISS`, `cos.py:289-333`.  Without words the default batch size
of one is too large. -/
def BIss.gen [NpMath R] (L : Lib R) (i : BIss R) (ws : List (IWord R)) (C X : Data R) : Yields (List (List R)) :=
  match i with
  | .iss o =>
    if ws.length = 0 then ([], some .valueError)
    else yieldWords (o.wordSums L.expf L.T ws C X) (List.range ws.length)
  | .cos c =>
    match simpleWords ws with
    | .error e => ([], some e)
    | .ok sw => ((c.batchTransform L.pi sw X 1).1.flatten, (c.batchTransform L.pi sw X 1).2)

/-- `n_iterated_sums()`, `iss.py:136-152`, `cos.py:233-237`. -/
def BIss.count (i : BIss R) (ws : List (IWord R)) : Except Err ℕ :=
  match i with
  | .iss o => (o.conf ws none).nIteratedSums
  | .cos c => .ok (c.freqs.length * ws.length)

/-- `requires_fitting`, `iss.py:111-113`, `cos.py:239-241`. -/
def BIss.requires : BIss R → Bool
  | .iss _ => false
  | .cos c => c.requiresFitting

/-- `fit(X)`, `iss.py:115-116`, `cos.py:243-259`. -/
def BIss.fit (g : Rng R) (i : BIss R) (ws : List (IWord R)) (X : Data R) : Except Err (BIss R) :=
  match i with
  | .iss o => .ok (.iss o)
  | .cos c => do
    let sw ← simpleWords ws
    let c ← c.fit g sw X
    pure (.cos c)

/-- `copy()`, `iss.py:187-193`, `cos.py:335-343`; the constructor of `CosWISS` refuses words that are not simple. -/
def BIss.copy (i : BIss R) (ws : List (IWord R)) : Except Err (BIss R) :=
  match i with
  | .iss o => .ok (.iss o)
  | .cos c => do
    let _ ← simpleWords ws
    pure (.cos c.copy)

/-- `label(index)`, `iss.py:195-205`, `cos.py:345-351`. -/
def BIss.label (L : Lib R) (i : BIss R) (ws : List (IWord R)) (index : ℕ) : Except Err PStr :=
  match i with
  | .iss o => (o.conf ws (o.weighting.map fun k => ⟨k.1, fun _ => [], k.2.name⟩)).label index
  | .cos c => do
    let sw ← simpleWords ws
    c.label L.T.toText sw index

/-! ### Sieves -/

/-- `PPV(…, segments=True)` has different quantiles, which the constructor makes sure of (`implicit.py:79-83`). -/
def Sieve.Distinct : Sieve R → Prop
  | .ppv p | .cpv p => p.segments = true → (p.qc.map (·.1)).Nodup
  | .wrapInc s _ _ | .wrapInt s => s.Distinct
  | _ => True

theorem zip_fst_sublist {α β : Type} : ∀ (l : List α) (m : List β), ((l.zip m).map (·.1)).Sublist l
  | [], _ => by simp
  | a :: l, [] => by simp
  | a :: l, b :: m => by simpa using (zip_fst_sublist l m)

theorem PPV.new_distinct {o : List R → List R} (ho : SetOrder o) {q : OneOrList R} {c : OneOrList Bool} {ss : R} {sg : Bool}
    {p : PPV R} (h : PPV.new o q c ss sg = .ok p) : p.segments = true → (p.qc.map (·.1)).Nodup := by
  unfold PPV.new at h
  rcases ha : PPV.args q c with e | ⟨qs, cs⟩
  · rw [ha] at h; cases h
  rw [ha, ok_bind] at h
  simp only at h
  split at h
  · cases h
  split at h
  · cases h
  cases h
  intro hsg
  simp only at hsg
  subst hsg
  simp only [if_true]
  have h1 : (((o qs).zip cs).insertionSort (fun a b : R × Bool => a.1 ≤ b.1)).Perm ((o qs).zip cs) := List.perm_insertionSort _ _
  refine (h1.map (·.1)).nodup_iff.2 ?_
  exact (zip_fst_sublist _ _).nodup ((ho qs).nodup_iff.2 (List.nodup_dedup qs))

theorem Sieve.fit_distinct (g : Rng R) : ∀ (s t : Sieve R) (X : List (List R)), s.fit g X = .ok t → s.Distinct → t.Distinct
  | .seg k p, t, X, h, _ => by
    simp only [Sieve.fit] at h
    rcases hp : p.fit X with e | q
    · rw [hp] at h; cases h
    · rw [hp, ok_bind] at h; cases h; trivial
  | .inc k i p, t, X, h, _ => by
    simp only [Sieve.fit] at h
    rcases hp : p.incFit i X with e | q
    · rw [hp] at h; cases h
    · rw [hp, ok_bind] at h; cases h; trivial
  | .ppv p, t, X, h, hd => by
    simp only [Sieve.fit, PPV.fit] at h
    rcases hp : p.qc.zipIdx.mapM (p.fitValue g X) with e | q
    · rw [hp] at h; cases h
    · rw [hp] at h; cases h; exact hd
  | .cpv p, t, X, h, hd => by
    simp only [Sieve.fit, PPV.fit] at h
    rcases hp : p.qc.zipIdx.mapM (p.fitValue g X) with e | q
    · rw [hp] at h; cases h
    · rw [hp] at h; cases h; exact hd
  | .wrapInc s d k, t, X, h, hd => by
    simp only [Sieve.fit] at h
    rcases hY : wrapIncData d k X with e | Y
    · rw [hY] at h; cases h
    rw [hY, ok_bind] at h
    rcases hp : s.fit g Y with e | q
    · rw [hp] at h; cases h
    · rw [hp, ok_bind] at h; cases h; exact Sieve.fit_distinct g s q Y hp hd
  | .wrapInt s, t, X, h, hd => by
    simp only [Sieve.fit] at h
    rcases hp : s.fit g (X.map cumsum) with e | q
    · rw [hp] at h; cases h
    · rw [hp, ok_bind] at h; cases h; exact Sieve.fit_distinct g s q _ hp hd

theorem Sieve.copy_distinct {o : List R → List R} (ho : SetOrder o) : ∀ s t : Sieve R, s.copy o = .ok t → t.Distinct
  | .seg _ _, t, h => by cases h; trivial
  | .inc _ _ _, t, h => by cases h; trivial
  | .ppv p, t, h => by
    simp only [Sieve.copy] at h
    rcases hp : PPV.new o (.list (p.qc.map (·.1))) (.list (p.qc.map (·.2))) p.sampleSize p.segments with e | q
    · rw [hp] at h; cases h
    · rw [hp, ok_bind] at h; cases h; exact PPV.new_distinct ho hp
  | .cpv p, t, h => by
    simp only [Sieve.copy] at h
    rcases hp : PPV.new o (.list (p.qc.map (·.1))) (.list (p.qc.map (·.2))) p.sampleSize p.segments with e | q
    · rw [hp] at h; cases h
    · rw [hp, ok_bind] at h; cases h; exact PPV.new_distinct ho hp
  | .wrapInc s d k, t, h => by
    simp only [Sieve.copy] at h
    rcases hp : s.copy o with e | q
    · rw [hp] at h; cases h
    · rw [hp, ok_bind] at h; cases h; exact Sieve.copy_distinct ho s q hp
  | .wrapInt s, t, h => by
    simp only [Sieve.copy] at h
    rcases hp : s.copy o with e | q
    · rw [hp] at h; cases h
    · rw [hp, ok_bind] at h; cases h; exact Sieve.copy_distinct ho s q hp

/-- A sieve as the constructors make it. -/
abbrev SafeSieve (R : Type) [Field R] [LinearOrder R] [FloorRing R] := { s : Sieve R // s.Distinct }

/-- `sieve.fit(X)` for a `SafeSieve`. -/
def safeSieveFit (g : Rng R) (s : SafeSieve R) (X : List (List R)) : Except Err (SafeSieve R) :=
  match h : s.1.fit g X with
  | .error e => .error e
  | .ok t => .ok ⟨t, Sieve.fit_distinct g s.1 t X h s.2⟩

/-- `sieve.copy()` for a `SafeSieve`. -/
def Lib.sieveCopy (L : Lib R) (s : SafeSieve R) : Except Err (SafeSieve R) :=
  match h : s.1.copy L.setOrder with
  | .error e => .error e
  | .ok t => .ok ⟨t, Sieve.copy_distinct L.setOrder_ok s.1 t h⟩

/-! ### The instance -/

/-- The seeds of the library.  `post` is the identity: numbers are exact, so `np.nan_to_num` has nothing to do
(property C83 treats it). -/
def builtin [NpMath R] (L : Lib R) : Sem R (SafePrep R) (BIss R) (List (IWord R)) (SafeSieve R) R where
  prepFit g p _ X := L.safeFit g p X
  prepTransform p C X := p.1.transformC L.T C X
  prepCopy p := ⟨p.1.copy, p.1.copy_keepsSeries p.2⟩
  prepLabel p := p.1.str L.T L.calls
  issRequires := BIss.requires
  issFit g i ws _ X := i.fit g ws X
  issGen i ws C X := i.gen L ws C X
  issCount := BIss.count
  issCopy := BIss.copy
  issLabel := BIss.label L
  sieveRequires s := s.1.requiresFitting
  sieveFit g s _ X := safeSieveFit g s X
  sieveTransform s C X := s.1.transformC L.T C X
  sieveN s := s.1.nfeatures
  sieveCopy := L.sieveCopy
  sieveLabel s i := s.1.label L.T (PPV.str L.T) i
  zero := 0
  post := id

end Fruits
