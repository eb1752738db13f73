import Verif.Props.Fruit8

/-! # Features are finite (property C83)

The values that sieves return are numbers, NaN or infinities here (`Fl`); everything before the sieves is exact as in the
other files.  The seeds are arbitrary. -/

namespace Fruits
set_option linter.unusedSectionVars false

variable {R P I W S V : Type} [Field R] [LinearOrder R] [FloorRing R]

/-- A value of type `float64`. -/
inductive Fl (R : Type)
  | finite (x : R)
  | nan
  | posInf
  | negInf
  deriving DecidableEq

/-- `np.nan_to_num(x, nan=0.0)` for one value, `fruit.py:172`; `big` is the largest number of the type. -/
def Fl.nanToNum (big : R) : Fl R → Fl R
  | .finite x => .finite x
  | .nan => .finite 0
  | .posInf => .finite big
  | .negInf => .finite (-big)

/-- The value is neither NaN nor infinite. -/
def Fl.IsFinite (v : Fl R) : Prop := ∃ x, v = .finite x

/-- **C83.**  `Fruit.transform` returns finite values only, whatever the sieves return. -/
theorem C83_finite {K : Sem R P I W S (Fl R)} {big : R} (hpost : K.post = Fl.nanToNum big) {w : World R P I W S} {n f : ℕ}
    {C X : Data R} {A : List (List (Fl R))} {tr : Trace R (Fl R)} (h : fruitTransform K w n f C X = (.ok A, tr)) :
    ∀ r ∈ A, ∀ v ∈ r, v.IsFinite := by
  rw [fruitTransform] at h
  by_cases hf : (w.fruit f).fitted = true
  swap
  · rw [if_neg hf] at h; simp at h
  rw [if_pos hf] at h
  rcases hD : (fruitN K w f >>= zerosE K X.length) with e | D
  · rw [hD] at h; simp at h
  rw [hD] at h
  simp only at h
  rcases hl : slicesLoop K w n C X (w.fruit f).slices D 0 with ⟨e | B, tr'⟩
  · rw [hl] at h; simp at h
  rw [hl] at h
  simp only [Prod.mk.injEq, Except.ok.injEq] at h
  rw [← h.1, hpost]
  intro r hr v hv
  obtain ⟨b, _, rfl⟩ := List.mem_map.1 hr
  obtain ⟨x, _, rfl⟩ := List.mem_map.1 hv
  cases x with
  | finite y => exact ⟨y, rfl⟩
  | nan => exact ⟨0, rfl⟩
  | posInf => exact ⟨big, rfl⟩
  | negInf => exact ⟨-big, rfl⟩

/-- **C83**, second part: after any history the features are those that the slices return, with finite values unchanged, NaN
replaced by zero and infinities by the largest numbers. -/
theorem C83_unchanged {K : Sem R P I W S (Fl R)} {big : R} (hpost : K.post = Fl.nanToNum big) (hK : K.KeepsRows)
    (hC : K.CountsRight) (hN : K.KeepsN) {ρ : ℕ → Rng R}
    {w₀ w : World R P I W S} {ops : List (Op R P I W S)} (hist : Hist K ρ w₀ ops w) (h0 : w₀.Empty) {f : ℕ} (hf : f < w.nFruit)
    (hpos : ∀ s ∈ (w.fruit f).slices, ∀ a ∈ (w.slice s).sieves, 0 ≤ K.sieveN (w.sieve a))
    {n : ℕ} {C X : Data R} (hCX : C.length = X.length) {A : List (List (Fl R))} {tr : Trace R (Fl R)} (h : fruitTransform K w n f C X = (.ok A, tr)) :
    ∃ As : List (List (List (Fl R))), List.Forall₂ (fun s B => (sliceTransform K w n s C X).1 = .ok B) (w.fruit f).slices As ∧
      ∀ i < X.length, List.Forall₂ (fun (before after : Fl R) =>
        (∀ x, before = .finite x → after = before) ∧ (before = .nan → after = .finite 0) ∧
        (before = .posInf → after = .finite big) ∧ (before = .negInf → after = .finite (-big)))
        (As.flatMap fun B => B.getD i []) (A.getD i []) := by
  obtain ⟨As, h1, h2, _, _⟩ := C82_callbacks_partial hK hC hN hist h0 hf hpos hCX h
  refine ⟨As, h1, fun i hi => ?_⟩
  rw [h2 i hi, hpost, List.forall₂_map_right_iff]
  apply List.forall₂_same.2
  intro v _
  cases v with
  | finite x => exact ⟨fun _ _ => rfl, by simp, by simp, by simp⟩
  | nan => exact ⟨by simp, fun _ => rfl, by simp, by simp⟩
  | posInf => exact ⟨by simp, by simp, fun _ => rfl, by simp⟩
  | negInf => exact ⟨by simp, by simp, by simp, fun _ => rfl⟩

/-! ### An example -/

namespace FlDemo

/-- Seeds: an ISS that yields the first dimension, and a sieve that returns a list of values for every series. -/
def K : Sem ℚ Unit Unit Unit (List (Fl ℚ)) (Fl ℚ) where
  prepFit := fun _ p _ _ => .ok p
  prepTransform := fun _ _ X => .ok X
  prepCopy := id
  prepLabel := fun _ => []
  issRequires := fun _ => false
  issFit := fun _ i _ _ _ => .ok i
  issGen := fun _ _ _ X => ([X.map fun s => s.getD 0 []], none)
  issCount := fun _ _ => .ok 1
  issCopy := fun i _ => .ok i
  issLabel := fun _ _ _ => .ok []
  sieveRequires := fun _ => false
  sieveFit := fun _ s _ _ => .ok s
  sieveTransform := fun s _ X => .ok (X.map fun _ => s)
  sieveN := fun s => s.length
  sieveCopy := .ok
  sieveLabel := fun _ _ => .ok []
  zero := .finite 0
  post := Fl.nanToNum 1000

/-- Nothing has been created. -/
def w0 : World ℚ Unit Unit Unit (List (Fl ℚ)) where
  prep := fun _ => ()
  iss := fun _ => ((), 0)
  words := fun _ => ()
  sieve := fun _ => []
  slice := fun _ => {}
  fruit := fun _ => {}

/-- A fruit with one sieve. -/
def ops : List (Op ℚ Unit Unit Unit (List (Fl ℚ))) :=
  [.newWords (), .newIss () 0, .newSieve [.nan, .finite 7, .posInf, .negInf], .newFruit [], .fruitAdd 0 [.iss 0, .sieve 0],
    .fruitFit 0 none [[[1, 2]], [[3, 4]]]]

/-- The features of the example: the hypothesis of `C83_finite` is met, and all four cases occur. -/
example : (fruitTransform K ((ops.foldl (fun w o => (step K (fun _ => lowRng) o w).2) w0)) 0 0 [[[1, 2]], [[3, 4]]] [[[1, 2]], [[3, 4]]]).1.toOption =
    some [[.finite 0, .finite 7, .finite 1000, .finite (-1000)], [.finite 0, .finite 7, .finite 1000, .finite (-1000)]] := by
  decide +kernel

/-- The seeds of the example meet the hypotheses of `C83_unchanged`. -/
example : K.post = Fl.nanToNum 1000 ∧ K.KeepsRows ∧ K.CountsRight ∧ K.KeepsN := by
  refine ⟨rfl, ?_, ?_, ?_⟩
  · constructor
    · intro p C X Y _ h; cases h; rfl
    · intro i ws C X it hit
      simp only [K, List.mem_singleton] at hit
      rw [hit, List.length_map]
    · intro s C X A h; cases h; simp
  · intro i ws C X its h
    simp only [K, Prod.mk.injEq, and_true] at h
    rw [← h]; rfl
  · constructor
    · intro v c h; cases h; rfl
    · intro g v C X v' h; cases h; rfl
    · intro g v C X v' h; cases h; rfl

end FlDemo
end Fruits
