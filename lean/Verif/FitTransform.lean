import Verif.Fruit

/-! # `fit_transform` of `Fruit` and `FruitSlice` -/

namespace Fruits

variable {R P I W S V : Type} [Field R] [LinearOrder R] [FloorRing R]

/-- `Fruit.fit_transform`, `fruit.py:175-184`: both calls make their own cache of `X`; `n` callbacks. The result, the calls of
the callbacks and the objects afterwards. -/
def fruitFitTransform (K : Sem R P I W S V) (ρ : ℕ → Rng R) (n f : ℕ) (X : Data R) (w : World R P I W S) :
    (Except Err (List (List V)) × Trace R V) × World R P I W S :=
  match fruitFit K ρ f X X w with
  | (.error e, w') => ((.error e, []), w')
  | (.ok (), w') => (fruitTransform K w' n f X X, w')

/-- `FruitSlice.fit_transform`, `fruit.py:555-560` (without callbacks). -/
def sliceFitTransform (K : Sem R P I W S V) (ρ : ℕ → Rng R) (s : ℕ) (X : Data R) (w : World R P I W S) :
    Except Err (List (List V)) × World R P I W S :=
  match sliceFit K ρ s X X w with
  | (.error e, w') => (.error e, w')
  | (.ok (), w') => ((sliceTransform K w' 0 s X X).1, w')

end Fruits
