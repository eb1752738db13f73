import Verif.Fruit

/-! # The lists of seeds that a slice gives away

`get_preparateurs`, `get_iss` and `get_sieves` return the list objects of the slice themselves, not copies.  User code that holds such a list
can therefore change the slice; this is not one of the calls `Op`. -/

namespace Fruits

variable {R P I W S : Type}

/-- `FruitSlice.get_preparateurs`, `fruit.py:331-333`: the addresses of the preparateurs. -/
def getPreparateurs (w : World R P I W S) (s : ℕ) : List ℕ := (w.slice s).preps

/-- `FruitSlice.get_iss`, `fruit.py:347-349`: the addresses of the ISS objects. -/
def getIss (w : World R P I W S) (s : ℕ) : List ℕ := (w.slice s).iss

/-- `FruitSlice.get_sieves`, `fruit.py:364-366`: the addresses of the sieves. -/
def getSieves (w : World R P I W S) (s : ℕ) : List ℕ := (w.slice s).sieves

/-- User code makes the list that `get_preparateurs` returned equal to `l` (`fruit.py:333` returns the list of the slice). -/
def writePreparateurs (s : ℕ) (l : List ℕ) (w : World R P I W S) : World R P I W S := w.setSlice s { w.slice s with preps := l }

/-- User code makes the list that `get_sieves` returned equal to `l` (`fruit.py:366` returns the list of the slice). -/
def writeSieves (s : ℕ) (l : List ℕ) (w : World R P I W S) : World R P I W S := w.setSlice s { w.slice s with sieves := l }

end Fruits
