import Verif.Props.Demo

/-! # C87: `Fruit.get_slice(index)` -/

namespace Fruits
set_option linter.unusedSectionVars false
variable {R P I W S V : Type} [Field R] [LinearOrder R] [FloorRing R]

/-- **C87** (indexing): `fruit[i]` is the slice number `i` for `0 ≤ i < len(fruit)`, the `k`-th from behind for `i = -k`, `1 ≤ k ≤ len(fruit)`, and
any other index raises `IndexError`. -/
theorem C87_get_slice (w : World R P I W S) (f : ℕ) :
    (∀ (k : ℕ) (h : k < (w.fruit f).slices.length), getSlice w f (k : ℤ) = .ok (w.fruit f).slices[k]) ∧
    (∀ (k : ℕ) (_ : 1 ≤ k) (h : k ≤ (w.fruit f).slices.length),
      getSlice w f (-(k : ℤ)) = .ok ((w.fruit f).slices[(w.fruit f).slices.length - k]'(by omega))) ∧
    (∀ i : ℤ, i < -((w.fruit f).slices.length : ℤ) ∨ ((w.fruit f).slices.length : ℤ) ≤ i → getSlice w f i = .error .indexError) ∧
    currentSlice w f = getSlice w f ((w.fruit f).cur : ℤ) := by
  refine ⟨fun k h => ?_, fun k h1 h => ?_, fun i h => ?_, ?_⟩
  · unfold getSlice
    rw [if_pos (by omega), Int.toNat_natCast, List.getElem?_eq_getElem h]
  · unfold getSlice
    rw [if_neg (by omega), if_pos (by omega), neg_neg, Int.toNat_natCast, List.getElem?_eq_getElem (by omega)]
  · unfold getSlice
    rcases h with h | h
    · rw [if_neg (by omega), if_neg (by omega)]
    · rw [if_pos (by omega), List.getElem?_eq_none (by omega)]
  · unfold getSlice currentSlice
    rw [if_pos (by omega), Int.toNat_natCast]

namespace Demo
/-- The fruit of `Demo` has two slices. -/
example : getSlice w 0 1 = .ok 1 ∧ getSlice w 0 (-1) = .ok 1 ∧ getSlice w 0 (-2) = .ok 0 ∧ getSlice w 0 (-3) = .error .indexError ∧
    getSlice w 0 2 = .error .indexError := by decide +kernel
end Demo

end Fruits
