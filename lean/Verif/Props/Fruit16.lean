import Verif.FitTransform
import Verif.Props.Fruit12
import Verif.Props.Total6
import Verif.Props.Demo3

/-! # C115: `fit_transform` -/

namespace Fruits
set_option linter.unusedSectionVars false

section general
variable {R P I W S V : Type} [Field R] [LinearOrder R] [FloorRing R]

/-- **C115.** The array (and the calls of the callbacks) of `fit_transform` is what `transform` returns for the same data
afterwards, as often as it is called. -/
theorem C115_same_as_transform {K : Sem R P I W S V} {ρ : ℕ → Rng R} {n f : ℕ} {X : Data R} {w w' : World R P I W S}
    {A : List (List V)} {tr : Trace R V} (h : fruitFitTransform K ρ n f X w = ((.ok A, tr), w')) :
    fruitFit K ρ f X X w = (.ok (), w') ∧ fruitTransform K w' n f X X = (.ok A, tr) := by
  unfold fruitFitTransform at h
  rcases hf : fruitFit K ρ f X X w with ⟨_ | ⟨⟩, u⟩
  · rw [hf] at h; cases h
  · rw [hf] at h
    simp only [Prod.mk.injEq] at h
    obtain ⟨h1, rfl⟩ := h
    exact ⟨rfl, h1⟩

/-- **C115.** `fit_transform` does not depend on what the fruit was fitted to before: take the world after any history and
let anything happen to the fruit, its slices and their seeds, as long as the fruit has the same slices and seeds again and no
settings or words of its ISS objects were edited. With the same random numbers `fit_transform` then returns the same array. -/
theorem C115_forgets {K : Sem R P I W S V} (hC : K.CountsRight) (hN : K.KeepsN) (hR : K.Refits) {ρ : ℕ → Rng R}
    {w₀ w w₁ : World R P I W S} {ops later : List (Op R P I W S)} (h0 : w₀.Empty) (before : Hist K ρ w₀ ops w)
    (after : Hist K ρ w later w₁) {f : ℕ} (hf : f < w.nFruit) (hsl : (w₁.fruit f).slices = (w.fruit f).slices)
    (hconf : ∀ s ∈ (w.fruit f).slices, (w.slice s).SameConf (w₁.slice s))
    (hedit : ∀ o ∈ later, ∀ s ∈ (w.fruit f).slices, ¬ o.Edits w (w.slice s).iss) {ρ₁ ρ₂ : ℕ → Rng R}
    (hdraw : ∀ k, ρ₂ (w₁.rnd + k) = ρ₁ (w.rnd + k)) (n : ℕ) (X : Data R) (A : List (List V)) (tr : Trace R V) :
    (fruitFitTransform K ρ₂ n f X w₁).1 = (.ok A, tr) ↔ (fruitFitTransform K ρ₁ n f X w).1 = (.ok A, tr) := by
  obtain ⟨h1, h2⟩ := C77_refit hC hN hR h0 before after hf hsl hconf hedit hdraw X X
  unfold fruitFitTransform
  rcases e1 : fruitFit K ρ₁ f X X w with ⟨e | ⟨⟩, u⟩ <;> rcases e2 : fruitFit K ρ₂ f X X w₁ with ⟨e' | ⟨⟩, u'⟩
  · simp
  · rw [e1, e2] at h1; cases h1
  · rw [e1, e2] at h1; cases h1
  · rw [e1, e2] at h2
    exact h2 rfl n X X A tr

end general

variable {R : Type} [Field R] [LinearOrder R] [IsStrictOrderedRing R] [FloorRing R] [NpMath R]

/-- **C115.** `fit_transform` never raises on well-shaped data, with documented settings, whether or not the fruit was
fitted before, and returns one row per series and `nfeatures()` columns. -/
theorem C115_total (L : Lib R) (hT : L.T.Lawful) {ρ : ℕ → Rng R} (hρ : ∀ k, (ρ k).Valid)
    {w₀ w : World R (SafePrep R) (BIss R) (List (IWord R)) (SafeSieve R)} {ops : List (Op R (SafePrep R) (BIss R) (List (IWord R)) (SafeSieve R))}
    (hist : Hist (builtin L) ρ w₀ ops w) (h0 : w₀.Empty) {f : ℕ} (hf : f < w.nFruit) {d N : ℕ} (hd : 0 < d) {changes : Bool} {τ υ : ℕ → ℕ × ℕ}
    (hs : ∀ s ∈ (w.fruit f).slices, SliceFor changes N τ υ w d s)
    {X : Data R} {m n : ℕ} (hX : HasShape X m d n) (hm : 0 < m) (hn : 0 < n) (hN : N ≤ n) (c : ℕ) :
    ∃ k : ℕ, fruitN (builtin L) w f = .ok (k : ℤ) ∧ ∃ A, (fruitFitTransform (builtin L) ρ c f X w).1.1 = .ok A ∧ HasShape2 A m k := by
  obtain ⟨w', h1, h2⟩ := C109_columns L hT hρ hist h0 hf hd hs hX hm hn hN
  obtain ⟨k, hk, A, hA, hsh⟩ := h2 c X m n hX hm hn hN
  refine ⟨k, hk, A, ?_, hsh⟩
  unfold fruitFitTransform
  rw [h1]
  exact hA

/-- **C115** for `FruitSlice.fit_transform`. -/
theorem C115_slice (L : Lib R) (hT : L.T.Lawful) {ρ : ℕ → Rng R} (hρ : ∀ k, (ρ k).Valid)
    {w₀ w : World R (SafePrep R) (BIss R) (List (IWord R)) (SafeSieve R)} {ops : List (Op R (SafePrep R) (BIss R) (List (IWord R)) (SafeSieve R))}
    (hist : Hist (builtin L) ρ w₀ ops w) (h0 : w₀.Empty) {s : ℕ} (hs : s < w.nSlice) {d N : ℕ} (hd : 0 < d) {changes : Bool} {τ υ : ℕ → ℕ × ℕ}
    (hfor : SliceFor changes N τ υ w d s) {X : Data R} {m n : ℕ} (hX : HasShape X m d n) (hm : 0 < m) (hn : 0 < n) (hN : N ≤ n) :
    ∃ k : ℕ, sliceN (builtin L) w s = .ok (k : ℤ) ∧ (∃ A, (sliceFitTransform (builtin L) ρ s X w).1 = .ok A ∧ HasShape2 A m k) ∧
      (sliceFit (builtin L) ρ s X X w = (.ok (), (sliceFitTransform (builtin L) ρ s X w).2)) ∧
      ∀ (j : ℕ) {Y : Data R} {m' n' : ℕ}, HasShape Y m' d n' → 0 < m' → 0 < n' → N ≤ n' →
        ∃ A, (sliceTransform (builtin L) (sliceFitTransform (builtin L) ρ s X w).2 j s Y Y).1 = .ok A ∧ HasShape2 A m' k := by
  obtain ⟨w', h1, h2⟩ := C109_slice L hT hρ hist h0 hs hd hfor hX hm hn hN
  obtain ⟨k, hk, A, hA, hsh⟩ := h2 0 X m n hX hm hn hN
  have hr : sliceFitTransform (builtin L) ρ s X w = ((sliceTransform (builtin L) w' 0 s X X).1, w') := by
    unfold sliceFitTransform
    rw [h1]
  rw [hr]
  refine ⟨k, hk, ⟨A, hA, hsh⟩, h1, fun j Y m' n' hY hm' hn' hN' => ?_⟩
  obtain ⟨k', hk', B, hB, hsh'⟩ := h2 j Y m' n' hY hm' hn' hN'
  rw [hk] at hk'
  obtain rfl : k = k' := by injection hk' with h; exact_mod_cast h
  exact ⟨B, hB, hsh'⟩

/-- Non-vacuity: the fruit of `Demo3`, before and after it was fitted to other data (the hypotheses of `C115_forgets` are
those of `C77_refit`, shown there). -/
example : ((fruitFitTransform Demo.K Demo.rng 0 0 Demo.X Demo.wLater).1.1.toOption
      = (fruitFitTransform Demo.K Demo.rng 0 0 Demo.X Demo.wBuilt).1.1.toOption) ∧
    (fruitFitTransform Demo.K Demo.rng 0 0 Demo.X Demo.wBuilt).1.1.toOption.isSome ∧
    (sliceFitTransform Demo.K Demo.rng 0 Demo.X Demo.wBuilt).1.toOption.isSome := by decide +kernel

end Fruits
