import Verif.Props.Fruit7

/-! # The sample used by `FruitSlice.fit` (property C84) -/

namespace Fruits
set_option linter.unusedSectionVars false

variable {R P I W S V : Type} [Field R] [LinearOrder R] [IsStrictOrderedRing R] [FloorRing R]

/-- The number of series `fit` is documented to use for `fit_sample_size = k` and `n` series: one for the integer 1 and
`max(1, floor(k * n))` for a fraction. -/
def sampleSize (k : IntOrFloat R) (n : ℕ) : ℕ :=
  match k with
  | .int _ => 1
  | .float f => max 1 ⌊f * (n : R)⌋₊

/-- The integer 1 or a fraction in `(0, 1]`. -/
def SampleOk : IntOrFloat R → Prop
  | .int k => k = 1
  | .float f => 0 < f ∧ f ≤ 1

/-- **C84.**  For every random draw, `_select_fit_sample` returns the series with the indices `idx`: pairwise distinct, in
range, and `sampleSize` many.  The indices do not depend on the values of the series. -/
theorem C84_sample {g : Rng R} (hg : g.Valid) {k : IntOrFloat R} (hk : SampleOk k) {n : ℕ} (hn : 1 ≤ n) :
    ∃ idx : List ℕ, idx.Nodup ∧ (∀ i ∈ idx, i < n) ∧ idx.length = sampleSize k n ∧
      ∀ X : Data R, X.length = n → selectSample g k X = .ok (idx.map fun i => X.getD i []) := by
  cases k with
  | int k =>
    have hk : k = 1 := hk
    subst hk
    obtain ⟨h1, h2⟩ := hg.randint_range 0 0 n (by omega)
    refine ⟨[(g.randint 0 0 n).toNat], by simp, by intro i hi; rw [List.mem_singleton] at hi; omega, rfl, ?_⟩
    rintro X rfl
    rw [selectSample, if_neg (by omega)]
    congr 1
    obtain ⟨j, hj⟩ := Int.eq_ofNat_of_zero_le h1
    rw [hj]
    have hjl : j < X.length := by omega
    have e1 : ((j : ℤ) + 1) = ((j + 1 : ℕ) : ℤ) := by push_cast; rfl
    rw [slc, e1, pyClip_of_le hjl, pyClip_of_le (le_of_lt hjl)]
    simp only [Int.toNat_natCast, List.map_cons, List.map_nil]
    rw [List.getD_eq_getElem?_getD, List.getElem?_eq_getElem hjl]
    have e2 : j + 1 - j = 1 := by omega
    first
      | rw [List.drop_eq_getElem_cons hjl, e2]; rfl
      | rw [List.take_succ_eq_append_getElem hjl, List.drop_left' (by simp [le_of_lt hjl])]; rfl
  | float f =>
    obtain ⟨hf0, hf1⟩ := hk
    have hnn : (0 : R) ≤ (n : R) := Nat.cast_nonneg n
    have hfn : 0 ≤ f * (n : R) := mul_nonneg hf0.le hnn
    have hle : ⌊f * (n : R)⌋ ≤ (n : ℤ) := by
      have : f * (n : R) ≤ (n : R) := by nlinarith
      have := Int.floor_le_floor this
      simpa using this
    have hpos : 0 ≤ ⌊f * (n : R)⌋ := Int.floor_nonneg.2 hfn
    have hs : (max (sampleCount (.float f) n) 1).toNat = sampleSize (.float f) n := by
      show (max (pyInt (f * (n : R))) 1).toNat = max 1 ⌊f * (n : R)⌋₊
      rw [pyInt_nonneg hfn, ← Int.floor_toNat]
      omega
    have hsn : sampleSize (.float f) n ≤ n := by
      show max 1 ⌊f * (n : R)⌋₊ ≤ n
      rw [← Int.floor_toNat]; omega
    refine ⟨g.choice 0 n (sampleSize (.float f) n), hg.choice_nodup _ _ _ hsn, hg.choice_lt _ _ _ hsn,
      hg.choice_length _ _ _ hsn, ?_⟩
    rintro X rfl
    show chooseSample g (max (sampleCount (.float f) X.length) 1).toNat X = _
    rw [hs, chooseSample, if_neg (by omega)]

/-- **C84**, what it means for `fit`: given the shared cache, `FruitSlice.fit` depends on no other series than the sampled ones. -/
theorem C84_fit_uses_sample {K : Sem R P I W S V} {ρ : ℕ → Rng R} (hρ : ∀ r, (ρ r).Valid) {w : World R P I W S} {s : ℕ}
    (hk : SampleOk (w.slice s).sample) {n : ℕ} (hn : 1 ≤ n) :
    ∃ idx : List ℕ, idx.Nodup ∧ (∀ i ∈ idx, i < n) ∧ idx.length = sampleSize (w.slice s).sample n ∧
      ∀ (C X X' : Data R), X.length = n → X'.length = n → (∀ i ∈ idx, X.getD i [] = X'.getD i []) →
        sliceFit K ρ s C X w = sliceFit K ρ s C X' w := by
  obtain ⟨idx, h1, h2, h3, h4⟩ := C84_sample (hρ w.rnd) hk hn
  refine ⟨idx, h1, h2, h3, fun C X X' hX hX' hag => ?_⟩
  have he : (idx.map fun i => X.getD i []) = idx.map fun i => X'.getD i [] := List.map_congr_left hag
  rw [sliceFit, sliceFit, h4 X hX, h4 X' hX', he]

/-- An integer other than one as `fit_sample_size`, e.g. 2 ("two series"?), is multiplied by the number of series as well:
fitting raises. -/
theorem C84_other_integers (g : Rng R) {k : ℤ} (hk : 2 ≤ k) {X : Data R} (hX : X ≠ []) :
    selectSample g (.int k) X = .error .valueError := by
  have hl : 0 < X.length := List.length_pos_of_ne_nil hX
  have h2 : selectSample g (.int k) X = chooseSample g (max (sampleCount (.int k : IntOrFloat R) X.length) 1).toNat X := by
    unfold selectSample
    split
    · rename_i h; cases h; omega
    · rfl
  rw [h2, chooseSample, if_pos]
  show X.length < (max (k * (X.length : ℤ)) 1).toNat
  have : 2 * (X.length : ℤ) ≤ k * (X.length : ℤ) := by nlinarith
  omega

/-- Half of five series: two. -/
example : SampleOk (.float (1/2) : IntOrFloat ℚ) ∧ sampleSize (.float (1/2) : IntOrFloat ℚ) 5 = 2 ∧
    (selectSample lowRng (.float (1/2)) ([[[1]], [[2]], [[3]], [[4]], [[5]]] : Data ℚ)).toOption = some [[[1]], [[2]]] := by
  refine ⟨by constructor <;> norm_num, ?_, by decide +kernel⟩
  show max 1 ⌊(1/2 : ℚ) * ((5 : ℕ) : ℚ)⌋₊ = 2
  have : ⌊(1/2 : ℚ) * ((5 : ℕ) : ℚ)⌋₊ = 2 := by
    rw [Nat.floor_eq_iff (by norm_num)]; norm_num
  rw [this]; rfl

end Fruits
