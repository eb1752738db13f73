import Verif.Prep
import Verif.Props.CacheProps
import Mathlib.Data.Rat.Floor
import Mathlib.Tactic.FieldSimp

/-! # C39–C42: increments, standardisation, normalisation -/

namespace Fruits
set_option linter.unusedSectionVars false

variable {R : Type} [Field R] [LinearOrder R] [IsStrictOrderedRing R] [FloorRing R]

theorem mapRowsM_tab3 {m d n n' : ℕ} {f : ℕ → ℕ → ℕ → R} {S : Type} {g : List R → Except Err (List S)}
    {h : ℕ → ℕ → ℕ → S} (hh : ∀ i < m, ∀ j < d, g (tab n (f i j)) = .ok (tab n' (h i j))) :
    mapRowsM g (tab3 m d n f) = .ok (tab3 m d n' h) := by
  unfold mapRowsM
  apply mapM_ok_tab
  intro i hi
  apply mapM_ok_tab
  intro j hj
  exact hh i hi j hj

/-! ### C39 -/

/-- One increment step of a series `x`: `x_t - x_{t-s}`; the first `s` values are 0, or kept if `keep`. -/
def incStep (keep : Bool) (s : ℕ) (x : ℕ → R) (t : ℕ) : R :=
  if t < s then (if keep then x t else 0) else x t - x (t - s)

theorem incStep_keep_first (s k t : ℕ) (x : ℕ → R) (ht : t < s) : (incStep true s)^[k] x t = x t := by
  induction k generalizing x with
  | zero => rfl
  | succ k ih =>
    rw [Function.iterate_succ_apply, ih]
    simp [incStep, ht]

theorem inc_loop (p : INC R) (n s : ℕ) (hs : 0 < s) (hev : p.shift.eval n = (s : ℤ))
    (hk : p.zeroPadding = false → p.shift = .int s) (x : ℕ → R) (k : ℕ) (j : ℕ) :
    p.loop n (tab n x) k (tab n ((incStep (!p.zeroPadding) s)^[j] x))
      = .ok (tab n ((incStep (!p.zeroPadding) s)^[j + k] x)) := by
  induction k generalizing j with
  | zero => rfl
  | succ k ih =>
    rw [INC.loop, hev, increments1_tab s n hs, ok_bind]
    cases hz : p.zeroPadding with
    | true =>
      have h1 := ih (j + 1)
      rw [hz] at h1
      simp only [if_true, pure, Except.pure, ok_bind, Bool.not_true] at h1 ⊢
      rw [show j + (k + 1) = j + 1 + k by omega, ← h1]
      congr 1
      apply tab_congr
      intro t _
      rw [Function.iterate_succ_apply']
      simp [incStep]
    | false =>
      have h1 := ih (j + 1)
      rw [hz] at h1
      simp only [Bool.not_false, Bool.false_eq_true, if_false] at h1 ⊢
      rw [hk hz, Shift.restore, tab_length, pyClip_nat, slcTo_tab,
        setSlc_tab _ _ _ _ _ _ (by omega) (by omega) (by omega), ok_bind]
      rw [show j + (k + 1) = j + 1 + k by omega, ← h1]
      congr 1
      apply tab_congr
      intro t ht
      rw [Function.iterate_succ_apply']
      unfold incStep
      by_cases hts : t < s
      · rw [if_pos (by omega), if_pos hts]
        have := incStep_keep_first s j t x hts
        simp only [if_true, Nat.sub_zero]
        rw [← this]; rfl
      · rw [if_neg (by omega), if_neg hts, if_neg hts]

/-- **C39.** `INC(s, depth, zero_padding)` with an integer shift `s ≥ 1` returns a dataset of the same shape whose rows are
the `depth`-fold iterate of `y_t = x_t - x_{t-s}` for `t ≥ s`, with `y_t = 0` (or `x_t` without zero padding) for `t < s`. -/
theorem C39_increments (T : FloatText R) [NpMath R] (X : Data R) {m d n : ℕ} (hX : HasShape X m d n) (s depth : ℕ)
    (hs : 1 ≤ s) (zp : Bool) :
    ∃ Y, (Prep.inc ⟨.int s, depth, zp⟩).transform T X = .ok Y ∧ HasShape Y m d n ∧
      ∀ i < m, ∀ j < d, ∀ t < n, at3 Y i j t = (incStep (!zp) s)^[depth] (at3 X i j) t := by
  refine ⟨tab3 m d n fun i j => (incStep (!zp) s)^[depth] (at3 X i j), ?_, hasShape_tab3 _, ?_⟩
  · change INC.transform _ X = _
    unfold INC.transform
    generalize hn' : shape2 X = n'
    conv_lhs => rw [hX.eq_tab3]
    rcases Nat.eq_zero_or_pos m with rfl | hm
    · rfl
    rcases Nat.eq_zero_or_pos d with rfl | hd
    · unfold mapRowsM; apply mapM_ok_tab; intro i _; rfl
    obtain rfl : n' = n := by rw [← hn', hX.shape2_eq hm hd]
    apply mapRowsM_tab3
    intro i _ j _
    have := inc_loop (⟨.int s, depth, zp⟩ : INC R) n' s hs rfl (fun _ => rfl) (at3 X i j) depth 0
    rw [Nat.zero_add] at this
    exact this
  · intro i hi j hj t ht
    exact at3_tab3 hi hj ht

/-- **C39.** A float shift `f` uses `⌈f·n⌉` and a callable its value at the length `n`, if that is at least one and zero
padding is on. -/
theorem C39_float_and_callable (T : FloatText R) [NpMath R] (X : Data R) {m d n : ℕ} (hX : HasShape X m d n) (hm : 0 < m)
    (hd : 0 < d) (sh : Shift R) (s depth : ℕ) (hs : 1 ≤ s)
    (hsh : (∃ f, sh = .float f ∧ ⌈f * (n : R)⌉ = s) ∨ (∃ f, sh = .call f ∧ f n = s)) :
    ∃ Y, (Prep.inc ⟨sh, depth, true⟩).transform T X = .ok Y ∧ HasShape Y m d n ∧
      ∀ i < m, ∀ j < d, ∀ t < n, at3 Y i j t = (incStep false s)^[depth] (at3 X i j) t := by
  refine ⟨tab3 m d n fun i j => (incStep false s)^[depth] (at3 X i j), ?_, hasShape_tab3 _, ?_⟩
  · change INC.transform _ X = _
    unfold INC.transform
    rw [hX.shape2_eq hm hd]
    conv_lhs => rw [hX.eq_tab3]
    apply mapRowsM_tab3
    intro i _ j _
    have := inc_loop (⟨sh, depth, true⟩ : INC R) n s hs (by
      rcases hsh with ⟨f, rfl, h⟩ | ⟨f, rfl, h⟩ <;> exact h) (fun h => by cases h) (at3 X i j) depth 0
    rw [Nat.zero_add] at this
    exact this
  · intro i hi j hj t ht
    exact at3_tab3 hi hj ht

theorem mapRowsM_error {m d n : ℕ} {f : ℕ → ℕ → ℕ → R} {S : Type} {g : List R → Except Err (List S)} {e : Err}
    (hm : 0 < m) (hd : 0 < d) (h : g (tab n (f 0 0)) = .error e) : mapRowsM g (tab3 m d n f) = .error e := by
  obtain ⟨m, rfl⟩ := Nat.exists_eq_succ_of_ne_zero hm.ne'
  obtain ⟨d, rfl⟩ := Nat.exists_eq_succ_of_ne_zero hd.ne'
  unfold mapRowsM tab3
  rw [tab_succ', List.mapM_cons]
  have : (tab2 (d + 1) n (f 0)).mapM g = .error e := by
    rw [tab2, tab_succ', List.mapM_cons, h]; rfl
  rw [this]; rfl

/-- **C39.** Without zero padding a float or callable shift raises `TypeError` (such a value is no slice bound). -/
theorem C39_float_needs_padding (T : FloatText R) [NpMath R] (X : Data R) {m d n : ℕ} (hX : HasShape X m d n) (hm : 0 < m)
    (hd : 0 < d) (sh : Shift R) (s depth : ℕ) (hs : 1 ≤ s) (hdep : 1 ≤ depth)
    (hsh : (∃ f, sh = .float f ∧ ⌈f * (n : R)⌉ = s) ∨ (∃ f, sh = .call f ∧ f n = s)) :
    (Prep.inc ⟨sh, depth, false⟩).transform T X = .error .typeError := by
  change INC.transform _ X = _
  unfold INC.transform
  rw [hX.shape2_eq hm hd]
  conv_lhs => rw [hX.eq_tab3]
  apply mapRowsM_error hm hd
  obtain ⟨k, rfl⟩ := Nat.exists_eq_succ_of_ne_zero (by omega : depth ≠ 0)
  have hev : sh.eval n = (s : ℤ) := by rcases hsh with ⟨f, rfl, h⟩ | ⟨f, rfl, h⟩ <;> exact h
  rw [INC.loop]
  simp only [hev, increments1_tab s n hs, ok_bind, Bool.false_eq_true, if_false]
  rcases hsh with ⟨f, rfl, h⟩ | ⟨f, rfl, h⟩ <;> rfl

/-- Non-vacuity: second order increments. -/
example : (INC.transform (⟨.int 1, 2, true⟩ : INC ℚ) [[[1, 4, 9, 16]]]).toOption = some [[[0, 3, 2, 2]]] := by
  decide +kernel

/-! ### C40 -/

theorem sum_incStep (keep : Bool) (x : ℕ → R) (t : ℕ) :
    ∑ s ∈ Finset.range (t + 1), incStep keep 1 x s = x t - (if keep then 0 else x 0) := by
  induction t with
  | zero => cases keep <;> simp [incStep]
  | succ t ih =>
    rw [Finset.sum_range_succ, ih]
    simp [incStep]

/-- **C40.** The cumulative sums (`np.cumsum` along time) of `INC()` give `x_t - x_0`, those of `INC(zero_padding=False)`
give the series back. -/
theorem C40_cumsum (T : FloatText R) [NpMath R] (X : Data R) {m d n : ℕ} (hX : HasShape X m d n) :
    ∃ Y Z, (Prep.inc ⟨.int 1, 1, true⟩).transform T X = .ok Y ∧ (Prep.inc ⟨.int 1, 1, false⟩).transform T X = .ok Z ∧
      mapRows cumsum Z = X ∧
      HasShape (mapRows cumsum Y) m d n ∧
      ∀ i < m, ∀ j < d, ∀ t < n, at3 (mapRows cumsum Y) i j t = at3 X i j t - at3 X i j 0 := by
  obtain ⟨Y, hY, hYs, hYv⟩ := C39_increments T X hX 1 1 le_rfl true
  obtain ⟨Z, hZ, hZs, hZv⟩ := C39_increments T X hX 1 1 le_rfl false
  have key : ∀ (W : Data R) (keep : Bool), HasShape W m d n →
      (∀ i < m, ∀ j < d, ∀ t < n, at3 W i j t = (incStep keep 1)^[1] (at3 X i j) t) →
      mapRows cumsum W = tab3 m d n fun i j t => at3 X i j t - (if keep then 0 else at3 X i j 0) := by
    intro W keep hW hv
    conv_lhs => rw [hW.eq_tab3]
    apply mapRows_eq_tab3
    intro i hi j hj
    rw [cumsum_tab]
    apply tab_congr
    intro t ht
    rw [← sum_incStep]
    apply Finset.sum_congr rfl
    intro s hs
    rw [hv i hi j hj s (by have := Finset.mem_range.1 hs; omega)]
    rfl
  refine ⟨Y, Z, by exact_mod_cast hY, by exact_mod_cast hZ, ?_, ?_, ?_⟩
  · rw [key Z true hZs hZv]
    conv_rhs => rw [hX.eq_tab3]
    exact tab3_congr fun i _ j _ t _ => by simp
  · rw [key Y false hYs hYv]; exact hasShape_tab3 _
  · intro i hi j hj t ht
    rw [key Y false hYs hYv, at3_tab3 hi hj ht]
    simp

/-- **C40.** Conversely the increments of cumulative sums give the series back (`INC(zero_padding=False)`). -/
theorem C40_inverse (T : FloatText R) [NpMath R] (X : Data R) {m d n : ℕ} (hX : HasShape X m d n) :
    (Prep.inc ⟨.int 1, 1, false⟩).transform T (mapRows cumsum X) = .ok X := by
  have hc : mapRows cumsum X = tab3 m d n fun i j t => ∑ s ∈ Finset.range (t + 1), at3 X i j s := by
    conv_lhs => rw [hX.eq_tab3]
    exact mapRows_eq_tab3 _ _ _ fun i _ j _ => cumsum_tab _ _
  rw [hc]
  obtain ⟨Y, hY, hYs, hYv⟩ := C39_increments T (tab3 m d n fun i j t => ∑ s ∈ Finset.range (t + 1), at3 X i j s)
    (hasShape_tab3 _) 1 1 le_rfl false
  rw [Nat.cast_one] at hY
  rw [hY]
  congr 1
  apply hYs.ext hX
  intro i hi j hj t ht
  rw [hYv i hi j hj t ht]
  simp only [Function.iterate_one, incStep, Bool.not_false, if_true]
  rw [at3_tab3 hi hj ht]
  split
  · next h =>
    obtain rfl : t = 0 := by omega
    simp
  · next h =>
    rw [at3_tab3 hi hj (by omega), show t - 1 + 1 = t by omega, Finset.sum_range_succ]
    simp

end Fruits
