import Verif.CorbData
import Verif.Props.Prep6

/-! # C121, C122: `downsample` and `upsample` -/

set_option linter.unusedSectionVars false

namespace Fruits
variable {R : Type} [Field R] [LinearOrder R] [IsStrictOrderedRing R] [FloorRing R]

theorem range_filter_multiples {k : ℕ} (hk : 0 < k) (n : ℕ) :
    ((List.range n).filter fun i => i % k = 0) = tab ((n + k - 1) / k) fun i => i * k := by
  induction n with
  | zero =>
    have : (0 + k - 1) / k = 0 := Nat.div_eq_of_lt (by omega)
    rw [this]; rfl
  | succ n ih =>
    rw [List.range_succ, List.filter_append, ih]
    have hd := Nat.div_add_mod n k
    have hlt := Nat.mod_lt n hk
    by_cases h : n % k = 0
    · have e1 : (n + k - 1) / k = n / k := by
        apply Nat.div_eq_of_lt_le
        · rw [Nat.mul_comm]; omega
        · rw [Nat.mul_comm, Nat.mul_add]; omega
      have e2 : (n + 1 + k - 1) / k = n / k + 1 := by
        rw [show n + 1 + k - 1 = n + k by omega, Nat.add_div_right _ hk]
      rw [e1, e2, tab_succ]
      have : n / k * k = n := by rw [Nat.mul_comm]; omega
      simp [h, this]
    · have e1 : (n + k - 1) / k = n / k + 1 := by
        apply Nat.div_eq_of_lt_le
        · rw [Nat.mul_comm, Nat.mul_add]; omega
        · rw [Nat.mul_comm, Nat.mul_add, Nat.mul_add]; omega
      have e2 : (n + 1 + k - 1) / k = n / k + 1 := by
        rw [show n + 1 + k - 1 = n + k by omega, Nat.add_div_right _ hk]
      rw [e1, e2]
      simp [h]

theorem everyNth_tab {α : Type} {k : ℕ} (hk : 0 < k) (n : ℕ) (f : ℕ → α) :
    everyNth k (tab n f) = tab ((n + k - 1) / k) fun i => f (i * k) := by
  unfold everyNth
  rw [filter_zipIdx_tab n f fun i => i % k = 0, range_filter_multiples hk, map_tab]

theorem pyInt_inv {r : R} (h0 : 0 < r) : pyInt (1 / r) = ⌊1 / r⌋ := pyInt_nonneg (by positivity)

/-- **C121**, what the code does: for a resolution between 0 and 1, `downsample` keeps the values at the times `0, k, 2k, …`
with `k = ⌊1/resolution⌋`, in order, and no others. -/
theorem C121_kept_partial {r : R} (h0 : 0 < r) (h1 : r ≤ 1) {X : Data R} {m d n : ℕ} (hX : HasShape X m d n) :
    ∃ k : ℕ, 0 < k ∧ (k : R) * r ≤ 1 ∧ 1 < ((k : R) + 1) * r ∧
      ∃ Y, downsample r X = .ok Y ∧ HasShape Y m d ((n + k - 1) / k) ∧
        ∀ i < m, ∀ j < d, ∀ t < (n + k - 1) / k, t * k < n ∧ at3 Y i j t = at3 X i j (t * k) := by
  have hfl : 1 ≤ ⌊1 / r⌋ := by rw [Int.le_floor]; push_cast; rw [le_div_iff₀ h0]; linarith
  obtain ⟨k, hk⟩ := Int.eq_ofNat_of_zero_le (by omega : 0 ≤ ⌊1 / r⌋)
  have hkpos : 0 < k := by omega
  have hle : ((k : ℤ) : R) ≤ 1 / r := by rw [← hk]; exact Int.floor_le _
  have hlt : 1 / r < ((k : ℤ) : R) + 1 := by rw [← hk]; exact Int.lt_floor_add_one _
  rw [Int.cast_natCast] at hle hlt
  rw [le_div_iff₀ h0] at hle
  rw [div_lt_iff₀ h0] at hlt
  refine ⟨k, hkpos, hle, hlt, tab3 m d ((n + k - 1) / k) fun i j t => at3 X i j (t * k), ?_, hasShape_tab3 _, ?_⟩
  · unfold downsample
    rw [if_neg h0.ne']
    simp only [pyInt_inv h0, hk]
    rw [if_neg (by omega), if_pos (by omega)]
    refine congrArg Except.ok ?_
    rw [Int.toNat_natCast]
    conv_lhs => rw [hX.eq_tab3]
    unfold mapRows tab3 tab2
    simp only [map_tab, everyNth_tab hkpos]
  · intro i hi j hj t ht
    refine ⟨?_, at3_tab3 hi hj ht⟩
    have := Nat.le_div_iff_mul_le hkpos |>.1 (Nat.succ_le_of_lt ht)
    rw [Nat.succ_mul] at this
    omega

/-- For `resolution = 1/k` the number of values kept is the resolution times the length, rounded up. -/
theorem C121_proportion_partial (k : ℕ) (hk : 0 < k) {X : Data R} {m d n : ℕ} (hX : HasShape X m d n) :
    ∃ Y, downsample (1 / (k : R)) X = .ok Y ∧ HasShape Y m d ((n + k - 1) / k) := by
  have hkR : (0 : R) < k := by exact_mod_cast hk
  have h0 : (0 : R) < 1 / (k : R) := by positivity
  have h1 : 1 / (k : R) ≤ 1 := by rw [div_le_one hkR]; exact_mod_cast hk
  obtain ⟨k', a, b, c, Y, e, f, _⟩ := C121_kept_partial h0 h1 hX
  have : k' = k := by
    rw [mul_one_div, div_le_one hkR] at b
    rw [mul_one_div, lt_div_iff₀ hkR, one_mul] at c
    have b' : k' ≤ k := by exact_mod_cast b
    have c' : k < k' + 1 := by exact_mod_cast c
    omega
  subst this
  exact ⟨Y, e, f⟩

/-- **C121 fails**: the documentation says that the resolution is the proportion of the values removed. A quarter removes three
quarters, and three quarters remove nothing. -/
theorem C121_counterexample :
    downsample (1 / 4 : ℚ) [[[1, 2, 3, 4, 5, 6, 7, 8]]] = .ok [[[1, 5]]] ∧
    downsample (3 / 4 : ℚ) [[[1, 2, 3, 4, 5, 6, 7, 8]]] = .ok [[[1, 2, 3, 4, 5, 6, 7, 8]]] := by decide +kernel

example : downsample (1 / 2 : ℚ) [[[1, 2, 3, 4, 5]], [[0, 1, 0, 1, 0]]] = .ok [[[1, 3, 5]], [[0, 0, 0]]] := by decide +kernel
example : downsample (2 : ℚ) [[[1, 2, 3, 4, 5]]] = .error .valueError := by decide +kernel
example : HasShape ([[[1, 2, 3, 4, 5]], [[0, 1, 0, 1, 0]]] : Data ℚ) 2 1 5 := by simp [HasShape]

/-! ### upsample -/

theorem flatMap_range_tab {α : Type} (n m : ℕ) (g : ℕ → ℕ → α) :
    (List.range n).flatMap (fun t => tab m (g t)) = tab (n * m) fun k => g (k / m) (k % m) := by
  rcases Nat.eq_zero_or_pos m with rfl | hm
  · simp
  induction n with
  | zero => simp
  | succ n ih =>
    rw [List.range_succ, List.flatMap_append, ih, Nat.add_mul, Nat.one_mul, tab_add]
    congr 1
    simp only [List.flatMap_cons, List.flatMap_nil, List.append_nil]
    apply tab_congr
    intro i hi
    rw [Nat.mul_comm n m, Nat.mul_add_div hm, Nat.mul_add_mod, Nat.div_eq_of_lt hi, Nat.mod_eq_of_lt hi, Nat.add_zero]

theorem ravelF_eq (m d n : ℕ) (A : Data R) : ravelF m d n A = tab (n * (d * m)) fun k => at3 A (k % (d * m) % m) (k % (d * m) / m) (k / (d * m)) := by
  unfold ravelF
  have h : ∀ t, ((List.range d).flatMap fun j => (List.range m).map fun i => at3 A i j t) = tab (d * m) fun k => at3 A (k % m) (k / m) t := by
    intro t
    exact flatMap_range_tab d m fun j i => at3 A i j t
  simp only [h]
  exact flatMap_range_tab n (d * m) fun t k => at3 A (k % m) (k / m) t

theorem ravelF_getD {m d n : ℕ} (A : Data R) {i j t : ℕ} (hi : i < m) (hj : j < d) (ht : t < n) :
    (ravelF m d n A).getD (i + m * (j + d * t)) 0 = at3 A i j t := by
  have hb : i + m * j < d * m := by
    have : m * j + m ≤ m * d := by
      have := Nat.mul_le_mul_left m (Nat.succ_le_of_lt hj)
      rw [Nat.mul_succ] at this; exact this
    rw [Nat.mul_comm d m]; omega
  have e : i + m * (j + d * t) = d * m * t + (i + m * j) := by ring
  have hlt : d * m * t + (i + m * j) < n * (d * m) := by
    have : d * m * t + d * m ≤ d * m * n := by
      have := Nat.mul_le_mul_left (d * m) (Nat.succ_le_of_lt ht)
      rw [Nat.mul_succ] at this; exact this
    rw [Nat.mul_comm n]; omega
  rw [ravelF_eq, e, getD_tab hlt]
  have hdm : 0 < d * m := by omega
  rw [Nat.mul_add_mod, Nat.mod_eq_of_lt hb, Nat.mul_add_div hdm, Nat.div_eq_of_lt hb, Nat.add_mul_mod_self_left, Nat.mod_eq_of_lt hi,
    Nat.add_mul_div_left _ _ (by omega), Nat.div_eq_of_lt hi]
  simp

theorem midpoints_tab (n : ℕ) (f : ℕ → R) : midpoints (tab n f) = tab n fun t => (f ((t + 1) % n) + f t) / 2 := by
  unfold midpoints rollBack roll1 vadd
  rw [tab_length]
  rcases n with _ | n
  · rfl
  rw [drop_tab, take_tab, append_tab, show n + 1 - (n + 1 - 1) + min (n + 1 - 1) (n + 1) = n + 1 by omega, zipWith_tab, map_tab, drop_tab,
    take_tab, append_tab, show n + 1 - 1 + min 1 (n + 1) = n + 1 by omega]
  apply tab_congr
  intro i hi
  by_cases h : i < n + 1 - 1
  · have h1 : ¬ (1 + i < n + 1 - (n + 1 - 1)) := by omega
    rw [if_pos h, if_neg h1, Nat.mod_eq_of_lt (by omega : i + 1 < n + 1)]
    rw [show 1 + i - (n + 1 - (n + 1 - 1)) = i by omega, Nat.add_comm 1 i]
  · have h1 : i - (n + 1 - 1) < n + 1 - (n + 1 - 1) := by omega
    rw [if_neg h, if_pos h1, show i = n by omega, Nat.mod_self]
    simp

/-- Every entry of the result before the last time step is cut off. -/
theorem upsample_eq {X : Data R} {m d n : ℕ} (hX : HasShape X m d n) (hm : 0 < m) (hd : 0 < d) :
    upsample X = tab3 m d (2 * n - 1) fun i j t =>
      (ravelF (2 * m) d n (tab3 (2 * m) d n fun a b c => if a < m then at3 X a b c else (at3 X (a - m) b ((c + 1) % n) + at3 X (a - m) b c) / 2)).getD
        (i + m * (j + d * t)) 0 := by
  unfold upsample
  rw [hX.shape1_eq hm, hX.shape2_eq hm hd, hX.1]
  dsimp only
  have e : X ++ mapRows midpoints X = tab3 (2 * m) d n fun a b c =>
      if a < m then at3 X a b c else (at3 X (a - m) b ((c + 1) % n) + at3 X (a - m) b c) / 2 := by
    conv_lhs => rw [hX.eq_tab3]
    have e2 : mapRows midpoints (tab3 m d n (at3 X)) = tab3 m d n fun a b c => (at3 X a b ((c + 1) % n) + at3 X a b c) / 2 := by
      unfold mapRows tab3 tab2
      simp only [map_tab, midpoints_tab]
    rw [e2]
    unfold tab3
    rw [append_tab, ← two_mul]
    apply tab_congr
    intro a ha
    by_cases h : a < m <;> simp [h]
  rw [e]
  unfold mapRows unravelF tab3 tab2
  simp only [map_tab]
  apply tab_congr
  intro i hi
  apply tab_congr
  intro j hj
  have := slcTo_neg_tab (2 * n) 1 (by omega) fun t => (ravelF (2 * m) d n (tab3 (2 * m) d n fun a b c =>
      if a < m then at3 X a b c else (at3 X (a - m) b ((c + 1) % n) + at3 X (a - m) b c) / 2)).getD (i + m * (j + d * t)) 0
  exact this

/-- **C122** for series of one dimension: the result has the length `2 l - 1`, the old values stand at the even times and the mean of
two neighbours between them. -/
theorem C122_upsample_partial {X : Data R} {m n : ℕ} (hX : HasShape X m 1 n) (hm : 0 < m) :
    HasShape (upsample X) m 1 (2 * n - 1) ∧
      ∀ i < m, (∀ t < n, at3 (upsample X) i 0 (2 * t) = at3 X i 0 t) ∧
        ∀ t, t + 1 < n → at3 (upsample X) i 0 (2 * t + 1) = (at3 X i 0 t + at3 X i 0 (t + 1)) / 2 := by
  have e := upsample_eq hX hm (by omega)
  refine ⟨by rw [e]; exact hasShape_tab3 _, ?_⟩
  intro i hi
  refine ⟨fun t ht => ?_, fun t ht => ?_⟩
  · rw [e, at3_tab3 hi (by omega) (by omega), show i + m * (0 + 1 * (2 * t)) = i + 2 * m * (0 + 1 * t) by ring, ravelF_getD _ (by omega) (by omega) ht,
      at3_tab3 (by omega) (by omega) ht, if_pos hi]
  · rw [e, at3_tab3 hi (by omega) (by omega), show i + m * (0 + 1 * (2 * t + 1)) = (i + m) + 2 * m * (0 + 1 * t) by ring, ravelF_getD _ (by omega) (by omega) (by omega),
      at3_tab3 (by omega) (by omega) (by omega), if_neg (by omega), Nat.mod_eq_of_lt ht, show i + m - m = i by omega, add_comm]

/-- **C122 fails for all data with more than one dimension** whose second dimension does not start with a value the first one happens
to have: the first value of the second dimension of the result comes from the first dimension. -/
theorem C122_false_for_dimensions {X : Data R} {m d n : ℕ} (hX : HasShape X m d n) (hm : 0 < m) (hd : 2 ≤ d) (hn : 0 < n) :
    ∀ i < m, at3 (upsample X) i 1 0 = (at3 X i 0 (1 % n) + at3 X i 0 0) / 2 := by
  intro i hi
  rw [upsample_eq hX hm (by omega), at3_tab3 hi (by omega) (by omega), show i + m * (1 + d * 0) = (i + m) + 2 * m * (0 + d * 0) by ring,
    ravelF_getD _ (by omega) (by omega) hn, at3_tab3 (by omega) (by omega) hn, if_neg (by omega), show i + m - m = i by omega, Nat.zero_add]

/-- The two dimensions of a series are mixed up. -/
theorem C122_counterexample : upsample ([[[0, 2, 4], [10, 20, 30]]] : Data ℚ) = [[[0, 10, 2, 20, 4], [1, 15, 3, 25, 2]]] := by decide +kernel

example : upsample ([[[0, 2, 4]], [[1, 1, 7]]] : Data ℚ) = [[[0, 1, 2, 3, 4]], [[1, 1, 1, 4, 7]]] := by decide +kernel

end Fruits
