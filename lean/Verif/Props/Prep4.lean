import Verif.Props.Prep3

/-! # C43–C46, C49: moving average, lead-lag, time shift, quantile cut, dotting -/

namespace Fruits
set_option linter.unusedSectionVars false

variable {R : Type} [Field R] [LinearOrder R] [IsStrictOrderedRing R] [FloorRing R]

/-! ### C43 -/

theorem mav_aux (w n : ℕ) (hw : 0 < w) (x : ℕ → R) (c : ℕ) (hc : c ≤ n + 1 - w) :
    (List.range' w c).foldl (fun res (k : ℕ) => res.set (k - 1) ((slc (tab n x) ((k : ℤ) - w) k).sum / (w : R)))
      (tab n fun _ => 0)
      = tab n fun t => if w ≤ t + 1 ∧ t + 1 < w + c then (∑ k ∈ Finset.range w, x (t + 1 - w + k)) / w else 0 := by
  induction c with
  | zero =>
    simp only [List.range'_zero, List.foldl_nil]
    apply tab_congr
    intro t _
    rw [if_neg (by omega)]
  | succ c ih =>
    rw [List.range'_concat, List.foldl_append, ih (by omega)]
    simp only [List.foldl_cons, List.foldl_nil, one_mul, set_tab]
    have h1 : slc (tab n x) (((w + c : ℕ) : ℤ) - w) ((w + c : ℕ) : ℤ) = tab w fun t => x (c + t) := by
      have := slc_tab n c (w + c) x
      rw [show (((w + c : ℕ) : ℤ) - w) = (c : ℤ) by push_cast; ring, this]
      rw [show min (w + c) n - c = w by omega]
    rw [h1, sum_tab]
    apply tab_congr
    intro t ht
    by_cases h : t = w + c - 1
    · subst h
      rw [if_pos rfl, if_pos (by omega)]
      congr 1
      apply Finset.sum_congr rfl
      intro k _
      congr 1; omega
    · rw [if_neg h]
      by_cases h2 : w ≤ t + 1 ∧ t + 1 < w + c
      · rw [if_pos h2, if_pos (by omega)]
      · rw [if_neg h2, if_neg (by omega)]

theorem mav_row (w n : ℕ) (hw : 0 < w) (x : ℕ → R) :
    MAV.row w (tab n x) = tab n fun t => if w ≤ t + 1 then (∑ k ∈ Finset.range w, x (t + 1 - w + k)) / w else 0 := by
  unfold MAV.row
  rw [tab_length, zeros_eq, mav_aux w n hw x _ le_rfl]
  apply tab_congr
  intro t ht
  by_cases h : w ≤ t + 1
  · rw [if_pos h, if_pos (by omega)]
  · rw [if_neg h, if_neg (by omega)]

/-- **C43 (partial).** After fitting on a dataset with `n` time steps, `MAV(width)` with an integer `width = w ≥ 1`, or a
float in `(0, 1)` and `w = max(1, ⌊width·n⌋)`, returns at time `t ≥ w-1` the mean of the last `w` values and 0 before (for
any dataset `Y` it is then applied to). Missing: `MAV(-1)`, see `C43_minus_one`. -/
theorem C43_moving_average_partial (T : FloatText R) [NpMath R] (X Y : Data R) {m d n m' d' n' : ℕ} (hX : HasShape X m d n)
    (hm : 0 < m) (hd : 0 < d) (hY : HasShape Y m' d' n') (given : IntOrFloat R) (w : ℕ) (hw : 1 ≤ w)
    (hg : (given = .int w) ∨ (∃ f : R, given = .float f ∧ 0 < f ∧ f < 1 ∧ (w : ℤ) = max 1 ⌊f * (n : R)⌋)) :
    ∃ p Z, MAV.new given = .ok p ∧ (Prep.mav (p.fit X)).transform T Y = .ok Z ∧ HasShape Z m' d' n' ∧
      ∀ i < m', ∀ j < d', ∀ t < n', at3 Z i j t
        = if w ≤ t + 1 then (∑ k ∈ Finset.range w, at3 Y i j (t + 1 - w + k)) / w else 0 := by
  have hfit : (MAV.fit (⟨given, none⟩ : MAV R) X).w = some w := by
    rcases hg with rfl | ⟨f, rfl, h0, _, h1⟩
    · simp only [MAV.fit]
      rw [if_pos (by omega)]
      simp
    · simp only [MAV.fit, hX.shape2_eq hm hd]
      rw [pyInt_nonneg (mul_nonneg h0.le (Nat.cast_nonneg _))]
      congr 1
      split <;> omega
  refine ⟨⟨given, none⟩, _, ?_, ?_, hasShape_tab3 (fun i j t =>
      if w ≤ t + 1 then (∑ k ∈ Finset.range w, at3 Y i j (t + 1 - w + k)) / (w : R) else 0), fun i hi j hj t ht =>
        at3_tab3 hi hj ht⟩
  · rcases hg with rfl | ⟨f, rfl, h0, h1, _⟩
    · rfl
    · simp [MAV.new, h0, h1]
  · simp only [Prep.transform, Prep.transformC]
    rw [MAV.transform, hfit]
    show Except.ok _ = _
    congr 1
    conv_lhs => rw [hY.eq_tab3]
    exact mapRows_eq_tab3 _ _ _ fun i _ j _ => mav_row w n' hw (fun t => at3 Y i j t)

/-- C43 fails for `MAV(-1)`, and for every non-positive integer: `fit` sets no width, so `transform` always raises. -/
theorem C43_minus_one (T : FloatText R) [NpMath R] (k : ℤ) (hk : k ≤ 0) (X Y : Data R) :
    ∃ p, MAV.new (.int k : IntOrFloat R) = .ok p ∧ (Prep.mav (p.fit X)).transform T Y = .error .runtimeError := by
  refine ⟨⟨.int k, none⟩, rfl, ?_⟩
  simp only [Prep.transform, Prep.transformC]
  have : ¬ 0 < k := by omega
  simp [MAV.fit, MAV.transform, this]

/-- Non-vacuity. -/
example : (MAV.transform (MAV.fit ⟨.int 2, none⟩ [[[1, 3, 5]]]) ([[[1, 3, 5]]] : Data ℚ)).toOption = some [[[0, 2, 4]]] := by
  decide +kernel

/-! ### C44 -/

theorem setStride_tab {α : Type*} (N a k K : ℕ) (f g : ℕ → α) (hk : 0 < k) (hK : K = (N - a + (k - 1)) / k) :
    setStride (tab N f) a k (tab K g)
      = .ok (tab N fun t => if a ≤ t ∧ (t - a) % k = 0 then g ((t - a) / k) else f t) := by
  unfold setStride
  rw [tab_length, tab_length, if_pos hK]
  congr 1
  apply eq_tab
  · simp
  · intro t ht
    simp only [List.length_mapIdx, tab_length] at ht
    simp only [List.getElem_mapIdx, tab_getElem]
    by_cases h : a ≤ t ∧ (t - a) % k = 0
    · rw [if_pos h, if_pos h]
      apply getD_tab
      rw [hK]
      have h1 : (t - a) / k * k = t - a := Nat.div_mul_cancel (Nat.dvd_of_mod_eq_zero h.2)
      rw [Nat.lt_iff_add_one_le, Nat.le_div_iff_mul_le hk, Nat.add_mul, h1]
      omega
    · rw [if_neg h, if_neg h]

theorem lag_rows (n : ℕ) (hn : 0 < n) (x : ℕ → R) :
    LAG.rows (tab n x) = .ok [tab (2 * n - 1) fun t => x ((t + 1) / 2), tab (2 * n - 1) fun t => x (t / 2)] := by
  unfold LAG.rows
  simp only [tab_length]
  rw [if_neg (by omega), zeros_eq, setStride_tab _ _ _ _ _ _ (by omega) (by omega), ok_bind]
  have h1 : slcFrom (tab n x) 1 = tab (n - 1) fun t => x (1 + t) := by
    have := slcFrom_tab n 1 x
    rwa [Nat.cast_one] at this
  have h2 : slcTo (tab n x) (-1) = tab (n - 1) x := by
    have := slcTo_neg_tab n 1 Nat.one_pos x
    rwa [Nat.cast_one] at this
  rw [h1, h2, setStride_tab _ _ _ _ _ _ (by omega) (by omega), ok_bind, ok_bind,
    setStride_tab _ _ _ _ _ _ (by omega) (by omega), ok_bind]
  simp only [pure, Except.pure]
  congr 2
  · apply tab_congr
    intro t ht
    by_cases h : 1 ≤ t ∧ (t - 1) % 2 = 0
    · rw [if_pos h]; congr 1; omega
    · rw [if_neg h, if_pos (by omega)]; congr 1; omega
  · congr 1
    apply tab_congr
    intro t ht
    by_cases h : 1 ≤ t ∧ (t - 1) % 2 = 0
    · rw [if_pos h]; congr 1; omega
    · rw [if_neg h, if_pos (by omega)]; congr 1

theorem flatten_pairs {α : Type*} (d : ℕ) (f g : ℕ → α) :
    (tab d fun j => [f j, g j]).flatten = tab (2 * d) fun k => if k % 2 = 0 then f (k / 2) else g (k / 2) := by
  induction d with
  | zero => rfl
  | succ d ih =>
    rw [tab_succ, List.flatten_append, ih, show 2 * (d + 1) = 2 * d + 2 by ring, tab_add]
    congr 1
    simp only [tab_succ', tab_zero, List.flatten_cons, List.flatten_nil, List.append_nil, List.cons.injEq, and_true]
    constructor
    · rw [if_pos (by omega)]; congr 1; omega
    · rw [if_neg (by omega)]; congr 1; omega

/-- **C44.** `LAG()` on series of length `n ≥ 1` returns shape `(m, 2d, 2n-1)`: dimension `2j` is the lead
`x_{j, ⌈t/2⌉}`, dimension `2j+1` the lag `x_{j, ⌊t/2⌋}`. -/
theorem C44_lead_lag (T : FloatText R) [NpMath R] (X : Data R) {m d n : ℕ} (hX : HasShape X m d n) (hn : 1 ≤ n) :
    ∃ Y, Prep.lag.transform T X = .ok Y ∧ HasShape Y m (2 * d) (2 * n - 1) ∧
      ∀ i < m, ∀ j < d, ∀ t < 2 * n - 1,
        at3 Y i (2 * j) t = at3 X i j ((t + 1) / 2) ∧ at3 Y i (2 * j + 1) t = at3 X i j (t / 2) := by
  refine ⟨tab3 m (2 * d) (2 * n - 1) fun i k t => at3 X i (k / 2) (if k % 2 = 0 then (t + 1) / 2 else t / 2), ?_,
    hasShape_tab3 _, ?_⟩
  · change LAG.transform X = _
    unfold LAG.transform
    conv_lhs => rw [hX.eq_tab3]
    apply mapM_ok_tab
    intro i _
    have : (tab2 d n (at3 X i)).mapM LAG.rows = .ok (tab d fun j => [tab (2 * n - 1) fun t => at3 X i j ((t + 1) / 2),
        tab (2 * n - 1) fun t => at3 X i j (t / 2)]) := mapM_ok_tab fun j _ => lag_rows n hn _
    rw [this, ok_bind, flatten_pairs]
    simp only [pure, Except.pure]
    congr 1
    apply tab_congr
    intro k _
    by_cases h : k % 2 = 0 <;> simp [h]
  · intro i hi j hj t ht
    rw [at3_tab3 hi (by omega) ht, at3_tab3 hi (by omega) ht, if_pos (by omega), if_neg (by omega)]
    constructor <;> congr 1 <;> omega

/-- Non-vacuity. -/
example : (LAG.transform ([[[1, 2, 3]]] : Data ℚ)).toOption = some [[[1, 2, 2, 3, 3], [1, 1, 2, 2, 3]]] := by
  decide +kernel

/-! ### C45 -/

theorem cts_row (n s : ℕ) (hn : 0 < n) (hs : 0 < s) (x : ℕ → R) :
    CTS.row false (s : ℤ) (tab n x) = .ok (tab n fun t => x (min (t + s) (n - 1))) := by
  unfold CTS.row
  rw [if_neg (by simp), tab_length, pyClip_neg _ _ hs, slcFrom_tab,
    setSlc_tab _ _ _ _ _ _ (by omega) (by omega) (by omega), ok_bind, tab_length, pyClip_neg _ _ hs]
  have h1 : ∀ f : ℕ → R, slcFrom (tab n f) (-1) = [f (n - 1)] := by
    intro f
    unfold slcFrom
    have := pyClip_neg n 1 Nat.one_pos
    rw [Nat.cast_one] at this
    rw [tab_length, this, drop_tab, show n - (n - 1) = 1 by omega, tab_succ']
    simp
  rw [h1]
  unfold setSlc
  by_cases hs1 : n - (n - s) = 1
  · rw [if_pos (by simp [hs1])]
    congr 1
    have : min s n = 1 := by omega
    have h2 : [if 0 ≤ n - 1 ∧ n - 1 < n - s then x (s + (n - 1 - 0)) else x (n - 1)] = tab 1 fun _ => x (n - 1) := by
      rw [if_neg (by omega)]; rfl
    rw [h2, take_tab, drop_tab, append_tab, append_tab]
    rw [show min (n - s) n + 1 + (n - max (n - s) n) = n by omega]
    apply tab_congr
    intro t ht
    have e1 : min (n - s) n = n - s := by omega
    simp only [e1]
    by_cases h3 : t < n - s
    · rw [if_pos (by omega), if_pos h3, if_pos (by omega)]; congr 1; omega
    · rw [if_pos (by omega), if_neg h3]; congr 1; omega
  · rw [if_neg (by simp; omega)]
    simp only
    congr 1
    have := fillSlc_tab n (fun t => if 0 ≤ t ∧ t < n - s then x (s + (t - 0)) else x t) (n - s) n
      (if 0 ≤ n - 1 ∧ n - 1 < n - s then x (s + (n - 1 - 0)) else x (n - 1)) le_rfl (by omega)
    unfold fillSlc at this
    rw [this]
    apply tab_congr
    intro t ht
    by_cases h3 : t < n - s
    · rw [if_neg (by omega), if_pos (by omega)]; congr 1; omega
    · rw [if_pos (by omega), if_neg (by omega)]; congr 1; omega

/-- **C45.** `CTS(s)` on series of length `n ≥ 1`, with effective shift `k ≥ 1` (`k = ⌊s⌋` for `s ≥ 1`, in particular
`k = s` for an integer, and `k = max(1, ⌊s·n⌋)` for `0 < s < 1`), returns `y_t = x_{min(t+k, n-1)}`; this covers `k ≥ n`.
With `pseudo_shift` exactly the first `k` values become zero. -/
theorem C45_time_shift (T : FloatText R) [NpMath R] (X : Data R) {m d n : ℕ} (hX : HasShape X m d n) (hm : 0 < m)
    (hd : 0 < d) (hn : 1 ≤ n) (s : R) (k : ℕ) (hk : (1 ≤ s ∧ ⌊s⌋ = k) ∨ (0 < s ∧ s < 1 ∧ (k : ℤ) = max 1 ⌊s * (n : R)⌋)) :
    (∃ Y, (Prep.cts ⟨s, false⟩).transform T X = .ok Y ∧ HasShape Y m d n ∧
      ∀ i < m, ∀ j < d, ∀ t < n, at3 Y i j t = at3 X i j (min (t + k) (n - 1))) ∧
    (∃ Y, (Prep.cts ⟨s, true⟩).transform T X = .ok Y ∧ HasShape Y m d n ∧
      ∀ i < m, ∀ j < d, ∀ t < n, at3 Y i j t = if t < k then 0 else at3 X i j t) := by
  have hsh : ∀ b, CTS.shift (⟨s, b⟩ : CTS R) n = (k : ℤ) := by
    intro b
    unfold CTS.shift
    rcases hk with ⟨h1, h2⟩ | ⟨h1, h2, h3⟩
    · rw [if_neg (by simp only [not_and, not_lt]; exact fun _ => h1), pyInt_nonneg (zero_le_one.trans h1), h2]
    · rw [if_pos ⟨h1, h2⟩, pyInt_nonneg (mul_nonneg h1.le (Nat.cast_nonneg _)), h3]
  have hk1 : 0 < k := by
    rcases hk with ⟨h1, h2⟩ | ⟨_, _, h3⟩
    · have : (1 : ℤ) ≤ ⌊s⌋ := Int.le_floor.2 (by simpa using h1)
      omega
    · omega
  constructor
  · refine ⟨_, ?_, hasShape_tab3 (fun i j t => at3 X i j (min (t + k) (n - 1))), fun i hi j hj t ht => at3_tab3 hi hj ht⟩
    change CTS.transform _ X = _
    unfold CTS.transform
    rw [hX.shape2_eq hm hd, hsh]
    conv_lhs => rw [hX.eq_tab3]
    exact mapRowsM_tab3 fun i _ j _ => cts_row n k hn hk1 _
  · refine ⟨_, ?_, hasShape_tab3 (fun i j t => if t < k then 0 else at3 X i j t), fun i hi j hj t ht => at3_tab3 hi hj ht⟩
    change CTS.transform _ X = _
    unfold CTS.transform
    rw [hX.shape2_eq hm hd, hsh]
    conv_lhs => rw [hX.eq_tab3]
    apply mapRowsM_tab3
    intro i _ j _
    unfold CTS.row
    rw [if_pos rfl, tab_length, pyClip_nat, fillSlc_tab _ _ _ _ _ (by omega) (by omega)]
    congr 1
    apply tab_congr
    intro t ht
    by_cases h : t < k
    · rw [if_pos (by omega), if_pos h]
    · rw [if_neg (by omega), if_neg h]

/-- Non-vacuity, and the excluded case `s = 0`, which raises. -/
example : (CTS.transform ⟨2, false⟩ ([[[1, 2, 3, 4]]] : Data ℚ)).toOption = some [[[3, 4, 4, 4]]] ∧
    (CTS.transform ⟨0, false⟩ ([[[1, 2, 3, 4]]] : Data ℚ)).toOption = none := by decide +kernel

/-! ### C46 -/

/-- `c` is a `q`-quantile of the values `x`, the way `np.quantile` counts: with `k = ⌊q·(N-1)⌋` at least `k + 1` values are
at most `c` and at least `N - k - 1` values are at least `c`. -/
def IsQuantile (x : List R) (q c : R) : Prop :=
  let k := ⌊q * ((x.length : R) - 1)⌋.toNat
  k + 1 ≤ (x.filter fun v => decide (v ≤ c)).length ∧ x.length - k - 1 ≤ (x.filter fun v => decide (c ≤ v)).length

theorem count_le_sorted {a : List R} (h : a.Pairwise (· ≤ ·)) {k : ℕ} (hk : k < a.length) {c : R} (hc : a[k] ≤ c) :
    k + 1 ≤ (a.filter fun v => decide (v ≤ c)).length := by
  have h1 : (a.take (k + 1)).filter (fun v => decide (v ≤ c)) = a.take (k + 1) := by
    rw [List.filter_eq_self]
    intro v hv
    obtain ⟨i, hi, rfl⟩ := List.getElem_of_mem hv
    rw [List.length_take] at hi
    rw [List.getElem_take]
    rw [decide_eq_true_eq]
    rcases Nat.lt_or_ge i k with h2 | h2
    · exact ((List.pairwise_iff_getElem.1 h) i k _ hk h2).trans hc
    · have : i = k := by omega
      subst this; exact hc
  have h2 : ((a.take (k + 1)).filter fun v => decide (v ≤ c)).Sublist (a.filter fun v => decide (v ≤ c)) :=
    (List.take_sublist _ _).filter _
  have := h2.length_le
  rw [h1, List.length_take] at this
  omega

theorem count_ge_sorted {a : List R} (h : a.Pairwise (· ≤ ·)) {k : ℕ} {c : R} (hc : ∀ hk : k < a.length, c ≤ a[k]) :
    a.length - k ≤ (a.filter fun v => decide (c ≤ v)).length := by
  have h1 : (a.drop k).filter (fun v => decide (c ≤ v)) = a.drop k := by
    rw [List.filter_eq_self]
    intro v hv
    obtain ⟨i, hi, rfl⟩ := List.getElem_of_mem hv
    rw [List.length_drop] at hi
    rw [List.getElem_drop]
    rw [decide_eq_true_eq]
    rcases Nat.eq_zero_or_pos i with h2 | h2
    · subst h2; exact hc (by omega)
    · exact (hc (by omega)).trans ((List.pairwise_iff_getElem.1 h) k (k + i) (by omega) (by omega) (by omega))
  have h2 : ((a.drop k).filter fun v => decide (c ≤ v)).Sublist (a.filter fun v => decide (c ≤ v)) :=
    (List.drop_sublist _ _).filter _
  have := h2.length_le
  rw [h1, List.length_drop] at this
  omega

/-- `np.quantile` of a non-empty array is a quantile; outside of `[0, 1]` it raises. -/
theorem quantile_spec (x : List R) (hx : x ≠ []) (q : R) :
    (0 ≤ q ∧ q ≤ 1 → ∃ c, quantile x q = .ok c ∧ IsQuantile x q c) ∧
    (¬ (0 ≤ q ∧ q ≤ 1) → quantile x q = .error .valueError) := by
  refine ⟨fun hq => ?_, fun hq => by simp [quantile, hq]⟩
  set a := x.insertionSort (· ≤ ·) with ha
  have hperm : a.Perm x := List.perm_insertionSort _ _
  have hsort : a.Pairwise (· ≤ ·) := List.pairwise_insertionSort _ _
  have hlen : a.length = x.length := hperm.length_eq
  have hpos : 0 < x.length := List.length_pos_iff.2 hx
  have hN : (1 : R) ≤ (x.length : R) := by exact_mod_cast hpos
  set v : R := q * ((x.length : R) - 1) with hv
  have hv0 : 0 ≤ v := mul_nonneg hq.1 (by linarith)
  have hvN : v ≤ (x.length : R) - 1 := by
    have := mul_le_mul_of_nonneg_right hq.2 (by linarith : (0 : R) ≤ (x.length : R) - 1)
    rw [one_mul] at this; exact this
  have hfl0 : 0 ≤ ⌊v⌋ := Int.floor_nonneg.2 hv0
  have hlo : ⌊v⌋.toNat < x.length := by
    have h1 : (⌊v⌋ : R) ≤ v := Int.floor_le v
    have h2 : (⌊v⌋ : R) ≤ (x.length : R) - 1 := h1.trans hvN
    have h3 : ⌊v⌋ ≤ (x.length : ℤ) - 1 := by
      have : ((⌊v⌋ : ℤ) : R) ≤ (((x.length : ℤ) - 1 : ℤ) : R) := by push_cast; exact h2
      exact_mod_cast this
    omega
  set k := ⌊v⌋.toNat with hk
  have hka : k < a.length := by omega
  have hg0 : 0 ≤ v - (⌊v⌋ : R) := sub_nonneg.2 (Int.floor_le v)
  have hg1 : v - (⌊v⌋ : R) ≤ 1 := by have := Int.lt_floor_add_one v; linarith
  set w := a.getD (min (k + 1) (a.length - 1)) a[k] with hw
  have hwlt : min (k + 1) (a.length - 1) < a.length := by omega
  have hw' : w = a[min (k + 1) (a.length - 1)] := by
    rw [hw, List.getD_eq_getElem?_getD, List.getElem?_eq_getElem hwlt]; rfl
  have hle : a[k] ≤ w := by
    rw [hw']
    rcases Nat.lt_or_ge (k + 1) a.length with h | h
    · have e : min (k + 1) (a.length - 1) = k + 1 := by omega
      simp only [e]
      exact (List.pairwise_iff_getElem.1 hsort) k (k + 1) _ _ (by omega)
    · have e : min (k + 1) (a.length - 1) = k := by omega
      simp only [e]; exact le_rfl
  refine ⟨a[k] + (w - a[k]) * (v - (⌊v⌋ : R)), ?_, ?_, ?_⟩
  · unfold quantile
    rw [if_pos hq]
    simp only [← ha, hlen, ← hv, ← hk]
    rw [List.getElem?_eq_getElem hka]
    simp only [hw, hlen]
  · have h1 : a[k] ≤ a[k] + (w - a[k]) * (v - (⌊v⌋ : R)) := by
      have := mul_nonneg (sub_nonneg.2 hle) hg0
      linarith
    have := count_le_sorted hsort hka h1
    rw [(hperm.filter _).length_eq] at this
    exact this
  · have h1 : a[k] + (w - a[k]) * (v - (⌊v⌋ : R)) ≤ w := by
      have := mul_le_mul_of_nonneg_left hg1 (sub_nonneg.2 hle)
      linarith
    have := count_ge_sorted hsort (k := k + 1) (c := a[k] + (w - a[k]) * (v - (⌊v⌋ : R))) (by
      intro h
      refine h1.trans ?_
      rw [hw']
      have e : min (k + 1) (a.length - 1) = k + 1 := by omega
      simp only [e]; exact le_rfl)
    rw [(hperm.filter _).length_eq, hlen] at this
    omega

/-- **C46.** After `fit` on non-empty data, `QTC(q, lower, bound)` with `0 ≤ q ≤ 1` has a quantile `c` of the training data
such that on every dataset: without bound the result is `min(x, c)` (`max(x, c)` if lower); with a bound `b` exactly the
values beyond `c` become `b`. For other `q` the fit raises. -/
theorem C46_quantile_cut (T : FloatText R) [NpMath R] (X : Data R) (hX : entries X ≠ []) (q : R) (lower : Bool)
    (bound : Option R) :
    (0 ≤ q ∧ q ≤ 1 → ∃ p c, QTC.fit { q := q, lower := lower, bound := bound } X = .ok p ∧ IsQuantile (entries X) q c ∧
      ∀ (Y : Data R) (m d n : ℕ), HasShape Y m d n → ∃ Z, (Prep.qtc p).transform T Y = .ok Z ∧ HasShape Z m d n ∧
        ∀ i < m, ∀ j < d, ∀ t < n, at3 Z i j t = match lower, bound with
          | false, none => min (at3 Y i j t) c
          | true, none => max (at3 Y i j t) c
          | false, some b => if c < at3 Y i j t then b else at3 Y i j t
          | true, some b => if at3 Y i j t < c then b else at3 Y i j t) ∧
    (¬ (0 ≤ q ∧ q ≤ 1) → QTC.fit { q := q, lower := lower, bound := bound } X = .error .valueError) := by
  constructor
  · intro hq
    obtain ⟨c, h1, h2⟩ := (quantile_spec (entries X) hX q).1 hq
    refine ⟨{ q := q, lower := lower, bound := bound, quantile := some c }, c, ?_, h2, ?_⟩
    · simp [QTC.fit, h1, pure, Except.pure]
    · intro Y m d n hY
      cases lower with
      | true =>
        refine ⟨_, ?_, hasShape_tab3 (fun i j t => if at3 Y i j t < c then bound.getD c else at3 Y i j t), ?_⟩
        · simp only [Prep.transform, Prep.transformC]
          simp only [QTC.transform, if_true]
          congr 1
          conv_lhs => rw [hY.eq_tab3, mapEntries_tab3]
        · intro i hi j hj t ht
          rw [at3_tab3 hi hj ht]
          cases bound with
          | none =>
            simp only [Option.getD_none]
            split
            · next h => exact (max_eq_right h.le).symm
            · next h => exact (max_eq_left (not_lt.1 h)).symm
          | some b => rfl
      | false =>
        refine ⟨_, ?_, hasShape_tab3 (fun i j t => if at3 Y i j t > c then bound.getD c else at3 Y i j t), ?_⟩
        · simp only [Prep.transform, Prep.transformC]
          simp only [QTC.transform, Bool.false_eq_true, if_false]
          congr 1
          conv_lhs => rw [hY.eq_tab3, mapEntries_tab3]
        · intro i hi j hj t ht
          rw [at3_tab3 hi hj ht]
          cases bound with
          | none =>
            simp only [Option.getD_none]
            split
            · next h => exact (min_eq_right (le_of_lt h)).symm
            · next h => exact (min_eq_left (not_lt.1 h)).symm
          | some b => rfl
  · intro hq
    have := (quantile_spec (entries X) hX q).2 hq
    simp [QTC.fit, this]

/-- **C46.** Without a bound `QTC` is idempotent and monotone on all datasets (given the fitted quantile). -/
theorem C46_idempotent_monotone (T : FloatText R) [NpMath R] (q c : R) (lower : Bool) (Y Y' : Data R) {m d n : ℕ}
    (hY : HasShape Y m d n) (hY' : HasShape Y' m d n) (hle : ∀ i < m, ∀ j < d, ∀ t < n, at3 Y i j t ≤ at3 Y' i j t) :
    ∃ Z Z', (Prep.qtc ⟨q, lower, none, some c⟩).transform T Y = .ok Z ∧
      (Prep.qtc ⟨q, lower, none, some c⟩).transform T Y' = .ok Z' ∧
      (Prep.qtc ⟨q, lower, none, some c⟩).transform T Z = .ok Z ∧
      ∀ i < m, ∀ j < d, ∀ t < n, at3 Z i j t ≤ at3 Z' i j t := by
  have key : ∀ W : Data R, HasShape W m d n → (Prep.qtc ⟨q, lower, none, some c⟩).transform T W
      = .ok (tab3 m d n fun i j t => if lower then max (at3 W i j t) c else min (at3 W i j t) c) := by
    intro W hW
    simp only [Prep.transform, Prep.transformC]
    cases lower
    · simp only [QTC.transform, Bool.false_eq_true, if_false, Option.getD_none]
      congr 1
      conv_lhs => rw [hW.eq_tab3, mapEntries_tab3]
      apply tab3_congr
      intro i _ j _ t _
      split
      · next h => exact (min_eq_right (le_of_lt h)).symm
      · next h => exact (min_eq_left (not_lt.1 h)).symm
    · simp only [QTC.transform, if_true, Option.getD_none]
      congr 1
      conv_lhs => rw [hW.eq_tab3, mapEntries_tab3]
      apply tab3_congr
      intro i _ j _ t _
      split
      · next h => exact (max_eq_right h.le).symm
      · next h => exact (max_eq_left (not_lt.1 h)).symm
  refine ⟨_, _, key Y hY, key Y' hY', ?_, ?_⟩
  · rw [key _ (hasShape_tab3 _)]
    congr 1
    apply tab3_congr
    intro i hi j hj t ht
    rw [at3_tab3 hi hj ht]
    cases lower <;> simp
  · intro i hi j hj t ht
    rw [at3_tab3 hi hj ht, at3_tab3 hi hj ht]
    cases lower
    · simp only [Bool.false_eq_true, if_false]; exact min_le_min_right _ (hle i hi j hj t ht)
    · simp only [if_true]; exact max_le_max_right _ (hle i hi j hj t ht)

/-- Non-vacuity: the median of four values. -/
example : (do let p ← QTC.fit ({ q := 1/2 } : QTC ℚ) ([[[4, 1], [3, 2]]] : Data ℚ); p.transform [[[0, 9]]]).toOption
    = some [[[0, 5/2]]] := by decide +kernel

/-! ### C49 -/

theorem dot_row (n first L : ℕ) (hn : 0 < n) (hf : first ≤ L) (x : ℕ → R) :
    DOT.row (n : ℤ) (first : ℤ) (tab L x) = .ok (tab L fun t => if first ≤ t ∧ n ∣ t - first then x t else 0) := by
  unfold DOT.row
  rw [if_neg (by omega), tab_length, pyClip_nat, min_eq_left hf]
  show Except.ok _ = _
  congr 1
  apply eq_tab
  · simp
  · intro t ht
    simp only [List.getElem_mapIdx, tab_getElem, Int.toNat_natCast]
    simp only [Nat.dvd_iff_mod_eq_zero]

/-- The valid settings of `DOT`: an integer at least one, or a float in `(0, 1)`; for `first` also zero. -/
def validN : IntOrFloat R → Prop
  | .int k => 1 ≤ k
  | .float f => 0 < f ∧ f < 1

/-- The valid values of the argument `first`. -/
def validFirst : Option (IntOrFloat R) → Prop
  | none => True
  | some (.int k) => 0 ≤ k
  | some (.float f) => 0 < f ∧ f < 1

theorem floor_mul_lt {f : R} (h0 : 0 < f) (h1 : f < 1) {L : ℕ} (hL : 0 < L) : ⌊f * ((L : ℤ) : R)⌋ < L := by
  rw [Int.floor_lt]
  have : (0 : R) < ((L : ℤ) : R) := by exact_mod_cast hL
  calc f * ((L : ℤ) : R) < 1 * ((L : ℤ) : R) := mul_lt_mul_of_pos_right h1 this
    _ = _ := one_mul _

/-- **C49.** For valid settings, `fit` on series of length `L ≥ 1` finds `1 ≤ n ≤ L` and `first < L` (with `n` the given
integer capped at `L`, and `first` the given integer capped at `L - 1`, or `n - 1` if none was given), and `transform`
keeps `x_t` if and only if `t ≥ first` and `n` divides `t - first`; everything else becomes zero. -/
theorem C49_dotting (T : FloatText R) [NpMath R] (X : Data R) {m d L : ℕ} (hX : HasShape X m d L) (hm : 0 < m) (hd : 0 < d)
    (hL : 1 ≤ L) (given : IntOrFloat R) (firstGiven : Option (IntOrFloat R)) (hg : validN given) (hf : validFirst firstGiven) :
    ∃ p, ∃ n first : ℕ, DOT.new given firstGiven = .ok p ∧ 1 ≤ n ∧ n ≤ L ∧ first < L ∧
      (∀ k : ℤ, given = .int k → (n : ℤ) = min k L) ∧
      (∀ k : ℤ, firstGiven = some (.int k) → (first : ℤ) = min k (L - 1)) ∧
      (firstGiven = none → first = n - 1) ∧
      ∃ Y, (Prep.dot (p.fit X)).transform T X = .ok Y ∧ HasShape Y m d L ∧
        (∀ i < m, ∀ j < d, ∀ t < L, at3 Y i j t = if first ≤ t ∧ n ∣ t - first then at3 X i j t else 0) ∧
        (Prep.dot (p.fit X)).transform T Y = .ok Y := by
  have hsh := hX.shape2_eq hm hd
  -- the fitted n
  obtain ⟨n, hn1, hnL, hnk, hn⟩ : ∃ n : ℕ, 1 ≤ n ∧ n ≤ L ∧ (∀ k : ℤ, given = .int k → (n : ℤ) = min k L) ∧
      DOT.fitN (L : ℤ) given = (n : ℤ) := by
    cases given with
    | int k =>
      have hk : 1 ≤ k := hg
      refine ⟨(min k L).toNat, by omega, by omega, ?_, ?_⟩
      · intro k' h; cases h; omega
      · simp only [DOT.fitN]; split <;> omega
    | float f =>
      have h2 := floor_mul_lt hg.1 hg.2 hL
      have h3 : (0 : R) ≤ f * ((L : ℤ) : R) := mul_nonneg hg.1.le (by exact_mod_cast Nat.zero_le L)
      have h4 : 0 ≤ ⌊f * ((L : ℤ) : R)⌋ := Int.floor_nonneg.2 h3
      refine ⟨(max 1 ⌊f * ((L : ℤ) : R)⌋).toNat, by omega, by omega, ?_, ?_⟩
      · intro k' h; cases h
      · simp only [DOT.fitN, pyInt_nonneg h3]; split <;> omega
  obtain ⟨first, hfL, hfk, hfn, hfirst⟩ : ∃ first : ℕ, first < L ∧
      (∀ k : ℤ, firstGiven = some (.int k) → (first : ℤ) = min k (L - 1)) ∧ (firstGiven = none → first = n - 1) ∧
      DOT.fitFirst (L : ℤ) (n : ℤ) firstGiven = (first : ℤ) := by
    rcases firstGiven with _ | (k | f)
    · exact ⟨n - 1, by omega, by simp, by simp, by simp only [DOT.fitFirst]; omega⟩
    · have hk : 0 ≤ k := hf
      refine ⟨(min k (L - 1)).toNat, by omega, ?_, by simp, ?_⟩
      · intro k' h; cases h; omega
      · simp only [DOT.fitFirst]; split <;> omega
    · have h2 := floor_mul_lt hf.1 hf.2 hL
      have h3 : (0 : R) ≤ f * ((L : ℤ) : R) := mul_nonneg hf.1.le (by exact_mod_cast Nat.zero_le L)
      have h4 : 0 ≤ ⌊f * ((L : ℤ) : R)⌋ := Int.floor_nonneg.2 h3
      refine ⟨(min (max 1 ⌊f * ((L : ℤ) : R)⌋) (L - 1)).toNat, by omega, by intro k h; simp at h, by simp, ?_⟩
      simp only [DOT.fitFirst, pyInt_nonneg h3]
      split <;> split <;> omega
  have hfit : (DOT.fit (⟨given, firstGiven, none⟩ : DOT R) X).fitted = some ((n : ℤ), (first : ℤ)) := by
    unfold DOT.fit
    simp only [hsh, hn, hfirst]
  have htr : ∀ W : Data R, HasShape W m d L → (Prep.dot (DOT.fit (⟨given, firstGiven, none⟩ : DOT R) X)).transform T W
      = .ok (tab3 m d L fun i j t => if first ≤ t ∧ n ∣ t - first then at3 W i j t else 0) := by
    intro W hW
    simp only [Prep.transform, Prep.transformC]
    rw [DOT.transform, hfit]
    conv_lhs => rw [hW.eq_tab3]
    exact mapRowsM_tab3 fun i _ j _ => dot_row n first L hn1 hfL.le _
  refine ⟨⟨given, firstGiven, none⟩, n, first, ?_, hn1, hnL, hfL, hnk, hfk, hfn, _, htr X hX, hasShape_tab3 _, ?_, ?_⟩
  · unfold DOT.new
    rcases given with k | f <;> rcases firstGiven with _ | (k' | f')
    · simp
    · simp
    · simp [validFirst] at hf; simp [hf]
    · simp [validN] at hg; simp [hg]
    · simp [validN] at hg; simp [hg]
    · simp [validN] at hg; simp [validFirst] at hf; simp [hg, hf]
  · exact fun i hi j hj t ht => at3_tab3 hi hj ht
  · rw [htr _ (hasShape_tab3 _)]
    congr 1
    apply tab3_congr
    intro i hi j hj t ht
    rw [at3_tab3 hi hj ht]
    split
    · rfl
    · rfl

/-- Non-vacuity, and the excluded `DOT(0)`, which raises. -/
example : (DOT.transform (R := ℚ) (DOT.fit ⟨.int 2, none, none⟩ ([[[1, 2, 3, 4, 5]]] : Data ℚ)) [[[1, 2, 3, 4, 5]]]).toOption
      = some [[[0, 2, 0, 4, 0]]] ∧
    (DOT.transform (R := ℚ) (DOT.fit ⟨.int 0, none, none⟩ ([[[1, 2]]] : Data ℚ)) [[[1, 2]]]).toOption = none := by
  decide +kernel

end Fruits
