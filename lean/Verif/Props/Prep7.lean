import Verif.Props.Prep6

/-! # C52–C57: random increments, random projections, networks and rotary encodings -/

namespace Fruits
set_option linter.unusedSectionVars false

variable {R : Type} [Field R] [LinearOrder R] [IsStrictOrderedRing R] [FloorRing R]

theorem range'_eq_tab (s c : ℕ) : List.range' s c = tab c fun j => s + j := by
  unfold tab
  exact List.range'_eq_map_range

theorem sum_range' (s c : ℕ) (f : ℕ → R) : ((List.range' s c).map f).sum = ∑ j ∈ Finset.range c, f (s + j) := by
  rw [range'_eq_tab, map_tab, sum_tab]

/-! ### C52 -/

/-- `y_t = c_t - (k_w·x_{t-1} + … + k_1·x_{t-w})`: the window is taken from `x`, the current value from `c`. Values before
time 0 count as zero; without `adaptive_width` the first `w` outputs are zero. -/
def windowed (adaptive : Bool) (w : ℕ) (k x c : ℕ → R) (t : ℕ) : R :=
  if adaptive ∨ w ≤ t then c t - ∑ l ∈ Finset.range w, k l * (if t + l < w then 0 else x (t + l - w)) else 0

theorem rin_outDims (s : Series R) (kernel : List (List R)) (dims : List ℕ) (w n : ℕ) (cs : List ℕ) (start : ℕ) :
    RIN.outDims s kernel dims w n start cs = tab cs.length fun a => tab n fun t =>
      if t < w then 0 else ∑ j ∈ Finset.range (cs.getD a 0),
        ((∑ l ∈ Finset.range w, - at2 s (dims.getD (start + (cs.take a).sum + j) 0) (t - w + l)
          * at2 kernel (start + (cs.take a).sum + j) l) + at2 s (start + (cs.take a).sum + j) t) := by
  induction cs generalizing start with
  | nil => rfl
  | cons c cs ih =>
    rw [RIN.outDims, ih, List.length_cons, tab_succ']
    congr 1
    · apply tab_congr
      intro t _
      by_cases h : t < w
      · rw [if_pos h, if_pos h]
      · rw [if_neg h, if_neg h, sum_range']
        simp only [List.getD_cons_zero, List.take_zero, List.sum_nil, Nat.add_zero]
        apply Finset.sum_congr rfl
        intro j _
        congr 1
        rw [sum_range']
        apply Finset.sum_congr rfl
        intro l _
        congr 2
        omega
    · apply tab_congr
      intro a _
      apply tab_congr
      intro t _
      simp only [List.getD_cons_succ, List.take_succ_cons, List.sum_cons, ← Nat.add_assoc]

theorem sum_take_replicate (d a : ℕ) (h : a ≤ d) : ((List.replicate d 1).take a).sum = a := by
  simp [List.take_replicate, h]

theorem getD_replicate {α : Type*} (d a : ℕ) (v e : α) (h : a < d) : (List.replicate d v).getD a e = v := by
  rw [replicate_eq_tab]; exact getD_tab h

/-- The transform of a fitted `RIN` with as many output as input dimensions. -/
theorem rin_closed (p : RIN R) (st : RINState R) (hst : p.fitted = some st) (d w : ℕ) (hd : 0 < d)
    (hn : st.ndim = List.replicate d 1) (hk : st.kernel.length = d) (hw : ∀ r ∈ st.kernel, r.length = w)
    (hdl : ∀ j < d, st.dims.getD j 0 < d) (Y : Data R) {m n : ℕ} (hY : HasShape Y m d n) (hm : 0 < m) :
    p.transform Y = .ok (tab3 m d n fun i j t =>
      windowed p.adaptive w (fun l => at2 st.kernel j l) (at3 Y i (st.dims.getD j 0)) (at3 Y i j) t) := by
  have hw0 : (st.kernel.getD 0 []).length = w := by
    rw [List.getD_eq_getElem?_getD, List.getElem?_eq_getElem (by omega)]
    exact hw _ (List.getElem_mem _)
  unfold RIN.transform
  rw [hst]
  show Except.ok _ = _
  congr 1
  rw [hY.map, hY.shape2_eq hm hd]
  unfold tab3
  apply tab_congr
  intro i _
  unfold RIN.series
  simp only [hw0]
  by_cases had : p.adaptive = true
  · rw [if_pos had, had]
    have hpad : ((tab2 d n (at3 Y i)).map fun x => zeros w ++ x)
        = tab2 d (w + n) fun j t => if t < w then 0 else at3 Y i j (t - w) := by
      unfold tab2
      rw [map_tab]
      apply tab_congr
      intro j _
      rw [zeros_eq, append_tab]
    rw [hpad, rin_outDims, hn, List.length_replicate, map_tab]
    unfold tab2
    apply tab_congr
    intro j hj
    rw [drop_tab, Nat.add_sub_cancel]
    apply tab_congr
    intro t ht
    rw [if_neg (by omega), getD_replicate _ _ _ _ hj, sum_take_replicate _ _ hj.le]
    simp only [Finset.sum_range_one, Nat.zero_add, Nat.add_zero, windowed, true_or, if_true]
    have h1 := at2_tab2 (f := fun j t => if t < w then 0 else at3 Y i j (t - w)) hj (show w + t < w + n by omega)
    unfold tab2 at h1
    rw [h1, if_neg (by omega), Nat.add_sub_cancel_left, sub_eq_add_neg, add_comm, ← Finset.sum_neg_distrib]
    congr 1
    apply Finset.sum_congr rfl
    intro l hl
    have hl' := Finset.mem_range.1 hl
    have h2 := at2_tab2 (f := fun j t => if t < w then 0 else at3 Y i j (t - w)) (hdl j hj)
      (show t + l < w + n by omega)
    unfold tab2 at h2
    beta_reduce at h2
    rw [h2]
    ring
  · rw [if_neg had]
    have had' : p.adaptive = false := by simpa using had
    rw [rin_outDims, hn, List.length_replicate, had']
    unfold tab2
    apply tab_congr
    intro j hj
    apply tab_congr
    intro t ht
    simp only [windowed, Bool.false_eq_true, false_or]
    by_cases h : t < w
    · rw [if_pos h, if_neg (by omega)]
    · rw [if_neg h, if_pos (by omega), getD_replicate _ _ _ _ hj, sum_take_replicate _ _ hj.le]
      simp only [Finset.sum_range_one, Nat.zero_add, Nat.add_zero]
      have h1 := at2_tab2 (f := at3 Y i) hj ht
      unfold tab2 at h1
      rw [h1, sub_eq_add_neg, add_comm, ← Finset.sum_neg_distrib]
      congr 1
      apply Finset.sum_congr rfl
      intro l hl
      have hl' := Finset.mem_range.1 hl
      have h2 := at2_tab2 (f := at3 Y i) (hdl j hj) (show t - w + l < n by omega)
      unfold tab2 at h2
      rw [h2, if_neg (by omega), show t - w + l = t + l - w by omega]
      ring

theorem groupSizes_self (d : ℕ) (hd : 0 < d) : groupSizes d d = List.replicate d 1 := by
  unfold groupSizes
  rw [Nat.mod_self, Nat.div_self hd]
  simp

theorem drawSumOne_shape {g : Rng R} {d w fuel round : ℕ} {k : List (List R)}
    (h : RIN.drawSumOne g d w fuel round = some k) : ∃ round', RIN.sumOne ((List.range d).map fun i =>
      (List.range w).map fun j => g.uniform round' i j) = some k := by
  induction fuel generalizing round with
  | zero => cases h
  | succ fuel ih =>
    unfold RIN.drawSumOne at h
    rcases hs : RIN.sumOne ((List.range d).map fun i => (List.range w).map fun j => g.uniform round i j) with _ | k'
    · simp only [hs] at h; exact ih h
    · simp only [hs] at h
      cases h
      exact ⟨round, hs⟩

theorem sumOne_tab (d w : ℕ) (v : ℕ → ℕ → R) {k : List (List R)}
    (h : RIN.sumOne (tab d fun i => tab w fun j => v i j) = some k) :
    k = (tab d fun i => tab w fun j => v i j + (1 - |v i j|)
        * ((1 - ∑ l ∈ Finset.range w, v i l) / ∑ l ∈ Finset.range w, (1 - |v i l|))) ∧
      ∀ i < d, 1 / 100000 ≤ ∑ l ∈ Finset.range w, (1 - |v i l|) := by
  unfold RIN.sumOne at h
  simp only [map_tab, sum_tab, zipWith_tab, zip_tab] at h
  split at h
  · cases h
  · next hany =>
    injection h with h
    refine ⟨h.symm, fun i hi => ?_⟩
    by_contra hcon
    apply hany
    rw [List.any_eq_true]
    exact ⟨_, mem_tab.2 ⟨i, hi, rfl⟩, by rw [decide_eq_true_eq]; exact not_le.1 hcon⟩

/-- The result of a successful `RIN.fit` with as many output as input dimensions. -/
theorem rin_fit_shape (g : Rng R) (hg : g.Valid) (fuel : ℕ) (p p' : RIN R) (X : Data R) {m d n : ℕ} (hX : HasShape X m d n)
    (hm : 0 < m) (hd : 0 < d) (hout : p.outDim ≤ 0 ∨ p.outDim = d) (hconst : p.constKernel = none)
    (h : p.fit g fuel X = .ok (some p')) :
    p'.adaptive = p.adaptive ∧ ∃ (st : RINState R) (w : ℕ), w = (p.width.eval n).toNat ∧ 0 ≤ p.width.eval n ∧ p'.fitted = some st ∧ st.ndim = List.replicate d 1 ∧
      st.kernel.length = d ∧ (∀ r ∈ st.kernel, r.length = w) ∧ st.dims.Perm (List.range d) := by
  have hperm : (g.choice 0 d d).Perm (List.range d) := by
    apply (List.subperm_of_subset (hg.choice_nodup 0 d d le_rfl) ?_).perm_of_length_le
    · rw [List.length_range, hg.choice_length 0 d d le_rfl]
    · intro x hx
      exact List.mem_range.2 (hg.choice_lt 0 d d le_rfl x hx)
  have ho : (if 0 < p.outDim then p.outDim else (d : ℤ)) = d := by
    split
    · omega
    · rfl
  unfold RIN.fit at h
  simp only [hconst, hX.shape1_eq hm, hX.shape2_eq hm hd, ho, lt_irrefl, gt_iff_lt, if_false, Int.toNat_natCast,
    groupSizes_self d hd] at h
  split at h
  · cases h
  · split at h
    · injection h with h
      rw [Option.map_eq_some_iff] at h
      obtain ⟨k, hk, rfl⟩ := h
      obtain ⟨r, hr⟩ := drawSumOne_shape hk
      obtain ⟨h1, -⟩ := sumOne_tab d _ (fun i j => g.uniform r i j) hr
      refine ⟨rfl, _, (p.width.eval n).toNat, rfl, by omega, rfl, rfl, ?_, ?_, hperm⟩
      · rw [h1, tab_length]
      · intro r' hr'
        rw [h1, mem_tab] at hr'
        obtain ⟨i, _, rfl⟩ := hr'
        exact tab_length _ _
    · injection h with h
      injection h with h
      subst h
      refine ⟨rfl, _, (p.width.eval n).toNat, rfl, by omega, rfl, rfl, ?_, ?_, hperm⟩
      · simp [RIN.centered]
      · intro r' hr'
        simp only [RIN.centered, List.map_map, List.mem_map] at hr'
        obtain ⟨i, _, rfl⟩ := hr'
        simp only [Function.comp, List.length_map, List.length_range]

theorem perm_getD_lt {l : List ℕ} {d : ℕ} (h : l.Perm (List.range d)) (j : ℕ) (hj : j < d) : l.getD j 0 < d := by
  have hl : l.length = d := by rw [h.length_eq, List.length_range]
  rw [List.getD_eq_getElem?_getD, List.getElem?_eq_getElem (by omega)]
  exact List.mem_range.1 (h.subset (List.getElem_mem _))

/-- **C52 (partial).** After a fit with `out_dim = in_dim` there are a kernel for every dimension and a permutation `π` of
the dimensions such that output dimension `j` is `x_{j,t}` minus a weighted window of dimension `π j`. So the documented
formula holds whenever `π j = j`, in particular for one-dimensional series. Missing: `π j ≠ j`, see `C52_counterexample`. -/
theorem C52_window_partial (T : FloatText R) [NpMath R] (g : Rng R) (hg : g.Valid) (fuel : ℕ) (p p' : RIN R) (X : Data R)
    {m d n : ℕ} (hX : HasShape X m d n) (hm : 0 < m) (hd : 0 < d) (hout : p.outDim ≤ 0 ∨ p.outDim = d)
    (hconst : p.constKernel = none) (h : p.fit g fuel X = .ok (some p')) :
    ∃ (w : ℕ) (k : ℕ → ℕ → R) (π : ℕ → ℕ), (∀ a : ℤ, p.width = .int a → (w : ℤ) = min a (n - 1)) ∧ ((List.range d).map π).Perm (List.range d) ∧ (d = 1 → π 0 = 0) ∧
      ∀ (Y : Data R) (m' n' : ℕ), HasShape Y m' d n' → 0 < m' → ∃ Z, (Prep.rin p').transform T Y = .ok Z ∧
        HasShape Z m' d n' ∧ ∀ i < m', ∀ j < d, ∀ t < n',
          at3 Z i j t = windowed p.adaptive w (k j) (at3 Y i (π j)) (at3 Y i j) t := by
  obtain ⟨had, st, w, hw, hnn, h1, h2, h3, h4, h5⟩ := rin_fit_shape g hg fuel p p' X hX hm hd hout hconst h
  refine ⟨w, fun j l => at2 st.kernel j l, fun j => st.dims.getD j 0, ?_, ?_, ?_, ?_⟩
  · intro a ha
    rw [ha] at hw hnn
    simp only [Width.eval] at hw hnn
    omega
  · have hl : st.dims.length = d := by rw [h5.length_eq, List.length_range]
    have : (List.range d).map (fun j => st.dims.getD j 0) = st.dims := by
      conv_rhs => rw [tab_of_list st.dims 0, hl]
      rfl
    rw [this]; exact h5
  · intro hd1
    have := perm_getD_lt h5 0 (by omega)
    show st.dims.getD 0 0 = 0
    omega
  · intro Y m' n' hY hm'
    refine ⟨_, ?_, hasShape_tab3 (fun i j t =>
      windowed p.adaptive w (fun l => at2 st.kernel j l) (at3 Y i (st.dims.getD j 0)) (at3 Y i j) t),
      fun i hi j hj t ht => at3_tab3 hi hj ht⟩
    simp only [Prep.transform, Prep.transformC]
    rw [rin_closed p' st h1 d w hd h2 h3 h4 (perm_getD_lt h5) Y hY hm', had]

/-- **C52.** With a given kernel (`d` rows of length `w`) the documented formula holds in every dimension. -/
theorem C52_const_kernel (T : FloatText R) [NpMath R] (g : Rng R) (fuel : ℕ) (p : RIN R) (K : List (List R))
    (hK : p.constKernel = some K) (X : Data R) {m d n w : ℕ} (hX : HasShape X m d n) (hm : 0 < m) (hd : 0 < d)
    (hKd : K.length = d) (hKw : ∀ r ∈ K, r.length = w) :
    ∃ p', p.fit g fuel X = .ok (some p') ∧
      ∀ (Y : Data R) (m' n' : ℕ), HasShape Y m' d n' → 0 < m' → ∃ Z, (Prep.rin p').transform T Y = .ok Z ∧
        HasShape Z m' d n' ∧ ∀ i < m', ∀ j < d, ∀ t < n',
          at3 Z i j t = windowed p.adaptive w (at2 K j) (at3 Y i j) (at3 Y i j) t := by
  refine ⟨{ p with fitted := some ⟨K, List.replicate d 1, List.range d⟩ }, ?_, ?_⟩
  · unfold RIN.fit
    simp only [hK, hX.shape1_eq hm]
  · intro Y m' n' hY hm'
    refine ⟨_, ?_, hasShape_tab3 (fun i j t => windowed p.adaptive w (at2 K j) (at3 Y i j) (at3 Y i j) t),
      fun i hi j hj t ht => at3_tab3 hi hj ht⟩
    simp only [Prep.transform, Prep.transformC]
    have hr : ∀ j < d, (List.range d).getD j 0 = j := by
      intro j hj
      rw [List.getD_eq_getElem?_getD, List.getElem?_eq_getElem (by simpa using hj), List.getElem_range]; rfl
    rw [rin_closed { p with fitted := some ⟨K, List.replicate d 1, List.range d⟩ } _ rfl d w hd rfl hKd hKw
      (fun j hj => by rw [hr j hj]; exact hj) Y hY hm']
    congr 1
    apply tab3_congr
    intro i _ j hj t _
    simp only [hr j hj]

/-- A generator with the permutation `(1 0)` and the kernel `(2, 0)`. -/
def swapRng : Rng ℚ := ⟨fun _ lo _ => lo, fun _ n k => (List.range k).map fun i => n - 1 - i,
  fun _ _ j => if j = 0 then 2 else 0, fun _ _ _ => 0, fun _ _ => 0, id⟩

theorem swapRng_valid : swapRng.Valid where
  randint_range := fun _ _ _ h => ⟨le_rfl, h⟩
  choice_length := fun _ _ _ _ => by simp [swapRng]
  choice_nodup := fun _ n k h => by
    apply (List.nodup_range).map_on
    intro x hx y hy hxy
    rw [List.mem_range] at hx hy
    omega
  choice_lt := fun _ n k h x hx => by
    simp only [swapRng, List.mem_map, List.mem_range] at hx
    omega
  uniform_range := fun _ _ _ => by simp [swapRng]

/-- C52 fails: with two dimensions, an allowed draw and the data `((0, 0, 0), (1, 0, 0))` the first output dimension
depends on the second input dimension although the kernel is applied to "the" dimension: the first input dimension is
zero and the first output dimension is not. -/
theorem C52_counterexample :
    ((RIN.fit swapRng 1 ({ width := .int 2 } : RIN ℚ) [[[0, 0, 0], [1, 0, 0]]]).toOption.map
      fun r => r.map fun p => (p.transform [[[0, 0, 0], [1, 0, 0]]]).toOption)
      = some (some (some [[[0, 0, -1], [0, 0, 0]]])) := by
  decide +kernel

/-! ### C53 -/

/-- **C53 (partial).** With `force_sum_one`, for all draws: if the loop ends, every row of the kernel sums to one; and a
row stays inside `[-1, 1]` if the drawn row `v` satisfies `|1 - ∑ v| ≤ ∑ (1 - |v|)`. Without it every row has mean zero.
Missing: the interval for other draws, see `C53_counterexample`. -/
theorem C53_kernel_partial (g : Rng R) (hg : g.Valid) (fuel : ℕ) (p p' : RIN R) (X : Data R) (hconst : p.constKernel = none)
    (h : p.fit g fuel X = .ok (some p')) :
    ∃ st, p'.fitted = some st ∧
      (p.forceSumOne = true → (∀ r ∈ st.kernel, r.sum = 1) ∧
        ∃ round, ∀ i < st.kernel.length, ∀ w, w = (st.kernel.getD i []).length →
          |1 - ∑ l ∈ Finset.range w, g.uniform round i l| ≤ ∑ l ∈ Finset.range w, (1 - |g.uniform round i l|) →
          ∀ v ∈ st.kernel.getD i [], -1 ≤ v ∧ v ≤ 1) ∧
      (p.forceSumOne = false → ∀ r ∈ st.kernel, r ≠ [] → mean r = 0) := by
  unfold RIN.fit at h
  simp only [hconst] at h
  generalize (if 0 < p.outDim then p.outDim else (shape1 X : ℤ)) = od at h
  split at h
  · cases h
  split at h
  · cases h
  split at h
  · next hf =>
    injection h with h
    rw [Option.map_eq_some_iff] at h
    obtain ⟨k, hk, rfl⟩ := h
    obtain ⟨rd, hr⟩ := drawSumOne_shape hk
    obtain ⟨h1, h2⟩ := sumOne_tab _ _ (fun i j => g.uniform rd i j) hr
    refine ⟨_, rfl, ?_, by simp [hf]⟩
    intro _
    generalize shape1 X = d at *
    generalize (p.width.eval (shape2 X)).toNat = w at *
    simp only
    constructor
    · intro r hr'
      rw [h1, mem_tab] at hr'
      obtain ⟨i, hi, rfl⟩ := hr'
      rw [sum_tab, Finset.sum_add_distrib, ← Finset.sum_mul]
      have h3 := h2 i hi
      have h4 : (∑ l ∈ Finset.range w, (1 - |g.uniform rd i l|)) ≠ 0 := by
        have : (0 : R) < 1 / 100000 := by norm_num
        exact (this.trans_le h3).ne'
      rw [mul_div_cancel₀ _ h4]
      ring
    · refine ⟨rd, ?_⟩
      intro i hi w' hw' hle v hv
      rw [h1, tab_length] at hi
      rw [h1, getD_tab hi] at hw' hv
      rw [tab_length] at hw'
      subst hw'
      rw [mem_tab] at hv
      obtain ⟨j, hj, rfl⟩ := hv
      have h3 := h2 i hi
      have hpos : 0 < ∑ l ∈ Finset.range w', (1 - |g.uniform rd i l|) := by
        have : (0 : R) < 1 / 100000 := by norm_num
        exact this.trans_le h3
      set c := (1 - ∑ l ∈ Finset.range w', g.uniform rd i l) / ∑ l ∈ Finset.range w', (1 - |g.uniform rd i l|) with hc
      have hc1 : |c| ≤ 1 := by
        rw [hc, abs_div, abs_of_pos hpos, div_le_one hpos]
        exact hle
      have hu := hg.uniform_range rd i j
      have habs : |g.uniform rd i j| ≤ 1 := abs_le.2 ⟨hu.1, hu.2.le⟩
      obtain ⟨hc2, hc3⟩ := abs_le.1 hc1
      have hd0 : 0 ≤ 1 - |g.uniform rd i j| := by linarith
      have b1 : (1 - |g.uniform rd i j|) * c ≤ (1 - |g.uniform rd i j|) * 1 := mul_le_mul_of_nonneg_left hc3 hd0
      have b2 : (1 - |g.uniform rd i j|) * (-1) ≤ (1 - |g.uniform rd i j|) * c := mul_le_mul_of_nonneg_left hc2 hd0
      have b3 := le_abs_self (g.uniform rd i j)
      have b4 := neg_abs_le (g.uniform rd i j)
      constructor <;> linarith
  · next hf =>
    injection h with h
    injection h with h
    subst h
    refine ⟨_, rfl, fun h => absurd h hf, fun _ r hr hne => ?_⟩
    simp only [RIN.centered, List.mem_map] at hr
    obtain ⟨r', _, rfl⟩ := hr
    have hl : (0 : R) < (r'.length : R) := by
      rcases r' with _ | ⟨a, r'⟩
      · simp at hne
      · exact_mod_cast Nat.succ_pos _
    have h1 := sum_map_sub_mul r' (mean r') 1
    simp only [div_one] at h1
    unfold mean
    rw [List.length_map]
    unfold mean at h1
    rw [h1, mul_div_cancel₀ _ hl.ne', sub_self, zero_div]

/-- A generator whose uniform draws are `-0.9, 0.5`. -/
def edgeRng : Rng ℚ := ⟨fun _ lo _ => lo, fun _ _ k => List.range k, fun _ _ _ => 0,
  fun _ _ j => if j = 0 then -9/10 else 1/2, fun _ _ => 0, id⟩

theorem edgeRng_valid : edgeRng.Valid where
  randint_range := fun _ _ _ h => ⟨le_rfl, h⟩
  choice_length := fun _ _ _ _ => List.length_range
  choice_nodup := fun _ _ _ _ => List.nodup_range
  choice_lt := fun _ _ _ h x hx => by
    have := List.mem_range.1 hx
    omega
  uniform_range := fun _ _ j => by
    simp only [edgeRng]
    split <;> norm_num

/-- C53 fails: the draw `(-0.9, 0.5)` becomes `(-2/3, 5/3)`, which sums to one and leaves `[-1, 1]`. -/
theorem C53_counterexample :
    ((RIN.fit edgeRng 1 ({ width := .int 2, forceSumOne := true } : RIN ℚ) [[[0, 0, 0]]]).toOption.map
      fun r => r.map fun p => p.fitted.map fun st => st.kernel) = some (some (some [[-2/3, 5/3]])) := by
  decide +kernel

/-- C53: the default `RIN()` has width one, so its mean-zero kernel is zero and it only deletes the first value. -/
theorem C53_default_kernel_zero (g : Rng R) (hg : g.Valid) (fuel : ℕ) (X p' : _) {m d n : ℕ} (hX : HasShape X m d n)
    (hm : 0 < m) (hd : 0 < d) (h : RIN.fit g fuel ({} : RIN R) X = .ok (some p')) :
    ∀ (Y : Data R) (m' n' : ℕ), HasShape Y m' d n' → 0 < m' → 2 ≤ n → p'.transform Y
      = .ok (tab3 m' d n' fun i j t => if 1 ≤ t then at3 Y i j t else 0) := by
  intro Y m' n' hY hm' hn
  obtain ⟨had, st, w, hw, hnn, h1, h2, h3, h4, h5⟩ := rin_fit_shape g hg fuel {} p' X hX hm hd (Or.inl (by show (-1 : ℤ) ≤ 0; decide)) rfl h
  obtain ⟨st', h1', -, hz⟩ := C53_kernel_partial g hg fuel {} p' X rfl h
  rw [h1] at h1'
  injection h1' with h1'
  subst h1'
  have hw : w = 1 := by
    rw [hw]
    simp only [Width.eval]
    omega
  subst hw
  rw [rin_closed p' st h1 d 1 hd h2 h3 h4 (perm_getD_lt h5) Y hY hm', had]
  congr 1
  apply tab3_congr
  intro i _ j hj t _
  have hk : at2 st.kernel j 0 = 0 := by
    have hr : (st.kernel.getD j []) ∈ st.kernel := by
      rw [List.getD_eq_getElem?_getD, List.getElem?_eq_getElem (by omega)]
      exact List.getElem_mem _
    have hl := h4 _ hr
    unfold at2
    obtain ⟨v, hv⟩ := List.length_eq_one_iff.1 hl
    have := hz rfl _ hr (by rw [hv]; simp)
    rw [hv] at this ⊢
    simpa [mean] using this
  simp only [windowed, Bool.false_eq_true, false_or, Finset.sum_range_one, hk, zero_mul, sub_zero]

end Fruits
