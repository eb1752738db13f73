import Verif.Props.Prep7

/-! # C54–C57: random projections, networks and rotary encodings -/

namespace Fruits
set_option linter.unusedSectionVars false

variable {R : Type} [Field R] [LinearOrder R] [IsStrictOrderedRing R] [FloorRing R]

/-! ### C54, C55 -/

theorem groupSizes_spec (d k : ℕ) (hk : 0 < k) :
    (groupSizes d k).length = k ∧ (groupSizes d k).sum = d ∧
      (∀ s ∈ groupSizes d k, s = d / k ∨ s = d / k + 1) := by
  have hlt : d % k < k := Nat.mod_lt d hk
  unfold groupSizes
  refine ⟨?_, ?_, ?_⟩
  · simp; omega
  · rw [List.sum_append, List.sum_replicate, List.sum_replicate, smul_eq_mul, smul_eq_mul, Nat.mul_add, Nat.mul_one,
      Nat.sub_mul]
    have h1 := Nat.mod_add_div d k
    have h2 : d % k * (d / k) ≤ k * (d / k) := Nat.mul_le_mul_right _ hlt.le
    omega
  · intro s hs
    rw [List.mem_append] at hs
    rcases hs with hs | hs
    · exact Or.inr (List.eq_of_mem_replicate hs)
    · exact Or.inl (List.eq_of_mem_replicate hs)

theorem jld_outDims (s : Series R) (st : JLDState R) (n : ℕ) (cs : List ℕ) (start k : ℕ) :
    JLD.outDims s st n start k cs = tab cs.length fun a => tab n fun t =>
      ∑ j ∈ Finset.range (cs.getD a 0), (at2 s (st.dims.getD (start + (cs.take a).sum + j) 0) t
        * st.kernel.getD (start + (cs.take a).sum + j) 0 + st.bias.getD (k + a) 0) := by
  induction cs generalizing start k with
  | nil => rfl
  | cons c cs ih =>
    rw [JLD.outDims, ih, List.length_cons, tab_succ']
    congr 1
    · apply tab_congr
      intro t _
      rw [sum_range']
      simp only [List.getD_cons_zero, List.take_zero, List.sum_nil, Nat.add_zero]
    · apply tab_congr
      intro a _
      apply tab_congr
      intro t _
      simp only [List.getD_cons_succ, List.take_succ_cons, List.sum_cons, ← Nat.add_assoc,
        Nat.add_right_comm k 1 a]

theorem sum_take_add_le (cs : List ℕ) (a : ℕ) (ha : a < cs.length) : (cs.take a).sum + cs.getD a 0 ≤ cs.sum := by
  have h1 : (cs.take (a + 1)).sum = (cs.take a).sum + cs.getD a 0 := by
    rw [List.take_add_one, List.sum_append, List.getD_eq_getElem?_getD, List.getElem?_eq_getElem ha]
    simp
  rw [← h1]
  conv_rhs => rw [← List.take_append_drop (a + 1) cs, List.sum_append]
  omega

/-- The group of the input dimensions of output dimension `a`: the entries of `dims` from the sum of the earlier sizes on. -/
def groupOf (sizes dims : List ℕ) (a : ℕ) : List ℕ := (dims.drop (sizes.take a).sum).take (sizes.getD a 0)

theorem groups_flatten (sizes dims : List ℕ) (h : sizes.sum = dims.length) :
    ((List.range sizes.length).map (groupOf sizes dims)).flatten = dims := by
  induction sizes generalizing dims with
  | nil =>
    simp only [List.sum_nil] at h
    simp [List.length_eq_zero_iff.1 h.symm]
  | cons c cs ih =>
    rw [List.length_cons, List.range_succ_eq_map, List.map_cons, List.flatten_cons, List.map_map]
    have h1 : groupOf (c :: cs) dims 0 = dims.take c := by simp [groupOf]
    have h2 : (List.range cs.length).map (groupOf (c :: cs) dims ∘ Nat.succ)
        = (List.range cs.length).map (groupOf cs (dims.drop c)) := by
      apply List.map_congr_left
      intro a _
      simp only [Function.comp, groupOf, Nat.succ_eq_add_one, List.take_succ_cons, List.sum_cons, List.getD_cons_succ,
        List.drop_drop]
    rw [h1, h2, ih]
    · exact List.take_append_drop c dims
    · simp only [List.sum_cons] at h
      rw [List.length_drop]; omega

theorem groupOf_eq_tab (sizes dims : List ℕ) (a : ℕ) (ha : a < sizes.length) (h : sizes.sum ≤ dims.length) :
    groupOf sizes dims a = tab (sizes.getD a 0) fun j => dims.getD ((sizes.take a).sum + j) 0 := by
  have h1 := sum_take_add_le sizes a ha
  unfold groupOf
  conv_lhs => rw [tab_of_list dims 0]
  rw [drop_tab, take_tab]
  congr 1
  omega

theorem choice_perm {g : Rng R} (hg : g.Valid) (d : ℕ) : (g.choice 0 d d).Perm (List.range d) := by
  apply (List.subperm_of_subset (hg.choice_nodup 0 d d le_rfl) ?_).perm_of_length_le
  · rw [List.length_range, hg.choice_length 0 d d le_rfl]
  · intro x hx
    exact List.mem_range.2 (hg.choice_lt 0 d d le_rfl x hx)

/-- A partition of the dimensions `0, …, d-1` into `k` groups whose sizes differ by at most one. -/
def BalancedPartition (d : ℕ) (groups : List (List ℕ)) : Prop :=
  groups.flatten.Perm (List.range d) ∧ ∀ A ∈ groups, ∀ B ∈ groups, A.length ≤ B.length + 1

theorem balanced (d k : ℕ) (hk : 0 < k) (dims : List ℕ) (hp : dims.Perm (List.range d)) :
    BalancedPartition d ((List.range k).map (groupOf (groupSizes d k) dims)) := by
  obtain ⟨h1, h2, h3⟩ := groupSizes_spec d k hk
  have hl : dims.length = d := by rw [hp.length_eq, List.length_range]
  have hsz : ∀ a < k, (groupOf (groupSizes d k) dims a).length = d / k ∨
      (groupOf (groupSizes d k) dims a).length = d / k + 1 := by
    intro a ha
    rw [groupOf_eq_tab _ _ _ (by omega) (by omega), tab_length]
    apply h3
    rw [List.getD_eq_getElem?_getD, List.getElem?_eq_getElem (by omega)]
    exact List.getElem_mem _
  constructor
  · have := groups_flatten (groupSizes d k) dims (by omega)
    rw [h1] at this
    rw [this]; exact hp
  · intro A hA B hB
    rw [List.mem_map] at hA hB
    obtain ⟨a, ha, rfl⟩ := hA
    obtain ⟨b, hb, rfl⟩ := hB
    have := hsz a (List.mem_range.1 ha)
    have := hsz b (List.mem_range.1 hb)
    omega

/-- **C54 (partial).** `JLD(k, distribute=True)` with `1 ≤ k ≤ d`, for all random draws: `fit` succeeds and there are a
balanced partition of the `d` input dimensions into `k` groups and a weight `c` for every input dimension such that, on every
dataset, output dimension `a` is `∑_{j in group a} (c_j x_j + b_a)`. (The bias `b_a`, zero unless requested, is added once
for every member of the group.) Missing: the same for `RIN`, see `C54_rin_partial`. -/
theorem C54_jld_partial (T : FloatText R) [NpMath R] (g : Rng R) (hg : g.Valid) (k : ℕ) (bias : Bool) (X : Data R)
    {m d n : ℕ} (hX : HasShape X m d n) (hm : 0 < m) (hk : 1 ≤ k) (hkd : k ≤ d) :
    ∃ (p' : JLD R) (groups : List (List ℕ)) (c b : ℕ → R),
      JLD.fit g { d := .int k, distribute := true, bias := bias } X = .ok p' ∧
      groups.length = k ∧ BalancedPartition d groups ∧ (bias = false → ∀ a, b a = 0) ∧
      ∀ (Y : Data R) (m' n' : ℕ), HasShape Y m' d n' → 0 < m' → ∃ Z, (Prep.jld p').transform T Y = .ok Z ∧
        HasShape Z m' k n' ∧ ∀ i < m', ∀ a < k, ∀ t < n',
          at3 Z i a t = ((groups.getD a []).map fun j => c j * at3 Y i j t + b a).sum := by
  have hperm := choice_perm hg d
  have hl : (g.choice 0 d d).length = d := by rw [hperm.length_eq, List.length_range]
  obtain ⟨h1, h2, h3⟩ := groupSizes_spec d k hk
  set dims := g.choice 0 d d with hdims
  set bl : List R := (List.range k).map fun i => if bias then g.normal 1 i 0 else 0 with hbl
  -- the weight of an input dimension is the kernel entry at its place in `dims`
  have hnd : dims.Nodup := hperm.nodup_iff.2 List.nodup_range
  refine ⟨{ d := .int k, distribute := true, bias := bias, fitted := some ⟨(List.range d).map fun i => g.normal 0 i 0, bl,
      groupSizes d k, dims⟩ }, (List.range k).map (groupOf (groupSizes d k) dims),
    fun j => g.normal 0 (dims.idxOf j) 0, fun a => bl.getD a 0, ?_, by simp, balanced d k hk dims hperm, ?_, ?_⟩
  · unfold JLD.fit
    simp only [hX.shape1_eq hm, if_true, JLD.outDim]
    rw [if_neg (by omega), if_neg (by omega), if_neg (by omega)]
    simp only [Int.toNat_natCast]
    rfl
  · intro hb a
    subst hb
    rcases Nat.lt_or_ge a k with h | h
    · exact getD_tab (f := fun i => if false = true then g.normal 1 i 0 else 0) h
    · show bl.getD a 0 = 0
      rw [List.getD_eq_getElem?_getD, List.getElem?_eq_none (by simpa [hbl] using h)]; rfl
  · intro Y m' n' hY hm'
    refine ⟨_, ?_, hasShape_tab3 (fun i a t => (((((List.range k).map (groupOf (groupSizes d k) dims))).getD a []).map fun j =>
      g.normal 0 (dims.idxOf j) 0 * at3 Y i j t + bl.getD a 0).sum), fun i hi a ha t ht => at3_tab3 hi ha ht⟩
    simp only [Prep.transform, Prep.transformC, JLD.transform]
    congr 1
    rw [hY.map, hY.shape2_eq hm' (by omega)]
    unfold tab3
    apply tab_congr
    intro i _
    rw [jld_outDims, h1]
    unfold tab2
    apply tab_congr
    intro a ha
    apply tab_congr
    intro t ht
    have e1 : ((List.range k).map (groupOf (groupSizes d k) dims)).getD a [] = groupOf (groupSizes d k) dims a := getD_tab ha
    beta_reduce
    rw [e1, groupOf_eq_tab _ _ _ (by omega) (by omega), map_tab, sum_tab]
    apply Finset.sum_congr rfl
    intro j hj
    have hj' := Finset.mem_range.1 hj
    have hle := sum_take_add_le (groupSizes d k) a (by omega)
    have hlt : (List.take a (groupSizes d k)).sum + j < d := by omega
    simp only [Nat.zero_add]
    congr 1
    have e2 : dims.getD ((List.take a (groupSizes d k)).sum + j) 0 = dims[(List.take a (groupSizes d k)).sum + j]'(by omega) := by
      rw [List.getD_eq_getElem?_getD, List.getElem?_eq_getElem (by omega)]; rfl
    have e3 : dims.idxOf (dims.getD ((List.take a (groupSizes d k)).sum + j) 0) = (List.take a (groupSizes d k)).sum + j := by
      rw [e2]; exact hnd.idxOf_getElem _ (by omega)
    have e4 : ((List.range d).map fun i => g.normal 0 i 0).getD ((List.take a (groupSizes d k)).sum + j) 0
        = g.normal 0 ((List.take a (groupSizes d k)).sum + j) 0 := getD_tab (f := fun i => g.normal 0 i 0) hlt
    rw [e3, e4, mul_comm]
    congr 1
    exact at2_tab2 (f := at3 Y i) (perm_getD_lt hperm _ hlt) ht

/-- **C54 (partial).** `RIN(out_dim=k)` with `1 ≤ k ≤ d`, for all random draws: there are two balanced partitions of the
input dimensions, one for the window and one for the current value; output dimension `a` sums the windows over the group
`a` of the first and the current values over the group `a` of the second. Missing: the two partitions need not agree, so
an input dimension can enter two outputs, see `C54_counterexample`. -/
theorem C54_rin_partial (T : FloatText R) [NpMath R] (g : Rng R) (hg : g.Valid) (fuel : ℕ) (p p' : RIN R) (X : Data R)
    {m d n : ℕ} (hX : HasShape X m d n) (hm : 0 < m) (hd : 0 < d) (k : ℕ) (hk : 1 ≤ k) (hout : p.outDim = k)
    (hconst : p.constKernel = none) (hnad : p.adaptive = false) (h : p.fit g fuel X = .ok (some p')) :
    ∃ (w : ℕ) (K : ℕ → ℕ → R) (past cur : List (List ℕ)), past.length = k ∧ cur.length = k ∧
      BalancedPartition d past ∧ BalancedPartition d cur ∧
      ∀ (Y : Data R) (m' n' : ℕ), HasShape Y m' d n' → 0 < m' → ∃ Z, (Prep.rin p').transform T Y = .ok Z ∧
        HasShape Z m' k n' ∧ ∀ i < m', ∀ a < k, ∀ t < n', at3 Z i a t = if t < w then 0 else
          ((cur.getD a []).map fun j => at3 Y i j t).sum
          - ((past.getD a []).map fun j => ∑ l ∈ Finset.range w, K j l * at3 Y i j (t - w + l)).sum := by
  have hperm := choice_perm hg d
  have hl : (g.choice 0 d d).length = d := by rw [hperm.length_eq, List.length_range]
  obtain ⟨h1, h2, h3⟩ := groupSizes_spec d k hk
  have hnd : (g.choice 0 d d).Nodup := hperm.nodup_iff.2 List.nodup_range
  -- the fitted state
  obtain ⟨st, w, hst, hndim, hdims, hkl, hkw, hadp⟩ : ∃ (st : RINState R) (w : ℕ), p'.fitted = some st ∧
      st.ndim = groupSizes d k ∧ st.dims = g.choice 0 d d ∧ st.kernel.length = d ∧ (∀ r ∈ st.kernel, r.length = w) ∧
      p'.adaptive = false := by
    unfold RIN.fit at h
    simp only [hconst, hX.shape1_eq hm, hX.shape2_eq hm hd, hout] at h
    rw [if_pos (show (0 : ℤ) < (k : ℤ) by omega)] at h
    simp only [Int.toNat_natCast] at h
    split at h
    · cases h
    split at h
    · cases h
    split at h
    · injection h with h
      rw [Option.map_eq_some_iff] at h
      obtain ⟨ker, hker, rfl⟩ := h
      obtain ⟨r, hr⟩ := drawSumOne_shape hker
      obtain ⟨h1, -⟩ := sumOne_tab d _ (fun i j => g.uniform r i j) hr
      refine ⟨_, (p.width.eval n).toNat, rfl, rfl, rfl, ?_, ?_, hnad⟩
      · rw [h1, tab_length]
      · intro r' hr'
        rw [h1, mem_tab] at hr'
        obtain ⟨i, _, rfl⟩ := hr'
        exact tab_length _ _
    · injection h with h
      injection h with h
      subst h
      refine ⟨_, (p.width.eval n).toNat, rfl, rfl, rfl, ?_, ?_, hnad⟩
      · simp [RIN.centered]
      · intro r' hr'
        simp only [RIN.centered, List.map_map, List.mem_map] at hr'
        obtain ⟨i, _, rfl⟩ := hr'
        simp only [Function.comp, List.length_map, List.length_range]
  set dims := g.choice 0 d d with hdimsdef
  refine ⟨w, fun j l => at2 st.kernel (dims.idxOf j) l, (List.range k).map (groupOf (groupSizes d k) dims),
    (List.range k).map (groupOf (groupSizes d k) (List.range d)), by simp, by simp, balanced d k hk dims hperm,
    balanced d k hk _ (List.Perm.refl _), ?_⟩
  intro Y m' n' hY hm'
  have hw0 : (st.kernel.getD 0 []).length = w := by
    rw [List.getD_eq_getElem?_getD, List.getElem?_eq_getElem (by omega)]
    exact hkw _ (List.getElem_mem _)
  refine ⟨_, ?_, hasShape_tab3 (fun i a t => if t < w then 0 else
          ((((List.range k).map (groupOf (groupSizes d k) (List.range d))).getD a []).map fun j => at3 Y i j t).sum
          - ((((List.range k).map (groupOf (groupSizes d k) dims)).getD a []).map fun j =>
            ∑ l ∈ Finset.range w, at2 st.kernel (dims.idxOf j) l * at3 Y i j (t - w + l)).sum),
    fun i hi a ha t ht => at3_tab3 hi ha ht⟩
  simp only [Prep.transform, Prep.transformC, RIN.transform, hst]
  congr 1
  rw [hY.map, hY.shape2_eq hm' hd]
  unfold tab3
  apply tab_congr
  intro i _
  unfold RIN.series
  simp only [hadp, Bool.false_eq_true, if_false, hw0]
  rw [rin_outDims, hndim, h1]
  unfold tab2
  apply tab_congr
  intro a ha
  apply tab_congr
  intro t ht
  beta_reduce
  by_cases htw : t < w
  · rw [if_pos htw, if_pos htw]
  rw [if_neg htw, if_neg htw]
  beta_reduce
  have e1 : ((List.range k).map (groupOf (groupSizes d k) dims)).getD a [] = groupOf (groupSizes d k) dims a := getD_tab ha
  have e1' : ((List.range k).map (groupOf (groupSizes d k) (List.range d))).getD a []
    = groupOf (groupSizes d k) (List.range d) a := getD_tab ha
  rw [e1, e1', groupOf_eq_tab _ dims _ (by omega) (by omega), groupOf_eq_tab _ (List.range d) _ (by omega)
    (by rw [List.length_range]; omega), map_tab, map_tab, sum_tab, sum_tab, ← Finset.sum_sub_distrib]
  apply Finset.sum_congr rfl
  intro j hj
  have hj' := Finset.mem_range.1 hj
  have hle := sum_take_add_le (groupSizes d k) a (by omega)
  have hlt : (List.take a (groupSizes d k)).sum + j < d := by omega
  simp only [Nat.zero_add, hdims]
  rw [sub_eq_add_neg, add_comm]
  have e0 : (List.range d).getD ((List.take a (groupSizes d k)).sum + j) 0 = (List.take a (groupSizes d k)).sum + j := by
    rw [List.getD_eq_getElem?_getD, List.getElem?_eq_getElem (by simpa using hlt), List.getElem_range]; rfl
  have e2 : dims.getD ((List.take a (groupSizes d k)).sum + j) 0 = dims[(List.take a (groupSizes d k)).sum + j]'(by omega) := by
    rw [List.getD_eq_getElem?_getD, List.getElem?_eq_getElem (by omega)]; rfl
  have e3 : dims.idxOf (dims.getD ((List.take a (groupSizes d k)).sum + j) 0) = (List.take a (groupSizes d k)).sum + j := by
    rw [e2]; exact hnd.idxOf_getElem _ (by omega)
  congr 1
  · rw [e0]; exact at2_tab2 (f := at3 Y i) hlt ht
  · rw [← Finset.sum_neg_distrib]
    apply Finset.sum_congr rfl
    intro l hl
    have hl' := Finset.mem_range.1 hl
    rw [e3]
    have h5 := at2_tab2 (f := at3 Y i) (perm_getD_lt hperm _ hlt) (show t - w + l < n' by omega)
    unfold tab2 at h5
    rw [h5]
    ring

/-- C54 fails for `RIN`: with two dimensions, an allowed draw and the data `((0, 0, 0), (1, 0, 1))` both output dimensions
depend on the second input dimension only. -/
theorem C54_counterexample :
    ((RIN.fit swapRng 1 ({ width := .int 2, outDim := 2 } : RIN ℚ) [[[0, 0, 0], [1, 0, 1]]]).toOption.map
      fun r => r.map fun p => (p.transform [[[0, 0, 0], [1, 0, 1]]]).toOption)
      = some (some (some [[[0, 0, -1], [0, 0, 1]]])) := by
  decide +kernel

/-- Non-vacuity: five dimensions in two groups. -/
example : (List.range 2).map (groupOf (groupSizes 5 2) [3, 1, 4, 0, 2]) = [[3, 1, 4], [0, 2]] := by decide +kernel

/-- **C55.** After `fit`, `JLD` without bias multiplies every time step with a fixed matrix `M` (so it is linear and acts per
time step); with bias a fixed vector is added. -/
theorem C55_linear (T : FloatText R) [NpMath R] (g : Rng R) (hg : g.Valid) (p p' : JLD R) (X : Data R) {m d n : ℕ}
    (hX : HasShape X m d n) (hm : 0 < m) (hd : 0 < d) (hfit : p.fit g X = .ok p') :
    ∃ (k : ℕ) (M : ℕ → ℕ → R) (b : ℕ → R), (p.bias = false → ∀ a, b a = 0) ∧
      ∀ (Y : Data R) (m' n' : ℕ), HasShape Y m' d n' → 0 < m' → ∃ Z, (Prep.jld p').transform T Y = .ok Z ∧
        HasShape Z m' k n' ∧ ∀ i < m', ∀ a < k, ∀ t < n',
          at3 Z i a t = (∑ j ∈ Finset.range d, M a j * at3 Y i j t) + b a := by
  -- the fitted state uses only existing dimensions
  obtain ⟨st, hst, hdl, hbias⟩ : ∃ st : JLDState R, p'.fitted = some st ∧
      (∀ q < st.ndim.sum, st.dims.getD q 0 < d) ∧ (p.bias = false → ∀ a, st.bias.getD a 0 = 0) := by
    have hb0 : ∀ K : ℕ, p.bias = false → ∀ a, ((List.range K).map fun i => if p.bias then g.normal 1 i 0 else 0).getD a 0
        = (0 : R) := by
      intro K hb a
      rw [hb]
      rcases Nat.lt_or_ge a K with h | h
      · exact getD_tab (f := fun i => if false = true then g.normal 1 i 0 else 0) h
      · rw [List.getD_eq_getElem?_getD, List.getElem?_eq_none (by simpa using h)]; rfl
    unfold JLD.fit at hfit
    simp only [hX.shape1_eq hm] at hfit
    generalize JLD.outDim d p.d = od at hfit
    split at hfit
    · split at hfit
      · cases hfit
      split at hfit
      · cases hfit
      split at hfit
      · cases hfit
      next h1 h2 h3 =>
      injection hfit with hfit
      subst hfit
      refine ⟨_, rfl, ?_, hb0 _⟩
      intro q hq
      simp only at hq ⊢
      rw [(groupSizes_spec d od.toNat (by omega)).2.1] at hq
      exact perm_getD_lt (choice_perm hg d) q hq
    · split at hfit
      · cases hfit
      injection hfit with hfit
      subst hfit
      refine ⟨_, rfl, ?_, hb0 _⟩
      intro q hq
      simp only [List.sum_replicate, smul_eq_mul] at hq ⊢
      have hlen : (List.replicate od.toNat (List.range d)).flatten.length = od.toNat * d := by simp
      rw [List.getD_eq_getElem?_getD, List.getElem?_eq_getElem (by omega)]
      have hmem : ∀ x ∈ (List.replicate od.toNat (List.range d)).flatten, x < d := by
        intro x hx
        rw [List.mem_flatten] at hx
        obtain ⟨l, hl, hx⟩ := hx
        rw [List.eq_of_mem_replicate hl] at hx
        exact List.mem_range.1 hx
      exact hmem _ (List.getElem_mem _)
  refine ⟨st.ndim.length, fun a j => ∑ q ∈ Finset.range (st.ndim.getD a 0),
      if st.dims.getD ((st.ndim.take a).sum + q) 0 = j then st.kernel.getD ((st.ndim.take a).sum + q) 0 else 0,
    fun a => (st.ndim.getD a 0 : R) * st.bias.getD a 0, fun hb a => by
      show (st.ndim.getD a 0 : R) * st.bias.getD a 0 = 0
      rw [hbias hb a, mul_zero], ?_⟩
  intro Y m' n' hY hm'
  refine ⟨_, ?_, hasShape_tab3 (fun i a t => (∑ j ∈ Finset.range d, (∑ q ∈ Finset.range (st.ndim.getD a 0),
      if st.dims.getD ((st.ndim.take a).sum + q) 0 = j then st.kernel.getD ((st.ndim.take a).sum + q) 0 else 0)
        * at3 Y i j t) + (st.ndim.getD a 0 : R) * st.bias.getD a 0), fun i hi a ha t ht => at3_tab3 hi ha ht⟩
  simp only [Prep.transform, Prep.transformC, JLD.transform, hst]
  congr 1
  rw [hY.map, hY.shape2_eq hm' hd]
  unfold tab3
  apply tab_congr
  intro i _
  rw [jld_outDims]
  unfold tab2
  apply tab_congr
  intro a ha
  apply tab_congr
  intro t ht
  rw [Finset.sum_add_distrib, Finset.sum_const, Finset.card_range, nsmul_eq_mul, Nat.zero_add]
  refine congrArg₂ (· + ·) ?_ (by rw [Nat.zero_add])
  simp only [Finset.sum_mul]
  rw [Finset.sum_comm]
  apply Finset.sum_congr rfl
  intro q hq
  have hq' := Finset.mem_range.1 hq
  have hle := sum_take_add_le st.ndim a ha
  have hlt := hdl ((st.ndim.take a).sum + q) (by omega)
  simp only [Nat.zero_add, ite_mul, zero_mul]
  rw [Finset.sum_ite_eq, if_pos (Finset.mem_range.2 hlt), mul_comm]
  congr 1
  exact at2_tab2 (f := at3 Y i) hlt ht

/-- Non-vacuity: two output dimensions from two input dimensions. -/
example : ((JLD.transform ({ d := .int 2, fitted := some ⟨[1, 2, 3, 4], [0, 0], [2, 2], [0, 1, 0, 1]⟩ } : JLD ℚ)
    [[[1, 0], [0, 1]]]).toOption) = some [[[1, 2], [3, 4]]] := by decide +kernel

end Fruits
