import Verif.Weighting
import Verif.Props.Prep10
import Mathlib.Analysis.SpecialFunctions.Exp

/-! # C91, C92, C93: the weightings -/

namespace Fruits
set_option linter.unusedSectionVars false

variable {R : Type} [Field R] [LinearOrder R] [IsStrictOrderedRing R] [FloorRing R]

/-! ### Specification -/

/-- A lookup row of length `n` that starts at zero, never decreases and stays in `[0, scale]`. -/
structure Ramp (scale : R) (n : ℕ) (g : List R) : Prop where
  length : g.length = n
  start : g.getD 0 0 = 0
  range : ∀ t < n, 0 ≤ g.getD t 0 ∧ g.getD t 0 ≤ scale
  mono : ∀ s t, s ≤ t → t < n → g.getD s 0 ≤ g.getD t 0

/-- The built-in weightings without user transform (and not reversed). -/
def WeightingKind.Plain : WeightingKind R → Prop
  | .custom _ => False
  | .indices _ f s => f = none ∧ 0 ≤ s
  | .norm _ _ _ f s => f = none ∧ 0 ≤ s
  | .plateaus n rev s => 1 < n ∧ rev = false ∧ 0 ≤ s

/-- The setting `scale`. -/
def WeightingKind.scale : WeightingKind R → R
  | .custom _ => 0
  | .indices _ _ s | .norm _ _ _ _ s | .plateaus _ _ s => s

/-! ### Closed forms -/

theorem listMin_mono {n : ℕ} (hn : 0 < n) {f : ℕ → R} (hf : ∀ s t, s ≤ t → t < n → f s ≤ f t) : listMin (tab n f) = some (f 0) := by
  rw [listMin_eq_some]
  refine ⟨mem_tab.2 ⟨0, hn, rfl⟩, fun y hy => ?_⟩
  obtain ⟨t, ht, rfl⟩ := mem_tab.1 hy
  exact hf 0 t (Nat.zero_le _) ht

theorem listMax_mono {n : ℕ} (hn : 0 < n) {f : ℕ → R} (hf : ∀ s t, s ≤ t → t < n → f s ≤ f t) :
    listMax (tab n f) = some (f (n - 1)) := by
  rw [listMax_eq_some]
  refine ⟨mem_tab.2 ⟨n - 1, by omega, rfl⟩, fun y hy => ?_⟩
  obtain ⟨t, ht, rfl⟩ := mem_tab.1 hy
  exact hf t (n - 1) (by omega) (by omega)

theorem listMin_anti {n : ℕ} (hn : 0 < n) {f : ℕ → R} (hf : ∀ s t, s ≤ t → t < n → f t ≤ f s) :
    listMin (tab n f) = some (f (n - 1)) := by
  rw [listMin_eq_some]
  refine ⟨mem_tab.2 ⟨n - 1, by omega, rfl⟩, fun y hy => ?_⟩
  obtain ⟨t, ht, rfl⟩ := mem_tab.1 hy
  exact hf t (n - 1) (by omega) (by omega)

theorem listMax_anti {n : ℕ} (hn : 0 < n) {f : ℕ → R} (hf : ∀ s t, s ≤ t → t < n → f t ≤ f s) : listMax (tab n f) = some (f 0) := by
  rw [listMax_eq_some]
  refine ⟨mem_tab.2 ⟨0, hn, rfl⟩, fun y hy => ?_⟩
  obtain ⟨t, ht, rfl⟩ := mem_tab.1 hy
  exact hf 0 t (Nat.zero_le _) ht

theorem rescale_eq (scale : R) {m n : ℕ} (hn : 0 < n) (f : ℕ → ℕ → R) : rescale scale (tab m fun i => tab n (f i)) =
    .ok (tab m fun i => (nrmRow (tab n (f i))).map fun v => v * scale) := by
  unfold rescale NRM.transform
  rw [if_neg (by simp), perDim_eq]
  · rw [ok_bind]
    show Except.ok _ = _
    congr 1
    simp only [newAxis, mapRows, map_tab, List.map_cons, List.map_nil, List.getD_cons_zero]
  · intro x hx hx0
    obtain ⟨s, hs, hxs⟩ := List.mem_flatten.1 hx
    rw [newAxis, map_tab] at hs
    obtain ⟨i, _, rfl⟩ := mem_tab.1 hs
    rw [List.mem_singleton.1 hxs, tab_eq_nil] at hx0
    omega

theorem rescale_mono (scale : R) {m n : ℕ} (hn : 0 < n) (f : ℕ → ℕ → R) (hf : ∀ i < m, ∀ s t, s ≤ t → t < n → f i s ≤ f i t) :
    rescale scale (tab m fun i => tab n (f i)) =
    .ok (tab m fun i => tab n fun t => nrmVal (f i 0) (f i (n - 1)) (f i t) * scale) := by
  rw [rescale_eq scale hn]
  congr 1
  apply tab_congr
  intro i hi
  rw [nrmRow, listMin_mono hn (hf i hi), listMax_mono hn (hf i hi)]
  simp only [map_tab]

theorem ramp_of_mono {scale : R} (hs : 0 ≤ scale) {n : ℕ} (hn : 0 < n) {f : ℕ → R} (hf : ∀ s t, s ≤ t → t < n → f s ≤ f t) :
    Ramp scale n (tab n fun t => nrmVal (f 0) (f (n - 1)) (f t) * scale) := by
  have hv : ∀ s t, s ≤ t → t < n → nrmVal (f 0) (f (n - 1)) (f s) ≤ nrmVal (f 0) (f (n - 1)) (f t) := by
    intro s t hst ht
    unfold nrmVal
    split
    · exact le_rfl
    · have h1 := hf 0 (n - 1) (Nat.zero_le _) (by omega)
      exact div_le_div_of_nonneg_right (by linarith [hf s t hst ht]) (by linarith)
  have h0 : nrmVal (f 0) (f (n - 1)) (f 0) = 0 := by
    unfold nrmVal; split <;> simp
  have h1 : nrmVal (f 0) (f (n - 1)) (f (n - 1)) ≤ 1 := by
    unfold nrmVal
    split
    · exact zero_le_one
    · exact div_self_le_one _
  refine ⟨by simp, ?_, ?_, ?_⟩
  · rw [getD_tab hn, h0, zero_mul]
  · intro t ht
    rw [getD_tab ht]
    have a := hv 0 t (Nat.zero_le _) ht
    have b := hv t (n - 1) (by omega) (by omega)
    rw [h0] at a
    exact ⟨mul_nonneg a hs, mul_le_of_le_one_left hs (b.trans h1)⟩
  · intro s t hst ht
    rw [getD_tab ht, getD_tab (lt_of_le_of_lt hst ht)]
    exact mul_le_mul_of_nonneg_right (hv s t hst ht) hs

theorem shape2_eq {X : Data R} {m d n : ℕ} (hX : HasShape X m d n) (hm : 0 < m) (hd : 0 < d) : shape2 X = n := by
  rw [hX.eq_tab3, shape2, tab3, getD_tab hm, tab2, getD_tab hd, tab_length]

theorem single_tab {α : Type*} (x : α) : [x] = tab 1 fun _ => x := rfl

/-- **C92**, first half: `Indices(relative=True)` is the linear ramp `g(t) = scale * t / (N-1)` for every series.  Missing: `relative=False`, for which
this is false, see `C92_differs`. -/
theorem C92_relative_partial (T : FloatText R) (C X : Data R) {m d n : ℕ} (hX : HasShape X m d n) (hm : 0 < m) (hd : 0 < d) (hn : 0 < n) (scale : R) :
    (WeightingKind.indices true none scale).lookup T C X = .ok (List.replicate m (tab n fun t => scale * ((t : R) / ((n - 1 : ℕ) : R)))) := by
  have hl := shape2_eq hX hm hd
  have hn' : (0 : R) < n := by exact_mod_cast hn
  have hmono : ∀ i < 1, ∀ s t, s ≤ t → t < n → ((s + 1 : ℕ) : R) / (n : R) ≤ ((t + 1 : ℕ) : R) / (n : R) := by
    intro i _ s t hst _
    exact div_le_div_of_nonneg_right (by exact_mod_cast Nat.succ_le_succ hst) hn'.le
  simp only [WeightingKind.lookup, Indices.lookup, hl, applyTransform, Indices.base, if_true]
  rw [single_tab, rescale_mono scale hn (fun _ t => ((t + 1 : ℕ) : R) / (n : R)) hmono]
  show Except.ok _ = _
  rw [tileRow, hX.1, getD_tab Nat.one_pos]
  congr 2
  apply tab_congr
  intro t ht
  rw [mul_comm]
  congr 1
  unfold nrmVal
  by_cases h1 : n = 1
  · subst h1
    simp
  · have hlt : (0 : R) < ((n - 1 : ℕ) : R) := by exact_mod_cast Nat.sub_pos_of_lt (by omega)
    have hcast : ((n - 1 + 1 : ℕ) : R) = ((n - 1 : ℕ) : R) + 1 := by push_cast; ring
    rw [if_neg, hcast]
    · push_cast
      rw [← sub_div, ← sub_div, div_div_div_cancel_right₀ hn'.ne']
      congr 1 <;> ring
    · rw [hcast]
      intro he
      rw [div_left_inj' hn'.ne'] at he
      push_cast at he
      linarith

/-- **C92**, second half: without `relative` the quotients are truncated to integers: `g` is zero but for the last time step, where it
is `scale`. -/
theorem C92_absolute (T : FloatText R) (C X : Data R) {m d n : ℕ} (hX : HasShape X m d n) (hm : 0 < m) (hd : 0 < d) (hn : 0 < n) (scale : R) :
    (WeightingKind.indices false none scale).lookup T C X =
      .ok (List.replicate m (tab n fun t => if t + 1 = n ∧ 1 < n then scale else 0)) := by
  have hl := shape2_eq hX hm hd
  have hmono : ∀ s t, s ≤ t → t < n → ((s + 1 : ℕ) : R) ≤ ((t + 1 : ℕ) : R) := by
    intro s t hst _
    exact_mod_cast Nat.succ_le_succ hst
  simp only [WeightingKind.lookup, Indices.lookup, hl, Indices.base, nrmInts, minE, maxE, Bool.false_eq_true, if_false,
    listMin_mono hn hmono, listMax_mono hn hmono]
  simp only [ok_bind, pure, Except.pure, tileRow, hX.1]
  congr 2
  by_cases h1 : n = 1
  · subst h1
    simp [tab]
  · have hlt : (0 : R) < ((n - 1 : ℕ) : R) := by exact_mod_cast Nat.sub_pos_of_lt (by omega)
    have hcast : ((n - 1 + 1 : ℕ) : R) = ((n - 1 : ℕ) : R) + 1 := by push_cast; ring
    rw [if_neg (by rw [hcast]; push_cast; intro h; linarith), map_tab, map_tab]
    apply tab_congr
    intro t ht
    have hq : (((t + 1 : ℕ) : R) - ((0 + 1 : ℕ) : R)) / (((n - 1 + 1 : ℕ) : R) - ((0 + 1 : ℕ) : R)) = (t : R) / ((n - 1 : ℕ) : R) := by
      rw [hcast]; push_cast; congr 1 <;> ring
    have hnn : (0 : R) ≤ (t : R) / ((n - 1 : ℕ) : R) := div_nonneg (Nat.cast_nonneg _) hlt.le
    rw [hq, pyInt_nonneg hnn]
    by_cases h : t + 1 = n
    · rw [if_pos ⟨h, by omega⟩]
      have : (t : R) = ((n - 1 : ℕ) : R) := by congr 1; omega
      rw [this, div_self hlt.ne', Int.floor_one]
      simp
    · rw [if_neg (fun h' => h h'.1)]
      have : ⌊(t : R) / ((n - 1 : ℕ) : R)⌋ = 0 := by
        rw [Int.floor_eq_zero_iff]
        refine ⟨hnn, (div_lt_one hlt).2 ?_⟩
        exact_mod_cast (by omega : t < n - 1)
      rw [this]
      simp

/-- **C92** is false: the two settings give different weights for series of length at least three. -/
theorem C92_differs (T : FloatText R) (C X : Data R) {m d n : ℕ} (hX : HasShape X m d n) (hm : 0 < m) (hd : 0 < d) (hn : 3 ≤ n) (scale : R)
    (hs : scale ≠ 0) :
    (WeightingKind.indices true none scale).lookup T C X ≠ (WeightingKind.indices false none scale).lookup T C X := by
  rw [C92_relative_partial T C X hX hm hd (by omega), C92_absolute T C X hX hm hd (by omega)]
  intro h
  have h := Except.ok.inj h
  obtain ⟨k, rfl⟩ : ∃ k, m = k + 1 := ⟨m - 1, by omega⟩
  rw [List.replicate_succ, List.replicate_succ] at h
  have h := (List.cons.inj h).1
  have h := congrArg (fun l => l.getD 1 0) h
  simp only [getD_tab (show 1 < n by omega)] at h
  rw [if_neg (by omega)] at h
  have hlt : (0 : R) < ((n - 1 : ℕ) : R) := by exact_mod_cast Nat.sub_pos_of_lt (by omega)
  rcases mul_eq_zero.1 h with h | h
  · exact hs h
  · rw [Nat.cast_one, div_eq_zero_iff] at h
    rcases h with h | h
    · exact one_ne_zero h
    · exact hlt.ne' h

/-! ### Plateaus -/

theorem plateaus_steps (n step : ℕ) (l : ℕ) : ∀ (fuel i : ℕ) (f : ℕ → R), Plateaus.steps n step fuel i (tab l f) =
    tab l fun t => if i * step ≤ t ∧ t < (i + fuel) * step then ((t / step : ℕ) : R) / ((n - 1 : ℕ) : R) else f t
  | 0, i, f => by
    rw [Plateaus.steps]
    apply tab_congr
    intro t _
    rw [if_neg (by intro h; simp at h; omega)]
  | fuel + 1, i, f => by
    rw [Plateaus.steps, tab_length, fillSlc_tab _ _ _ _ _ (pyClip_le _ _) (pyClip_le _ _), plateaus_steps n step l fuel (i + 1)]
    apply tab_congr
    intro t ht
    rw [pyClip_nat, pyClip_nat]
    have e1 : (i + (fuel + 1)) * step = (i + 1 + fuel) * step := by ring
    have e2 : (i + 1) * step = i * step + step := by ring
    have e3 : (i + 1) * step ≤ (i + 1 + fuel) * step := Nat.mul_le_mul_right _ (by omega)
    rw [e1]
    by_cases h1 : (i + 1) * step ≤ t ∧ t < (i + 1 + fuel) * step
    · rw [if_pos h1, if_pos ⟨by omega, h1.2⟩]
    · rw [if_neg h1]
      by_cases h2 : i * step ≤ t ∧ t < (i + 1) * step
      · rw [if_pos ⟨by omega, by omega⟩, if_pos ⟨h2.1, by omega⟩]
        have : t / step = i := by
          apply Nat.div_eq_of_lt_le
          · exact h2.1
          · exact h2.2
        rw [this]
      · rw [if_neg (by omega), if_neg (by omega)]

/-- The value of the step function with `n` plateaus at time `t` of `l`. -/
def plateau (n l t : ℕ) : R := if l / n = 0 then 0 else ((min (t / (l / n)) (n - 1) : ℕ) : R) / ((n - 1 : ℕ) : R)

theorem plateaus_range (n l : ℕ) (hn : 1 < n) : Plateaus.steps n (l / n) n 0 (List.replicate l (1 : R)) =
    tab l fun t => if l / n = 0 then 1 else plateau n l t := by
  have hlt : (0 : R) < ((n - 1 : ℕ) : R) := by exact_mod_cast Nat.sub_pos_of_lt hn
  rw [show List.replicate l (1 : R) = tab l fun _ => 1 by simp [tab], plateaus_steps]
  apply tab_congr
  intro t ht
  unfold plateau
  by_cases h0 : l / n = 0
  · rw [if_pos h0, if_neg]; simp [h0]
  · rw [if_neg h0, if_neg h0]
    have hp : 0 < l / n := Nat.pos_of_ne_zero h0
    by_cases h : t < n * (l / n)
    · rw [if_pos ⟨by simp, by simpa using h⟩]
      have : t / (l / n) < n := (Nat.div_lt_iff_lt_mul hp).2 h
      rw [min_eq_left (by omega)]
    · rw [if_neg (by simp; omega)]
      have : n ≤ t / (l / n) := (Nat.le_div_iff_mul_le hp).2 (by omega)
      rw [min_eq_right (by omega), div_self hlt.ne']

theorem plateau_mono (n l : ℕ) {s t : ℕ} (h : s ≤ t) : (plateau n l s : R) ≤ plateau n l t := by
  unfold plateau
  split
  · exact le_rfl
  · apply div_le_div_of_nonneg_right _ (Nat.cast_nonneg _)
    exact_mod_cast min_le_min_right _ (Nat.div_le_div_right h)

theorem plateau_zero (n l : ℕ) : (plateau n l 0 : R) = 0 := by
  unfold plateau; split <;> simp

theorem plateau_last (n l : ℕ) (hn : 1 < n) (h0 : l / n ≠ 0) : (plateau n l (l - 1) : R) = 1 := by
  have hlt : (0 : R) < ((n - 1 : ℕ) : R) := by exact_mod_cast Nat.sub_pos_of_lt hn
  have hp : 0 < l / n := Nat.pos_of_ne_zero h0
  have hl : 0 < l := Nat.pos_of_ne_zero fun h => by subst h; simp at h0
  unfold plateau
  rw [if_neg h0]
  have hmul : n * (l / n) ≤ l := Nat.mul_div_le l n
  have : n - 1 ≤ (l - 1) / (l / n) := by
    rw [Nat.le_div_iff_mul_le hp, Nat.sub_mul, one_mul]
    omega
  rw [min_eq_right this, div_self hlt.ne']

theorem plateaus_rescale (n l : ℕ) (hn : 1 < n) (hl : 0 < l) (t : ℕ) (f : ℕ → R)
    (hf : f = fun t => if l / n = 0 then 1 else plateau n l t) :
    nrmVal (f 0) (f (l - 1)) (f t) = plateau n l t := by
  subst hf
  by_cases h0 : l / n = 0
  · simp only [h0, if_true, nrmVal]
    unfold plateau
    rw [if_pos h0]
  · simp only [h0, if_false]
    rw [plateau_zero, plateau_last n l hn h0, nrmVal, if_neg zero_ne_one, sub_zero, sub_zero, div_one]

/-- **C93**: `Plateaus(n)` is a step function: with `b = l // n` the value at time `t` of a series of length `l` is
`scale * min(t // b, n-1) / (n-1)` (zero if there are fewer time steps than plateaus). -/
theorem C93_plateaus (T : FloatText R) (C X : Data R) {m d l : ℕ} (hX : HasShape X m d l) (hm : 0 < m) (hd : 0 < d) (hl : 0 < l) {n : ℕ}
    (hn : 1 < n) (scale : R) :
    (WeightingKind.plateaus n false scale).lookup T C X = .ok (List.replicate m (tab l fun t => plateau n l t * scale)) := by
  have hs := shape2_eq hX hm hd
  simp only [WeightingKind.lookup, Plateaus.lookup, hs, Bool.false_eq_true, if_false]
  rw [plateaus_range n l hn, single_tab, rescale_mono scale hl (fun _ t => if l / n = 0 then 1 else plateau n l t)]
  · show Except.ok _ = _
    rw [tileRow, hX.1, getD_tab Nat.one_pos]
    congr 2
    apply tab_congr
    intro t _
    rw [plateaus_rescale n l hn hl t _ rfl]
  · intro _ _ s t hst _
    split
    · exact le_rfl
    · exact plateau_mono n l hst

/-- **C93**: `reverse=True` reverses the step function. -/
theorem C93_reverse (T : FloatText R) (C X : Data R) {m d l : ℕ} (hX : HasShape X m d l) (hm : 0 < m) (hd : 0 < d) (hl : 0 < l) {n : ℕ}
    (hn : 1 < n) (scale : R) {L : List (List R)} (h : (WeightingKind.plateaus n false scale).lookup T C X = .ok L) :
    (WeightingKind.plateaus n true scale).lookup T C X = .ok (L.map List.reverse) := by
  rw [C93_plateaus T C X hX hm hd hl hn scale] at h
  cases h
  have hs := shape2_eq hX hm hd
  have hrev : ∀ f : ℕ → R, (tab l f).reverse = tab l fun t => f (l - 1 - t) := by
    intro f
    apply eq_tab
    · simp
    · intro t ht
      simp [tab]
  simp only [WeightingKind.lookup, Plateaus.lookup, hs, if_true]
  rw [plateaus_range n l hn, hrev, single_tab, rescale_eq scale hl]
  show Except.ok _ = _
  rw [tileRow, hX.1, getD_tab Nat.one_pos, List.map_replicate, hrev]
  congr 2
  have hanti : ∀ s t, s ≤ t → t < l → (fun t => if l / n = 0 then (1 : R) else plateau n l (l - 1 - t)) t ≤
      (fun t => if l / n = 0 then (1 : R) else plateau n l (l - 1 - t)) s := by
    intro s t hst _
    simp only
    split
    · exact le_rfl
    · exact plateau_mono n l (by omega)
  rw [nrmRow, listMin_anti hl hanti, listMax_anti hl hanti]
  simp only [map_tab]
  apply tab_congr
  intro t _
  have := plateaus_rescale (R := R) n l hn hl (l - 1 - t) _ rfl
  simp only [Nat.sub_self, Nat.sub_zero]
  exact congrArg (· * scale) this

/-- **C93**: the step function takes at most `n` values, those of the plateaus `0, ..., n-1`. -/
theorem C93_values (n l t : ℕ) (hn : 1 < n) (scale : R) : ∃ k < n, plateau n l t * scale = (k : R) / ((n - 1 : ℕ) : R) * scale := by
  unfold plateau
  split
  · exact ⟨0, by omega, by simp⟩
  · exact ⟨min (t / (l / n)) (n - 1), by omega, rfl⟩

/-- **C93**: it is constant on the blocks of `l // n` time steps. -/
theorem C93_blocks (n l s t : ℕ) (h : s / (l / n) = t / (l / n)) : (plateau n l s : R) = plateau n l t := by
  unfold plateau; rw [h]

/-- **C93**: the constructor refuses less than two plateaus and accepts everything else. -/
theorem C93_constructor (n : ℤ) (reverse : Bool) (scale : R) :
    (n ≤ 1 → Plateaus.new n reverse scale = .error .valueError) ∧
    ∀ k : ℕ, 1 < k → Plateaus.new (k : ℤ) reverse scale = .ok (.plateaus k reverse scale) := by
  refine ⟨fun h => if_pos h, fun k hk => ?_⟩
  unfold Plateaus.new
  rw [if_neg (by omega), Int.toNat_natCast]

/-! ### C91 -/

theorem normOf_str (nm : Norm) : normOf nm.str = some nm := by cases nm <;> rfl

theorem issSums_eq (T : FloatText R) (C : Data R) (nm : Norm) {m d n : ℕ} (hC : HasShape C m d n) (hd : 0 < d) :
    issSums T C nm.str = .ok (tab m fun i => tab n (variation nm (at3 C i 0))) := by
  rw [issSums_def]
  simp only [computeKey, normOf_str, normSum_eq nm hC hd]
  rfl

/-- **C91**: the lookup of a built-in weighting without user transform (`Plateaus` not reversed) has one row per series, which starts at
zero, never decreases and stays in `[0, scale]`.  (`L1` and `L2` take the raw data of the cache, `C`, or the prepared data.) -/
theorem C91_ramp (T : FloatText R) (C X : Data R) {m d d' n : ℕ} (hX : HasShape X m d n) (hC : HasShape C m d' n) (hm : 0 < m) (hd : 0 < d)
    (hd' : 0 < d') (hn : 0 < n) (k : WeightingKind R) (hk : k.Plain) :
    ∃ L, k.lookup T C X = .ok L ∧ L.length = m ∧ ∀ g ∈ L, Ramp k.scale n g := by
  cases k with
  | custom f => exact hk.elim
  | indices rel f scale =>
    obtain ⟨rfl, hs⟩ := hk
    cases rel with
    | true =>
      refine ⟨_, C92_relative_partial T C X hX hm hd hn scale, by simp, ?_⟩
      intro g hg
      rw [List.eq_of_mem_replicate hg]
      refine ⟨by simp, by rw [getD_tab hn]; simp, ?_, ?_⟩
      · intro t ht
        rw [getD_tab ht]
        refine ⟨mul_nonneg hs (div_nonneg (Nat.cast_nonneg _) (Nat.cast_nonneg _)), mul_le_of_le_one_right hs ?_⟩
        exact div_le_one_of_le₀ (by exact_mod_cast (by omega : t ≤ n - 1)) (Nat.cast_nonneg _)
      · intro s t hst ht
        rw [getD_tab ht, getD_tab (lt_of_le_of_lt hst ht)]
        exact mul_le_mul_of_nonneg_left (div_le_div_of_nonneg_right (by exact_mod_cast hst) (Nat.cast_nonneg _)) hs
    | false =>
      refine ⟨_, C92_absolute T C X hX hm hd hn scale, by simp, ?_⟩
      intro g hg
      rw [List.eq_of_mem_replicate hg]
      refine ⟨by simp, ?_, ?_, ?_⟩
      · rw [getD_tab hn, if_neg (by omega)]
      · intro t ht
        rw [getD_tab ht]
        split
        · exact ⟨hs, le_rfl⟩
        · exact ⟨le_rfl, hs⟩
      · intro s t hst ht
        rw [getD_tab ht, getD_tab (lt_of_le_of_lt hst ht)]
        by_cases h : t + 1 = n ∧ 1 < n
        · rw [if_pos h]; split
          · exact le_rfl
          · exact hs
        · rw [if_neg h, if_neg (by omega)]
  | norm nm onP rel f scale =>
    obtain ⟨rfl, hs⟩ := hk
    have hrows : ∃ g : ℕ → ℕ → R, (if onP then normSum nm X else issSums T C nm.str) = .ok (tab m fun i => tab n (variation nm (g i))) := by
      cases onP with
      | true => exact ⟨fun i => at3 X i 0, normSum_eq nm hX hd⟩
      | false => exact ⟨fun i => at3 C i 0, issSums_eq T C nm hC hd'⟩
    obtain ⟨g, hg⟩ := hrows
    have hf : ∃ f : ℕ → ℕ → R, (if rel then relativeRows (tab m fun i => tab n (variation nm (g i))) else tab m fun i => tab n (variation nm (g i))) =
        (tab m fun i => tab n (f i)) ∧ ∀ i < m, ∀ s t, s ≤ t → t < n → f i s ≤ f i t := by
      cases rel with
      | false => exact ⟨fun i => variation nm (g i), rfl, fun i _ s t h _ => variation_mono nm (g i) h⟩
      | true =>
        refine ⟨fun i t => variation nm (g i) t / (variation nm (g i) (n - 1) + 1 / 100000), ?_, ?_⟩
        · simp only [if_true, relativeRows, map_tab, tab_length]
          apply tab_congr
          intro i _
          rw [getD_tab (show n - 1 < n by omega)]
        · intro i _ s t h _
          apply div_le_div_of_nonneg_right (variation_mono nm (g i) h)
          have := variation_nonneg nm (g i) (n - 1)
          positivity
    obtain ⟨f, hf1, hf2⟩ := hf
    refine ⟨tab m fun i => tab n fun t => nrmVal (f i 0) (f i (n - 1)) (f i t) * scale, ?_, ?_, ?_⟩
    · rw [← rescale_mono scale hn f hf2, ← hf1]
      cases onP with
      | true =>
        simp only [if_true] at hg
        simp only [WeightingKind.lookup, normLookup, if_true, hg, ok_bind, applyTransform]
      | false =>
        simp only [Bool.false_eq_true, if_false] at hg
        simp only [WeightingKind.lookup, normLookup, Bool.false_eq_true, if_false, hg, ok_bind, applyTransform]
    · simp
    · intro r hr
      obtain ⟨i, hi, rfl⟩ := mem_tab.1 hr
      exact ramp_of_mono hs hn (hf2 i hi)
  | plateaus k rev scale =>
    obtain ⟨hk, rfl, hs⟩ := hk
    refine ⟨_, C93_plateaus T C X hX hm hd hn hk scale, by simp, ?_⟩
    intro g hg
    rw [List.eq_of_mem_replicate hg]
    refine ⟨by simp, by rw [getD_tab hn, plateau_zero, zero_mul], ?_, ?_⟩
    · intro t ht
      rw [getD_tab ht]
      obtain ⟨a, ha, h⟩ := C93_values k n t hk scale
      rw [h]
      refine ⟨mul_nonneg (div_nonneg (Nat.cast_nonneg _) (Nat.cast_nonneg _)) hs, mul_le_of_le_one_left hs ?_⟩
      exact div_le_one_of_le₀ (by exact_mod_cast (by omega : a ≤ k - 1)) (Nat.cast_nonneg _)
    · intro s t hst ht
      rw [getD_tab ht, getD_tab (lt_of_le_of_lt hst ht)]
      exact mul_le_mul_of_nonneg_right (plateau_mono k n hst) hs

/-- **C91**, consequence: the weights `exp(a*(g(i) - g(j)))` for `i ≤ j` and `a ≥ 0` lie in `(0, 1]`. -/
theorem C91_weights {expf : R → R} (h0 : expf 0 = 1) (hpos : ∀ v, 0 < expf v) (hmono : ∀ u v, u ≤ v → expf u ≤ expf v) {scale : R} {n : ℕ}
    {g : List R} (hg : Ramp scale n g) {i j : ℕ} (hij : i ≤ j) (hj : j < n) {a : R} (ha : 0 ≤ a) :
    0 < expf (a * (g.getD i 0 - g.getD j 0)) ∧ expf (a * (g.getD i 0 - g.getD j 0)) ≤ 1 := by
  refine ⟨hpos _, ?_⟩
  rw [← h0]
  apply hmono
  exact mul_nonpos_of_nonneg_of_nonpos ha (by linarith [hg.mono i j hij hj])

/-! ### Non-vacuity -/

example : (WeightingKind.indices true none (50 : ℚ)).Plain ∧ (WeightingKind.norm .L2 false true none (50 : ℚ)).Plain ∧
    (WeightingKind.plateaus 3 false (50 : ℚ)).Plain := by
  refine ⟨⟨rfl, by norm_num⟩, ⟨rfl, by norm_num⟩, ⟨by norm_num, rfl, by norm_num⟩⟩

example : (Plateaus.lookup 3 false (50 : ℚ) [[[5, 1, 4, 2, 0, 7, 7]]]) = .ok [[0, 0, 25, 25, 50, 50, 50]] ∧
    (Plateaus.lookup 3 true (50 : ℚ) [[[5, 1, 4, 2, 0, 7, 7]]]) = .ok [[50, 50, 50, 25, 25, 0, 0]] ∧
    (Indices.lookup true none (50 : ℚ) [[[5, 1, 4]], [[0, 0, 0]]]) = .ok [[0, 25, 50], [0, 25, 50]] ∧
    (Indices.lookup false none (50 : ℚ) [[[5, 1, 4]]]) = .ok [[0, 0, 50]] := by
  refine ⟨?_, ?_, ?_, ?_⟩ <;> decide +kernel

/-- The exponential function has the properties used in `C91_weights`. -/
example : Real.exp 0 = 1 ∧ (∀ v, 0 < Real.exp v) ∧ ∀ u v : ℝ, u ≤ v → Real.exp u ≤ Real.exp v :=
  ⟨Real.exp_zero, Real.exp_pos, fun _ _ h => Real.exp_le_exp.2 h⟩

end Fruits
