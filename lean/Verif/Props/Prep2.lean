import Verif.Props.Prep1
import Mathlib.Analysis.SpecialFunctions.Pow.Real
import Mathlib.Analysis.SpecialFunctions.Trigonometric.Basic

/-! # C41, C42: standardisation and normalisation -/

namespace Fruits
set_option linter.unusedSectionVars false

variable {R : Type} [Field R] [LinearOrder R] [IsStrictOrderedRing R] [FloorRing R]

/-- The real functions numpy approximates. -/
noncomputable instance : NpMath ℝ where
  sqrt := Real.sqrt
  log := Real.log
  pow := fun a b => a ^ b
  sin := Real.sin
  cos := Real.cos

/-- The law of the square root that is used. -/
class SqrtLaw (R : Type) [Field R] [LinearOrder R] [NpMath R] : Prop where
  nonneg : ∀ v : R, 0 ≤ NpMath.sqrt v
  sq : ∀ v : R, 0 ≤ v → NpMath.sqrt v * NpMath.sqrt v = v

noncomputable instance : SqrtLaw ℝ := ⟨Real.sqrt_nonneg, fun _ h => Real.mul_self_sqrt h⟩

/-! ### C41 -/

theorem sum_map_sub_mul (x : List R) (mu c : R) :
    (x.map fun v => (v - mu) / c).sum = (x.sum - x.length * mu) / c := by
  induction x with
  | nil => simp
  | cons a xs ih =>
    simp only [List.map_cons, List.sum_cons, List.length_cons, ih]
    push_cast
    ring

/-- Centring a non-empty list. -/
theorem sum_centered (x : List R) (hx : x ≠ []) (c : R) : (x.map fun v => (v - mean x) / c).sum = 0 := by
  rw [sum_map_sub_mul]
  have : (x.length : R) ≠ 0 := by
    have := List.length_pos_iff.2 hx
    exact_mod_cast this.ne'
  rw [mean, mul_div_cancel₀ _ this, sub_self, zero_div]

theorem length_mul_variance (x : List R) (hx : x ≠ []) :
    (x.length : R) * variance x = (x.map fun v => (v - mean x) * (v - mean x)).sum := by
  have hl : (x.length : R) ≠ 0 := by
    have := List.length_pos_iff.2 hx
    exact_mod_cast this.ne'
  have h : variance x = (x.map fun v => (v - mean x) * (v - mean x)).sum / x.length := by
    unfold variance
    generalize mean x = mu
    rw [mean, List.length_map]
  rw [h, mul_div_cancel₀ _ hl]

theorem sum_sq_centered (x : List R) (hx : x ≠ []) (c : R) :
    ((x.map fun v => (v - mean x) / c).map fun v => v ^ 2).sum = x.length * variance x / c ^ 2 := by
  rw [length_mul_variance x hx, List.map_map]
  generalize mean x = mu
  induction x with
  | nil => exact absurd rfl hx
  | cons a xs ih =>
    rcases xs with _ | ⟨b, ys⟩
    · simp only [List.map_cons, List.map_nil, List.sum_cons, List.sum_nil, Function.comp_apply]
      ring
    · have := ih (by simp)
      simp only [List.map_cons, List.sum_cons, Function.comp_apply] at this ⊢
      rw [this]
      ring

theorem variance_nonneg (x : List R) : 0 ≤ variance x := by
  unfold variance
  generalize mean x = mu
  rw [mean]
  apply div_nonneg
  · apply List.sum_nonneg
    intro v hv
    obtain ⟨w, _, rfl⟩ := List.mem_map.1 hv
    exact mul_self_nonneg _
  · exact Nat.cast_nonneg _

theorem variance_eq_zero {x : List R} (hx : x ≠ []) (h : variance x = 0) : ∀ v ∈ x, v = mean x := by
  have h1 := length_mul_variance x hx
  rw [h, mul_zero] at h1
  intro v hv
  have h2 : (v - mean x) * (v - mean x) ≤ (x.map fun v => (v - mean x) * (v - mean x)).sum := by
    apply List.single_le_sum
    · intro w hw
      obtain ⟨u, _, rfl⟩ := List.mem_map.1 hw
      exact mul_self_nonneg _
    · exact List.mem_map.2 ⟨v, hv, rfl⟩
  rw [← h1] at h2
  have h3 := mul_self_eq_zero.1 (le_antisymm h2 (mul_self_nonneg _))
  exact sub_eq_zero.1 h3

theorem mean_const {x : List R} (hx : x ≠ []) {c : R} (h : ∀ v ∈ x, v = c) : mean x = c := by
  have hl : (x.length : R) ≠ 0 := by
    have := List.length_pos_iff.2 hx
    exact_mod_cast this.ne'
  have : x = List.replicate x.length c := List.eq_replicate_iff.2 ⟨rfl, h⟩
  rw [mean]
  conv_lhs => rw [this]
  simp only [List.sum_replicate, List.length_replicate, nsmul_eq_mul]
  rw [mul_comm, mul_div_assoc, div_self hl, mul_one]

theorem npStd_pos [NpMath R] [SqrtLaw R] {x : List R} (hx : x ≠ []) (hne : ∃ v ∈ x, ∃ w ∈ x, v ≠ w) : 0 < npStd x := by
  rcases (SqrtLaw.nonneg (variance x)).lt_or_eq with h | h
  · exact h
  · exfalso
    have h0 : variance x = 0 := by
      have := SqrtLaw.sq (variance x) (variance_nonneg x)
      rw [← h] at this; simpa using this.symm
    obtain ⟨v, hv, w, hw, hvw⟩ := hne
    exact hvw ((variance_eq_zero hx h0 v hv).trans (variance_eq_zero hx h0 w hw).symm)

theorem zip_tab {α β : Type*} (n : ℕ) (f : ℕ → α) (g : ℕ → β) : List.zip (tab n f) (tab n g) = tab n fun i => (f i, g i) :=
  zipWith_tab n f g Prod.mk

/-- The rows after `STD()`. -/
theorem std_separately [NpMath R] (p : STD R) (hp : p.separately = true) (X : Data R) {m d n : ℕ} (hX : HasShape X m d n) :
    p.transform X = .ok (tab m fun i => tab d fun j => (tab n (at3 X i j)).map fun v =>
      (v - mean (tab n (at3 X i j))) / ((if p.var then npStd (tab n (at3 X i j)) else 1) + p.eps)) := by
  unfold STD.transform
  rw [if_pos hp]
  conv_lhs => rw [hX.eq_tab3]
  have h1 : (tab3 m d n (at3 X)).map (fun s => s.map mean) = tab m fun i => tab d fun j => mean (tab n (at3 X i j)) := by
    simp [tab3, tab2]
  have h2 : (if p.var then (tab3 m d n (at3 X)).map (fun s => s.map npStd)
      else (tab3 m d n (at3 X)).map fun s => s.map fun _ => (1 : R))
      = tab m fun i => tab d fun j => if p.var then npStd (tab n (at3 X i j)) else 1 := by
    cases p.var <;> simp [tab3, tab2, replicate_eq_tab]
  simp only [h1, h2, zip_tab]
  rw [tab3, zipWith_tab]
  congr 1
  apply tab_congr
  intro i _
  rw [zip_tab, tab2, zipWith_tab]

/-- Row `i, j` of a dataset: `X[i, j, :]`. -/
def rowOf (X : Data R) (i j : ℕ) : List R := (X.getD i []).getD j []

theorem rowOf_tab {m d : ℕ} {f : ℕ → ℕ → List R} {i j : ℕ} (hi : i < m) (hj : j < d) :
    rowOf (tab m fun i => tab d fun j => f i j) i j = f i j := by
  simp only [rowOf, getD_tab hi, getD_tab hj]

theorem hasShape_rows {m d n : ℕ} {f : ℕ → ℕ → List R} (h : ∀ i j, (f i j).length = n) :
    HasShape (tab m fun i => tab d fun j => f i j) m d n := by
  refine ⟨by simp, ?_⟩
  intro s hs
  obtain ⟨i, _, rfl⟩ := mem_tab.1 hs
  refine ⟨by simp, ?_⟩
  intro r hr
  obtain ⟨j, _, rfl⟩ := mem_tab.1 hr
  exact h i j

theorem mem_rowOf_iff {X : Data R} {m d n : ℕ} (hX : HasShape X m d n) {i j : ℕ} (hi : i < m) (hj : j < d) (v : R) :
    v ∈ rowOf X i j ↔ ∃ t < n, at3 X i j t = v := by
  rw [rowOf, hX.row_eq hi hj, mem_tab]

/-- **C41.** `STD(separately=True, var, std_eps)` with `std_eps > 0` keeps the shape and returns rows with mean zero; rows
that are constant become zero. -/
theorem C41_mean_zero (T : FloatText R) [NpMath R] [SqrtLaw R] (X : Data R) {m d n : ℕ} (hX : HasShape X m d n) (hn : 0 < n)
    (var : Bool) (eps : R) (heps : 0 < eps) :
    ∃ Y, (Prep.std { separately := true, var := var, eps := eps }).transform T X = .ok Y ∧ HasShape Y m d n ∧
      ∀ i < m, ∀ j < d, (rowOf Y i j).sum = 0 ∧
        ((∀ t < n, ∀ u < n, at3 X i j t = at3 X i j u) → ∀ t < n, at3 Y i j t = 0) := by
  refine ⟨_, std_separately { separately := true, var := var, eps := eps } rfl X hX,
    hasShape_rows (fun i j => by simp), ?_⟩
  intro i hi j hj
  have hne : tab n (at3 X i j) ≠ [] := fun h => by rw [tab_eq_nil] at h; omega
  refine ⟨?_, ?_⟩
  · rw [rowOf_tab hi hj, sum_centered _ hne]
  · intro hc t ht
    have hm : mean (tab n (at3 X i j)) = at3 X i j t := mean_const hne (by
      intro v hv
      obtain ⟨u, hu, rfl⟩ := mem_tab.1 hv
      exact hc u hu t ht)
    simp only [at3, getD_tab hi, getD_tab hj, map_tab, getD_tab ht]
    rw [hm, at3]; simp

/-- **C41.** With `std_eps = 0`, every row that is not constant has mean zero and variance one
(`∑ y_t = 0`, `∑ y_t² = n`). -/
theorem C41_variance_one (T : FloatText R) [NpMath R] [SqrtLaw R] (X : Data R) {m d n : ℕ} (hX : HasShape X m d n) :
    ∃ Y, (Prep.std { separately := true, var := true, eps := (0 : R) }).transform T X = .ok Y ∧ HasShape Y m d n ∧
      ∀ i < m, ∀ j < d, (∃ t < n, ∃ u < n, at3 X i j t ≠ at3 X i j u) →
        (rowOf Y i j).sum = 0 ∧ ((rowOf Y i j).map fun v => v ^ 2).sum = (n : R) := by
  refine ⟨_, std_separately { separately := true, var := true, eps := (0 : R) } rfl X hX,
    hasShape_rows (fun i j => by simp), ?_⟩
  intro i hi j hj ⟨t, ht, u, hu, htu⟩
  have hne : tab n (at3 X i j) ≠ [] := fun h => by rw [tab_eq_nil] at h; omega
  rw [rowOf_tab hi hj]
  refine ⟨sum_centered _ hne _, ?_⟩
  rw [sum_sq_centered _ hne]
  simp only [if_true, add_zero]
  have hpos := npStd_pos hne ⟨_, mem_tab.2 ⟨t, ht, rfl⟩, _, mem_tab.2 ⟨u, hu, rfl⟩, htu⟩
  have hsq : npStd (tab n (at3 X i j)) ^ 2 = variance (tab n (at3 X i j)) := by
    rw [pow_two]; exact SqrtLaw.sq _ (variance_nonneg _)
  rw [← hsq, tab_length, mul_div_assoc, div_self (pow_ne_zero 2 hpos.ne'), mul_one]

theorem entries_mapEntries (g : R → R) (X : Data R) : entries (mapEntries g X) = (entries X).map g := by
  simp [entries, mapEntries, mapRows, List.map_flatten, Function.comp_def]

/-- **C41.** `STD(separately=False)`: transforming the training data gives a dataset whose entries have mean zero
together, and, with `std_eps = 0` and data that is not constant, variance one. -/
theorem C41_fitted (T : FloatText R) [NpMath R] [SqrtLaw R] (X : Data R) (hne : entries X ≠ []) (var : Bool) (eps : R) :
    ∃ Y, (Prep.std (STD.fit { separately := false, var := var, eps := eps } X)).transform T X = .ok Y ∧
      (entries Y).sum = 0 ∧
      (var = true → eps = 0 → (∃ v ∈ entries X, ∃ w ∈ entries X, v ≠ w) →
        ((entries Y).map fun v => v ^ 2).sum = ((entries X).length : R)) := by
  refine ⟨mapEntries (fun v => (v - mean (entries X)) / ((if var then npStd (entries X) else 1) + eps)) X, rfl, ?_, ?_⟩
  · rw [entries_mapEntries, sum_centered _ hne]
  · rintro rfl rfl h
    rw [entries_mapEntries, sum_sq_centered _ hne]
    have hpos := npStd_pos hne h
    have hsq : npStd (entries X) ^ 2 = variance (entries X) := by
      rw [pow_two]; exact SqrtLaw.sq _ (variance_nonneg _)
    simp only [if_true, add_zero]
    rw [← hsq, mul_div_assoc, div_self (pow_ne_zero 2 hpos.ne'), mul_one]

/-- Non-vacuity: the real square root satisfies the law, and a series that is not constant exists. -/
example : ∃ Y, (Prep.std { separately := true, var := true, eps := (0 : ℝ) }).transform ⟨fun _ => [], fun _ => none⟩
      [[[1, 3]]] = .ok Y ∧ (rowOf Y 0 0).sum = 0 ∧ ((rowOf Y 0 0).map fun v => v ^ 2).sum = 2 := by
  obtain ⟨Y, h1, -, h2⟩ := C41_variance_one ⟨fun _ => [], fun _ => none⟩ ([[[1, 3]]] : Data ℝ) (m := 1) (d := 1) (n := 2)
    ⟨rfl, by simp⟩
  obtain ⟨h3, h4⟩ := h2 0 (by omega) 0 (by omega) ⟨0, by omega, 1, by omega, by simp [at3]⟩
  exact ⟨Y, h1, h3, by rw [h4]; norm_num⟩

end Fruits
