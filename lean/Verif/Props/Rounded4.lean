import Verif.RoundedSeeds
import Verif.Props.Rounded3
import Verif.Props.CacheProps
import Verif.Props.Warp2

/-!
# C155: the shared cache in floating point

`F : Fp R` is any floating-point format (`Verif.Rounded`).
-/

namespace Fruits
set_option linter.unusedSectionVars false
variable {R : Type} [Field R] [LinearOrder R] [IsStrictOrderedRing R] [FloorRing R]

/-! ### closed forms -/

theorem Fp.increments1_tab (F : Fp R) (n : ℕ) (f : ℕ → R) :
    F.increments1 (tab n f) = tab n fun t => if t = 0 then 0 else F.rnd (f t - f (t - 1)) := by
  cases n with
  | zero => rfl
  | succ n =>
    have hd : (tab (n + 1) f).drop 1 = tab n fun t => f (t + 1) := by rw [tab_succ']; rfl
    have ht : (tab (n + 1) f).take n = tab n f := by rw [take_tab, min_eq_left (by omega)]
    have e : F.increments1 (tab (n + 1) f)
        = 0 :: F.vsub ((tab (n + 1) f).drop 1) ((tab (n + 1) f).take ((tab (n + 1) f).length - 1)) := by
      conv_lhs => rw [tab_succ']
      rw [Fp.increments1, ← tab_succ']
    rw [e, tab_length, Nat.add_sub_cancel, hd, ht, Fp.vsub, zipWith_tab, tab_succ']
    rfl

/-- The summand of the norm sums at time `t`. -/
def Fp.term (F : Fp R) (nm : Norm) (f : ℕ → R) (t : ℕ) : R :=
  F.normVal nm (if t = 0 then 0 else F.rnd (f t - f (t - 1)))

theorem Fp.normSum1_tab (F : Fp R) (nm : Norm) (n : ℕ) (f : ℕ → R) :
    F.normSum1 nm (tab n f) = tab n fun t => F.accum (F.term nm f) (t + 1) := by
  rw [Fp.normSum1, F.increments1_tab, map_tab, F.cumsum_tab]
  rfl

theorem Fp.term_nonneg (F : Fp R) (nm : Norm) (f : ℕ → R) (t : ℕ) : 0 ≤ F.term nm f t := by
  cases nm
  · exact abs_nonneg _
  · exact F.rnd_nonneg (mul_self_nonneg _)

theorem Fp.term_zero (F : Fp R) (nm : Norm) (f : ℕ → R) : F.term nm f 0 = 0 := by
  cases nm <;> simp [Fp.term, Fp.normVal, F.zero]

theorem Fp.term_near (F : Fp R) (nm : Norm) (f : ℕ → R) {t : ℕ} (ht : 0 < t) :
    Near F 3 (normTerm nm (f t - f (t - 1))) (normTerm nm (f t - f (t - 1))) (F.term nm f t) := by
  have h0 : t ≠ 0 := by omega
  generalize hd : f t - f (t - 1) = d
  have hn : Near F 1 d |d| (F.rnd d) := by
    have := (Near.refl (F := F) 0 d).rnd
    exact this
  unfold Fp.term
  rw [if_neg h0, hd]
  cases nm
  · refine Near.mono ⟨by simp [normTerm], ?_⟩ (by omega : 1 ≤ 3)
    exact (abs_abs_sub_abs_le (F.rnd d) d).trans hn.err
  · -- the square of a rounded number
    simp only [Fp.normVal, normTerm]
    refine Near.rnd ⟨by simp, ?_⟩
    have h1 : |F.rnd d - d| ≤ F.u * |d| := F.err d
    have h2 : F.rnd d * F.rnd d - d ^ 2 = (F.rnd d - d) * (F.rnd d - d) + 2 * d * (F.rnd d - d) := by ring
    rw [h2]
    have h3 := abs_add_le ((F.rnd d - d) * (F.rnd d - d)) (2 * d * (F.rnd d - d))
    rw [abs_mul, abs_mul (2 * d), abs_mul 2 d, abs_two] at h3
    have h4 : F.gam 2 * d ^ 2 = (F.u * |d|) * (F.u * |d|) + 2 * |d| * (F.u * |d|) := by
      have : d ^ 2 = |d| * |d| := by rw [abs_mul_abs_self]; ring
      rw [this, Fp.gam]; ring
    rw [h4]
    have h5 : 0 ≤ |F.rnd d - d| := abs_nonneg _
    have h6 := mul_le_mul h1 h1 h5 (mul_nonneg F.u_nonneg (abs_nonneg d))
    have h7 := mul_le_mul_of_nonneg_left h1 (mul_nonneg (zero_le_two (α := R)) (abs_nonneg d))
    linarith

theorem Fp.accum_near (F : Fp R) (nm : Norm) (f : ℕ → R) (t : ℕ) :
    Near F (3 + t) (variation nm f t) (variation nm f t) (F.accum (F.term nm f) (t + 1)) := by
  induction t with
  | zero =>
    have : F.accum (F.term nm f) (0 + 1) = 0 := by simp [Fp.accum, F.term_zero, F.zero]
    rw [this]
    simp only [variation, Finset.range_zero, Finset.sum_empty]
    exact ⟨by simp, by simp⟩
  | succ t ih =>
    have e : variation nm f (t + 1) = variation nm f t + normTerm nm (f (t + 1) - f t) := Finset.sum_range_succ _ _
    rw [e, Fp.accum]
    exact (ih.add ((F.term_near nm f (t := t + 1) (by omega)).mono (by omega))).rnd

/-- The norm sums of a dataset. -/
theorem Fp.normSum_tab (F : Fp R) (nm : Norm) {X : Data R} {m d n : ℕ} (hX : HasShape X m d n) (hd : 0 < d) :
    F.normSum nm X = tab m fun i => tab n fun t => F.accum (F.term nm (at3 X i 0)) (t + 1) := by
  conv_lhs => rw [hX.eq_tab3]
  unfold Fp.normSum
  rw [tab3, map_tab]
  apply tab_congr
  intro i _
  have : (tab2 d n (at3 X i)).getD 0 [] = tab n (at3 X i 0) := getD_tab hd
  rw [this, F.normSum1_tab]

/-! ### C155 -/

/-- Without rounding, the rounded cache is the cache of the exact model. -/
theorem C155_exact (nm : Norm) (q : R) {X : Data R} {m d n : ℕ} (hX : HasShape X m d n) (hd : 0 < d) :
    normSum nm X = .ok ((Fp.exact : Fp R).normSum nm X) ∧
      (Fp.exact : Fp R).coquantiles nm q X = ((Fp.exact : Fp R).normSum nm X).map (coquantile1 q) := by
  refine ⟨?_, rfl⟩
  rw [normSum_eq nm hX hd, Fp.normSum_tab _ nm hX hd]
  congr 1
  apply tab_congr; intro i _
  apply tab_congr; intro t _
  have h := ((Fp.exact : Fp R).accum_near nm (at3 X i 0) t).err
  have : (Fp.exact : Fp R).gam (3 + t) = 0 := by simp [Fp.gam, Fp.exact]
  rw [this, zero_mul] at h
  have := abs_nonpos_iff.1 h
  linarith

/-- **C155** (norm sums): the cached norm sums of a series are computed with a relative error of `n + 2` operations, start
with 0 and never decrease. -/
theorem C155_sums (F : Fp R) (nm : Norm) {X : Data R} {m d n : ℕ} (hX : HasShape X m d n) (hd : 0 < d) :
    HasShape2 (F.normSum nm X) m n ∧ ∀ i < m,
      (0 < n → at2 (F.normSum nm X) i 0 = 0) ∧
      (∀ s t, s ≤ t → t < n → at2 (F.normSum nm X) i s ≤ at2 (F.normSum nm X) i t) ∧
      ∀ t < n, |at2 (F.normSum nm X) i t - variation nm (at3 X i 0) t|
        ≤ ((1 + F.u) ^ (n + 2) - 1) * variation nm (at3 X i 0) t := by
  rw [F.normSum_tab nm hX hd]
  refine ⟨⟨by simp, ?_⟩, ?_⟩
  · intro x hx
    obtain ⟨i, _, rfl⟩ := mem_tab.1 hx
    simp
  intro i hi
  have e : ∀ t < n, at2 (tab m fun i => tab n fun t => F.accum (F.term nm (at3 X i 0)) (t + 1)) i t
      = F.accum (F.term nm (at3 X i 0)) (t + 1) := fun t ht => by
    rw [at2, tab_getD _ _ _ _ hi, tab_getD _ _ _ _ ht]
  refine ⟨fun hn => ?_, fun s t hst ht => ?_, fun t ht => ?_⟩
  · rw [e 0 hn]; simp [Fp.accum, F.term_zero, F.zero]
  · rw [e s (by omega), e t ht]
    exact F.accum_mono (n := t + 1) (fun _ _ => F.term_nonneg _ _ _) (by omega) le_rfl
  · rw [e t ht]
    refine (F.accum_near nm (at3 X i 0) t).err.trans ?_
    exact mul_le_mul_of_nonneg_right (F.gam_mono (by omega)) (variation_nonneg _ _ _)

theorem Fp.coquantiles_getD (F : Fp R) (nm : Norm) (q : R) {X : Data R} {m d n : ℕ} (hX : HasShape X m d n) (hd : 0 < d)
    (hn : 0 < n) {i : ℕ} (hi : i < m) :
    (F.coquantiles nm q X).getD i 0 = ((Finset.range n).filter fun t =>
      at2 (F.normSum nm X) i t ≤ F.rnd (q * at2 (F.normSum nm X) i (n - 1))).card := by
  unfold Fp.coquantiles
  rw [F.normSum_tab nm hX hd, map_tab, tab_getD _ _ _ _ hi, Fp.coquantile1, filter_tab_length, tab_length,
    getD_tab (by omega)]
  congr 1
  apply Finset.filter_congr
  intro t ht
  rw [Finset.mem_range] at ht
  rw [at2, at2, tab_getD _ _ _ _ hi, tab_getD _ _ _ _ ht, tab_getD _ _ _ _ (by omega), decide_eq_true_eq]

/-- **C155** (coquantiles): for a series of `n ≥ 1` time steps the computed `q`-coquantile `c` satisfies `c ≤ n`; `1 ≤ c` if
`0 ≤ q`; `c = n` if `1 ≤ q`; it grows with `q`; and time step `t` lies before `c` if and only if the computed norm sum up to
`t` is at most the computed product of `q` and the last norm sum. -/
theorem C155_coquantiles (F : Fp R) (nm : Norm) {X : Data R} {m d n : ℕ} (hX : HasShape X m d n) (hd : 0 < d)
    (hn : 0 < n) (q : R) : (F.coquantiles nm q X).length = m ∧ ∀ i < m,
      (F.coquantiles nm q X).getD i 0 ≤ n ∧ (0 ≤ q → 1 ≤ (F.coquantiles nm q X).getD i 0) ∧
      (1 ≤ q → (F.coquantiles nm q X).getD i 0 = n) ∧
      (∀ q', q ≤ q' → (F.coquantiles nm q X).getD i 0 ≤ (F.coquantiles nm q' X).getD i 0) ∧
      ∀ t < n, (t < (F.coquantiles nm q X).getD i 0 ↔
        at2 (F.normSum nm X) i t ≤ F.rnd (q * at2 (F.normSum nm X) i (n - 1))) := by
  refine ⟨by simp [Fp.coquantiles, Fp.normSum, hX.1], ?_⟩
  intro i hi
  obtain ⟨h0, hmono, _⟩ := (C155_sums F nm hX hd).2 i hi
  have hlast : 0 ≤ at2 (F.normSum nm X) i (n - 1) := by
    rw [← h0 hn]; exact hmono _ _ (by omega) (by omega)
  have hrep : F.rnd (at2 (F.normSum nm X) i (n - 1)) = at2 (F.normSum nm X) i (n - 1) := by
    rw [F.normSum_tab nm hX hd, at2, tab_getD _ _ _ _ hi, tab_getD _ _ _ _ (by omega)]
    exact F.accum_rep _ _
  have hle : ∀ q, (F.coquantiles nm q X).getD i 0 ≤ n := fun q => by
    rw [F.coquantiles_getD nm q hX hd hn hi]
    have := Finset.card_filter_le (Finset.range n)
      (fun t => at2 (F.normSum nm X) i t ≤ F.rnd (q * at2 (F.normSum nm X) i (n - 1)))
    rwa [Finset.card_range] at this
  have hlt : ∀ t < n, (t < (F.coquantiles nm q X).getD i 0 ↔
      at2 (F.normSum nm X) i t ≤ F.rnd (q * at2 (F.normSum nm X) i (n - 1))) := fun t ht => by
    rw [F.coquantiles_getD nm q hX hd hn hi]
    exact filter_initial (fun s t hst ht h => (hmono s t hst ht).trans h) ht
  refine ⟨hle q, fun hq => ?_, fun hq => ?_, fun q' hq => ?_, hlt⟩
  · have := (hlt 0 hn).2 (by rw [h0 hn]; exact F.rnd_nonneg (mul_nonneg hq hlast))
    omega
  · have := (hlt (n - 1) (by omega)).2 (by
      conv_lhs => rw [← hrep]
      exact F.mono (le_mul_of_one_le_left hlast hq))
    have := hle q
    omega
  · rw [F.coquantiles_getD nm q hX hd hn hi, F.coquantiles_getD nm q' hX hd hn hi]
    apply Finset.card_le_card
    intro t ht
    rw [Finset.mem_filter] at ht ⊢
    exact ⟨ht.1, ht.2.trans (F.mono (mul_le_mul_of_nonneg_right hq hlast))⟩

/-- A series with three significant bits: the computed L1 sums are `0, 3/8, 3, 6` instead of `0, 8/21, 8/3, 82/15`. -/
example : (Fp.binary 2 : Fp ℚ).normSum .L1 [[[1/3, 5/7, 3, 1/5]]] ≠ (Fp.exact : Fp ℚ).normSum .L1 [[[1/3, 5/7, 3, 1/5]]] ∧
    (Fp.binary 2 : Fp ℚ).coquantiles .L1 (1/2) [[[1/3, 5/7, 3, 1/5]]] = [3] := by decide +kernel

example : HasShape ([[[1/3, 5/7, 3, 1/5]]] : Data ℚ) 1 1 4 := by simp [HasShape]

end Fruits
