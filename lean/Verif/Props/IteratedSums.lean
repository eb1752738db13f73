import Verif.ISSLemmas
import Mathlib.Analysis.SpecialFunctions.Exp

/-!
# C01–C08: the iterated sums returned by `ISS.transform`

All statements are about `ISSConf.transform`, the model of `ISS.transform`.  The right-hand sides use only
`monomial`, `linform`, `incTuples`, `WeakTuple` and `penalty` of `Verif.Spec`.
-/

set_option linter.unusedSectionVars false

namespace Fruits
variable {R : Type} [Field R] [LinearOrder R] [IsStrictOrderedRing R] [FloorRing R]

/-- Inputs on which the compiled kernels are defined: a dataset of shape `(·, D, n)` with `D ≥ 1`, at least
one word, non-empty words, and no letter refers to a dimension beyond `D`. -/
structure Admissible {R : Type} (X : Data R) (D n : ℕ) (words : List (SWord R)) : Prop where
  data : IsData X D n
  dims : 0 < D
  nonempty : words ≠ []
  letters : ∀ w ∈ words, w.els ≠ []
  fits : ∀ w ∈ words, ∀ el ∈ w.els, el.length ≤ D

/-- No division by zero: dimensions with a negative exponent have no zero values. -/
def NoZeroDivision {R : Type} [Zero R] (X : Data R) (n : ℕ) (words : List (SWord R)) : Prop :=
  ∀ w ∈ words, ∀ el ∈ w.els, ∀ d < el.length, el.getD d 0 < 0 →
    ∀ Z ∈ X, ∀ t < n, entry Z d t ≠ 0

/-- A lookup table of a weighting for the dataset: one row of `n` numbers per series. -/
def LookupFor {R : Type} (wt : Weighting R) (X : Data R) (n : ℕ) : Prop :=
  (wt.lookup X).length = X.length ∧ ∀ g ∈ wt.lookup X, g.length = n

/-- The numbers `g(0), …, g(n-1)` used for series `j`. -/
def lookupFn {R : Type} [Zero R] (wt : Weighting R) (X : Data R) (j : ℕ) : ℕ → R :=
  fun t => ((wt.lookup X).getD j []).getD t 0

section helpers
omit [IsStrictOrderedRing R]

private theorem conf_usable {k : SemiringKind} (hk : k ≠ .arcticArgmax) (words : List (IWord R))
    (m : ISSMode) (wt : Option (Weighting R)) :
    (⟨words, m, k, wt⟩ : ISSConf R).Usable := fun h => absurd h hk

theorem single_transform (expf : R → R) {k : SemiringKind} (hk : k ≠ .arcticArgmax)
    (words : List (SWord R)) (hne : words ≠ []) (wt : Option (Weighting R)) (X : Data R) :
    (⟨words.map .simple, .single, k, wt⟩ : ISSConf R).transform expf X
      = .ok (words.map fun w => (iteratedSums expf k X (.simple w) 1 wt).map
          (fun a => a.getD 0 [])) := by
  rw [transform_eq expf (conf_usable hk _ _ _) (by simpa using hne)]
  congr 1
  suffices h : ∀ i, (⟨words.map .simple, .single, k, wt⟩ : ISSConf R).blockRows expf X i
      (words.map .simple) = words.map fun w => (iteratedSums expf k X (.simple w) 1 wt).map
          (fun a => a.getD 0 []) from h 0
  generalize hc : (⟨words.map .simple, .single, k, wt⟩ : ISSConf R) = c
  have hd : ∀ i, c.depth i = 1 := by intro i; rw [← hc]; rfl
  have hk' : c.semiring = k := by rw [← hc]
  have hw' : c.weighting = wt := by rw [← hc]
  clear hc hne
  induction words with
  | nil => intro i; rfl
  | cons w ws ih =>
    intro i
    rw [List.map_cons, ISSConf.blockRows, List.map_cons, ih, ISSConf.wordRows, hd, hk', hw']
    have : rowsOf k (IWord.simple w) 1 = 1 := by
      unfold rowsOf; cases k <;> simp_all
    rw [this]
    rfl

private theorem mapIdx_congr' {α β : Type} {l : List α} {f g : ℕ → α → β}
    (h : ∀ i (hi : i < l.length), f i l[i] = g i l[i]) : l.mapIdx f = l.mapIdx g := by
  apply List.ext_getElem
  · simp
  · intro i h1 h2
    simp only [List.getElem_mapIdx]
    exact h i (by simpa using h1)

private theorem mapIdx_const {α β : Type} {l : List α} (f : α → β) :
    l.mapIdx (fun _ a => f a) = l.map f := by
  apply List.ext_getElem <;> simp

private theorem map_mapIdx' {α β γ : Type} {l : List α} (f : ℕ → α → β) (g : β → γ) :
    (l.mapIdx f).map g = l.mapIdx (fun i a => g (f i a)) := by
  apply List.ext_getElem <;> simp

end helpers

private theorem prod_getD {p : ℕ} {α : Type} (els : List α) (d : α) (hp : els.length = p)
    (F : α → ℕ → R) (i : Fin p → ℕ) :
    ∏ j : Fin p, F (els.getD j d) (i j) = ∏ j : Fin p, F (els[j]'(by omega)) (i j) := by
  apply Finset.prod_congr rfl
  intro j _
  congr 1
  have : (j : ℕ) < els.length := by omega
  simp [List.getD_eq_getElem?_getD, this]

private theorem sum_getD {p : ℕ} {α : Type} (els : List α) (d : α) (hp : els.length = p)
    (F : α → ℕ → R) (i : Fin p → ℕ) :
    ∑ j : Fin p, F (els.getD j d) (i j) = ∑ j : Fin p, F (els[j]'(by omega)) (i j) := by
  apply Finset.sum_congr rfl
  intro j _
  congr 1
  have : (j : ℕ) < els.length := by omega
  simp [List.getD_eq_getElem?_getD, this]

private theorem penalty_zero (total : Bool) {p : ℕ} (i : Fin p → ℕ) (t m n : ℕ) :
    penalty (R := R) total ((zeros m : List R).getD · 0) ((zeros n : List R).getD · 0) i t = 0 := by
  unfold penalty
  apply Finset.sum_eq_zero
  intro j _
  have : ∀ k s : ℕ, (zeros k : List R).getD s 0 = 0 := by
    intro k s
    simp only [zeros, List.getD_eq_getElem?_getD, List.getElem?_replicate]
    split <;> rfl
  simp only [this]
  simp

/-- **C04** (all cases): Reals iterated sums with a weighting; entry `(w, j, t)` of the result is the sum over
all `i_1 < … < i_p ≤ t` of the product of the letter monomials times `exp` of the weighting exponent. -/
theorem C04_weighted_reals {expf : R → R} (hexp : ExpLike expf) {X : Data R} {D n : ℕ}
    {words : List (SWord R)} (hadm : Admissible X D n words) (_hdiv : NoZeroDivision X n words)
    (wt : Weighting R) (hlook : LookupFor wt X n) :
    (⟨words.map .simple, .single, .reals, some wt⟩ : ISSConf R).transform expf X
      = .ok (words.map fun w => X.mapIdx fun j Z => tab n fun t =>
          ∑ i ∈ incTuples w.els.length (t + 1),
            (∏ k : Fin w.els.length, monomial Z w.els[k] (i k))
            * expf (penalty wt.total (w.getAlpha.getD · 0) (lookupFn wt X j) i t)) := by
  rw [single_transform expf (by simp) words hadm.nonempty]
  congr 1
  apply List.map_congr_left
  intro w hw
  unfold iteratedSums
  simp only [map_mapIdx']
  apply mapIdx_congr'
  intro j hj
  have hZ := hadm.data _ (List.getElem_mem hj)
  have hp : 1 ≤ w.els.length := List.length_pos_iff.2 (hadm.letters w hw)
  have hjl : j < (wt.lookup X).length := by rw [hlook.1]; exact hj
  have hwl : ((wt.lookup X).getD j []).length = n := by
    apply hlook.2
    simp [List.getD_eq_getElem?_getD, hjl]
  have hcl := reals_closed hexp hZ.2 (by
      intro h; have := hZ.1; rw [h] at this; simp at this; have := hadm.dims; omega)
    (word := w.els) (fun el hel => by
      unfold Fits; rw [hZ.1]; exact hadm.fits w hw el hel) w.getAlpha hwl hp wt.total
  have hfs : fastSingle expf .reals X[j] w.els w.getAlpha ((wt.lookup X).getD j []) 1 wt.total
    = (if wt.total then totalReals expf X[j] w.els w.getAlpha ((wt.lookup X).getD j []) 1
      else realsSingle expf X[j] w.els w.getAlpha ((wt.lookup X).getD j []) 1) := by
    unfold fastSingle; cases wt.total <;> rfl
  rw [hfs, hcl, tab_getD _ _ _ _ (by omega)]
  apply tab_congr; intro t _
  have hq : w.els.length - 1 + 0 + 1 = w.els.length := by omega
  rw [hq]
  apply Finset.sum_congr rfl
  intro i _
  congr 1
  exact prod_getD w.els [] rfl (fun el s => monomial X[j] el s) i

/-- **C01**: `ISS(words).transform(X)` with default settings: the strict iterated sum. -/
theorem C01_reals_iss {expf : R → R} (hexp : ExpLike expf) {X : Data R} {D n : ℕ}
    {words : List (SWord R)} (hadm : Admissible X D n words) (_hdiv : NoZeroDivision X n words) :
    (⟨words.map .simple, .single, .reals, none⟩ : ISSConf R).transform expf X
      = .ok (words.map fun w => X.map fun Z => tab n fun t =>
          ∑ i ∈ incTuples w.els.length (t + 1),
            ∏ k : Fin w.els.length, monomial Z w.els[k] (i k)) := by
  rw [single_transform expf (by simp) words hadm.nonempty]
  congr 1
  apply List.map_congr_left
  intro w hw
  unfold iteratedSums
  simp only [map_mapIdx']
  rw [← mapIdx_const (fun Z => tab n fun t =>
          ∑ i ∈ incTuples w.els.length (t + 1),
            ∏ k : Fin w.els.length, monomial Z w.els[k] (i k))]
  apply mapIdx_congr'
  intro j hj
  have hZ := hadm.data _ (List.getElem_mem hj)
  have hne : X[j] ≠ [] := by
    intro h; have := hZ.1; rw [h] at this; simp at this; have := hadm.dims; omega
  have hp : 1 ≤ w.els.length := List.length_pos_iff.2 (hadm.letters w hw)
  have hl : (X.map fun Z => (zeros (ncols Z) : List R)).getD j [] = zeros n := by
    simp [List.getD_eq_getElem?_getD, hj, ncols_eq hZ.2 hne]
  have hcl := reals_closed hexp hZ.2 hne
    (word := w.els) (fun el hel => by
      unfold Fits; rw [hZ.1]; exact hadm.fits w hw el hel) (zeros w.els.length)
      (weights := zeros n) (by simp) hp true
  rw [hl]
  rw [if_pos rfl] at hcl
  simp only [fastSingle]
  rw [hcl, tab_getD _ _ _ _ (by omega)]
  apply tab_congr; intro t _
  have hq : w.els.length - 1 + 0 + 1 = w.els.length := by omega
  rw [hq]
  apply Finset.sum_congr rfl
  intro i _
  rw [penalty_zero, hexp.zero, mul_one]
  exact prod_getD w.els [] rfl (fun el s => monomial X[j] el s) i

/-- **C05**: Arctic iterated sums with a weighting: entry `(w, j, t)` is the attained maximum over all
`i_1 ≤ … ≤ i_p ≤ t` of the sum of the letter values plus the weighting exponent. -/
theorem C05_weighted_arctic {expf : R → R} {X : Data R} {D n : ℕ}
    {words : List (SWord R)} (hadm : Admissible X D n words)
    (wt : Weighting R) (hlook : LookupFor wt X n) :
    ∃ F : SWord R → ℕ → ℕ → R,
      (⟨words.map .simple, .single, .arctic, some wt⟩ : ISSConf R).transform expf X
        = .ok (words.map fun w => X.mapIdx fun j _ => tab n (F w j)) ∧
      ∀ w ∈ words, ∀ (j : ℕ) (hj : j < X.length), ∀ t < n,
        IsGreatest {v | ∃ i : Fin w.els.length → ℕ, Monotone i ∧ (∀ k, i k ≤ t) ∧
          v = (∑ k : Fin w.els.length, linform X[j] w.els[k] (i k))
            + penalty wt.total (w.getAlpha.getD · 0) (lookupFn wt X j) i t} (F w j t) := by
  have key : ∀ w ∈ words, ∀ (j : ℕ) (hj : j < X.length), ∃ f : ℕ → R,
      (fastSingle expf .arctic X[j] w.els w.getAlpha ((wt.lookup X).getD j []) 1 wt.total).getD 0 []
        = tab n f ∧ ∀ t < n,
        IsGreatest {v | ∃ i : Fin w.els.length → ℕ, Monotone i ∧ (∀ k, i k ≤ t) ∧
          v = (∑ k : Fin w.els.length, linform X[j] w.els[k] (i k))
            + penalty wt.total (w.getAlpha.getD · 0) (lookupFn wt X j) i t} (f t) := by
    intro w hw j hj
    have hZ := hadm.data _ (List.getElem_mem hj)
    have hp : 1 ≤ w.els.length := List.length_pos_iff.2 (hadm.letters w hw)
    have hjl : j < (wt.lookup X).length := by rw [hlook.1]; exact hj
    have hwl : ((wt.lookup X).getD j []).length = n := by
      apply hlook.2
      simp [List.getD_eq_getElem?_getD, hjl]
    obtain ⟨F, hF, hg⟩ := arctic_closed hZ.2 (by
        intro h; have := hZ.1; rw [h] at this; simp at this; have := hadm.dims; omega)
      (word := w.els) (fun el hel => by
        unfold Fits; rw [hZ.1]; exact hadm.fits w hw el hel) w.getAlpha hwl hp wt.total
    have hfs : fastSingle expf .arctic X[j] w.els w.getAlpha ((wt.lookup X).getD j []) 1 wt.total
      = (if wt.total then totalArctic X[j] w.els w.getAlpha ((wt.lookup X).getD j []) 1
        else arcticSingle X[j] w.els w.getAlpha ((wt.lookup X).getD j []) 1) := by
      unfold fastSingle; cases wt.total <;> rfl
    refine ⟨F 0, ?_, ?_⟩
    · rw [hfs, hF, tab_getD _ _ _ _ (by omega)]
    · intro t ht
      have := hg 0 (by omega) t ht
      have hq : w.els.length - 1 + 0 + 1 = w.els.length := by omega
      rw [hq] at this
      convert this using 1
      unfold arcticCands WeakTuple
      ext v
      constructor
      · rintro ⟨i, h1, h2, rfl⟩
        exact ⟨i, ⟨h1, h2⟩, by
          rw [sum_getD w.els [] rfl (fun el s => linform X[j] el s)]; rfl⟩
      · rintro ⟨i, ⟨h1, h2⟩, rfl⟩
        exact ⟨i, h1, h2, by
          rw [sum_getD w.els [] rfl (fun el s => linform X[j] el s)]; rfl⟩
  choose! f hf using key
  refine ⟨f, ?_, fun w hw j hj => (hf w hw j hj).2⟩
  rw [single_transform expf (by simp) words hadm.nonempty]
  congr 1
  apply List.map_congr_left
  intro w hw
  unfold iteratedSums
  simp only [map_mapIdx']
  apply mapIdx_congr'
  intro j hj
  exact (hf w hw j hj).1

/-- **C02**: Arctic iterated sums without weighting: the attained maximum over all `i_1 ≤ … ≤ i_p ≤ t` of the
sum of the letter values. -/
theorem C02_arctic_iss {expf : R → R} {X : Data R} {D n : ℕ}
    {words : List (SWord R)} (hadm : Admissible X D n words) :
    ∃ F : SWord R → ℕ → ℕ → R,
      (⟨words.map .simple, .single, .arctic, none⟩ : ISSConf R).transform expf X
        = .ok (words.map fun w => X.mapIdx fun j _ => tab n (F w j)) ∧
      ∀ w ∈ words, ∀ (j : ℕ) (hj : j < X.length), ∀ t < n,
        IsGreatest {v | ∃ i : Fin w.els.length → ℕ, Monotone i ∧ (∀ k, i k ≤ t) ∧
          v = ∑ k : Fin w.els.length, linform X[j] w.els[k] (i k)} (F w j t) := by
  have key : ∀ w ∈ words, ∀ (j : ℕ) (hj : j < X.length), ∃ f : ℕ → R,
      (fastSingle expf .arctic X[j] w.els (zeros w.els.length)
        ((X.map fun Z => (zeros (ncols Z) : List R)).getD j []) 1 true).getD 0 []
        = tab n f ∧ ∀ t < n,
        IsGreatest {v | ∃ i : Fin w.els.length → ℕ, Monotone i ∧ (∀ k, i k ≤ t) ∧
          v = ∑ k : Fin w.els.length, linform X[j] w.els[k] (i k)} (f t) := by
    intro w hw j hj
    have hZ := hadm.data _ (List.getElem_mem hj)
    have hne : X[j] ≠ [] := by
      intro h; have := hZ.1; rw [h] at this; simp at this; have := hadm.dims; omega
    have hp : 1 ≤ w.els.length := List.length_pos_iff.2 (hadm.letters w hw)
    have hl : (X.map fun Z => (zeros (ncols Z) : List R)).getD j [] = zeros n := by
      simp [List.getD_eq_getElem?_getD, hj, ncols_eq hZ.2 hne]
    obtain ⟨F, hF, hg⟩ := arctic_closed hZ.2 hne
      (word := w.els) (fun el hel => by
        unfold Fits; rw [hZ.1]; exact hadm.fits w hw el hel) (zeros w.els.length)
        (weights := zeros n) (by simp) hp true
    rw [if_pos rfl] at hF
    refine ⟨F 0, ?_, ?_⟩
    · rw [hl]; simp only [fastSingle]; rw [hF, tab_getD _ _ _ _ (by omega)]
    · intro t ht
      have := hg 0 (by omega) t ht
      have hq : w.els.length - 1 + 0 + 1 = w.els.length := by omega
      rw [hq] at this
      convert this using 1
      unfold arcticCands WeakTuple
      ext v
      constructor
      · rintro ⟨i, h1, h2, rfl⟩
        exact ⟨i, ⟨h1, h2⟩, by
          rw [sum_getD w.els [] rfl (fun el s => linform X[j] el s), penalty_zero, add_zero]⟩
      · rintro ⟨i, ⟨h1, h2⟩, rfl⟩
        exact ⟨i, h1, h2, by
          rw [sum_getD w.els [] rfl (fun el s => linform X[j] el s), penalty_zero, add_zero]⟩
  choose! f hf using key
  refine ⟨f, ?_, fun w hw j hj => (hf w hw j hj).2⟩
  rw [single_transform expf (by simp) words hadm.nonempty]
  congr 1
  apply List.map_congr_left
  intro w hw
  unfold iteratedSums
  simp only [map_mapIdx']
  apply mapIdx_congr'
  intro j hj
  exact (hf w hw j hj).1

/-- All values of the dataset are non-negative. -/
def Nonnegative {R : Type} [Zero R] [LE R] (X : Data R) : Prop := ∀ Z ∈ X, ∀ d t, 0 ≤ entry Z d t

private theorem monomial_nonneg {X : Data R} (h : Nonnegative X) {Z : List (List R)} (hZ : Z ∈ X)
    (el : List ℤ) (t : ℕ) : 0 ≤ monomial Z el t :=
  Finset.prod_nonneg fun d _ => zpow_nonneg (h Z hZ d t) _

/-- **C06**: Bayesian iterated sums with a weighting on non-negative data: the attained maximum over all
`i_1 ≤ … ≤ i_p ≤ t` of the product of the letter monomials times `exp` of the weighting exponent. -/
theorem C06_weighted_bayesian {expf : R → R} (hexp : ExpLike expf) {X : Data R} {D n : ℕ}
    {words : List (SWord R)} (hadm : Admissible X D n words) (_hdiv : NoZeroDivision X n words)
    (hpos : Nonnegative X) (wt : Weighting R) (hlook : LookupFor wt X n) :
    ∃ F : SWord R → ℕ → ℕ → R,
      (⟨words.map .simple, .single, .bayesian, some wt⟩ : ISSConf R).transform expf X
        = .ok (words.map fun w => X.mapIdx fun j _ => tab n (F w j)) ∧
      ∀ w ∈ words, ∀ (j : ℕ) (hj : j < X.length), ∀ t < n,
        IsGreatest {v | ∃ i : Fin w.els.length → ℕ, Monotone i ∧ (∀ k, i k ≤ t) ∧
          v = (∏ k : Fin w.els.length, monomial X[j] w.els[k] (i k))
            * expf (penalty wt.total (w.getAlpha.getD · 0) (lookupFn wt X j) i t)} (F w j t) := by
  have key : ∀ w ∈ words, ∀ (j : ℕ) (hj : j < X.length), ∃ f : ℕ → R,
      (fastSingle expf .bayesian X[j] w.els w.getAlpha ((wt.lookup X).getD j []) 1
          wt.total).getD 0 []
        = tab n f ∧ ∀ t < n,
        IsGreatest {v | ∃ i : Fin w.els.length → ℕ, Monotone i ∧ (∀ k, i k ≤ t) ∧
          v = (∏ k : Fin w.els.length, monomial X[j] w.els[k] (i k))
            * expf (penalty wt.total (w.getAlpha.getD · 0) (lookupFn wt X j) i t)} (f t) := by
    intro w hw j hj
    have hZ := hadm.data _ (List.getElem_mem hj)
    have hp : 1 ≤ w.els.length := List.length_pos_iff.2 (hadm.letters w hw)
    have hjl : j < (wt.lookup X).length := by rw [hlook.1]; exact hj
    have hwl : ((wt.lookup X).getD j []).length = n := by
      apply hlook.2
      simp [List.getD_eq_getElem?_getD, hjl]
    obtain ⟨F, hF, hg⟩ := bayesian_closed hexp hZ.2 (by
        intro h; have := hZ.1; rw [h] at this; simp at this; have := hadm.dims; omega)
      (word := w.els) (fun el hel => by
        unfold Fits; rw [hZ.1]; exact hadm.fits w hw el hel)
      (fun _ _ s _ => monomial_nonneg hpos (List.getElem_mem hj) _ s) w.getAlpha hwl hp wt.total
    have hfs : fastSingle expf .bayesian X[j] w.els w.getAlpha ((wt.lookup X).getD j []) 1 wt.total
      = (if wt.total then totalBayesian expf X[j] w.els w.getAlpha ((wt.lookup X).getD j []) 1
        else bayesianSingle expf X[j] w.els w.getAlpha ((wt.lookup X).getD j []) 1) := by
      unfold fastSingle; cases wt.total <;> rfl
    refine ⟨F 0, ?_, ?_⟩
    · rw [hfs, hF, tab_getD _ _ _ _ (by omega)]
    · intro t ht
      have := hg 0 (by omega) t ht
      have hq : w.els.length - 1 + 0 + 1 = w.els.length := by omega
      rw [hq] at this
      convert this using 1
      unfold bayesianCands WeakTuple
      ext v
      constructor
      · rintro ⟨i, h1, h2, rfl⟩
        exact ⟨i, ⟨h1, h2⟩, by
          rw [prod_getD w.els [] rfl (fun el s => monomial X[j] el s)]; rfl⟩
      · rintro ⟨i, ⟨h1, h2⟩, rfl⟩
        exact ⟨i, h1, h2, by
          rw [prod_getD w.els [] rfl (fun el s => monomial X[j] el s)]; rfl⟩
  choose! f hf using key
  refine ⟨f, ?_, fun w hw j hj => (hf w hw j hj).2⟩
  rw [single_transform expf (by simp) words hadm.nonempty]
  congr 1
  apply List.map_congr_left
  intro w hw
  unfold iteratedSums
  simp only [map_mapIdx']
  apply mapIdx_congr'
  intro j hj
  exact (hf w hw j hj).1

/-- **C03**: Bayesian iterated sums without weighting on non-negative data. -/
theorem C03_bayesian_iss {expf : R → R} (hexp : ExpLike expf) {X : Data R} {D n : ℕ}
    {words : List (SWord R)} (hadm : Admissible X D n words) (_hdiv : NoZeroDivision X n words)
    (hpos : Nonnegative X) :
    ∃ F : SWord R → ℕ → ℕ → R,
      (⟨words.map .simple, .single, .bayesian, none⟩ : ISSConf R).transform expf X
        = .ok (words.map fun w => X.mapIdx fun j _ => tab n (F w j)) ∧
      ∀ w ∈ words, ∀ (j : ℕ) (hj : j < X.length), ∀ t < n,
        IsGreatest {v | ∃ i : Fin w.els.length → ℕ, Monotone i ∧ (∀ k, i k ≤ t) ∧
          v = ∏ k : Fin w.els.length, monomial X[j] w.els[k] (i k)} (F w j t) := by
  have key : ∀ w ∈ words, ∀ (j : ℕ) (hj : j < X.length), ∃ f : ℕ → R,
      (fastSingle expf .bayesian X[j] w.els (zeros w.els.length)
        ((X.map fun Z => (zeros (ncols Z) : List R)).getD j []) 1 true).getD 0 []
        = tab n f ∧ ∀ t < n,
        IsGreatest {v | ∃ i : Fin w.els.length → ℕ, Monotone i ∧ (∀ k, i k ≤ t) ∧
          v = ∏ k : Fin w.els.length, monomial X[j] w.els[k] (i k)} (f t) := by
    intro w hw j hj
    have hZ := hadm.data _ (List.getElem_mem hj)
    have hne : X[j] ≠ [] := by
      intro h; have := hZ.1; rw [h] at this; simp at this; have := hadm.dims; omega
    have hp : 1 ≤ w.els.length := List.length_pos_iff.2 (hadm.letters w hw)
    have hl : (X.map fun Z => (zeros (ncols Z) : List R)).getD j [] = zeros n := by
      simp [List.getD_eq_getElem?_getD, hj, ncols_eq hZ.2 hne]
    obtain ⟨F, hF, hg⟩ := bayesian_closed hexp hZ.2 hne
      (word := w.els) (fun el hel => by
        unfold Fits; rw [hZ.1]; exact hadm.fits w hw el hel)
      (fun _ _ s _ => monomial_nonneg hpos (List.getElem_mem hj) _ s) (zeros w.els.length)
        (weights := zeros n) (by simp) hp true
    rw [if_pos rfl] at hF
    refine ⟨F 0, ?_, ?_⟩
    · rw [hl]; simp only [fastSingle]; rw [hF, tab_getD _ _ _ _ (by omega)]
    · intro t ht
      have := hg 0 (by omega) t ht
      have hq : w.els.length - 1 + 0 + 1 = w.els.length := by omega
      rw [hq] at this
      convert this using 1
      unfold bayesianCands WeakTuple
      ext v
      constructor
      · rintro ⟨i, h1, h2, rfl⟩
        exact ⟨i, ⟨h1, h2⟩, by
          rw [prod_getD w.els [] rfl (fun el s => monomial X[j] el s), penalty_zero, hexp.zero,
            mul_one]⟩
      · rintro ⟨i, ⟨h1, h2⟩, rfl⟩
        exact ⟨i, h1, h2, by
          rw [prod_getD w.els [] rfl (fun el s => monomial X[j] el s), penalty_zero, hexp.zero,
            mul_one]⟩
  choose! f hf using key
  refine ⟨f, ?_, fun w hw j hj => (hf w hw j hj).2⟩
  rw [single_transform expf (by simp) words hadm.nonempty]
  congr 1
  apply List.map_congr_left
  intro w hw
  unfold iteratedSums
  simp only [map_mapIdx']
  apply mapIdx_congr'
  intro j hj
  exact (hf w hw j hj).1

/-! ### the hypotheses are satisfiable -/

/-- `np.exp` over the reals satisfies `ExpLike`. -/
example : ExpLike Real.exp := ⟨Real.exp_add, Real.exp_pos⟩

/-- Two series, two dimensions, length three; the words `[1][12]` and `[-2]`. -/
def exX : Data ℚ := [[[1, 2, 3], [4, 5, 6]], [[0, 1, 0], [2, 2, 7]]]
/-- Example words. -/
def exWords : List (SWord ℚ) :=
  [⟨[[1, 0], [1, 1]], 2, "[1][12]".toList, none⟩, ⟨[[0, -1]], 2, "[-2]".toList, none⟩]

example : Admissible exX 2 3 exWords where
  data := by simp [exX, IsData, Rect]
  dims := by decide
  nonempty := by simp [exWords]
  letters := by simp [exWords]
  fits := by simp [exWords]

example : NoZeroDivision exX 3 exWords := by
  intro w hw el hel d hd hneg Z hZ t ht
  simp only [exWords, List.mem_cons, List.not_mem_nil, or_false] at hw
  simp only [exX, List.mem_cons, List.not_mem_nil, or_false] at hZ
  rcases hw with rfl | rfl <;> simp only [List.mem_cons, List.not_mem_nil, or_false] at hel
  · rcases hel with rfl | rfl <;>
      (have : d = 0 ∨ d = 1 := by simp at hd; omega
       rcases this with rfl | rfl <;> simp at hneg)
  · subst hel
    have : d = 0 ∨ d = 1 := by simp at hd; omega
    rcases this with rfl | rfl
    · simp at hneg
    · have : t = 0 ∨ t = 1 ∨ t = 2 := by omega
      rcases hZ with rfl | rfl <;> rcases this with rfl | rfl | rfl <;> norm_num [entry]

example : Nonnegative exX := by
  intro Z hZ d t
  simp only [exX, List.mem_cons, List.not_mem_nil, or_false] at hZ
  rcases hZ with rfl | rfl <;>
    (rcases d with _ | _ | d <;> rcases t with _ | _ | _ | t <;> norm_num [entry])

example : LookupFor (R := ℚ) ⟨true, fun X => X.map fun _ => [0, 1, 2], []⟩ exX 3 := by
  simp [LookupFor, exX]

/-- Test (not a proof of anything general): the model computes the strict sum `∑_{i<j} x_i x_j y_j`. -/
example : (⟨exWords.map .simple, .single, .reals, none⟩ : ISSConf ℚ).transform (fun _ => 1) exX
    = .ok [[[0, 10, 64], [0, 0, 0]], [[1/4, 9/20, 37/60], [1/2, 1, 8/7]]] := by decide +kernel

end Fruits
