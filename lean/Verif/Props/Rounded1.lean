import Verif.RoundedKernels
import Verif.RoundedBinary
import Verif.Props.IteratedSums

/-!
# C153: the rounding errors of iterated sums

`F : Fp R` is any floating-point format (`Verif.Rounded`), `γ_N = (1 + u)^N - 1`.  The number of operations `N` is
written out in every statement.
-/

namespace Fruits
set_option linter.unusedSectionVars false
variable {R : Type} [Field R] [LinearOrder R] [IsStrictOrderedRing R] [FloorRing R]

/-! ### the rounded model and the exact model -/

omit [FloorRing R] in
theorem Fp.exact_cumsumFrom (acc : R) (x : List R) : (Fp.exact : Fp R).cumsumFrom acc x = Fruits.cumsumFrom acc x := by
  induction x generalizing acc with
  | nil => rfl
  | cons a x ih => simp only [Fp.cumsumFrom, Fruits.cumsumFrom, ih]; rfl

/-- Without rounding, the rounded kernels are the kernels of the exact model. -/
theorem C153_exact (expf : R → R) (k : RKind) (Z : List (List R)) (word : List (List ℤ)) (alpha lookup : List R)
    (ext : ℕ) (total : Bool) :
    (Fp.exact : Fp R).fastSingle expf k Z word alpha lookup ext total
      = fastSingle expf k.toKind Z word alpha lookup ext total := by
  have hc : ∀ x : List R, (Fp.exact : Fp R).cumsum x = cumsum x := fun x => Fp.exact_cumsumFrom 0 x
  cases k <;> cases total <;>
    simp only [Fp.fastSingle, fastSingle, RKind.toKind, Fp.totalReals, Fp.realsSingle, Fp.totalArctic, Fp.arcticSingle,
      Fp.totalBayesian, Fp.bayesianSingle, hc] <;> rfl

/-- Without rounding, the rounded `ISS.transform` is that of the exact model. -/
theorem C153_exact_iss (expf : R → R) (k : RKind) {words : List (SWord R)} (hne : words ≠ [])
    (wt : Option (Weighting R)) (X : Data R) :
    (⟨words.map .simple, .single, k.toKind, wt⟩ : ISSConf R).transform expf X
      = .ok ((Fp.exact : Fp R).issSingle expf k words wt X) := by
  rw [single_transform expf (by cases k <;> simp [RKind.toKind]) words hne]
  congr 1
  apply List.map_congr_left
  intro w _
  simp only [iteratedSums, Fp.iteratedSums, C153_exact]
  cases wt <;> rfl

/-! ### the kernels, with a weighting -/

/-- `|Z|`, elementwise. -/
def absSeries (Z : List (List R)) : List (List R) := Z.map (List.map abs)

/-- The rounding error factor `(1 + u)^N - 1`. -/
example (F : Fp R) (N : ℕ) : F.gam N = (1 + F.u) ^ N - 1 := rfl

theorem entry_abs (Z : List (List R)) (d t : ℕ) : entry (absSeries Z) d t = |entry Z d t| := by
  simp only [entry, absSeries, List.getD_eq_getElem?_getD, List.getElem?_map]
  cases h : Z[d]? with
  | none => simp
  | some x =>
    simp only [Option.map_some, Option.getD_some, List.getElem?_map]
    cases x[t]? <;> simp

theorem monos_abs (Z : List (List R)) (word : List (List ℤ)) (j t : ℕ) :
    monos (absSeries Z) word j t = |monos Z word j t| := by
  simp only [monos, monomial, Finset.abs_prod, entry_abs, abs_zpow]

theorem rect_abs {Z : List (List R)} {n : ℕ} (h : Rect Z n) : Rect (absSeries Z) n := by
  intro x hx
  obtain ⟨y, hy, rfl⟩ := List.mem_map.1 hx
  simpa using h y hy

theorem abs_ne {Z : List (List R)} (h : Z ≠ []) : absSeries Z ≠ [] := by simpa [absSeries] using h

theorem fits_abs {Z : List (List R)} {word : List (List ℤ)} (h : ∀ el ∈ word, Fits Z el) :
    ∀ el ∈ word, Fits (absSeries Z) el := fun el hel => by
  have := h el hel
  simpa [Fits, absSeries] using this

theorem mexp_nonneg (F : Fp R) {expf : R → R} (h : ∀ x, 0 ≤ expf x) (x : R) : 0 ≤ F.mexp expf x := by
  have := F.mono (h (F.rnd x))
  rwa [F.zero] at this

theorem aW_abs (F : Fp R) {expf : R → R} (h : ∀ x, 0 ≤ expf x) (Z : List (List R)) (word : List (List ℤ))
    (al g : ℕ → R) : (fun j s => |aW (F.mexp expf) (monos Z word) al g j s|)
      = aW (F.mexp expf) (monos (absSeries Z) word) al g := by
  funext j s
  rw [abs_aW]
  simp only [aW, monos_abs, abs_of_nonneg (mexp_nonneg F h _)]

theorem NearV.entry {F : Fp R} {n k : ℕ} {a A : ℕ → R} {L : List (List R)} {r t : ℕ} (h : NearV F n k a A (L.getD r []))
    (ht : t < n) : |at2 L r t - a t| ≤ F.gam k * A t := by
  obtain ⟨x, e, hx⟩ := h
  rw [at2, e, tab_getD _ _ _ _ ht]
  exact (hx t ht).err

theorem at2_tab_tab {ext n r t : ℕ} (f : ℕ → ℕ → R) (hr : r < ext) (ht : t < n) :
    at2 (tab ext fun r => tab n (f r)) r t = f r t := by
  rw [at2, tab_getD _ _ _ _ hr, tab_getD _ _ _ _ ht]

/-- **C153** (kernels of `Reals`, any weighting): row `r` belongs to the prefix of `q = p - ext + r + 1` extended letters;
the computed entry differs from the entry computed without rounding (with the machine's exponential function) by at most
`(1 + u)^N - 1` times the entry for the absolute values of the data. `N` counts the factors of the letters of the
prefix and `n + 2` operations per letter. -/
theorem C153_reals_weighted (F : Fp R) {expf : R → R} (hexp : ∀ x, 0 ≤ expf x) {Z : List (List R)} {n : ℕ}
    (hZ : Rect Z n) (hne : Z ≠ []) {word : List (List ℤ)} (hfit : ∀ el ∈ word, Fits Z el) (alpha : List R)
    {lookup : List R} (hw : lookup.length = n) {ext : ℕ} (he : ext ≤ word.length) (total : Bool)
    {r t : ℕ} (hr : r < ext) (ht : t < n) :
    |at2 (F.fastSingle expf .reals Z word alpha lookup ext total) r t
        - at2 (fastSingle (F.mexp expf) .reals Z word alpha lookup ext total) r t|
      ≤ ((1 + F.u) ^ ((word.take (word.length - ext + r + 1)).map fun el => (el.map Int.natAbs).sum + n + 2).sum - 1)
        * at2 (fastSingle (F.mexp expf) .reals (absSeries Z) word alpha lookup ext total) r t := by
  cases total with
  | true =>
    simp only [Fp.fastSingle, fastSingle]
    rw [totalReals_eq _ hZ hne hfit alpha hw he,
      totalReals_eq _ (rect_abs hZ) (abs_ne hne) (fits_abs hfit) alpha hw he, at2_tab_tab _ hr ht, at2_tab_tab _ hr ht]
    have := ((Fp.totalReals_near (F := F) expf hZ hne hfit alpha hw he).2 r hr).entry ht
    rw [aW_abs F hexp, abs_of_nonneg (mexp_nonneg F hexp _)] at this
    exact this
  | false =>
    simp only [Fp.fastSingle, fastSingle]
    rw [realsSingle_eq _ hZ hne hfit alpha hw he,
      realsSingle_eq _ (rect_abs hZ) (abs_ne hne) (fits_abs hfit) alpha hw he, at2_tab_tab _ hr ht, at2_tab_tab _ hr ht]
    have := ((Fp.realsSingle_near (F := F) expf hZ hne hfit alpha hw he).2 r hr).entry ht
    rw [aW_abs F hexp] at this
    simp only [abs_mul, apply_ite abs, abs_one, abs_of_nonneg (mexp_nonneg F hexp _), ← monos_abs] at this
    exact this

/-- **C153** (kernels of `Bayesian`, any weighting): as `C153_reals_weighted`, with `2` operations per letter besides
the factors. -/
theorem C153_bayesian_weighted (F : Fp R) {expf : R → R} (hexp : ∀ x, 0 ≤ expf x) {Z : List (List R)} {n : ℕ}
    (hZ : Rect Z n) (hne : Z ≠ []) {word : List (List ℤ)} (hfit : ∀ el ∈ word, Fits Z el) (alpha : List R)
    {lookup : List R} (hw : lookup.length = n) {ext : ℕ} (he : ext ≤ word.length) (total : Bool)
    {r t : ℕ} (hr : r < ext) (ht : t < n) :
    |at2 (F.fastSingle expf .bayesian Z word alpha lookup ext total) r t
        - at2 (fastSingle (F.mexp expf) .bayesian Z word alpha lookup ext total) r t|
      ≤ ((1 + F.u) ^ ((word.take (word.length - ext + r + 1)).map fun el => (el.map Int.natAbs).sum + 2).sum - 1)
        * at2 (fastSingle (F.mexp expf) .bayesian (absSeries Z) word alpha lookup ext total) r t := by
  cases total with
  | true =>
    simp only [Fp.fastSingle, fastSingle]
    rw [totalBayesian_eq _ hZ hne hfit alpha hw he,
      totalBayesian_eq _ (rect_abs hZ) (abs_ne hne) (fits_abs hfit) alpha hw he, at2_tab_tab _ hr ht,
      at2_tab_tab _ hr ht]
    have := ((Fp.totalBayesian_near (F := F) expf hZ hne hfit alpha hw he).2 r hr).entry ht
    rw [aW_abs F hexp, abs_of_nonneg (mexp_nonneg F hexp _)] at this
    exact this
  | false =>
    simp only [Fp.fastSingle, fastSingle]
    rw [bayesianSingle_eq _ hZ hne hfit alpha hw he,
      bayesianSingle_eq _ (rect_abs hZ) (abs_ne hne) (fits_abs hfit) alpha hw he]
    have := ((Fp.bayesianSingle_near (F := F) expf hZ hne hfit alpha hw he).2 r hr).entry ht
    rw [aW_abs F hexp] at this
    simp only [abs_mul, apply_ite abs, abs_one, abs_of_nonneg (mexp_nonneg F hexp _), ← monos_abs] at this
    rw [at2_tab_tab (fun r => runMax _) hr ht, at2_tab_tab (fun r => runMax _) hr ht]
    exact this

/-- **C153** (kernels of `Arctic`, any weighting): the computed entry differs from the exact entry by at most
`(1 + u)^N - 1` times the largest sum of the absolute values of all numbers that are added up along an index tuple. -/
theorem C153_arctic_weighted (F : Fp R) (expf : R → R) {Z : List (List R)} {n : ℕ}
    (hZ : Rect Z n) (hne : Z ≠ []) {word : List (List ℤ)} (hfit : ∀ el ∈ word, Fits Z el) (alpha : List R)
    {lookup : List R} (hw : lookup.length = n) {ext : ℕ} (he : ext ≤ word.length) (total : Bool)
    {r t : ℕ} (hr : r < ext) (ht : t < n) {A : R}
    (hA : IsGreatest {v | ∃ i : Fin (word.length - ext + r + 1) → ℕ, Monotone i ∧ (∀ k, i k ≤ t) ∧
      v = ∑ k : Fin (word.length - ext + r + 1),
        ((∑ d ∈ Finset.range (word.getD k []).length, |((word.getD k []).getD d 0 : R) * entry Z d (i k)|)
          + (if (k : ℕ) = 0 then 0 else |lookup.getD (i k) 0 * alpha.getD (k - 1) 0|)
          + |lookup.getD (i k) 0 * alpha.getD k 0|)} A) :
    |at2 (F.fastSingle expf .arctic Z word alpha lookup ext total) r t
        - at2 (fastSingle expf .arctic Z word alpha lookup ext total) r t|
      ≤ ((1 + F.u) ^ (1 + ((word.take (word.length - ext + r + 1)).map fun el => el.length + 2).sum) - 1)
        * (A + |lookup.getD t 0 * alpha.getD (word.length - ext + r) 0|) := by
  have hg := chainMax_isGreatest (· + ·) (0 : R)
    (absP (absLins Z word) (alpha.getD · 0) (lookup.getD · 0)) (word.length - ext + r + 1) n
    (fun _ _ _ _ x y h => by simpa using h) t ht
  have hAe : A = chainMax (· + ·) 0 (absP (absLins Z word) (alpha.getD · 0) (lookup.getD · 0))
      (word.length - ext + r + 1) t := by
    refine hA.unique ?_
    convert hg using 1
    ext v
    constructor
    · rintro ⟨i, h1, h2, rfl⟩
      exact ⟨i, ⟨h1, h2⟩, by rw [chainVal_add, zero_add]; rfl⟩
    · rintro ⟨i, ⟨h1, h2⟩, rfl⟩
      exact ⟨i, h1, h2, by rw [chainVal_add, zero_add]; rfl⟩
  subst hAe
  cases total with
  | true =>
    simp only [Fp.fastSingle, fastSingle]
    rw [totalArctic_eq hZ hne hfit alpha hw he, at2_tab_tab _ hr ht]
    exact ((Fp.totalArctic_near (F := F) hZ hne hfit alpha hw he).2 r hr).entry ht
  | false =>
    simp only [Fp.fastSingle, fastSingle]
    rw [arcticSingle_eq hZ hne hfit alpha hw he, at2_tab_tab (fun r => runMax _) hr ht]
    refine (((Fp.arcticSingle_near (F := F) hZ hne hfit alpha hw he).2 r hr).entry ht).trans ?_
    refine mul_le_mul_of_nonneg_left ?_ (F.gam_nonneg _)
    refine le_add_of_le_of_nonneg ?_ (abs_nonneg _)
    rw [chainMax, runMax_le_iff]
    intro s hs
    refine le_trans ?_ (le_runMax _ hs)
    simp only [absP]
    have : 0 ≤ |lookup.getD s 0 * alpha.getD (word.length - ext + r) 0| := abs_nonneg _
    linarith

end Fruits
