import Verif.Props.IteratedSums

/-! # C07, C08: prefixes and the two kernel variants -/

set_option linter.unusedSectionVars false

namespace Fruits
variable {R : Type} [Field R] [LinearOrder R] [IsStrictOrderedRing R] [FloorRing R]

private theorem getD_take_lt {α : Type*} (l : List α) (d : α) {q j : ℕ} (h : j < q) :
    (l.take q).getD j d = l.getD j d := by
  simp [List.getD_eq_getElem?_getD, h]

private theorem monos_take (Z : List (List R)) (word : List (List ℤ)) {q j : ℕ} (h : j < q) (t : ℕ) :
    monos Z (word.take q) j t = monos Z word j t := by
  unfold monos; rw [getD_take_lt _ _ h]

private theorem lins_take (Z : List (List R)) (word : List (List ℤ)) {q j : ℕ} (h : j < q) (t : ℕ) :
    lins Z (word.take q) j t = lins Z word j t := by
  unfold lins; rw [getD_take_lt _ _ h]

private theorem aW_take (expf : R → R) (Z : List (List R)) (word : List (List ℤ)) (alpha w : List R)
    {q j : ℕ} (h : j < q) (t : ℕ) :
    aW expf (monos Z (word.take q)) ((alpha.take q).getD · 0) (w.getD · 0) j t
      = aW expf (monos Z word) (alpha.getD · 0) (w.getD · 0) j t := by
  simp only [aW]
  rw [monos_take _ _ h, getD_take_lt _ _ h, getD_take_lt _ _ (by omega : j - 1 < q)]

private theorem aP_take (Z : List (List R)) (word : List (List ℤ)) (alpha w : List R)
    {q j : ℕ} (h : j < q) (t : ℕ) :
    aP (lins Z (word.take q)) ((alpha.take q).getD · 0) (w.getD · 0) j t
      = aP (lins Z word) (alpha.getD · 0) (w.getD · 0) j t := by
  simp only [aP]
  rw [lins_take _ _ h, getD_take_lt _ _ h, getD_take_lt _ _ (by omega : j - 1 < q)]

theorem fastSingle_prefix (expf : R → R) {k : SemiringKind} (hk : k ≠ .arcticArgmax)
    {Z : List (List R)} {n : ℕ}
    (hZ : Rect Z n) (hne : Z ≠ []) {word : List (List ℤ)} (hfit : ∀ el ∈ word, Fits Z el)
    (alpha : List R) {weights : List R} (hw : weights.length = n) {ext : ℕ}
    (he : ext ≤ word.length) (total : Bool) :
    fastSingle expf k Z word alpha weights ext total
      = tab ext (fun r => (fastSingle expf k Z (word.take (word.length - ext + r + 1))
          (alpha.take (word.length - ext + r + 1)) weights 1 total).getD 0 []) := by
  have hft : ∀ q, ∀ el ∈ word.take q, Fits Z el := fun q el h => hfit el (List.mem_of_mem_take h)
  have hl : ∀ r, r < ext → (word.take (word.length - ext + r + 1)).length
      = word.length - ext + r + 1 := by intro r hr; simp; omega
  have hl1 : ∀ r, r < ext → 1 ≤ (word.take (word.length - ext + r + 1)).length := by
    intro r hr; rw [hl r hr]; omega
  have hq : ∀ r, word.length - ext + r + 1 - 1 + 0 = word.length - ext + r := by omega
  have hcong : ∀ {f g : ℕ → List R}, (∀ r < ext, f r = g r) → tab ext f = tab ext g :=
    fun h => tab_congr h
  cases k with
  | arcticArgmax => exact absurd rfl hk
  | reals =>
    cases total with
    | true =>
      simp only [fastSingle]
      rw [totalReals_eq expf hZ hne hfit alpha hw he]
      apply hcong; intro r hr
      rw [totalReals_eq expf hZ hne (hft _) _ hw (hl1 r hr), hl r hr,
        tab_getD _ _ _ _ (by omega), hq]
      apply tab_congr; intro t _
      congr 1
      · apply incSum_congr
        intro j hj s _
        rw [aW_take _ _ _ _ _ hj]
      · rw [getD_take_lt _ _ (by omega)]
    | false =>
      simp only [fastSingle]
      rw [realsSingle_eq expf hZ hne hfit alpha hw he]
      apply hcong; intro r hr
      rw [realsSingle_eq expf hZ hne (hft _) _ hw (hl1 r hr), hl r hr,
        tab_getD _ _ _ _ (by omega), hq]
      apply tab_congr; intro t _
      apply Finset.sum_congr rfl
      intro s _
      rw [monos_take _ _ (by omega), getD_take_lt _ _ (by omega)]
      congr 1
      apply incSum_congr
      intro j hj s _
      rw [aW_take _ _ _ _ _ (by omega)]
  | arctic =>
    cases total with
    | true =>
      simp only [fastSingle]
      rw [totalArctic_eq hZ hne hfit alpha hw he]
      apply hcong; intro r hr
      rw [totalArctic_eq hZ hne (hft _) _ hw (hl1 r hr), hl r hr,
        tab_getD _ _ _ _ (by omega), hq]
      apply tab_congr; intro t _
      rw [getD_take_lt _ _ (by omega)]
      congr 1
      apply chainMax_congr
      intro j hj s _
      rw [aP_take _ _ _ _ (by omega)]
    | false =>
      simp only [fastSingle]
      rw [arcticSingle_eq hZ hne hfit alpha hw he]
      apply hcong; intro r hr
      rw [arcticSingle_eq hZ hne (hft _) _ hw (hl1 r hr), hl r hr,
        tab_getD _ _ _ _ (by omega), hq]
      apply tab_congr; intro t _
      apply runMax_congr
      intro s _
      rw [lins_take _ _ (by omega), getD_take_lt _ _ (by omega)]
      congr 1
      apply chainMax_congr
      intro j hj s _
      rw [aP_take _ _ _ _ (by omega)]
  | bayesian =>
    cases total with
    | true =>
      simp only [fastSingle]
      rw [totalBayesian_eq expf hZ hne hfit alpha hw he]
      apply hcong; intro r hr
      rw [totalBayesian_eq expf hZ hne (hft _) _ hw (hl1 r hr), hl r hr,
        tab_getD _ _ _ _ (by omega), hq]
      apply tab_congr; intro t _
      rw [getD_take_lt _ _ (by omega)]
      congr 1
      apply chainMax_congr
      intro j hj s _
      rw [aW_take _ _ _ _ _ (by omega)]
    | false =>
      simp only [fastSingle]
      rw [bayesianSingle_eq expf hZ hne hfit alpha hw he]
      apply hcong; intro r hr
      rw [bayesianSingle_eq expf hZ hne (hft _) _ hw (hl1 r hr), hl r hr,
        tab_getD _ _ _ _ (by omega), hq]
      apply tab_congr; intro t _
      apply runMax_congr
      intro s _
      rw [monos_take _ _ (by omega), getD_take_lt _ _ (by omega)]
      congr 1
      apply chainMax_congr
      intro j hj s _
      rw [aW_take _ _ _ _ _ (by omega)]

/-- **C07**: the semiring asked for the last `m` iterated sums of a word with `p ≥ m` extended letters: for
series `j` it returns `m` rows, and row `r` is what it returns for the word `v` consisting of the first
`p - m + r + 1` extended letters (and entries of `alpha`) of `w` when asked for one iterated sum. -/
theorem C07_rows_are_prefixes (expf : R → R) {k : SemiringKind} (hk : k ≠ .arcticArgmax)
    {X : Data R} {D n : ℕ} (hX : IsData X D n) (hD : 0 < D) (w : SWord R)
    (hfit : ∀ el ∈ w.els, el.length ≤ D) (wt : Option (Weighting R))
    (hlook : ∀ g, wt = some g → LookupFor g X n) {m : ℕ} (hm : m ≤ w.els.length)
    (j : ℕ) (hj : j < X.length) :
    (((iteratedSums expf k X (.simple w) m wt).getD j []).length = m) ∧
    ∀ r < m, ∀ v : SWord R, v.els = w.els.take (w.els.length - m + r + 1) →
      v.getAlpha = w.getAlpha.take (w.els.length - m + r + 1) →
      ((iteratedSums expf k X (.simple w) m wt).getD j []).getD r []
        = ((iteratedSums expf k X (.simple v) 1 wt).getD j []).getD 0 [] := by
  have hZ := hX _ (List.getElem_mem hj)
  have hne : X[j] ≠ [] := by
    intro h; have := hZ.1; rw [h] at this; simp at this; omega
  have hf : ∀ el ∈ w.els, Fits X[j] el := fun el hel => by
    unfold Fits; rw [hZ.1]; exact hfit el hel
  cases wt with
  | none =>
    have hl : (X.map fun Z => (zeros (ncols Z) : List R)).getD j [] = zeros n := by
      simp [List.getD_eq_getElem?_getD, hj, ncols_eq hZ.2 hne]
    have e : ∀ (v : SWord R) (ext : ℕ), (iteratedSums expf k X (.simple v) ext none).getD j []
        = fastSingle expf k X[j] v.els (zeros v.els.length) (zeros n) ext true := by
      intro v ext
      rw [← hl]
      simp [iteratedSums, List.getD_eq_getElem?_getD, hj]
    rw [e, fastSingle_prefix expf hk hZ.2 hne hf (zeros w.els.length) (weights := zeros n)
      (by simp) hm true]
    refine ⟨by simp, ?_⟩
    intro r hr v hv _
    rw [tab_getD _ _ _ _ hr, e, hv]
    congr 2
    rw [zeros, zeros, List.take_replicate]; simp
  | some g =>
    have hlk := hlook g rfl
    have hjl : j < (g.lookup X).length := by rw [hlk.1]; exact hj
    have hwl : ((g.lookup X).getD j []).length = n := by
      apply hlk.2
      simp [List.getD_eq_getElem?_getD, hjl]
    have e : ∀ (v : SWord R) (ext : ℕ), (iteratedSums expf k X (.simple v) ext (some g)).getD j []
        = fastSingle expf k X[j] v.els v.getAlpha ((g.lookup X).getD j []) ext g.total := by
      intro v ext
      simp [iteratedSums, List.getD_eq_getElem?_getD, hj]
    rw [e, fastSingle_prefix expf hk hZ.2 hne hf w.getAlpha hwl hm g.total]
    refine ⟨by simp, ?_⟩
    intro r hr v hv ha
    rw [tab_getD _ _ _ _ hr, e, hv, ha]

/-- The hypotheses of C07 are satisfiable: the word `[1][12]` has the prefix `[1]`. -/
example : ∃ v : SWord ℚ, v.els = [[1, 0], [1, 1]].take 1 ∧
    v.getAlpha = (⟨[[1, 0], [1, 1]], 2, "[1][12]".toList, some [2, 3]⟩ : SWord ℚ).getAlpha.take 1 :=
  ⟨⟨[[1, 0]], 2, "[1]".toList, some [2]⟩, rfl, rfl⟩

/-- **C08**: without a weighting (`alpha = 0`, `lookup = 0`, as the library calls the kernels) the plain and
the total-weighted kernels return the same arrays. -/
theorem C08_plain_eq_total {expf : R → R} (hexp : ExpLike expf) (k : SemiringKind)
    {Z : List (List R)} {n : ℕ} (hZ : Rect Z n) (hne : Z ≠ []) {word : List (List ℤ)}
    (hfit : ∀ el ∈ word, el.length ≤ Z.length) {ext : ℕ} (he : ext ≤ word.length) :
    fastSingle expf k Z word (zeros word.length) (zeros n) ext true
      = fastSingle expf k Z word (zeros word.length) (zeros n) ext false := by
  have hz : ∀ k s : ℕ, (zeros k : List R).getD s 0 = 0 := by
    intro k s
    simp only [zeros, List.getD_eq_getElem?_getD, List.getElem?_replicate]
    split <;> rfl
  have hfit' : ∀ el ∈ word, Fits Z el := hfit
  cases k with
  | arcticArgmax => rfl
  | reals =>
    simp only [fastSingle]
    rw [totalReals_eq expf hZ hne hfit' _ (by simp) he, realsSingle_eq expf hZ hne hfit' _ (by simp) he]
    apply tab_congr; intro r _
    apply tab_congr; intro t _
    rw [incSum_succ, Finset.sum_mul]
    apply Finset.sum_congr rfl
    intro s _
    simp only [aW, hz, mul_zero, hexp.zero, mul_one, ite_self]
  | arctic =>
    simp only [fastSingle]
    rw [totalArctic_eq hZ hne hfit' _ (by simp) he, arcticSingle_eq hZ hne hfit' _ (by simp) he]
    apply tab_congr; intro r _
    apply tab_congr; intro t _
    rw [chainMax]
    simp only [aP, hz, mul_zero, sub_zero, add_zero]
  | bayesian =>
    simp only [fastSingle]
    rw [totalBayesian_eq expf hZ hne hfit' _ (by simp) he,
      bayesianSingle_eq expf hZ hne hfit' _ (by simp) he]
    apply tab_congr; intro r _
    apply tab_congr; intro t _
    rw [chainMax]
    simp only [aW, hz, mul_zero, hexp.zero, mul_one]

example : Rect ([[1, 2, 3], [4, 5, 6]] : List (List ℚ)) 3 ∧
    ∀ el ∈ ([[1, 0], [1, 1]] : List (List ℤ)), el.length ≤ 2 := by simp [Rect]

end Fruits
