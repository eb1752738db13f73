import Verif.Props.Plan
import Verif.GenericLemmas

/-! # C09, C10, C22, C94: general words, causality, independence of the series -/

set_option linter.unusedSectionVars false

namespace Fruits
variable {R : Type} [Field R] [LinearOrder R] [IsStrictOrderedRing R] [FloorRing R]

/-! ## C94: words with arbitrary letters -/

/-- letters.py 84-87 `simple`, registered as `DIM`: `X[i, :]` (negative indices count from the end; an index
out of range raises in numpy and gives an empty array here). -/
def dimLetter {R : Type} (i : ℤ) : BoundLetter R := fun Z =>
  if 0 ≤ i then row Z i.toNat
  else if (-i).toNat ≤ Z.length then row Z (Z.length - (-i).toNat) else []

/-- letters.py 90-93 `absolute`, registered as `ABS`. -/
def absLetter {R : Type} [Lattice R] [AddGroup R] (i : ℤ) : BoundLetter R := fun Z =>
  (dimLetter i Z).map abs

theorem single_general (expf : R → R) {k : SemiringKind} (hk : k ≠ .arcticArgmax)
    (words : List (GWord R)) (hne : words ≠ []) (wt : Option (Weighting R)) (X : Data R) :
    (⟨words.map .general, .single, k, wt⟩ : ISSConf R).transform expf X
      = .ok (words.map fun w => X.map fun Z =>
          (slowSingle k Z (w.els.map ELetter.bound) 1).getD 0 []) := by
  rw [transform_eq expf (fun h => absurd h hk) (by simpa using hne), blockRows_flatten]
  congr 1
  have : ∀ (c : ISSConf R) (_ : c.semiring = k) (_ : c.mode = .single) (_ : c.weighting = wt)
      (ws : List (GWord R)), ((ws.map IWord.general).mapIdx fun i w => c.wordRows expf X (0 + i) w).flatten
      = ws.map fun w => X.map fun Z => (slowSingle k Z (w.els.map ELetter.bound) 1).getD 0 [] := by
    intro c h1 h2 h3 ws
    have hrow : ∀ i (w : GWord R), c.wordRows expf X i (.general w)
        = [X.map fun Z => (slowSingle k Z (w.els.map ELetter.bound) 1).getD 0 []] := by
      intro i w
      unfold ISSConf.wordRows
      have hd : c.depth i = 1 := by simp [ISSConf.depth, h2]
      have hr : rowsOf k (.general w) 1 = 1 := by unfold rowsOf; cases k <;> rfl
      rw [hd, h1, hr]
      simp [swapAxes, tab, iteratedSums]
    have hidx : (ws.map IWord.general).mapIdx (fun i w => c.wordRows expf X (0 + i) w)
        = ws.map fun w => [X.map fun Z => (slowSingle k Z (w.els.map ELetter.bound) 1).getD 0 []] := by
      apply List.ext_getElem
      · simp
      · intro i h1 h2
        simp [hrow]
    rw [hidx]
    clear hidx
    induction ws with
    | nil => rfl
    | cons w ws ih => rw [List.map_cons, List.flatten_cons, ih]; rfl
  exact this ⟨words.map .general, .single, k, wt⟩ rfl rfl rfl words

/-- Every letter of the words returns, for every series of `X`, an array of the length of the series. -/
def LettersOK {R : Type} (X : Data R) (n : ℕ) (words : List (GWord R)) : Prop :=
  ∀ w ∈ words, ∀ el ∈ w.els, ∀ l ∈ el.bound, ∀ Z ∈ X, (l Z).length = n

/-- Value of the `k`-th extended letter of a general word at time `t`, multiplicatively. -/
def wordProd {R : Type} [Field R] (w : GWord R) (Z : List (List R)) (k : Fin w.els.length) (t : ℕ) : R :=
  (w.els[k].bound.map fun l => (l Z).getD t 0).prod

/-- Value of the `k`-th extended letter of a general word at time `t`, additively. -/
def wordSum {R : Type} [Field R] (w : GWord R) (Z : List (List R)) (k : Fin w.els.length) (t : ℕ) : R :=
  (w.els[k].bound.map fun l => (l Z).getD t 0).sum

private theorem fits_of {X : Data R} {n : ℕ} {words : List (GWord R)} (h : LettersOK X n words)
    {w : GWord R} (hw : w ∈ words) {Z : List (List R)} (hZ : Z ∈ X) :
    LettersFit Z n (w.els.map ELetter.bound) := by
  intro el hel l hl
  obtain ⟨e, he, rfl⟩ := List.mem_map.1 hel
  exact h w hw e he l hl Z hZ

private theorem prods_eq (w : GWord R) (Z : List (List R)) (k : Fin w.els.length) (t : ℕ) :
    prods Z (w.els.map ELetter.bound) k t = wordProd w Z k t := by
  simp [prods, wordProd, letterProd, List.getD_eq_getElem?_getD]

private theorem sums_eq (w : GWord R) (Z : List (List R)) (k : Fin w.els.length) (t : ℕ) :
    sums Z (w.els.map ELetter.bound) k t = wordSum w Z k t := by
  simp [sums, wordSum, letterSum, List.getD_eq_getElem?_getD]

/-- **C94**, Reals: a word with arbitrary letters gives the strict iterated sum of the products of its
letters; a weighting has no effect on such words. -/
theorem C94_general_reals (expf : R → R) {X : Data R} {D n : ℕ} (hX : IsData X D n) (hD : 0 < D)
    {words : List (GWord R)} (hne : words ≠ []) (hw1 : ∀ w ∈ words, w.els ≠ [])
    (hl : LettersOK X n words) (wt : Option (Weighting R)) :
    (⟨words.map .general, .single, .reals, wt⟩ : ISSConf R).transform expf X
      = .ok (words.map fun w => X.map fun Z => tab n fun t =>
          ∑ i ∈ incTuples w.els.length (t + 1), ∏ k : Fin w.els.length, wordProd w Z k (i k)) := by
  rw [single_general expf (by simp) words hne]
  congr 1
  apply List.map_congr_left
  intro w hw
  apply List.map_congr_left
  intro Z hZ
  have hZn : Z ≠ [] := by
    intro h; have := (hX Z hZ).1; rw [h] at this; simp at this; omega
  have hp := List.length_pos_iff.2 (hw1 w hw)
  simp only [slowSingle]
  rw [genericReals_eq (hX Z hZ).2 hZn (fits_of hl hw hZ) (by rw [List.length_map]; exact hp), tab_getD _ _ _ _ (by omega)]
  apply tab_congr; intro t _
  unfold incSum
  rw [show (w.els.map ELetter.bound).length - 1 + 0 + 1 = w.els.length by simp; omega]
  apply Finset.sum_congr rfl
  intro i _
  apply Finset.prod_congr rfl
  intro k _
  exact prods_eq w Z k _

/-- **C94**, Arctic: the attained maximum over all `i_1 ≤ … ≤ i_p ≤ t` of the sum of the letter values. -/
theorem C94_general_arctic (expf : R → R) {X : Data R} {D n : ℕ} (hX : IsData X D n) (hD : 0 < D)
    {words : List (GWord R)} (hne : words ≠ []) (hw1 : ∀ w ∈ words, w.els ≠ [])
    (hl : LettersOK X n words) (wt : Option (Weighting R)) :
    ∃ F : GWord R → List (List R) → ℕ → R,
      (⟨words.map .general, .single, .arctic, wt⟩ : ISSConf R).transform expf X
        = .ok (words.map fun w => X.map fun Z => tab n (F w Z)) ∧
      ∀ w ∈ words, ∀ Z ∈ X, ∀ t < n,
        IsGreatest {v | ∃ i : Fin w.els.length → ℕ, Monotone i ∧ (∀ k, i k ≤ t) ∧
          v = ∑ k : Fin w.els.length, wordSum w Z k (i k)} (F w Z t) := by
  refine ⟨fun w Z t => chainMax (· + ·) 0 (sums Z (w.els.map ELetter.bound)) w.els.length t, ?_, ?_⟩
  · rw [single_general expf (by simp) words hne]
    congr 1
    apply List.map_congr_left
    intro w hw
    apply List.map_congr_left
    intro Z hZ
    have hZn : Z ≠ [] := by
      intro h; have := (hX Z hZ).1; rw [h] at this; simp at this; omega
    have hp := List.length_pos_iff.2 (hw1 w hw)
    simp only [slowSingle]
    rw [genericArctic_eq (hX Z hZ).2 hZn (fits_of hl hw hZ) (by rw [List.length_map]; exact hp),
      tab_getD _ _ _ _ (by omega)]
    rw [show (w.els.map ELetter.bound).length - 1 + 0 + 1 = w.els.length by simp; omega]
  · intro w hw Z hZ t ht
    have := chainMax_isGreatest (· + ·) 0 (sums Z (w.els.map ELetter.bound)) w.els.length n
      (fun _ _ _ _ => fun _ _ h => by simpa using h) t ht
    convert this using 1
    ext v
    constructor
    · rintro ⟨i, h1, h2, rfl⟩
      refine ⟨i, ⟨h1, h2⟩, ?_⟩
      rw [chainVal_add, zero_add]
      exact Finset.sum_congr rfl fun k _ => (sums_eq w Z k _).symm
    · rintro ⟨i, ⟨h1, h2⟩, rfl⟩
      refine ⟨i, h1, h2, ?_⟩
      rw [chainVal_add, zero_add]
      exact Finset.sum_congr rfl fun k _ => sums_eq w Z k _

/-- **C94**, Bayesian with non-negative letter values: the attained maximum over all STRICTLY increasing
`i_1 < … < i_p ≤ t` (unlike `SimpleWord`s, see C03) of the product of the letter values, and `0` at the times
`t < p - 1` where there is no such tuple. -/
theorem C94_general_bayesian (expf : R → R) {X : Data R} {D n : ℕ} (hX : IsData X D n) (hD : 0 < D)
    {words : List (GWord R)} (hne : words ≠ []) (hw1 : ∀ w ∈ words, w.els ≠ [])
    (hl : LettersOK X n words) (wt : Option (Weighting R))
    (hpos : ∀ w ∈ words, ∀ Z ∈ X, ∀ k t, t < n → 0 ≤ wordProd w Z k t) :
    ∃ F : GWord R → List (List R) → ℕ → R,
      (⟨words.map .general, .single, .bayesian, wt⟩ : ISSConf R).transform expf X
        = .ok (words.map fun w => X.map fun Z => tab n (F w Z)) ∧
      ∀ w ∈ words, ∀ Z ∈ X, ∀ t < n,
        (t + 1 < w.els.length → F w Z t = 0) ∧
        (w.els.length ≤ t + 1 →
          IsGreatest {v | ∃ i : Fin w.els.length → ℕ, StrictMono i ∧ (∀ k, i k ≤ t) ∧
            v = ∏ k : Fin w.els.length, wordProd w Z k (i k)} (F w Z t)) := by
  refine ⟨fun w Z t => strictMax (prods Z (w.els.map ELetter.bound)) (w.els.length - 1) t, ?_, ?_⟩
  · rw [single_general expf (by simp) words hne]
    congr 1
    apply List.map_congr_left
    intro w hw
    apply List.map_congr_left
    intro Z hZ
    have hZn : Z ≠ [] := by
      intro h; have := (hX Z hZ).1; rw [h] at this; simp at this; omega
    have hp := List.length_pos_iff.2 (hw1 w hw)
    simp only [slowSingle]
    rw [genericBayesian_eq (hX Z hZ).2 hZn (fits_of hl hw hZ) (by rw [List.length_map]; exact hp),
      tab_getD _ _ _ _ (by omega)]
    rw [show (w.els.map ELetter.bound).length - 1 + 0 = w.els.length - 1 by simp]
  · intro w hw Z hZ t ht
    have hp := List.length_pos_iff.2 (hw1 w hw)
    obtain ⟨p, hpp⟩ : ∃ p, w.els.length = p + 1 := ⟨w.els.length - 1, by omega⟩
    constructor
    · intro h
      obtain ⟨q, rfl⟩ : ∃ q, p = q + 1 := ⟨p - 1, by omega⟩
      simp only [hpp, Nat.add_sub_cancel]
      rw [strictMax, if_pos (by omega)]
    · intro h
      have := strictMax_isGreatest (prods Z (w.els.map ELetter.bound)) n (w.els.length - 1)
        (fun j hj s hs => by
          have := hpos w hw Z hZ ⟨j, by omega⟩ s hs
          rwa [← prods_eq] at this) t (by omega) ht
      rw [Nat.sub_add_cancel hp] at this
      convert this using 1
      ext v
      constructor
      · rintro ⟨i, h1, h2, rfl⟩
        exact ⟨i, h1, h2, Finset.prod_congr rfl fun k _ => (prods_eq w Z k _).symm⟩
      · rintro ⟨i, h1, h2, rfl⟩
        exact ⟨i, h1, h2, Finset.prod_congr rfl fun k _ => prods_eq w Z k _⟩

/-- The word `[DIM(1)][ABS(2)DIM(1)]`. -/
def exGWord : GWord ℚ :=
  ⟨[⟨[dimLetter], [0], "DIM(1)".toList⟩, ⟨[absLetter, dimLetter], [1, 0], "ABS(2)DIM(1)".toList⟩], none⟩

example : LettersOK exX 3 [exGWord] ∧ exGWord.els ≠ [] := by
  refine ⟨?_, by simp [exGWord]⟩
  intro w hw el hel l hl Z hZ
  simp only [List.mem_singleton] at hw
  subst hw
  simp only [exGWord, List.mem_cons, List.not_mem_nil, or_false] at hel
  simp only [exX, List.mem_cons, List.not_mem_nil, or_false] at hZ
  rcases hel with rfl | rfl <;>
    simp only [ELetter.bound, List.zipWith_cons_cons, List.zipWith_nil_right, List.mem_cons,
      List.not_mem_nil, or_false] at hl
  · subst hl
    rcases hZ with rfl | rfl <;> simp [dimLetter, row]
  · rcases hl with rfl | rfl <;> rcases hZ with rfl | rfl <;> simp [dimLetter, absLetter, row]

/-! ## C09 -/

/-- The general word `g` is written with the letter `DIM` only, `dss` being the (0-based) dimensions in its
brackets, and the simple word `w` has the same letters: each exponent is the number of occurrences. -/
structure SameDims {R : Type} (D : ℕ) (g : GWord R) (w : SWord R) (dss : List (List ℕ)) : Prop where
  general : g.els.map ELetter.bound = dss.map (fun ds : List ℕ => ds.map fun d : ℕ => dimLetter (d : ℤ))
  simple : w.els.length = dss.length
  counts : ∀ k < dss.length, ∀ d, (w.els.getD k []).getD d 0 = ((dss.getD k []).count d : ℤ)
  dims : ∀ ds ∈ dss, ∀ d ∈ ds, d < D

private theorem dim_getD {Z : List (List R)} (d t : ℕ) :
    ((dimLetter (d : ℤ)) Z).getD t 0 = entry Z d t := by
  simp [dimLetter, row, entry]

private theorem monomial_counts (Z : List (List R)) (el : List ℤ) (ds : List ℕ)
    (h : ∀ d, el.getD d 0 = (ds.count d : ℤ)) (t : ℕ) :
    monomial Z el t = (ds.map fun d => entry Z d t).prod := by
  rw [Finset.prod_list_map_count]
  unfold monomial
  simp only [h, zpow_natCast]
  symm
  apply Finset.prod_subset
  · intro d hd
    rw [List.mem_toFinset] at hd
    rw [Finset.mem_range]
    by_contra hn
    have := h d
    rw [List.getD_eq_getElem?_getD, List.getElem?_eq_none (by omega)] at this
    have h2 := List.count_pos_iff.2 hd
    simp only [Option.getD_none] at this
    omega
  · intro d _ hd
    rw [List.mem_toFinset] at hd
    rw [List.count_eq_zero_of_not_mem hd, pow_zero]

private theorem linform_counts (Z : List (List R)) (el : List ℤ) (ds : List ℕ)
    (h : ∀ d, el.getD d 0 = (ds.count d : ℤ)) (t : ℕ) :
    linform Z el t = (ds.map fun d => entry Z d t).sum := by
  rw [Finset.sum_list_map_count]
  unfold linform
  simp only [h]
  symm
  simp only [nsmul_eq_mul, Int.cast_natCast]
  apply Finset.sum_subset
  · intro d hd
    rw [List.mem_toFinset] at hd
    rw [Finset.mem_range]
    by_contra hn
    have := h d
    rw [List.getD_eq_getElem?_getD, List.getElem?_eq_none (by omega)] at this
    have h2 := List.count_pos_iff.2 hd
    simp only [Option.getD_none] at this
    omega
  · intro d _ hd
    rw [List.mem_toFinset] at hd
    rw [List.count_eq_zero_of_not_mem hd]; simp

private theorem dims_fit {D n : ℕ} {g : GWord R} {w : SWord R} {dss : List (List ℕ)}
    (h : SameDims D g w dss) {Z : List (List R)} (hZ : Z.length = D ∧ Rect Z n) :
    LettersFit Z n (g.els.map ELetter.bound) := by
  rw [h.general]
  intro el hel l hl
  obtain ⟨ds, hds, rfl⟩ := List.mem_map.1 hel
  obtain ⟨d, hd, rfl⟩ := List.mem_map.1 hl
  have hlt : d < Z.length := by rw [hZ.1]; exact h.dims ds hds d hd
  simp only [dimLetter, Int.natCast_nonneg, if_true, Int.toNat_natCast, row, List.getD_eq_getElem?_getD,
    hlt, List.getElem?_eq_getElem, Option.getD_some]
  exact hZ.2 _ (List.getElem_mem hlt)

/-- **C09** (partial): words written with `DIM` letters give the same SINGLE-mode iterated sums as the
corresponding simple words in the Reals and Arctic semirings (no weighting), and for words with one extended
letter also in the Bayesian semiring.  Missing: for the Bayesian semiring and longer words the claim is
false, see `C09_bayesian_counterexample`. -/
theorem C09_dim_words_partial {expf : R → R} (hexp : ExpLike expf) (k : SemiringKind)
    {X : Data R} {D n : ℕ} {ws : List (SWord R)} (hadm : Admissible X D n ws)
    (gs : List (GWord R)) (hgs : List.Forall₂ (fun g w => ∃ dss, SameDims D g w dss) gs ws)
    (hk : k = .reals ∨ k = .arctic ∨ (k = .bayesian ∧ ∀ w ∈ ws, w.els.length = 1)) :
    (⟨gs.map .general, .single, k, none⟩ : ISSConf R).transform expf X
      = (⟨ws.map .simple, .single, k, none⟩ : ISSConf R).transform expf X := by
  have hka : k ≠ .arcticArgmax := by rcases hk with rfl | rfl | ⟨rfl, _⟩ <;> simp
  have hgne : gs ≠ [] := by
    intro h; rw [h] at hgs; cases hgs; exact hadm.nonempty rfl
  rw [single_transform expf hka ws hadm.nonempty, single_general expf hka gs hgne]
  congr 1
  have key : ∀ g w, w ∈ ws → (∃ dss, SameDims D g w dss) →
      (X.map fun Z => (slowSingle k Z (g.els.map ELetter.bound) 1).getD 0 [])
        = (iteratedSums expf k X (.simple w) 1 none).map (fun a => a.getD 0 []) := by
    rintro g w hw ⟨dss, hs⟩
    simp only [iteratedSums]
    apply List.ext_getElem
    · simp
    intro j h1 h2
    have hj : j < X.length := by simpa using h1
    simp only [List.getElem_map, List.getElem_mapIdx]
    have hZ := hadm.data _ (List.getElem_mem hj)
    have hne : X[j] ≠ [] := by
      intro h; have := hZ.1; have := hadm.dims; rw [h] at *; simp at *; omega
    have hl : (X.map fun Z => (zeros (ncols Z) : List R)).getD j [] = zeros n := by
      simp [List.getD_eq_getElem?_getD, hj, ncols_eq hZ.2 hne]
    rw [hl]
    have hfit : ∀ el ∈ w.els, Fits X[j] el := fun el hel => by
      unfold Fits; rw [hZ.1]; exact hadm.fits w hw el hel
    have hp : 1 ≤ w.els.length := List.length_pos_iff.2 (hadm.letters w hw)
    have hgl : (g.els.map ELetter.bound).length = w.els.length := by
      rw [hs.general, hs.simple]; simp
    have hz : ∀ k s : ℕ, (zeros k : List R).getD s 0 = 0 := by
      intro k s
      simp only [zeros, List.getD_eq_getElem?_getD, List.getElem?_replicate]
      split <;> rfl
    have hget : ∀ q, q < w.els.length → (g.els.map ELetter.bound).getD q []
        = (dss.getD q []).map fun d : ℕ => dimLetter (d : ℤ) := by
      intro q hq
      rw [hs.general]
      rw [hs.simple] at hq
      simp [List.getD_eq_getElem?_getD, hq]
    have hmon : ∀ q < w.els.length, ∀ t, monos X[j] w.els q t
        = prods X[j] (g.els.map ELetter.bound) q t := by
      intro q hq t
      unfold monos prods letterProd
      rw [hget q hq, List.map_map]
      have : ((fun l : BoundLetter R => (l X[j]).getD t 0) ∘ fun d : ℕ => dimLetter (d : ℤ))
          = fun d => entry X[j] d t := by
        funext d; exact dim_getD d t
      rw [this]
      exact monomial_counts X[j] _ _ (hs.counts q (by rw [← hs.simple]; exact hq)) t
    have hlin : ∀ q < w.els.length, ∀ t, lins X[j] w.els q t
        = sums X[j] (g.els.map ELetter.bound) q t := by
      intro q hq t
      unfold lins sums letterSum
      rw [hget q hq, List.map_map]
      have : ((fun l : BoundLetter R => (l X[j]).getD t 0) ∘ fun d : ℕ => dimLetter (d : ℤ))
          = fun d => entry X[j] d t := by
        funext d; exact dim_getD d t
      rw [this]
      exact linform_counts X[j] _ _ (hs.counts q (by rw [← hs.simple]; exact hq)) t
    have hgf := dims_fit hs hZ
    rcases hk with rfl | rfl | ⟨rfl, hb1⟩
    · simp only [slowSingle, fastSingle]
      rw [genericReals_eq hZ.2 hne hgf (by omega), totalReals_eq expf hZ.2 hne hfit _ (by simp) hp,
        tab_getD _ _ _ _ (by omega), tab_getD _ _ _ _ (by omega), hgl]
      apply tab_congr; intro t _
      simp only [hz, mul_zero, hexp.zero, mul_one]
      apply incSum_congr
      intro q hq s _
      simp only [aW, hz, mul_zero, hexp.zero, mul_one, ite_self]
      exact (hmon q (by omega) s).symm
    · simp only [slowSingle, fastSingle]
      rw [genericArctic_eq hZ.2 hne hgf (by omega), totalArctic_eq hZ.2 hne hfit _ (by simp) hp,
        tab_getD _ _ _ _ (by omega), tab_getD _ _ _ _ (by omega), hgl]
      apply tab_congr; intro t _
      simp only [hz, mul_zero, sub_zero]
      apply chainMax_congr
      intro q hq s _
      simp only [aP, hz, mul_zero, sub_zero, add_zero, ite_self]
      exact (hlin q (by omega) s).symm
    · have hw1 := hb1 w hw
      simp only [slowSingle, fastSingle]
      rw [genericBayesian_eq hZ.2 hne hgf (by omega), totalBayesian_eq expf hZ.2 hne hfit _ (by simp) hp,
        tab_getD _ _ _ _ (by omega), tab_getD _ _ _ _ (by omega), hgl, hw1]
      apply tab_congr; intro t _
      simp only [hz, mul_zero, hexp.zero, mul_one]
      simp only [Nat.sub_self, Nat.zero_add, strictMax, chainMax, one_mul]
      apply runMax_congr
      intro s _
      simp only [aW, hz, mul_zero, hexp.zero, mul_one, if_true]
      exact (hmon 0 (by omega) s).symm
  have hlen := hgs.length_eq
  apply List.ext_getElem
  · simpa using hlen
  intro i h1 h2
  simp only [List.length_map] at h1 h2
  simp only [List.getElem_map]
  exact key _ _ (List.getElem_mem h2) ((List.forall₂_iff_get.1 hgs).2 i h1 h2)

/-- In the Bayesian semiring `Word("[DIM(1)][DIM(1)]")` and `SimpleWord("[1][1]")` differ: on the series
`1, 3, 2` they give `0, 3, 6` and `1, 9, 9`. -/
theorem C09_bayesian_counterexample :
    ∃ (g : GWord ℚ) (w : SWord ℚ) (X : Data ℚ), SameDims 1 g w [[0], [0]] ∧ IsData X 1 3 ∧
      (⟨[.general g], .single, .bayesian, none⟩ : ISSConf ℚ).transform (fun _ => 1) X
        = .ok [[[0, 3, 6]]] ∧
      (⟨[.simple w], .single, .bayesian, none⟩ : ISSConf ℚ).transform (fun _ => 1) X
        = .ok [[[1, 9, 9]]] := by
  refine ⟨⟨[⟨[dimLetter], [0], "DIM(1)".toList⟩, ⟨[dimLetter], [0], "DIM(1)".toList⟩], none⟩,
    ⟨[[1], [1]], 1, "[1][1]".toList, none⟩, [[[1, 3, 2]]], ⟨rfl, rfl, ?_, by simp⟩,
    by simp [IsData, Rect], by decide +kernel, by decide +kernel⟩
  intro k hk d
  have : k = 0 ∨ k = 1 := by simp at hk; omega
  rcases this with rfl | rfl <;> rcases d with _ | d <;> simp

example : ∃ (g : GWord ℚ) (w : SWord ℚ), SameDims 2 g w [[0, 1], [1]] :=
  ⟨⟨[⟨[dimLetter, dimLetter], [0, 1], "DIM(1)DIM(2)".toList⟩, ⟨[dimLetter], [1], "DIM(2)".toList⟩], none⟩,
    ⟨[[1, 1], [0, 1]], 2, "[12][2]".toList, none⟩, rfl, rfl, by
      intro k hk d
      have : k = 0 ∨ k = 1 := by simp at hk; omega
      rcases this with rfl | rfl <;> rcases d with _ | _ | d <;> simp, by simp⟩

/-! ## C22: series are processed independently -/

/-- The selection `[l[j] for j in js]`. -/
def pick {α : Type} (js : List ℕ) (d : α) (l : List α) : List α := js.map fun j => l.getD j d

private theorem setRows_map (f : List (List R) → List (List R)) (results : Data R) (index m : ℕ)
    (rows : Data R) :
    setRows (results.map f) index m (rows.map f) = (setRows results index m rows).map (List.map f) := by
  unfold setRows
  rw [List.length_map]
  split
  · simp [Except.map, List.map_take, List.map_drop]
  · match rows with
    | [] => rfl
    | [r] => simp [Except.map, List.map_take, List.map_drop]
    | _ :: _ :: _ => rfl

private theorem swapAxes_pick (js : List ℕ) (m : ℕ) (A : Data R) (hjs : ∀ j ∈ js, j < A.length) :
    swapAxes m (pick js [] A) = (swapAxes m A).map (pick js []) := by
  unfold swapAxes
  rw [map_tab]
  apply tab_congr; intro r _
  unfold pick
  rw [List.map_map]
  apply List.map_congr_left
  intro j hj
  simp [List.getD_eq_getElem?_getD, hjs j hj]

private theorem iteratedSums_length (expf : R → R) (k : SemiringKind) (X : Data R) (w : IWord R)
    (ext : ℕ) (wt : Option (Weighting R)) : (iteratedSums expf k X w ext wt).length = X.length := by
  cases w <;> simp [iteratedSums]

private theorem iteratedSums_pick (expf : R → R) (k : SemiringKind) (X : Data R) (w : IWord R)
    (ext : ℕ) (wt : Option (Weighting R)) (js : List ℕ) (hjs : ∀ j ∈ js, j < X.length)
    (hlook : ∀ g, wt = some g → g.lookup (pick js [] X) = pick js [] (g.lookup X)) :
    iteratedSums expf k (pick js [] X) w ext wt = pick js [] (iteratedSums expf k X w ext wt) := by
  cases w with
  | general w =>
    simp only [iteratedSums, pick]
    rw [List.map_map]
    apply List.map_congr_left
    intro j hj
    simp [List.getD_eq_getElem?_getD, hjs j hj]
  | simple w =>
    simp only [iteratedSums]
    apply List.ext_getElem
    · simp [pick]
    intro i h1 h2
    have hi : i < js.length := by simpa [pick] using h1
    have hX := hjs js[i] (List.getElem_mem hi)
    cases wt with
    | none => simp [pick, List.getD_eq_getElem?_getD, hX, hi]
    | some g =>
      simp only [hlook g rfl]
      simp [pick, List.getD_eq_getElem?_getD, hX, hi]

private theorem batchLoop_pick (expf : R → R) (c : ISSConf R) (X : Data R) (js : List ℕ)
    (hjs : ∀ j ∈ js, j < X.length)
    (hlook : ∀ g, c.weighting = some g → g.lookup (pick js [] X) = pick js [] (g.lookup X))
    (ws : List (IWord R)) (i index : ℕ) (res : Data R) :
    c.batchLoop expf (pick js [] X) ws i index (res.map (pick js []))
      = (c.batchLoop expf X ws i index res).map (List.map (pick js [])) := by
  induction ws generalizing i index res with
  | nil => rfl
  | cons w ws ih =>
    rw [ISSConf.batchLoop, ISSConf.batchLoop]
    rw [iteratedSums_pick expf _ X w _ _ js hjs hlook, swapAxes_pick js _ _ (by
      intro j hj; rw [iteratedSums_length]; exact hjs j hj), setRows_map]
    rcases setRows res index (c.nWord i w) (swapAxes (rowsOf c.semiring w (c.depth i))
      (iteratedSums expf c.semiring X w (c.depth i) c.weighting)) with e | r
    · rfl
    · simp only [Except.map, bind, Except.bind]
      exact ih _ _ _

/-- **C22**: transforming any selection of the series (any order, with or without repetitions) gives the same
selection of the result; for every configuration of the ISS, with a weighting whose lookup is itself computed
per series. -/
theorem C22_series_independent (expf : R → R) (c : ISSConf R) (X : Data R) (js : List ℕ)
    (hjs : ∀ j ∈ js, j < X.length)
    (hlook : ∀ g, c.weighting = some g → g.lookup (pick js [] X) = pick js [] (g.lookup X)) :
    c.transform expf (pick js [] X) = (c.transform expf X).map fun A => A.map (pick js []) := by
  unfold ISSConf.transform
  split
  · rfl
  · unfold ISSConf.batch
    rcases c.nBatch 0 c.words.length with e | m
    · rfl
    · simp only [bind, Except.bind]
      rw [← batchLoop_pick expf c X js hjs hlook, List.map_replicate]
      congr 2
      unfold pick
      rw [List.map_map]
      apply List.map_congr_left
      intro j hj
      simp [List.getD_eq_getElem?_getD, hjs j hj]

/-- Selecting series 1, 0, 1 of a dataset, with a lookup computed per series. -/
example : (∀ j ∈ [1, 0, 1], j < exX.length) ∧
    (fun X : Data ℚ => X.map fun Z => Z.headD []) (pick [1, 0, 1] [] exX)
      = pick [1, 0, 1] [] ((fun X : Data ℚ => X.map fun Z => Z.headD []) exX) := by
  decide +kernel

/-! ## C10: causality -/

/-- The first `m` time steps of every series. -/
def truncate {R : Type} (m : ℕ) (X : Data R) : Data R := X.map fun Z => Z.map (List.take m)

/-- A letter whose value at time `t` depends only on the values up to time `t`. -/
def CausalLetter {R : Type} (X : Data R) (l : BoundLetter R) : Prop :=
  ∀ Z ∈ X, ∀ m, l (Z.map (List.take m)) = (l Z).take m

/-- Words on which causality is claimed: simple words whose letters exist in the data, and general words with
causal letters of the right length (all built-in letters are, see `dim_causal`, `abs_causal`). -/
def CausalWord {R : Type} (X : Data R) (D n : ℕ) : IWord R → Prop
  | .simple w => ∀ el ∈ w.els, el.length ≤ D
  | .general w => ∀ el ∈ w.els, ∀ l ∈ el.bound, CausalLetter X l ∧ ∀ Z ∈ X, (l Z).length = n

theorem dim_causal {R : Type} (X : Data R) (i : ℤ) : CausalLetter X (dimLetter i) := by
  intro Z _ m
  have h : ∀ d, row (Z.map (List.take m)) d = (row Z d).take m := by
    intro d
    simp only [row, List.getD_eq_getElem?_getD, List.getElem?_map]
    cases Z[d]? <;> simp
  unfold dimLetter
  split
  · exact h _
  · rw [List.length_map]
    split
    · exact h _
    · simp

theorem abs_causal (X : Data R) (i : ℤ) : CausalLetter X (absLetter (R := R) i) := by
  intro Z hZ m
  unfold absLetter
  rw [dim_causal X i Z hZ m, List.map_take]

private theorem entry_take {Z : List (List R)} {m t : ℕ} (ht : t < m) (d : ℕ) :
    entry (Z.map (List.take m)) d t = entry Z d t := by
  unfold entry
  simp only [List.getD_eq_getElem?_getD, List.getElem?_map]
  cases Z[d]? <;> simp [ht]

private theorem fast_take (expf : R → R) {k : SemiringKind} (hk : k ≠ .arcticArgmax)
    {Z : List (List R)} {n : ℕ} (hZ : Rect Z n) (hne : Z ≠ []) {word : List (List ℤ)}
    (hfit : ∀ el ∈ word, Fits Z el) {ext m : ℕ} (he : ext ≤ word.length) (hm : m ≤ n) (alpha : List R) :
    fastSingle expf k (Z.map (List.take m)) word alpha (zeros m) ext true
      = (fastSingle expf k Z word alpha (zeros n) ext true).map (List.take m) := by
  have hZ' : Rect (Z.map (List.take m)) m := by
    intro x hx
    obtain ⟨y, hy, rfl⟩ := List.mem_map.1 hx
    have := hZ y hy
    simp; omega
  have hne' : Z.map (List.take m) ≠ [] := by simpa using hne
  have hfit' : ∀ el ∈ word, Fits (Z.map (List.take m)) el := by
    intro el hel; unfold Fits; rw [List.length_map]; exact hfit el hel
  have hz : ∀ k s : ℕ, (zeros k : List R).getD s 0 = 0 := by
    intro k s
    simp only [zeros, List.getD_eq_getElem?_getD, List.getElem?_replicate]
    split <;> rfl
  have hmon : ∀ j t, t < m → monos (Z.map (List.take m)) word j t = monos Z word j t := by
    intro j t ht
    unfold monos monomial
    apply Finset.prod_congr rfl
    intro d _
    rw [entry_take ht]
  have hlin : ∀ j t, t < m → lins (Z.map (List.take m)) word j t = lins Z word j t := by
    intro j t ht
    unfold lins linform
    apply Finset.sum_congr rfl
    intro d _
    rw [entry_take ht]
  cases k with
  | arcticArgmax => exact absurd rfl hk
  | reals =>
    simp only [fastSingle]
    rw [totalReals_eq expf hZ' hne' hfit' _ (by simp) he, totalReals_eq expf hZ hne hfit _ (by simp) he,
      map_tab]
    apply tab_congr; intro r _
    rw [take_tab, min_eq_left hm]
    apply tab_congr; intro t ht
    simp only [hz]
    congr 1
    apply incSum_congr
    intro j _ s hs
    simp only [aW, hmon j s (by omega)]
  | arctic =>
    simp only [fastSingle]
    rw [totalArctic_eq hZ' hne' hfit' _ (by simp) he, totalArctic_eq hZ hne hfit _ (by simp) he, map_tab]
    apply tab_congr; intro r _
    rw [take_tab, min_eq_left hm]
    apply tab_congr; intro t ht
    simp only [hz]
    congr 1
    apply chainMax_congr
    intro j _ s hs
    simp only [aP, hlin j s (by omega)]
  | bayesian =>
    simp only [fastSingle]
    rw [totalBayesian_eq expf hZ' hne' hfit' _ (by simp) he,
      totalBayesian_eq expf hZ hne hfit _ (by simp) he, map_tab]
    apply tab_congr; intro r _
    rw [take_tab, min_eq_left hm]
    apply tab_congr; intro t ht
    simp only [hz]
    congr 1
    apply chainMax_congr
    intro j _ s hs
    simp only [aW, hmon j s (by omega)]

private theorem strictMax_congr {c c' : ℕ → ℕ → R} {k t : ℕ} (h : ∀ j ≤ k, ∀ s ≤ t, c j s = c' j s) :
    strictMax c k t = strictMax c' k t := by
  induction k generalizing t with
  | zero =>
    simp only [strictMax]
    exact runMax_congr fun s hs => h 0 le_rfl s hs
  | succ k ih =>
    simp only [strictMax]
    split
    · rfl
    · apply runMax_congr
      intro u hu
      rw [ih fun j hj s hs => h j (by omega) s (by omega), h (k + 1) le_rfl _ (by omega)]

private theorem slow_take {k : SemiringKind}
    {Z : List (List R)} {n : ℕ} (hZ : Rect Z n) (hne : Z ≠ []) {word : List (List (BoundLetter R))}
    (hfit : LettersFit Z n word) {ext m : ℕ} (he : ext ≤ word.length) (hm : m ≤ n)
    (hc : ∀ el ∈ word, ∀ l ∈ el, l (Z.map (List.take m)) = (l Z).take m) :
    slowSingle k (Z.map (List.take m)) word ext = (slowSingle k Z word ext).map (List.take m) := by
  have hZ' : Rect (Z.map (List.take m)) m := by
    intro x hx
    obtain ⟨y, hy, rfl⟩ := List.mem_map.1 hx
    have := hZ y hy
    simp; omega
  have hne' : Z.map (List.take m) ≠ [] := by simpa using hne
  have hfit' : LettersFit (Z.map (List.take m)) m word := by
    intro el hel l hl
    rw [hc el hel l hl, List.length_take, hfit el hel l hl]
    omega
  have hval : ∀ j t, t < m → (word.getD j []).map (fun l => (l (Z.map (List.take m))).getD t 0)
      = (word.getD j []).map (fun l => (l Z).getD t 0) := by
    intro j t ht
    apply List.map_congr_left
    intro l hl
    have hmem : word.getD j [] ∈ word ∨ word.getD j [] = [] := by
      rw [List.getD_eq_getElem?_getD]
      rcases hw : word[j]? with _ | el
      · simp
      · left; simpa using List.mem_of_getElem? hw
    rcases hmem with hmem | hmem
    · rw [hc _ hmem l hl]
      simp [List.getD_eq_getElem?_getD, ht]
    · rw [hmem] at hl; simp at hl
  have hprod : ∀ j t, t < m → prods (Z.map (List.take m)) word j t = prods Z word j t := by
    intro j t ht
    unfold prods letterProd
    rw [hval j t ht]
  have hsum : ∀ j t, t < m → sums (Z.map (List.take m)) word j t = sums Z word j t := by
    intro j t ht
    unfold sums letterSum
    rw [hval j t ht]
  have harc : arcticGenericSingle (Z.map (List.take m)) word ext
      = (arcticGenericSingle Z word ext).map (List.take m) := by
    rw [genericArctic_eq hZ' hne' hfit' he, genericArctic_eq hZ hne hfit he, map_tab]
    apply tab_congr; intro r _
    rw [take_tab, min_eq_left hm]
    apply tab_congr; intro t ht
    exact chainMax_congr _ _ fun j _ s hs => hsum j s (by omega)
  cases k with
  | reals =>
    simp only [slowSingle]
    rw [genericReals_eq hZ' hne' hfit' he, genericReals_eq hZ hne hfit he, map_tab]
    apply tab_congr; intro r _
    rw [take_tab, min_eq_left hm]
    apply tab_congr; intro t ht
    exact incSum_congr fun j _ s hs => hprod j s (by omega)
  | arctic => exact harc
  | arcticArgmax => exact harc
  | bayesian =>
    simp only [slowSingle]
    rw [genericBayesian_eq hZ' hne' hfit' he, genericBayesian_eq hZ hne hfit he, map_tab]
    apply tab_congr; intro r _
    rw [take_tab, min_eq_left hm]
    apply tab_congr; intro t ht
    exact strictMax_congr fun j _ s hs => hprod j s (by omega)

/-- **C10**: without weighting, the transform of the first `m` time steps is the first `m` time steps of the
transform (Reals, Arctic, Bayesian; SINGLE and EXTENDED mode; simple words and general words with causal
letters). -/
theorem C10_causal (expf : R → R) (c : ISSConf R) (hk : c.semiring ≠ .arcticArgmax)
    (hwt : c.weighting = none) {X : Data R} {D n : ℕ} (hX : IsData X D n) (hD : 0 < D)
    (hwords : ∀ w ∈ c.words, w.len ≠ 0 ∧ CausalWord X D n w)
    (hext : c.mode = .extended → ∀ w ∈ c.words, ∃ bs, HasBlocks w bs) {m : ℕ} (hm : m ≤ n) :
    c.transform expf (truncate m X)
      = (c.transform expf X).map fun A => A.map fun a => a.map (List.take m) := by
  by_cases hne0 : c.words = []
  · unfold ISSConf.transform
    rw [if_pos (by rw [hne0]; rfl), if_pos (by rw [hne0]; rfl)]
    rfl
  have hus : c.Usable := fun h => absurd h hk
  rw [transform_eq expf hus hne0, transform_eq expf hus hne0, Except.map, blockRows_flatten,
    blockRows_flatten, List.map_flatten]
  congr 2
  apply List.ext_getElem
  · simp
  intro i h1 h2
  have hi : i < c.words.length := by simpa using h1
  simp only [List.getElem_mapIdx, List.getElem_map, Nat.zero_add]
  have hw := hwords _ (List.getElem_mem hi)
  have hdep : c.depth i ≤ (c.words[i]).len := by
    cases hmode : c.mode with
    | single => simp only [ISSConf.depth, hmode]; have := hw.1; omega
    | extended =>
      obtain ⟨W, w1, w2, w3, w4⟩ := strs_eq (hext hmode)
      have : c.depth i = planDepth (W.map render) i := by
        simp only [ISSConf.depth, hmode, ISSConf.plan, cachePlan]
        rw [w3]
        simp [List.getD_eq_getElem?_getD, w1, hi]
      rw [this, ← (w4 i hi).2.2]
      exact planDepth_le w2 i
  generalize hword : c.words[i] = w at hw hdep
  unfold ISSConf.wordRows swapAxes
  rw [map_tab]
  apply tab_congr; intro r hr
  rw [hwt]
  cases w with
  | general g =>
    simp only [iteratedSums, truncate, List.map_map]
    apply List.map_congr_left
    intro Z hZ
    have hZn : Z ≠ [] := by
      intro h; have := (hX Z hZ).1; rw [h] at this; simp at this; omega
    simp only [Function.comp]
    rw [slow_take (hX Z hZ).2 hZn _ _ hm]
    · simp only [List.getD_eq_getElem?_getD, List.getElem?_map]
      cases (slowSingle c.semiring Z (g.els.map ELetter.bound) (c.depth i))[r]? <;> simp
    · intro el hel l hl
      obtain ⟨e, he, rfl⟩ := List.mem_map.1 hel
      exact (hw.2 e he l hl).1 Z hZ m
    · intro el hel l hl
      obtain ⟨e, he, rfl⟩ := List.mem_map.1 hel
      exact (hw.2 e he l hl).2 Z hZ
    · rw [List.length_map]; exact hdep
  | simple s =>
    simp only [iteratedSums]
    apply List.ext_getElem
    · simp [truncate]
    intro j hj1 hj2
    have hj : j < X.length := by simpa [truncate] using hj1
    simp only [List.getElem_map, List.getElem_mapIdx]
    have hZ := hX _ (List.getElem_mem hj)
    have hZn : X[j] ≠ [] := by
      intro h; have := hZ.1; rw [h] at this; simp at this; omega
    have hl : (X.map fun Z => (zeros (ncols Z) : List R)).getD j [] = zeros n := by
      simp [List.getD_eq_getElem?_getD, hj, ncols_eq hZ.2 hZn]
    have hZ' : Rect (X[j].map (List.take m)) m := by
      intro x hx
      obtain ⟨y, hy, rfl⟩ := List.mem_map.1 hx
      have := hZ.2 y hy
      simp; omega
    have hl' : ((truncate m X).map fun Z => (zeros (ncols Z) : List R)).getD j [] = zeros m := by
      simp only [truncate, List.map_map, List.getD_eq_getElem?_getD, List.getElem?_map, hj,
        List.getElem?_eq_getElem, Option.map_some, Option.getD_some, Function.comp]
      rw [ncols_eq hZ' (by simpa using hZn)]
    have hxj : (truncate m X)[j]'(by simpa [truncate] using hj) = X[j].map (List.take m) := by
      simp [truncate]
    rw [hl, hl', hxj, fast_take expf hk hZ.2 hZn (fun el hel => by
      unfold Fits; rw [hZ.1]; exact hw.2 el hel) hdep hm]
    simp only [List.getD_eq_getElem?_getD, List.getElem?_map]
    cases (fastSingle expf c.semiring X[j] s.els (zeros s.els.length) (zeros n) (c.depth i) true)[r]? <;>
      simp

example : ∀ w ∈ ([.simple exWords[0], .general exGWord] : List (IWord ℚ)), w.len ≠ 0 ∧
    (∃ bs, HasBlocks w bs) := by
  intro w hw
  simp only [List.mem_cons, List.not_mem_nil, or_false] at hw
  rcases hw with rfl | rfl
  · exact ⟨by decide, ["1".toList, "12".toList], by simp [BlocksOK, BracketFree], rfl, rfl⟩
  · exact ⟨by decide, ["DIM(1)".toList, "ABS(2)DIM(1)".toList], by simp [BlocksOK, BracketFree], rfl, rfl⟩

end Fruits
