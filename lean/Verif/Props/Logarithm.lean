import Verif.Props.Warp
import Mathlib.Analysis.SpecialFunctions.Exp
import Mathlib.Data.Real.Archimedean

/-! # C161: Arctic iterated sums are the logarithms of Bayesian iterated sums -/

set_option linter.unusedSectionVars false

namespace Fruits
variable {R : Type} [Field R] [LinearOrder R] [IsStrictOrderedRing R] [FloorRing R]

theorem runMax_hom {g : R → R} (hg : Monotone g) (f : ℕ → R) (t : ℕ) : runMax (fun s => g (f s)) t = g (runMax f t) := by
  induction t with
  | zero => rfl
  | succ t ih => rw [runMax, runMax, ih, hg.map_max]

/-- The exponential of a max-plus chain is the max-times chain of the exponentials. -/
theorem chainMax_exp {expf : R → R} (hexp : ExpLike expf) (hm : Monotone expf) (a : ℕ → ℕ → R) (p t : ℕ) :
    chainMax (· * ·) 1 (fun j s => expf (a j s)) p t = expf (chainMax (· + ·) 0 a p t) := by
  induction p generalizing t with
  | zero => rw [chainMax, chainMax, hexp.zero]
  | succ p ih =>
    rw [chainMax, chainMax, ← runMax_hom hm]
    refine runMax_congr fun s _ => ?_
    rw [ih, hexp.add]

theorem ExpLike.inv {expf : R → R} (h : ExpLike expf) (x : R) : expf (-x) = (expf x)⁻¹ :=
  eq_inv_of_mul_eq_one_right (h.neg_mul x)

theorem ExpLike.nsmul {expf : R → R} (h : ExpLike expf) (k : ℕ) (x : R) : expf ((k : R) * x) = expf x ^ k := by
  induction k with
  | zero => simp [h.zero]
  | succ k ih => rw [Nat.cast_succ, add_mul, one_mul, h.add, ih, pow_succ]

theorem ExpLike.zsmul {expf : R → R} (h : ExpLike expf) (k : ℤ) (x : R) : expf ((k : R) * x) = expf x ^ k := by
  obtain ⟨m, rfl | rfl⟩ := k.eq_nat_or_neg
  · rw [Int.cast_natCast, h.nsmul, zpow_natCast]
  · rw [Int.cast_neg, Int.cast_natCast, _root_.neg_mul, h.inv, h.nsmul, zpow_neg, zpow_natCast]

/-- A letter of the series `exp(x)`. -/
theorem monomial_exp {expf : R → R} (hexp : ExpLike expf) {Z Z' : List (List R)} {el : List ℤ} {t : ℕ}
    (h : ∀ d < el.length, entry Z' d t = expf (entry Z d t)) : monomial Z' el t = expf (linform Z el t) := by
  rw [linform, hexp.sum, monomial]
  refine Finset.prod_congr rfl fun d hd => ?_
  rw [h d (Finset.mem_range.1 hd), hexp.zsmul]

/-- The kernels of `Bayesian`, applied to `exp(x)`, give the exponentials of what the kernels of `Arctic` give for `x`. -/
theorem fastSingle_exp {expf : R → R} (hexp : ExpLike expf) (hm : Monotone expf) {Z Z' : List (List R)} {n : ℕ} (hZ : Rect Z n) (hne : Z ≠ [])
    (hZ' : Rect Z' n) (hl : Z'.length = Z.length) (he : ∀ d < Z.length, ∀ t < n, entry Z' d t = expf (entry Z d t)) {word : List (List ℤ)}
    (hfit : ∀ el ∈ word, Fits Z el) (alpha : List R) {g : List R} (hg : g.length = n) {ext : ℕ} (hext : ext ≤ word.length) (total : Bool) :
    fastSingle expf .bayesian Z' word alpha g ext total = (fastSingle expf .arctic Z word alpha g ext total).map fun x => x.map expf := by
  have hne' : Z' ≠ [] := by
    intro h; rw [h] at hl; exact hne (List.length_eq_zero_iff.1 hl.symm)
  have hfit' : ∀ el ∈ word, Fits Z' el := fun el hel => by have := hfit el hel; unfold Fits at this ⊢; omega
  have hmono : ∀ j, ∀ t < n, monos Z' word j t = expf (lins Z word j t) := by
    intro j t ht
    refine monomial_exp hexp fun d hd => he d ?_ t ht
    rcases Nat.lt_or_ge j word.length with hj | hj
    · have := hfit _ (List.getElem_mem hj)
      rw [List.getD_eq_getElem?_getD, List.getElem?_eq_getElem hj] at hd
      unfold Fits at this
      exact lt_of_lt_of_le hd this
    · rw [List.getD_eq_getElem?_getD, List.getElem?_eq_none hj] at hd
      simp at hd
  have hpen : ∀ (k : ℕ) (s : ℕ), (if k = 0 then (1 : R) else expf (-g.getD s 0 * alpha.getD (k - 1) 0))
      = expf (-(if k = 0 then 0 else g.getD s 0 * alpha.getD (k - 1) 0)) := by
    intro k s
    split
    · rw [neg_zero, hexp.zero]
    · rw [neg_mul]
  have haW : ∀ j, ∀ t < n, aW expf (monos Z' word) (alpha.getD · 0) (g.getD · 0) j t
      = expf (aP (lins Z word) (alpha.getD · 0) (g.getD · 0) j t) := by
    intro j t ht
    rw [aW, aP, hexp.add, sub_eq_add_neg, hexp.add, hmono j t ht, hpen]
  cases total with
  | true =>
    simp only [fastSingle]
    rw [totalBayesian_eq expf hZ' hne' hfit' alpha hg hext, totalArctic_eq hZ hne hfit alpha hg hext, map_tab]
    refine tab_congr fun r _ => ?_
    rw [map_tab]
    refine tab_congr fun t ht => ?_
    rw [chainMax_congr _ _ fun j _ s hs => haW j s (by omega), chainMax_exp hexp hm, ← hexp.add, neg_mul, ← sub_eq_add_neg]
  | false =>
    simp only [fastSingle]
    rw [bayesianSingle_eq expf hZ' hne' hfit' alpha hg hext, arcticSingle_eq hZ hne hfit alpha hg hext, map_tab]
    refine tab_congr fun r _ => ?_
    rw [map_tab]
    refine tab_congr fun t ht => ?_
    rw [← runMax_hom hm]
    refine runMax_congr fun s hs => ?_
    rw [chainMax_congr _ _ fun j _ x hx => haW j x (by omega), chainMax_exp hexp hm, hmono _ s (by omega), hpen, ← hexp.add, ← hexp.add,
      ← sub_eq_add_neg]

/-- Both weightings use the same numbers, or both are missing. -/
inductive SameWeights (n : ℕ) (X X' : Data R) : Option (Weighting R) → Option (Weighting R) → Prop
  | none : SameWeights n X X' none none
  | some (g g' : Weighting R) (total : g'.total = g.total) (look : LookupFor g X n) (same : g'.lookup X' = g.lookup X) :
      SameWeights n X X' (some g) (some g')

/-- If the kernels of two semirings are related by a function on the entries, so are the results of `ISS.transform`. -/
theorem transform_entries (expf : R → R) (c : ISSConf R) (hs : SimpleISS c) {k : SemiringKind} (hk' : k ≠ .arcticArgmax) {X X' : Data R} {n : ℕ}
    (hlen : X'.length = X.length) (hX : ∀ Z ∈ X, ncols Z = n) (hX' : ∀ Z ∈ X', ncols Z = n) {wt' : Option (Weighting R)}
    (hwt : SameWeights n X X' c.weighting wt') (f : R → R)
    (hk : ∀ s, IWord.simple s ∈ c.words → ∀ (j : ℕ) (hj : j < X.length) (hj' : j < X'.length) (alpha g : List R) (total : Bool) (ext : ℕ),
      g.length = n → ext ≤ s.els.length →
      fastSingle expf k X'[j] s.els alpha g ext total = (fastSingle expf c.semiring X[j] s.els alpha g ext total).map fun x => x.map f) :
    ({ c with semiring := k, weighting := wt' } : ISSConf R).transform expf X'
      = (c.transform expf X).map fun A => A.map fun a => a.map fun x => x.map f := by
  have hus : c.Usable := fun h => absurd h hs.semiring
  have hus' : ({ c with semiring := k, weighting := wt' } : ISSConf R).Usable := fun h => absurd h hk'
  rw [transform_eq expf hus hs.nonempty, transform_eq expf hus' hs.nonempty, Except.map, blockRows_flatten, blockRows_flatten, List.map_flatten]
  congr 2
  apply List.ext_getElem
  · simp
  intro i h1 h2
  have hi : i < c.words.length := by simpa using h1
  simp only [List.getElem_mapIdx, List.getElem_map, Nat.zero_add]
  have hdep := depth_le hs hi
  have hmem := List.getElem_mem hi
  generalize hword : c.words[i] = w at hdep hmem
  obtain ⟨s, rfl⟩ := hs.simple w hmem
  unfold ISSConf.wordRows swapAxes
  have hd : ({ c with semiring := k, weighting := wt' } : ISSConf R).depth i = c.depth i := rfl
  have hr : ∀ k' : SemiringKind, k' ≠ .arcticArgmax → rowsOf k' (IWord.simple s) (c.depth i) = c.depth i := by
    intro k' hk'
    unfold rowsOf
    split
    · rename_i h _ ; exact absurd rfl hk'
    · rfl
  rw [hd, hr _ hs.semiring, hr _ hk', map_tab]
  apply tab_congr; intro r hr
  have key : ∀ (j : ℕ) (hj : j < X.length) (hj' : j < X'.length) (alpha g : List R) (total : Bool), g.length = n →
      (fastSingle expf k X'[j] s.els alpha g (c.depth i) total).getD r [] =
      ((fastSingle expf c.semiring X[j] s.els alpha g (c.depth i) total).getD r []).map f := by
    intro j hj hj' alpha g total hg
    rw [hk s hmem j hj hj' alpha g total (c.depth i) hg hdep]
    simp only [List.getD_eq_getElem?_getD, List.getElem?_map]
    cases (fastSingle expf c.semiring X[j] s.els alpha g (c.depth i) total)[r]? <;> rfl
  generalize c.weighting = wt at hwt ⊢
  apply List.ext_getElem
  · simp [iteratedSums, hlen]
  intro j h3 h4
  have hj : j < X.length := by simpa [iteratedSums] using h4
  have hj' : j < X'.length := by omega
  cases hwt with
  | none =>
    simp only [iteratedSums, List.getElem_map, List.getElem_mapIdx]
    have e1 : (X'.map fun Z => (zeros (ncols Z) : List R)).getD j [] = zeros n := by
      simp [List.getD_eq_getElem?_getD, hj', hX' _ (List.getElem_mem hj')]
    have e2 : (X.map fun Z => (zeros (ncols Z) : List R)).getD j [] = zeros n := by
      simp [List.getD_eq_getElem?_getD, hj, hX _ (List.getElem_mem hj)]
    rw [e1, e2]
    exact key j hj hj' _ _ _ (by simp)
  | some g g' total look same =>
    simp only [iteratedSums, List.getElem_map, List.getElem_mapIdx, total, same]
    have hjl : j < (g.lookup X).length := by rw [look.1]; exact hj
    apply key j hj hj'
    apply look.2
    exact getD_mem_of_lt hjl

/-- **C161**: the Bayesian iterated sums of `exp(x)` are the exponentials of the Arctic iterated sums of `x`, for every word (also with negative
exponents), in both modes, with any weighting whose numbers are the same for both. -/
theorem C161_logarithm {expf : R → R} (hexp : ExpLike expf) (hm : Monotone expf) (c : ISSConf R) (hs : SimpleISS c) (hc : c.semiring = .arctic)
    {X : Data R} {m d n : ℕ} (hX : HasShape X m d n) (hd : 0 < d) (hw : ∀ s, IWord.simple s ∈ c.words → ∀ el ∈ s.els, el.length ≤ d)
    {wt' : Option (Weighting R)} (hwt : SameWeights n X (mapEntries expf X) c.weighting wt') :
    ({ c with semiring := .bayesian, weighting := wt' } : ISSConf R).transform expf (mapEntries expf X)
      = (c.transform expf X).map fun A => A.map fun a => a.map fun x => x.map expf := by
  have hne : ∀ Z ∈ X, Z ≠ [] := by
    intro Z hZ h; have := (hX.2 Z hZ).1; rw [h] at this; simp at this; omega
  have hcol : ∀ Z ∈ X, ncols Z = n := fun Z hZ => ncols_eq (hX.2 Z hZ).2 (hne Z hZ)
  have hrect : ∀ Z ∈ X, Rect (Z.map fun x => x.map expf) n := by
    intro Z hZ r hr
    obtain ⟨x, hx, rfl⟩ := List.mem_map.1 hr
    rw [List.length_map]; exact (hX.2 Z hZ).2 x hx
  refine transform_entries expf c hs (by simp) (n := n) (by simp [mapEntries, mapRows]) hcol ?_ hwt expf ?_
  · intro Z' hZ'
    obtain ⟨Z, hZ, rfl⟩ := List.mem_map.1 hZ'
    exact ncols_eq (hrect Z hZ) (by simpa using hne Z hZ)
  · intro s hsm j hj hj' alpha g total ext hg hext
    have hZ := List.getElem_mem hj
    have e : (mapEntries expf X)[j] = X[j].map fun x => x.map expf := by simp [mapEntries, mapRows]
    rw [e, hc]
    refine fastSingle_exp hexp hm (hX.2 _ hZ).2 (hne _ hZ) (hrect _ hZ) (by simp) ?_ ?_ alpha hg hext total
    · intro d' hd' t ht
      have hl := (hX.2 _ hZ).2 _ (List.getElem_mem hd')
      simp [entry, List.getD_eq_getElem?_getD, hd', hl, ht]
    · intro el hel
      unfold Fits
      rw [(hX.2 _ hZ).1]
      exact hw s hsm el hel

/-! ### A call that meets the hypotheses: real numbers, the real exponential, EXTENDED mode, negative exponents, a weighting -/

namespace LogExample

noncomputable def X : Data ℝ := [[[1, -2, 3], [0, 5, -1]], [[4, 4, 0], [2, 2, 7]]]

/-- `SimpleWord("[1][12]")` and `SimpleWord("[1][-2]")`. -/
noncomputable def words : List (SWord ℝ) := [⟨[[1], [1, 1]], 2, "[1][12]".toList, some [1, 2]⟩, ⟨[[1], [0, -1]], 2, "[1][-2]".toList, some [1, 1]⟩]

/-- Weights that depend on the time only. -/
noncomputable def wt : Weighting ℝ := { total := true, lookup := fun X => X.map fun _ => [0, 1, 2] }

noncomputable def conf : ISSConf ℝ := ⟨words.map .simple, .extended, .arctic, some wt⟩

theorem conf_simple : SimpleISS conf where
  semiring := by simp [conf]
  nonempty := by simp [conf, words]
  simple := by intro v hv; obtain ⟨u, _, rfl⟩ := List.mem_map.1 hv; exact ⟨u, rfl⟩
  letters := by
    intro w hw
    simp only [conf, words, List.map_cons, List.map_nil, List.mem_cons, List.not_mem_nil, or_false] at hw
    rcases hw with rfl | rfl <;> simp [IWord.len]
  blocks := fun _ w hw => by
    simp only [conf, words, List.map_cons, List.map_nil, List.mem_cons, List.not_mem_nil, or_false] at hw
    rcases hw with rfl | rfl
    · exact ⟨["1".toList, "12".toList], by simp [BlocksOK, BracketFree], rfl, rfl⟩
    · exact ⟨["1".toList, "-2".toList], by simp [BlocksOK, BracketFree], rfl, rfl⟩

example : ({ conf with semiring := .bayesian } : ISSConf ℝ).transform Real.exp (mapEntries Real.exp X)
    = (conf.transform Real.exp X).map fun A => A.map fun a => a.map fun x => x.map Real.exp := by
  refine C161_logarithm ⟨Real.exp_add, Real.exp_pos⟩ Real.exp_monotone conf conf_simple rfl (m := 2) (d := 2) (n := 3) ?_ (by omega) ?_
    (SameWeights.some wt wt rfl ?_ ?_)
  · refine ⟨rfl, fun Z hZ => ?_⟩
    simp only [X, List.mem_cons, List.not_mem_nil, or_false] at hZ
    rcases hZ with rfl | rfl <;> refine ⟨rfl, fun r hr => ?_⟩ <;> simp only [List.mem_cons, List.not_mem_nil, or_false] at hr <;>
      rcases hr with rfl | rfl <;> rfl
  · intro s hs el hel
    simp only [conf, words, List.map_cons, List.map_nil, List.mem_cons, List.not_mem_nil, or_false, IWord.simple.injEq] at hs
    rcases hs with rfl | rfl <;> simp only [List.mem_cons, List.not_mem_nil, or_false] at hel <;> rcases hel with rfl | rfl <;> simp
  · refine ⟨by simp [wt], fun g hg => ?_⟩
    obtain ⟨_, _, rfl⟩ := List.mem_map.1 hg
    rfl
  · simp [wt, mapEntries, mapRows, Function.comp_def, X]

end LogExample

end Fruits
