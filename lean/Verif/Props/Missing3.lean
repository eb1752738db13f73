import Verif.Props.Missing2
import Mathlib.Data.Rat.Floor

/-! # C169: which missing values an iterated sum does not notice -/

namespace Fruits
set_option linter.unusedSectionVars false

variable {R : Type} [Field R] [LinearOrder R] [IsStrictOrderedRing R]

/-! ## Specification -/

/-- The dimensions of a series that the kernels of a semiring look at for the extended letter `el`: the named ones; for `Arctic` all up to the
highest one of the word. -/
def LooksAt (k : SemiringKind) (el : List ℤ) (d : ℕ) : Prop := if k = .arctic then d < el.length else el.getD d 0 ≠ 0

/-- Up to time `t`, the series `Z` and `Z'` have the same values, and the same values are missing, in the dimensions that matter for `word`. -/
def AgreeFor (k : SemiringKind) (word : List (List ℤ)) (t : ℕ) (Z Z' : List (List (Mv R))) : Prop :=
  ∀ el ∈ word, ∀ d, LooksAt k el d → ∀ s ≤ t, (Z.getD d []).getD s 0 = (Z'.getD d []).getD s 0

/-! ## Proof -/

open Mv

/-- A completion: `0` for every missing value. -/
def fillZero (Z : List (List (Mv R))) : List (List R) := Z.map fun x => x.map fun a => match a with | num v => v | nan => 0

theorem fillZero_entry (Z : List (List (Mv R))) (d t : ℕ) :
    entry (fillZero Z) d t = match (Z.getD d []).getD t 0 with | num v => v | nan => 0 := by
  unfold entry fillZero
  by_cases hd : d < Z.length
  · by_cases ht : t < Z[d].length
    · simp [List.getD, hd, ht]
    · simp only [List.getD, List.getElem?_map, List.getElem?_eq_getElem hd, Option.map_some, Option.getD_some,
        List.getElem?_eq_none (by omega : Z[d].length ≤ t), Option.map_none, Option.getD_none]
  · simp only [List.getD, List.getElem?_map, List.getElem?_eq_none (by omega : Z.length ≤ d), Option.map_none, Option.getD_none, List.getElem?_nil]

theorem fillZero_completes {n : ℕ} {Z : List (List (Mv R))} (h : Rect Z n) : Completes n Z (fillZero Z) := by
  refine ⟨by simp [fillZero], h, ?_, ?_⟩
  · intro x hx
    obtain ⟨y, hy, rfl⟩ := List.mem_map.1 hx
    simpa using h y hy
  · intro d t x hx
    rw [fillZero_entry, hx]

private theorem getD_mem' {word : List (List ℤ)} (j : ℕ) : word.getD j [] ∈ word ∨ word.getD j [] = [] := by
  by_cases h : j < word.length
  · left; simp [List.getD, h]
  · right; simp [List.getD, List.getElem?_eq_none (by omega : word.length ≤ j)]

section agree
variable {k : SemiringKind} {word : List (List ℤ)} {t : ℕ} {Z Z' : List (List (Mv R))} (h : AgreeFor k word t Z Z')
include h

private theorem agree_letter (hk : k ≠ .arctic) (j : ℕ) {s : ℕ} (hs : s ≤ t) :
    (LetterMissing Z (word.getD j []) s ↔ LetterMissing Z' (word.getD j []) s) ∧
      monomial (fillZero Z) (word.getD j []) s = monomial (fillZero Z') (word.getD j []) s := by
  rcases getD_mem' (word := word) j with hm | hm
  · have e : ∀ d, (word.getD j []).getD d 0 ≠ 0 → (Z.getD d []).getD s 0 = (Z'.getD d []).getD s 0 := fun d hd => h _ hm d (by
      rw [LooksAt, if_neg hk]; exact hd) s hs
    constructor
    · constructor
      · rintro ⟨d, hd, hmis⟩; exact ⟨d, hd, (e d hd).symm.trans hmis⟩
      · rintro ⟨d, hd, hmis⟩; exact ⟨d, hd, (e d hd).trans hmis⟩
    · refine Finset.prod_congr rfl fun d _ => ?_
      by_cases hd : (word.getD j []).getD d 0 = 0
      · rw [hd, zpow_zero, zpow_zero]
      · rw [fillZero_entry, fillZero_entry, e d hd]
  · rw [hm]; simp [LetterMissing, monomial]

private theorem agree_width (hk : k = .arctic) (j : ℕ) {s : ℕ} (hs : s ≤ t) :
    (WidthMissing Z (word.getD j []) s ↔ WidthMissing Z' (word.getD j []) s) ∧
      linform (fillZero Z) (word.getD j []) s = linform (fillZero Z') (word.getD j []) s := by
  rcases getD_mem' (word := word) j with hm | hm
  · have e : ∀ d, d < (word.getD j []).length → (Z.getD d []).getD s 0 = (Z'.getD d []).getD s 0 := fun d hd => h _ hm d (by
      rw [LooksAt, if_pos hk]; exact hd) s hs
    constructor
    · constructor
      · rintro ⟨d, hd, hmis⟩; exact ⟨d, hd, (e d hd).symm.trans hmis⟩
      · rintro ⟨d, hd, hmis⟩; exact ⟨d, hd, (e d hd).trans hmis⟩
    · refine Finset.sum_congr rfl fun d hd => ?_
      rw [fillZero_entry, fillZero_entry, e d (Finset.mem_range.1 hd)]
  · rw [hm]; simp [WidthMissing, linform]

end agree

private theorem fits_fill {Z : List (List (Mv R))} {el : List ℤ} (h : Fits Z el) : Fits (fillZero Z) el := by
  unfold Fits at h ⊢; simpa [fillZero] using h

/-- The entry of one series. -/
theorem fastSum_agree (expf : R → R) {k : SemiringKind} (hk : k ≠ .arcticArgmax) {n : ℕ} {Z Z' : List (List (Mv R))} (hZ : Rect Z n)
    (hZ' : Rect Z' n) (hne : Z ≠ []) (hne' : Z' ≠ []) {word : List (List ℤ)} (hfit : ∀ el ∈ word, Fits Z el) (hfit' : ∀ el ∈ word, Fits Z' el)
    (alpha : List R) {weights : List R} (hw : weights.length = n) {ext : ℕ} (he : ext ≤ word.length) (total : Bool) {r t : ℕ} (hr : r < ext)
    (ht : t < n) (h : AgreeFor k word t Z Z') :
    ((Mv.fastSum expf k Z word alpha weights ext total).getD r []).getD t 0
      = ((Mv.fastSum expf k Z' word alpha weights ext total).getD r []).getD t 0 := by
  have c := fillZero_completes hZ
  have c' := fillZero_completes hZ'
  have hY := fun el hel => fits_fill (hfit el hel)
  have hY' := fun el hel => fits_fill (hfit' el hel)
  cases k with
  | arcticArgmax => exact absurd rfl hk
  | reals =>
    have hl := fun j s hs => agree_letter (s := s) h (by decide) j hs
    obtain ⟨i1, v1⟩ := C169_reals expf c hne hfit alpha hw he total hr ht
    obtain ⟨i2, v2⟩ := C169_reals expf c' hne' hfit' alpha hw he total hr ht
    have hiff : (∃ j ≤ word.length - ext + r, ∃ u, u + (word.length - ext + r - j) ≤ t ∧ LetterMissing Z (word.getD j []) u) ↔
        ∃ j ≤ word.length - ext + r, ∃ u, u + (word.length - ext + r - j) ≤ t ∧ LetterMissing Z' (word.getD j []) u := by
      constructor
      · rintro ⟨j, hj, u, hu, hm⟩; exact ⟨j, hj, u, hu, (hl j u (by omega)).1.1 hm⟩
      · rintro ⟨j, hj, u, hu, hm⟩; exact ⟨j, hj, u, hu, (hl j u (by omega)).1.2 hm⟩
    by_cases hn : ∃ j ≤ word.length - ext + r, ∃ u, u + (word.length - ext + r - j) ≤ t ∧ LetterMissing Z (word.getD j []) u
    · rw [i1.2 hn, i2.2 (hiff.1 hn)]
    · rw [v1 fun e => hn (i1.1 e), v2 fun e => hn (hiff.2 (i2.1 e))]
      have haW : ∀ j, ∀ s ≤ t, aW expf (monos (fillZero Z) word) (alpha.getD · 0) (weights.getD · 0) j s
          = aW expf (monos (fillZero Z') word) (alpha.getD · 0) (weights.getD · 0) j s := by
        intro j s hs
        simp only [aW, monos, (hl j s hs).2]
      congr 1
      cases total with
      | true =>
        rw [if_pos rfl, if_pos rfl, totalReals_eq expf c.rectY (c.ne hne) hY alpha hw he,
          totalReals_eq expf c'.rectY (c'.ne hne') hY' alpha hw he, tab_getD _ _ _ _ hr, tab_getD _ _ _ _ ht, tab_getD _ _ _ _ hr, tab_getD _ _ _ _ ht,
          incSum_congr fun j _ x hx => haW j x (by omega)]
      | false =>
        rw [if_neg (by decide), if_neg (by decide), realsSingle_eq expf c.rectY (c.ne hne) hY alpha hw he,
          realsSingle_eq expf c'.rectY (c'.ne hne') hY' alpha hw he, tab_getD _ _ _ _ hr, tab_getD _ _ _ _ ht, tab_getD _ _ _ _ hr, tab_getD _ _ _ _ ht]
        refine Finset.sum_congr rfl fun s hs => ?_
        have hs' : s ≤ t := by have := Finset.mem_range.1 hs; omega
        rw [incSum_congr fun j _ x hx => haW j x (by omega)]
        simp only [monos, (hl _ s hs').2]
  | arctic =>
    have hl := fun j s hs => agree_width (s := s) h rfl j hs
    cases total with
    | true =>
      simp only [Mv.fastSum]
      rw [totalArctic_mv c hne hfit alpha hw he, totalArctic_mv c' hne' hfit' alpha hw he, tab_getD _ _ _ _ hr, tab_getD _ _ _ _ ht,
        tab_getD _ _ _ _ hr, tab_getD _ _ _ _ ht]
      congr 1
      refine chainMax_congr _ _ fun j _ s hs => mk_congr (hl j s hs).1 ?_
      simp only [aP, lins, (hl j s hs).2]
    | false =>
      simp only [Mv.fastSum]
      rw [arcticSingle_mv c hne hfit alpha hw he, arcticSingle_mv c' hne' hfit' alpha hw he, tab_getD _ _ _ _ hr, tab_getD _ _ _ _ ht,
        tab_getD _ _ _ _ hr, tab_getD _ _ _ _ ht]
      refine chainMax_congr _ _ fun j _ s hs => mk_congr (hl j s hs).1 ?_
      simp only [lastP, aP, lins, (hl j s hs).2]
  | bayesian =>
    have hl := fun j s hs => agree_letter (s := s) h (by decide) j hs
    cases total with
    | true =>
      simp only [Mv.fastSum]
      rw [totalBayesian_mv c hne hfit alpha hw he, totalBayesian_mv c' hne' hfit' alpha hw he, tab_getD _ _ _ _ hr, tab_getD _ _ _ _ ht,
        tab_getD _ _ _ _ hr, tab_getD _ _ _ _ ht]
      congr 1
      refine chainMax_congr _ _ fun j _ s hs => mk_congr (hl j s hs).1 ?_
      simp only [aW, monos, (hl j s hs).2]
    | false =>
      simp only [Mv.fastSum]
      rw [bayesianSingle_mv c hne hfit alpha hw he, bayesianSingle_mv c' hne' hfit' alpha hw he, tab_getD _ _ _ _ hr, tab_getD _ _ _ _ ht,
        tab_getD _ _ _ _ hr, tab_getD _ _ _ _ ht]
      refine chainMax_congr _ _ fun j _ s hs => mk_congr (hl j s hs).1 ?_
      simp only [lastW, aW, monos, (hl j s hs).2]

/-! ## C169 -/

/-- **C169**, partial: the iterated sums of series `i` at time `t` do not depend on values, missing or not, of other series, at later times, or in
dimensions that the word does not name (`Arctic`: beyond the highest one that the word names; see `C169_arctic_counterexample`). -/
theorem C169_elsewhere_partial (expf : R → R) {k : SemiringKind} (hk : k ≠ .arcticArgmax) {n : ℕ} {X X' : List (List (List (Mv R)))}
    (hX : ∀ Z ∈ X, Rect Z n ∧ Z ≠ []) (hX' : ∀ Z ∈ X', Rect Z n ∧ Z ≠ []) {word : List (List ℤ)}
    (hfit : ∀ Z ∈ X, ∀ el ∈ word, Fits Z el) (hfit' : ∀ Z ∈ X', ∀ el ∈ word, Fits Z el) (alpha : List R) {lookup lookup' : List (List R)}
    (hw : ∀ l ∈ lookup, l.length = n) {ext : ℕ} (he : ext ≤ word.length) (total : Bool) {i r t : ℕ} (hi : i < X.length) (hi' : i < X'.length)
    (hli : i < lookup.length) (hli' : i < lookup'.length) (hl : lookup'.getD i [] = lookup.getD i []) (hr : r < ext) (ht : t < n)
    (h : AgreeFor k word t (X.getD i []) (X'.getD i [])) :
    (((Mv.fastData expf k X word alpha lookup ext total).getD i []).getD r []).getD t 0
      = (((Mv.fastData expf k X' word alpha lookup' ext total).getD i []).getD r []).getD t 0 := by
  have e : (Mv.fastData expf k X word alpha lookup ext total).getD i [] = Mv.fastSum expf k (X.getD i []) word alpha (lookup.getD i []) ext total := by
    simp [Mv.fastData, List.getD, hi, hli]
  have e' : (Mv.fastData expf k X' word alpha lookup' ext total).getD i []
      = Mv.fastSum expf k (X'.getD i []) word alpha (lookup'.getD i []) ext total := by
    simp [Mv.fastData, List.getD, hi', hli']
  have hm : X.getD i [] ∈ X := by simp [List.getD, hi]
  have hm' : X'.getD i [] ∈ X' := by simp [List.getD, hi']
  have hlm : lookup.getD i [] ∈ lookup := by simp [List.getD, hli]
  rw [e, e', hl]
  exact fastSum_agree expf hk (hX _ hm).1 (hX' _ hm').1 (hX _ hm).2 (hX' _ hm').2 (hfit _ hm) (hfit' _ hm') alpha (hw _ hlm) he total hr ht h

/-- A series of two dimensions whose first one starts with a missing value. -/
def missingFirst : List (List (Mv ℚ)) := [[.nan, .num 2, .num 3], [.num 4, .num 5, .num 6]]
/-- The same series, the second dimension starts with a missing value. -/
def missingSecond : List (List (Mv ℚ)) := [[.num 1, .num 2, .num 3], [.nan, .num 5, .num 6]]
/-- A later value is missing. -/
def missingLater : List (List (Mv ℚ)) := [[.num 1, .num 2, .num 3], [.num 4, .nan, .num 6]]

/-- **C169 is false**: the word `[2]` names dimension 2 only.  If the first value of dimension 1 is missing, all of its `Arctic` sums are `nan`
(`0 * nan` is added), while `Reals` and `Bayesian` return the numbers of dimension 2. -/
theorem C169_arctic_counterexample :
    Mv.fastSum id .arctic missingFirst [[0, 1]] [1] [0, 0, 0] 1 false = [[.nan, .nan, .nan]] ∧
      Mv.fastSum id .reals missingFirst [[0, 1]] [1] [0, 0, 0] 1 false = [[.num 4, .num 9, .num 15]] ∧
      Mv.fastSum id .bayesian missingFirst [[0, 1]] [1] [0, 0, 0] 1 false = [[.num 4, .num 5, .num 6]] := by
  decide +kernel

/-- **C169 is false** also for `Reals`: the sums of `[1][2]` add up `x₁(i) x₂(j)` for `i < j`, the first value of dimension 2 occurs in none of them.
If it is missing, all sums are `nan`.  The same letters computed as functions (`Word`, not `SimpleWord`) give numbers. -/
theorem C169_reals_counterexample :
    Mv.fastSum (fun _ => 1) .reals missingSecond [[1, 0], [0, 1]] [0, 0] [0, 0, 0] 1 false = [[.nan, .nan, .nan]] ∧
      (genericSingle (1 : Mv ℚ) (· * ·) cumsum missingSecond [[fun Z => row Z 0], [fun Z => row Z 1]] 1).map (List.drop 1) = [[.num 5, .num 23]] := by
  decide +kernel

/-- A missing value later in the series: `Reals` sums are `nan` from the first time on at which a tuple uses it, `Arctic` and `Bayesian` skip it. -/
example : Mv.fastSum id .reals missingLater [[0, 1]] [1] [0, 0, 0] 1 false = [[.num 4, .nan, .nan]] ∧
    Mv.fastSum id .arctic missingLater [[0, 1]] [1] [0, 0, 0] 1 false = [[.num 4, .num 4, .num 6]] ∧
    Mv.fastSum (fun _ => 1) .reals missingLater [[0, 1], [1, 0]] [0, 0] [0, 0, 0] 1 false = [[.num 0, .num 8, .nan]] := by
  decide +kernel

/-- The hypotheses of the theorems of C169 hold for these series. -/
example : Completes 3 missingLater [[1, 2, 3], [4, 77, 6]] ∧ missingLater ≠ [] ∧ (∀ el ∈ [[0, 1], [1, 0]], Fits missingLater el) ∧
    LetterMissing missingLater [0, 1] 1 ∧ ¬ LetterMissing missingLater [0, 1] 0 ∧ AgreeFor .bayesian [[1, 0]] 2 missingLater missingSecond := by
  refine ⟨⟨rfl, by unfold Rect; decide, by unfold Rect; decide, ?_⟩, by decide, by unfold Fits; decide, ⟨1, by decide, rfl⟩, ?_, ?_⟩
  · intro d t x hx
    rcases d with _ | _ | d
    · rcases t with _ | _ | _ | t <;> first | (cases hx; rfl) | (simp [missingLater] at hx; done) | (simp [missingLater] at hx; simpa [entry] using hx)
    · rcases t with _ | _ | _ | t <;> first | (cases hx; rfl) | (simp [missingLater] at hx; done) | (simp [missingLater] at hx; simpa [entry] using hx)
    · simp only [missingLater, List.getD_cons_succ, List.getD_nil] at hx
      cases hx
      simp [entry]
  · rintro ⟨d, hd, hm⟩
    rcases d with _ | _ | d
    · exact hd rfl
    · cases hm
    · exact hd rfl
  · intro el hel d hd s hs
    rw [List.mem_singleton] at hel
    subst hel
    rw [LooksAt, if_neg (by decide)] at hd
    rcases d with _ | _ | d
    · rfl
    · exact absurd rfl hd
    · exact absurd rfl hd

end Fruits
