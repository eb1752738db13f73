import Verif.MissingFruit
import Verif.Props.MissingSieve4
import Verif.Props.MissingPrep4

/-!
# C172: a missing value concerns only the features of its own series
-/

namespace Fruits
set_option linter.unusedSectionVars false
open Mv
variable {R : Type} [Field R] [LinearOrder R] [IsStrictOrderedRing R] [FloorRing R]

/-! ## Proof -/

/-- Two tables with the same number of rows and the same row `i`. -/
def SameRow {α : Type} (i : ℕ) (D D' : List (List α)) : Prop := D.length = D'.length ∧ D.getD i [] = D'.getD i []

theorem prepare_near [NpMath R] {i : ℕ} {C C' : Data (Mv R)} (hC : C.getD i [] = C'.getD i []) : ∀ (ps : List (MPrep R)) {X X' Z Z' : Data (Mv R)},
    NearSeries i X X' → prepare C ps X = .ok Z → prepare C' ps X' = .ok Z' → NearSeries i Z Z'
  | [], X, X', Z, Z', h, hZ, hZ' => by
    cases hZ; cases hZ'; exact h
  | p :: ps, X, X', Z, Z', h, hZ, hZ' => by
    simp only [prepare] at hZ hZ'
    rcases h1 : p.transformC C X with _ | Y
    · rw [h1] at hZ; cases hZ
    rcases h1' : p.transformC C' X' with _ | Y'
    · rw [h1'] at hZ'; cases hZ'
    rw [h1, ok_bind] at hZ
    rw [h1', ok_bind] at hZ'
    exact prepare_near hC ps (near_transform p hC h h1 h1') hZ hZ'

theorem tab2_shape2 {α : Type} [Zero α] (m n : ℕ) (f : ℕ → ℕ → α) : HasShape2 (tab2 m n f) m n := by
  refine ⟨by simp [tab2], ?_⟩
  intro r hr
  obtain ⟨_, _, rfl⟩ := (mem_tab.1 hr)
  simp

theorem itsum_near (expf : R → R) (s : MSlice R) {i : ℕ} {X X' : Data (Mv R)} (hi : i < X.length) (h : NearSeries i X X') (w : MWord R) (r : ℕ) :
    SameSeries X.length (shape2 X) i (itsum expf s X w r) (itsum expf s X' w r) := by
  unfold itsum
  rw [← h.shape2, ← h.shape.length_eq]
  exact ⟨tab2_shape2 _ _ _, tab2_shape2 _ _ _, by rw [tab2, tab2, getD_tab hi, getD_tab hi, h.same]⟩

theorem hcat_near {i : ℕ} {D D' A A' Z Z' : List (List (Mv R))} (hD : SameRow i D D') (hA : A.getD i [] = A'.getD i []) (hZ : hcat D A = .ok Z)
    (hZ' : hcat D' A' = .ok Z') : SameRow i Z Z' := by
  unfold hcat at hZ hZ'
  split at hZ
  swap
  · cases hZ
  split at hZ'
  swap
  · cases hZ'
  rename_i h h'
  cases hZ; cases hZ'
  refine ⟨by rw [List.length_zipWith, List.length_zipWith, h, h', hD.1], ?_⟩
  have key : ∀ {D A : List (List (Mv R))}, A.length = D.length → (List.zipWith (· ++ ·) D A).getD i [] = D.getD i [] ++ A.getD i [] := by
    intro D A hl
    by_cases hi : i < D.length
    · rw [getD_getElem (by rw [List.length_zipWith]; omega), List.getElem_zipWith, getD_getElem hi, getD_getElem (by omega)]
    · rw [getD_big _ _ (by rw [List.length_zipWith]; omega), getD_big _ _ (by omega), getD_big _ _ (by omega)]; rfl
  rw [key h, key h', hD.2, hA]

theorem sieveAll_near {m n i : ℕ} (hi : i < m) {C C' : Data (Mv R)} (hC : C.getD i [] = C'.getD i []) {it it' : List (List (Mv R))}
    (h : SameSeries m n i it it') : ∀ (ss : List (MSieve R)) {D D' Z Z' : List (List (Mv R))}, SameRow i D D' → sieveAll C it ss D = .ok Z →
      sieveAll C' it' ss D' = .ok Z' → SameRow i Z Z'
  | [], D, D', Z, Z', hD, hZ, hZ' => by
    cases hZ; cases hZ'; exact hD
  | s :: ss, D, D', Z, Z', hD, hZ, hZ' => by
    simp only [sieveAll] at hZ hZ'
    rcases h1 : s.transformC C it with _ | A
    · rw [h1] at hZ; cases hZ
    rcases h1' : s.transformC C' it' with _ | A'
    · rw [h1'] at hZ'; cases hZ'
    rw [h1, ok_bind] at hZ
    rw [h1', ok_bind] at hZ'
    rcases h2 : hcat D A with _ | E
    · rw [h2] at hZ; cases hZ
    rcases h2' : hcat D' A' with _ | E'
    · rw [h2'] at hZ'; cases hZ'
    rw [h2, ok_bind] at hZ
    rw [h2', ok_bind] at hZ'
    exact sieveAll_near hi hC h ss (hcat_near hD (C170_other_series hi s hC h h1 h1') h2 h2') hZ hZ'

theorem sieveItems_near {m n i : ℕ} (hi : i < m) {C C' : Data (Mv R)} (hC : C.getD i [] = C'.getD i []) {its its' : List (List (List (Mv R)))}
    (h : List.Forall₂ (SameSeries m n i) its its') : ∀ (sss : List (List (MSieve R))) {D D' Z Z' : List (List (Mv R))}, SameRow i D D' →
      sieveItems C sss its D = .ok Z → sieveItems C' sss its' D' = .ok Z' → SameRow i Z Z' := by
  induction h with
  | nil =>
    intro sss D D' Z Z' hD hZ hZ'
    simp only [sieveItems] at hZ hZ'
    cases hZ; cases hZ'; exact hD
  | @cons it it' its its' h _ ih =>
    intro sss D D' Z Z' hD hZ hZ'
    cases sss with
    | nil => simp only [sieveItems] at hZ; cases hZ
    | cons ss sss =>
      simp only [sieveItems] at hZ hZ'
      rcases h1 : sieveAll C it ss D with _ | A
      · rw [h1] at hZ; cases hZ
      rcases h1' : sieveAll C' it' ss D' with _ | A'
      · rw [h1'] at hZ'; cases hZ'
      rw [h1, ok_bind] at hZ
      rw [h1', ok_bind] at hZ'
      exact ih sss (sieveAll_near hi hC h ss hD h1 h1') hZ hZ'

theorem hcat_length {D A Z : List (List (Mv R))} (h : hcat D A = .ok Z) : Z.length = D.length := by
  unfold hcat at h
  split at h
  · rename_i e; cases h; rw [List.length_zipWith, e, Nat.min_self]
  · cases h

theorem sieveAll_length {C : Data (Mv R)} {it : List (List (Mv R))} : ∀ (ss : List (MSieve R)) {D Z : List (List (Mv R))}, sieveAll C it ss D = .ok Z →
    Z.length = D.length
  | [], D, Z, hZ => by cases hZ; rfl
  | s :: ss, D, Z, hZ => by
    simp only [sieveAll] at hZ
    rcases h1 : s.transformC C it with _ | A
    · rw [h1] at hZ; cases hZ
    rw [h1, ok_bind] at hZ
    rcases h2 : hcat D A with _ | E
    · rw [h2] at hZ; cases hZ
    rw [h2, ok_bind] at hZ
    rw [sieveAll_length ss hZ, hcat_length h2]

theorem sieveItems_length {C : Data (Mv R)} : ∀ (sss : List (List (MSieve R))) (its : List (List (List (Mv R)))) {D Z : List (List (Mv R))},
    sieveItems C sss its D = .ok Z → Z.length = D.length
  | _, [], D, Z, hZ => by simp only [sieveItems] at hZ; cases hZ; rfl
  | [], _ :: _, D, Z, hZ => by simp only [sieveItems] at hZ; cases hZ
  | ss :: sss, it :: its, D, Z, hZ => by
    simp only [sieveItems] at hZ
    rcases h1 : sieveAll C it ss D with _ | A
    · rw [h1] at hZ; cases hZ
    rw [h1, ok_bind] at hZ
    rw [sieveItems_length sss its hZ, sieveAll_length ss h1]

theorem sameRow_replicate {i m m' : ℕ} (h : m = m') : SameRow i (List.replicate m ([] : List (Mv R))) (List.replicate m' []) := by
  subst h; exact ⟨rfl, rfl⟩

theorem slice_near [NpMath R] (expf : R → R) {i : ℕ} {C C' : Data (Mv R)} (hC : C.getD i [] = C'.getD i []) (s : MSlice R) {X X' : Data (Mv R)}
    {Z Z' : List (List (Mv R))} (h : NearSeries i X X') (hZ : s.transform expf C X = .ok Z) (hZ' : s.transform expf C' X' = .ok Z') : SameRow i Z Z' := by
  unfold MSlice.transform at hZ hZ'
  rcases h1 : prepare C s.preps X with _ | Y
  · rw [h1] at hZ; cases hZ
  rcases h1' : prepare C' s.preps X' with _ | Y'
  · rw [h1'] at hZ'; cases hZ'
  rw [h1, ok_bind] at hZ
  rw [h1', ok_bind] at hZ'
  have hY := prepare_near hC s.preps h h1 h1'
  by_cases hi : i < Y.length
  swap
  · have e := sieveItems_length _ _ hZ
    have e' := sieveItems_length _ _ hZ'
    rw [List.length_replicate] at e e'
    have := hY.shape.length_eq
    exact ⟨by omega, by rw [getD_big _ _ (by omega), getD_big _ _ (by omega)]⟩
  refine sieveItems_near hi hC (m := Y.length) (n := shape2 Y) ?_ s.sieves (sameRow_replicate hY.shape.length_eq) hZ hZ'
  unfold itsums
  induction s.words with
  | nil => exact .nil
  | cons w ws ih =>
    rw [List.flatMap_cons, List.flatMap_cons]
    refine rel_append ?_ ih
    rw [List.forall₂_map_left_iff, List.forall₂_map_right_iff]
    exact List.forall₂_same.2 fun r _ => itsum_near expf s hi hY w r

theorem slicesAll_length [NpMath R] (expf : R → R) {X : Data (Mv R)} : ∀ (ss : List (MSlice R)) {D Z : List (List (Mv R))}, slicesAll expf X ss D = .ok Z →
    Z.length = D.length
  | [], D, Z, hZ => by cases hZ; rfl
  | s :: ss, D, Z, hZ => by
    simp only [slicesAll] at hZ
    rcases h1 : s.transform expf X X with _ | A
    · rw [h1] at hZ; cases hZ
    rw [h1, ok_bind] at hZ
    rcases h2 : hcat D A with _ | E
    · rw [h2] at hZ; cases hZ
    rw [h2, ok_bind] at hZ
    rw [slicesAll_length expf ss hZ, hcat_length h2]

theorem slicesAll_near [NpMath R] (expf : R → R) {i : ℕ} {X X' : Data (Mv R)} (h : NearSeries i X X') : ∀ (ss : List (MSlice R))
    {D D' Z Z' : List (List (Mv R))}, SameRow i D D' → slicesAll expf X ss D = .ok Z → slicesAll expf X' ss D' = .ok Z' → SameRow i Z Z'
  | [], D, D', Z, Z', hD, hZ, hZ' => by
    cases hZ; cases hZ'; exact hD
  | s :: ss, D, D', Z, Z', hD, hZ, hZ' => by
    simp only [slicesAll] at hZ hZ'
    rcases h1 : s.transform expf X X with _ | A
    · rw [h1] at hZ; cases hZ
    rcases h1' : s.transform expf X' X' with _ | A'
    · rw [h1'] at hZ'; cases hZ'
    rw [h1, ok_bind] at hZ
    rw [h1', ok_bind] at hZ'
    rcases h2 : hcat D A with _ | E
    · rw [h2] at hZ; cases hZ
    rcases h2' : hcat D' A' with _ | E'
    · rw [h2'] at hZ'; cases hZ'
    rw [h2, ok_bind] at hZ
    rw [h2', ok_bind] at hZ'
    exact slicesAll_near expf h ss (hcat_near hD (slice_near expf h.same s h h1 h1').2 h2 h2') hZ hZ'

/-- **C172.** `X` and `X'` have the same shape and the same series `i`; the values and the missing values of all other series may be different.  If
`transform` of a fitted fruit returns features for both, those of series `i` are the same. -/
theorem C172_other_series [NpMath R] (expf : R → R) (F : List (MSlice R)) {m d n i : ℕ} {X X' : Data (Mv R)} (hX : HasShape X m d n) (hX' : HasShape X' m d n)
    (hi : X.getD i [] = X'.getD i []) {A A' : List (List R)} (hA : fruitFeatures expf F X = .ok A) (hA' : fruitFeatures expf F X' = .ok A') :
    A.length = m ∧ A'.length = m ∧ A.getD i [] = A'.getD i [] := by
  have hn : NearSeries i X X' := by
    refine ⟨?_, hi⟩
    rw [hX.eq_tab3, hX'.eq_tab3]
    exact forall₂_tab' fun _ _ => forall₂_tab' fun _ _ => by rw [tab_length, tab_length]
  unfold fruitFeatures at hA hA'
  rcases h1 : slicesAll expf X F (List.replicate X.length []) with _ | D
  · rw [h1] at hA; cases hA
  rcases h1' : slicesAll expf X' F (List.replicate X'.length []) with _ | D'
  · rw [h1'] at hA'; cases hA'
  rw [h1, ok_bind] at hA
  rw [h1', ok_bind] at hA'
  cases hA; cases hA'
  have hS := slicesAll_near expf hn F (sameRow_replicate hn.shape.length_eq) h1 h1'
  have hl := slicesAll_length expf F h1
  have hl' := slicesAll_length expf F h1'
  rw [List.length_replicate] at hl hl'
  refine ⟨by rw [List.length_map, hl, hX.1], by rw [List.length_map, hl', hX'.1], ?_⟩
  have key : ∀ D : List (List (Mv R)), (D.map (List.map nanToNum)).getD i [] = (D.getD i []).map nanToNum := by
    intro D
    by_cases hi : i < D.length
    · rw [getD_getElem (by simpa using hi), getD_getElem hi, List.getElem_map]
    · rw [getD_big _ _ (by simpa using hi), getD_big _ _ (by omega)]; rfl
  rw [key, key, hS.2]

/-! ## Concrete case -/

/-- A fruit with `INC`, the words `[1]`, `[1][1]` and the sieves `END` and `NPI` (levels fitted to be -inf, 0, inf). -/
def gapFruit : List (MSlice ℚ) :=
  [{ preps := [.inc {}], kind := .reals, words := [⟨[[1], [1]], [0, 0], 2⟩], weights := fun _ => 0,
     sieves := List.replicate 2 [.seg .end_ { q := [-1, 1] }, .inc .npi 0 { q := [-1, 0, 1] }] }]

/-- Two datasets with the same first series, with and without missing values in the second. -/
def gapOne : Data (Mv ℚ) := [[[.num 1, .num 2, .num 4]], [[.num 3, .nan, .num 5]]]
/-- The other one. -/
def gapZero : Data (Mv ℚ) := [[[.num 1, .num 2, .num 4]], [[.num 3, .num 4, .num 6]]]

/-- Non-vacuity of `C172_other_series`: the features of series 0 are the same, those of series 1 are not; its missing features are 0. -/
example : letI : NpMath ℚ := ⟨id, id, fun a _ => a, id, id⟩; HasShape gapOne 2 1 3 ∧ HasShape gapZero 2 1 3 ∧ gapOne.getD 0 [] = gapZero.getD 0 [] ∧
    fruitFeatures (fun _ => 1) gapFruit gapOne = .ok [[3, 1, 2, 2, 2, 1], [0, 1, 0, 0, 1, 0]] ∧
    fruitFeatures (fun _ => 1) gapFruit gapZero = .ok [[3, 1, 2, 2, 2, 1], [3, 1, 2, 2, 2, 1]] := by
  refine ⟨⟨rfl, by decide⟩, ⟨rfl, by decide⟩, rfl, toOption_ok ?_, toOption_ok ?_⟩ <;> decide +kernel

/-- A fruit without preparateurs, with the word `[1]` and `MAX` over all values. -/
def gapMax : List (MSlice ℚ) :=
  [{ preps := [], kind := .reals, words := [⟨[[1]], [0], 1⟩], weights := fun _ => 0, sieves := [[.seg .max { q := [-1, 1] }]] }]

/-- That both calls return features cannot be left out in `C172_other_series`: `MAX` raises if all values of an iterated sum are missing, and then the
other series have no features either. -/
theorem C172_raises : letI : NpMath ℚ := ⟨id, id, fun a _ => a, id, id⟩; fruitFeatures (fun _ => 1) gapMax [[[.num 1, .num 2]], [[.nan, .num 5]]] = .error .valueError ∧
    fruitFeatures (fun _ => 1) gapMax [[[.num 1, .num 2]], [[.num 3, .num 5]]] = .ok [[3], [8]] := ⟨rfl, toOption_ok (by decide +kernel)⟩

end Fruits
