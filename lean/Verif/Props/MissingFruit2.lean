import Verif.Props.MissingFruit1
import Verif.Props.Missing2

/-!
# C172: what the features are
-/

namespace Fruits
set_option linter.unusedSectionVars false
open Mv
variable {R : Type} [Field R] [LinearOrder R] [IsStrictOrderedRing R] [FloorRing R]

/-! ## Specification -/

/-- What the sieve `v` returns for series `i` of the iterated sums `it` of a dataset `X` (nothing if it raises). -/
def sieveRow (X : Data (Mv R)) (i : ℕ) (it : List (List (Mv R))) (v : MSieve R) : List (Mv R) := ((v.transformC X it).toOption.getD []).getD i []

/-- The features of series `i` of the dataset `X` in a slice: preparateur after preparateur, the iterated sums of the prepared data in the order of the
words and their prefixes, for each of them the results of its sieves, side by side. -/
def sliceRow [NpMath R] (expf : R → R) (X : Data (Mv R)) (s : MSlice R) (i : ℕ) : List (Mv R) :=
  let Y := s.preps.foldl (fun Y p => (p.transformC X Y).toOption.getD []) X
  let sums := (s.words.map fun w => (List.range w.ext).map fun r => tab Y.length fun i => tab (shape2 Y) fun t =>
    ((fastSum expf s.kind (Y.getD i []) w.els w.alpha (tab (shape2 Y) s.weights) w.ext s.total).getD r []).getD t 0).flatten
  ((s.sieves.zip sums).map fun e => (e.1.map (sieveRow X i e.2)).flatten).flatten

/-- The same for data without missing values, with the models of preparateurs, iterated sums and sieves for such data. -/
def plainRow [NpMath R] (T : FloatText R) (expf : R → R) (X : Data R) (ps : List (Prep R)) (kind : SemiringKind) (words : List (MWord R)) (total : Bool) (weights : ℕ → R)
    (sieves : List (List (Sieve R))) (i : ℕ) : List R :=
  let Y := ps.foldl (fun Y p => (p.transformC T X Y).toOption.getD []) X
  let sums := (words.map fun w => (List.range w.ext).map fun r => tab Y.length fun i => tab (shape2 Y) fun t =>
    ((fastSingle expf kind (Y.getD i []) w.els w.alpha (tab (shape2 Y) weights) w.ext total).getD r []).getD t 0).flatten
  ((sieves.zip sums).map fun e => (e.1.map fun v => ((v.transformC T X e.2).toOption.getD []).getD i []).flatten).flatten

/-! ## Proof -/

theorem hcat_row {D A Z : List (List (Mv R))} (h : hcat D A = .ok Z) (i : ℕ) : Z.getD i [] = D.getD i [] ++ A.getD i [] := by
  unfold hcat at h
  split at h
  swap
  · cases h
  rename_i hl
  cases h
  by_cases hi : i < D.length
  · rw [getD_getElem (by rw [List.length_zipWith]; omega), List.getElem_zipWith, getD_getElem hi, getD_getElem (by omega)]
  · rw [getD_big _ _ (by rw [List.length_zipWith]; omega), getD_big _ _ (by omega), getD_big _ _ (by omega)]; rfl

theorem sieveAll_row {C : Data (Mv R)} {it : List (List (Mv R))} (i : ℕ) : ∀ (ss : List (MSieve R)) {D Z : List (List (Mv R))}, sieveAll C it ss D = .ok Z →
    Z.getD i [] = D.getD i [] ++ (ss.map (sieveRow C i it)).flatten
  | [], D, Z, hZ => by cases hZ; simp
  | s :: ss, D, Z, hZ => by
    simp only [sieveAll] at hZ
    rcases h1 : s.transformC C it with _ | A
    · rw [h1] at hZ; cases hZ
    rw [h1, ok_bind] at hZ
    rcases h2 : hcat D A with _ | E
    · rw [h2] at hZ; cases hZ
    rw [h2, ok_bind] at hZ
    have e : sieveRow C i it s = A.getD i [] := by unfold sieveRow; rw [h1]; rfl
    rw [sieveAll_row i ss hZ, hcat_row h2, List.map_cons, List.flatten_cons, e, List.append_assoc]

theorem sieveItems_row {C : Data (Mv R)} (i : ℕ) : ∀ (sss : List (List (MSieve R))) (its : List (List (List (Mv R)))) {D Z : List (List (Mv R))},
    sieveItems C sss its D = .ok Z →
    its.length ≤ sss.length ∧ Z.getD i [] = D.getD i [] ++ ((sss.zip its).map fun e => (e.1.map (sieveRow C i e.2)).flatten).flatten
  | _, [], D, Z, hZ => by simp only [sieveItems] at hZ; cases hZ; simp
  | [], _ :: _, D, Z, hZ => by simp only [sieveItems] at hZ; cases hZ
  | ss :: sss, it :: its, D, Z, hZ => by
    simp only [sieveItems] at hZ
    rcases h1 : sieveAll C it ss D with _ | A
    · rw [h1] at hZ; cases hZ
    rw [h1, ok_bind] at hZ
    obtain ⟨h2, h3⟩ := sieveItems_row i sss its hZ
    refine ⟨by simpa using h2, ?_⟩
    rw [h3, sieveAll_row i ss h1, List.zip_cons_cons, List.map_cons, List.flatten_cons, List.append_assoc]

theorem prepare_foldl [NpMath R] {C : Data (Mv R)} : ∀ (ps : List (MPrep R)) {X Y : Data (Mv R)}, prepare C ps X = .ok Y →
    ps.foldl (fun Y p => (p.transformC C Y).toOption.getD []) X = Y
  | [], X, Y, h => by cases h; rfl
  | p :: ps, X, Y, h => by
    simp only [prepare] at h
    rcases h1 : p.transformC C X with _ | Z
    · rw [h1] at h; cases h
    rw [h1, ok_bind] at h
    rw [List.foldl_cons, h1]
    exact prepare_foldl ps h

theorem replicate_nil_getD {α : Type} (m i : ℕ) : (List.replicate m ([] : List α)).getD i [] = [] := by
  rw [List.getD_eq_getElem?_getD, List.getElem?_replicate]; split <;> rfl

theorem slice_row [NpMath R] (expf : R → R) (X : Data (Mv R)) (s : MSlice R) {Z : List (List (Mv R))} (hZ : s.transform expf X X = .ok Z) (i : ℕ) :
    Z.getD i [] = sliceRow expf X s i := by
  unfold MSlice.transform at hZ
  rcases h1 : prepare X s.preps X with _ | Y
  · rw [h1] at hZ; cases hZ
  rw [h1, ok_bind] at hZ
  have h2 := (sieveItems_row i s.sieves _ hZ).2
  rw [replicate_nil_getD, List.nil_append] at h2
  unfold sliceRow
  rw [prepare_foldl s.preps h1, h2]
  rfl

theorem slicesAll_row [NpMath R] (expf : R → R) (X : Data (Mv R)) (i : ℕ) : ∀ (F : List (MSlice R)) {D Z : List (List (Mv R))},
    slicesAll expf X F D = .ok Z → Z.getD i [] = D.getD i [] ++ (F.map fun s => sliceRow expf X s i).flatten
  | [], D, Z, hZ => by cases hZ; simp
  | s :: ss, D, Z, hZ => by
    simp only [slicesAll] at hZ
    rcases h1 : s.transform expf X X with _ | A
    · rw [h1] at hZ; cases hZ
    rw [h1, ok_bind] at hZ
    rcases h2 : hcat D A with _ | E
    · rw [h2] at hZ; cases hZ
    rw [h2, ok_bind] at hZ
    rw [slicesAll_row expf X i ss hZ, hcat_row h2, slice_row expf X s h1, List.map_cons, List.flatten_cons, List.append_assoc]

/-- **C172.** The features of series `i`: slice after slice, with 0 for those that are missing. -/
theorem C172_features [NpMath R] (expf : R → R) (F : List (MSlice R)) {X : Data (Mv R)} {A : List (List R)} (hA : fruitFeatures expf F X = .ok A) {i : ℕ}
    (hi : i < X.length) : A.length = X.length ∧ A.getD i [] = ((F.map fun s => sliceRow expf X s i).flatten).map fun v => (get? v).getD 0 := by
  unfold fruitFeatures at hA
  rcases h1 : slicesAll expf X F (List.replicate X.length []) with _ | D
  · rw [h1] at hA; cases hA
  rw [h1, ok_bind] at hA
  cases hA
  have hl := slicesAll_length expf F h1
  rw [List.length_replicate] at hl
  have h2 := slicesAll_row expf X i F h1
  rw [replicate_nil_getD, List.nil_append] at h2
  refine ⟨by rw [List.length_map, hl], ?_⟩
  rw [getD_getElem (by simpa [hl] using hi), List.getElem_map, ← getD_getElem (by omega) (e := []), h2]
  exact List.map_congr_left fun v _ => by cases v <;> rfl

/-! ## Without missing values -/

theorem toOption_getD_map {α β : Type} (f : List α → List β) (h0 : f [] = []) (x : Except Err (List α)) :
    ((x.map f).toOption.getD []) = f (x.toOption.getD []) := by
  cases x with
  | error e => exact h0.symm
  | ok v => rfl

theorem prepared_known [NpMath R] (T : FloatText R) (hT : T.Lawful) (X : Data R) {ps : List (Prep R)} {qs : List (MPrep R)} (h : List.Forall₂ KnownPrep ps qs) :
    ∀ Y : Data R, qs.foldl (fun Y q => (q.transformC (knownData X) Y).toOption.getD []) (knownData Y) =
      knownData (ps.foldl (fun Y p => (p.transformC T X Y).toOption.getD []) Y) := by
  induction h with
  | nil => intro Y; rfl
  | cons h _ ih =>
    intro Y
    rw [List.foldl_cons, List.foldl_cons, C171_none_missing T hT h X Y, toOption_getD_map (knownData : Data R → Data (Mv R)) rfl]
    exact ih _

theorem knownData_getD (Y : Data R) (i : ℕ) : (knownData Y).getD i [] = known (Y.getD i []) := getD_map' known Y i []

theorem known_completes {n : ℕ} {Z : List (List R)} (h : Rect Z n) : Completes n (known Z) Z := by
  refine ⟨by rw [known_length], ?_, h, ?_⟩
  · intro x hx
    obtain ⟨z, hz, rfl⟩ := List.mem_map.1 hx
    rw [nums_length]; exact h z hz
  · intro d t x hx
    rw [known_getD, Fruits.nums_getD] at hx
    injection hx

theorem known_not_missing (Z : List (List R)) (d t : ℕ) : ¬ IsMissing (known Z) d t := by
  unfold IsMissing
  rw [known_getD, Fruits.nums_getD]
  exact fun h => by cases h

theorem runMax_num (f : ℕ → R) : ∀ t, runMax (fun s => num (f s)) t = num (runMax f t)
  | 0 => rfl
  | t + 1 => by rw [runMax, runMax_num f t]; rfl

theorem chainMax_num (op : R → R → R) (z : R) (a : ℕ → ℕ → R) : ∀ p t, chainMax (lift₂ op) (num z) (fun j s => num (a j s)) p t = num (chainMax op z a p t)
  | 0, _ => rfl
  | p + 1, t => by
    rw [chainMax, chainMax, ← runMax_num]
    exact runMax_congr fun s _ => by rw [chainMax_num op z a p s]; rfl

/-- **C169.** Without missing values the iterated sums (`Reals`, `Arctic`, `Bayesian`; any weighting) are those for numbers. -/
theorem C169_none_missing (expf : R → R) {k : SemiringKind} (hk : k ≠ .arcticArgmax) {n : ℕ} {Z : List (List R)} (hZ : Rect Z n) (hne : Z ≠ []) (w : MWord R)
    (hfit : ∀ el ∈ w.els, Fits Z el) (he : w.ext ≤ w.els.length) (total : Bool) (weights : ℕ → R) {r t : ℕ} (hr : r < w.ext) (ht : t < n) :
    ((fastSum expf k (known Z) w.els w.alpha (tab n weights) w.ext total).getD r []).getD t 0 =
      num (((fastSingle expf k Z w.els w.alpha (tab n weights) w.ext total).getD r []).getD t 0) := by
  have hne' : known Z ≠ [] := by simpa [known] using hne
  have hfit' : ∀ el ∈ w.els, Fits (known Z) el := fun el hel => by unfold Fits; rw [known_length]; exact hfit el hel
  have hl : (tab n weights).length = n := by simp
  cases k with
  | arcticArgmax => exact absurd rfl hk
  | bayesian =>
    have hb : ∀ j s, ¬ LetterMissing (known Z) (w.els.getD j []) s := fun j s ⟨d, _, h⟩ => known_not_missing Z d s h
    cases total with
    | false =>
      simp only [fastSum, fastSingle]
      rw [bayesianSingle_mv (known_completes hZ) hne' hfit' w.alpha hl he expf, bayesianSingle_eq expf hZ hne hfit w.alpha hl he, getD_tab hr, getD_tab hr,
        getD_tab ht, getD_tab ht]
      simp only [mk_false (hb _ _)]
      rw [chainMax_num, chainMax]
      refine congrArg num (runMax_congr fun s _ => ?_)
      have e : ∀ q s, chainMax (· * ·) 1 (lastW expf (monos Z w.els) (w.alpha.getD · 0) ((tab n weights).getD · 0) q) q s =
          chainMax (· * ·) 1 (aW expf (monos Z w.els) (w.alpha.getD · 0) ((tab n weights).getD · 0)) q s :=
        fun q s => chainMax_congr _ _ fun j hj u _ => by simp [lastW, hj.ne]
      rw [e]
      simp [lastW]
    | true =>
      simp only [fastSum, fastSingle]
      rw [totalBayesian_mv (known_completes hZ) hne' hfit' w.alpha hl he expf, totalBayesian_eq expf hZ hne hfit w.alpha hl he, getD_tab hr, getD_tab hr,
        getD_tab ht, getD_tab ht]
      simp only [mk_false (hb _ _)]
      rw [chainMax_num, getD_tab ht, getD_tab ht]
      rfl
  | reals =>
    have h := C169_reals expf (known_completes hZ) hne' hfit' w.alpha hl he total hr ht
    have e : fastSingle expf .reals Z w.els w.alpha (tab n weights) w.ext total =
        (if total then totalReals expf Z w.els w.alpha (tab n weights) w.ext else realsSingle expf Z w.els w.alpha (tab n weights) w.ext) := by
      cases total <;> rfl
    rw [e]
    refine h.2 fun hn => ?_
    obtain ⟨j, _, u, _, d, _, hd⟩ := h.1.1 hn
    exact known_not_missing Z d u hd
  | arctic =>
    have h := C169_arctic (known_completes hZ) hne' hfit' w.alpha hl he total expf hr ht
    obtain ⟨F, hF, hg⟩ := arctic_closed hZ hne hfit w.alpha hl he total
    have e : fastSingle expf .arctic Z w.els w.alpha (tab n weights) w.ext total = tab w.ext (fun r => tab n (F r)) := by
      rw [← hF]; cases total <;> rfl
    rw [e, getD_tab hr, getD_tab ht]
    rcases ho : ((fastSum expf .arctic (known Z) w.els w.alpha (tab n weights) w.ext total).getD r []).getD t 0 with y | _
    · have h1 := h.2 y ho
      refine congrArg num (h1.unique ?_)
      have h2 := hg r hr t ht
      refine ⟨?_, fun v hv => ?_⟩
      · obtain ⟨i, hi, hv⟩ := h2.1
        exact ⟨i, hi, fun j ⟨d, _, hd⟩ => known_not_missing Z d _ hd, hv⟩
      · obtain ⟨i, hi, _, hv⟩ := hv
        exact h2.2 ⟨i, hi, hv⟩
    · obtain ⟨j, _, d, _, hd⟩ := h.1.1 ho
      exact absurd hd (known_not_missing Z d _)

theorem knownData_shape2 (Y : Data R) : shape2 (knownData Y) = shape2 Y := by
  unfold shape2
  rw [knownData_getD, known_getD, nums_length]

/-- **C172.** Without missing values (and unless `argmax` is set) a slice computes what its preparateurs, words and sieves compute for numbers. -/
theorem C172_none_missing [NpMath R] (T : FloatText R) (hT : T.Lawful) (expf : R → R) (X : Data R) {ps : List (Prep R)} {s : MSlice R}
    (hps : List.Forall₂ KnownPrep ps s.preps) (hk : s.kind ≠ .arcticArgmax) {sieves : List (List (Sieve R))} (hs : s.sieves = sieves.map (List.map Sieve.mv))
    {m d n : ℕ} (hY : HasShape (ps.foldl (fun Y p => (p.transformC T X Y).toOption.getD []) X) m d n) (hm : 0 < m) (hd : 0 < d)
    (hw : ∀ w ∈ s.words, w.ext ≤ w.els.length ∧ ∀ el ∈ w.els, el.length ≤ d) (i : ℕ) :
    sliceRow expf (knownData X) s i = (plainRow T expf X ps s.kind s.words s.total s.weights sieves i).map num := by
  unfold sliceRow plainRow
  rw [prepared_known T hT X hps X]
  generalize ps.foldl (fun Y p => (p.transformC T X Y).toOption.getD []) X = Y at hY
  have hn : shape2 Y = n := by
    have h1 := hY.2 _ (getD_mem_lt (e := []) (by rw [hY.1]; exact hm))
    exact h1.2 _ (getD_mem_lt (by rw [h1.1]; exact hd))
  dsimp only
  rw [knownData_shape2, hs, hn]
  have hl : (knownData Y).length = Y.length := List.length_map _
  rw [hl]
  have hsums : (s.words.map fun w => (List.range w.ext).map fun r => tab Y.length fun i => tab n fun t =>
      ((fastSum expf s.kind ((knownData Y).getD i []) w.els w.alpha (tab n s.weights) w.ext s.total).getD r []).getD t 0).flatten =
      ((s.words.map fun w => (List.range w.ext).map fun r => tab Y.length fun i => tab n fun t =>
        ((fastSingle expf s.kind (Y.getD i []) w.els w.alpha (tab n s.weights) w.ext s.total).getD r []).getD t 0).flatten).map known := by
    rw [List.map_flatten, List.map_map]
    congr 1
    refine List.map_congr_left fun w hwm => ?_
    rw [Function.comp_apply, List.map_map]
    refine List.map_congr_left fun r hr => ?_
    rw [Function.comp_apply, known]
    unfold tab nums
    rw [List.map_map]
    refine List.map_congr_left fun i hi => ?_
    rw [Function.comp_apply, List.map_map]
    refine List.map_congr_left fun t ht => ?_
    rw [Function.comp_apply, knownData_getD]
    have hi := List.mem_range.1 hi
    have hZ := hY.2 _ (getD_mem_lt (e := []) hi)
    refine C169_none_missing expf hk (fun x hx => hZ.2 x hx) ?_ w (fun el hel => ?_) (hw w hwm).1 s.total s.weights (List.mem_range.1 hr) (List.mem_range.1 ht)
    · intro h0; rw [h0] at hZ; exact absurd hZ.1 (by simp; omega)
    · unfold Fits; rw [hZ.1]; exact (hw w hwm).2 el hel
  rw [hsums, List.zip_map, List.map_map, List.map_flatten, List.map_map]
  congr 1
  refine List.map_congr_left fun e _ => ?_
  rw [Function.comp_apply, Function.comp_apply, Prod.map, List.map_map, List.map_flatten, List.map_map]
  congr 1
  refine List.map_congr_left fun v _ => ?_
  rw [Function.comp_apply, Function.comp_apply, sieveRow, (C170_none_missing T hT ⟨fun _ _ _ => 0, fun _ _ _ => [], fun _ _ _ => 0, fun _ _ _ => 0, fun _ _ => 0, fun _ => []⟩ v).2, toOption_getD_map (known : List (List R) → List (List (Mv R))) rfl,
    known_getD]
  rfl

/-- Non-vacuity of `C169_none_missing`. -/
example : Rect ([[1, 2, 4], [3, -4, 6]] : List (List ℚ)) 3 ∧ (∀ el ∈ (⟨[[1, 0], [0, 2]], [1, 1], 1⟩ : MWord ℚ).els, Fits ([[1, 2, 4], [3, -4, 6]] : List (List ℚ)) el) ∧
    fastSum (R := ℚ) (fun _ => 1) .bayesian (known [[1, 2, 4], [3, -4, 6]]) [[1, 0], [0, 2]] [1, 1] (tab 3 fun _ => 0) 1 false = [[.num 9, .num 32, .num 144]] := by
  refine ⟨by unfold Rect; decide, by unfold Fits; decide, by decide +kernel⟩

/-- Non-vacuity of `C172_features` (see also `C172_other_series`) and of the hypotheses of `C172_none_missing`: the slice of `gapFruit`. -/
example (T : FloatText ℚ) : letI : NpMath ℚ := ⟨id, id, fun a _ => a, id, id⟩
    let X : Data ℚ := [[[1, 2, 4]], [[3, 4, 6]]]
    (∀ s ∈ gapFruit, List.Forall₂ KnownPrep [Prep.inc {}] s.preps ∧ s.kind ≠ .arcticArgmax ∧
      s.sieves = (List.replicate 2 [Sieve.seg (R := ℚ) .end_ { q := [-1, 1] }, .inc .npi 0 { q := [-1, 0, 1] }]).map (List.map Sieve.mv) ∧
      ∀ w ∈ s.words, w.ext ≤ w.els.length ∧ ∀ el ∈ w.els, el.length ≤ 1) ∧
    HasShape ([Prep.inc {}].foldl (fun Y p => (p.transformC T X Y).toOption.getD []) X) 2 1 3 ∧ gapZero = knownData X := by
  refine ⟨?_, ⟨rfl, ?_⟩, rfl⟩
  · intro s hs
    rw [gapFruit, List.mem_singleton] at hs
    subst hs
    exact ⟨.cons (.inc _) .nil, by decide, rfl, by decide⟩
  · intro x hx
    change x ∈ [_, _] at hx
    rcases List.mem_cons.1 hx with rfl | hx
    · exact ⟨rfl, fun r hr => by rw [List.mem_singleton.1 hr]; rfl⟩
    · rw [List.mem_singleton.1 hx]
      exact ⟨rfl, fun r hr => by rw [List.mem_singleton.1 hr]; rfl⟩

end Fruits
