import Verif.Props.MissingSieve4
import Mathlib.Data.Rat.Floor

/-! # C170: missing values and sieves, part 5: fitting, examples and counterexamples -/

namespace Fruits
set_option linter.unusedSectionVars false
open Finset Mv

variable {R : Type} [Field R] [LinearOrder R] [IsStrictOrderedRing R] [FloorRing R]

/-- The value of the levels that need no data: `-1` is minus infinity, `0` is zero and `1` is infinity. -/
def fixedLevel (q : R) : Option (QVal R) :=
  if q = 1 then some ⊤ else if q = -1 then some ⊥ else if q = 0 then some (QVal.of 0) else none

/-- The number of levels that need data. -/
def fittedLevels (l : List R) : ℕ := (l.filter fun q => decide (fixedLevel q = none)).length

theorem quantileValue_missing {e : List (Mv R)} (hnan : Mv.nan ∈ e) {q : R} (hq : q = -1 ∨ 0 ≤ q ∧ q ≤ 1) :
    Mv.quantileValue e q = .ok (match fixedLevel q with | some v => .num v | none => .nan) := by
  unfold Mv.quantileValue fixedLevel
  by_cases h1 : q = 1
  · rw [if_pos h1, if_pos h1]
  rw [if_neg h1, if_neg h1]
  by_cases h2 : q = -1
  · rw [if_pos h2, if_pos h2]
  rw [if_neg h2, if_neg h2]
  by_cases h3 : q = 0
  · rw [if_neg (by simpa using h3), if_pos h3]
  rw [if_pos h3, if_neg h3]
  unfold Mv.quantile
  rw [if_pos hnan, if_pos (hq.resolve_left h2)]
  rfl

theorem sortLe_total {A : Type} [LinearOrder A] (a b : Mv A) : sortLe a b ∨ sortLe b a := by
  cases a <;> cases b <;> simp [sortLe, le_total]

theorem sortLe_trans {A : Type} [LinearOrder A] (a b c : Mv A) (h : sortLe a b) (h' : sortLe b c) : sortLe a c := by
  cases a <;> cases b <;> cases c <;> simp_all [sortLe]
  exact le_trans h h'

theorem sortLe_antisymm {A : Type} [LinearOrder A] (a b : Mv A) (h : sortLe a b) (h' : sortLe b a) : a = b := by
  cases a <;> cases b <;> simp_all [sortLe]
  exact le_antisymm h h'

theorem levels_perm (l : List R) :
    (l.map fun q => match fixedLevel q with | some v => (Mv.num v : Mv (QVal R)) | none => .nan).Perm
      (((l.filterMap fixedLevel).map Mv.num) ++ List.replicate (fittedLevels l) .nan) := by
  induction l with
  | nil => exact List.Perm.refl _
  | cons q l ih =>
    rw [List.map_cons, List.filterMap_cons]
    unfold fittedLevels at ih ⊢
    rcases h : fixedLevel q with _ | v
    · rw [List.filter_cons_of_pos (by simp [h])]
      simp only [List.length_cons]
      rw [List.replicate_succ]
      exact (ih.cons _).trans List.perm_middle.symm
    · rw [List.filter_cons_of_neg (by simp [h])]
      exact ih.cons (Mv.num v)

/-- **C170 (fit), partial.** One missing value anywhere in the training data spoils every level that needs data: fitting succeeds, and the quantiles are
those of the levels `-1`, `0` and `1` in increasing order, followed by a missing value for every other level. -/
theorem C170_fit_partial (p : MSeg R) (X : List (List (Mv R))) (hnan : ∃ x ∈ X, Mv.nan ∈ x) (hq : ∀ q ∈ p.q, q = -1 ∨ 0 ≤ q ∧ q ≤ 1) :
    p.fit X = .ok { p with quantiles := some ((((p.q.filterMap fixedLevel).insertionSort (· ≤ ·)).map Mv.num) ++
      List.replicate (fittedLevels p.q) .nan) } := by
  unfold Mv.MSeg.fit
  have hn : Mv.nan ∈ X.flatten := by
    obtain ⟨x, hx, h⟩ := hnan
    exact List.mem_flatten.2 ⟨x, hx, h⟩
  rw [mapM_ok_map (g := fun q => match fixedLevel q with | some v => (Mv.num v : Mv (QVal R)) | none => .nan)
    fun q h => quantileValue_missing hn (hq q h), ok_bind]
  have key : List.insertionSort sortLe (p.q.map fun q => match fixedLevel q with | some v => (Mv.num v : Mv (QVal R)) | none => .nan) =
      (((p.q.filterMap fixedLevel).insertionSort (· ≤ ·)).map Mv.num) ++ List.replicate (fittedLevels p.q) .nan := by
    haveI : IsTotal (Mv (QVal R)) sortLe := ⟨sortLe_total⟩
    haveI : IsTrans (Mv (QVal R)) sortLe := ⟨sortLe_trans⟩
    have hs := List.pairwise_insertionSort sortLe (p.q.map fun q => match fixedLevel q with | some v => (Mv.num v : Mv (QVal R)) | none => .nan)
    refine List.Perm.eq_of_pairwise (le := sortLe) (fun a b _ _ => sortLe_antisymm a b) hs ?_ ?_
    · rw [List.pairwise_append]
      refine ⟨?_, ?_, ?_⟩
      · rw [List.pairwise_map]
        exact (List.pairwise_insertionSort (· ≤ ·) (p.q.filterMap fixedLevel)).imp fun h => h
      · exact List.pairwise_replicate.2 (Or.inr trivial)
      · intro a _ b hb
        rw [List.eq_of_mem_replicate hb]
        cases a <;> trivial
    · refine (List.perm_insertionSort _ _).trans ((levels_perm p.q).trans ?_)
      exact (((List.perm_insertionSort _ _).symm.map _).append_right _)
  rw [key]
  rfl

theorem inBand_nan_quantile {lo hi : Mv (QVal R)} (h : lo = .nan ∨ hi = .nan) (v : Mv R) : Mv.inBand lo hi v = false := by
  unfold Mv.inBand
  rcases h with rfl | rfl
  · simp [Mv.lt]
  · cases h : Mv.qv v <;> simp [Mv.le]

theorem band_nan {lo hi : Mv (QVal R)} (h : lo = .nan ∨ hi = .nan) (x : List (Mv R)) : Mv.band lo hi x = [] := by
  unfold Mv.band
  rw [List.filter_eq_nil_iff]
  intro v _
  rw [inBand_nan_quantile h]; decide

theorem run_nan {lo hi : Mv (QVal R)} (h : lo = .nan ∨ hi = .nan) (x : List (Mv R)) : longestRun (x.map (Mv.inBand lo hi)) 0 0 = 0 := by
  induction x with
  | nil => rfl
  | cons v x ih =>
    rw [List.map_cons, inBand_nan_quantile h]
    simpa [longestRun] using ih

theorem incOp_nan (kind : IncKind) (x : List (Mv R)) (a b : ℤ) {lo hi : Mv (QVal R)} (h : lo = .nan ∨ hi = .nan) :
    Mv.incOp kind x a b lo hi = .ok (.num 0) := by
  cases kind with
  | npi => simp only [Mv.incOp, Mv.opNpi, band_nan h]; rw [List.length_nil, Nat.cast_zero]
  | mpi => simp only [Mv.incOp, Mv.opMpi, band_nan h]; rfl
  | lpi => simp only [Mv.incOp, Mv.opLpi, run_nan h, Nat.cast_zero]
  | xpi =>
    simp only [Mv.incOp, Mv.opXpi]
    rw [List.filter_eq_nil_iff.2 (fun e _ => by rw [inBand_nan_quantile h]; decide)]
    rfl

theorem incOp_total (kind : IncKind) (x : List (Mv R)) (a b : ℤ) (lo hi : Mv (QVal R)) : ∃ v, Mv.incOp kind x a b lo hi = .ok v := by
  cases kind <;> exact ⟨_, rfl⟩

/-- **C170 (after such a fit), partial.** A band with a missing quantile is empty: for every series, known or not, the features of an increment sieve
for it are 0. -/
theorem C170_nan_quantile_partial {m d n : ℕ} {C : Data (Mv R)} {D : Data R} {X : List (List (Mv R))} {Y : List (List R)}
    (hC : CompletesData m d n C D) (hX : CompletesArr m n X Y) (hm : 0 < m) (hd : 0 < d) (hn : 0 < n) (p : MSeg R) (hp : ∀ c ∈ p.cut, c.InRange n)
    (qs : List (Mv (QVal R))) (hqs : p.useQuantiles = .ok qs) (hq : qs ≠ []) (kind : IncKind) (inc : ℤ) :
    ∃ Z, (MSieve.inc kind inc p).transformC C X = .ok Z ∧ HasShape2 Z m (p.cut.length * (qs.length - 1)) ∧
      ∀ i < m, ∀ j < p.cut.length, ∀ k < qs.length - 1, qs.getD k (.num ⊥) = .nan ∨ qs.getD (k + 1) (.num ⊥) = .nan →
      at2 Z i (j * (qs.length - 1) + k) = .num 0 := by
  classical
  simp only [MSieve.transformC, MSeg.incTransform]
  rw [hqs, ok_bind, preTransform_orNan hX, ok_bind]
  have hs := orNan_shape m n (fun i => ViewMissing inc (MissingAt X i)) (fun i => viewOf inc (at2 Y i))
  rw [hs.1, hs.rowLen_eq hm, mcuts_eq hC hd hn p hp, ok_bind]
  choose v hv using incOp_total (R := R) kind
  generalize (tab m fun i => tab n fun t => orNan (ViewMissing inc (MissingAt X i) t) (viewOf inc (at2 Y i) t)) = A at hs
  refine ⟨tab m fun i => tab (p.cut.length * (qs.length - 1)) fun e => v (A.getD i []) ((mbounds C D p n i).getD (e / (qs.length - 1)) 0 : ℕ)
    ((mbounds C D p n i).getD (e / (qs.length - 1) + 1) 0 : ℕ) (qs.getD (e % (qs.length - 1)) (.num ⊥)) (qs.getD (e % (qs.length - 1) + 1) (.num ⊥)), ?_, ?_, ?_⟩
  · unfold Mv.backend
    rw [hs.1]
    refine mapM_ok_map fun i hi => ?_
    replace hi := List.mem_range.1 hi
    rw [getD_tab hi]
    unfold Mv.backendRow
    rw [if_neg (by tauto)]
    have hl : ((mbounds C D p n i).map fun k : ℕ => (k : ℤ)).length - 1 = p.cut.length := by rw [List.length_map, mbounds_length]; rfl
    rw [hl]
    refine fillGrid_ok (w := fun j k => v (A.getD i []) ((mbounds C D p n i).getD j 0 : ℕ)
      ((mbounds C D p n i).getD (j + 1) 0 : ℕ) (qs.getD k (.num ⊥)) (qs.getD (k + 1) (.num ⊥))) fun j hj k hk => ?_
    rw [getD_map_int, getD_map_int]
    exact hv _ _ _ _ _
  · refine ⟨by simp, fun r hr => ?_⟩
    obtain ⟨i, _, rfl⟩ := mem_tab.1 hr
    simp
  · intro i hi j hj k hk hnan
    unfold at2
    rw [getD_tab hi, getD_tab (idx_lt hj hk), (div_of_lt hk).1, (div_of_lt hk).2]
    have := hv (A.getD i []) ((mbounds C D p n i).getD j 0 : ℕ) ((mbounds C D p n i).getD (j + 1) 0 : ℕ) (qs.getD k (.num ⊥)) (qs.getD (k + 1) (.num ⊥))
    rw [incOp_nan kind _ _ _ hnan] at this
    exact (Except.ok.inj this).symm

theorem ppvCount_false {bs : List Bool} (h : ∀ b ∈ bs, b = false) : ppvCount (R := R) bs = 0 := by
  unfold ppvCount
  rw [show countTrue bs = 0 by unfold countTrue; simp only [List.length_eq_zero_iff, List.filter_eq_nil_iff]; intro b hb; rw [h b hb]; decide]
  simp

theorem cpvCount_false {bs : List Bool} (h : ∀ b ∈ bs, b = false) : cpvCount (R := R) bs = 0 := by
  unfold cpvCount
  have hm : (bs.map fun b => if b then (1 : R) else 0) = tab bs.length fun _ => 0 := by
    rw [← replicate_eq_tab, List.eq_replicate_iff]
    refine ⟨by simp, fun v hv => ?_⟩
    obtain ⟨b, hb, rfl⟩ := List.mem_map.1 hv
    rw [h b hb]; rfl
  simp only [hm]
  have hi := increments1_tab 1 bs.length (by omega) (fun _ => (0 : R))
  rw [Nat.cast_one] at hi
  rw [hi]
  dsimp only
  rw [List.filter_eq_nil_iff.2 (fun v hv => by
    obtain ⟨t, _, rfl⟩ := mem_tab.1 hv
    simp)]
  simp

/-- **C170 (after such a fit, PPV and CPV), partial.** A missing quantile makes the features that use it 0 for every series: with `segments` the two
features on either side of it, otherwise its own. -/
theorem C170_ppv_nan_quantile_partial (C : Data (Mv R)) (p : MPPV R) (qs : List (Mv R)) (hq : p.q = some qs) (X : List (List (Mv R)))
    (hn : 0 ≤ p.nfeatures) :
    ∃ Z Z', (MSieve.ppv p).transformC C X = .ok Z ∧ (MSieve.cpv p).transformC C X = .ok Z' ∧ ∀ i < X.length,
      (p.segments = false → ∀ j < qs.length, qs.getD j 0 = .nan → at2 Z i j = .num 0 ∧ at2 Z' i j = .num 0) ∧
      (p.segments = true → ∀ j < qs.length - 1, qs.getD j 0 = .nan ∨ qs.getD (j + 1) 0 = .nan → at2 Z i j = .num 0 ∧ at2 Z' i j = .num 0) := by
  have key : ∀ count : List Bool → R, (∀ bs : List Bool, (∀ b ∈ bs, b = false) → count bs = 0) → ∃ Z, p.transform count X = .ok Z ∧ ∀ i < X.length,
      (p.segments = false → ∀ j < qs.length, qs.getD j 0 = .nan → at2 Z i j = .num 0) ∧
      (p.segments = true → ∀ j < qs.length - 1, qs.getD j 0 = .nan ∨ qs.getD (j + 1) 0 = .nan → at2 Z i j = .num 0) := by
    intro count hc
    refine ⟨X.map fun x => nums (Mv.ppvRow count p.segments qs x), ?_, fun i hi => ?_⟩
    · unfold Mv.MPPV.transform
      rw [hq]
      dsimp only
      rw [if_neg (not_lt.2 hn)]
    have hrow : (X.map fun x => nums (Mv.ppvRow count p.segments qs x)).getD i [] = nums (Mv.ppvRow count p.segments qs (X.getD i [])) := by
      rw [getD_getElem (by simpa using hi), List.getElem_map, getD_getElem hi]
    constructor
    · intro hs j hj hnan
      unfold at2
      rw [hrow, hs]
      unfold Mv.ppvRow
      rw [if_neg (by decide)]
      unfold Mv.nums
      rw [getD_getElem (by simpa using hj), List.getElem_map, List.getElem_map]
      rw [getD_getElem hj] at hnan
      rw [hnan, hc _ fun b hb => ?_]
      obtain ⟨v, _, rfl⟩ := List.mem_map.1 hb
      cases v <;> rfl
    · intro hs j hj hnan
      unfold at2
      rw [hrow, hs]
      unfold Mv.ppvRow
      rw [if_pos rfl]
      unfold Mv.nums
      rw [getD_getElem (by simpa using hj), List.getElem_map, List.getElem_map, List.getElem_range]
      rw [hc _ fun b hb => ?_]
      obtain ⟨v, _, rfl⟩ := List.mem_map.1 hb
      rcases hnan with h | h <;> rw [h]
      · cases v <;> rfl
      · cases v <;> simp [Mv.lt]
  obtain ⟨Z, hZ, h⟩ := key ppvCount fun bs => ppvCount_false
  obtain ⟨Z', hZ', h'⟩ := key cpvCount fun bs => cpvCount_false
  exact ⟨Z, Z', hZ, hZ', fun i hi => ⟨fun hs j hj hn => ⟨(h i hi).1 hs j hj hn, (h' i hi).1 hs j hj hn⟩,
    fun hs j hj hn => ⟨(h i hi).2 hs j hj hn, (h' i hi).2 hs j hj hn⟩⟩⟩

/-! ## Examples and counterexamples -/

/-- Two iterated sums; in the second one the middle value is missing. -/
def sumsMissing : List (List (Mv ℚ)) := [[.num 1, .num 3, .num 2, .num 5], [.num 4, .nan, .num 2, .num 6]]
/-- The same with 7 for the missing value. -/
def sumsFilled : List (List ℚ) := [[1, 3, 2, 5], [4, 7, 2, 6]]

example : CompletesArr 2 4 sumsMissing sumsFilled := by
  refine ⟨⟨rfl, by decide⟩, ⟨rfl, by decide⟩, ?_⟩
  rintro (_ | _ | i) (_ | _ | _ | _ | t) x h <;> first | (cases h; rfl) | cases h

example : CompletesData 2 1 4 (newAxis sumsMissing) (newAxis sumsFilled) := by
  refine ⟨⟨rfl, by decide⟩, ⟨rfl, by decide⟩, ?_⟩
  rintro (_ | _ | i) (_ | j) (_ | _ | _ | _ | t) x h <;> first | (cases h; rfl) | cases h

/-- The segments `[0, 2)` and `[2, 4)`, the levels `-1` and `1`. -/
def twoHalves : MSeg ℚ := { cut := [.int 2, .int (-1)], q := [-1, 1] }

example : twoHalves.useQuantiles = .ok ([⊥, ⊤].map Mv.num) := rfl

example : ∀ c ∈ twoHalves.cut, c.InRange 4 := by
  intro c hc
  rcases List.mem_cons.1 hc with rfl | hc
  · constructor <;> decide
  · rw [List.mem_singleton] at hc
    subst hc
    constructor <;> decide

/-- The missing value is skipped by all sieves. -/
example :
    ((MSieve.seg .max twoHalves).transformC (newAxis sumsMissing) sumsMissing).toOption = some [[.num 3, .num 5], [.num 4, .num 6]] ∧
    ((MSieve.seg .min twoHalves).transformC (newAxis sumsMissing) sumsMissing).toOption = some [[.num 1, .num 2], [.num 4, .num 2]] ∧
    ((MSieve.seg .end_ twoHalves).transformC (newAxis sumsMissing) sumsMissing).toOption = some [[.num 3, .num 5], [.nan, .num 6]] ∧
    ((MSieve.inc .npi 0 twoHalves).transformC (newAxis sumsMissing) sumsMissing).toOption = some [[.num 2, .num 2], [.num 1, .num 2]] ∧
    ((MSieve.inc .mpi 1 twoHalves).transformC (newAxis sumsMissing) sumsMissing).toOption = some [[.num 1, .num 1], [.num 0, .num 4]] := by
  decide +kernel

/-- Training data with a missing value in the second series. The level `1/2` is lost for all: the quantiles `[0, inf, nan]` have other bands than the
quantiles `[0, 5/2, inf]` of the first series, and no feature of the first series is what it is without the second one. -/
theorem C170_fit_counterexample :
    let s : MSieve ℚ := .inc .npi 0 { q := [0, 1 / 2, 1] }
    let X : List (List (Mv ℚ)) := [[.num 1, .num 3, .num 2, .num 5]]
    ((s.fit ⟨fun _ _ _ => 0, fun _ _ _ => [], fun _ _ _ => 0, fun _ _ _ => 0, fun _ _ => 0, fun _ => []⟩ X >>=
      fun s => s.transformC (newAxis X) X).toOption = some [[.num 2, .num 2]]) ∧
    ((s.fit ⟨fun _ _ _ => 0, fun _ _ _ => [], fun _ _ _ => 0, fun _ _ _ => 0, fun _ _ => 0, fun _ => []⟩ sumsMissing >>=
      fun s => s.transformC (newAxis sumsMissing) sumsMissing).toOption = some [[.num 4, .num 0], [.num 3, .num 0]]) := by
  decide +kernel

/-- The levels `0`, `1/2` and `1` satisfy the hypotheses of `C170_fit_partial`, and the data has a missing value. -/
example : (∃ x ∈ sumsMissing, Mv.nan ∈ x) ∧ (∀ q ∈ [(0 : ℚ), 1 / 2, 1], q = -1 ∨ 0 ≤ q ∧ q ≤ 1) ∧
    ([(0 : ℚ), 1 / 2, 1].filterMap fixedLevel).insertionSort (· ≤ ·) = [QVal.of 0, ⊤] ∧ fittedLevels [(0 : ℚ), 1 / 2, 1] = 1 := by
  decide +kernel

/-- `PPV` fitted with a missing value somewhere in its sample has no feature but 0, even for a series without missing values. -/
theorem C170_ppv_counterexample :
    let g : Rng ℚ := ⟨fun _ _ _ => 0, fun _ n k => (List.range n).take k, fun _ _ _ => 0, fun _ _ => 0, fun _ _ => 0, fun _ => []⟩
    let s : MSieve ℚ := .ppv { qc := [(1 / 2, false)], sampleSize := 1, segments := false }
    ((s.fit g sumsMissing >>= fun s => s.transformC (newAxis sumsMissing) sumsMissing).toOption = some [[.num 0], [.num 0]]) ∧
    ((s.fit g (known sumsFilled) >>= fun s => s.transformC (newAxis (known sumsFilled)) (known sumsFilled)).toOption =
      some [[.num (1 / 4)], [.num (3 / 4)]]) := by
  decide +kernel

/-- `MAX` and `MIN` raise for the whole dataset if one segment of one series has missing values only. -/
theorem C170_max_counterexample :
    let X : List (List (Mv ℚ)) := [[.num 1, .num 3, .num 2, .num 5], [.nan, .nan, .num 2, .num 6]]
    ((MSieve.seg .max twoHalves).transformC (newAxis X) X).toOption = none ∧ ((MSieve.seg .min twoHalves).transformC (newAxis X) X).toOption = none := by
  decide +kernel

/-- A missing value in a dimension that gives the cuts: the cut `0.5` of the series falls to 0, and the segment of `NPI` becomes empty. -/
theorem C170_cut_counterexample :
    let s : MSieve ℚ := .inc .npi 0 { cut := [.float (1 / 2)], q := [-1, 1], norm := .L1 }
    (s.transformC (newAxis (known sumsFilled)) sumsMissing).toOption = some [[.num 3], [.num 1]] ∧
    (s.transformC (newAxis sumsMissing) sumsMissing).toOption = some [[.num 3], [.num 0]] := by
  decide +kernel

/-- The hypothesis of `C170_ppv` for the quantiles 2 and 3: the missing value stands for 1. -/
example : List.Forall₂ (LowMissing [(2 : ℚ), 3]) sumsMissing [[1, 3, 2, 5], [4, 1, 2, 6]] := by
  refine .cons (.cons (.inl rfl) (.cons (.inl rfl) (.cons (.inl rfl) (.cons (.inl rfl) .nil)))) (.cons ?_ .nil)
  exact .cons (.inl rfl) (.cons (.inr ⟨rfl, by decide +kernel⟩) (.cons (.inl rfl) (.cons (.inl rfl) .nil)))

example : ((MSieve.ppv (R := ℚ) { qc := [(2, true), (3, true)], sampleSize := 1, segments := false, q := some [.num 2, .num 3] }).transformC (newAxis sumsMissing)
    sumsMissing).toOption = some [[.num (3 / 4), .num (1 / 2)], [.num (3 / 4), .num (1 / 2)]] := by
  decide +kernel

/-- The hypothesis of `C170_other_series`. -/
example : SameSeries 2 4 0 sumsMissing (known sumsFilled) := ⟨⟨rfl, by decide⟩, ⟨rfl, by decide⟩, rfl⟩

/-- A missing quantile between two known ones: both features next to it are 0 for all series. -/
example : ((MSieve.ppv (R := ℚ) ⟨[(1, true), (1 / 2, false), (3, true), (9, true)], 1, true, some [.num 1, .nan, .num 3, .num 9]⟩).transformC (newAxis sumsMissing) sumsMissing).toOption =
      some [[.num 0, .num 0, .num (1 / 2)], [.num 0, .num 0, .num (1 / 2)]] := by
  decide +kernel

end Fruits
