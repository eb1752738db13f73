import Verif.MissingSieve
import Verif.Props.Units1

/-! # C170: missing values and sieves, part 1: without missing values the sieves are those of `Verif.Sieve` -/

namespace Fruits
set_option linter.unusedSectionVars false

variable {R : Type} [Field R] [LinearOrder R] [IsStrictOrderedRing R] [FloorRing R]

/-! ## Specification -/

/-- The settings and the state of a segment sieve. -/
def Seg.mv (p : Seg R) : Mv.MSeg R := ⟨p.cut, p.q, p.norm, p.quantiles.map (List.map Mv.num)⟩

/-- The settings and the state of `PPV` or `CPV`. -/
def PPV.mv (p : PPV R) : Mv.MPPV R := ⟨p.qc, p.sampleSize, p.segments, p.q.map Mv.nums⟩

/-- The settings and the state of a sieve. -/
def Sieve.mv : Sieve R → Mv.MSieve R
  | .seg k p => .seg k p.mv
  | .inc k i p => .inc k i p.mv
  | .ppv p => .ppv p.mv
  | .cpv p => .cpv p.mv
  | .wrapInc s d k => .wrapInc s.mv d k
  | .wrapInt s => .wrapInt s.mv

/-- An array without missing values. -/
def known (X : List (List R)) : List (List (Mv R)) := X.map Mv.nums

/-- A dataset without missing values. -/
def knownData (X : Data R) : Data (Mv R) := X.map known

/-! ## Proof -/

theorem zeros_nums (n : ℕ) : (zeros n : List (Mv R)) = Mv.nums (zeros n) := by
  simp only [zeros, Mv.nums, List.map_replicate]; rfl

theorem vsub_nums (x y : List R) : vsub (Mv.nums x) (Mv.nums y) = Mv.nums (vsub x y) :=
  zipWith_map_map (op := fun a b : R => a - b) (op' := fun a b : Mv R => a - b) (h := Mv.num) (fun _ _ => rfl) x y

theorem increments1_nums (k : ℤ) (x : List R) : increments1 k (Mv.nums x) = (increments1 k x).map Mv.nums := by
  unfold increments1
  rw [show slcFrom (Mv.nums x) k = Mv.nums (slcFrom x k) from slcFrom_map _ x k,
    show slcTo (Mv.nums x) (-k) = Mv.nums (slcTo x (-k)) from slcTo_map _ x (-k)]
  dsimp only
  rw [vsub_nums]
  simp only [show ∀ y : List R, (Mv.nums y).length = y.length from fun y => List.length_map _]
  by_cases h : (slcFrom x k).length = (slcTo x (-k)).length
  · rw [if_pos h, if_pos h, zeros_nums]
    exact setSlc_map Mv.num (zeros x.length) _ _ _
  · rw [if_neg h, if_neg h]; rfl

theorem cumsumFrom_nums : ∀ (x : List R) (a : R), cumsumFrom (Mv.num a) (Mv.nums x) = Mv.nums (cumsumFrom a x)
  | [], _ => rfl
  | v :: x, a => by
    have := cumsumFrom_nums x (a + v)
    simp only [Mv.nums, List.map_cons, cumsumFrom] at this ⊢
    rw [← this]; rfl

theorem cumsum_nums (x : List R) : cumsum (Mv.nums x) = Mv.nums (cumsum x) := cumsumFrom_nums x 0

theorem known_length (X : List (List R)) : (known X).length = X.length := List.length_map _

theorem known_getD (X : List (List R)) (i : ℕ) : (known X).getD i [] = Mv.nums (X.getD i []) := getD_map' Mv.nums X i []

theorem nums_length (x : List R) : (Mv.nums x).length = x.length := List.length_map _

theorem nums_getD (x : List R) (i : ℕ) : (Mv.nums x).getD i 0 = Mv.num (x.getD i 0) := getD_map' Mv.num x i 0

theorem rowLen_known (X : List (List R)) : rowLen (known X) = rowLen X := by
  unfold rowLen; rw [known_getD, nums_length]

theorem nums_sum : ∀ x : List R, (Mv.nums x).sum = Mv.num x.sum
  | [] => rfl
  | v :: x => by
    have := nums_sum x
    simp only [Mv.nums, List.map_cons, List.sum_cons] at this ⊢
    rw [this]; rfl

theorem nan_not_mem (x : List R) : Mv.nan ∉ Mv.nums x := by
  unfold Mv.nums
  intro h
  obtain ⟨a, _, ha⟩ := List.mem_map.1 h
  cases ha

theorem filterMap_nums (x : List R) : (Mv.nums x).filterMap Mv.get? = x := by
  unfold Mv.nums
  rw [List.filterMap_map]
  simp [Function.comp_def, Mv.get?]

theorem quantile_nums (x : List R) (q : R) : Mv.quantile (Mv.nums x) q = (quantile x q).map Mv.num := by
  unfold Mv.quantile
  rw [if_neg (nan_not_mem x), filterMap_nums]
  cases quantile x q <;> rfl

theorem normSum_known (nm : Norm) (C : Data R) : Mv.normSum nm (knownData C) = (normSum nm C).map known := by
  unfold Mv.normSum normSum knownData known
  refine mapM_map_out _ fun s _ => ?_
  rw [show (s.map Mv.nums).getD 0 [] = Mv.nums (s.getD 0 []) from known_getD s 0, increments1_nums]
  cases increments1 1 (s.getD 0 []) with
  | error e => rfl
  | ok y =>
    have : (Mv.nums y).map (Mv.lift nm.val) = Mv.nums (y.map nm.val) := by
      unfold Mv.nums; rw [List.map_map, List.map_map]; rfl
    simp only [Except.map, ok_bind, pure, Except.pure]
    rw [this, cumsum_nums]

theorem coquantile1_nums (q : R) (x : List R) : Mv.coquantile1 q (Mv.nums x) = coquantile1 q x := by
  unfold Mv.coquantile1 coquantile1
  rw [nums_length, nums_getD]
  unfold Mv.nums
  rw [List.filter_map, List.length_map]
  rfl

theorem coqs_normSum (T : FloatText R) (hT : T.Lawful) (C : Data R) (q : R) (nm : Norm) :
    coqs T C q nm.str = (normSum nm C).map (List.map (coquantile1 q)) := by
  unfold coqs
  have hs : psplit ':' (T.toText q ++ ':' :: nm.str) = [T.toText q, nm.str] := by
    refine psplit_key _ _ (hT.no_colon q) ?_
    cases nm <;> decide
  have hn : normOf nm.str = some nm := by cases nm <;> decide
  simp only [Cache.get, Cache.new, Cache.lookup, List.find?_nil, Option.map_none, Option.map_some, NdArr.toData, Cache.fill, computeKey, hs, hn]
  cases normSum nm C with
  | error e => rfl
  | ok S => simp only [ok_bind, hT.ofText_toText]; rfl

theorem cutColumn_known (T : FloatText R) (hT : T.Lawful) (C : Data R) (p : Seg R) (m n : ℕ) (c : Cut R) :
    p.mv.cutColumn (knownData C) m n c = p.cutColumn T C m n c := by
  cases c with
  | int k => rfl
  | float f =>
    simp only [Mv.MSeg.cutColumn, Seg.cutColumn, coqs_normSum T hT, Seg.mv, normSum_known]
    cases normSum p.norm C with
    | error e => rfl
    | ok S =>
      simp only [Except.map, ok_bind, known_length, List.length_map]
      by_cases h : S.length = m
      · rw [if_pos h, if_pos h]
        simp only [known, List.map_map, pure, Except.pure, Except.ok.injEq]
        refine List.map_congr_left fun x _ => ?_
        simp only [Function.comp_apply, coquantile1_nums]
      · rw [if_neg h, if_neg h]

theorem cuts_known (T : FloatText R) (hT : T.Lawful) (C : Data R) (p : Seg R) (m n : ℕ) : p.mv.cuts (knownData C) m n = p.cuts T C m n := by
  unfold Mv.MSeg.cuts Seg.cuts
  rw [show p.mv.cut = p.cut from rfl, show p.mv.cutColumn (knownData C) m n = p.cutColumn T C m n from funext fun c => cutColumn_known T hT C p m n c]

theorem quantileValue_nums (x : List R) (q : R) : Mv.quantileValue (Mv.nums x) q = (quantileValue x q).map Mv.num := by
  unfold Mv.quantileValue quantileValue
  by_cases h1 : q = 1
  · rw [if_pos h1, if_pos h1]; rfl
  rw [if_neg h1, if_neg h1]
  by_cases h2 : q = -1
  · rw [if_pos h2, if_pos h2]; rfl
  rw [if_neg h2, if_neg h2]
  by_cases h3 : q ≠ 0
  · rw [if_pos h3, if_pos h3, quantile_nums]
    cases quantile x q <;> rfl
  · rw [if_neg h3, if_neg h3]; rfl

theorem flatten_known (X : List (List R)) : (known X).flatten = Mv.nums X.flatten := by
  unfold known Mv.nums
  rw [List.map_flatten]

theorem sort_num (qs : List (QVal R)) : (qs.map Mv.num).insertionSort Mv.sortLe = (qs.insertionSort (· ≤ ·)).map Mv.num :=
  (List.map_insertionSort (r := (· ≤ ·)) (s := Mv.sortLe) (f := Mv.num) (hl := fun _ _ _ _ => Iff.rfl) ..).symm

theorem segFit_known (p : Seg R) (X : List (List R)) : p.mv.fit (known X) = (p.fit X).map Seg.mv := by
  unfold Mv.MSeg.fit Seg.fit
  rw [flatten_known, mapM_congr_map (g := quantileValue X.flatten) (h := Mv.num) p.mv.q (fun q _ => quantileValue_nums _ q)]
  rw [show p.mv.q = p.q from rfl]
  cases p.q.mapM (quantileValue X.flatten) with
  | error e => rfl
  | ok qs =>
    simp only [Except.map, ok_bind, pure, Except.pure, Seg.mv, sort_num, Option.map_some]

theorem useQuantiles_known (p : Seg R) : p.mv.useQuantiles = p.useQuantiles.map (List.map Mv.num) := by
  unfold Mv.MSeg.useQuantiles Seg.useQuantiles Seg.unfittedQuantiles
  rw [show p.mv.requiresFitting = p.requiresFitting from rfl, show p.mv.q = p.q from rfl]
  cases p.requiresFitting with
  | true =>
    simp only [if_true, Seg.mv]
    cases p.quantiles <;> rfl
  | false =>
    rw [if_neg (by decide), if_neg (by decide)]
    cases p.q.mapM unfittedValue <;> rfl

theorem inBand_num (lo hi : QVal R) (v : R) : Mv.inBand (.num lo) (.num hi) (.num v) = decide (lo < QVal.of v ∧ QVal.of v ≤ hi) := by
  simp only [Mv.inBand, Mv.lt, Mv.le, Mv.qv, Bool.decide_and]

theorem band_nums (lo hi : QVal R) (x : List R) : Mv.band (.num lo) (.num hi) (Mv.nums x) = Mv.nums (band lo hi x) := by
  unfold Mv.band band Mv.nums
  rw [List.filter_map]
  congr 1
  refine List.filter_congr fun v _ => inBand_num lo hi v

theorem foldl_lift₂ (op : R → R → R) : ∀ (x : List R) (a : R), (Mv.nums x).foldl (Mv.lift₂ op) (.num a) = .num (x.foldl op a)
  | [], _ => rfl
  | v :: x, a => foldl_lift₂ op x (op a v)

theorem maxE_nums (x : List R) : Mv.maxE (Mv.nums x) = (maxE x).map Mv.num := by
  cases x with
  | nil => rfl
  | cons a x =>
    simp only [Mv.nums, List.map_cons, Mv.maxE]
    rw [show (x.map Mv.num).foldl Mv.npMax (.num a) = .num (x.foldl max a) from foldl_lift₂ max x a]
    rfl

theorem minE_nums (x : List R) : Mv.minE (Mv.nums x) = (minE x).map Mv.num := by
  cases x with
  | nil => rfl
  | cons a x =>
    simp only [Mv.nums, List.map_cons, Mv.minE]
    rw [show (x.map Mv.num).foldl (Mv.lift₂ min) (.num a) = .num (x.foldl min a) from foldl_lift₂ min x a]
    rfl

theorem slc_nums (x : List R) (a b : ℤ) : slc (Mv.nums x) a b = Mv.nums (slc x a b) := slc_map _ x a b

/-- The operation `mop` on arrays without missing values is `op`. -/
def AgreeOn (op : SegOp R) (mop : Mv.MOp R) : Prop := ∀ x a b lo hi, mop (Mv.nums x) a b (.num lo) (.num hi) = (op x a b lo hi).map Mv.num

theorem opMax_agree : AgreeOn (R := R) opMax Mv.opMax := by
  intro x a b lo hi
  unfold opMax Mv.opMax
  by_cases h : a = b
  · rw [if_pos h, if_pos h]; rfl
  · rw [if_neg h, if_neg h, slc_nums, band_nums, maxE_nums]

theorem opMin_agree : AgreeOn (R := R) opMin Mv.opMin := by
  intro x a b lo hi
  unfold opMin Mv.opMin
  by_cases h : a = b
  · rw [if_pos h, if_pos h]; rfl
  · rw [if_neg h, if_neg h, slc_nums, band_nums, minE_nums]

theorem opCur_agree : AgreeOn (R := R) opCur Mv.opCur := by
  intro x a b lo hi
  simp only [opCur, Mv.opCur, slc_nums, band_nums, Except.map, Except.ok.injEq]
  rw [← nums_sum]
  congr 1
  unfold Mv.nums
  rw [List.map_map, List.map_map]
  refine List.map_congr_left fun v _ => ?_
  change Mv.num (v * v) = Mv.num (v ^ 2)
  rw [sq]

theorem opNpi_agree : AgreeOn (R := R) opNpi Mv.opNpi := by
  intro x a b lo hi
  simp only [opNpi, Mv.opNpi, slc_nums, band_nums, nums_length, Except.map]

theorem opMpi_agree : AgreeOn (R := R) opMpi Mv.opMpi := by
  intro x a b lo hi
  simp only [opMpi, Mv.opMpi, slc_nums, band_nums, nums_length, Except.map, Except.ok.injEq]
  by_cases h : (band lo hi (slc x a b)).length = 0
  · rw [if_pos h, if_pos h]; rfl
  · rw [if_neg h, if_neg h]
    unfold Mv.mean mean
    rw [nums_sum, nums_length]; rfl

theorem opXpi_agree : AgreeOn (R := R) opXpi Mv.opXpi := by
  intro x a b lo hi
  simp only [opXpi, Mv.opXpi, slc_nums, Except.map, Except.ok.injEq]
  have h : ((Mv.nums (slc x a b)).zipIdx.filter fun e => Mv.inBand (.num lo) (.num hi) e.1).map (fun e => (e.2 : R)) =
      ((slc x a b).zipIdx.filter fun e => decide (lo < QVal.of e.1 ∧ QVal.of e.1 ≤ hi)).map fun e => (e.2 : R) := by
    unfold Mv.nums
    rw [List.zipIdx_map, List.filter_map, List.map_map]
    congr 1
    exact List.filter_congr fun e _ => inBand_num lo hi e.1
  rw [h]

theorem opLpi_agree : AgreeOn (R := R) opLpi Mv.opLpi := by
  intro x a b lo hi
  simp only [opLpi, Mv.opLpi, slc_nums, Except.map, Except.ok.injEq]
  have h : (Mv.nums (slc x a b)).map (Mv.inBand (.num lo) (.num hi)) = (slc x a b).map fun v => decide (lo < QVal.of v ∧ QVal.of v ≤ hi) := by
    unfold Mv.nums
    rw [List.map_map]
    exact List.map_congr_left fun v _ => inBand_num lo hi v
  rw [h]

theorem fillGrid_nums {v : ℕ → ℕ → Except Err R} {v' : ℕ → ℕ → Except Err (Mv R)} (h : ∀ j k, v' j k = (v j k).map Mv.num) (J K : ℕ) :
    fillGrid J K v' = (fillGrid J K v).map Mv.nums := by
  unfold fillGrid
  generalize ((List.range J).flatMap fun j => (List.range K).map fun k => (j, k)) = l
  rw [zeros_nums]
  generalize (zeros (J * K) : List R) = res
  induction l generalizing res with
  | nil => rfl
  | cons e l ih =>
    rw [List.foldlM_cons, List.foldlM_cons, h]
    cases v e.1 e.2 with
    | error er => rfl
    | ok y =>
      simp only [Except.map, ok_bind, pure, Except.pure]
      have : (Mv.nums res).set (e.1 * K + e.2) (.num y) = Mv.nums (res.set (e.1 * K + e.2) y) := by
        unfold Mv.nums; rw [List.map_set]
      rw [this]
      exact ih _

theorem backend_known {op : SegOp R} {mop : Mv.MOp R} (hop : AgreeOn op mop) (cuts : List (List ℤ)) (qs : List (QVal R)) (X : List (List R)) :
    Mv.backend mop cuts (qs.map Mv.num) (known X) = (backend op cuts qs X).map known := by
  unfold Mv.backend backend
  rw [known_length]
  refine mapM_congr_map _ fun i _ => ?_
  rw [known_getD]
  unfold Mv.backendRow backendRow
  simp only [List.map_eq_nil_iff, List.length_map]
  by_cases h : qs = [] ∧ (cuts.getD i []).length ≠ 1
  · rw [if_pos h, if_pos h]; rfl
  · rw [if_neg h, if_neg h]
    refine fillGrid_nums (fun j l => ?_) _ _
    have h1 : ∀ n, (qs.map Mv.num).getD n (.num ⊥) = Mv.num (qs.getD n ⊥) := fun n => getD_map' Mv.num qs n ⊥
    rw [h1, h1]
    exact hop _ _ _ _ _

theorem endRow_nums (cuts : List ℤ) (x : List R) : endRow cuts (Mv.nums x) = (endRow cuts x).map Mv.nums := by
  unfold endRow
  refine mapM_congr_map _ fun j _ => ?_
  unfold takeIdx
  rw [nums_length]
  cases normIdx x.length (cuts.getD (j + 1) 0 - 1) with
  | error e => rfl
  | ok i => simp only [ok_bind, pure, Except.pure, Except.map, nums_getD]

theorem secondIncrements_nums (x : List R) : secondIncrements (Mv.nums x) = (secondIncrements x).map Mv.nums := by
  unfold secondIncrements
  rw [increments1_nums]
  cases increments1 1 x with
  | error e => rfl
  | ok y => exact increments1_nums 1 y

theorem segTransform_known (T : FloatText R) (hT : T.Lawful) (C : Data R) (k : SegKind) (p : Seg R) (X : List (List R)) :
    p.mv.transform (knownData C) k (known X) = (p.transform T C k X).map known := by
  have hcur : (p.mv.useQuantiles >>= fun qs => p.mv.cuts (knownData C) (known X).length (rowLen (known X)) >>= fun cuts =>
      (known X).mapM secondIncrements >>= fun X2 => Mv.backend Mv.opCur cuts qs X2) =
      (p.useQuantiles >>= fun qs => p.cuts T C X.length (rowLen X) >>= fun cuts =>
        X.mapM secondIncrements >>= fun X2 => backend opCur cuts qs X2).map known := by
    rw [useQuantiles_known, cuts_known T hT, known_length, rowLen_known]
    cases p.useQuantiles with
    | error e => rfl
    | ok qs =>
      simp only [Except.map, ok_bind]
      cases p.cuts T C X.length (rowLen X) with
      | error e => rfl
      | ok cuts =>
        simp only [ok_bind]
        rw [show (known X).mapM secondIncrements = (X.mapM secondIncrements).map known from mapM_map_out X fun x _ => secondIncrements_nums x]
        cases X.mapM secondIncrements with
        | error e => rfl
        | ok X2 => exact backend_known opCur_agree cuts qs X2
  cases k with
  | max =>
    simp only [Mv.MSeg.transform, Seg.transform]
    rw [useQuantiles_known, cuts_known T hT, known_length, rowLen_known]
    cases p.useQuantiles with
    | error e => rfl
    | ok qs =>
      simp only [Except.map, ok_bind]
      cases p.cuts T C X.length (rowLen X) with
      | error e => rfl
      | ok cuts => exact backend_known opMax_agree cuts qs X
  | min =>
    simp only [Mv.MSeg.transform, Seg.transform]
    rw [useQuantiles_known, cuts_known T hT, known_length, rowLen_known]
    cases p.useQuantiles with
    | error e => rfl
    | ok qs =>
      simp only [Except.map, ok_bind]
      cases p.cuts T C X.length (rowLen X) with
      | error e => rfl
      | ok cuts => exact backend_known opMin_agree cuts qs X
  | end_ =>
    simp only [Mv.MSeg.transform, Seg.transform]
    rw [cuts_known T hT, known_length, rowLen_known]
    cases p.cuts T C X.length (rowLen X) with
    | error e => rfl
    | ok cuts =>
      simp only [ok_bind]
      refine mapM_congr_map _ fun i _ => ?_
      rw [known_getD, endRow_nums]
  | cur => exact hcur
  | avg => exact hcur
  | std => exact hcur

theorem iterM_known {α β : Type} {h : α → β} {f : α → Except Err α} {f' : β → Except Err β} (hf : ∀ x, f' (h x) = (f x).map h) :
    ∀ (k : ℕ) (x : α), iterM f' k (h x) = (iterM f k x).map h
  | 0, _ => rfl
  | k + 1, x => by
    unfold iterM
    rw [hf]
    cases f x with
    | error e => rfl
    | ok y => exact iterM_known hf k y

theorem map_cumsum_known (X : List (List R)) : (known X).map cumsum = known (X.map cumsum) := by
  unfold known
  rw [List.map_map, List.map_map]
  exact List.map_congr_left fun x _ => cumsum_nums x

theorem increments_known (k : ℤ) (X : List (List R)) : (known X).mapM (increments1 k) = (X.mapM (increments1 k)).map known :=
  mapM_map_out X fun x _ => increments1_nums k x

theorem preTransform_known (inc : ℤ) (X : List (List R)) : preTransform inc (known X) = (preTransform inc X).map known := by
  unfold preTransform
  by_cases h1 : inc > 0
  · rw [if_pos h1, if_pos h1]
    exact iterM_known (h := known) (f := fun A : List (List R) => A.mapM (increments1 1)) (fun A => increments_known 1 A) _ _
  rw [if_neg h1, if_neg h1]
  by_cases h2 : inc < 0
  · rw [if_pos h2, if_pos h2]
    exact iterM_known (h := known) (f := fun A : List (List R) => Except.ok (A.map cumsum)) (fun A => by rw [map_cumsum_known]; rfl) _ _
  · rw [if_neg h2, if_neg h2]; rfl

theorem incTransform_known (T : FloatText R) (hT : T.Lawful) (C : Data R) (k : IncKind) (i : ℤ) (p : Seg R) (X : List (List R)) :
    p.mv.incTransform (knownData C) k i (known X) = (p.incTransform T C k i X).map known := by
  unfold Mv.MSeg.incTransform Seg.incTransform
  rw [useQuantiles_known, preTransform_known]
  cases p.useQuantiles with
  | error e => rfl
  | ok qs =>
    simp only [Except.map, ok_bind]
    cases preTransform i X with
    | error e => rfl
    | ok A =>
      simp only [ok_bind]
      rw [cuts_known T hT, known_length, rowLen_known]
      cases p.cuts T C A.length (rowLen A) with
      | error e => rfl
      | ok cuts =>
        simp only [ok_bind]
        refine backend_known ?_ cuts qs A
        cases k
        · exact opNpi_agree
        · exact opMpi_agree
        · exact opXpi_agree
        · exact opLpi_agree

theorem ppvRow_nums (count : List Bool → R) (segments : Bool) (qs x : List R) :
    Mv.ppvRow count segments (Mv.nums qs) (Mv.nums x) = PPV.row count segments qs x := by
  unfold Mv.ppvRow PPV.row
  cases segments with
  | true =>
    simp only [if_true, nums_length]
    refine List.map_congr_left fun j _ => ?_
    rw [nums_getD, nums_getD]
    congr 1
    unfold Mv.nums
    rw [List.map_map]
    refine List.map_congr_left fun v _ => ?_
    simp only [Function.comp_apply, Mv.le, Mv.lt, Bool.decide_and]
  | false =>
    rw [if_neg (by decide), if_neg (by decide)]
    unfold Mv.nums
    rw [List.map_map]
    refine List.map_congr_left fun q _ => ?_
    simp only [Function.comp_apply]
    congr 1
    rw [List.map_map]
    rfl

theorem ppvTransform_known (count : List Bool → R) (p : PPV R) (X : List (List R)) :
    p.mv.transform count (known X) = (p.transform count X).map known := by
  unfold Mv.MPPV.transform PPV.transform
  rw [show p.mv.q = p.q.map Mv.nums from rfl, show p.mv.nfeatures = p.nfeatures from rfl, show p.mv.segments = p.segments from rfl]
  cases p.q with
  | none => rfl
  | some qs =>
    simp only [Option.map_some]
    by_cases h : p.nfeatures < 0
    · rw [if_pos h, if_pos h]; rfl
    · rw [if_neg h, if_neg h]
      simp only [Except.map, known, List.map_map, Except.ok.injEq]
      refine List.map_congr_left fun x _ => ?_
      simp only [Function.comp_apply, ppvRow_nums]

theorem ppvFit_known (g : Rng R) (p : PPV R) (X : List (List R)) : p.mv.fit g (known X) = (p.fit g X).map PPV.mv := by
  unfold Mv.MPPV.fit PPV.fit
  rw [show p.mv.qc = p.qc from rfl, mapM_congr_map (g := p.fitValue g X) (h := Mv.num) p.qc.zipIdx (fun e _ => ?_)]
  · cases p.qc.zipIdx.mapM (p.fitValue g X) with
    | error e => rfl
    | ok qs => rfl
  · unfold Mv.MPPV.fitValue PPV.fitValue
    by_cases h : e.1.2 = true
    · rw [if_pos h, if_pos h]; rfl
    · rw [if_neg h, if_neg h, known_length, show p.mv.sampleSize = p.sampleSize from rfl, ← quantile_nums, ← flatten_known]
      congr 2
      unfold known
      rw [List.map_map]
      exact List.map_congr_left fun i _ => known_getD X i

theorem wrapInc_known (d : ℕ) (k : ℤ) (X : List (List R)) : wrapIncData d k (known X) = (wrapIncData d k X).map known := by
  unfold wrapIncData
  rw [increments_known]
  generalize hA : X.mapM (increments1 k) = A
  generalize List.range d = l
  suffices H : ∀ Y : List (List R), l.foldlM (fun (_ : List (List (Mv R))) (_ : ℕ) => A.map known) (known Y) =
      (l.foldlM (fun (_ : List (List R)) (_ : ℕ) => A) Y).map known from H X
  induction l with
  | nil => intro Y; rfl
  | cons e l ih =>
    intro Y
    rw [List.foldlM_cons, List.foldlM_cons]
    cases A with
    | error e => rfl
    | ok Z => exact ih Z

theorem newAxis_known (X : List (List R)) : newAxis (known X) = knownData (newAxis X) := by
  unfold newAxis knownData known
  rw [List.map_map, List.map_map]
  rfl

/-- **C170 (no missing values).** Fitting and applying a sieve to an array without missing values gives what `Verif.Sieve` says: the features C59 to
C69 describe. -/
theorem C170_none_missing (T : FloatText R) (hT : T.Lawful) (g : Rng R) (s : Sieve R) :
    (∀ X : List (List R), s.mv.fit g (known X) = (s.fit g X).map Sieve.mv) ∧
    ∀ (C : Data R) (X : List (List R)), s.mv.transformC (knownData C) (known X) = (s.transformC T C X).map known := by
  induction s with
  | seg k p =>
    refine ⟨fun X => ?_, fun C X => segTransform_known T hT C k p X⟩
    simp only [Sieve.mv, Mv.MSieve.fit, Sieve.fit, segFit_known]
    cases p.fit X <;> rfl
  | inc k i p =>
    refine ⟨fun X => ?_, fun C X => incTransform_known T hT C k i p X⟩
    simp only [Sieve.mv, Mv.MSieve.fit, Sieve.fit, Mv.MSeg.incFit, Seg.incFit, preTransform_known]
    cases preTransform i X with
    | error e => rfl
    | ok A =>
      simp only [Except.map, ok_bind, segFit_known]
      cases p.fit A <;> rfl
  | ppv p =>
    refine ⟨fun X => ?_, fun C X => ppvTransform_known _ p X⟩
    simp only [Sieve.mv, Mv.MSieve.fit, Sieve.fit, ppvFit_known]
    cases p.fit g X <;> rfl
  | cpv p =>
    refine ⟨fun X => ?_, fun C X => ppvTransform_known _ p X⟩
    simp only [Sieve.mv, Mv.MSieve.fit, Sieve.fit, ppvFit_known]
    cases p.fit g X <;> rfl
  | wrapInc s d k ih =>
    refine ⟨fun X => ?_, fun C X => ?_⟩
    · simp only [Sieve.mv, Mv.MSieve.fit, Sieve.fit, wrapInc_known]
      cases wrapIncData d k X with
      | error e => rfl
      | ok Y =>
        simp only [Except.map, ok_bind, ih.1]
        cases s.fit g Y <;> rfl
    · simp only [Sieve.mv, Mv.MSieve.transformC, Sieve.transformC, wrapInc_known]
      cases wrapIncData d k X with
      | error e => rfl
      | ok Y =>
        simp only [Except.map, ok_bind, newAxis_known]
        exact ih.2 _ _
  | wrapInt s ih =>
    refine ⟨fun X => ?_, fun C X => ?_⟩
    · simp only [Sieve.mv, Mv.MSieve.fit, Sieve.fit, map_cumsum_known, ih.1]
      cases s.fit g (X.map cumsum) <;> rfl
    · simp only [Sieve.mv, Mv.MSieve.transformC, Sieve.transformC, map_cumsum_known, newAxis_known]
      exact ih.2 _ _

end Fruits
