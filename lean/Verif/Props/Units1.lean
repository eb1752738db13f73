import Verif.Props.Algebra
import Verif.Props.Sieve7

/-! # C166: changing the unit of measurement, part 1: arrays, the cache and sieves -/

namespace Fruits
set_option linter.unusedSectionVars false
variable {R : Type} [Field R] [LinearOrder R] [IsStrictOrderedRing R] [FloorRing R]

/-- A row multiplied by `c`. -/
def scRow (c : R) (x : List R) : List R := x.map (c * ·)

/-- A two-dimensional array multiplied by `c`. -/
def scArr (c : R) (X : List (List R)) : List (List R) := X.map (scRow c)

/-- A quantile multiplied by `c > 0`; the infinite ones stay. -/
def scQ (c : R) (q : QVal R) : QVal R := WithBot.map (WithTop.map (c * ·)) q

/-! ### Lists -/

theorem scaleData_eq (c : R) (X : Data R) : scaleData c X = X.map (scArr c) := rfl

@[simp] theorem scRow_length (c : R) (x : List R) : (scRow c x).length = x.length := List.length_map ..
@[simp] theorem scArr_length (c : R) (x : List (List R)) : (scArr c x).length = x.length := List.length_map ..
@[simp] theorem scaleData_length (c : R) (X : Data R) : (scaleData c X).length = X.length := List.length_map ..

@[simp] theorem scRow_one (x : List R) : scRow 1 x = x := by simp [scRow]
@[simp] theorem scArr_one (X : List (List R)) : scArr 1 X = X := by
  have : scRow (1 : R) = id := by funext x; simp
  rw [scArr, this, List.map_id]
@[simp] theorem scaleData_one (X : Data R) : scaleData 1 X = X := by
  have : scArr (1 : R) = id := by funext x; simp
  rw [scaleData_eq, this, List.map_id]

theorem getD_map' {α β : Type} (f : α → β) (l : List α) (n : ℕ) (a : α) : (l.map f).getD n (f a) = f (l.getD n a) := by
  simp only [List.getD, List.getElem?_map]
  cases l[n]? <;> rfl

theorem scRow_getD (c : R) (x : List R) (n : ℕ) : (scRow c x).getD n 0 = c * x.getD n 0 := by
  have := getD_map' (c * ·) x n 0
  rwa [mul_zero] at this

theorem scArr_getD (c : R) (X : List (List R)) (n : ℕ) : (scArr c X).getD n [] = scRow c (X.getD n []) := getD_map' (scRow c) X n []

theorem scaleData_getD (c : R) (X : Data R) (n : ℕ) : (scaleData c X).getD n [] = scArr c (X.getD n []) := getD_map' (scArr c) X n []

@[simp] theorem shape1_scale (c : R) (X : Data R) : shape1 (scaleData c X) = shape1 X := by
  unfold shape1; rw [scaleData_getD, scArr_length]
@[simp] theorem shape2_scale (c : R) (X : Data R) : shape2 (scaleData c X) = shape2 X := by
  unfold shape2; rw [scaleData_getD, scArr_getD, scRow_length]
@[simp] theorem rowLen_scArr (c : R) (X : List (List R)) : rowLen (scArr c X) = rowLen X := by
  unfold rowLen; rw [scArr_getD, scRow_length]

theorem scRow_zeros (c : R) (n : ℕ) : scRow c (zeros n) = zeros n := by simp [scRow, zeros]

theorem slc_map {α β : Type} (f : α → β) (x : List α) (a b : ℤ) : slc (x.map f) a b = (slc x a b).map f := by
  simp [slc, List.map_take, List.map_drop]
theorem slcFrom_map {α β : Type} (f : α → β) (x : List α) (a : ℤ) : slcFrom (x.map f) a = (slcFrom x a).map f := by
  simp [slcFrom, List.map_drop]
theorem slcTo_map {α β : Type} (f : α → β) (x : List α) (a : ℤ) : slcTo (x.map f) a = (slcTo x a).map f := by
  simp [slcTo, List.map_take]

theorem setSlc_map {α β : Type} (f : α → β) (x v : List α) (a b : ℕ) :
    setSlc (x.map f) a b (v.map f) = (setSlc x a b v).map (List.map f) := by
  unfold setSlc
  rw [List.length_map]
  by_cases h : v.length = b - a
  · rw [if_pos h, if_pos h]
    simp [Except.map, List.map_take, List.map_drop]
  · rw [if_neg h, if_neg h]
    match v with
    | [] => rfl
    | [u] => simp [Except.map, List.map_take, List.map_drop]
    | _ :: _ :: _ => rfl

theorem fillSlc_map {α β : Type} (f : α → β) (x : List α) (a b : ℕ) (v : α) : fillSlc (x.map f) a b (f v) = (fillSlc x a b v).map f := by
  simp [fillSlc, List.map_take, List.map_drop]

theorem zipWith_map_map {α β γ α' β' γ' : Type} {f : α → α'} {g : β → β'} {h : γ → γ'} {op : α → β → γ} {op' : α' → β' → γ'}
    (hop : ∀ a b, op' (f a) (g b) = h (op a b)) : ∀ (x : List α) (y : List β),
    List.zipWith op' (x.map f) (y.map g) = (List.zipWith op x y).map h
  | [], _ => by simp
  | _ :: _, [] => by simp
  | a :: x, b :: y => by simp [hop, zipWith_map_map hop x y]

theorem vsub_sc (c : R) (x y : List R) : vsub (scRow c x) (scRow c y) = scRow c (vsub x y) :=
  zipWith_map_map (fun a b => (mul_sub c a b).symm) x y

theorem increments1_sc (c : R) (k : ℤ) (x : List R) : increments1 k (scRow c x) = (increments1 k x).map (scRow c) := by
  unfold increments1 scRow
  simp only [slcFrom_map, slcTo_map, List.length_map]
  by_cases h : (slcFrom x k).length = (slcTo x (-k)).length
  · rw [if_pos h, if_pos h]
    have h1 := vsub_sc c (slcFrom x k) (slcTo x (-k))
    have h2 := scRow_zeros c x.length
    unfold scRow at h1 h2
    rw [h1]
    conv_lhs => rw [← h2]
    exact setSlc_map (c * ·) (zeros x.length) _ _ _
  · rw [if_neg h, if_neg h]; rfl

theorem cumsumFrom_sc (c : R) : ∀ (x : List R) (a : R), cumsumFrom (c * a) (scRow c x) = scRow c (cumsumFrom a x)
  | [], _ => rfl
  | v :: x, a => by
    have := cumsumFrom_sc c x (a + v)
    rw [mul_add] at this
    simp only [scRow, List.map_cons, cumsumFrom] at this ⊢
    rw [this, mul_add]

theorem cumsum_sc (c : R) (x : List R) : cumsum (scRow c x) = scRow c (cumsum x) := by
  have := cumsumFrom_sc c x 0
  rwa [mul_zero] at this

theorem mapM_map_out {α β α' β' : Type} {f : α → α'} {h : β → β'} {g : α → Except Err β} {g' : α' → Except Err β'} : ∀ (l : List α),
    (∀ a ∈ l, g' (f a) = (g a).map h) → (l.map f).mapM g' = (l.mapM g).map (List.map h)
  | [], _ => rfl
  | a :: l, hl => by
    rw [List.map_cons, List.mapM_cons, List.mapM_cons, hl a (List.mem_cons_self ..),
      mapM_map_out l (fun b hb => hl b (List.mem_cons_of_mem _ hb))]
    cases g a with
    | error e => rfl
    | ok b =>
      simp only [Except.map, ok_bind]
      cases l.mapM g with
      | error e => rfl
      | ok bs => rfl

theorem mapM_congr_map {α β β' : Type} {h : β → β'} {g : α → Except Err β} {g' : α → Except Err β'} (l : List α)
    (hl : ∀ a ∈ l, g' a = (g a).map h) : l.mapM g' = (l.mapM g).map (List.map h) := by
  have := mapM_map_out (f := id) (h := h) (g := g) (g' := g') l hl
  rwa [List.map_id] at this

theorem mapRowsM_sc {c c' : R} {f g : List R → Except Err (List R)} (h : ∀ x, g (scRow c x) = (f x).map (scRow c')) (X : Data R) :
    mapRowsM g (scaleData c X) = (mapRowsM f X).map (scaleData c') := by
  unfold mapRowsM
  exact mapM_map_out X fun s _ => mapM_map_out s fun x _ => h x

theorem mapRows_sc {c c' : R} {f g : List R → List R} (h : ∀ x, g (scRow c x) = scRow c' (f x)) (X : Data R) :
    mapRows g (scaleData c X) = scaleData c' (mapRows f X) := by
  unfold mapRows scaleData
  simp only [List.map_map]
  refine List.map_congr_left fun s _ => ?_
  simp only [Function.comp_apply, List.map_map]
  exact List.map_congr_left fun x _ => h x

theorem sum_scRow (c : R) (x : List R) : (scRow c x).sum = c * x.sum := by
  induction x with
  | nil => simp [scRow]
  | cons a x ih =>
    simp only [scRow, List.map_cons, List.sum_cons] at ih ⊢
    rw [ih, mul_add]

theorem mean_sc (c : R) (x : List R) : mean (scRow c x) = c * mean x := by
  unfold mean
  rw [sum_scRow, scRow_length, mul_div_assoc]

theorem flatten_scArr (c : R) (X : List (List R)) : (scArr c X).flatten = scRow c X.flatten := by
  unfold scArr scRow
  rw [List.map_flatten]

theorem entries_sc (c : R) (X : Data R) : entries (scaleData c X) = scRow c (entries X) := by
  unfold entries
  rw [← flatten_scArr]
  congr 1
  unfold scaleData scArr
  rw [List.map_flatten]; rfl

/-! ### Order -/

theorem listMax_map {f : R → R} (hf : Monotone f) (x : List R) : listMax (x.map f) = (listMax x).map f := by
  cases x with
  | nil => rfl
  | cons a x =>
    simp only [List.map_cons, listMax, Option.map_some, Option.some.injEq]
    induction x generalizing a with
    | nil => rfl
    | cons b x ih =>
      simp only [List.map_cons, List.foldl_cons]
      rw [← hf.map_max]
      exact ih _

theorem listMin_map {f : R → R} (hf : Monotone f) (x : List R) : listMin (x.map f) = (listMin x).map f := by
  cases x with
  | nil => rfl
  | cons a x =>
    simp only [List.map_cons, listMin, Option.map_some, Option.some.injEq]
    induction x generalizing a with
    | nil => rfl
    | cons b x ih =>
      simp only [List.map_cons, List.foldl_cons]
      rw [← hf.map_min]
      exact ih _

theorem mono_mul {c : R} (hc : 0 ≤ c) : Monotone (c * ·) := fun _ _ h => mul_le_mul_of_nonneg_left h hc

theorem maxE_sc {c : R} (hc : 0 ≤ c) (x : List R) : maxE (scRow c x) = (maxE x).map (c * ·) := by
  unfold maxE scRow
  rw [listMax_map (mono_mul hc)]
  cases listMax x <;> rfl

theorem minE_sc {c : R} (hc : 0 ≤ c) (x : List R) : minE (scRow c x) = (minE x).map (c * ·) := by
  unfold minE scRow
  rw [listMin_map (mono_mul hc)]
  cases listMin x <;> rfl

@[simp] theorem scQ_of (c v : R) : scQ c (QVal.of v) = QVal.of (c * v) := rfl
@[simp] theorem scQ_bot (c : R) : scQ c ⊥ = ⊥ := rfl
@[simp] theorem scQ_top (c : R) : scQ c ⊤ = ⊤ := rfl

theorem scQ_strictMono {c : R} (hc : 0 < c) : StrictMono (scQ c) := by
  have h : StrictMono (c * · : R → R) := fun _ _ h => mul_lt_mul_of_pos_left h hc
  exact WithBot.strictMono_map_iff.2 (WithTop.strictMono_map_iff.2 h)

theorem scQ_lt {c : R} (hc : 0 < c) {a b : QVal R} : scQ c a < scQ c b ↔ a < b := (scQ_strictMono hc).lt_iff_lt
theorem scQ_le {c : R} (hc : 0 < c) {a b : QVal R} : scQ c a ≤ scQ c b ↔ a ≤ b := (scQ_strictMono hc).le_iff_le

theorem filter_map_iff {α β : Type} {f : α → β} {p : α → Bool} {q : β → Bool} (h : ∀ a, q (f a) = p a) : ∀ l : List α,
    (l.map f).filter q = (l.filter p).map f
  | [] => rfl
  | a :: l => by
    rw [List.map_cons, List.filter_cons, List.filter_cons, h, filter_map_iff h l]
    cases p a <;> rfl

theorem band_sc {c : R} (hc : 0 < c) (lo hi : QVal R) (x : List R) : band (scQ c lo) (scQ c hi) (scRow c x) = scRow c (band lo hi x) := by
  refine filter_map_iff (fun v => ?_) x
  rw [decide_eq_decide, ← scQ_of, scQ_lt hc, scQ_le hc]

theorem insertionSort_map {α β : Type} [LinearOrder α] [LinearOrder β] {f : α → β} (hf : StrictMono f) (l : List α) :
    (l.map f).insertionSort (· ≤ ·) = (l.insertionSort (· ≤ ·)).map f :=
  (List.map_insertionSort _ _ f l fun a _ b _ => hf.le_iff_le.symm).symm

theorem quantile_sc {c : R} (hc : 0 < c) (x : List R) (q : R) : quantile (scRow c x) q = (quantile x q).map (c * ·) := by
  unfold quantile
  by_cases h : 0 ≤ q ∧ q ≤ 1
  · rw [if_pos h, if_pos h]
    have hs : (scRow c x).insertionSort (· ≤ ·) = scRow c (x.insertionSort (· ≤ ·)) :=
      insertionSort_map (fun _ _ h => mul_lt_mul_of_pos_left h hc) x
    simp only [hs, scRow_length]
    unfold scRow
    rw [List.getElem?_map]
    cases e : (x.insertionSort (· ≤ ·))[⌊q * (((x.insertionSort (· ≤ ·)).length : R) - 1)⌋.toNat]? with
    | none => rfl
    | some u =>
      simp only [Option.map_some, Except.map, Except.ok.injEq]
      rw [getD_map' (c * ·)]
      ring
  · rw [if_neg h, if_neg h]; rfl

/-! ### The cache -/

/-- How the sums of a norm change. -/
def Norm.factor (c : R) : Norm → R
  | .L1 => |c|
  | .L2 => c * c

theorem Norm.val_mul (nm : Norm) (c v : R) : nm.val (c * v) = nm.factor c * nm.val v := by
  cases nm with
  | L1 => exact abs_mul c v
  | L2 => simp only [Norm.val, Norm.factor]; ring

theorem Norm.factor_pos (nm : Norm) {c : R} (hc : c ≠ 0) : 0 < nm.factor c := by
  cases nm with
  | L1 => exact abs_pos.2 hc
  | L2 => exact mul_self_pos.2 hc

theorem normSum_sc (nm : Norm) (c : R) (X : Data R) : normSum nm (scaleData c X) = (normSum nm X).map (scArr (nm.factor c)) := by
  unfold normSum
  refine mapM_map_out X fun s _ => ?_
  have h0 : ((s.map fun x => x.map (c * ·)).getD 0 []) = scRow c (s.getD 0 []) := scArr_getD c s 0
  rw [h0, increments1_sc]
  cases increments1 1 (s.getD 0 []) with
  | error e => rfl
  | ok y =>
    simp only [Except.map, ok_bind, pure, Except.pure, Except.ok.injEq]
    rw [← cumsum_sc]
    congr 1
    simp only [scRow, List.map_map]
    exact List.map_congr_left fun v _ => nm.val_mul c v

theorem coquantile1_sc {c : R} (hc : 0 < c) (q : R) (x : List R) : coquantile1 q (scRow c x) = coquantile1 q x := by
  unfold coquantile1
  rw [scRow_getD, scRow_length]
  unfold scRow
  rw [filter_map_iff (p := fun v => decide (v ≤ q * x.getD (x.length - 1) 0)) (fun v => ?_), List.length_map]
  rw [decide_eq_decide, mul_left_comm]
  exact mul_le_mul_iff_right₀ hc

theorem computeKey_coq_sc (T : FloatText R) {c : R} (hc : c ≠ 0) (key : PStr) (X : Data R) :
    computeKey T .coquantile key (scaleData c X) = computeKey T .coquantile key X := by
  unfold computeKey
  dsimp only
  split
  · rename_i s norm _
    cases normOf norm with
    | none => rfl
    | some nm =>
      simp only [normSum_sc]
      cases normSum nm X with
      | error e => rfl
      | ok S =>
        simp only [Except.map, ok_bind]
        cases T.ofText s with
        | none => rfl
        | some q =>
          simp only [pure, Except.pure, Except.ok.injEq, Option.some.injEq, CacheVal.idx.injEq]
          unfold scArr
          rw [List.map_map]
          exact List.map_congr_left fun x _ => coquantile1_sc (nm.factor_pos hc) q x
  · rfl

/-- **C166.** The coquantiles of the cache do not depend on the unit of the data. -/
theorem coqs_sc (T : FloatText R) {c : R} (hc : c ≠ 0) (X : Data R) (q : R) (nm : PStr) : coqs T (scaleData c X) q nm = coqs T X q nm := by
  unfold coqs Cache.new Cache.get Cache.lookup
  simp only [List.find?_nil, Option.map_none, Option.map_some, NdArr.toData, Cache.fill, computeKey_coq_sc T hc]
  cases computeKey T .coquantile (T.toText q ++ ':' :: nm) X with
  | error e => rfl
  | ok o => cases o <;> rfl

theorem issSums_sc (T : FloatText R) (c : R) (X : Data R) (nm : Norm) :
    issSums T (scaleData c X) nm.str = (issSums T X nm.str).map (scArr (nm.factor c)) := by
  have hn : normOf nm.str = some nm := by cases nm <;> decide
  unfold issSums Cache.new Cache.get Cache.lookup
  simp only [List.find?_nil, Option.map_none, Option.map_some, NdArr.toData, Cache.fill, computeKey, hn, normSum_sc]
  cases normSum nm X <;> rfl

/-! ### Segment sieves -/

/-- The settings of a sieve with what it has learned multiplied by `c`. -/
def Seg.rescale (c : R) (p : Seg R) : Seg R := { p with quantiles := p.quantiles.map (List.map (scQ c)) }

theorem Seg.cuts_sc (T : FloatText R) {μ : R} (hμ : μ ≠ 0) (C : Data R) (c : R) (p : Seg R) (m n : ℕ) :
    (p.rescale c).cuts T (scaleData μ C) m n = p.cuts T C m n := by
  have h : (p.rescale c).cutColumn T (scaleData μ C) m n = p.cutColumn T C m n := by
    funext k
    cases k with
    | int k => rfl
    | float f => simp only [Seg.cutColumn, coqs_sc T hμ]; rfl
  unfold Seg.cuts
  rw [h]; rfl

theorem quantileValue_sc {c : R} (hc : 0 < c) (x : List R) (q : R) : quantileValue (scRow c x) q = (quantileValue x q).map (scQ c) := by
  unfold quantileValue
  by_cases h1 : q = 1
  · rw [if_pos h1, if_pos h1]; rfl
  rw [if_neg h1, if_neg h1]
  by_cases h2 : q = -1
  · rw [if_pos h2, if_pos h2]; rfl
  rw [if_neg h2, if_neg h2]
  by_cases h3 : q ≠ 0
  · rw [if_pos h3, if_pos h3, quantile_sc hc]
    cases quantile x q <;> rfl
  · rw [if_neg h3, if_neg h3]
    simp only [Except.map, scQ_of, mul_zero]

theorem Seg.fit_sc {c : R} (hc : 0 < c) (p : Seg R) (X : List (List R)) : p.fit (scArr c X) = (p.fit X).map (Seg.rescale c) := by
  unfold Seg.fit
  rw [flatten_scArr, mapM_congr_map (h := scQ c) p.q fun q _ => quantileValue_sc hc X.flatten q]
  cases p.q.mapM (quantileValue X.flatten) with
  | error e => rfl
  | ok qs =>
    simp only [Except.map, ok_bind, pure, Except.pure, insertionSort_map (scQ_strictMono hc)]
    rfl

theorem Seg.useQuantiles_sc (c : R) (p : Seg R) : (p.rescale c).useQuantiles = p.useQuantiles.map (List.map (scQ c)) := by
  unfold Seg.useQuantiles
  have h : (p.rescale c).requiresFitting = p.requiresFitting := rfl
  rw [h]
  cases p.requiresFitting with
  | true =>
    simp only [if_true]
    unfold Seg.rescale
    cases p.quantiles <;> rfl
  | false =>
    simp only [Bool.false_eq_true, if_false]
    unfold Seg.unfittedQuantiles
    refine mapM_congr_map p.q fun q _ => ?_
    unfold unfittedValue
    by_cases h1 : q = 1
    · rw [if_pos h1]; rfl
    rw [if_neg h1]
    by_cases h2 : q = -1
    · rw [if_pos h2]; rfl
    rw [if_neg h2]
    by_cases h3 : q ≠ 0
    · rw [if_pos h3]; rfl
    · rw [if_neg h3]
      simp only [Except.map, scQ_of, mul_zero]

theorem fillGrid_sc {μ : R} {v v' : ℕ → ℕ → Except Err R} (h : ∀ j k, v' j k = (v j k).map (μ * ·)) (J K : ℕ) :
    fillGrid J K v' = (fillGrid J K v).map (scRow μ) := by
  unfold fillGrid
  generalize ((List.range J).flatMap fun j => (List.range K).map fun k => (j, k)) = l
  suffices H : ∀ (l : List (ℕ × ℕ)) (res : List R), l.foldlM (fun (res : List R) (e : ℕ × ℕ) => do
      let y ← v' e.1 e.2
      pure (res.set (e.1 * K + e.2) y)) (scRow μ res) = (l.foldlM (fun (res : List R) (e : ℕ × ℕ) => do
      let y ← v e.1 e.2
      pure (res.set (e.1 * K + e.2) y)) res : Except Err (List R)).map (scRow μ) by
    have := H l (zeros (J * K))
    rwa [scRow_zeros] at this
  intro l
  induction l with
  | nil => intro res; rfl
  | cons e l ih =>
    intro res
    rw [List.foldlM_cons, List.foldlM_cons, h]
    cases v e.1 e.2 with
    | error er => rfl
    | ok y =>
      simp only [Except.map, ok_bind, pure, Except.pure]
      have : (scRow μ res).set (e.1 * K + e.2) (μ * y) = scRow μ (res.set (e.1 * K + e.2) y) := by
        unfold scRow; rw [List.map_set]
      rw [this]
      exact ih _

/-- An operation of a sieve whose result is multiplied by `c ^ k` if the array and the quantiles are multiplied by `c`. -/
def SegOp.Degree (op : SegOp R) (k : ℕ) : Prop := ∀ (c : R), 0 < c → ∀ x a b lo hi,
  op (scRow c x) a b (scQ c lo) (scQ c hi) = (op x a b lo hi).map (c ^ k * ·)

theorem slc_sc (c : R) (x : List R) (a b : ℤ) : slc (scRow c x) a b = scRow c (slc x a b) := slc_map _ x a b

theorem opMax_degree : (opMax : SegOp R).Degree 1 := by
  intro c hc x a b lo hi
  unfold opMax
  by_cases h : a = b
  · rw [if_pos h, if_pos h]; simp [Except.map]
  · rw [if_neg h, if_neg h, slc_sc, band_sc hc, maxE_sc hc.le, pow_one]

theorem opMin_degree : (opMin : SegOp R).Degree 1 := by
  intro c hc x a b lo hi
  unfold opMin
  by_cases h : a = b
  · rw [if_pos h, if_pos h]; simp [Except.map]
  · rw [if_neg h, if_neg h, slc_sc, band_sc hc, minE_sc hc.le, pow_one]

theorem opCur_degree : (opCur : SegOp R).Degree 2 := by
  intro c hc x a b lo hi
  simp only [opCur, slc_sc, band_sc hc, Except.map, Except.ok.injEq]
  have := sum_scRow (c ^ 2) ((band lo hi (slc x a b)).map fun v => v ^ 2)
  rw [← this]
  simp only [scRow, List.map_map]
  congr 1
  exact List.map_congr_left fun v _ => mul_pow c v 2

theorem opNpi_degree : (opNpi : SegOp R).Degree 0 := by
  intro c hc x a b lo hi
  simp only [opNpi, slc_sc, band_sc hc, scRow_length, Except.map, pow_zero, one_mul]

theorem opMpi_degree : (opMpi : SegOp R).Degree 1 := by
  intro c hc x a b lo hi
  simp only [opMpi, slc_sc, band_sc hc, scRow_length, Except.map, pow_one, Except.ok.injEq, mean_sc]
  by_cases h : (band lo hi (slc x a b)).length = 0
  · rw [if_pos h, if_pos h, mul_zero]
  · rw [if_neg h, if_neg h]

theorem opXpi_degree : (opXpi : SegOp R).Degree 0 := by
  intro c hc x a b lo hi
  simp only [opXpi, slc_sc, Except.map, pow_zero, one_mul, Except.ok.injEq]
  have h : ((scRow c (slc x a b)).zipIdx.filter fun e => decide (scQ c lo < QVal.of e.1 ∧ QVal.of e.1 ≤ scQ c hi)).map (fun e => (e.2 : R)) =
      ((slc x a b).zipIdx.filter fun e => decide (lo < QVal.of e.1 ∧ QVal.of e.1 ≤ hi)).map fun e => (e.2 : R) := by
    unfold scRow
    rw [List.zipIdx_map, filter_map_iff (p := fun e => decide (lo < QVal.of e.1 ∧ QVal.of e.1 ≤ hi)) (fun e => ?_), List.map_map]
    · rfl
    · rw [decide_eq_decide]
      change scQ c lo < scQ c (QVal.of e.1) ∧ scQ c (QVal.of e.1) ≤ scQ c hi ↔ _
      rw [scQ_lt hc, scQ_le hc]
  rw [h]

theorem opLpi_degree : (opLpi : SegOp R).Degree 0 := by
  intro c hc x a b lo hi
  simp only [opLpi, slc_sc, Except.map, pow_zero, one_mul, Except.ok.injEq]
  have h : ((scRow c (slc x a b)).map fun v => decide (scQ c lo < QVal.of v ∧ QVal.of v ≤ scQ c hi)) =
      (slc x a b).map fun v => decide (lo < QVal.of v ∧ QVal.of v ≤ hi) := by
    unfold scRow
    rw [List.map_map]
    refine List.map_congr_left fun v _ => ?_
    rw [Function.comp_apply, decide_eq_decide, ← scQ_of, scQ_lt hc, scQ_le hc]
  rw [h]

theorem backend_sc {op : SegOp R} {k : ℕ} (hop : op.Degree k) {c : R} (hc : 0 < c) (cuts : List (List ℤ)) (qs : List (QVal R)) (X : List (List R)) :
    backend op cuts (qs.map (scQ c)) (scArr c X) = (backend op cuts qs X).map (scArr (c ^ k)) := by
  unfold backend
  rw [scArr_length]
  refine mapM_congr_map _ fun i _ => ?_
  rw [scArr_getD]
  unfold backendRow
  simp only [List.map_eq_nil_iff, List.length_map]
  by_cases h : qs = [] ∧ (cuts.getD i []).length ≠ 1
  · rw [if_pos h, if_pos h]; rfl
  · rw [if_neg h, if_neg h]
    refine fillGrid_sc (fun j l => ?_) _ _
    have h1 : ∀ n, (qs.map (scQ c)).getD n ⊥ = scQ c (qs.getD n ⊥) := fun n => getD_map' (scQ c) qs n ⊥
    rw [h1, h1]
    exact hop c hc _ _ _ _ _

theorem endRow_sc (c : R) (cuts : List ℤ) (x : List R) : endRow cuts (scRow c x) = (endRow cuts x).map (scRow c) := by
  unfold endRow
  refine mapM_congr_map _ fun j _ => ?_
  unfold takeIdx
  rw [scRow_length]
  cases normIdx x.length (cuts.getD (j + 1) 0 - 1) with
  | error e => rfl
  | ok i => simp only [ok_bind, pure, Except.pure, Except.map, scRow_getD]

theorem secondIncrements_sc (c : R) (x : List R) : secondIncrements (scRow c x) = (secondIncrements x).map (scRow c) := by
  unfold secondIncrements
  rw [increments1_sc]
  cases increments1 1 x with
  | error e => rfl
  | ok y => exact increments1_sc c 1 y

/-- The power of the unit in the features of `MAX`, `MIN`, `END` (1) and of `CUR`, `AVG`, `STD` (2; `AVG` and `STD` run the code of `CUR`, see C63). -/
def SegKind.degree : SegKind → ℕ
  | .max | .min | .end_ => 1
  | .cur | .avg | .std => 2

theorem Seg.transform_sc (T : FloatText R) {μ c : R} (hμ : μ ≠ 0) (hc : 0 < c) (C : Data R) (k : SegKind) (p : Seg R) (X : List (List R)) :
    (p.rescale c).transform T (scaleData μ C) k (scArr c X) = (p.transform T C k X).map (scArr (c ^ k.degree)) := by
  have hq := Seg.useQuantiles_sc c p
  have hcut : ∀ m n, (p.rescale c).cuts T (scaleData μ C) m n = p.cuts T C m n := fun m n => Seg.cuts_sc T hμ C c p m n
  have hcur : ((p.rescale c).useQuantiles >>= fun qs => (p.rescale c).cuts T (scaleData μ C) (scArr c X).length (rowLen (scArr c X)) >>= fun cuts =>
      (scArr c X).mapM secondIncrements >>= fun X2 => backend opCur cuts qs X2) =
      ((p.useQuantiles >>= fun qs => p.cuts T C X.length (rowLen X) >>= fun cuts => X.mapM secondIncrements >>= fun X2 =>
        backend opCur cuts qs X2) : Except Err _).map (scArr (c ^ 2)) := by
    have h2 : (scArr c X).mapM secondIncrements = (X.mapM secondIncrements).map (scArr c) :=
      mapM_map_out X fun x _ => secondIncrements_sc c x
    rw [hq, h2, scArr_length, rowLen_scArr, hcut]
    cases p.useQuantiles with
    | error e => rfl
    | ok qs =>
      cases p.cuts T C X.length (rowLen X) with
      | error e => rfl
      | ok cuts =>
        cases X.mapM secondIncrements with
        | error e => rfl
        | ok X2 => exact backend_sc opCur_degree hc cuts qs X2
  have hmm : ∀ (op : SegOp R), op.Degree 1 →
      ((p.rescale c).useQuantiles >>= fun qs => (p.rescale c).cuts T (scaleData μ C) (scArr c X).length (rowLen (scArr c X)) >>= fun cuts =>
        backend op cuts qs (scArr c X)) =
      ((p.useQuantiles >>= fun qs => p.cuts T C X.length (rowLen X) >>= fun cuts => backend op cuts qs X) : Except Err _).map (scArr (c ^ 1)) := by
    intro op hop
    rw [hq, scArr_length, rowLen_scArr, hcut]
    cases p.useQuantiles with
    | error e => rfl
    | ok qs =>
      cases p.cuts T C X.length (rowLen X) with
      | error e => rfl
      | ok cuts => exact backend_sc hop hc cuts qs X
  cases k with
  | max => exact hmm opMax opMax_degree
  | min => exact hmm opMin opMin_degree
  | end_ =>
    unfold Seg.transform
    dsimp only
    rw [scArr_length, rowLen_scArr, hcut]
    cases p.cuts T C X.length (rowLen X) with
    | error e => rfl
    | ok cuts =>
      simp only [ok_bind]
      refine mapM_congr_map _ fun i _ => ?_
      rw [scArr_getD]
      simp only [SegKind.degree, pow_one]
      exact endRow_sc c _ _
  | cur => exact hcur
  | avg => exact hcur
  | std => exact hcur

/-! ### Increment sieves -/

theorem iterM_map {α : Type} {f : α → Except Err α} {h : α → α} (hf : ∀ a, f (h a) = (f a).map h) : ∀ (k : ℕ) (a : α),
    iterM f k (h a) = (iterM f k a).map h
  | 0, _ => rfl
  | k + 1, a => by
    unfold iterM
    rw [hf]
    cases f a with
    | error e => rfl
    | ok b => exact iterM_map hf k b

theorem preTransform_sc (c : R) (inc : ℤ) (X : List (List R)) : preTransform inc (scArr c X) = (preTransform inc X).map (scArr c) := by
  unfold preTransform
  by_cases h1 : inc > 0
  · rw [if_pos h1, if_pos h1]
    exact iterM_map (fun A => mapM_map_out A fun x _ => increments1_sc c 1 x) _ X
  rw [if_neg h1, if_neg h1]
  by_cases h2 : inc < 0
  · rw [if_pos h2, if_pos h2]
    refine iterM_map (fun A => ?_) _ X
    simp only [Except.map, Except.ok.injEq, scArr, List.map_map]
    exact List.map_congr_left fun x _ => cumsum_sc c x
  · rw [if_neg h2, if_neg h2]; rfl

/-- The power of the unit in the features of `NPI`, `XPI`, `LPI` (0) and `MPI` (1). -/
def IncKind.degree : IncKind → ℕ
  | .npi | .xpi | .lpi => 0
  | .mpi => 1

theorem IncKind.op_degree (k : IncKind) : (k.op : SegOp R).Degree k.degree := by
  cases k
  · exact opNpi_degree
  · exact opMpi_degree
  · exact opXpi_degree
  · exact opLpi_degree

theorem Seg.incFit_sc {c : R} (hc : 0 < c) (inc : ℤ) (p : Seg R) (X : List (List R)) :
    p.incFit inc (scArr c X) = (p.incFit inc X).map (Seg.rescale c) := by
  unfold Seg.incFit
  rw [preTransform_sc]
  cases preTransform inc X with
  | error e => rfl
  | ok A => exact Seg.fit_sc hc p A

theorem Seg.incTransform_sc (T : FloatText R) {μ c : R} (hμ : μ ≠ 0) (hc : 0 < c) (C : Data R) (k : IncKind) (inc : ℤ) (p : Seg R)
    (X : List (List R)) :
    (p.rescale c).incTransform T (scaleData μ C) k inc (scArr c X) = (p.incTransform T C k inc X).map (scArr (c ^ k.degree)) := by
  unfold Seg.incTransform
  rw [Seg.useQuantiles_sc, preTransform_sc]
  cases p.useQuantiles with
  | error e => rfl
  | ok qs =>
    cases preTransform inc X with
    | error e => rfl
    | ok A =>
      simp only [Except.map, ok_bind, scArr_length, rowLen_scArr, Seg.cuts_sc T hμ]
      cases p.cuts T C A.length (rowLen A) with
      | error e => rfl
      | ok cuts => exact backend_sc k.op_degree hc cuts qs A

/-! ### PPV and CPV -/

/-- A `PPV` or `CPV` with what it has learned multiplied by `c`. -/
def PPV.rescale (c : R) (p : PPV R) : PPV R := { p with q := p.q.map (scRow c) }

/-- The only given (not learned) threshold is zero. -/
def PPV.UnitFree (p : PPV R) : Prop := ∀ e ∈ p.qc, e.2 = true → e.1 = 0

theorem PPV.fit_sc {c : R} (hc : 0 < c) (g : Rng R) {p : PPV R} (hp : p.UnitFree) (X : List (List R)) :
    p.fit g (scArr c X) = (p.fit g X).map (PPV.rescale c) := by
  unfold PPV.fit
  rw [mapM_congr_map (h := (c * ·)) (g := p.fitValue g X) p.qc.zipIdx fun e he => ?_]
  · cases p.qc.zipIdx.mapM (p.fitValue g X) <;> rfl
  · unfold PPV.fitValue
    by_cases h : e.1.2 = true
    · rw [if_pos h, if_pos h]
      have : e.1 ∈ p.qc := by
        have := List.mem_zipIdx (x := e.1) (i := e.2) (k := 0) he
        rw [this.2.2]; exact List.getElem_mem _
      rw [hp _ this h]
      simp [Except.map]
    · rw [if_neg h, if_neg h, scArr_length, ← quantile_sc hc]
      congr 1
      rw [← flatten_scArr]
      unfold scArr
      rw [List.map_map]
      congr 1
      exact List.map_congr_left fun i _ => scArr_getD c X i

theorem PPV.transform_sc {c : R} (hc : 0 < c) (count : List Bool → R) (p : PPV R) (X : List (List R)) :
    (p.rescale c).transform count (scArr c X) = p.transform count X := by
  unfold PPV.transform
  have hn : (p.rescale c).nfeatures = p.nfeatures := rfl
  have hs : (p.rescale c).segments = p.segments := rfl
  have hq : (p.rescale c).q = p.q.map (scRow c) := rfl
  rw [hn, hs, hq]
  cases p.q with
  | none => rfl
  | some qs =>
    simp only [Option.map_some]
    by_cases h : p.nfeatures < 0
    · rw [if_pos h, if_pos h]
    rw [if_neg h, if_neg h]
    unfold scArr
    rw [List.map_map]
    congr 1
    refine List.map_congr_left fun x _ => ?_
    simp only [Function.comp_apply]
    unfold PPV.row
    cases p.segments with
    | true =>
      simp only [if_true, scRow_length]
      refine List.map_congr_left fun j _ => ?_
      rw [scRow_getD, scRow_getD]
      congr 1
      unfold scRow
      rw [List.map_map]
      refine List.map_congr_left fun v _ => ?_
      simp only [Function.comp_apply]
      rw [decide_eq_decide, mul_le_mul_iff_right₀ hc, mul_lt_mul_iff_right₀ hc]
    | false =>
      simp only [Bool.false_eq_true, if_false]
      unfold scRow
      rw [List.map_map]
      refine List.map_congr_left fun q _ => ?_
      simp only [Function.comp_apply, List.map_map]
      congr 1
      refine List.map_congr_left fun v _ => ?_
      simp only [Function.comp_apply, ge_iff_le]
      rw [decide_eq_decide, mul_le_mul_iff_right₀ hc]

/-! ### All sieves -/

/-- A sieve with what it has learned multiplied by `c`. -/
def Sieve.rescale (c : R) : Sieve R → Sieve R
  | .seg k p => .seg k (p.rescale c)
  | .inc k i p => .inc k i (p.rescale c)
  | .ppv p => .ppv (p.rescale c)
  | .cpv p => .cpv (p.rescale c)
  | .wrapInc s d k => .wrapInc (s.rescale c) d k
  | .wrapInt s => .wrapInt (s.rescale c)

/-- No threshold other than zero is given in absolute numbers. -/
def Sieve.UnitFree : Sieve R → Prop
  | .ppv p => p.UnitFree
  | .cpv p => p.UnitFree
  | .wrapInc s _ _ => s.UnitFree
  | .wrapInt s => s.UnitFree
  | _ => True

/-- The power of the unit of the array in the features. -/
def Sieve.degree : Sieve R → ℕ
  | .seg k _ => k.degree
  | .inc k _ _ => k.degree
  | .ppv _ => 0
  | .cpv _ => 0
  | .wrapInc s _ _ => s.degree
  | .wrapInt s => s.degree

theorem wrapIncData_sc (c : R) (d : ℕ) (k : ℤ) (X : List (List R)) : wrapIncData d k (scArr c X) = (wrapIncData d k X).map (scArr c) := by
  unfold wrapIncData
  have h : (scArr c X).mapM (increments1 k) = (X.mapM (increments1 k)).map (scArr c) := mapM_map_out X fun x _ => increments1_sc c k x
  generalize List.range d = l
  suffices H : ∀ (l : List ℕ) (A : List (List R)), l.foldlM (fun _ _ => (scArr c X).mapM (increments1 k)) (scArr c A) =
      (l.foldlM (fun _ _ => X.mapM (increments1 k)) A : Except Err _).map (scArr c) from H l X
  intro l
  induction l with
  | nil => intro A; rfl
  | cons a l ih =>
    intro A
    rw [List.foldlM_cons, List.foldlM_cons]
    cases e : X.mapM (increments1 k) with
    | error e' => rw [h, e]; rfl
    | ok B =>
      have h' : (scArr c X).mapM (increments1 k) = .ok (scArr c B) := by rw [h, e]; rfl
      rw [ok_bind]
      rw [h'] at ih ⊢
      rw [e] at ih
      exact ih B

theorem map_cumsum_sc (c : R) (X : List (List R)) : (scArr c X).map cumsum = scArr c (X.map cumsum) := by
  unfold scArr
  rw [List.map_map, List.map_map]
  exact List.map_congr_left fun x _ => cumsum_sc c x

theorem newAxis_sc (c : R) (X : List (List R)) : newAxis (scArr c X) = scaleData c (newAxis X) := by
  simp only [newAxis, scArr, scaleData, List.map_map]
  rfl

/-- **C166 (sieves, fit).** Fitting a sieve on data in another unit fails with the same error or learns the thresholds of the original
data, expressed in the new unit. -/
theorem C166_sieve_fit (g : Rng R) {c : R} (hc : 0 < c) : ∀ (s : Sieve R), s.UnitFree → ∀ X : List (List R),
    s.fit g (scArr c X) = (s.fit g X).map (Sieve.rescale c)
  | .seg k p, _, X => by
    simp only [Sieve.fit, Seg.fit_sc hc]
    cases p.fit X <;> rfl
  | .inc k i p, _, X => by
    simp only [Sieve.fit, Seg.incFit_sc hc]
    cases p.incFit i X <;> rfl
  | .ppv p, hp, X => by
    simp only [Sieve.fit, PPV.fit_sc hc g hp]
    cases p.fit g X <;> rfl
  | .cpv p, hp, X => by
    simp only [Sieve.fit, PPV.fit_sc hc g hp]
    cases p.fit g X <;> rfl
  | .wrapInc s d k, hp, X => by
    simp only [Sieve.fit, wrapIncData_sc]
    cases wrapIncData d k X with
    | error e => rfl
    | ok Y =>
      simp only [Except.map, ok_bind, C166_sieve_fit g hc s hp Y]
      cases s.fit g Y <;> rfl
  | .wrapInt s, hp, X => by
    simp only [Sieve.fit, map_cumsum_sc, C166_sieve_fit g hc s hp]
    cases s.fit g (X.map cumsum) <;> rfl

/-- **C166 (sieves, transform).** If the array, what the sieve has learned and the data of the cache are expressed in another unit, the
features are multiplied by a power of the unit that only depends on the sieve: 0 for `NPI`, `XPI`, `LPI`, `PPV`, `CPV`; 1 for `MAX`, `MIN`, `END`, `MPI`; 2 for `CUR`, `AVG`, `STD`. -/
theorem C166_sieve_transform (T : FloatText R) {c : R} (hc : 0 < c) : ∀ (s : Sieve R) {μ : R}, μ ≠ 0 → ∀ (C : Data R) (X : List (List R)),
    (s.rescale c).transformC T (scaleData μ C) (scArr c X) = (s.transformC T C X).map (scArr (c ^ s.degree))
  | .seg k p, μ, hμ, C, X => Seg.transform_sc T hμ hc C k p X
  | .inc k i p, μ, hμ, C, X => Seg.incTransform_sc T hμ hc C k i p X
  | .ppv p, μ, _, C, X => by
    have h := PPV.transform_sc hc ppvCount p X
    have h1 : scArr (c ^ (Sieve.ppv p).degree) = (id : List (List R) → List (List R)) := by
      funext Y; simp [Sieve.degree]
    rw [h1]
    simp only [Sieve.rescale, Sieve.transformC]
    rw [h]
    cases p.transform ppvCount X <;> rfl
  | .cpv p, μ, _, C, X => by
    have h := PPV.transform_sc hc cpvCount p X
    have h1 : scArr (c ^ (Sieve.cpv p).degree) = (id : List (List R) → List (List R)) := by
      funext Y; simp [Sieve.degree]
    rw [h1]
    simp only [Sieve.rescale, Sieve.transformC]
    rw [h]
    cases p.transform cpvCount X <;> rfl
  | .wrapInc s d k, μ, _, C, X => by
    simp only [Sieve.rescale, Sieve.transformC, wrapIncData_sc]
    cases wrapIncData d k X with
    | error e => rfl
    | ok Y =>
      simp only [Except.map, ok_bind, newAxis_sc]
      exact C166_sieve_transform T hc s hc.ne' (newAxis Y) Y
  | .wrapInt s, μ, _, C, X => by
    simp only [Sieve.rescale, Sieve.transformC, map_cumsum_sc, newAxis_sc]
    exact C166_sieve_transform T hc s hc.ne' _ _

end Fruits
