import Verif.Props.Sieve5

/-! # C70, C72: labels of segment sieves, independence of the series -/

namespace Fruits
set_option linter.unusedSectionVars false
open Finset

variable {R : Type} [Field R] [LinearOrder R] [IsStrictOrderedRing R] [FloorRing R]

/-! ### C70 -/

/-- The text of a feature label: class name, cut and quantile interval. -/
def labelText (T : FloatText R) (name : PStr) (c : Cut R) (a b : R) : PStr :=
  name ++ '!' :: c.text T ++ "![".toList ++ T.toText a ++ ", ".toList ++ T.toText b ++ "]".toList

theorem label_eq (T : FloatText R) (name : PStr) (p : Seg R) (j k : ℕ) (hj : j < p.cut.length) (hk : k < p.q.length - 1) :
    p.label T name (j * (p.q.length - 1) + k)
    = .ok (labelText T name p.cut[j] (p.q[k]'(by omega)) (p.q[k + 1]'(by omega))) := by
  unfold Seg.label
  rw [if_neg (by omega)]
  simp only
  rw [(div_of_lt hk).1, (div_of_lt hk).2]
  rw [List.getElem?_eq_getElem hj, List.getElem?_eq_getElem (show k < p.q.length by omega),
    List.getElem?_eq_getElem (show k + 1 < p.q.length by omega)]
  rfl

/-- **C70, the part that holds.** Let the cut positions of the series `i` be in increasing order (as they are for increasing
cuts `≥ 0`), and let the quantile values `qs` be those of `q` in the given order (as for every sieve that needs no fitting).
Then `label(j*K+k)` names the cut at which segment `j` ends and the quantiles between which the values of feature `j*K+k`
were selected: feature `j*K+k` is computed on the segment from the previous cut to the named one, see `C61`-`C66`. -/
theorem C70_label_partial (T : FloatText R) (C : Data R) (p : Seg R) (name : PStr) (n i : ℕ) (qs : List (QVal R))
    (value : R → QVal R) (hcut : (p.cut.map (cutPos C p.norm n i)).Pairwise (· ≤ ·)) (hqs : qs = p.q.map value)
    (j k : ℕ) (hj : j < p.cut.length) (hk : k < p.q.length - 1) :
    ∃ c a b, p.label T name (j * (p.q.length - 1) + k) = .ok (labelText T name c a b) ∧
      p.cut[j]? = some c ∧ (bounds C p n i).getD (j + 1) 0 = cutPos C p.norm n i c ∧
      (bounds C p n i).getD j 0 = (if h : 0 < j then cutPos C p.norm n i (p.cut[j - 1]'(by omega)) else 0) ∧
      qs.getD k ⊥ = value a ∧ qs.getD (k + 1) ⊥ = value b := by
  refine ⟨p.cut[j], p.q[k]'(by omega), p.q[k + 1]'(by omega), label_eq T name p j k hj hk,
    List.getElem?_eq_getElem hj, ?_, ?_, ?_, ?_⟩
  · rw [bounds_eq_cons, List.getD_cons_succ, hcut.insertionSort_eq, getD_getElem (by simpa using hj), List.getElem_map]
  · rw [bounds_eq_cons, hcut.insertionSort_eq]
    by_cases h : 0 < j
    · obtain ⟨j', rfl⟩ : ∃ j', j = j' + 1 := ⟨j - 1, by omega⟩
      rw [dif_pos h, List.getD_cons_succ, getD_getElem (by simp; omega), List.getElem_map]
      rfl
    · rw [dif_neg h]
      have : j = 0 := by omega
      subst this; rfl
  · rw [hqs, getD_getElem (by simp; omega), List.getElem_map]
  · rw [hqs, getD_getElem (by simp; omega), List.getElem_map]

/-- Sieves that need no fitting use the values of `q` in the given order, so the hypothesis on `qs` in `C70_label_partial`
holds. -/
theorem unfitted_values (p : Seg R) (h : p.requiresFitting = false) :
    p.useQuantiles = .ok (p.q.map fun q => if q = 1 then (⊤ : QVal R) else if q = -1 then ⊥ else QVal.of 0) := by
  unfold Seg.useQuantiles
  rw [h]
  simp only [Bool.false_eq_true, if_false]
  refine mapM_ok_map fun q hq => ?_
  unfold unfittedValue
  by_cases h1 : q = 1
  · rw [if_pos h1, if_pos h1]
  rw [if_neg h1, if_neg h1]
  by_cases h2 : q = -1
  · rw [if_pos h2, if_pos h2]
  rw [if_neg h2, if_neg h2]
  have : q = 0 := by
    by_contra h0
    unfold Seg.requiresFitting at h
    rw [List.any_eq_false] at h
    exact h q hq (by simpa using ⟨h2, h0, h1⟩)
  rw [if_neg (by simpa using this)]

/-- The values of fitted quantiles, when they come out in increasing order, are those of `q` in the given order. -/
theorem fitted_values (p p' : Seg R) (X : List (List R)) (value : R → QVal R) (h : p.fit X = .ok p')
    (hv : ∀ q ∈ p.q, quantileValue X.flatten q = .ok (value q)) (hsort : (p.q.map value).Pairwise (· ≤ ·)) :
    p'.quantiles = some (p.q.map value) ∧ p'.q = p.q ∧ p'.cut = p.cut := by
  unfold Seg.fit at h
  rw [mapM_ok_map hv] at h
  cases h
  refine ⟨?_, rfl, rfl⟩
  simp only
  rw [hsort.insertionSort_eq]

/-- What is missing: for `MAX(cut=[2,1])` the label of feature 0 names the cut 2, but the feature is the maximum of the first
segment `x[:1]`. -/
theorem C70_counterexample :
    ((Sieve.seg .max ({ cut := [.int 2, .int 1], q := [-1, 1] } : Seg ℚ)).transform
      (⟨fun _ => [], fun _ => none⟩ : FloatText ℚ) [[(1 : ℚ), 5]]).toOption = some [[1, 5]] ∧
    ((Sieve.seg .max ({ cut := [.int 2, .int 1], q := [-1, 1] } : Seg ℚ)).label
      (⟨fun _ => "q".toList, fun _ => none⟩ : FloatText ℚ) (fun _ _ => []) 0).toOption = some "MAX!2![q, q]".toList := by
  constructor <;> decide +kernel

/-- Non-vacuity: increasing cuts. -/
example : (([.int 1, .int 2, .int (-1)] : List (Cut ℚ)).map (cutPos [] .L2 4 0)).Pairwise (· ≤ ·) := by decide +kernel

/-! ### C72 -/

theorem cutColumn_single (T : FloatText R) (C : Data R) (p : Seg R) (n : ℕ) (c : Cut R) (col : List ℤ)
    (h : p.cutColumn T C C.length n c = .ok col) :
    ∀ i < C.length, p.cutColumn T [C.getD i []] 1 n c = .ok [col.getD i 0] := by
  intro i hi
  cases c with
  | int k =>
    simp only [Seg.cutColumn] at h ⊢
    cases h
    rw [replicate_eq_tab, replicate_eq_tab, getD_tab hi]; rfl
  | float f =>
    simp only [Seg.cutColumn] at h ⊢
    rcases hc : coqs T C f p.norm.str with e | a
    · rw [hc] at h; cases h
    obtain ⟨h1, h2⟩ := coqs_single hc
    rw [hc, ok_bind, if_pos h1] at h
    cases h
    rw [h2 i hi, ok_bind, if_pos (by simp)]
    show Except.ok _ = Except.ok _
    rw [getD_map_int]
    rfl

theorem cuts_single (T : FloatText R) (C : Data R) (p : Seg R) (n : ℕ) (cs : List (List ℤ))
    (h : p.cuts T C C.length n = .ok cs) : ∀ i < C.length, p.cuts T [C.getD i []] 1 n = .ok [cs.getD i []] := by
  intro i hi
  unfold Seg.cuts at h ⊢
  rcases hc : p.cut.mapM (p.cutColumn T C C.length n) with e | cols
  · rw [hc] at h; cases h
  rw [hc] at h
  cases h
  have h1 : p.cut.mapM (p.cutColumn T [C.getD i []] 1 n) = .ok (cols.map fun c => [c.getD i 0]) := by
    rw [mapM_ok_iff] at hc ⊢
    rw [List.forall₂_map_right_iff]
    exact hc.imp fun c col hcol => cutColumn_single T C p n c col hcol i hi
  rw [h1]
  show Except.ok _ = Except.ok _
  congr 1
  show _ = [(tab C.length _).getD i []]
  rw [getD_tab hi]
  show [_] = [_]
  beta_reduce
  rw [List.map_map]
  rfl

theorem backend_single (op : SegOp R) (cs : List (List ℤ)) (qs : List (QVal R)) (X Y : List (List R))
    (h : backend op cs qs X = .ok Y) :
    Y.length = X.length ∧ ∀ i < X.length, backend op [cs.getD i []] qs [X.getD i []] = .ok [Y.getD i []] := by
  unfold backend at h
  obtain ⟨h1, h2⟩ := mapM_getD h 0 []
  rw [List.length_range] at h1 h2
  refine ⟨h1, fun i hi => ?_⟩
  have h3 := h2 i hi
  rw [show (List.range X.length).getD i 0 = i by rw [getD_getElem (by simpa using hi)]; simp] at h3
  unfold backend
  exact mapM_single _ _ _ h3

theorem rowLen_single {X : List (List R)} {n : ℕ} (hX : ∀ r ∈ X, r.length = n) {i : ℕ} (hi : i < X.length) :
    rowLen [X.getD i []] = n ∧ rowLen X = n := by
  constructor
  · exact hX _ (getD_mem_lt hi)
  · exact hX _ (getD_mem_lt (by omega))

theorem newAxis_single (X : List (List R)) (i : ℕ) (hi : i < X.length) :
    [(newAxis X).getD i []] = newAxis [X.getD i []] := by
  unfold newAxis
  rw [getD_getElem (by simpa using hi), getD_getElem hi]
  simp

/-- The function treats the rows (with their cache inputs) one by one. -/
def Per2 (F : Data R → List (List R) → Except Err (List (List R))) : Prop :=
  ∀ (C : Data R) (X Y : List (List R)) (n : ℕ), (∀ r ∈ X, r.length = n) → C.length = X.length → F C X = .ok Y →
    Y.length = X.length ∧ ∀ i < X.length, F [C.getD i []] [X.getD i []] = .ok [Y.getD i []]

/-- Row-wise operations keep the number and treat each row on its own. -/
theorem rows_single {f : List R → Except Err (List R)} {X A : List (List R)} (h : X.mapM f = .ok A) :
    A.length = X.length ∧ ∀ i < X.length, [X.getD i []].mapM f = .ok [A.getD i []] := by
  obtain ⟨h1, h2⟩ := mapM_getD h [] []
  exact ⟨h1, fun i hi => mapM_single _ _ _ (h2 i hi)⟩

theorem iterM_single {f : List R → Except Err (List R)} (hlen : ∀ x y, f x = .ok y → y.length = x.length) :
    ∀ (k : ℕ) (X A : List (List R)), iterM (fun A => A.mapM f) k X = .ok A →
      A.length = X.length ∧ (∀ i < X.length, iterM (fun A => A.mapM f) k [X.getD i []] = .ok [A.getD i []]) ∧
      ∀ n, (∀ r ∈ X, r.length = n) → ∀ r ∈ A, r.length = n
  | 0, X, A, h => by cases h; exact ⟨rfl, fun _ _ => rfl, fun _ h => h⟩
  | k + 1, X, A, h => by
    simp only [iterM] at h ⊢
    rcases hB : X.mapM f with e | B
    · rw [hB] at h; cases h
    rw [hB, ok_bind] at h
    obtain ⟨h1, h2, h3⟩ := iterM_single hlen k B A h
    obtain ⟨b1, b2⟩ := rows_single hB
    refine ⟨by omega, fun i hi => ?_, fun n hn r hr => h3 n (fun r hr => ?_) r hr⟩
    · rw [b2 i hi, ok_bind]; exact h2 i (by omega)
    · obtain ⟨x, hx, hxr⟩ := mapM_mem hB r hr
      rw [hlen x r hxr, hn x hx]

theorem cumsum_length (x : List R) : (cumsum x).length = x.length := by
  rw [tab_of_list x 0, cumsum_tab, tab_length, tab_length]

theorem preTransform_single (inc : ℤ) (X A : List (List R)) (h : preTransform inc X = .ok A) :
    A.length = X.length ∧ (∀ i < X.length, preTransform inc [X.getD i []] = .ok [A.getD i []]) ∧
    ∀ n, (∀ r ∈ X, r.length = n) → ∀ r ∈ A, r.length = n := by
  unfold preTransform at h ⊢
  by_cases h1 : inc > 0
  · simp only [if_pos h1] at h ⊢
    exact iterM_single (fun x y h => increments1_length h) _ _ _ h
  simp only [if_neg h1] at h ⊢
  by_cases h2 : inc < 0
  · simp only [if_pos h2] at h ⊢
    have e : (fun A : List (List R) => (.ok (A.map cumsum) : Except Err (List (List R))))
        = fun A => A.mapM fun x => (.ok (cumsum x) : Except Err (List R)) := by
      funext A; exact (mapM_ok_map fun x _ => rfl).symm
    rw [e] at h ⊢
    exact iterM_single (fun x y h => by cases h; exact cumsum_length x) _ _ _ h
  · simp only [if_neg h2] at h ⊢
    cases h
    exact ⟨rfl, fun _ _ => rfl, fun _ h => h⟩

theorem per2_seg (T : FloatText R) (k : SegKind) (p : Seg R) : Per2 fun C X => p.transform T C k X := by
  intro C X Y n hX hl h
  have base : ∀ (op : SegOp R), (do
      let qs ← p.useQuantiles
      let cuts ← p.cuts T C X.length (rowLen X)
      backend op cuts qs X) = (.ok Y : Except Err (List (List R))) → Y.length = X.length ∧
      ∀ i < X.length, (do
      let qs ← p.useQuantiles
      let cuts ← p.cuts T [C.getD i []] [X.getD i []].length (rowLen [X.getD i []])
      backend op cuts qs [X.getD i []]) = (.ok [Y.getD i []] : Except Err (List (List R))) := by
    intro op h
    rcases hq : p.useQuantiles with e | qs
    · rw [hq] at h; cases h
    rw [hq, ok_bind] at h
    rcases hcs : p.cuts T C X.length (rowLen X) with e | cs
    · rw [hcs] at h; cases h
    rw [hcs, ok_bind] at h
    obtain ⟨h1, h2⟩ := backend_single op cs qs X Y h
    refine ⟨h1, fun i hi => ?_⟩
    rw [ok_bind, (rowLen_single hX hi).1, ← (rowLen_single hX hi).2]
    rw [← hl] at hcs hi
    have := cuts_single T C p _ cs hcs i hi
    rw [List.length_singleton, this, ok_bind]
    exact h2 i (by omega)
  have cur : (do
      let qs ← p.useQuantiles
      let cuts ← p.cuts T C X.length (rowLen X)
      let X2 ← X.mapM secondIncrements
      backend opCur cuts qs X2) = (.ok Y : Except Err (List (List R))) → Y.length = X.length ∧
      ∀ i < X.length, (do
      let qs ← p.useQuantiles
      let cuts ← p.cuts T [C.getD i []] [X.getD i []].length (rowLen [X.getD i []])
      let X2 ← [X.getD i []].mapM secondIncrements
      backend opCur cuts qs X2) = (.ok [Y.getD i []] : Except Err (List (List R))) := by
    intro h
    rcases hq : p.useQuantiles with e | qs
    · rw [hq] at h; cases h
    rw [hq, ok_bind] at h
    rcases hcs : p.cuts T C X.length (rowLen X) with e | cs
    · rw [hcs] at h; cases h
    rw [hcs, ok_bind] at h
    rcases hA : X.mapM secondIncrements with e | A
    · rw [hA] at h; cases h
    rw [hA, ok_bind] at h
    obtain ⟨a1, a2⟩ := rows_single hA
    obtain ⟨h1, h2⟩ := backend_single opCur cs qs A Y h
    refine ⟨by omega, fun i hi => ?_⟩
    rw [ok_bind, (rowLen_single hX hi).1, ← (rowLen_single hX hi).2]
    have hcs' := hcs
    rw [← hl] at hcs'
    have := cuts_single T C p _ cs hcs' i (by omega)
    rw [List.length_singleton, this, ok_bind, a2 i hi, ok_bind]
    exact h2 i (by omega)
  cases k with
  | max => exact base _ h
  | min => exact base _ h
  | cur => exact cur h
  | avg => exact cur h
  | std => exact cur h
  | end_ =>
    simp only [Seg.transform] at h ⊢
    rcases hcs : p.cuts T C X.length (rowLen X) with e | cs
    · rw [hcs] at h; cases h
    rw [hcs, ok_bind] at h
    obtain ⟨h1, h2⟩ := mapM_getD h 0 []
    rw [List.length_range] at h1 h2
    refine ⟨h1, fun i hi => ?_⟩
    rw [(rowLen_single hX hi).1, ← (rowLen_single hX hi).2]
    rw [← hl] at hcs
    have := cuts_single T C p _ cs hcs i (by omega)
    rw [List.length_singleton, this, ok_bind]
    have h3 := h2 i hi
    rw [show (List.range X.length).getD i 0 = i by rw [getD_getElem (by simpa using hi)]; simp] at h3
    exact mapM_single _ _ _ h3

theorem per2_inc (T : FloatText R) (k : IncKind) (inc : ℤ) (p : Seg R) : Per2 fun C X => p.incTransform T C k inc X := by
  intro C X Y n hX hl h
  simp only [Seg.incTransform] at h ⊢
  rcases hq : p.useQuantiles with e | qs
  · rw [hq] at h; cases h
  rw [hq, ok_bind] at h
  rcases hA : preTransform inc X with e | A
  · rw [hA] at h; cases h
  rw [hA, ok_bind] at h
  rcases hcs : p.cuts T C A.length (rowLen A) with e | cs
  · rw [hcs] at h; cases h
  rw [hcs, ok_bind] at h
  obtain ⟨a1, a2, a3⟩ := preTransform_single inc X A hA
  obtain ⟨h1, h2⟩ := backend_single k.op cs qs A Y h
  refine ⟨by omega, fun i hi => ?_⟩
  have hAn := a3 n hX
  rw [ok_bind, a2 i hi, ok_bind, (rowLen_single hAn (by omega)).1, ← (rowLen_single hAn (show i < A.length by omega)).2]
  rw [show A.length = C.length by omega] at hcs
  have := cuts_single T C p _ cs hcs i (by omega)
  rw [List.length_singleton, this, ok_bind]
  exact h2 i (by omega)

theorem per2_ppv (count : List Bool → R) (p : PPV R) : Per2 fun _ X => p.transform count X := by
  intro C X Y n hX hl h
  unfold PPV.transform at h ⊢
  rcases hq : p.q with _ | qs
  · rw [hq] at h; cases h
  rw [hq] at h
  simp only at h ⊢
  by_cases hn : p.nfeatures < 0
  · rw [if_pos hn] at h; cases h
  rw [if_neg hn] at h; cases h
  refine ⟨by simp, fun i hi => ?_⟩
  rw [if_neg hn]
  congr 1
  rw [getD_getElem hi, getD_getElem (by simpa using hi)]
  simp

theorem wrapIncData_single (d : ℕ) (k : ℤ) (X Z : List (List R)) (h : wrapIncData d k X = .ok Z) :
    Z.length = X.length ∧ (∀ i < X.length, wrapIncData d k [X.getD i []] = .ok [Z.getD i []]) ∧
    ∀ n, (∀ r ∈ X, r.length = n) → ∀ r ∈ Z, r.length = n := by
  cases d with
  | zero => cases h; exact ⟨rfl, fun _ _ => rfl, fun _ h => h⟩
  | succ d =>
    rw [wrapIncData_succ] at h
    simp only [wrapIncData_succ]
    obtain ⟨h1, h2⟩ := rows_single h
    refine ⟨h1, h2, fun n hn r hr => ?_⟩
    obtain ⟨x, hx, hxr⟩ := mapM_mem h r hr
    rw [increments1_length hxr, hn x hx]

/-- **C72.** Whatever the fitted state of a sieve is: the features of series `i` are the features of the dataset that consists
of the series `i` only (with the cache input of this series, from which the cut points are computed). -/
theorem C72_independent (T : FloatText R) (s : Sieve R) (C : Data R) (X Y : List (List R)) {m n : ℕ}
    (hX : HasShape2 X m n) (hC : C.length = m) (h : s.transformC T C X = .ok Y) :
    Y.length = m ∧ ∀ i < m, s.transformC T [C.getD i []] [X.getD i []] = .ok [Y.getD i []] := by
  have main : ∀ s : Sieve R, Per2 fun C X => s.transformC T C X := by
    intro s
    induction s with
    | seg k p => exact per2_seg T k p
    | inc k i p => exact per2_inc T k i p
    | ppv p => exact per2_ppv _ p
    | cpv p => exact per2_ppv _ p
    | wrapInc s d k ih =>
      intro C X Y n hX hl h
      simp only [Sieve.transformC] at h ⊢
      rcases hZ : wrapIncData d k X with e | Z
      · rw [hZ] at h; cases h
      rw [hZ, ok_bind] at h
      obtain ⟨z1, z2, z3⟩ := wrapIncData_single d k X Z hZ
      obtain ⟨y1, y2⟩ := ih (newAxis Z) Z Y n (z3 n hX) (by simp [newAxis]) h
      refine ⟨by omega, fun i hi => ?_⟩
      have := y2 i (by omega)
      rw [newAxis_single Z i (by omega)] at this
      rw [z2 i hi, ok_bind]
      exact this
    | wrapInt s ih =>
      intro C X Y n hX hl h
      simp only [Sieve.transformC] at h ⊢
      obtain ⟨y1, y2⟩ := ih (newAxis (X.map cumsum)) (X.map cumsum) Y n (by
        intro r hr
        obtain ⟨x, hx, rfl⟩ := List.mem_map.1 hr
        rw [cumsum_length, hX x hx]) (by simp [newAxis]) h
      rw [List.length_map] at y1 y2
      refine ⟨y1, fun i hi => ?_⟩
      have := y2 i hi
      rw [newAxis_single _ i (by simpa using hi)] at this
      have e : (X.map cumsum).getD i [] = cumsum (X.getD i []) := by
        rw [getD_getElem (by simpa using hi), getD_getElem hi, List.getElem_map]
      rw [e] at this
      exact this
  obtain ⟨h1, h2⟩ := main s C X Y n hX.2 (by rw [hC, hX.1]) h
  rw [hX.1] at h1 h2
  exact ⟨h1, h2⟩

/-- **C72**, for the public `transform` of a sieve used on its own. -/
theorem C72_independent_alone (T : FloatText R) (s : Sieve R) (X Y : List (List R)) {m n : ℕ}
    (hX : HasShape2 X m n) (h : s.transform T X = .ok Y) :
    Y.length = m ∧ ∀ i < m, s.transform T [X.getD i []] = .ok [Y.getD i []] := by
  obtain ⟨h1, h2⟩ := C72_independent T s (newAxis X) X Y hX (by simp [newAxis, hX.1]) h
  refine ⟨h1, fun i hi => ?_⟩
  have := h2 i hi
  rw [newAxis_single X i (by rw [hX.1]; exact hi)] at this
  exact this

/-- Non-vacuity: two series, `INT(MAX)`. -/
example : ((Sieve.wrapInt (.seg .max ({ q := [-1, 1] } : Seg ℚ))).transform (⟨fun _ => [], fun _ => none⟩ : FloatText ℚ)
    [[(1 : ℚ), 5], [0, -1]]).toOption = some [[6], [0]] := by
  decide +kernel

end Fruits
