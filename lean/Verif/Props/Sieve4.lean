import Verif.Props.Sieve3

/-! # C60, C67 – C69: number of columns, PPV, CPV and the wrappers -/

namespace Fruits
set_option linter.unusedSectionVars false
open Finset

variable {R : Type} [Field R] [LinearOrder R] [IsStrictOrderedRing R] [FloorRing R]

/-! ### C60 -/

theorem mapM_length {α β : Type} {f : α → Except Err β} {xs : List α} {ys : List β} (h : xs.mapM f = .ok ys) :
    ys.length = xs.length := by
  rw [mapM_ok_iff] at h; exact h.length_eq.symm

theorem mapM_mem {α β : Type} {f : α → Except Err β} {xs : List α} {ys : List β} (h : xs.mapM f = .ok ys) :
    ∀ y ∈ ys, ∃ x ∈ xs, f x = .ok y := by
  rw [mapM_ok_iff] at h
  induction h with
  | nil => simp
  | cons h _ ih =>
    intro y hy
    rcases List.mem_cons.1 hy with rfl | hy
    · exact ⟨_, by simp, h⟩
    · obtain ⟨x, hx, hxy⟩ := ih y hy
      exact ⟨x, List.mem_cons_of_mem _ hx, hxy⟩

/-- The fitted values belong to the settings: there are as many of them. Every sieve that is new (no fitted values) and every
result of `fit` has this property, see `consistent_of_fit`. -/
def Sieve.Consistent : Sieve R → Prop
  | .seg _ p => ∀ qs, p.quantiles = some qs → qs.length = p.q.length
  | .inc _ _ p => ∀ qs, p.quantiles = some qs → qs.length = p.q.length
  | .ppv p => ∀ qs, p.q = some qs → qs.length = p.qc.length
  | .cpv p => ∀ qs, p.q = some qs → qs.length = p.qc.length
  | .wrapInc s _ _ => s.Consistent
  | .wrapInt s => s.Consistent

/-- No `END` with other than one interval of `q` occurs in the sieve. -/
def Sieve.NoWideEnd : Sieve R → Prop
  | .seg k p => k = .end_ → p.q.length = 2
  | .wrapInc s _ _ => s.NoWideEnd
  | .wrapInt s => s.NoWideEnd
  | _ => True

theorem consistent_of_fit (g : Rng R) (s s' : Sieve R) (X : List (List R)) (h : s.fit g X = .ok s') : s'.Consistent := by
  induction s generalizing X s' with
  | seg k p =>
    simp only [Sieve.fit, Seg.fit] at h
    rcases hq : p.q.mapM (quantileValue X.flatten) with e | qs
    · rw [hq] at h; cases h
    · rw [hq] at h; cases h
      rintro qs' hqs'
      cases hqs'
      rw [List.length_insertionSort, mapM_length hq]
  | inc k n p =>
    simp only [Sieve.fit, Seg.incFit] at h
    rcases hA : preTransform n X with e | A
    · rw [hA] at h; cases h
    rw [hA, ok_bind] at h
    simp only [Seg.fit] at h
    rcases hq : p.q.mapM (quantileValue A.flatten) with e | qs
    · rw [hq] at h; cases h
    · rw [hq] at h; cases h
      rintro qs' hqs'
      cases hqs'
      rw [List.length_insertionSort, mapM_length hq]
  | ppv p =>
    simp only [Sieve.fit] at h
    rcases hp : p.fit g X with e | p'
    · rw [hp] at h; cases h
    rw [hp] at h; cases h
    unfold PPV.fit at hp
    generalize hM : p.qc.zipIdx.mapM (p.fitValue g X) = M at hp
    cases M with
    | error e => cases hp
    | ok qs =>
      cases hp
      rintro qs' hqs'
      cases hqs'
      rw [mapM_length hM, List.length_zipIdx]
  | cpv p =>
    simp only [Sieve.fit] at h
    rcases hp : p.fit g X with e | p'
    · rw [hp] at h; cases h
    rw [hp] at h; cases h
    unfold PPV.fit at hp
    generalize hM : p.qc.zipIdx.mapM (p.fitValue g X) = M at hp
    cases M with
    | error e => cases hp
    | ok qs =>
      cases hp
      rintro qs' hqs'
      cases hqs'
      rw [mapM_length hM, List.length_zipIdx]
  | wrapInc s d k ih =>
    simp only [Sieve.fit] at h
    rcases hY : wrapIncData d k X with e | Y
    · rw [hY] at h; cases h
    rw [hY, ok_bind] at h
    rcases hs : s.fit g Y with e | s2
    · rw [hs] at h; cases h
    rw [hs] at h; cases h
    exact ih s2 Y hs
  | wrapInt s ih =>
    simp only [Sieve.fit] at h
    rcases hs : s.fit g (X.map cumsum) with e | s2
    · rw [hs] at h; cases h
    rw [hs] at h; cases h
    exact ih s2 _ hs

theorem useQuantiles_length (p : Seg R) (hc : ∀ qs, p.quantiles = some qs → qs.length = p.q.length) (qs : List (QVal R))
    (h : p.useQuantiles = .ok qs) : qs.length = p.q.length := by
  unfold Seg.useQuantiles at h
  split at h
  · split at h
    · cases h
    · cases h; exact hc _ (by assumption)
  · exact mapM_length h

theorem cuts_row_length (T : FloatText R) (C : Data R) (p : Seg R) (m n : ℕ) (cs : List (List ℤ))
    (h : p.cuts T C m n = .ok cs) (i : ℕ) (hi : i < m) : (cs.getD i []).length = p.cut.length + 1 := by
  unfold Seg.cuts at h
  rcases hc : p.cut.mapM (p.cutColumn T C m n) with e | cols
  · rw [hc] at h; cases h
  rw [hc] at h; cases h
  show ((tab m _).getD i []).length = _
  rw [getD_tab hi, List.length_insertionSort, List.length_cons, List.length_map, mapM_length hc]

theorem backend_cols (T : FloatText R) (C : Data R) (p : Seg R) (op : SegOp R) (qs : List (QVal R)) (A Y : List (List R))
    (m n : ℕ) (hm : A.length = m) (hq : qs.length = p.q.length) (cs : List (List ℤ)) (hc : p.cuts T C m n = .ok cs)
    (h : backend op cs qs A = .ok Y) :
    Y.length = m ∧ ∀ r ∈ Y, (r.length : ℤ) = (p.cut.length : ℤ) * ((p.q.length : ℤ) - 1) := by
  unfold backend at h
  refine ⟨by rw [mapM_length h, List.length_range, hm], fun r hr => ?_⟩
  obtain ⟨i, hi, hr⟩ := mapM_mem h r hr
  have hi := List.mem_range.1 hi
  have hl := cuts_row_length T C p m n cs hc i (by omega)
  unfold backendRow at hr
  split at hr
  · cases hr
  · rename_i hne
    rw [fillGrid_length hr, hl, Nat.add_sub_cancel, ← hq]
    push_cast
    rcases Nat.eq_zero_or_pos qs.length with h0 | h0
    · have : qs = [] := List.eq_nil_of_length_eq_zero h0
      have h1 : p.cut.length = 0 := by
        by_contra h1
        exact hne ⟨this, by omega⟩
      rw [h1]; simp
    · rw [Nat.cast_sub h0]; rfl

theorem iterM_length {f : List (List R) → Except Err (List (List R))} (hf : ∀ A B, f A = .ok B → B.length = A.length) :
    ∀ (k : ℕ) (A B : List (List R)), iterM f k A = .ok B → B.length = A.length
  | 0, A, B, h => by cases h; rfl
  | k + 1, A, B, h => by
    simp only [iterM] at h
    rcases hA : f A with e | A'
    · rw [hA] at h; cases h
    rw [hA, ok_bind] at h
    rw [iterM_length hf k _ _ h, hf _ _ hA]

theorem preTransform_length (inc : ℤ) (X A : List (List R)) (h : preTransform inc X = .ok A) : A.length = X.length := by
  unfold preTransform at h
  split at h
  · exact iterM_length (fun A B h => mapM_length h) _ _ _ h
  · split at h
    · exact iterM_length (fun A B h => by cases h; simp) _ _ _ h
    · cases h; rfl

theorem wrapIncData_length (d : ℕ) (k : ℤ) (X Y : List (List R)) (h : wrapIncData d k X = .ok Y) : Y.length = X.length := by
  unfold wrapIncData at h
  have : ∀ (L : List ℕ) (A : List (List R)), A.length = X.length →
      L.foldlM (fun _ _ => X.mapM (increments1 k)) A = .ok Y → Y.length = X.length := by
    intro L
    induction L with
    | nil => intro A hA h; cases h; exact hA
    | cons a L ih =>
      intro A hA h
      rw [List.foldlM_cons] at h
      rcases hX : X.mapM (increments1 k) with e | B
      · rw [hX] at h; cases h
      rw [hX, ok_bind] at h
      exact ih B (mapM_length hX) (by simp only [hX]; exact h)
  exact this _ _ rfl h

theorem seg_cols (T : FloatText R) (C : Data R) (k : SegKind) (p : Seg R) (X Y : List (List R))
    (hc : ∀ qs, p.quantiles = some qs → qs.length = p.q.length) (hk : k ≠ .end_) (h : p.transform T C k X = .ok Y) :
    Y.length = X.length ∧ ∀ r ∈ Y, (r.length : ℤ) = (p.cut.length : ℤ) * ((p.q.length : ℤ) - 1) := by
  have base : ∀ (op : SegOp R), (do
      let qs ← p.useQuantiles
      let cuts ← p.cuts T C X.length (rowLen X)
      backend op cuts qs X) = (.ok Y : Except Err (List (List R))) → Y.length = X.length ∧
        ∀ r ∈ Y, (r.length : ℤ) = (p.cut.length : ℤ) * ((p.q.length : ℤ) - 1) := by
    intro op h
    rcases hq : p.useQuantiles with e | qs
    · rw [hq] at h; cases h
    rw [hq, ok_bind] at h
    rcases hcs : p.cuts T C X.length (rowLen X) with e | cs
    · rw [hcs] at h; cases h
    rw [hcs, ok_bind] at h
    exact backend_cols T C p op qs X Y _ _ rfl (useQuantiles_length p hc qs hq) cs hcs h
  have cur : (do
      let qs ← p.useQuantiles
      let cuts ← p.cuts T C X.length (rowLen X)
      let X2 ← X.mapM secondIncrements
      backend opCur cuts qs X2) = (.ok Y : Except Err (List (List R))) → Y.length = X.length ∧
        ∀ r ∈ Y, (r.length : ℤ) = (p.cut.length : ℤ) * ((p.q.length : ℤ) - 1) := by
    intro h
    rcases hq : p.useQuantiles with e | qs
    · rw [hq] at h; cases h
    rw [hq, ok_bind] at h
    rcases hcs : p.cuts T C X.length (rowLen X) with e | cs
    · rw [hcs] at h; cases h
    rw [hcs, ok_bind] at h
    rcases hX2 : X.mapM secondIncrements with e | X2
    · rw [hX2] at h; cases h
    rw [hX2, ok_bind] at h
    exact backend_cols T C p opCur qs X2 Y _ _ (mapM_length hX2) (useQuantiles_length p hc qs hq) cs hcs h
  cases k with
  | max => exact base _ h
  | min => exact base _ h
  | end_ => exact absurd rfl hk
  | cur => exact cur h
  | avg => exact cur h
  | std => exact cur h

theorem end_cols (T : FloatText R) (C : Data R) (p : Seg R) (X Y : List (List R))
    (h : p.transform T C .end_ X = .ok Y) : Y.length = X.length ∧ ∀ r ∈ Y, r.length = p.cut.length := by
  simp only [Seg.transform] at h
  rcases hcs : p.cuts T C X.length (rowLen X) with e | cs
  · rw [hcs] at h; cases h
  rw [hcs, ok_bind] at h
  refine ⟨by rw [mapM_length h, List.length_range], fun r hr => ?_⟩
  obtain ⟨i, hi, hr⟩ := mapM_mem h r hr
  unfold endRow at hr
  rw [mapM_length hr, List.length_range, cuts_row_length T C p _ _ cs hcs i (List.mem_range.1 hi), Nat.add_sub_cancel]

theorem ppv_cols (count : List Bool → R) (p : PPV R) (X Y : List (List R))
    (hc : ∀ qs, p.q = some qs → qs.length = p.qc.length) (h : p.transform count X = .ok Y) :
    Y.length = X.length ∧ ∀ r ∈ Y, (r.length : ℤ) = p.nfeatures := by
  unfold PPV.transform at h
  rcases hq : p.q with _ | qs
  · rw [hq] at h; cases h
  rw [hq] at h
  simp only at h
  by_cases hn : p.nfeatures < 0
  · rw [if_pos hn] at h; cases h
  rw [if_neg hn] at h; cases h
  refine ⟨by simp, fun r hr => ?_⟩
  obtain ⟨x, _, rfl⟩ := List.mem_map.1 hr
  have hl := hc qs hq
  unfold PPV.row PPV.nfeatures at *
  by_cases hs : p.segments
  · simp only [hs, if_true] at hn ⊢
    simp only [List.length_map, List.length_range]
    omega
  · simp only [hs] at hn ⊢
    simp [hl]

/-- **C60, the part that holds.** Every sieve without an `END` with a non-default number of `q` returns one row per series
with exactly `nfeatures()` columns, whenever it returns at all. -/
theorem C60_columns_partial (T : FloatText R) (C : Data R) (s : Sieve R) (hc : s.Consistent) (he : s.NoWideEnd)
    (X Y : List (List R)) (h : s.transformC T C X = .ok Y) :
    Y.length = X.length ∧ ∀ r ∈ Y, (r.length : ℤ) = s.nfeatures := by
  induction s generalizing C X Y with
  | seg k p =>
    by_cases hk : k = .end_
    · subst hk
      obtain ⟨h1, h2⟩ := end_cols T C p X Y h
      refine ⟨h1, fun r hr => ?_⟩
      simp only [Sieve.nfeatures]
      rw [h2 r hr, he rfl]; simp
    · exact seg_cols T C k p X Y hc hk h
  | inc k n p =>
    simp only [Sieve.transformC, Seg.incTransform] at h
    rcases hq : p.useQuantiles with e | qs
    · rw [hq] at h; cases h
    rw [hq, ok_bind] at h
    rcases hA : preTransform n X with e | A
    · rw [hA] at h; cases h
    rw [hA, ok_bind] at h
    rcases hcs : p.cuts T C A.length (rowLen A) with e | cs
    · rw [hcs] at h; cases h
    rw [hcs, ok_bind] at h
    obtain ⟨h1, h2⟩ := backend_cols T C p k.op qs A Y _ _ rfl (useQuantiles_length p hc qs hq) cs hcs h
    exact ⟨by rw [h1, preTransform_length n X A hA], h2⟩
  | ppv p => exact ppv_cols _ p X Y hc h
  | cpv p => exact ppv_cols _ p X Y hc h
  | wrapInc s d k ih =>
    simp only [Sieve.transformC] at h
    rcases hY : wrapIncData d k X with e | Z
    · rw [hY] at h; cases h
    rw [hY, ok_bind] at h
    obtain ⟨h1, h2⟩ := ih (newAxis Z) hc he Z Y h
    exact ⟨by rw [h1, wrapIncData_length d k X Z hY], h2⟩
  | wrapInt s ih =>
    obtain ⟨h1, h2⟩ := ih (newAxis (X.map cumsum)) hc he (X.map cumsum) Y h
    exact ⟨by rw [h1, List.length_map], h2⟩

/-- What is missing in C60: `END(q=(-1,0,1))` says `nfeatures() == 2` but returns one column. -/
theorem C60_counterexample :
    (Sieve.seg .end_ ({ q := [-1, 0, 1] } : Seg ℚ)).nfeatures = 2 ∧
    ((Sieve.seg .end_ ({ q := [-1, 0, 1] } : Seg ℚ)).transform (⟨fun _ => [], fun _ => none⟩ : FloatText ℚ)
      [[(1 : ℚ), 2, 4]]).toOption = some [[4]] := by
  decide +kernel

/-- Non-vacuity: a new sieve is consistent. -/
example : (Sieve.wrapInt (.seg .max ({ q := [-1, 0, 1] } : Seg ℚ))).Consistent ∧
    (Sieve.wrapInt (.seg .max ({ q := [-1, 0, 1] } : Seg ℚ))).NoWideEnd :=
  ⟨fun qs h => (nomatch h), fun h => (nomatch h)⟩

/-! ### C67 -/

theorem filter_range_card (n : ℕ) (P : ℕ → Prop) [DecidablePred P] :
    ((List.range n).filter fun t => decide (P t)).length = {t ∈ Finset.range n | P t}.card := by
  rw [← List.toFinset_card_of_nodup (List.nodup_range.filter _), List.toFinset_filter, List.toFinset_range]
  simp

theorem countTrue_tab (n : ℕ) (x : ℕ → R) (P : R → Prop) [DecidablePred P] :
    countTrue ((tab n x).map fun v => decide (P v)) = {t ∈ Finset.range n | P (x t)}.card := by
  unfold countTrue
  rw [map_tab, ← filter_range_card]
  unfold tab
  rw [List.filter_map, List.length_map]
  rfl

/-- The proportion of the time points at which `P` holds. -/
def prop (n : ℕ) (P : ℕ → Prop) [DecidablePred P] : R := ({t ∈ Finset.range n | P t}.card : R) / (n : R)

theorem prop_mem (n : ℕ) (P : ℕ → Prop) [DecidablePred P] : 0 ≤ (prop n P : R) ∧ (prop n P : R) ≤ 1 := by
  unfold prop
  constructor
  · positivity
  · apply div_le_one_of_le₀ _ (by positivity)
    exact_mod_cast (Finset.card_filter_le _ _).trans (by simp)

theorem prop_mono (n : ℕ) (P Q : ℕ → Prop) [DecidablePred P] [DecidablePred Q] (h : ∀ t, P t → Q t) :
    (prop n P : R) ≤ prop n Q := by
  unfold prop
  apply div_le_div_of_nonneg_right _ (by positivity)
  exact_mod_cast Finset.card_le_card (Finset.monotone_filter_right _ fun t _ => h t)

theorem PPV.transform_eq (count : List Bool → R) (p : PPV R) (qs : List R) (X : List (List R)) {m n : ℕ}
    (hX : HasShape2 X m n) (hq : p.q = some qs) (hl : qs.length = p.qc.length) (hs : p.segments = true → qs ≠ []) :
    p.transform count X = .ok (tab m fun i => PPV.row count p.segments qs (tab n (at2 X i))) := by
  unfold PPV.transform
  rw [hq]
  simp only
  rw [if_neg]
  · congr 1
    conv_lhs => rw [hX.eq_tab]
    unfold tab2
    rw [map_tab]
  · unfold PPV.nfeatures
    by_cases h : p.segments
    · simp only [h, if_true]
      have := List.length_pos_of_ne_nil (hs h)
      omega
    · simp only [h]; simp

/-- **C67, values.** Without `segments`, PPV returns for every quantile value `q_j` the proportion of the values `≥ q_j`. The
features lie in [0,1], and a greater quantile value gives a smaller feature. -/
theorem C67_values (T : FloatText R) (C : Data R) (p : PPV R) (qs : List R) (X : List (List R)) {m n : ℕ}
    (hX : HasShape2 X m n) (hq : p.q = some qs) (hl : qs.length = p.qc.length) (hs : p.segments = false) :
    ∃ Y, (Sieve.ppv p).transformC T C X = .ok Y ∧ HasShape2 Y m qs.length ∧
      (∀ i < m, ∀ j < qs.length, at2 Y i j = ({t ∈ Finset.range n | qs.getD j 0 ≤ at2 X i t}.card : R) / (n : R)) ∧
      (∀ i < m, ∀ j < qs.length, 0 ≤ at2 Y i j ∧ at2 Y i j ≤ 1) ∧
      (∀ i < m, ∀ j < qs.length, ∀ k < qs.length, qs.getD j 0 ≤ qs.getD k 0 → at2 Y i k ≤ at2 Y i j) := by
  have h : (Sieve.ppv p).transformC T C X
      = .ok (tab2 m qs.length fun i j => prop n fun t => qs.getD j 0 ≤ at2 X i t) := by
    show p.transform ppvCount X = _
    rw [PPV.transform_eq ppvCount p qs X hX hq hl (by simp [hs])]
    congr 1
    apply tab_congr
    intro i hi
    unfold PPV.row
    rw [if_neg (by simp [hs])]
    conv_lhs => rw [tab_of_list qs 0]
    rw [map_tab]
    apply tab_congr
    intro j hj
    unfold ppvCount prop
    rw [countTrue_tab (P := fun v => v ≥ _)]
    simp
  refine ⟨_, h, HasShape2.tab2 _ _ _, ?_, ?_, ?_⟩
  · intro i hi j hj; rw [at2_tab2 hi hj]; rfl
  · intro i hi j hj; rw [at2_tab2 hi hj]; exact prop_mem _ _
  · intro i hi j hj k hk hjk
    rw [at2_tab2 hi hj, at2_tab2 hi hk]
    exact prop_mono _ _ _ fun t h => hjk.trans h

theorem bins_card (n : ℕ) (x : ℕ → R) (q : ℕ → R) (hq : ∀ k, q k ≤ q (k + 1)) (K : ℕ) :
    ∑ k ∈ Finset.range K, {t ∈ Finset.range n | q k ≤ x t ∧ x t < q (k + 1)}.card
    = {t ∈ Finset.range n | q 0 ≤ x t ∧ x t < q K}.card := by
  induction K with
  | zero =>
    simp only [Finset.sum_range_zero]
    symm
    rw [Finset.card_eq_zero, Finset.filter_eq_empty_iff]
    rintro t _ ⟨h1, h2⟩
    exact absurd (lt_of_le_of_lt h1 h2) (lt_irrefl _)
  | succ K ih =>
    have hmono : Monotone q := monotone_nat_of_le_succ hq
    rw [Finset.sum_range_succ, ih, ← Finset.card_union_of_disjoint]
    · congr 1
      rw [← Finset.filter_or]
      apply Finset.filter_congr
      intro t _
      constructor
      · rintro (⟨h1, h2⟩ | ⟨h1, h2⟩)
        · exact ⟨h1, lt_of_lt_of_le h2 (hq K)⟩
        · exact ⟨(hmono (Nat.zero_le K)).trans h1, h2⟩
      · rintro ⟨h1, h2⟩
        rcases lt_or_ge (x t) (q K) with h | h
        · exact Or.inl ⟨h1, h⟩
        · exact Or.inr ⟨h, h2⟩
    · rw [Finset.disjoint_left]
      intro t h1 h2
      have h1 := (Finset.mem_filter.1 h1).2
      have h2 := (Finset.mem_filter.1 h2).2
      exact absurd (lt_of_lt_of_le h1.2 h2.1) (lt_irrefl _)

/-- **C67, segments.** With `segments=True`, column `j` is the proportion of the values in `[q_j, q_{j+1})`; the features lie in
[0,1] and for sorted quantile values they add up to the proportion of the values in `[q_first, q_last)`. -/
theorem C67_segments (T : FloatText R) (C : Data R) (p : PPV R) (qs : List R) (X : List (List R)) {m n : ℕ}
    (hX : HasShape2 X m n) (hq : p.q = some qs) (hl : qs.length = p.qc.length) (hne : qs ≠ []) (hs : p.segments = true) :
    ∃ Y, (Sieve.ppv p).transformC T C X = .ok Y ∧ HasShape2 Y m (qs.length - 1) ∧
      (∀ i < m, ∀ j < qs.length - 1, at2 Y i j
        = ({t ∈ Finset.range n | qs.getD j 0 ≤ at2 X i t ∧ at2 X i t < qs.getD (j + 1) 0}.card : R) / (n : R)) ∧
      (∀ i < m, ∀ j < qs.length - 1, 0 ≤ at2 Y i j ∧ at2 Y i j ≤ 1) ∧
      (qs.Pairwise (· ≤ ·) → ∀ i < m, ∑ j ∈ Finset.range (qs.length - 1), at2 Y i j
        = ({t ∈ Finset.range n | qs.head hne ≤ at2 X i t ∧ at2 X i t < qs.getLast hne}.card : R) / (n : R)) := by
  have h : (Sieve.ppv p).transformC T C X
      = .ok (tab2 m (qs.length - 1) fun i j => prop n fun t => qs.getD j 0 ≤ at2 X i t ∧ at2 X i t < qs.getD (j + 1) 0) := by
    show p.transform ppvCount X = _
    rw [PPV.transform_eq ppvCount p qs X hX hq hl (fun _ => hne)]
    congr 1
    apply tab_congr
    intro i hi
    unfold PPV.row
    rw [if_pos hs]
    apply tab_congr
    intro j hj
    unfold ppvCount prop
    rw [countTrue_tab (P := fun v => qs.getD j 0 ≤ v ∧ v < qs.getD (j + 1) 0)]
    simp
  refine ⟨_, h, HasShape2.tab2 _ _ _, ?_, ?_, ?_⟩
  · intro i hi j hj; rw [at2_tab2 hi hj]; rfl
  · intro i hi j hj; rw [at2_tab2 hi hj]; exact prop_mem _ _
  · intro hsort i hi
    have hl0 := List.length_pos_of_ne_nil hne
    have e : ∀ j ∈ Finset.range (qs.length - 1),
        at2 (tab2 m (qs.length - 1) fun i j => (prop n fun t => qs.getD j 0 ≤ at2 X i t ∧ at2 X i t < qs.getD (j + 1) 0 : R)) i j
        = (({t ∈ Finset.range n | qs.getD (min j (qs.length - 1)) 0 ≤ at2 X i t ∧
            at2 X i t < qs.getD (min (j + 1) (qs.length - 1)) 0}.card : ℕ) : R) / (n : R) := by
      intro j hj
      have := Finset.mem_range.1 hj
      rw [at2_tab2 hi this, min_eq_left (by omega), min_eq_left (by omega)]
      rfl
    rw [Finset.sum_congr rfl e, ← Finset.sum_div, ← Nat.cast_sum,
      bins_card n (at2 X i) (fun k => qs.getD (min k (qs.length - 1)) 0)]
    · simp only [Nat.zero_min, min_self]
      rw [getD_getElem (by omega), getD_getElem (by omega), List.getLast_eq_getElem, List.head_eq_getElem]
    · intro k
      beta_reduce
      rw [getD_getElem (by omega), getD_getElem (by omega)]
      rcases Nat.lt_or_ge (min k (qs.length - 1)) (min (k + 1) (qs.length - 1)) with h | h
      · exact List.pairwise_iff_getElem.1 hsort _ _ (by omega) (by omega) h
      · have : min k (qs.length - 1) = min (k + 1) (qs.length - 1) := by omega
        simp only [this, le_refl]

/-- **C67, fit.** `fit` keeps the constants and replaces every other `q` by the quantile of the randomly selected series. -/
theorem C67_fit (g : Rng R) (p p' : PPV R) (X : List (List R)) (h : (Sieve.ppv p).fit g X = .ok (.ppv p')) :
    ∃ qs, p' = { p with q := some qs } ∧ qs.length = p.qc.length ∧
      ∀ j (hj : j < p.qc.length), (p.qc[j].2 = true → qs.getD j 0 = p.qc[j].1) ∧
        (p.qc[j].2 = false → quantile (((g.choice j X.length (max (pyInt (p.sampleSize * (X.length : R))) 1).toNat).map
          fun i => X.getD i []).flatten) p.qc[j].1 = .ok (qs.getD j 0)) := by
  simp only [Sieve.fit] at h
  rcases hp : p.fit g X with e | p''
  · rw [hp] at h; cases h
  rw [hp] at h; cases h
  unfold PPV.fit at hp
  generalize hM : p.qc.zipIdx.mapM (p.fitValue g X) = M at hp
  cases M with
  | error e => cases hp
  | ok qs =>
    cases hp
    have hlen : qs.length = p.qc.length := by rw [mapM_length hM, List.length_zipIdx]
    refine ⟨qs, rfl, hlen, fun j hj => ?_⟩
    rw [mapM_ok_iff] at hM
    have hj2 := List.forall₂_iff_get.1 hM |>.2 j (by simpa using hj) (by omega)
    simp only [List.get_eq_getElem, List.getElem_zipIdx, Nat.zero_add, PPV.fitValue] at hj2
    rw [getD_getElem (by omega)]
    constructor
    · intro hc
      rw [if_pos hc] at hj2
      exact (Except.ok.inj hj2).symm
    · intro hc
      rw [if_neg (by simp [hc])] at hj2
      exact hj2

/-- Non-vacuity: a constant PPV with two values, fitted and evaluated. -/
example : ((Sieve.ppv ({ qc := [(2, true), (3, true)], sampleSize := 1, segments := false, q := some [2, 3] } : PPV ℚ)).transform
    (⟨fun _ => [], fun _ => none⟩ : FloatText ℚ) [[(1 : ℚ), 2, 3, 5]]).toOption = some [[3 / 4, 1 / 2]] ∧
    ((Sieve.ppv ({ qc := [(2, true), (3, true)], sampleSize := 1, segments := true, q := some [2, 3] } : PPV ℚ)).transform
    (⟨fun _ => [], fun _ => none⟩ : FloatText ℚ) [[(1 : ℚ), 2, 3, 5]]).toOption = some [[1 / 4]] := by
  decide +kernel

end Fruits
