import Verif.Props.MissingSieve3

/-! # C170: missing values and sieves, part 4: `END`, `PPV`, `CPV`, other series, and fitting -/

namespace Fruits
set_option linter.unusedSectionVars false
open Finset Mv

variable {R : Type} [Field R] [LinearOrder R] [IsStrictOrderedRing R] [FloorRing R]

/-- **C170 (END).** Column `j` is the value (perhaps missing) before the `j`-th end of a segment; an end at 0 gives the last value. -/
theorem C170_end {m d n : ℕ} {C : Data (Mv R)} {D : Data R} {X : List (List (Mv R))} (hC : CompletesData m d n C D)
    (hX : HasShape2 X m n) (hm : 0 < m) (hd : 0 < d) (hn : 0 < n) (p : MSeg R) (hp : ∀ c ∈ p.cut, c.InRange n) :
    ∃ Z, (MSieve.seg .end_ p).transformC C X = .ok Z ∧ HasShape2 Z m p.cut.length ∧ ∀ i < m, ∀ j < p.cut.length,
      ((mbounds C D p n i).getD (j + 1) 0 ≠ 0 → at2 Z i j = at2 X i ((mbounds C D p n i).getD (j + 1) 0 - 1)) ∧
      ((mbounds C D p n i).getD (j + 1) 0 = 0 → at2 Z i j = at2 X i (n - 1)) := by
  refine ⟨tab2 m p.cut.length fun i j => at2 X i (if (mbounds C D p n i).getD (j + 1) 0 = 0 then n - 1
    else (mbounds C D p n i).getD (j + 1) 0 - 1), ?_, ?_, ?_⟩
  · simp only [MSieve.transformC, MSeg.transform]
    rw [hX.1, hX.rowLen_eq hm, mcuts_eq hC hd hn p hp, ok_bind]
    refine mapM_ok_map fun i hi => ?_
    replace hi := List.mem_range.1 hi
    rw [getD_tab hi, hX.row hi]
    unfold endRow
    rw [List.length_map, mbounds_length, Nat.add_sub_cancel]
    refine mapM_ok_map fun j hj => ?_
    rw [getD_map_int]
    have hb := mbounds_le C D p n i hp (j + 1)
    unfold takeIdx
    rw [tab_length, normIdx_eq ⟨by omega, by omega⟩, ok_bind]
    show Except.ok _ = _
    unfold dimOf
    by_cases h0 : (mbounds C D p n i).getD (j + 1) 0 = 0
    · rw [h0]
      simp only [if_true]
      rw [if_pos (by simp), getD_tab (by omega)]
      simp only [h0, if_true]
      congr 2; omega
    · beta_reduce
      rw [if_neg h0, if_neg (by omega), getD_tab (by omega)]
      congr 2; omega
  · refine ⟨by simp [tab2], fun r hr => ?_⟩
    obtain ⟨i, _, rfl⟩ := mem_tab.1 hr
    simp
  · intro i hi j hj
    unfold at2 tab2
    rw [getD_tab hi, getD_tab hj]
    beta_reduce
    exact ⟨fun h => by rw [if_neg h], fun h => by rw [if_pos h]⟩

/-- `x` is `y`, but with missing values for some numbers that are less than `all` the numbers of `qs`. -/
def LowMissing (qs : List R) (x : List (Mv R)) (y : List R) : Prop :=
  List.Forall₂ (fun a b => a = Mv.num b ∨ (a = Mv.nan ∧ ∀ q ∈ qs, b < q)) x y

theorem map_low {qs : List R} {f : Mv R → Bool} {g : R → Bool} (hnum : ∀ v, f (.num v) = g v) (hnan : f .nan = false)
    (hlow : ∀ v, (∀ q ∈ qs, v < q) → g v = false) {x : List (Mv R)} {y : List R} (h : LowMissing qs x y) : x.map f = y.map g := by
  unfold LowMissing at h
  induction h with
  | nil => rfl
  | cons hab _ ih =>
    rw [List.map_cons, List.map_cons, ih]
    rcases hab with rfl | ⟨rfl, hl⟩
    · rw [hnum]
    · rw [hnan, hlow _ hl]

theorem ppvRow_low (count : List Bool → R) (segments : Bool) (qs : List R) {x : List (Mv R)} {y : List R} (h : LowMissing qs x y) :
    Mv.ppvRow count segments (Mv.nums qs) x = PPV.row count segments qs y := by
  unfold Mv.ppvRow PPV.row
  cases segments with
  | true =>
    simp only [if_true, nums_length]
    refine List.map_congr_left fun j hj => ?_
    replace hj := List.mem_range.1 hj
    rw [nums_getD, nums_getD]
    congr 1
    refine map_low (fun v => ?_) ?_ (fun v hv => ?_) h
    · simp only [Mv.le, Mv.lt, Bool.decide_and]
    · rfl
    · rw [decide_eq_false_iff_not]
      have := hv (qs.getD j 0) (getD_mem_lt (by omega))
      exact fun hc => absurd hc.1 (not_le.2 this)
  | false =>
    rw [if_neg (by decide), if_neg (by decide)]
    unfold Mv.nums
    rw [List.map_map]
    refine List.map_congr_left fun q hq => ?_
    simp only [Function.comp_apply]
    congr 1
    refine map_low (fun v => ?_) ?_ (fun v hv => ?_) h
    · rfl
    · rfl
    · rw [decide_eq_false_iff_not]
      exact not_le.2 (hv q hq)

/-- **C170 (PPV, CPV).** With known quantiles a missing value counts as a value below all the quantiles: the features are those of the array with such
numbers in place of the missing values. -/
theorem C170_ppv (T : FloatText R) (C : Data (Mv R)) (D : Data R) (p : PPV R) (qs : List R) (hq : p.q = some qs) {X : List (List (Mv R))} {Y : List (List R)}
    (h : List.Forall₂ (LowMissing qs) X Y) :
    (MSieve.ppv p.mv).transformC C X = ((Sieve.ppv p).transformC T D Y).map known ∧
    (MSieve.cpv p.mv).transformC C X = ((Sieve.cpv p).transformC T D Y).map known := by
  have key : ∀ count : List Bool → R, p.mv.transform count X = (p.transform count Y).map known := by
    intro count
    unfold Mv.MPPV.transform PPV.transform
    rw [show p.mv.q = p.q.map Mv.nums from rfl, show p.mv.nfeatures = p.nfeatures from rfl, show p.mv.segments = p.segments from rfl, hq]
    simp only [Option.map_some]
    by_cases hn : p.nfeatures < 0
    · rw [if_pos hn, if_pos hn]; rfl
    · rw [if_neg hn, if_neg hn]
      simp only [Except.map, known, List.map_map, Except.ok.injEq]
      induction h with
      | nil => rfl
      | cons hab _ ih =>
        rw [List.map_cons, List.map_cons, ih, ppvRow_low count p.segments qs hab]
        rfl
  exact ⟨key _, key _⟩

/-! ## Other series -/

theorem rows_of_mapM {α β : Type} {g : α → Except Err β} {l : List α} {S : List β} (h : l.mapM g = .ok S) :
    S.length = l.length ∧ ∀ (a : α) (b : β), ∀ i < l.length, g (l.getD i a) = .ok (S.getD i b) := by
  have h' := mapM_ok_iff.1 h
  refine ⟨h'.length_eq.symm, fun a b i hi => ?_⟩
  have := (List.forall₂_iff_get.1 h').2 i hi (by rw [← h'.length_eq]; exact hi)
  rw [getD_getElem hi, getD_getElem (by rw [← h'.length_eq]; exact hi)]
  exact this

theorem range_rows {β : Type} {g : ℕ → Except Err β} {m : ℕ} {S : List β} (h : (List.range m).mapM g = .ok S) :
    S.length = m ∧ ∀ (b : β), ∀ i < m, g i = .ok (S.getD i b) := by
  obtain ⟨h1, h2⟩ := rows_of_mapM h
  rw [List.length_range] at h1 h2
  refine ⟨h1, fun b i hi => ?_⟩
  have := h2 0 b i hi
  rwa [getD_getElem (by rw [List.length_range]; exact hi), List.getElem_range] at this

theorem cutColumn_local (p : MSeg R) {C C' : Data (Mv R)} {m n i : ℕ} (hi : i < m) (h : C.getD i [] = C'.getD i []) (c : Cut R) {l l' : List ℤ}
    (hl : p.cutColumn C m n c = .ok l) (hl' : p.cutColumn C' m n c = .ok l') : l.getD i 0 = l'.getD i 0 := by
  cases c with
  | int k =>
    rw [MSeg.cutColumn] at hl hl'
    cases hl; cases hl'; rfl
  | float f =>
    simp only [MSeg.cutColumn] at hl hl'
    rcases hs : Mv.normSum p.norm C with e | s
    · rw [hs] at hl; cases hl
    rcases hs' : Mv.normSum p.norm C' with e | s'
    · rw [hs'] at hl'; cases hl'
    rw [hs, ok_bind] at hl
    rw [hs', ok_bind] at hl'
    by_cases hm : s.length = m
    swap
    · rw [if_neg hm] at hl; cases hl
    by_cases hm' : s'.length = m
    swap
    · rw [if_neg hm'] at hl'; cases hl'
    rw [if_pos hm] at hl
    rw [if_pos hm'] at hl'
    cases hl; cases hl'
    unfold Mv.normSum at hs hs'
    obtain ⟨hlen, hrow⟩ := rows_of_mapM hs
    obtain ⟨hlen', hrow'⟩ := rows_of_mapM hs'
    have h1 := hrow [] [] i (by omega)
    have h2 := hrow' [] [] i (by omega)
    rw [h, h2] at h1
    have he : s'.getD i [] = s.getD i [] := Except.ok.inj h1
    rw [getD_getElem (by rw [List.length_map]; omega), getD_getElem (by rw [List.length_map]; omega), List.getElem_map, List.getElem_map]
    rw [getD_getElem (by omega), getD_getElem (by omega)] at he
    rw [he]

theorem cuts_local (p : MSeg R) {C C' : Data (Mv R)} {m n i : ℕ} (hi : i < m) (h : C.getD i [] = C'.getD i []) {l l' : List (List ℤ)}
    (hl : p.cuts C m n = .ok l) (hl' : p.cuts C' m n = .ok l') : l.getD i [] = l'.getD i [] := by
  unfold MSeg.cuts at hl hl'
  rcases hc : p.cut.mapM (p.cutColumn C m n) with e | cols
  · rw [hc] at hl; cases hl
  rcases hc' : p.cut.mapM (p.cutColumn C' m n) with e | cols'
  · rw [hc'] at hl'; cases hl'
  rw [hc, ok_bind] at hl
  rw [hc', ok_bind] at hl'
  cases hl; cases hl'
  rw [getD_getElem (by simp [hi]), getD_getElem (by simp [hi]), List.getElem_map, List.getElem_map, List.getElem_range]
  have e : (cols.map fun c => c.getD i 0) = cols'.map fun c => c.getD i 0 := by
    obtain ⟨hlen, hrow⟩ := rows_of_mapM hc
    obtain ⟨hlen', hrow'⟩ := rows_of_mapM hc'
    apply List.ext_getElem
    · simp [hlen, hlen']
    · intro k h1 h2
      rw [List.getElem_map, List.getElem_map]
      rw [List.length_map] at h1 h2
      have a := hrow (.int 0) [] k (by omega)
      have a' := hrow' (.int 0) [] k (by omega)
      rw [getD_getElem (X := cols) h1] at a
      rw [getD_getElem (X := cols') h2] at a'
      exact cutColumn_local p hi h _ a a'
  rw [e]

theorem backend_local (op : MOp R) {l l' : List (List ℤ)} (qs : List (Mv (QVal R))) {X X' : List (List (Mv R))} {m i : ℕ} (hX : X.length = m)
    (hX' : X'.length = m) (hi : i < m) (h : X.getD i [] = X'.getD i []) (hl : l.getD i [] = l'.getD i []) {Z Z' : List (List (Mv R))}
    (hZ : Mv.backend op l qs X = .ok Z) (hZ' : Mv.backend op l' qs X' = .ok Z') : Z.getD i [] = Z'.getD i [] := by
  unfold Mv.backend at hZ hZ'
  rw [hX] at hZ
  rw [hX'] at hZ'
  have h1 := (range_rows hZ).2 [] i hi
  have h2 := (range_rows hZ').2 [] i hi
  rw [hl, h, h2] at h1
  exact (Except.ok.inj h1).symm

theorem mapRows_local {f : List (Mv R) → Except Err (List (Mv R))} {X X' : List (List (Mv R))} {m i : ℕ} (hX : X.length = m) (hX' : X'.length = m)
    (hi : i < m) (h : X.getD i [] = X'.getD i []) {Z Z' : List (List (Mv R))} (hZ : X.mapM f = .ok Z) (hZ' : X'.mapM f = .ok Z') :
    Z.length = m ∧ Z'.length = m ∧ Z.getD i [] = Z'.getD i [] := by
  obtain ⟨hlen, hrow⟩ := rows_of_mapM hZ
  obtain ⟨hlen', hrow'⟩ := rows_of_mapM hZ'
  refine ⟨by omega, by omega, ?_⟩
  have h1 := hrow [] [] i (by omega)
  have h2 := hrow' [] [] i (by omega)
  rw [h, h2] at h1
  exact (Except.ok.inj h1).symm

/-- Two arrays of the shape `(m, n)` with the same series `i`. -/
structure SameSeries (m n i : ℕ) (X X' : List (List (Mv R))) : Prop where
  left : HasShape2 X m n
  right : HasShape2 X' m n
  same : X.getD i [] = X'.getD i []

theorem mvInc_length {k : ℤ} {x y : List (Mv R)} (h : increments1 k x = .ok y) : y.length = x.length := by
  unfold increments1 at h
  simp only at h
  split at h
  · have := setSlc_length (by simp [zeros]) (by simpa [zeros] using pyClip_le _ _) h
    simpa [zeros] using this
  · cases h

theorem mvMapM_shape {f : List (Mv R) → Except Err (List (Mv R))} (hf : ∀ x y, f x = .ok y → y.length = x.length) {X Z : List (List (Mv R))} {m n : ℕ}
    (hX : HasShape2 X m n) (hZ : X.mapM f = .ok Z) : HasShape2 Z m n := by
  have h' := mapM_ok_iff.1 hZ
  refine ⟨by rw [← h'.length_eq]; exact hX.1, fun r hr => ?_⟩
  obtain ⟨k, hk, rfl⟩ := List.getElem_of_mem hr
  have := (List.forall₂_iff_get.1 h').2 k (by rw [h'.length_eq]; exact hk) hk
  change (Z.get ⟨k, hk⟩).length = n
  rw [hf _ _ this]
  exact hX.2 _ (List.get_mem _ _)

theorem SameSeries.mapM {m n i : ℕ} (hi : i < m) {f : List (Mv R) → Except Err (List (Mv R))} (hf : ∀ x y, f x = .ok y → y.length = x.length)
    {X X' Z Z' : List (List (Mv R))} (h : SameSeries m n i X X') (hZ : X.mapM f = .ok Z) (hZ' : X'.mapM f = .ok Z') : SameSeries m n i Z Z' :=
  ⟨mvMapM_shape hf h.left hZ, mvMapM_shape hf h.right hZ', (mapRows_local h.left.1 h.right.1 hi h.same hZ hZ').2.2⟩

theorem mvCumsum_length (x : List (Mv R)) : (cumsum x).length = x.length := by
  have : ∀ (x : List (Mv R)) (a : Mv R), (cumsumFrom a x).length = x.length := by
    intro x
    induction x with
    | nil => intro a; rfl
    | cons b x ih => intro a; simp [cumsumFrom, ih]
  exact this x 0

theorem SameSeries.cumsum {m n i : ℕ} (hi : i < m) {X X' : List (List (Mv R))} (h : SameSeries m n i X X') :
    SameSeries m n i (X.map Fruits.cumsum) (X'.map Fruits.cumsum) := by
  refine h.mapM hi (f := fun x => .ok (Fruits.cumsum x)) (fun x y hy => ?_) (mapM_ok_map fun x _ => rfl) (mapM_ok_map fun x _ => rfl)
  cases hy
  exact mvCumsum_length x

theorem SameSeries.iterM {m n i : ℕ} {f : List (List (Mv R)) → Except Err (List (List (Mv R)))}
    (hf : ∀ {X X' Z Z'}, SameSeries m n i X X' → f X = .ok Z → f X' = .ok Z' → SameSeries m n i Z Z') :
    ∀ (k : ℕ) {X X' Z Z' : List (List (Mv R))}, SameSeries m n i X X' → Fruits.iterM f k X = .ok Z → Fruits.iterM f k X' = .ok Z' → SameSeries m n i Z Z'
  | 0, X, X', Z, Z', h, hZ, hZ' => by cases hZ; cases hZ'; exact h
  | k + 1, X, X', Z, Z', h, hZ, hZ' => by
    unfold Fruits.iterM at hZ hZ'
    rcases h1 : f X with e | A
    · rw [h1] at hZ; cases hZ
    rcases h2 : f X' with e | A'
    · rw [h2] at hZ'; cases hZ'
    rw [h1, ok_bind] at hZ
    rw [h2, ok_bind] at hZ'
    exact SameSeries.iterM hf k (hf h h1 h2) hZ hZ'

theorem SameSeries.preTransform {m n i : ℕ} (hi : i < m) (inc : ℤ) {X X' Z Z' : List (List (Mv R))} (h : SameSeries m n i X X')
    (hZ : Fruits.preTransform inc X = .ok Z) (hZ' : Fruits.preTransform inc X' = .ok Z') : SameSeries m n i Z Z' := by
  unfold Fruits.preTransform at hZ hZ'
  by_cases h1 : inc > 0
  · rw [if_pos h1] at hZ hZ'
    exact SameSeries.iterM (fun hs a b => SameSeries.mapM hi (fun x y => mvInc_length) hs a b) _ h hZ hZ'
  rw [if_neg h1] at hZ hZ'
  by_cases h2 : inc < 0
  · rw [if_pos h2] at hZ hZ'
    exact SameSeries.iterM (fun hs a b => by cases a; cases b; exact hs.cumsum hi) _ h hZ hZ'
  · rw [if_neg h2] at hZ hZ'
    cases hZ; cases hZ'; exact h

theorem SameSeries.wrapInc {m n i : ℕ} (hi : i < m) (d : ℕ) (k : ℤ) {X X' Z Z' : List (List (Mv R))} (h : SameSeries m n i X X')
    (hZ : wrapIncData d k X = .ok Z) (hZ' : wrapIncData d k X' = .ok Z') : SameSeries m n i Z Z' := by
  unfold wrapIncData at hZ hZ'
  have key : ∀ (l : List ℕ) (A A' : List (List (Mv R))), SameSeries m n i A A' →
      l.foldlM (fun _ _ => X.mapM (increments1 k)) A = .ok Z → l.foldlM (fun _ _ => X'.mapM (increments1 k)) A' = .ok Z' → SameSeries m n i Z Z' := by
    intro l
    induction l with
    | nil => intro A A' hA a b; cases a; cases b; exact hA
    | cons e l ih =>
      intro A A' hA a b
      rw [List.foldlM_cons] at a b
      rcases h1 : X.mapM (increments1 k) with e | B
      · rw [h1] at a; cases a
      rcases h2 : X'.mapM (increments1 k) with e | B'
      · rw [h2] at b; cases b
      rw [h1, ok_bind] at a
      rw [h2, ok_bind] at b
      refine ih B B' (h.mapM hi (fun x y => mvInc_length) h1 h2) ?_ ?_
      · rw [h1]; exact a
      · rw [h2]; exact b
  exact key _ X X' h hZ hZ'

theorem newAxis_row {m n i : ℕ} (hi : i < m) {X X' : List (List (Mv R))} (h : SameSeries m n i X X') : (newAxis X).getD i [] = (newAxis X').getD i [] := by
  unfold newAxis
  have h1 := h.left.1
  have h2 := h.right.1
  have := h.same
  rw [getD_getElem (by omega), getD_getElem (by omega)] at this
  rw [getD_getElem (by simp; omega), getD_getElem (by simp; omega), List.getElem_map, List.getElem_map, this]

/-- The steps of a segment sieve after the data was prepared. -/
theorem segSteps_local (op : MOp R) (p : MSeg R) {C C' : Data (Mv R)} {m n i : ℕ} (hi : i < m) (hC : C.getD i [] = C'.getD i [])
    {X X' A A' : List (List (Mv R))} (hX : SameSeries m n i X X') (hA : SameSeries m n i A A') (qs : List (Mv (QVal R))) {Z Z' : List (List (Mv R))}
    (hZ : (p.cuts C X.length (rowLen X) >>= fun cuts => Mv.backend op cuts qs A) = .ok Z)
    (hZ' : (p.cuts C' X'.length (rowLen X') >>= fun cuts => Mv.backend op cuts qs A') = .ok Z') : Z.getD i [] = Z'.getD i [] := by
  rw [hX.left.1, hX.left.rowLen_eq (by omega)] at hZ
  rw [hX.right.1, hX.right.rowLen_eq (by omega)] at hZ'
  rcases h1 : p.cuts C m n with e | l
  · rw [h1] at hZ; cases hZ
  rcases h2 : p.cuts C' m n with e | l'
  · rw [h2] at hZ'; cases hZ'
  rw [h1, ok_bind] at hZ
  rw [h2, ok_bind] at hZ'
  exact backend_local op qs hA.left.1 hA.right.1 hi hA.same (cuts_local p hi hC h1 h2) hZ hZ'

theorem ppv_local {count : List Bool → R} {p : MPPV R} {m n i : ℕ} (hi : i < m) {X X' Z Z' : List (List (Mv R))} (h : SameSeries m n i X X')
    (hZ : p.transform count X = .ok Z) (hZ' : p.transform count X' = .ok Z') : Z.getD i [] = Z'.getD i [] := by
  unfold MPPV.transform at hZ hZ'
  rcases hq : p.q with _ | qs
  · rw [hq] at hZ; cases hZ
  rw [hq] at hZ hZ'
  dsimp only at hZ hZ'
  by_cases hn : p.nfeatures < 0
  · rw [if_pos hn] at hZ; cases hZ
  rw [if_neg hn] at hZ hZ'
  cases hZ; cases hZ'
  have h1 := h.left.1
  have h2 := h.right.1
  have := h.same
  rw [getD_getElem (by omega), getD_getElem (by omega)] at this
  rw [getD_getElem (by simp; omega), getD_getElem (by simp; omega), List.getElem_map, List.getElem_map, this]

/-- **C170 (other series).** The features that a fitted sieve finds for a series depend on nothing but this series and its part of the cache input: if
two arrays have the same series `i`, whatever is missing in the others, the features of series `i` are the same. -/
theorem C170_other_series {m n i : ℕ} (hi : i < m) (s : MSieve R) : ∀ {C C' : Data (Mv R)} {X X' Z Z' : List (List (Mv R))},
    C.getD i [] = C'.getD i [] → SameSeries m n i X X' → s.transformC C X = .ok Z → s.transformC C' X' = .ok Z' →
    Z.getD i [] = Z'.getD i [] := by
  induction s with
  | seg k p =>
    intro C C' X X' Z Z' hC h hZ hZ'
    simp only [MSieve.transformC] at hZ hZ'
    have hcur : (p.useQuantiles >>= fun qs => p.cuts C X.length (rowLen X) >>= fun cuts =>
        X.mapM secondIncrements >>= fun X2 => Mv.backend Mv.opCur cuts qs X2) = .ok Z →
      (p.useQuantiles >>= fun qs => p.cuts C' X'.length (rowLen X') >>= fun cuts =>
        X'.mapM secondIncrements >>= fun X2 => Mv.backend Mv.opCur cuts qs X2) = .ok Z' → Z.getD i [] = Z'.getD i [] := by
      intro hZ hZ'
      rcases hq : p.useQuantiles with e | qs
      · rw [hq] at hZ; cases hZ
      rw [hq, ok_bind] at hZ hZ'
      rcases h1 : X.mapM secondIncrements with e | A
      · rw [h1] at hZ
        rcases h3 : p.cuts C X.length (rowLen X) with e' | l
        · rw [h3] at hZ; cases hZ
        · rw [h3] at hZ; cases hZ
      rcases h2 : X'.mapM secondIncrements with e | A'
      · rw [h2] at hZ'
        rcases h3 : p.cuts C' X'.length (rowLen X') with e' | l
        · rw [h3] at hZ'; cases hZ'
        · rw [h3] at hZ'; cases hZ'
      rw [h1] at hZ
      rw [h2] at hZ'
      refine segSteps_local Mv.opCur p hi hC h (h.mapM hi (fun x y hy => ?_) h1 h2) qs hZ hZ'
      unfold secondIncrements at hy
      rcases h3 : increments1 1 x with e | w
      · rw [h3] at hy; cases hy
      rw [h3, ok_bind] at hy
      rw [mvInc_length hy, mvInc_length h3]
    cases k with
    | max =>
      simp only [MSeg.transform] at hZ hZ'
      rcases hq : p.useQuantiles with e | qs
      · rw [hq] at hZ; cases hZ
      rw [hq, ok_bind] at hZ hZ'
      exact segSteps_local Mv.opMax p hi hC h h qs hZ hZ'
    | min =>
      simp only [MSeg.transform] at hZ hZ'
      rcases hq : p.useQuantiles with e | qs
      · rw [hq] at hZ; cases hZ
      rw [hq, ok_bind] at hZ hZ'
      exact segSteps_local Mv.opMin p hi hC h h qs hZ hZ'
    | end_ =>
      simp only [MSeg.transform] at hZ hZ'
      rw [h.left.1, h.left.rowLen_eq (by omega)] at hZ
      rw [h.right.1, h.right.rowLen_eq (by omega)] at hZ'
      rcases h1 : p.cuts C m n with e | l
      · rw [h1] at hZ; cases hZ
      rcases h2 : p.cuts C' m n with e | l'
      · rw [h2] at hZ'; cases hZ'
      rw [h1, ok_bind] at hZ
      rw [h2, ok_bind] at hZ'
      have a := (range_rows hZ).2 [] i hi
      have b := (range_rows hZ').2 [] i hi
      rw [cuts_local p hi hC h1 h2, h.same, b] at a
      exact (Except.ok.inj a).symm
    | cur => exact hcur hZ hZ'
    | avg => exact hcur hZ hZ'
    | std => exact hcur hZ hZ'
  | inc k inc p =>
    intro C C' X X' Z Z' hC h hZ hZ'
    simp only [MSieve.transformC, MSeg.incTransform] at hZ hZ'
    rcases hq : p.useQuantiles with e | qs
    · rw [hq] at hZ; cases hZ
    rw [hq, ok_bind] at hZ hZ'
    rcases h1 : preTransform inc X with e | A
    · rw [h1] at hZ; cases hZ
    rcases h2 : preTransform inc X' with e | A'
    · rw [h2] at hZ'; cases hZ'
    rw [h1, ok_bind] at hZ
    rw [h2, ok_bind] at hZ'
    have hA := h.preTransform hi inc h1 h2
    exact segSteps_local (incOp k) p hi hC hA hA qs hZ hZ'
  | ppv p =>
    intro C C' X X' Z Z' hC h hZ hZ'
    exact ppv_local hi h hZ hZ'
  | cpv p =>
    intro C C' X X' Z Z' hC h hZ hZ'
    exact ppv_local hi h hZ hZ'
  | wrapInc s d k ih =>
    intro C C' X X' Z Z' hC h hZ hZ'
    simp only [MSieve.transformC] at hZ hZ'
    rcases h1 : wrapIncData d k X with e | A
    · rw [h1] at hZ; cases hZ
    rcases h2 : wrapIncData d k X' with e | A'
    · rw [h2] at hZ'; cases hZ'
    rw [h1, ok_bind] at hZ
    rw [h2, ok_bind] at hZ'
    have hA := h.wrapInc hi d k h1 h2
    exact ih (newAxis_row hi hA) hA hZ hZ'
  | wrapInt s ih =>
    intro C C' X X' Z Z' hC h hZ hZ'
    simp only [MSieve.transformC] at hZ hZ'
    have hA := h.cumsum hi
    exact ih (newAxis_row hi hA) hA hZ hZ'

end Fruits
