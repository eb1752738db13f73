import Verif.Props.Total3

/-! # The sieves of the library do not raise on the data they are made for (part of property C109) -/

namespace Fruits
set_option linter.unusedSectionVars false

variable {R : Type} [Field R] [LinearOrder R] [IsStrictOrderedRing R] [FloorRing R]

/-! ### Which sieves are covered -/

/-- The quantiles a segment sieve can be given: `-1` (`-inf`) or a number between zero and one. -/
def Seg.GoodQ (p : Seg R) : Prop := p.q ≠ [] ∧ ∀ q ∈ p.q, q = -1 ∨ (0 ≤ q ∧ q ≤ 1)

/-- The cuts lie in all series of length `≥ N`; a float is only allowed if the cache belongs to series of the same length. -/
def Seg.GoodCut (c : CacheMode) (N : ℕ) (p : Seg R) : Prop :=
  ∀ k ∈ p.cut, match k with
    | .int k => -(N + 1 : ℤ) ≤ k ∧ k ≤ N
    | .float _ => c ≠ .loose

/-- `PPV`, `CPV`: as the constructor checks it, and `segments=True` with at least two quantiles, that are all constants or all between zero and one (see
`PPV.copy`: the copy pairs quantiles and flags in another way). -/
def PPV.ok (p : PPV R) : Prop :=
  (0 < p.sampleSize ∧ p.sampleSize ≤ 1) ∧ (∀ e ∈ p.qc, e.2 = false → 0 ≤ e.1 ∧ e.1 ≤ 1) ∧
  (p.segments = true → 2 ≤ p.qc.length ∧ ((∀ e ∈ p.qc, e.2 = true) ∨ ∀ e ∈ p.qc, 0 ≤ e.1 ∧ e.1 ≤ 1))

/-- The settings of a sieve are ones for which no iterated sum whose series have at least `N` time points can make it raise.  `MAX` and `MIN` take the
extremum of the values in a band of quantiles, which raises if there are none: only the default `q=(-1,1)` is covered.  `END` is covered with two
quantiles, as it returns one column for each cut.  A cut outside of the series is allowed for the classes that count. -/
def Sieve.Accepts : CacheMode → ℕ → Sieve R → Prop
  | c, N, .seg .max p => p.q = [-1, 1] ∧ p.GoodCut c N
  | c, N, .seg .min p => p.q = [-1, 1] ∧ p.GoodCut c N
  | c, N, .seg .end_ p => (p.GoodQ ∧ p.q.length = 2) ∧ p.GoodCut c N
  | _, _, .seg _ p => p.GoodQ
  | _, _, .inc _ _ p => p.GoodQ
  | _, _, .ppv p => p.ok
  | _, _, .cpv p => p.ok
  | _, N, .wrapInc s d k => (d = 0 ∨ 1 ≤ k) ∧ s.Accepts .aligned N
  | _, N, .wrapInt s => s.Accepts .aligned N

/-- The sieve has what `transform` reads. -/
def Sieve.HasState : Sieve R → Prop
  | .seg _ p => p.requiresFitting = true → ∃ qs, p.quantiles = some qs ∧ qs.length = p.q.length
  | .inc _ _ p => p.requiresFitting = true → ∃ qs, p.quantiles = some qs ∧ qs.length = p.q.length
  | .ppv p => ∃ qs, p.q = some qs ∧ qs.length = p.qc.length
  | .cpv p => ∃ qs, p.q = some qs ∧ qs.length = p.qc.length
  | .wrapInc s _ _ => s.HasState
  | .wrapInt s => s.HasState

/-! ### Shapes -/

theorem mapM_shape2 {f : List R → Except Err (List R)} {X : List (List R)} {m n k : ℕ} (hX : HasShape2 X m n)
    (hf : ∀ x : List R, x.length = n → ∃ y, f x = .ok y ∧ y.length = k) : ∃ Y, X.mapM f = .ok Y ∧ HasShape2 Y m k := by
  obtain ⟨Y, h1, h2⟩ := mapM_total (l := X) (f := f) (Q := fun _ (y : List R) => y.length = k) fun x hx => hf x (hX.2 x hx)
  refine ⟨Y, h1, by rw [← h2.length_eq]; exact hX.1, fun r hr => ?_⟩
  obtain ⟨_, _, h⟩ := forall₂_right_mem h2 r hr
  exact h

theorem cumsum_shape {X : List (List R)} {m n : ℕ} (hX : HasShape2 X m n) : HasShape2 (X.map cumsum) m n := by
  refine ⟨by rw [List.length_map]; exact hX.1, fun r hr => ?_⟩
  obtain ⟨x, hx, rfl⟩ := List.mem_map.1 hr
  rw [cumsum_length]; exact hX.2 x hx

theorem iterM_shape {f : List (List R) → Except Err (List (List R))} {m n : ℕ} (hf : ∀ A, HasShape2 A m n → ∃ B, f A = .ok B ∧ HasShape2 B m n) :
    ∀ (k : ℕ) (A : List (List R)), HasShape2 A m n → ∃ B, iterM f k A = .ok B ∧ HasShape2 B m n
  | 0, A, hA => ⟨A, rfl, hA⟩
  | k + 1, A, hA => by
    obtain ⟨B, h1, h2⟩ := hf A hA
    obtain ⟨D, h3, h4⟩ := iterM_shape hf k B h2
    exact ⟨D, by rw [iterM, h1]; exact h3, h4⟩

theorem preTransform_shape (inc : ℤ) {X : List (List R)} {m n : ℕ} (hX : HasShape2 X m n) : ∃ Y, preTransform inc X = .ok Y ∧ HasShape2 Y m n := by
  unfold preTransform
  split
  · exact iterM_shape (fun A hA => mapM_shape2 hA fun x hx => increments1_total hx le_rfl) _ X hX
  split
  · exact iterM_shape (fun A hA => ⟨_, rfl, cumsum_shape hA⟩) _ X hX
  · exact ⟨X, rfl, hX⟩

theorem wrapIncData_shape {d : ℕ} {k : ℤ} (h : d = 0 ∨ 1 ≤ k) {X : List (List R)} {m n : ℕ} (hX : HasShape2 X m n) :
    ∃ Y, wrapIncData d k X = .ok Y ∧ HasShape2 Y m n := by
  rcases h with rfl | hk
  · exact ⟨X, rfl, hX⟩
  · obtain ⟨Z, h1, h2⟩ := mapM_shape2 hX fun x hx => increments1_total hx hk
    unfold wrapIncData
    rw [h1]
    have : ∀ (l : List ℕ) (Y : List (List R)), HasShape2 Y m n →
        ∃ Y', l.foldlM (fun (_ : List (List R)) (_ : ℕ) => (Except.ok Z : Except Err _)) Y = .ok Y' ∧ HasShape2 Y' m n := by
      intro l
      induction l with
      | nil => exact fun Y hY => ⟨Y, rfl, hY⟩
      | cons a l ih => intro Y _; rw [List.foldlM_cons]; exact ih Z h2
    exact this _ X hX

theorem secondIncrements_shape {X : List (List R)} {m n : ℕ} (hX : HasShape2 X m n) : ∃ Y, X.mapM secondIncrements = .ok Y ∧ HasShape2 Y m n := by
  refine mapM_shape2 hX fun x hx => ?_
  obtain ⟨y, h1, h2⟩ := increments1_total hx le_rfl
  obtain ⟨z, h3, h4⟩ := increments1_total h2 le_rfl
  exact ⟨z, by unfold secondIncrements; rw [h1]; exact h3, h4⟩

/-- An array of any cuts has one more entry in each row than there are cuts. -/
theorem cuts_total (T : FloatText R) (hT : T.Lawful) (C : Data R) (p : Seg R) {m dc nc : ℕ} (n : ℕ) (hC : HasShape C m dc nc) (hdc : 0 < dc) (hnc : 0 < nc) :
    ∃ cuts, p.cuts T C m n = .ok cuts ∧ cuts.length = m ∧ ∀ r ∈ cuts, r.length = p.cut.length + 1 := by
  obtain ⟨cols, h1, h2⟩ := mapM_total (l := p.cut) (f := p.cutColumn T C m n) (Q := fun _ _ => True) (by
    intro c _
    cases c with
    | int k => exact ⟨_, rfl, trivial⟩
    | float f =>
      simp only [Seg.cutColumn]
      rw [norm_str_text, coqs_eq T hT C hC hdc hnc, ok_bind, if_pos (by simp)]
      exact ⟨_, rfl, trivial⟩)
  unfold Seg.cuts
  rw [h1, ok_bind]
  refine ⟨_, rfl, by simp, fun r hr => ?_⟩
  obtain ⟨i, _, rfl⟩ := List.mem_map.1 hr
  rw [List.length_insertionSort]
  simp [h2.length_eq]

/-- Without floats, the cache does not matter. -/
theorem cuts_congr (T : FloatText R) (C C' : Data R) (p : Seg R) (m n : ℕ) (h : ∀ c ∈ p.cut, ∃ k, c = .int k) : p.cuts T C m n = p.cuts T C' m n := by
  unfold Seg.cuts
  rw [mapM_congr_mem (f := p.cutColumn T C m n) (h := p.cutColumn T C' m n) (l := p.cut) (by
    intro c hc
    obtain ⟨k, rfl⟩ := h c hc
    rfl)]

theorem fillGrid_total {J K : ℕ} {v : ℕ → ℕ → Except Err R} (h : ∀ j < J, ∀ k < K, ∃ r, v j k = .ok r) : ∃ r, fillGrid J K v = .ok r ∧ r.length = J * K := by
  choose! w hw using h
  exact ⟨_, fillGrid_ok hw, by simp⟩

/-- An operation that never raises. -/
theorem backend_total {op : SegOp R} (hop : ∀ x a b lo hi, ∃ v, op x a b lo hi = .ok v) {cuts : List (List ℤ)} {qs : List (QVal R)} {A : List (List R)}
    {m n J : ℕ} (hA : HasShape2 A m n) (hc : cuts.length = m) (hcuts : ∀ r ∈ cuts, r.length = J + 1) (hq : qs ≠ []) :
    ∃ Y, backend op cuts qs A = .ok Y ∧ HasShape2 Y m (J * (qs.length - 1)) := by
  unfold backend
  obtain ⟨Y, h1, h2⟩ := mapM_total (l := List.range A.length) (f := fun i => backendRow op (cuts.getD i []) qs (A.getD i []))
    (Q := fun _ (y : List R) => y.length = J * (qs.length - 1)) (by
      intro i hi
      rw [List.mem_range, hA.1] at hi
      have hl := hcuts _ (getD_mem_lt (e := []) (show i < cuts.length by omega))
      unfold backendRow
      rw [if_neg (fun h => hq h.1), hl]
      exact fillGrid_total fun j _ k _ => hop _ _ _ _ _)
  refine ⟨Y, h1, by rw [← h2.length_eq, List.length_range]; exact hA.1, fun r hr => ?_⟩
  obtain ⟨_, _, h⟩ := forall₂_right_mem h2 r hr
  exact h

/-! ### Quantiles -/

theorem flatten_ne_nil {X : List (List R)} {m n : ℕ} (hX : HasShape2 X m n) (hm : 0 < m) (hn : 0 < n) : X.flatten ≠ [] := by
  obtain ⟨r, l, rfl⟩ := List.exists_cons_of_length_pos (show 0 < X.length by rw [hX.1]; exact hm)
  have := hX.2 r (by simp)
  intro h
  rw [List.flatten_cons, List.append_eq_nil_iff] at h
  rw [h.1] at this
  simp at this
  omega

theorem quantileValue_total {xs : List R} (hx : xs ≠ []) {q : R} (hq : q = -1 ∨ (0 ≤ q ∧ q ≤ 1)) : ∃ v, quantileValue xs q = .ok v := by
  unfold quantileValue
  split
  · exact ⟨_, rfl⟩
  split
  · exact ⟨_, rfl⟩
  split
  · rename_i _ h _
    obtain ⟨v, hv, _⟩ := (quantile_spec xs hx q).1 (hq.resolve_left h)
    rw [hv]; exact ⟨_, rfl⟩
  · exact ⟨_, rfl⟩

theorem Seg.fit_total {p : Seg R} (hq : p.GoodQ) {X : List (List R)} {m n : ℕ} (hX : HasShape2 X m n) (hm : 0 < m) (hn : 0 < n) :
    ∃ qs, p.fit X = .ok { p with quantiles := some qs } ∧ qs.length = p.q.length := by
  obtain ⟨qs, h1, h2⟩ := mapM_total (l := p.q) (f := quantileValue X.flatten) (Q := fun _ _ => True) fun q h => by
    obtain ⟨v, hv⟩ := quantileValue_total (flatten_ne_nil hX hm hn) (hq.2 q h)
    exact ⟨v, hv, trivial⟩
  refine ⟨qs.insertionSort (· ≤ ·), ?_, by rw [List.length_insertionSort, h2.length_eq]⟩
  unfold Seg.fit
  rw [h1]; rfl

theorem Seg.useQuantiles_total {p : Seg R} (h : p.requiresFitting = true → ∃ qs, p.quantiles = some qs ∧ qs.length = p.q.length) :
    ∃ qs, p.useQuantiles = .ok qs ∧ qs.length = p.q.length := by
  unfold Seg.useQuantiles
  by_cases hr : p.requiresFitting = true
  · obtain ⟨qs, h1, h2⟩ := h hr
    rw [if_pos hr, h1]; exact ⟨qs, rfl, h2⟩
  · rw [if_neg hr]
    unfold Seg.unfittedQuantiles
    obtain ⟨qs, h1, h2⟩ := mapM_total (l := p.q) (f := unfittedValue) (Q := fun _ _ => True) (by
      intro q hq
      have : ¬ (q ≠ -1 ∧ q ≠ 0 ∧ q ≠ 1) := fun hn => hr (by
        unfold Seg.requiresFitting
        exact List.any_eq_true.2 ⟨q, hq, by simpa using hn⟩)
      unfold unfittedValue
      split
      · exact ⟨_, rfl, trivial⟩
      split
      · exact ⟨_, rfl, trivial⟩
      split
      · rename_i h1 h2 h3; exact absurd ⟨h2, h3, h1⟩ this
      · exact ⟨_, rfl, trivial⟩)
    exact ⟨qs, h1, h2.length_eq.symm⟩

theorem useQuantiles_all {p : Seg R} (hq : p.q = [-1, 1]) : p.useQuantiles = .ok [⊥, ⊤] := by
  unfold Seg.useQuantiles
  have h1 : p.requiresFitting = false := by simp [Seg.requiresFitting, hq]
  rw [h1]
  have hne : ¬ (-1 : R) = 1 := by
    intro h
    have : (0 : R) < 1 := one_pos
    linarith
  simp [Seg.unfittedQuantiles, hq, unfittedValue, hne]

/-! ### Segment sieves -/

theorem Seg.GoodCut.inRange {c : CacheMode} {N : ℕ} {p : Seg R} (h : p.GoodCut c N) {n : ℕ} (hn : N ≤ n) : ∀ k ∈ p.cut, k.InRange n := by
  intro k hk
  have := h k hk
  cases k with
  | int k => simp only [Cut.InRange] at this ⊢; omega
  | float f => trivial

/-- The cuts of `MAX`, `MIN` and `END`: increasing positions in the series. -/
theorem goodCuts {T : FloatText R} (hT : T.Lawful) {c : CacheMode} {N : ℕ} {p : Seg R} (h : p.GoodCut c N) {C : Data R} {X : List (List R)} {m n dc nc : ℕ}
    (hX : HasShape2 X m n) (hn : 0 < n) (hN : N ≤ n) (hC : HasShape C m dc nc) (hdc : 0 < dc) (hc : c ≠ .loose → nc = n) :
    ∃ b : ℕ → List ℕ, p.cuts T C m n = .ok (tab m fun i => (b i).map fun k : ℕ => (k : ℤ)) ∧ ∀ i, (b i).length = p.cut.length + 1 ∧
      (∀ j ≤ p.cut.length, (b i).getD j 0 ≤ n) ∧ ∀ j < p.cut.length, (b i).getD j 0 ≤ (b i).getD (j + 1) 0 := by
  have key : ∀ D : Data R, HasShape D m dc n → 0 < dc → ∃ b : ℕ → List ℕ, p.cuts T D m n = .ok (tab m fun i => (b i).map fun k : ℕ => (k : ℤ)) ∧
      ∀ i, (b i).length = p.cut.length + 1 ∧ (∀ j ≤ p.cut.length, (b i).getD j 0 ≤ n) ∧ ∀ j < p.cut.length, (b i).getD j 0 ≤ (b i).getD (j + 1) 0 :=
    fun D hD _ => ⟨_, cuts_eq T hT D p hD hdc hn (h.inRange hN), fun i => ⟨bounds_length _ _ _ _, fun j _ => bounds_le _ _ _ _ (h.inRange hN) _,
      fun j hj => bounds_mono _ _ _ _ (by omega) (by omega)⟩⟩
  by_cases hcl : c = .loose
  · have hint : ∀ k ∈ p.cut, ∃ i, k = .int i := by
      intro k hk
      have := h k hk
      cases k with
      | int i => exact ⟨i, rfl⟩
      | float f => exact absurd hcl this
    have hD : HasShape (X.map fun r => List.replicate dc r) m dc n := by
      refine ⟨by rw [List.length_map]; exact hX.1, fun s hs => ?_⟩
      obtain ⟨r, hr, rfl⟩ := List.mem_map.1 hs
      exact ⟨by simp, fun x hx => by rw [List.eq_of_mem_replicate hx]; exact hX.2 r hr⟩
    rw [cuts_congr T C (X.map fun r => List.replicate dc r) p m n hint]
    exact key _ hD hdc
  · have := hc hcl
    subst this
    exact key C hC hdc

theorem slc_length_nat (x : List R) {a b n : ℕ} (hx : x.length = n) (hab : a ≤ b) (hb : b ≤ n) : (slc x (a : ℤ) (b : ℤ)).length = b - a := by
  unfold slc
  rw [pyClip_of_le (by omega), pyClip_of_le (by omega)]
  simp only [List.length_drop, List.length_take]
  omega

theorem band_all (x : List R) : band (⊥ : QVal R) ⊤ x = x := by
  unfold band
  rw [List.filter_eq_self]
  intro a _
  simp only [decide_eq_true_eq]
  exact ⟨WithBot.bot_lt_coe _, le_top⟩

/-- An extremum of non-empty segments. -/
theorem extremum_total {op : SegOp R} {ext : List R → Except Err R} (hext : ∀ x : List R, x ≠ [] → ∃ v, ext x = .ok v)
    (hop : ∀ x a b lo hi, op x a b lo hi = if a = b then .ok 0 else ext (band lo hi (slc x a b)))
    {A : List (List R)} {m n J : ℕ} (hA : HasShape2 A m n) {b : ℕ → List ℕ} (hb : ∀ i, (b i).length = J + 1 ∧
      (∀ j ≤ J, (b i).getD j 0 ≤ n) ∧ ∀ j < J, (b i).getD j 0 ≤ (b i).getD (j + 1) 0) :
    ∃ Y, backend op (tab m fun i => (b i).map fun k : ℕ => (k : ℤ)) [⊥, ⊤] A = .ok Y ∧ HasShape2 Y m (J * 1) := by
  have h : ∀ i < m, ∀ j < J, ∀ k < ([⊥, ⊤] : List (QVal R)).length - 1, ∃ v, op (tab n (at2 A i)) ((b i).getD j 0 : ℕ) ((b i).getD (j + 1) 0 : ℕ)
      (([⊥, ⊤] : List (QVal R)).getD k ⊥) (([⊥, ⊤] : List (QVal R)).getD (k + 1) ⊥) = .ok v := by
    intro i _ j hj k hk
    have hk0 : k = 0 := by simp at hk; omega
    subst hk0
    obtain ⟨_, h1, h2⟩ := hb i
    rw [hop]
    split
    · exact ⟨_, rfl⟩
    · rename_i hne
      refine hext _ ?_
      simp only [List.getD_cons_zero, List.getD_cons_succ]
      rw [band_all]
      intro h0
      have := slc_length_nat (tab n (at2 A i)) (n := n) (by simp) (h2 j hj) (h1 (j + 1) (by omega))
      rw [h0, List.length_nil] at this
      have h3 := h2 j hj
      exact hne (by rw [Nat.cast_inj]; omega)
  choose! v hv using h
  have := backend_eq op v [⊥, ⊤] A b J hA (fun i _ => (hb i).1) (by simp) hv
  exact ⟨_, this, HasShape2.tab2 m (J * 1) _⟩

theorem takeIdx_total (x : List R) {n : ℕ} (hx : x.length = n) (hn : 0 < n) {b : ℕ} (hb : b ≤ n) : ∃ v, takeIdx x ((b : ℤ) - 1) = .ok v := by
  unfold takeIdx normIdx
  rw [hx]
  split
  · exact ⟨_, rfl⟩
  split
  · exact ⟨_, rfl⟩
  · rename_i h1 h2
    exfalso
    omega

theorem toNat_features (a b : ℕ) (hb : b ≠ 0) : ((a : ℤ) * ((b : ℤ) - 1)).toNat = a * (b - 1) := by
  obtain ⟨k, rfl⟩ := Nat.exists_eq_succ_of_ne_zero hb
  have : ((a : ℤ) * (((k + 1 : ℕ) : ℤ) - 1)) = ((a * k : ℕ) : ℤ) := by push_cast; ring
  rw [this, Int.toNat_natCast]
  rfl

/-! ### PPV and CPV -/

theorem PPV.new_total {o : List R → List R} (ho : SetOrder o) {p : PPV R} (h : p.ok) (hd : p.segments = true → (p.qc.map (·.1)).Nodup) :
    ∃ q, PPV.new o (.list (p.qc.map (·.1))) (.list (p.qc.map (·.2))) p.sampleSize p.segments = .ok q ∧ q.ok := by
  obtain ⟨h1, h2, h3⟩ := h
  have hz : (p.qc.map (·.1)).zip (p.qc.map (·.2)) = p.qc := by
    rw [List.zip_map']
    simp
  have ha : PPV.args (.list (p.qc.map (·.1))) (.list (p.qc.map (·.2))) = .ok (p.qc.map (·.1), p.qc.map (·.2)) := by
    unfold PPV.args
    simp only
    rw [if_neg (by simp), hz, if_neg]
    intro hc
    obtain ⟨e, he, hx⟩ := List.any_eq_true.1 hc
    rcases hb : e.2 with _ | _
    · simp [hb] at hx
      have := h2 e he hb
      rcases hx with hx | hx
      · exact absurd this.1 (not_le.2 hx)
      · exact absurd this.2 (not_le.2 hx)
    · simp [hb] at hx
  unfold PPV.new
  rw [ha, ok_bind]
  simp only
  rw [if_neg (by simpa using h1)]
  rcases hs : p.segments with _ | _
  · simp only [Bool.false_and, Bool.false_eq_true, if_false]
    refine ⟨_, rfl, ⟨h1, ?_, by simp⟩⟩
    simp only [hz]
    exact h2
  · obtain ⟨h4, h5⟩ := h3 hs
    have hl : (p.qc.map (·.1)).length ≠ 1 := by rw [List.length_map]; omega
    simp only [Bool.true_and]
    rw [if_neg (by simpa using hl)]
    have hlen : (o (p.qc.map (·.1))).length = p.qc.length := by
      rw [(ho _).length_eq, List.dedup_eq_self.2 (hd hs), List.length_map]
    have hmem : ∀ e ∈ ((o (p.qc.map (·.1))).zip (p.qc.map (·.2))).insertionSort (fun a b : R × Bool => a.1 ≤ b.1),
        (∃ x ∈ p.qc, x.1 = e.1) ∧ ∃ x ∈ p.qc, x.2 = e.2 := by
      intro e he
      have he := (List.perm_insertionSort _ _).subset he
      have a1 := (List.of_mem_zip he).1
      have a2 := (List.of_mem_zip he).2
      rw [(ho _).mem_iff, List.mem_dedup] at a1
      exact ⟨List.mem_map.1 a1, List.mem_map.1 a2⟩
    have hok : (∀ e ∈ ((o (p.qc.map (·.1))).zip (p.qc.map (·.2))).insertionSort (fun a b : R × Bool => a.1 ≤ b.1), e.2 = true) ∨
        ∀ e ∈ ((o (p.qc.map (·.1))).zip (p.qc.map (·.2))).insertionSort (fun a b : R × Bool => a.1 ≤ b.1), 0 ≤ e.1 ∧ e.1 ≤ 1 := by
      rcases h5 with h5 | h5
      · left
        intro e he
        obtain ⟨_, x, hx, hxe⟩ := hmem e he
        rw [← hxe]; exact h5 x hx
      · right
        intro e he
        obtain ⟨⟨x, hx, hxe⟩, _⟩ := hmem e he
        rw [← hxe]; exact h5 x hx
    refine ⟨_, rfl, ⟨h1, ?_, fun _ => ⟨?_, hok⟩⟩⟩
    · simp only [if_true]
      intro e he hf
      rcases hok with hok | hok
      · rw [hok e he] at hf; cases hf
      · exact hok e he
    · simp only [if_true]
      rw [List.length_insertionSort, List.length_zip, hlen, List.length_map, Nat.min_self]
      exact h4

theorem PPV.fit_total {g : Rng R} (hg : g.Valid) {p : PPV R} (h : p.ok) {X : List (List R)} {m n : ℕ} (hX : HasShape2 X m n) (hm : 0 < m) (hn : 0 < n) :
    ∃ qs, p.fit g X = .ok { p with q := some qs } ∧ qs.length = p.qc.length := by
  obtain ⟨⟨s1, s2⟩, h2, _⟩ := h
  obtain ⟨qs, q1, q2⟩ := mapM_total (l := p.qc.zipIdx) (f := p.fitValue g X) (Q := fun _ _ => True) (by
    intro e he
    unfold PPV.fitValue
    split
    · exact ⟨_, rfl, trivial⟩
    · rename_i hf
      have hmem : e.1 ∈ p.qc := by
        have := List.mem_zipIdx (x := e.1) (i := e.2) he
        rw [this.2.2]; exact List.getElem_mem _
      have hr := h2 e.1 hmem (by simpa using hf)
      have hm1 : (1 : R) ≤ (m : R) := by exact_mod_cast hm
      have hc1 : 1 ≤ (max (pyInt (p.sampleSize * (X.length : R))) 1).toNat := by omega
      have hc2 : (max (pyInt (p.sampleSize * (X.length : R))) 1).toNat ≤ m := by
        have : pyInt (p.sampleSize * (X.length : R)) ≤ m := by
          rw [hX.1, pyInt_nonneg (by positivity)]
          refine Int.cast_le (R := R).1 ((Int.floor_le _).trans ?_)
          push_cast
          nlinarith
        omega
      generalize (max (pyInt (p.sampleSize * (X.length : R))) 1).toNat = k at hc1 hc2
      rw [hX.1]
      have hsel : HasShape2 ((g.choice e.2 m k).map fun i => X.getD i []) k n := by
        refine ⟨by rw [List.length_map, hg.choice_length _ _ _ hc2], fun r hr => ?_⟩
        obtain ⟨i, hi, rfl⟩ := List.mem_map.1 hr
        exact hX.2 _ (getD_mem_lt (by rw [hX.1]; exact hg.choice_lt _ _ _ hc2 i hi))
      obtain ⟨v, hv, _⟩ := (quantile_spec _ (flatten_ne_nil hsel (by omega) hn) e.1.1).1 hr
      exact ⟨v, hv, trivial⟩)
  refine ⟨qs, by unfold PPV.fit; rw [q1]; rfl, ?_⟩
  rw [← q2.length_eq, List.length_zipIdx]

theorem PPV.nfeatures_nonneg {p : PPV R} (h : p.ok) : 0 ≤ p.nfeatures := by
  unfold PPV.nfeatures
  split
  · rename_i hs
    have := (h.2.2 hs).1
    omega
  · omega

theorem PPV.transform_total {p : PPV R} (h : p.ok) (hs : ∃ qs, p.q = some qs ∧ qs.length = p.qc.length) (count : List Bool → R) {X : List (List R)} {m n : ℕ}
    (hX : HasShape2 X m n) : ∃ Y, p.transform count X = .ok Y ∧ HasShape2 Y m p.nfeatures.toNat := by
  obtain ⟨qs, h1, h2⟩ := hs
  unfold PPV.transform
  rw [h1]
  simp only
  rw [if_neg (not_lt.2 (PPV.nfeatures_nonneg h))]
  refine ⟨_, rfl, by rw [List.length_map]; exact hX.1, fun r hr => ?_⟩
  obtain ⟨x, _, rfl⟩ := List.mem_map.1 hr
  unfold PPV.row PPV.nfeatures
  rcases hsg : p.segments with _ | _
  · simp [h2]
  · simp only [if_true, List.length_map, List.length_range, h2]
    omega

/-! ### All sieves -/

theorem Sieve.Accepts.nonneg : ∀ {c : CacheMode} {N : ℕ} {s : Sieve R}, s.Accepts c N → 0 ≤ s.nfeatures
  | _, _, .seg .max p, h => by
    simp only [Sieve.Accepts] at h
    simp only [Sieve.nfeatures, h.1, List.length_cons, List.length_nil]
    positivity
  | _, _, .seg .min p, h => by
    simp only [Sieve.Accepts] at h
    simp only [Sieve.nfeatures, h.1, List.length_cons, List.length_nil]
    positivity
  | _, _, .seg .end_ p, h => by
    simp only [Sieve.Accepts] at h
    simp only [Sieve.nfeatures, h.1.2]
    positivity
  | _, _, .seg .cur p, h => by
    simp only [Sieve.Accepts, Seg.GoodQ] at h
    simp only [Sieve.nfeatures]
    have := List.length_pos_of_ne_nil h.1
    exact mul_nonneg (by positivity) (by omega)
  | _, _, .seg .avg p, h => by
    simp only [Sieve.Accepts, Seg.GoodQ] at h
    simp only [Sieve.nfeatures]
    have := List.length_pos_of_ne_nil h.1
    exact mul_nonneg (by positivity) (by omega)
  | _, _, .seg .std p, h => by
    simp only [Sieve.Accepts, Seg.GoodQ] at h
    simp only [Sieve.nfeatures]
    have := List.length_pos_of_ne_nil h.1
    exact mul_nonneg (by positivity) (by omega)
  | _, _, .inc _ _ p, h => by
    simp only [Sieve.Accepts, Seg.GoodQ] at h
    simp only [Sieve.nfeatures]
    have := List.length_pos_of_ne_nil h.1
    exact mul_nonneg (by positivity) (by omega)
  | _, _, .ppv p, h => PPV.nfeatures_nonneg h
  | _, _, .cpv p, h => PPV.nfeatures_nonneg h
  | _, _, .wrapInc s _ _, h => Sieve.Accepts.nonneg (s := s) h.2
  | _, _, .wrapInt s, h => by simp only [Sieve.Accepts] at h; exact Sieve.Accepts.nonneg (s := s) h

theorem Sieve.hasState_unfitted : ∀ {s : Sieve R}, s.requiresFitting = false → s.HasState
  | .seg _ p, h => fun h' => by simp only [Sieve.requiresFitting] at h; rw [h] at h'; cases h'
  | .inc _ _ p, h => fun h' => by simp only [Sieve.requiresFitting] at h; rw [h] at h'; cases h'
  | .ppv p, h => by simp [Sieve.requiresFitting] at h
  | .cpv p, h => by simp [Sieve.requiresFitting] at h
  | .wrapInc s _ _, h => by simp only [Sieve.HasState]; exact Sieve.hasState_unfitted (s := s) h
  | .wrapInt s, h => by simp only [Sieve.HasState]; exact Sieve.hasState_unfitted (s := s) h

/-- Copying a sieve succeeds; the copy is made for the same data. -/
theorem Sieve.copy_total {o : List R → List R} (ho : SetOrder o) : ∀ {c : CacheMode} {N : ℕ} {s : Sieve R}, s.Accepts c N → s.Distinct →
    ∃ t, s.copy o = .ok t ∧ t.Accepts c N
  | _, _, .seg .max p, h, _ => ⟨_, rfl, h⟩
  | _, _, .seg .min p, h, _ => ⟨_, rfl, h⟩
  | _, _, .seg .end_ p, h, _ => ⟨_, rfl, h⟩
  | _, _, .seg .cur p, h, _ => ⟨_, rfl, h⟩
  | _, _, .seg .avg p, h, _ => ⟨_, rfl, h⟩
  | _, _, .seg .std p, h, _ => ⟨_, rfl, h⟩
  | _, _, .inc _ _ p, h, _ => ⟨_, rfl, h⟩
  | _, _, .ppv p, h, hd => by
    obtain ⟨q, h1, h2⟩ := PPV.new_total ho h hd
    exact ⟨.ppv q, by simp only [Sieve.copy]; rw [h1]; rfl, h2⟩
  | _, _, .cpv p, h, hd => by
    obtain ⟨q, h1, h2⟩ := PPV.new_total ho h hd
    exact ⟨.cpv q, by simp only [Sieve.copy]; rw [h1]; rfl, h2⟩
  | _, _, .wrapInc s _ _, h, hd => by
    obtain ⟨t, h1, h2⟩ := Sieve.copy_total ho (s := s) h.2 hd
    exact ⟨_, by simp only [Sieve.copy]; rw [h1]; rfl, by simp only [Sieve.Accepts]; exact ⟨h.1, h2⟩⟩
  | _, _, .wrapInt s, h, hd => by
    simp only [Sieve.Accepts] at h
    obtain ⟨t, h1, h2⟩ := Sieve.copy_total ho (s := s) h hd
    exact ⟨_, by simp only [Sieve.copy]; rw [h1]; rfl, by simp only [Sieve.Accepts]; exact h2⟩

theorem goodQ_all {p : Seg R} (h : p.q = [-1, 1]) : p.GoodQ := by
  refine ⟨by rw [h]; simp, fun q hq => ?_⟩
  rw [h] at hq
  simp at hq
  rcases hq with rfl | rfl
  · exact Or.inl rfl
  · exact Or.inr ⟨zero_le_one, le_rfl⟩

theorem Sieve.Accepts.goodQ {c : CacheMode} {N : ℕ} {k : SegKind} {p : Seg R} (h : (Sieve.seg k p).Accepts c N) : p.GoodQ := by
  cases k with
  | max => exact goodQ_all h.1
  | min => exact goodQ_all h.1
  | end_ => exact h.1.1
  | cur => exact h
  | avg => exact h
  | std => exact h

/-- Fitting a sieve succeeds; afterwards it has what `transform` needs. -/
theorem Sieve.fit_total {g : Rng R} (hg : g.Valid) : ∀ {c : CacheMode} {N : ℕ} {s : Sieve R} {X : List (List R)} {m n : ℕ}, s.Accepts c N → HasShape2 X m n →
    0 < m → 0 < n → ∃ t, s.fit g X = .ok t ∧ t.Accepts c N ∧ t.HasState
  | c, N, .seg k p, X, m, n, h, hX, hm, hn => by
    obtain ⟨qs, h1, h2⟩ := Seg.fit_total h.goodQ hX hm hn
    refine ⟨.seg k { p with quantiles := some qs }, by simp only [Sieve.fit]; rw [h1]; rfl, ?_, fun _ => ⟨qs, rfl, h2⟩⟩
    cases k <;> exact h
  | c, N, .inc k i p, X, m, n, h, hX, hm, hn => by
    obtain ⟨A, hA, hAs⟩ := preTransform_shape i hX
    obtain ⟨qs, h1, h2⟩ := Seg.fit_total h hAs hm hn
    exact ⟨.inc k i { p with quantiles := some qs }, by simp only [Sieve.fit, Seg.incFit]; rw [hA, ok_bind, h1]; rfl, h, fun _ => ⟨qs, rfl, h2⟩⟩
  | c, N, .ppv p, X, m, n, h, hX, hm, hn => by
    obtain ⟨qs, h1, h2⟩ := PPV.fit_total hg h hX hm hn
    exact ⟨.ppv { p with q := some qs }, by simp only [Sieve.fit]; rw [h1]; rfl, h, qs, rfl, h2⟩
  | c, N, .cpv p, X, m, n, h, hX, hm, hn => by
    obtain ⟨qs, h1, h2⟩ := PPV.fit_total hg h hX hm hn
    exact ⟨.cpv { p with q := some qs }, by simp only [Sieve.fit]; rw [h1]; rfl, h, qs, rfl, h2⟩
  | c, N, .wrapInc s d k, X, m, n, h, hX, hm, hn => by
    obtain ⟨Y, hY, hYs⟩ := wrapIncData_shape h.1 hX
    obtain ⟨t, h1, h2, h3⟩ := Sieve.fit_total hg (s := s) h.2 hYs hm hn
    exact ⟨.wrapInc t d k, by simp only [Sieve.fit]; rw [hY, ok_bind, h1]; rfl, ⟨h.1, h2⟩, h3⟩
  | c, N, .wrapInt s, X, m, n, h, hX, hm, hn => by
    simp only [Sieve.Accepts] at h
    obtain ⟨t, h1, h2, h3⟩ := Sieve.fit_total hg (s := s) h (cumsum_shape hX) hm hn
    exact ⟨.wrapInt t, by simp only [Sieve.fit]; rw [h1]; rfl, by simp only [Sieve.Accepts]; exact h2, h3⟩

/-- Transforming an iterated sum succeeds, with `nfeatures()` columns. -/
theorem Sieve.transform_total {T : FloatText R} (hT : T.Lawful) : ∀ {c : CacheMode} {N : ℕ} {s : Sieve R} {C : Data R} {X : List (List R)} {m n dc nc : ℕ},
    s.Accepts c N → s.HasState → HasShape2 X m n → 0 < m → 0 < n → N ≤ n → HasShape C m dc nc → 0 < dc → 0 < nc → (c ≠ .loose → nc = n) →
    ∃ Y, s.transformC T C X = .ok Y ∧ HasShape2 Y m s.nfeatures.toNat
  | c, N, .seg .max p, C, X, m, n, dc, nc, h, hs, hX, hm, hn, hN, hC, hdc, hnc, hc => by
    obtain ⟨b, hb1, hb2⟩ := goodCuts hT h.2 hX hn hN hC hdc hc
    simp only [Sieve.transformC, Seg.transform]
    rw [useQuantiles_all h.1, ok_bind, hX.1, hX.rowLen_eq hm, hb1, ok_bind]
    have e : (Sieve.seg .max p).nfeatures.toNat = p.cut.length * 1 := by simp [Sieve.nfeatures, h.1]
    rw [e]
    exact extremum_total (ext := maxE) (fun x hx => ⟨_, maxE_ok hx⟩) (fun _ _ _ _ _ => rfl) hX hb2
  | c, N, .seg .min p, C, X, m, n, dc, nc, h, hs, hX, hm, hn, hN, hC, hdc, hnc, hc => by
    obtain ⟨b, hb1, hb2⟩ := goodCuts hT h.2 hX hn hN hC hdc hc
    simp only [Sieve.transformC, Seg.transform]
    rw [useQuantiles_all h.1, ok_bind, hX.1, hX.rowLen_eq hm, hb1, ok_bind]
    have e : (Sieve.seg .min p).nfeatures.toNat = p.cut.length * 1 := by simp [Sieve.nfeatures, h.1]
    rw [e]
    exact extremum_total (ext := minE) (fun x hx => ⟨_, minE_ok hx⟩) (fun _ _ _ _ _ => rfl) hX hb2
  | c, N, .seg .end_ p, C, X, m, n, dc, nc, h, hs, hX, hm, hn, hN, hC, hdc, hnc, hc => by
    obtain ⟨b, hb1, hb2⟩ := goodCuts hT h.2 hX hn hN hC hdc hc
    simp only [Sieve.transformC, Seg.transform]
    rw [hX.1, hX.rowLen_eq hm, hb1, ok_bind]
    have e : (Sieve.seg .end_ p).nfeatures.toNat = p.cut.length := by simp [Sieve.nfeatures, h.1.2]
    rw [e]
    obtain ⟨Y, y1, y2⟩ := mapM_total (l := List.range m) (Q := fun _ (y : List R) => y.length = p.cut.length)
      (f := fun i => endRow ((tab m fun i => (b i).map fun k : ℕ => (k : ℤ)).getD i []) (X.getD i [])) (by
        intro i hi
        rw [List.mem_range] at hi
        beta_reduce
        rw [getD_tab hi]
        obtain ⟨b1, b2, _⟩ := hb2 i
        unfold endRow
        rw [List.length_map, b1, Nat.add_sub_cancel]
        obtain ⟨y, z1, z2⟩ := mapM_total (l := List.range p.cut.length) (Q := fun _ (_ : R) => True)
          (f := fun j => takeIdx (X.getD i []) (((b i).map fun k : ℕ => (k : ℤ)).getD (j + 1) 0 - 1)) (by
            intro j hj
            rw [List.mem_range] at hj
            beta_reduce
            rw [getD_map_int]
            obtain ⟨v, hv⟩ := takeIdx_total (X.getD i []) (n := n) (hX.2 _ (getD_mem_lt (by rw [hX.1]; exact hi))) hn (b2 (j + 1) (by omega))
            exact ⟨v, hv, trivial⟩)
        exact ⟨y, z1, by rw [← z2.length_eq, List.length_range]⟩)
    refine ⟨Y, y1, by rw [← y2.length_eq, List.length_range], fun r hr => ?_⟩
    obtain ⟨_, _, hx⟩ := forall₂_right_mem y2 r hr
    exact hx
  | c, N, .seg .cur p, C, X, m, n, dc, nc, h, hs, hX, hm, hn, hN, hC, hdc, hnc, hc => by
    obtain ⟨qs, q1, q2⟩ := Seg.useQuantiles_total hs
    obtain ⟨cuts, c1, c2, c3⟩ := cuts_total T hT C p n hC hdc hnc
    obtain ⟨X2, x1, x2⟩ := secondIncrements_shape hX
    simp only [Sieve.transformC, Seg.transform]
    rw [q1, ok_bind, hX.1, hX.rowLen_eq hm, c1, ok_bind, x1, ok_bind]
    have hq : p.q.length ≠ 0 := fun h0 => h.1 (List.length_eq_zero_iff.1 h0)
    have e : (Sieve.seg .cur p).nfeatures.toNat = p.cut.length * (qs.length - 1) := by rw [q2]; exact toNat_features _ _ hq
    rw [e]
    exact backend_total (fun _ _ _ _ _ => ⟨_, rfl⟩) x2 c2 c3 (by rintro rfl; exact hq q2.symm)
  | c, N, .seg .avg p, C, X, m, n, dc, nc, h, hs, hX, hm, hn, hN, hC, hdc, hnc, hc => by
    obtain ⟨qs, q1, q2⟩ := Seg.useQuantiles_total hs
    obtain ⟨cuts, c1, c2, c3⟩ := cuts_total T hT C p n hC hdc hnc
    obtain ⟨X2, x1, x2⟩ := secondIncrements_shape hX
    simp only [Sieve.transformC, Seg.transform]
    rw [q1, ok_bind, hX.1, hX.rowLen_eq hm, c1, ok_bind, x1, ok_bind]
    have hq : p.q.length ≠ 0 := fun h0 => h.1 (List.length_eq_zero_iff.1 h0)
    have e : (Sieve.seg .avg p).nfeatures.toNat = p.cut.length * (qs.length - 1) := by rw [q2]; exact toNat_features _ _ hq
    rw [e]
    exact backend_total (fun _ _ _ _ _ => ⟨_, rfl⟩) x2 c2 c3 (by rintro rfl; exact hq q2.symm)
  | c, N, .seg .std p, C, X, m, n, dc, nc, h, hs, hX, hm, hn, hN, hC, hdc, hnc, hc => by
    obtain ⟨qs, q1, q2⟩ := Seg.useQuantiles_total hs
    obtain ⟨cuts, c1, c2, c3⟩ := cuts_total T hT C p n hC hdc hnc
    obtain ⟨X2, x1, x2⟩ := secondIncrements_shape hX
    simp only [Sieve.transformC, Seg.transform]
    rw [q1, ok_bind, hX.1, hX.rowLen_eq hm, c1, ok_bind, x1, ok_bind]
    have hq : p.q.length ≠ 0 := fun h0 => h.1 (List.length_eq_zero_iff.1 h0)
    have e : (Sieve.seg .std p).nfeatures.toNat = p.cut.length * (qs.length - 1) := by rw [q2]; exact toNat_features _ _ hq
    rw [e]
    exact backend_total (fun _ _ _ _ _ => ⟨_, rfl⟩) x2 c2 c3 (by rintro rfl; exact hq q2.symm)
  | c, N, .inc k i p, C, X, m, n, dc, nc, h, hs, hX, hm, hn, hN, hC, hdc, hnc, hc => by
    obtain ⟨qs, q1, q2⟩ := Seg.useQuantiles_total hs
    obtain ⟨A, a1, a2⟩ := preTransform_shape i hX
    obtain ⟨cuts, c1, c2, c3⟩ := cuts_total T hT C p n hC hdc hnc
    simp only [Sieve.transformC, Seg.incTransform]
    rw [q1, ok_bind, a1, ok_bind, a2.1, a2.rowLen_eq hm, c1, ok_bind]
    have hq : p.q.length ≠ 0 := fun h0 => h.1 (List.length_eq_zero_iff.1 h0)
    have e : (Sieve.inc k i p).nfeatures.toNat = p.cut.length * (qs.length - 1) := by rw [q2]; exact toNat_features _ _ hq
    rw [e]
    exact backend_total (fun _ _ _ _ _ => by cases k <;> exact ⟨_, rfl⟩) a2 c2 c3 (by rintro rfl; exact hq q2.symm)
  | c, N, .ppv p, C, X, m, n, dc, nc, h, hs, hX, hm, hn, hN, hC, hdc, hnc, hc => PPV.transform_total h hs ppvCount hX
  | c, N, .cpv p, C, X, m, n, dc, nc, h, hs, hX, hm, hn, hN, hC, hdc, hnc, hc => PPV.transform_total h hs cpvCount hX
  | c, N, .wrapInc s d k, C, X, m, n, dc, nc, h, hs, hX, hm, hn, hN, hC, hdc, hnc, hc => by
    obtain ⟨Y, hY, hYs⟩ := wrapIncData_shape h.1 hX
    obtain ⟨Z, h1, h2⟩ := Sieve.transform_total hT (s := s) (C := newAxis Y) h.2 hs hYs hm hn hN (hasShape_newAxis hYs) one_pos hn (fun _ => rfl)
    exact ⟨Z, by simp only [Sieve.transformC]; rw [hY, ok_bind]; exact h1, h2⟩
  | c, N, .wrapInt s, C, X, m, n, dc, nc, h, hs, hX, hm, hn, hN, hC, hdc, hnc, hc => by
    simp only [Sieve.Accepts] at h
    have hYs := cumsum_shape hX
    obtain ⟨Z, h1, h2⟩ := Sieve.transform_total hT (s := s) (C := newAxis (X.map cumsum)) h hs hYs hm hn hN (hasShape_newAxis hYs) one_pos hn (fun _ => rfl)
    exact ⟨Z, by simp only [Sieve.transformC]; exact h1, h2⟩

end Fruits
