import Verif.Props.Sieve4

/-! # C68, C69: CPV and the wrappers -/

namespace Fruits
set_option linter.unusedSectionVars false
open Finset

variable {R : Type} [Field R] [LinearOrder R] [IsStrictOrderedRing R] [FloorRing R]

/-! ### C68 -/

/-- `[s, e)` is a strip: a maximal interval of time points in `[0, n)` at which `P` holds. -/
def IsStrip (P : ℕ → Prop) (n s e : ℕ) : Prop :=
  s < e ∧ e ≤ n ∧ (∀ t, s ≤ t → t < e → P t) ∧ (s = 0 ∨ ¬ P (s - 1)) ∧ (e = n ∨ ¬ P e)

/-- The strips that begin at `1` or later. -/
def lateStrips (P : ℕ → Prop) (n : ℕ) : Set (ℕ × ℕ) := {se | IsStrip P n se.1 se.2 ∧ 0 < se.1}

/-- The rising edges. -/
def edges (P : ℕ → Prop) [DecidablePred P] (n : ℕ) : Finset ℕ := {t ∈ Finset.Ico 1 n | ¬ P (t - 1) ∧ P t}

/-- Every rising edge begins exactly one strip. -/
theorem edge_strip (P : ℕ → Prop) [DecidablePred P] (n s : ℕ) (h : s ∈ edges P n) : ∃ e, IsStrip P n s e := by
  obtain ⟨h1, h2, h3⟩ := Finset.mem_filter.1 h
  have h1 := Finset.mem_Ico.1 h1
  have hex : ∃ e, s < e ∧ (e = n ∨ ¬ P e) := ⟨n, h1.2, Or.inl rfl⟩
  refine ⟨Nat.find hex, (Nat.find_spec hex).1, ?_, ?_, Or.inr h2, (Nat.find_spec hex).2⟩
  · exact Nat.find_min' hex ⟨h1.2, Or.inl rfl⟩
  · intro t ht1 ht2
    rcases Nat.eq_or_lt_of_le ht1 with rfl | ht
    · exact h3
    · by_contra hc
      exact Nat.find_min hex ht2 ⟨ht, Or.inr hc⟩

theorem strip_unique (P : ℕ → Prop) (n s e e' : ℕ) (h : IsStrip P n s e) (h' : IsStrip P n s e') : e = e' := by
  obtain ⟨a1, a2, a3, _, a5⟩ := h
  obtain ⟨b1, b2, b3, _, b5⟩ := h'
  rcases lt_trichotomy e e' with hl | hl | hl
  · rcases a5 with h | h
    · omega
    · exact absurd (b3 e (by omega) hl) h
  · exact hl
  · rcases b5 with h | h
    · omega
    · exact absurd (a3 e' (by omega) hl) h

theorem lateStrips_card (P : ℕ → Prop) [DecidablePred P] (n : ℕ) : (lateStrips P n).ncard = (edges P n).card := by
  have h : (lateStrips P n).ncard = ((edges P n : Finset ℕ) : Set ℕ).ncard := by
    refine Set.ncard_congr (fun se _ => se.1) ?_ ?_ ?_
    · rintro ⟨s, e⟩ ⟨⟨h1, h2, h3, h4, h5⟩, h6⟩
      simp only at *
      rw [Finset.mem_coe, edges, Finset.mem_filter, Finset.mem_Ico]
      refine ⟨by omega, ?_, h3 s le_rfl h1⟩
      rcases h4 with h | h
      · omega
      · exact h
    · rintro ⟨s, e⟩ ⟨s', e'⟩ ⟨h1, _⟩ ⟨h2, _⟩ h3
      simp only at h3 h1 h2
      subst h3
      rw [strip_unique P n _ _ _ h1 h2]
    · intro s hs
      have hs := Finset.mem_coe.1 hs
      obtain ⟨e, he⟩ := edge_strip P n s hs
      have := Finset.mem_Ico.1 (Finset.mem_filter.1 hs).1
      exact ⟨(s, e), ⟨he, by simp only; omega⟩, rfl⟩
  rw [h, Set.ncard_coe_finset]

/-- Two rising edges are not adjacent: at most half of the time points are edges. -/
theorem edges_half (P : ℕ → Prop) [DecidablePred P] (n : ℕ) : 2 * (edges P n).card ≤ n := by
  have himg : ((edges P n).image fun t => t - 1).card = (edges P n).card := by
    apply Finset.card_image_of_injOn
    intro a ha b hb hab
    have h1 := Finset.mem_Ico.1 (Finset.mem_filter.1 (Finset.mem_coe.1 ha)).1
    have h2 := Finset.mem_Ico.1 (Finset.mem_filter.1 (Finset.mem_coe.1 hb)).1
    simp only at hab
    omega
  have hdis : Disjoint (edges P n) ((edges P n).image fun t => t - 1) := by
    rw [Finset.disjoint_left]
    intro t h1 h2
    obtain ⟨u, hu, rfl⟩ := Finset.mem_image.1 h2
    exact (Finset.mem_filter.1 hu).2.1 (Finset.mem_filter.1 h1).2.2
  have hsub : edges P n ∪ ((edges P n).image fun t => t - 1) ⊆ Finset.range n := by
    intro t ht
    rcases Finset.mem_union.1 ht with h | h
    · have := Finset.mem_Ico.1 (Finset.mem_filter.1 h).1
      exact Finset.mem_range.2 (by omega)
    · obtain ⟨u, hu, rfl⟩ := Finset.mem_image.1 h
      have := Finset.mem_Ico.1 (Finset.mem_filter.1 hu).1
      exact Finset.mem_range.2 (by omega)
  have := Finset.card_le_card hsub
  rw [Finset.card_union_of_disjoint hdis, himg, Finset.card_range] at this
  omega

/-- `n` rounded up to an even number. -/
def evenUp (n : ℕ) : ℕ := if n % 2 = 1 then n + 1 else n

theorem cpvCount_tab (n : ℕ) (x : ℕ → R) (P : R → Prop) [DecidablePred P] :
    (cpvCount ((tab n x).map fun v => decide (P v)) : R)
    = 2 * ((edges (fun t => P (x t)) n).card : R) / (evenUp n : R) := by
  unfold cpvCount
  rw [map_tab, map_tab]
  simp only [increments1_incOf, tab_length]
  have h : ((tab n (incOf fun t => if decide (P (x t)) = true then (1 : R) else 0)).filter fun v => decide (v = 1)).length
      = (edges (fun t => P (x t)) n).card := by
    unfold tab
    rw [List.filter_map, List.length_map]
    show ((List.range n).filter fun t => decide (incOf (fun t => if decide (P (x t)) = true then (1 : R) else 0) t = 1)).length = _
    rw [filter_range_card]
    congr 1
    ext t
    simp only [edges, Finset.mem_filter, Finset.mem_range, Finset.mem_Ico, incOf, decide_eq_true_eq]
    constructor
    · rintro ⟨h1, h2⟩
      by_cases h0 : t = 0
      · rw [if_pos h0] at h2; exact absurd h2 zero_ne_one
      rw [if_neg h0] at h2
      refine ⟨by omega, ?_⟩
      by_cases ha : P (x t) <;> by_cases hb : P (x (t - 1)) <;> simp [ha, hb] at h2 ⊢
      exact absurd h2 neg_one_ne_one
    · rintro ⟨h1, h2, h3⟩
      refine ⟨by omega, ?_⟩
      rw [if_neg (by omega), if_pos h3, if_neg h2]; simp
  rw [h]
  rfl

/-- **C68, the part that holds.** CPV returns in column `j` `2/n'` times the number of the strips of values `≥ q_j` that do
not begin at index 0 (`n'` is the length rounded up to an even number), a number in [0,1]. -/
theorem C68_strips_partial (T : FloatText R) (C : Data R) (p : PPV R) (qs : List R) (X : List (List R)) {m n : ℕ}
    (hX : HasShape2 X m n) (hq : p.q = some qs) (hl : qs.length = p.qc.length) (hs : p.segments = false) :
    ∃ Y, (Sieve.cpv p).transformC T C X = .ok Y ∧ HasShape2 Y m qs.length ∧
      ∀ i < m, ∀ j < qs.length,
        at2 Y i j = 2 * ((lateStrips (fun t => qs.getD j 0 ≤ at2 X i t) n).ncard : R) / (evenUp n : R) ∧
        0 ≤ at2 Y i j ∧ at2 Y i j ≤ 1 := by
  have h : (Sieve.cpv p).transformC T C X
      = .ok (tab2 m qs.length fun i j => 2 * ((edges (fun t => qs.getD j 0 ≤ at2 X i t) n).card : R) / (evenUp n : R)) := by
    show p.transform cpvCount X = _
    rw [PPV.transform_eq cpvCount p qs X hX hq hl (by simp [hs])]
    congr 1
    apply tab_congr
    intro i hi
    unfold PPV.row
    rw [if_neg (by simp [hs])]
    conv_lhs => rw [tab_of_list qs 0]
    rw [map_tab]
    apply tab_congr
    intro j hj
    exact cpvCount_tab n (at2 X i) fun v => v ≥ _
  refine ⟨_, h, HasShape2.tab2 _ _ _, fun i hi j hj => ?_⟩
  rw [at2_tab2 hi hj]
  refine ⟨by rw [lateStrips_card], by positivity, ?_⟩
  apply div_le_one_of_le₀ _ (by positivity)
  have h1 := edges_half (fun t => qs.getD j 0 ≤ at2 X i t) n
  have h2 : n ≤ evenUp n := by unfold evenUp; split <;> omega
  exact_mod_cast h1.trans h2

/-- The same with `segments=True`: strips of values in `[q_j, q_{j+1})`. -/
theorem C68_segments_partial (T : FloatText R) (C : Data R) (p : PPV R) (qs : List R) (X : List (List R)) {m n : ℕ}
    (hX : HasShape2 X m n) (hq : p.q = some qs) (hl : qs.length = p.qc.length) (hne : qs ≠ []) (hs : p.segments = true) :
    ∃ Y, (Sieve.cpv p).transformC T C X = .ok Y ∧ HasShape2 Y m (qs.length - 1) ∧
      ∀ i < m, ∀ j < qs.length - 1,
        at2 Y i j = 2 * ((lateStrips (fun t => qs.getD j 0 ≤ at2 X i t ∧ at2 X i t < qs.getD (j + 1) 0) n).ncard : R)
          / (evenUp n : R) ∧
        0 ≤ at2 Y i j ∧ at2 Y i j ≤ 1 := by
  have h : (Sieve.cpv p).transformC T C X
      = .ok (tab2 m (qs.length - 1) fun i j =>
        2 * ((edges (fun t => qs.getD j 0 ≤ at2 X i t ∧ at2 X i t < qs.getD (j + 1) 0) n).card : R) / (evenUp n : R)) := by
    show p.transform cpvCount X = _
    rw [PPV.transform_eq cpvCount p qs X hX hq hl (fun _ => hne)]
    congr 1
    apply tab_congr
    intro i hi
    unfold PPV.row
    rw [if_pos hs]
    apply tab_congr
    intro j hj
    exact cpvCount_tab n (at2 X i) fun v => qs.getD j 0 ≤ v ∧ v < qs.getD (j + 1) 0
  refine ⟨_, h, HasShape2.tab2 _ _ _, fun i hi j hj => ?_⟩
  rw [at2_tab2 hi hj]
  refine ⟨by rw [lateStrips_card], by positivity, ?_⟩
  apply div_le_one_of_le₀ _ (by positivity)
  have h1 := edges_half (fun t => qs.getD j 0 ≤ at2 X i t ∧ at2 X i t < qs.getD (j + 1) 0) n
  have h2 : n ≤ evenUp n := by unfold evenUp; split <;> omega
  exact_mod_cast h1.trans h2

/-- What is missing: the strip of `[5, 0]` above 1 begins at index 0 and is not counted. -/
theorem C68_counterexample :
    ((Sieve.cpv ({ qc := [(1, true)], sampleSize := 1, segments := false, q := some [1] } : PPV ℚ)).transform
      (⟨fun _ => [], fun _ => none⟩ : FloatText ℚ) [[(5 : ℚ), 0]]).toOption = some [[0]] ∧
    IsStrip (fun t => (1 : ℚ) ≤ at2 [[(5 : ℚ), 0]] 0 t) 2 0 1 := by
  refine ⟨by decide +kernel, by norm_num, by norm_num, ?_, Or.inl rfl, Or.inr ?_⟩
  · intro t _ h2
    have : t = 0 := by omega
    subst this
    decide +kernel
  · decide +kernel

/-- Non-vacuity: two strips of `[0, 5, 0, 6]`, `2 / 4 * 2 = 1`. -/
example : ((Sieve.cpv ({ qc := [(1, true)], sampleSize := 1, segments := false, q := some [1] } : PPV ℚ)).transform
      (⟨fun _ => [], fun _ => none⟩ : FloatText ℚ) [[(0 : ℚ), 5, 0, 6]]).toOption = some [[1]] := by
  decide +kernel

/-! ### C69 -/

/-- **C69, `INT`.** `INT(sieve)` fits and evaluates the sieve on the cumulative sums, with the wrapped number of features,
the wrapped need for fitting and the wrapped labels. -/
theorem C69_int (T : FloatText R) (C : Data R) (g : Rng R) (s : Sieve R) (X : List (List R)) (ppvText : Bool → PPV R → PStr)
    (i : ℕ) :
    (Sieve.wrapInt s).transformC T C X = s.transform T (X.map cumsum) ∧
    (Sieve.wrapInt s).fit g X = (s.fit g (X.map cumsum)).map Sieve.wrapInt ∧
    (Sieve.wrapInt s).nfeatures = s.nfeatures ∧ (Sieve.wrapInt s).requiresFitting = s.requiresFitting ∧
    (Sieve.wrapInt s).label T ppvText i = (s.label T ppvText i).map ("INT of ".toList ++ ·) := by
  refine ⟨rfl, ?_, rfl, rfl, ?_⟩
  · simp only [Sieve.fit]
    cases s.fit g (X.map cumsum) <;> rfl
  · simp only [Sieve.label]
    cases s.label T ppvText i <;> rfl

/-- The cumulative sums of rows. -/
theorem cumsum_rows (X : List (List R)) {m n : ℕ} (hX : HasShape2 X m n) :
    X.map cumsum = tab2 m n fun i t => ∑ s ∈ Finset.range (t + 1), at2 X i s := by
  conv_lhs => rw [hX.eq_tab]
  unfold tab2
  rw [map_tab]
  apply tab_congr
  intro i _
  rw [cumsum_tab]

theorem wrapIncData_zero (k : ℤ) (X : List (List R)) : wrapIncData 0 k X = .ok X := rfl

theorem wrapIncData_succ (d : ℕ) (k : ℤ) (X : List (List R)) : wrapIncData (d + 1) k X = X.mapM (increments1 k) := by
  unfold wrapIncData
  have : ∀ (L : List ℕ) (A : List (List R)), L ≠ [] →
      L.foldlM (fun _ _ => X.mapM (increments1 k)) A = X.mapM (increments1 k) := by
    intro L
    induction L with
    | nil => intro A h; exact absurd rfl h
    | cons a L ih =>
      intro A _
      rw [List.foldlM_cons]
      rcases hX : X.mapM (increments1 k) with e | B
      · rfl
      · rw [ok_bind]
        by_cases hL : L = []
        · subst hL; rfl
        · have := ih B hL
          rw [hX] at this
          exact this
  exact this _ _ (by simp)

/-- The `d`-fold increments. -/
def incIter (d : ℕ) (shift : ℤ) (X : List (List R)) : Except Err (List (List R)) :=
  iterM (fun A => A.mapM (increments1 shift)) d X

/-- **C69, `INC`, the part that holds.** For `depth` 0 and 1, `INC(sieve, depth)` fits and evaluates the sieve on the
`depth`-fold increments; the number of features and the labels are the wrapped ones for every depth. -/
theorem C69_inc_partial (T : FloatText R) (C : Data R) (g : Rng R) (s : Sieve R) (d : ℕ) (hd : d ≤ 1) (k : ℤ)
    (X : List (List R)) :
    (Sieve.wrapInc s d k).transformC T C X = (incIter d k X >>= fun Y => s.transform T Y) ∧
    (Sieve.wrapInc s d k).fit g X = (incIter d k X >>= fun Y => (s.fit g Y).map fun s' => .wrapInc s' d k) := by
  have h : wrapIncData d k X = incIter d k X := by
    rcases Nat.lt_or_ge d 1 with h0 | h0
    · have : d = 0 := by omega
      subst this; rfl
    · have : d = 1 := by omega
      subst this
      rw [wrapIncData_succ]
      unfold incIter
      simp only [iterM, bind_pure_comp]
      cases X.mapM (increments1 k) <;> rfl
  constructor
  · simp only [Sieve.transformC, h]; rfl
  · simp only [Sieve.fit, h]
    cases incIter d k X with
    | error e => rfl
    | ok Y =>
      simp only [ok_bind]
      cases s.fit g Y <;> rfl

theorem C69_inc_labels (T : FloatText R) (s : Sieve R) (d : ℕ) (k : ℤ) (ppvText : Bool → PPV R → PStr) (i : ℕ) :
    (Sieve.wrapInc s d k).nfeatures = s.nfeatures ∧ (Sieve.wrapInc s d k).requiresFitting = s.requiresFitting ∧
    (Sieve.wrapInc s d k).label T ppvText i = (s.label T ppvText i).map ("INC of ".toList ++ ·) := by
  refine ⟨rfl, rfl, ?_⟩
  simp only [Sieve.label]
  cases s.label T ppvText i <;> rfl

/-- What is missing: every greater depth gives the result of depth 1. -/
theorem C69_inc_depth (T : FloatText R) (C : Data R) (s : Sieve R) (d : ℕ) (k : ℤ) (X : List (List R)) :
    (Sieve.wrapInc s (d + 1) k).transformC T C X = (Sieve.wrapInc s 1 k).transformC T C X := by
  simp only [Sieve.transformC, wrapIncData_succ]

theorem C69_counterexample :
    ((Sieve.wrapInc (.seg .end_ ({ q := [-1, 1] } : Seg ℚ)) 2 1).transform (⟨fun _ => [], fun _ => none⟩ : FloatText ℚ)
      [[(1 : ℚ), 3, 6]]).toOption = some [[3]] ∧
    (incIter 2 1 [[(1 : ℚ), 3, 6]]).toOption = some [[0, 2, 1]] := by
  decide +kernel

end Fruits
