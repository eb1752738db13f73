import Verif.Props.Sieve6
import Verif.Props.Total4

/-! # C116: the quantiles a segment sieve learns in `fit` -/

namespace Fruits
set_option linter.unusedSectionVars false
open Finset

variable {R : Type} [Field R] [LinearOrder R] [IsStrictOrderedRing R] [FloorRing R]

/-! ### Specification -/

/-- `c` is the linearly interpolated `q`-quantile of the values `x` (at least one): between the sorted values with the numbers
`k` and `k+1`, where `k + g = q·(N-1)`, at the fraction `g`. -/
def IsLinQuantile (x : List R) (q c : R) : Prop :=
  ∃ a : List R, a.Perm x ∧ a.Pairwise (· ≤ ·) ∧ ∃ (k : ℕ) (g : R), (k : R) + g = q * ((x.length : R) - 1) ∧ 0 ≤ g ∧ g < 1 ∧
    ∃ u w, a[k]? = some u ∧ a[min (k + 1) (x.length - 1)]? = some w ∧ c = (1 - g) * u + g * w

/-- What the entry `q` of the argument `q` stands for after a fit on the values `x`: `-1` for minus infinity, `1` for plus
infinity, `0` for the number zero, everything else for a quantile of `x`. -/
def IsLearned (x : List R) (q : R) (v : QVal R) : Prop :=
  (q = -1 ∧ v = ⊥) ∨ (q = 1 ∧ v = ⊤) ∨ (q = 0 ∧ v = QVal.of 0) ∨
    (q ≠ -1 ∧ q ≠ 1 ∧ q ≠ 0 ∧ ∃ c, v = QVal.of c ∧ IsLinQuantile x q c)

/-- All values `f i t` of `m` series of length `n`. -/
def allValues (m n : ℕ) (f : ℕ → ℕ → R) : List R := (List.range m).flatMap fun i => (List.range n).map (f i)

/-! ### Proofs -/

theorem quantile_lin (x : List R) (hx : x ≠ []) (q : R) (hq : 0 ≤ q ∧ q ≤ 1) :
    ∃ c, quantile x q = .ok c ∧ IsLinQuantile x q c ∧ IsQuantile x q c := by
  obtain ⟨c, h1, h2⟩ := (quantile_spec x hx q).1 hq
  refine ⟨c, h1, ?_, h2⟩
  have hlen : (x.insertionSort (· ≤ ·)).length = x.length := (List.perm_insertionSort _ _).length_eq
  have hpos : 0 < x.length := List.length_pos_iff.2 hx
  unfold quantile at h1
  rw [if_pos hq] at h1
  dsimp only at h1
  rw [hlen] at h1
  set v : R := q * ((x.length : R) - 1) with hv
  have hN : (1 : R) ≤ (x.length : R) := by exact_mod_cast hpos
  have hv0 : 0 ≤ v := mul_nonneg hq.1 (by linarith)
  have hfl0 : 0 ≤ ⌊v⌋ := Int.floor_nonneg.2 hv0
  have hk : ((⌊v⌋.toNat : ℕ) : R) = (⌊v⌋ : R) := by
    have : ((⌊v⌋.toNat : ℕ) : ℤ) = ⌊v⌋ := Int.toNat_of_nonneg hfl0
    exact_mod_cast congrArg (fun z : ℤ => (z : R)) this
  rcases hu : (x.insertionSort (· ≤ ·))[⌊v⌋.toNat]? with _ | u
  · rw [hu] at h1; cases h1
  rw [hu] at h1
  refine ⟨x.insertionSort (· ≤ ·), List.perm_insertionSort _ _, List.pairwise_insertionSort _ _, ⌊v⌋.toNat, v - (⌊v⌋ : R), ?_,
    sub_nonneg.2 (Int.floor_le v), by have := Int.lt_floor_add_one v; linarith, u, _, hu,
    List.getElem?_eq_getElem (by rw [hlen]; omega), ?_⟩
  · rw [hk]; ring
  · have h3 := Except.ok.inj h1
    rw [getD_getElem (by rw [hlen]; omega)] at h3
    rw [← h3]; ring

theorem quantileValue_learned (x : List R) (hx : x ≠ []) (q : R) (hq : q = -1 ∨ 0 ≤ q ∧ q ≤ 1) :
    ∃ v, quantileValue x q = .ok v ∧ IsLearned x q v := by
  unfold quantileValue
  by_cases h1 : q = 1
  · exact ⟨⊤, by rw [if_pos h1], Or.inr (Or.inl ⟨h1, rfl⟩)⟩
  rw [if_neg h1]
  by_cases h2 : q = -1
  · exact ⟨⊥, by rw [if_pos h2], Or.inl ⟨h2, rfl⟩⟩
  rw [if_neg h2]
  by_cases h3 : q = 0
  · exact ⟨QVal.of 0, by rw [if_neg (by simpa using h3)], Or.inr (Or.inr (Or.inl ⟨h3, rfl⟩))⟩
  rw [if_pos h3]
  obtain ⟨c, h4, h5, -⟩ := quantile_lin x hx q (hq.resolve_left h2)
  exact ⟨QVal.of c, by rw [h4]; rfl, Or.inr (Or.inr (Or.inr ⟨h2, h1, h3, c, rfl, h5⟩))⟩

theorem Seg.fit_learned (p : Seg R) (X : List (List R)) (hX : X.flatten ≠ []) (hq : ∀ q ∈ p.q, q = -1 ∨ 0 ≤ q ∧ q ≤ 1) :
    ∃ qs vs, p.fit X = .ok { p with quantiles := some qs } ∧ qs.Pairwise (· ≤ ·) ∧ qs.Perm vs ∧
      List.Forall₂ (IsLearned X.flatten) p.q vs := by
  obtain ⟨vs, h1, h2⟩ := mapM_total (l := p.q) (f := quantileValue X.flatten) (Q := IsLearned X.flatten)
    fun q h => quantileValue_learned _ hX q (hq q h)
  refine ⟨vs.insertionSort (· ≤ ·), vs, ?_, List.pairwise_insertionSort _ _, List.perm_insertionSort _ _, h2⟩
  unfold Seg.fit
  rw [h1]; rfl

theorem flatten_tab2 (m n : ℕ) (f : ℕ → ℕ → R) : (tab2 m n f).flatten = allValues m n f := by
  unfold allValues
  rw [List.flatMap_def]
  rfl

/-- **C116, values.** Fitting `MAX`, `MIN`, `END`, `CUR`, `AVG` or `STD` on a non-empty array succeeds if every entry of `q` is
`-1` or in `[0, 1]`. The quantiles used by a later `transform` are then sorted and are, up to the order, what the entries of
`q` stand for with respect to all the values of the training series. -/
theorem C116_fit (g : Rng R) (kind : SegKind) (p : Seg R) (X : List (List R)) {m n : ℕ} (hX : HasShape2 X m n) (hm : 0 < m)
    (hn : 0 < n) (hq : ∀ q ∈ p.q, q = -1 ∨ 0 ≤ q ∧ q ≤ 1) :
    ∃ qs vs, (Sieve.seg kind p).fit g X = .ok (.seg kind { p with quantiles := some qs }) ∧ qs.Pairwise (· ≤ ·) ∧ qs.Perm vs ∧
      List.Forall₂ (IsLearned (allValues m n (at2 X))) p.q vs := by
  obtain ⟨qs, vs, h1, h2⟩ := p.fit_learned X (flatten_ne_nil hX hm hn) hq
  have e : X.flatten = allValues m n (at2 X) := by
    conv_lhs => rw [hX.eq_tab]
    exact flatten_tab2 m n _
  rw [e] at h2
  refine ⟨qs, vs, ?_, h2⟩
  simp only [Sieve.fit]
  rw [h1]; rfl

/-- **C116, values, increment sieves.** The same for `NPI`, `MPI`, `XPI` and `LPI`, but the quantiles are those of the
`inc`-fold increments (sums, if negative) of the training series. -/
theorem C116_fit_increments (g : Rng R) (kind : IncKind) (inc : ℤ) (p : Seg R) (X : List (List R)) {m n : ℕ}
    (hX : HasShape2 X m n) (hm : 0 < m) (hn : 0 < n) (hq : ∀ q ∈ p.q, q = -1 ∨ 0 ≤ q ∧ q ≤ 1) :
    ∃ qs vs, (Sieve.inc kind inc p).fit g X = .ok (.inc kind inc { p with quantiles := some qs }) ∧ qs.Pairwise (· ≤ ·) ∧
      qs.Perm vs ∧ List.Forall₂ (IsLearned (allValues m n fun i => viewOf inc (at2 X i))) p.q vs := by
  obtain ⟨qs, vs, h1, h2⟩ := p.fit_learned (tab2 m n fun i => viewOf inc (at2 X i))
    (flatten_ne_nil (HasShape2.tab2 _ _ _) hm hn) hq
  rw [flatten_tab2] at h2
  refine ⟨qs, vs, ?_, h2⟩
  simp only [Sieve.fit, Seg.incFit]
  rw [preTransform_eq inc X hX, ok_bind, h1]; rfl

/-- **C116, use.** A sieve with a data-dependent quantile uses the learned ones. -/
theorem C116_use (p : Seg R) (qs : List (QVal R)) (hq : ∃ q ∈ p.q, q ≠ -1 ∧ q ≠ 0 ∧ q ≠ 1) :
    ({ p with quantiles := some qs } : Seg R).useQuantiles = .ok qs := by
  obtain ⟨q, h1, h2⟩ := hq
  unfold Seg.useQuantiles
  have : ({ p with quantiles := some qs } : Seg R).requiresFitting = true := by
    unfold Seg.requiresFitting
    rw [List.any_eq_true]
    exact ⟨q, h1, by simpa using h2⟩
  rw [if_pos this]

/-- For values outside of `[-1] ∪ [0,1]` the fit raises. -/
theorem C116_invalid (g : Rng R) (kind : SegKind) (p : Seg R) (X : List (List R)) (hX : X.flatten ≠ [])
    (hq : ∃ q ∈ p.q, q ≠ -1 ∧ ¬ (0 ≤ q ∧ q ≤ 1)) : ∀ s, (Sieve.seg kind p).fit g X ≠ .ok s := by
  obtain ⟨q, h1, h2, h3⟩ := hq
  intro s h
  simp only [Sieve.fit, Seg.fit] at h
  rcases hv : p.q.mapM (quantileValue X.flatten) with e | vs
  · rw [hv] at h; cases h
  rw [mapM_ok_iff] at hv
  obtain ⟨i, hi, rfl⟩ := List.getElem_of_mem h1
  have := (List.forall₂_iff_get.1 hv).2 i hi (by rw [← hv.length_eq]; exact hi)
  simp only [List.get_eq_getElem] at this
  unfold quantileValue at this
  have hne1 : p.q[i] ≠ 1 := fun h => h3 (by rw [h]; exact ⟨zero_le_one, le_rfl⟩)
  have hne0 : p.q[i] ≠ 0 := fun h => h3 (by rw [h]; exact ⟨le_rfl, zero_le_one⟩)
  rw [if_neg hne1, if_neg h2, if_pos hne0, (quantile_spec _ hX _).2 h3] at this
  cases this

/-! ### A consequence: balanced bands on the training data -/

theorem filter_allValues (m n : ℕ) (f : ℕ → ℕ → R) (P : R → Bool) :
    ((allValues m n f).filter P).length = ∑ i ∈ Finset.range m, {t ∈ Finset.range n | P (f i t)}.card := by
  induction m with
  | zero => simp [allValues]
  | succ m ih =>
    have e : allValues (m + 1) n f = allValues m n f ++ (List.range n).map (f m) := by
      unfold allValues
      rw [List.range_succ, List.flatMap_append]
      simp
    rw [e, List.filter_append, List.length_append, ih, Finset.sum_range_succ]
    congr 1
    rw [List.filter_map, List.length_map]
    show _ = (Multiset.filter _ (Multiset.range n)).card
    rw [← Multiset.coe_range, Multiset.filter_coe, Multiset.coe_card]
    congr 2
    ext t
    simp

theorem length_allValues (m n : ℕ) (f : ℕ → ℕ → R) : (allValues m n f).length = m * n := by
  unfold allValues
  simp

/-- **C116, balance.** `NPI(q=[-1, a, 1], inc=i)` with `0 < a < 1`, fitted and applied to the same `m` series of length `n`:
summed over the series, the first feature is at least `⌊a·(mn-1)⌋ + 1` and the second is the rest of the `mn` values. -/
theorem C116_balance (T : FloatText R) (hT : T.Lawful) (g : Rng R) (C : Data R) (nm : Norm) (inc : ℤ) (a : R) (ha : 0 < a)
    (ha1 : a < 1) (X : List (List R)) {m dc n : ℕ} (hX : HasShape2 X m n) (hC : HasShape C m dc n) (hm : 0 < m) (hdc : 0 < dc)
    (hn : 0 < n) :
    ∃ s Y, (Sieve.inc .npi inc ({ cut := [.int (-1)], q := [-1, a, 1], norm := nm } : Seg R)).fit g X = .ok s ∧
      s.transformC T C X = .ok Y ∧ HasShape2 Y m 2 ∧
      ((⌊a * ((m * n : ℕ) - 1 : R)⌋.toNat + 1 : ℕ) : R) ≤ ∑ i ∈ Finset.range m, at2 Y i 0 ∧
      ∑ i ∈ Finset.range m, (at2 Y i 0 + at2 Y i 1) = ((m * n : ℕ) : R) := by
  set p : Seg R := { cut := [.int (-1)], q := [-1, a, 1], norm := nm } with hp
  set f : ℕ → ℕ → R := fun i => viewOf inc (at2 X i) with hf
  have hne : allValues m n f ≠ [] := by
    intro h
    have := congrArg List.length h
    rw [length_allValues] at this
    exact (Nat.mul_pos hm hn).ne' this
  obtain ⟨c, hc1, -, hc2⟩ := quantile_lin (allValues m n f) hne a ⟨ha.le, ha1.le⟩
  have h1 : (a : R) ≠ -1 := by linarith
  have hv : ∀ q ∈ p.q, quantileValue (tab2 m n f).flatten q
      = .ok ((fun q => if q = 1 then (⊤ : QVal R) else if q = -1 then ⊥ else QVal.of c) q) := by
    have h11 : (-1 : R) ≠ 1 := by linarith [zero_lt_one (α := R)]
    intro q hq
    rw [flatten_tab2]
    simp only [hp, List.mem_cons, List.not_mem_nil, or_false] at hq
    unfold quantileValue
    rcases hq with rfl | rfl | rfl
    · simp [h11]
    · simp [ha1.ne, h1, ha.ne', hc1]
    · simp
  have hfit : (Sieve.inc .npi inc p).fit g X = .ok (.inc .npi inc { p with quantiles := some [⊥, QVal.of c, ⊤] }) := by
    have h11 : (-1 : R) ≠ 1 := by linarith [zero_lt_one (α := R)]
    simp only [Sieve.fit, Seg.incFit]
    rw [preTransform_eq inc X hX, ok_bind]
    unfold Seg.fit
    rw [mapM_ok_map hv]
    simp only [hp, List.map_cons, List.map_nil, if_neg h11, if_neg ha1.ne, if_neg h1, if_true]
    show Except.ok _ = Except.ok _
    congr 4
  have huse := C116_use p [⊥, QVal.of c, ⊤] ⟨a, by simp [hp], h1, ha.ne', ha1.ne⟩
  obtain ⟨Y, hY1, hY2, hY3⟩ := C64_counts T hT C { p with quantiles := some [⊥, QVal.of c, ⊤] } inc X [⊥, QVal.of c, ⊤] hX hC
    hm hdc hn (by simp [hp, Cut.InRange]) huse (by simp)
  have hb : ∀ i, bounds C ({ p with quantiles := some [⊥, QVal.of c, ⊤] } : Seg R) n i = [0, n] := by
    intro i
    rw [bounds_eq_cons]
    simp [cutPos, hp]
  have e0 : ∀ i < m, at2 Y i 0 = (({t ∈ Finset.range n | decide (f i t ≤ c)}.card : ℕ) : R) := by
    intro i hi
    have h := hY3 i hi 0 (by simp [hp]) 0 (by simp)
    simp only [List.length_cons, List.length_nil, Nat.zero_mul, Nat.zero_add] at h
    rw [h, hb]
    congr 2
    ext t
    simp [hits, InBand, QVal.of, hf]
  have e1 : ∀ i < m, at2 Y i 1 = (({t ∈ Finset.range n | ¬ f i t ≤ c}.card : ℕ) : R) := by
    intro i hi
    have h := hY3 i hi 0 (by simp [hp]) 1 (by simp)
    simp only [List.length_cons, List.length_nil, Nat.zero_mul, Nat.zero_add] at h
    rw [h, hb]
    congr 2
    ext t
    simp [hits, InBand, QVal.of, hf]
  refine ⟨_, Y, hfit, hY1, by simpa [hp] using hY2, ?_, ?_⟩
  · have h := hc2.1
    rw [filter_allValues, length_allValues] at h
    rw [Finset.sum_congr rfl fun i hi => e0 i (Finset.mem_range.1 hi), ← Nat.cast_sum]
    exact_mod_cast h
  · rw [Finset.sum_congr rfl fun i hi => by rw [e0 i (Finset.mem_range.1 hi), e1 i (Finset.mem_range.1 hi)]]
    have : ∀ i, (({t ∈ Finset.range n | decide (f i t ≤ c)}.card : ℕ) : R) + (({t ∈ Finset.range n | ¬ f i t ≤ c}.card : ℕ) : R) = (n : R) := by
      intro i
      simp only [decide_eq_true_eq]
      rw [← Nat.cast_add, Finset.card_filter_add_card_filter_not, Finset.card_range]
    simp only [this]
    simp

/-- Non-vacuity: the median of `1, 2, 3, 10` is `5/2`; three of the training values of two series. -/
example : ((Sieve.seg .avg ({ q := [-1, 1/2, 1] } : Seg ℚ)).fit ⟨fun _ _ _ => 0, fun _ _ _ => [], fun _ _ _ => 0, fun _ _ _ => 0, fun _ _ => 0, id⟩
    [[1, 10], [3, 2]]).toOption.map (fun s => match s with | .seg _ p => p.quantiles | _ => none)
      = some (some [⊥, QVal.of (5/2), ⊤]) := by decide +kernel
end Fruits
