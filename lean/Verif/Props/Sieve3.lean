import Verif.Props.Sieve2

/-! # C64 – C66: NPI, LPI, MPI and XPI -/

namespace Fruits
set_option linter.unusedSectionVars false
open Finset

variable {R : Type} [Field R] [LinearOrder R] [IsStrictOrderedRing R] [FloorRing R]

/-! ### Lemmas -/

theorem iterM_tab2 (m n : ℕ) (f : List R → Except Err (List R)) (F : (ℕ → R) → ℕ → R)
    (hf : ∀ x, f (tab n x) = .ok (tab n (F x))) (k : ℕ) (G : ℕ → ℕ → R) :
    iterM (fun A => A.mapM f) k (tab2 m n G) = .ok (tab2 m n fun i => F^[k] (G i)) := by
  induction k generalizing G with
  | zero => rfl
  | succ k ih =>
    have h : (tab2 m n G).mapM f = .ok (tab2 m n fun i => F (G i)) := mapM_ok_tab fun i _ => hf (G i)
    simp only [iterM]
    rw [h, ok_bind, ih]
    rfl

theorem preTransform_eq (inc : ℤ) (X : List (List R)) {m n : ℕ} (hX : HasShape2 X m n) :
    preTransform inc X = .ok (tab2 m n fun i => viewOf inc (at2 X i)) := by
  have hT := hX.eq_tab
  unfold preTransform viewOf
  rcases lt_trichotomy inc 0 with h | h | h
  · rw [if_neg (by omega), if_pos h]
    simp only [if_neg (show ¬ 0 ≤ inc by omega)]
    conv_lhs => rw [hT]
    have := iterM_tab2 m n (fun x : List R => (.ok (cumsum x) : Except Err (List R))) sumOf
      (fun x => by rw [cumsum_tab]; rfl) (-inc).toNat (at2 X)
    rw [← this]
    congr 1
    funext A
    exact (mapM_ok_map fun x _ => rfl).symm
  · subst h
    rw [if_neg (by omega), if_neg (by omega)]
    simp only [le_refl, if_true, Int.toNat_zero, Function.iterate_zero, id]
    congr 1
  · rw [if_pos h]
    simp only [if_pos (show 0 ≤ inc by omega)]
    conv_lhs => rw [hT]
    exact iterM_tab2 m n (increments1 1) incOf (increments1_incOf n) inc.toNat (at2 X)

/-- The common part of all increment sieves. -/
theorem inc_exists (T : FloatText R) (hT : T.Lawful) (C : Data R) (p : Seg R) (kind : IncKind) (inc : ℤ)
    (X : List (List R)) (qs : List (QVal R)) {m dc n : ℕ} (hX : HasShape2 X m n) (hC : HasShape C m dc n)
    (hm : 0 < m) (hdc : 0 < dc) (hn : 0 < n) (hp : ∀ c ∈ p.cut, c.InRange n) (hqs : p.useQuantiles = .ok qs) (hq : qs ≠ [])
    (Q : ℕ → ℕ → ℕ → R → Prop)
    (hop : ∀ i < m, ∀ j < p.cut.length, ∀ k < qs.length - 1, ∃ v,
      kind.op (tab n (viewOf inc (at2 X i))) ((bounds C p n i).getD j 0 : ℕ) ((bounds C p n i).getD (j + 1) 0 : ℕ)
        (qs.getD k ⊥) (qs.getD (k + 1) ⊥) = .ok v ∧ Q i j k v) :
    ∃ Y, (Sieve.inc kind inc p).transformC T C X = .ok Y ∧
      HasShape2 Y m (p.cut.length * (qs.length - 1)) ∧
      ∀ i < m, ∀ j < p.cut.length, ∀ k < qs.length - 1, Q i j k (at2 Y i (j * (qs.length - 1) + k)) := by
  simp only [Sieve.transformC, Seg.incTransform]
  rw [hqs, ok_bind, preTransform_eq inc X hX, ok_bind]
  refine seg_exists T hT C p kind.op (tab2 m n fun i => viewOf inc (at2 X i)) qs (HasShape2.tab2 _ _ _) hC hm hdc hn hp hq Q ?_
  intro i hi j hj k hk
  have e : tab n (at2 (tab2 m n fun i => viewOf inc (at2 X i)) i) = tab n (viewOf inc (at2 X i)) :=
    tab_congr fun t ht => at2_tab2 hi ht
  rw [e]
  exact hop i hi j hj k hk

/-! ### C64 -/

/-- **C64, counts.** Column `j * K + k` of `NPI` is the number of time points of segment `j` at which the view (the `inc`-fold
increments, or sums) lies in band `k`. -/
theorem C64_counts (T : FloatText R) (hT : T.Lawful) (C : Data R) (p : Seg R) (inc : ℤ) (X : List (List R))
    (qs : List (QVal R)) {m dc n : ℕ} (hX : HasShape2 X m n) (hC : HasShape C m dc n) (hm : 0 < m) (hdc : 0 < dc)
    (hn : 0 < n) (hp : ∀ c ∈ p.cut, c.InRange n) (hqs : p.useQuantiles = .ok qs) (hq : qs ≠ []) :
    ∃ Y, (Sieve.inc .npi inc p).transformC T C X = .ok Y ∧ HasShape2 Y m (p.cut.length * (qs.length - 1)) ∧
      ∀ i < m, ∀ j < p.cut.length, ∀ k < qs.length - 1, at2 Y i (j * (qs.length - 1) + k)
        = ((hits (bounds C p n i) j (qs.getD k ⊥) (qs.getD (k + 1) ⊥) (viewOf inc (at2 X i))).card : R) := by
  refine inc_exists T hT C p .npi inc X qs hX hC hm hdc hn hp hqs hq
    (fun i j k v => v = ((hits (bounds C p n i) j (qs.getD k ⊥) (qs.getD (k + 1) ⊥) (viewOf inc (at2 X i))).card : R)) ?_
  intro i hi j hj k hk
  refine ⟨_, rfl, ?_⟩
  rw [band_length n _ j (bounds_le C p n i hp _)]

theorem hits_chain (b : List ℕ) (j : ℕ) (x : ℕ → R) (q : ℕ → QVal R) (hq : ∀ k, q k ≤ q (k + 1)) (K : ℕ) :
    ∑ k ∈ Finset.range K, (hits b j (q k) (q (k + 1)) x).card = (hits b j (q 0) (q K) x).card := by
  induction K with
  | zero =>
    simp only [Finset.sum_range_zero]
    symm
    rw [Finset.card_eq_zero]
    unfold hits
    rw [Finset.filter_eq_empty_iff]
    rintro t _ ⟨h1, h2⟩
    exact absurd (lt_of_lt_of_le h1 h2) (lt_irrefl _)
  | succ K ih =>
    have hmono : Monotone q := monotone_nat_of_le_succ hq
    rw [Finset.sum_range_succ, ih, ← Finset.card_union_of_disjoint]
    · congr 1
      unfold hits
      rw [← Finset.filter_or]
      apply Finset.filter_congr
      intro t _
      unfold InBand
      constructor
      · rintro (⟨h1, h2⟩ | ⟨h1, h2⟩)
        · exact ⟨h1, h2.trans (hq K)⟩
        · exact ⟨lt_of_le_of_lt (hmono (Nat.zero_le K)) h1, h2⟩
      · rintro ⟨h1, h2⟩
        rcases le_or_gt (QVal.of (x t)) (q K) with h | h
        · exact Or.inl ⟨h1, h⟩
        · exact Or.inr ⟨h, h2⟩
    · rw [Finset.disjoint_left]
      intro t h1 h2
      have h1 := (Finset.mem_filter.1 h1).2
      have h2 := (Finset.mem_filter.1 h2).2
      exact absurd (lt_of_lt_of_le h2.1 h1.2) (lt_irrefl _)

/-- **C64, bins.** If the quantile values increase from `-inf` to `inf`, then the counts of the bins of every segment add up
to the length of the segment. -/
theorem C64_bins (T : FloatText R) (hT : T.Lawful) (C : Data R) (p : Seg R) (inc : ℤ) (X : List (List R))
    (qs : List (QVal R)) {m dc n : ℕ} (hX : HasShape2 X m n) (hC : HasShape C m dc n) (hm : 0 < m) (hdc : 0 < dc)
    (hn : 0 < n) (hp : ∀ c ∈ p.cut, c.InRange n) (hqs : p.useQuantiles = .ok qs) (hsort : qs.Pairwise (· ≤ ·))
    (hfirst : qs.head? = some ⊥) (hlast : qs.getLast? = some ⊤) :
    ∃ Y, (Sieve.inc .npi inc p).transformC T C X = .ok Y ∧ HasShape2 Y m (p.cut.length * (qs.length - 1)) ∧
      ∀ i < m, ∀ j < p.cut.length, ∑ k ∈ Finset.range (qs.length - 1), at2 Y i (j * (qs.length - 1) + k)
        = (((bounds C p n i).getD (j + 1) 0 - (bounds C p n i).getD j 0 : ℕ) : R) := by
  have hq : qs ≠ [] := by rintro rfl; simp at hfirst
  have hl : 0 < qs.length := List.length_pos_of_ne_nil hq
  obtain ⟨Y, h1, h2, h3⟩ := C64_counts T hT C p inc X qs hX hC hm hdc hn hp hqs hq
  refine ⟨Y, h1, h2, fun i hi j hj => ?_⟩
  have h4 : ∀ k ∈ Finset.range (qs.length - 1), at2 Y i (j * (qs.length - 1) + k)
      = (((hits (bounds C p n i) j (qs.getD (min k (qs.length - 1)) ⊥) (qs.getD (min (k + 1) (qs.length - 1)) ⊥)
        (viewOf inc (at2 X i))).card : ℕ) : R) := by
    intro k hk
    have := Finset.mem_range.1 hk
    rw [h3 i hi j hj k this, min_eq_left (by omega), min_eq_left (by omega)]
  rw [Finset.sum_congr rfl h4, ← Nat.cast_sum, hits_chain (q := fun k => qs.getD (min k (qs.length - 1)) ⊥)]
  · have e0 : qs.getD (min 0 (qs.length - 1)) ⊥ = ⊥ := by
      cases qs with
      | nil => simp at hl
      | cons a l => simp at hfirst; simp [hfirst]
    have e1 : qs.getD (min (qs.length - 1) (qs.length - 1)) ⊥ = ⊤ := by
      rw [min_self, List.getD_eq_getElem?_getD, ← List.getLast?_eq_getElem?, hlast]; rfl
    beta_reduce
    rw [e0, e1, hits_all, Nat.card_Ico]
  · intro k
    beta_reduce
    rw [getD_getElem (by omega), getD_getElem (by omega)]
    rcases Nat.lt_or_ge (min k (qs.length - 1)) (min (k + 1) (qs.length - 1)) with h | h
    · exact List.pairwise_iff_getElem.1 hsort _ _ (by omega) (by omega) h
    · have : min k (qs.length - 1) = min (k + 1) (qs.length - 1) := by omega
      simp only [this, le_refl]

theorem useQuantiles_01 (p : Seg R) (hq : p.q = [0, 1]) : p.useQuantiles = .ok [QVal.of 0, ⊤] := by
  unfold Seg.useQuantiles
  have h1 : p.requiresFitting = false := by simp [Seg.requiresFitting, hq]
  rw [h1]
  simp [Seg.unfittedQuantiles, hq, unfittedValue]

/-- **C64, `NPI()`.** The default `NPI()` returns one column: the number of the time points `t ≥ 1` with `x_t > x_{t-1}`. -/
theorem C64_default (T : FloatText R) (hT : T.Lawful) (C : Data R) (nm : Norm) (X : List (List R)) {m dc n : ℕ}
    (hX : HasShape2 X m n) (hC : HasShape C m dc n) (hm : 0 < m) (hdc : 0 < dc) (hn : 0 < n) :
    ∃ Y, (Sieve.inc .npi 1 ({ cut := [.int (-1)], q := [0, 1], norm := nm } : Seg R)).transformC T C X = .ok Y ∧ HasShape2 Y m 1 ∧
      ∀ i < m, at2 Y i 0 = (({t ∈ Finset.Ico 1 n | at2 X i (t - 1) < at2 X i t}.card : ℕ) : R) := by
  obtain ⟨Y, h1, h2, h3⟩ := C64_counts T hT C { cut := [.int (-1)], q := [0, 1], norm := nm } 1 X _ hX hC hm hdc hn
    (by simp [Cut.InRange]) (useQuantiles_01 _ rfl) (by simp)
  refine ⟨Y, h1, h2, fun i hi => ?_⟩
  have h := h3 i hi 0 (by simp) 0 (by simp)
  simp only [Nat.zero_mul, Nat.zero_add] at h
  rw [h]
  congr 2
  have hb : bounds C { cut := [.int (-1)], q := [0, 1], norm := nm } n i = [0, n] := by
    rw [bounds_eq_cons]
    simp [cutPos]
  ext t
  rw [hb]
  simp only [hits, List.getD_cons_zero, List.getD_cons_succ, Finset.mem_filter, Finset.mem_Ico, InBand, le_top, and_true]
  have hv : viewOf 1 (at2 X i) t = incOf (at2 X i) t := rfl
  rw [hv]
  have hlt : (QVal.of (0 : R) < QVal.of (incOf (at2 X i) t)) ↔ 0 < incOf (at2 X i) t := by
    unfold QVal.of
    rw [WithBot.coe_lt_coe, WithTop.coe_lt_coe]
  rw [hlt]
  unfold incOf
  constructor
  · rintro ⟨⟨_, h1⟩, h2⟩
    by_cases h0 : t = 0
    · rw [if_pos h0] at h2; exact absurd h2 (lt_irrefl _)
    · rw [if_neg h0] at h2
      exact ⟨⟨by omega, h1⟩, by linarith⟩
  · rintro ⟨⟨h0, h1⟩, h2⟩
    rw [if_neg (by omega)]
    exact ⟨⟨by omega, h1⟩, by linarith⟩

/-- Non-vacuity: `NPI(cut=[2,-1], q=(-1,0,1))` of `[1,3,2,5]`, two increasing steps and one decreasing. -/
example : ((Sieve.inc .npi 1 ({ cut := [.int 2, .int (-1)], q := [-1, 0, 1] } : Seg ℚ)).transform
    (⟨fun _ => [], fun _ => none⟩ : FloatText ℚ) [[(1 : ℚ), 3, 2, 5]]).toOption = some [[1, 1, 1, 1]] := by
  decide +kernel

example (p : Seg ℚ) (hq : p.q = [-1, 0, 1]) : p.useQuantiles = .ok [⊥, QVal.of 0, ⊤] ∧
    ([⊥, QVal.of 0, ⊤] : List (QVal ℚ)).Pairwise (· ≤ ·) := by
  constructor
  · unfold Seg.useQuantiles
    rw [show p.requiresFitting = false by simp [Seg.requiresFitting, hq]]
    simp [Seg.unfittedQuantiles, hq, unfittedValue]
    rfl
  · simp

/-! ### C65 -/

/-- `l` is the length of a run: `l` consecutive indices in `[a, b)` at all of which `P` holds. -/
def IsRun (P : ℕ → Prop) (a b l : ℕ) : Prop := ∃ s, a ≤ s ∧ s + l ≤ b ∧ ∀ t, s ≤ t → t < s + l → P t

/-- The loop of LPI. After `c` steps `longest` is the longest run so far and `current` the run that ends here. -/
theorem longestRun_spec (P : ℕ → Prop) [DecidablePred P] (a b : ℕ) : ∀ (k c longest current : ℕ), c + k = b → a ≤ c →
    current ≤ c - a → (∀ t, c - current ≤ t → t < c → P t) → (c - current = a ∨ ¬ P (c - current - 1)) →
    (IsRun P a c longest) → (∀ l, IsRun P a c l → l ≤ longest) →
    IsGreatest {l | IsRun P a b l} (longestRun ((List.range' c k).map fun t => decide (P t)) longest current) := by
  intro k
  induction k with
  | zero =>
    intro c longest current hc _ _ _ _ h1 h2
    have : c = b := by omega
    subst this
    exact ⟨h1, h2⟩
  | succ k ih =>
    intro c longest current hc hac hcur hP hstop h1 h2
    rw [List.range'_succ, List.map_cons]
    by_cases hp : P c
    · rw [decide_eq_true hp]
      unfold longestRun
      refine ih (c + 1) _ _ (by omega) (by omega) (by omega) ?_ ?_ ?_ ?_
      · intro t ht1 ht2
        rcases Nat.lt_or_ge t c with h | h
        · exact hP t (by omega) h
        · have : t = c := by omega
          subst this; exact hp
      · have e : c + 1 - (current + 1) = c - current := by omega
        rw [e]; exact hstop
      · split
        · refine ⟨c - current, by omega, by omega, fun t h3 h4 => ?_⟩
          rcases Nat.lt_or_ge t c with h | h
          · exact hP t (by omega) h
          · have : t = c := by omega
            subst this; exact hp
        · obtain ⟨s, hs1, hs2, hs3⟩ := h1
          exact ⟨s, hs1, by omega, hs3⟩
      · rintro l ⟨s, hs1, hs2, hs3⟩
        rcases Nat.lt_or_ge (s + l) (c + 1) with h | h
        · have := h2 l ⟨s, hs1, by omega, hs3⟩
          split <;> omega
        · -- the run ends at `c`, so it lies in the current run
          have hle : l ≤ current + 1 := by
            by_contra hcon
            rcases hstop with h0 | h0
            · omega
            · exact h0 (hs3 _ (by omega) (by omega))
          split <;> omega
    · rw [decide_eq_false hp]
      unfold longestRun
      refine ih (c + 1) _ _ (by omega) (by omega) (by omega) ?_ ?_ ?_ ?_
      · intro t ht1 ht2; omega
      · right
        rw [show c + 1 - 0 - 1 = c by omega]; exact hp
      · obtain ⟨s, hs1, hs2, hs3⟩ := h1
        exact ⟨s, hs1, by omega, hs3⟩
      · rintro l ⟨s, hs1, hs2, hs3⟩
        rcases Nat.lt_or_ge (s + l) (c + 1) with h | h
        · exact h2 l ⟨s, hs1, by omega, hs3⟩
        · rcases Nat.eq_zero_or_pos l with h0 | h0
          · omega
          · exact absurd (hs3 c (by omega) (by omega)) hp

/-- **C65.** Column `j * K + k` of `LPI` is the greatest length of a run of consecutive time points of segment `j` at which
the view lies in band `k`. -/
theorem C65 (T : FloatText R) (hT : T.Lawful) (C : Data R) (p : Seg R) (inc : ℤ) (X : List (List R))
    (qs : List (QVal R)) {m dc n : ℕ} (hX : HasShape2 X m n) (hC : HasShape C m dc n) (hm : 0 < m) (hdc : 0 < dc)
    (hn : 0 < n) (hp : ∀ c ∈ p.cut, c.InRange n) (hqs : p.useQuantiles = .ok qs) (hq : qs ≠ []) :
    ∃ Y, (Sieve.inc .lpi inc p).transformC T C X = .ok Y ∧ HasShape2 Y m (p.cut.length * (qs.length - 1)) ∧
      ∀ i < m, ∀ j < p.cut.length, ∀ k < qs.length - 1, ∃ l : ℕ, at2 Y i (j * (qs.length - 1) + k) = l ∧
        IsGreatest {l | IsRun (fun t => InBand (qs.getD k ⊥) (qs.getD (k + 1) ⊥) (viewOf inc (at2 X i) t))
          ((bounds C p n i).getD j 0) ((bounds C p n i).getD (j + 1) 0) l} l := by
  refine inc_exists T hT C p .lpi inc X qs hX hC hm hdc hn hp hqs hq
    (fun i j k v => ∃ l : ℕ, v = l ∧
        IsGreatest {l | IsRun (fun t => InBand (qs.getD k ⊥) (qs.getD (k + 1) ⊥) (viewOf inc (at2 X i) t))
          ((bounds C p n i).getD j 0) ((bounds C p n i).getD (j + 1) 0) l} l) ?_
  intro i hi j hj k hk
  refine ⟨_, rfl, _, rfl, ?_⟩
  have hb := bounds_le C p n i hp (j + 1)
  have hmono := bounds_mono C p n i (show j ≤ j + 1 by omega) (by omega)
  rw [slc_tab, min_eq_left hb, map_tab]
  have h := longestRun_spec (fun t => InBand (qs.getD k ⊥) (qs.getD (k + 1) ⊥) (viewOf inc (at2 X i) t))
    ((bounds C p n i).getD j 0) ((bounds C p n i).getD (j + 1) 0)
    ((bounds C p n i).getD (j + 1) 0 - (bounds C p n i).getD j 0) ((bounds C p n i).getD j 0) 0 0 (by omega) le_rfl
    (by omega) (by intro t h1 h2; omega) (Or.inl rfl) ⟨_, le_rfl, le_rfl, by intro t h1 h2; omega⟩
    (by rintro l ⟨s, h1, h2, -⟩; omega)
  rw [range'_eq_tab, map_tab] at h
  exact h

/-- Non-vacuity: the longest run of increasing steps of `[1,2,3,2,3,4,5,0]` is 3. -/
example : ((Sieve.inc .lpi 1 ({ q := [0, 1] } : Seg ℚ)).transform
    (⟨fun _ => [], fun _ => none⟩ : FloatText ℚ) [[(1 : ℚ), 2, 3, 2, 3, 4, 5, 0]]).toOption = some [[3]] := by
  decide +kernel

/-! ### C66 -/

/-- **C66, MPI.** The mean of the in-band values of the segment, 0 if there is none. -/
theorem C66_mpi (T : FloatText R) (hT : T.Lawful) (C : Data R) (p : Seg R) (inc : ℤ) (X : List (List R))
    (qs : List (QVal R)) {m dc n : ℕ} (hX : HasShape2 X m n) (hC : HasShape C m dc n) (hm : 0 < m) (hdc : 0 < dc)
    (hn : 0 < n) (hp : ∀ c ∈ p.cut, c.InRange n) (hqs : p.useQuantiles = .ok qs) (hq : qs ≠ []) :
    ∃ Y, (Sieve.inc .mpi inc p).transformC T C X = .ok Y ∧ HasShape2 Y m (p.cut.length * (qs.length - 1)) ∧
      ∀ i < m, ∀ j < p.cut.length, ∀ k < qs.length - 1, ∀ H,
        H = hits (bounds C p n i) j (qs.getD k ⊥) (qs.getD (k + 1) ⊥) (viewOf inc (at2 X i)) →
        (H = ∅ → at2 Y i (j * (qs.length - 1) + k) = 0) ∧
        (H ≠ ∅ → at2 Y i (j * (qs.length - 1) + k) = (∑ t ∈ H, viewOf inc (at2 X i) t) / (H.card : R)) := by
  refine inc_exists T hT C p .mpi inc X qs hX hC hm hdc hn hp hqs hq
    (fun i j k v => ∀ H, H = hits (bounds C p n i) j (qs.getD k ⊥) (qs.getD (k + 1) ⊥) (viewOf inc (at2 X i)) →
        (H = ∅ → v = 0) ∧ (H ≠ ∅ → v = (∑ t ∈ H, viewOf inc (at2 X i) t) / (H.card : R))) ?_
  intro i hi j hj k hk
  refine ⟨_, rfl, ?_⟩
  rintro H rfl
  have hb := bounds_le C p n i hp (j + 1)
  have hlen := band_length n _ j hb (qs.getD k ⊥) (qs.getD (k + 1) ⊥) (viewOf inc (at2 X i))
  have hsum := band_sum n _ j hb (qs.getD k ⊥) (qs.getD (k + 1) ⊥) (viewOf inc (at2 X i)) _ id (fun t => rfl)
  rw [List.map_id] at hsum
  rw [hlen]
  constructor
  · intro h; rw [if_pos (by rw [h]; rfl)]
  · intro h; rw [if_neg (by rwa [Finset.card_eq_zero]), mean_eq, hlen, hsum]; rfl

theorem band_positions (n a b : ℕ) (hb : b ≤ n) (lo hi : QVal R) (x : ℕ → R) :
    (((slc (tab n x) a b).zipIdx.filter fun e => decide (lo < QVal.of e.1 ∧ QVal.of e.1 ≤ hi)).map fun e => (e.2 : R))
    = ((List.range' a (b - a)).filter fun t => decide (InBand lo hi (x t))).map fun t => ((t - a : ℕ) : R) := by
  rw [slc_tab, min_eq_left hb]
  generalize b - a = c
  have h1 : (tab c fun t => x (a + t)).zipIdx = tab c fun t => (x (a + t), t) := by
    apply List.ext_getElem
    · simp
    · intro t h1 h2
      rw [List.getElem_zipIdx]
      simp [tab]
  rw [h1, range'_eq_tab]
  unfold tab
  rw [List.filter_map, List.filter_map, List.map_map, List.map_map]
  have hf : ((fun e : R × ℕ => decide (lo < QVal.of e.1 ∧ QVal.of e.1 ≤ hi)) ∘ fun t => (x (a + t), t))
      = ((fun t => decide (InBand lo hi (x t))) ∘ fun i => a + i) := rfl
  rw [hf]
  apply List.map_congr_left
  intro t _
  simp

/-- **C66, XPI.** The mean of the positions, relative to the start of the segment, of the in-band values; 0 if there is
none. -/
theorem C66_xpi (T : FloatText R) (hT : T.Lawful) (C : Data R) (p : Seg R) (inc : ℤ) (X : List (List R))
    (qs : List (QVal R)) {m dc n : ℕ} (hX : HasShape2 X m n) (hC : HasShape C m dc n) (hm : 0 < m) (hdc : 0 < dc)
    (hn : 0 < n) (hp : ∀ c ∈ p.cut, c.InRange n) (hqs : p.useQuantiles = .ok qs) (hq : qs ≠ []) :
    ∃ Y, (Sieve.inc .xpi inc p).transformC T C X = .ok Y ∧ HasShape2 Y m (p.cut.length * (qs.length - 1)) ∧
      ∀ i < m, ∀ j < p.cut.length, ∀ k < qs.length - 1, ∀ H,
        H = hits (bounds C p n i) j (qs.getD k ⊥) (qs.getD (k + 1) ⊥) (viewOf inc (at2 X i)) →
        (H = ∅ → at2 Y i (j * (qs.length - 1) + k) = 0) ∧
        (H ≠ ∅ → at2 Y i (j * (qs.length - 1) + k)
          = (∑ t ∈ H, ((t - (bounds C p n i).getD j 0 : ℕ) : R)) / (H.card : R)) := by
  refine inc_exists T hT C p .xpi inc X qs hX hC hm hdc hn hp hqs hq
    (fun i j k v => ∀ H, H = hits (bounds C p n i) j (qs.getD k ⊥) (qs.getD (k + 1) ⊥) (viewOf inc (at2 X i)) →
        (H = ∅ → v = 0) ∧
        (H ≠ ∅ → v = (∑ t ∈ H, ((t - (bounds C p n i).getD j 0 : ℕ) : R)) / (H.card : R))) ?_
  intro i hi j hj k hk
  refine ⟨_, rfl, ?_⟩
  rintro H rfl
  have hb := bounds_le C p n i hp (j + 1)
  rw [band_positions n _ _ hb, List.length_map]
  have hlen : ((List.range' ((bounds C p n i).getD j 0) ((bounds C p n i).getD (j + 1) 0 - (bounds C p n i).getD j 0)).filter
      fun t => decide (InBand (qs.getD k ⊥) (qs.getD (k + 1) ⊥) (viewOf inc (at2 X i) t))).length
      = (hits (bounds C p n i) j (qs.getD k ⊥) (qs.getD (k + 1) ⊥) (viewOf inc (at2 X i))).card := by
    rw [← hits_list, List.toFinset_card_of_nodup (hits_nodup _ _ _)]
  rw [hlen]
  constructor
  · intro h; rw [if_pos (by rw [h]; rfl)]
  · intro h
    rw [if_neg (by rwa [Finset.card_eq_zero]), mean_eq, List.length_map, hlen, ← hits_list,
      List.sum_toFinset _ (hits_nodup _ _ _)]

/-- **C66, MPI and NPI.** `MPI * NPI` is the sum of the in-band values. -/
theorem C66_product (T : FloatText R) (hT : T.Lawful) (C : Data R) (p : Seg R) (inc : ℤ) (X : List (List R))
    (qs : List (QVal R)) {m dc n : ℕ} (hX : HasShape2 X m n) (hC : HasShape C m dc n) (hm : 0 < m) (hdc : 0 < dc)
    (hn : 0 < n) (hp : ∀ c ∈ p.cut, c.InRange n) (hqs : p.useQuantiles = .ok qs) (hq : qs ≠ []) :
    ∃ Y Z, (Sieve.inc .mpi inc p).transformC T C X = .ok Y ∧ (Sieve.inc .npi inc p).transformC T C X = .ok Z ∧
      ∀ i < m, ∀ j < p.cut.length, ∀ k < qs.length - 1,
        at2 Y i (j * (qs.length - 1) + k) * at2 Z i (j * (qs.length - 1) + k)
        = ∑ t ∈ hits (bounds C p n i) j (qs.getD k ⊥) (qs.getD (k + 1) ⊥) (viewOf inc (at2 X i)), viewOf inc (at2 X i) t := by
  obtain ⟨Y, h1, -, h2⟩ := C66_mpi T hT C p inc X qs hX hC hm hdc hn hp hqs hq
  obtain ⟨Z, h3, -, h4⟩ := C64_counts T hT C p inc X qs hX hC hm hdc hn hp hqs hq
  refine ⟨Y, Z, h1, h3, fun i hi j hj k hk => ?_⟩
  obtain ⟨h5, h6⟩ := h2 i hi j hj k hk _ rfl
  rw [h4 i hi j hj k hk]
  by_cases he : hits (bounds C p n i) j (qs.getD k ⊥) (qs.getD (k + 1) ⊥) (viewOf inc (at2 X i)) = ∅
  · rw [h5 he, he]; simp
  · rw [h6 he, div_mul_cancel₀]
    exact_mod_cast mt Finset.card_eq_zero.1 he

example : ((Sieve.inc .mpi 0 ({ q := [0, 1] } : Seg ℚ)).transform
    (⟨fun _ => [], fun _ => none⟩ : FloatText ℚ) [[(1 : ℚ), -2, 3, 5]]).toOption = some [[3]] ∧
    ((Sieve.inc .xpi 0 ({ q := [0, 1] } : Seg ℚ)).transform
    (⟨fun _ => [], fun _ => none⟩ : FloatText ℚ) [[(1 : ℚ), -2, 3, 5]]).toOption = some [[5 / 3]] := by
  decide +kernel

end Fruits
