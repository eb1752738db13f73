import Verif.Props.Prep5

/-! # C50, C51: proportion-density-drop and the wrappers -/

namespace Fruits
set_option linter.unusedSectionVars false

variable {R : Type} [Field R] [LinearOrder R] [IsStrictOrderedRing R] [FloorRing R]

/-! ### C50 -/

/-- `p` of `PDD._fit`: the number of values to drop. -/
def pddCount (n : ℕ) (proportion : R) : ℕ := (max ⌊proportion * (n : R)⌋ 1).toNat
/-- `points` of `PDD._fit`. -/
def pddPoints (n : ℕ) (density : R) : ℕ := (max ⌊(1 - density) * (n : R)⌋ 1).toNat

theorem linspaceInt_spec (stop num : ℕ) (hnum : 0 < num) :
    ∃ l : List ℕ, linspaceInt (stop : ℤ) (num : ℤ) = .ok (l.map fun k : ℕ => (k : ℤ)) ∧ l.length = num ∧ 0 ∈ l ∧
      ∀ k ∈ l, k ≤ stop := by
  unfold linspaceInt
  rw [if_neg (by omega)]
  by_cases h1 : num = 1
  · subst h1
    exact ⟨[0], by simp, rfl, by simp, by simp⟩
  · rw [if_neg (by omega)]
    refine ⟨(List.range num).map fun i => i * stop / (num - 1), ?_, by simp, ?_, ?_⟩
    · congr 1
      rw [Int.toNat_natCast, List.map_map]
      apply List.map_congr_left
      intro i _
      simp only [Function.comp]
      rw [show ((num : ℤ) - 1) = ((num - 1 : ℕ) : ℤ) by omega]
      rw [Int.fdiv_eq_ediv_of_nonneg _ (by omega)]
      push_cast
      rfl
    · rw [List.mem_map]
      exact ⟨0, List.mem_range.2 hnum, by simp⟩
    · intro k hk
      rw [List.mem_map] at hk
      obtain ⟨i, hi, rfl⟩ := hk
      have := List.mem_range.1 hi
      apply Nat.div_le_of_le_mul
      apply Nat.mul_le_mul_right
      omega

theorem pyInt_natDiv (a b : ℕ) : pyInt ((a : R) / (b : R)) = ((a / b : ℕ) : ℤ) := by
  rw [pyInt_nonneg (div_nonneg (Nat.cast_nonneg _) (Nat.cast_nonneg _))]
  rw [Int.floor_div_natCast, Int.floor_natCast]
  rfl

/-- The result of `PDD.fit` and what `transform` does with it, in closed form. -/
theorem pdd_closed (p : PDD R) (hd : 0 < p.density ∧ p.density ≤ 1) (hp : 0 < p.proportion ∧ p.proportion < 1) (X : Data R)
    {m d n : ℕ} (hX : HasShape X m d n) (hm : 0 < m) (hdim : 0 < d) (hn : 0 < n) :
    ∃ (p' : PDD R) (l : List ℕ), p.fit X = .ok p' ∧
      p'.fitted = some (l.map (fun k : ℕ => (k : ℤ)), ((pddCount n p.proportion / pddPoints n p.density : ℕ) : ℤ)) ∧
      l.length = (if pddPoints n p.density = n - pddCount n p.proportion / pddPoints n p.density
        then pddPoints n p.density - 1 else pddPoints n p.density) ∧ (0 < l.length → 0 ∈ l) := by
  have hn0 : (0 : R) ≤ (n : R) := Nat.cast_nonneg _
  have e1 : max (pyInt (p.proportion * (((n : ℕ) : ℤ) : R))) 1 = ((pddCount n p.proportion : ℕ) : ℤ) := by
    rw [Int.cast_natCast, pyInt_nonneg (mul_nonneg hp.1.le hn0)]
    unfold pddCount; omega
  have e2 : max (pyInt ((1 - p.density) * (((n : ℕ) : ℤ) : R))) 1 = ((pddPoints n p.density : ℕ) : ℤ) := by
    rw [Int.cast_natCast, pyInt_nonneg (mul_nonneg (by linarith) hn0)]
    unfold pddPoints; omega
  have hpts : 1 ≤ pddPoints n p.density := by unfold pddPoints; omega
  have hcnt : pddCount n p.proportion ≤ n := by
    unfold pddCount
    have : ⌊p.proportion * (n : R)⌋ ≤ (n : ℤ) := by
      have h : ⌊p.proportion * (n : R)⌋ ≤ ⌊((n : ℤ) : R)⌋ := Int.floor_le_floor (by
        rw [Int.cast_natCast]; exact mul_le_of_le_one_left hn0 hp.2.le)
      rwa [Int.floor_intCast] at h
    omega
  set c := pddCount n p.proportion
  set k := pddPoints n p.density
  have hw : c / k ≤ n := (Nat.div_le_self _ _).trans hcnt
  unfold PDD.fit
  simp only [hX.shape2_eq hm hdim]
  rw [e1, e2]
  have e3 : pyInt ((((c : ℕ) : ℤ) : R) / (((k : ℕ) : ℤ) : R)) = ((c / k : ℕ) : ℤ) := by
    rw [Int.cast_natCast, Int.cast_natCast, pyInt_natDiv]
  rw [e3]
  set w := c / k
  have e4 : (if (k : ℤ) = (n : ℤ) - (w : ℤ) then (k : ℤ) - 1 else (k : ℤ)) = ((if k = n - w then k - 1 else k : ℕ) : ℤ) := by
    by_cases h : k = n - w
    · rw [if_pos h, if_pos (by omega)]; omega
    · rw [if_neg h, if_neg (by omega)]
  rw [e4, show (n : ℤ) - (w : ℤ) = ((n - w : ℕ) : ℤ) by omega]
  set num := if k = n - w then k - 1 else k
  rcases Nat.eq_zero_or_pos num with h0 | h0
  · refine ⟨{ p with fitted := some ([], (w : ℤ)) }, [], ?_, rfl, by rw [h0]; rfl, by simp⟩
    rw [h0]
    simp [linspaceInt, pure, Except.pure]
  · obtain ⟨l, h1, h2, h3, _⟩ := linspaceInt_spec (n - w) num h0
    rw [h1, ok_bind]
    exact ⟨_, l, rfl, rfl, h2, fun _ => h3⟩

theorem pdd_transform (p : PDD R) (l : List ℕ) (w : ℕ) (h : p.fitted = some (l.map (fun k : ℕ => (k : ℤ)), (w : ℤ)))
    (Y : Data R) {m d n : ℕ} (hY : HasShape Y m d n) :
    p.transform Y = .ok (tab3 m d n fun i j t => if ∃ k ∈ l, k ≤ t ∧ t < k + w then 0 else at3 Y i j t) := by
  unfold PDD.transform
  rw [h]
  show Except.ok _ = _
  congr 1
  conv_lhs => rw [hY.eq_tab3]
  apply mapRows_eq_tab3
  intro i _ j _
  unfold PDD.row
  rw [List.foldl_map]
  have := fill_fold n (fun k : ℕ => k) (fun k : ℕ => k + w) l (fun t => at3 Y i j t)
  push_cast at this
  exact this

/-- **C50 (partial).** After fitting on series of length `n ≥ 1`, `PDD(density, proportion)` (with the admissible values
`0 < density ≤ 1`, `0 < proportion < 1`) has a set of time steps, the same for all data, of at most
`max(1, ⌊proportion·n⌋)` elements; `transform` sets exactly these values to zero. If `1 - density ≤ proportion` and
`n·(1 - proportion) > 1`, `n ≥ 3`, then the set is not empty. Missing: for the other densities nothing is dropped, see
`C50_counterexample`. -/
theorem C50_drop_partial (T : FloatText R) [NpMath R] (density proportion : R) (hd : 0 < density ∧ density ≤ 1)
    (hp : 0 < proportion ∧ proportion < 1) (X : Data R) {m d n : ℕ} (hX : HasShape X m d n) (hm : 0 < m) (hdim : 0 < d)
    (hn : 0 < n) :
    ∃ (p' : PDD R) (S : Finset ℕ), PDD.fit ⟨density, proportion, none⟩ X = .ok p' ∧ S ⊆ Finset.range n ∧
      (S.card : ℤ) ≤ max 1 ⌊proportion * (n : R)⌋ ∧
      (∀ (Y : Data R) (m' d' : ℕ), HasShape Y m' d' n → ∃ Z, (Prep.pdd p').transform T Y = .ok Z ∧ HasShape Z m' d' n ∧
        ∀ i < m', ∀ j < d', ∀ t < n, at3 Z i j t = if t ∈ S then 0 else at3 Y i j t) ∧
      (1 - density ≤ proportion → 3 ≤ n → 1 < (n : R) * (1 - proportion) → S.Nonempty) := by
  obtain ⟨p', l, hfit, hfitted, hlen, h0⟩ := pdd_closed ⟨density, proportion, none⟩ hd hp X hX hm hdim hn
  simp only at hfitted hlen
  have hpts : 1 ≤ pddPoints n density := by unfold pddPoints; omega
  have hn0 : (0 : R) ≤ (n : R) := Nat.cast_nonneg _
  have hc : (pddCount n proportion : ℤ) = max 1 ⌊proportion * (n : R)⌋ := by unfold pddCount; omega
  set c := pddCount n proportion with hcdef
  set k := pddPoints n density with hkdef
  set w := c / k with hw
  let S : Finset ℕ := (Finset.range n).filter fun t => ∃ a ∈ l, a ≤ t ∧ t < a + w
  have hS : ∀ t, t ∈ S ↔ t < n ∧ ∃ a ∈ l, a ≤ t ∧ t < a + w := by intro t; simp [S]
  refine ⟨p', S, hfit, Finset.filter_subset _ _, ?_, ?_, ?_⟩
  · rw [← hc]
    have h1 : S ⊆ l.toFinset.biUnion fun a => Finset.Ico a (a + w) := by
      intro t ht
      rw [hS] at ht
      rw [Finset.mem_biUnion]
      obtain ⟨_, a, ha, h⟩ := ht
      exact ⟨a, List.mem_toFinset.2 ha, Finset.mem_Ico.2 h⟩
    have h2 : S.card ≤ l.toFinset.card * w := by
      refine (Finset.card_le_card h1).trans ?_
      apply Finset.card_biUnion_le_card_mul
      intro a _
      simp
    have h3 : l.toFinset.card ≤ k := by
      refine (List.toFinset_card_le l).trans ?_
      rw [hlen]; split <;> omega
    have h4 : l.toFinset.card * w ≤ k * w := Nat.mul_le_mul_right _ h3
    have h5 : k * w ≤ c := Nat.mul_div_le c k
    omega
  · intro Y m' d' hY
    refine ⟨_, ?_, hasShape_tab3 (fun i j t => if t ∈ S then 0 else at3 Y i j t), fun i hi j hj t ht => at3_tab3 hi hj ht⟩
    simp only [Prep.transform, Prep.transformC]
    rw [pdd_transform p' l w hfitted Y hY]
    congr 1
    apply tab3_congr
    intro i _ j _ t ht
    by_cases h : ∃ a ∈ l, a ≤ t ∧ t < a + w
    · rw [if_pos h, if_pos ((hS t).2 ⟨ht, h⟩)]
    · rw [if_neg h, if_neg (fun h' => h ((hS t).1 h').2)]
  · intro hle hn3 hlong
    have hck : k ≤ c := by
      have : ⌊(1 - density) * (n : R)⌋ ≤ ⌊proportion * (n : R)⌋ := Int.floor_le_floor (mul_le_mul_of_nonneg_right hle hn0)
      rw [hcdef, hkdef]
      unfold pddPoints pddCount
      omega
    have hw1 : 1 ≤ w := (Nat.one_le_div_iff (by omega)).2 hck
    have hlpos : 0 < l.length := by
      rw [hlen]
      by_cases h : k = n - w
      · rw [if_pos h]
        rcases Nat.lt_or_ge 1 k with h1 | h1
        · omega
        · exfalso
          have hk1 : k = 1 := by omega
          have hwc : w = c := by rw [hw, hk1, Nat.div_one]
          have hfl : (⌊proportion * (n : R)⌋ : ℤ) < (n : ℤ) - 1 := by
            rw [Int.floor_lt]
            push_cast
            linarith
          omega
      · rw [if_neg h]; omega
    exact ⟨0, (hS 0).2 ⟨hn, 0, h0 hlpos, le_rfl, by omega⟩⟩

/-- C50 fails whenever `proportion < 1 - density`: on long series `transform` changes nothing at all. -/
theorem C50_counterexample (T : FloatText R) [NpMath R] (density proportion : R) (hd : 0 < density ∧ density ≤ 1)
    (hp : 0 < proportion ∧ proportion < 1) (X : Data R) {m d n : ℕ} (hX : HasShape X m d n) (hm : 0 < m) (hdim : 0 < d)
    (h1 : 1 ≤ (n : R) * (1 - density - proportion)) (h2 : 2 ≤ (n : R) * (1 - density)) :
    ∃ p', PDD.fit ⟨density, proportion, none⟩ X = .ok p' ∧
      ∀ (Y : Data R) (m' d' : ℕ), HasShape Y m' d' n → (Prep.pdd p').transform T Y = .ok Y := by
  have hn : 0 < n := by
    rcases Nat.eq_zero_or_pos n with h | h
    · subst h; simp at h2; linarith
    · exact h
  obtain ⟨p', l, hfit, hfitted, -, -⟩ := pdd_closed ⟨density, proportion, none⟩ hd hp X hX hm hdim hn
  refine ⟨p', hfit, fun Y m' d' hY => ?_⟩
  have hw : pddCount n proportion / pddPoints n density = 0 := by
    apply Nat.div_eq_of_lt
    unfold pddCount pddPoints
    have h3 : (2 : ℤ) ≤ ⌊(1 - density) * (n : R)⌋ := by
      rw [Int.le_floor]; push_cast; linarith
    have h4 : ⌊proportion * (n : R)⌋ + 1 ≤ ⌊(1 - density) * (n : R)⌋ := by
      rw [Int.le_floor]
      push_cast
      have := Int.floor_le (proportion * (n : R))
      linarith
    omega
  simp only [hw] at hfitted
  simp only [Prep.transform, Prep.transformC]
  rw [pdd_transform p' l 0 hfitted Y hY]
  congr 1
  conv_rhs => rw [hY.eq_tab3]
  apply tab3_congr
  intro i _ j _ t _
  rw [if_neg]
  rintro ⟨k, _, h⟩
  omega

/-- The defaults `PDD(0.1, 0.5)` change nothing, on every series with at least three time steps. -/
theorem C50_default_identity (T : FloatText R) [NpMath R] (X : Data R) {m d n : ℕ} (hX : HasShape X m d n) (hm : 0 < m)
    (hdim : 0 < d) (hn : 3 ≤ n) :
    ∃ p', PDD.fit ⟨1/10, 1/2, none⟩ X = .ok p' ∧ (Prep.pdd p').transform T X = .ok X := by
  have h3 : (3 : R) ≤ (n : R) := by exact_mod_cast hn
  obtain ⟨p', h, h'⟩ := C50_counterexample T (1/10 : R) (1/2) (by constructor <;> norm_num) (by constructor <;> norm_num) X hX
    hm hdim (by linarith) (by linarith)
  exact ⟨p', h, h' X m d hX⟩

/-- Non-vacuity: `PDD(0.5, 0.5)` on eight values drops four of them; the defaults drop none. -/
example : (do let p ← PDD.fit (R := ℚ) ⟨1/2, 1/2, none⟩ ([[[1, 2, 3, 4, 5, 6, 7, 8]]] : Data ℚ); p.transform ([[[1, 2, 3, 4, 5, 6, 7, 8]]] : Data ℚ)).toOption
      = some [[[0, 2, 0, 4, 0, 6, 7, 0]]] ∧
    (do let p ← PDD.fit (R := ℚ) ⟨1/10, 1/2, none⟩ ([[[1, 2, 3, 4, 5, 6, 7, 8]]] : Data ℚ); p.transform ([[[1, 2, 3, 4, 5, 6, 7, 8]]] : Data ℚ)).toOption
      = some [[[1, 2, 3, 4, 5, 6, 7, 8]]] := by decide +kernel

/-! ### C51 -/

/-- **C51.** `NEW(p)`: the original dimensions followed by those that `p.transform` returns (of the same length). -/
theorem C51_new (T : FloatText R) [NpMath R] (p : Prep R) (X Y : Data R) {m d d' n : ℕ} (hX : HasShape X m d n) (hm : 0 < m)
    (hd : 0 < d) (hY : HasShape Y m d' n) (hd' : 0 < d') (h : p.transform T X = .ok Y) :
    ∃ Z, (Prep.new (some p)).transform T X = .ok Z ∧ HasShape Z m (d + d') n ∧
      ∀ i < m, ∀ t < n, (∀ j < d, at3 Z i j t = at3 X i j t) ∧ (∀ j < d', at3 Z i (d + j) t = at3 Y i j t) := by
  refine ⟨tab3 m (d + d') n fun i j t => if j < d then at3 X i j t else at3 Y i (j - d) t, ?_, hasShape_tab3 _, ?_⟩
  · unfold Prep.transform at h ⊢
    simp only [Prep.transformC]
    rw [h, ok_bind]
    unfold appendDims
    rw [if_pos (by rw [hX.1, hY.1]), if_pos (by rw [hY.shape2_eq hm hd', hX.shape2_eq hm hd])]
    congr 1
    conv_lhs => rw [hX.eq_tab3, hY.eq_tab3]
    unfold tab3
    rw [zipWith_tab]
    apply tab_congr
    intro i _
    unfold tab2
    rw [append_tab]
    apply tab_congr
    intro j _
    split
    · next h => simp [h]
    · next h => simp [h]
  · intro i hi t ht
    constructor
    · intro j hj
      rw [at3_tab3 hi (by omega) ht, if_pos hj]
    · intro j hj
      rw [at3_tab3 hi (by omega) ht, if_neg (by omega), Nat.add_sub_cancel_left]

/-- **C51.** `NEW()`: all dimensions twice. -/
theorem C51_new_none (T : FloatText R) [NpMath R] (X : Data R) {m d n : ℕ} (hX : HasShape X m d n) :
    ∃ Z, (Prep.new none).transform T X = .ok Z ∧ HasShape Z m (d + d) n ∧
      ∀ i < m, ∀ t < n, ∀ j < d, at3 Z i j t = at3 X i j t ∧ at3 Z i (d + j) t = at3 X i j t := by
  refine ⟨tab3 m (d + d) n fun i j t => if j < d then at3 X i j t else at3 X i (j - d) t, ?_, hasShape_tab3 _, ?_⟩
  · unfold Prep.transform
    simp only [Prep.transformC]
    congr 1
    conv_lhs => rw [hX.eq_tab3]
    unfold tab3
    rw [map_tab]
    apply tab_congr
    intro i _
    unfold tab2
    rw [append_tab]
    apply tab_congr
    intro j _
    split
    · next h => simp [h]
    · next h => simp [h]
  · intro i hi t ht j hj
    rw [at3_tab3 hi (by omega) ht, if_pos hj, at3_tab3 hi (by omega) ht, if_neg (by omega), Nat.add_sub_cancel_left]
    exact ⟨rfl, rfl⟩

/-- The dimension an index denotes in `d` dimensions; negative ones count from the end. -/
def dimOf (d : ℕ) (k : ℤ) : ℕ := (if k < 0 then k + d else k).toNat

theorem normIdx_eq {d : ℕ} {k : ℤ} (h : -(d : ℤ) ≤ k ∧ k < d) : normIdx d k = .ok (dimOf d k) := by
  unfold normIdx dimOf
  by_cases h0 : 0 ≤ k
  · rw [if_pos ⟨h0, h.2⟩, if_neg (by omega)]
  · rw [if_neg (by omega), if_pos (by omega), if_pos (by omega)]

theorem mapM_ok_map {α β : Type} {f : α → Except Err β} {g : α → β} {xs : List α} (h : ∀ x ∈ xs, f x = .ok (g x)) :
    xs.mapM f = .ok (xs.map g) := by
  rw [mapM_ok_iff, List.forall₂_map_right_iff, List.forall₂_same]
  exact h

theorem filter_zipIdx_tab {α : Type*} (n : ℕ) (f : ℕ → α) (P : ℕ → Bool) :
    (((tab n f).zipIdx.filter fun e => P e.2).map (·.1)) = ((List.range n).filter P).map f := by
  have : (tab n f).zipIdx = (List.range n).map fun i => (f i, i) := by
    apply List.ext_getElem
    · simp
    · intro i h1 h2
      simp
  rw [this, List.filter_map, List.map_map]
  rfl

/-- **C51.** `DIM(p, dims)` with valid dimensions `-d ≤ k < d`: it calls `p.transform` on the selected dimensions (in the
given order), and returns the dimensions that were not selected, unchanged and in their order, followed by the result. -/
theorem C51_dim (T : FloatText R) [NpMath R] (p : Prep R) (dims : List ℤ) (X : Data R) {m d n : ℕ} (hX : HasShape X m d n)
    (hdims : ∀ k ∈ dims, -(d : ℤ) ≤ k ∧ k < d) (hm : 0 < m) :
    ∃ sub : Data R, HasShape sub m dims.length n ∧
      (∀ i < m, ∀ t < n, ∀ a < dims.length, at3 sub i a t = at3 X i (dimOf d (dims.getD a 0)) t) ∧
      ∀ (Y : Data R) (d' : ℕ), p.transform T sub = .ok Y → HasShape Y m d' n →
        ∃ Z, (Prep.dim p dims).transform T X = .ok Z ∧
          let rest := (List.range d).filter fun j => j ∉ dims.map (dimOf d)
          HasShape Z m (rest.length + d') n ∧ ∀ i < m, ∀ t < n,
            (∀ a < rest.length, at3 Z i a t = at3 X i (rest.getD a 0) t) ∧
            (∀ j < d', at3 Z i (rest.length + j) t = at3 Y i j t) := by
  have hsel : selectDims dims X = .ok (tab3 m dims.length n fun i a t => at3 X i (dimOf d (dims.getD a 0)) t) := by
    unfold selectDims
    conv_lhs => rw [hX.eq_tab3]
    apply mapM_ok_tab
    intro i _
    have h1 : ∀ k ∈ dims, (do let j ← normIdx (tab2 d n (at3 X i)).length k; pure ((tab2 d n (at3 X i)).getD j [])
        : Except Err (List R)) = .ok (tab n fun t => at3 X i (dimOf d k) t) := by
      intro k hk
      rw [tab2_length, normIdx_eq (hdims k hk), ok_bind]
      have hlt : dimOf d k < d := by
        have := hdims k hk
        unfold dimOf; split <;> omega
      simp only [pure, Except.pure]
      congr 1
      exact getD_tab hlt
    rw [mapM_ok_map h1]
    congr 1
    unfold tab2
    conv_lhs => rw [tab_of_list dims 0, map_tab]
  have hdel : deleteDims dims X = .ok (X.map fun s => ((List.range d).filter fun j => j ∉ dims.map (dimOf d)).map fun j =>
      s.getD j []) := by
    unfold deleteDims
    apply mapM_ok_map
    intro s hs
    obtain ⟨h1, h2⟩ := hX.2 s hs
    rw [h1, mapM_ok_map fun k hk => normIdx_eq (hdims k hk), ok_bind]
    simp only [pure, Except.pure]
    congr 1
    have h3 : s = tab d fun j => s.getD j [] := by
      conv_lhs => rw [tab_of_list s [], h1]
    conv_lhs => rw [h3]
    exact filter_zipIdx_tab d _ fun j => decide (j ∉ dims.map (dimOf d))
  refine ⟨_, hasShape_tab3 _, fun i hi t ht a ha => at3_tab3 hi ha ht, ?_⟩
  intro Y d' hY hYs
  set rest := (List.range d).filter fun j => j ∉ dims.map (dimOf d) with hrest
  have hrlt : ∀ a < rest.length, rest.getD a 0 < d := by
    intro a ha
    rw [List.getD_eq_getElem?_getD, List.getElem?_eq_getElem ha]
    have hmem : ∀ j ∈ rest, j < d := fun j hj => List.mem_range.1 (List.mem_filter.1 hj).1
    exact hmem _ (List.getElem_mem ha)
  have hA : (X.map fun s => rest.map fun j => s.getD j []) = tab3 m rest.length n fun i a t => at3 X i (rest.getD a 0) t := by
    conv_lhs => rw [hX.eq_tab3]
    unfold tab3
    rw [map_tab]
    apply tab_congr
    intro i _
    unfold tab2
    conv_lhs => rw [tab_of_list rest 0, map_tab]
    apply tab_congr
    intro a ha
    exact getD_tab (hrlt a ha)
  refine ⟨tab3 m (rest.length + d') n fun i j t => if j < rest.length then at3 X i (rest.getD j 0) t
    else at3 Y i (j - rest.length) t, ?_, hasShape_tab3 _, ?_⟩
  · unfold Prep.transform at hY ⊢
    simp only [Prep.transformC]
    rw [hsel, ok_bind, hY, ok_bind, hdel, ok_bind, hA]
    unfold concatDims
    rw [if_pos]
    · congr 1
      conv_lhs => rw [hYs.eq_tab3]
      unfold tab3
      rw [zipWith_tab]
      apply tab_congr
      intro i _
      unfold tab2
      rw [append_tab]
      apply tab_congr
      intro j _
      split
      · next h => simp [h]
      · next h => simp [h]
    · refine ⟨by rw [tab3_length, hYs.1], ?_⟩
      rw [shape1_tab3 hm, hYs.shape1_eq hm]
      rcases Nat.eq_zero_or_pos rest.length with h | h
      · exact Or.inl h
      · rcases Nat.eq_zero_or_pos d' with h' | h'
        · exact Or.inr (Or.inl h')
        · exact Or.inr (Or.inr (by rw [shape2_tab3 hm h, hYs.shape2_eq hm h']))
  · intro i hi t ht
    constructor
    · intro a ha
      rw [at3_tab3 hi (by omega) ht, if_pos ha]
    · intro j hj
      rw [at3_tab3 hi (by omega) ht, if_neg (by omega), Nat.add_sub_cancel_left]

/-- Placeholder functions for examples that do not use them. -/
local instance : NpMath ℚ := ⟨id, id, fun a _ => a, id, id⟩

/-- Non-vacuity: `DIM(INC(), [-3])` on three dimensions, and `NEW(INC())`. -/
example : ((Prep.dim (.inc {}) [-3]).transform noText ([[[1, 3], [5, 6], [7, 9]]] : Data ℚ)).toOption
      = some [[[5, 6], [7, 9], [0, 2]]] ∧
    ((Prep.new (some (.inc {}))).transform noText ([[[1, 3], [5, 6]]] : Data ℚ)).toOption
      = some [[[1, 3], [5, 6], [0, 2], [0, 1]]] := by
  decide +kernel

end Fruits
