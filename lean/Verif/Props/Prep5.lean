import Verif.Props.Prep4

/-! # C47, C48, C50: dilation, windows, proportion-density-drop -/

namespace Fruits
set_option linter.unusedSectionVars false

variable {R : Type} [Field R] [LinearOrder R] [IsStrictOrderedRing R] [FloorRing R]

theorem mapM_ok_iff {α β : Type} {f : α → Except Err β} {xs : List α} {ys : List β} :
    xs.mapM f = .ok ys ↔ List.Forall₂ (fun x y => f x = .ok y) xs ys := by
  induction xs generalizing ys with
  | nil =>
    simp only [List.mapM_nil, pure, Except.pure, Except.ok.injEq, List.forall₂_nil_left_iff]
    exact eq_comm
  | cons x xs ih =>
    rw [List.mapM_cons]
    rcases hx : f x with e | y
    · constructor
      · intro h; cases h
      · intro h; cases h with | cons h1 _ => rw [hx] at h1; cases h1
    · rw [ok_bind]
      rcases hxs : xs.mapM f with e | zs
      · constructor
        · intro h; cases h
        · intro h
          cases h with
          | cons h1 h2 => rw [ih.2 h2] at hxs; cases hxs
      · rw [ok_bind]
        have h3 := ih.1 hxs
        constructor
        · intro h
          cases h
          exact List.Forall₂.cons hx h3
        · intro h
          cases h with
          | cons h1 h2 =>
            rw [ih.2 h2] at hxs
            cases hxs
            rw [hx] at h1
            cases h1
            rfl

theorem fill_fold {ι : Type*} (n : ℕ) (a b : ι → ℕ) (l : List ι) (x : ℕ → R) :
    l.foldl (fun y e => fillSlc y (pyClip y.length (a e : ℤ)) (pyClip y.length (b e : ℤ)) 0) (tab n x)
      = tab n fun t => if ∃ e ∈ l, a e ≤ t ∧ t < b e then 0 else x t := by
  induction l generalizing x with
  | nil => simp
  | cons e l ih =>
    rw [List.foldl_cons, tab_length, pyClip_nat, pyClip_nat, fillSlc_tab _ _ _ _ _ (by omega) (by omega), ih]
    apply tab_congr
    intro t ht
    by_cases h1 : ∃ e ∈ l, a e ≤ t ∧ t < b e
    · rw [if_pos h1, if_pos (by obtain ⟨e', h, h'⟩ := h1; exact ⟨e', List.mem_cons_of_mem _ h, h'⟩)]
    · rw [if_neg h1]
      by_cases h2 : a e ≤ t ∧ t < b e
      · rw [if_pos (by omega), if_pos ⟨e, List.mem_cons_self, h2⟩]
      · rw [if_neg (by omega), if_neg]
        rintro ⟨e', h, h'⟩
        rcases List.mem_cons.1 h with rfl | h
        · exact h2 h'
        · exact h1 ⟨e', h, h'⟩

/-! ### C47 -/

/-- The time steps `t` of a strip `(start, length)`. -/
def inStrip (t : ℕ) (s : ℕ × ℕ) : Prop := s.1 ≤ t ∧ t < s.1 + s.2

instance (t : ℕ) (s : ℕ × ℕ) : Decidable (inStrip t s) := by unfold inStrip; infer_instance

theorem dil_lengths {g : Rng R} (hg : g.Valid) {n k : ℕ} {indices lens : List ℕ}
    (h : DIL.lengths g n indices k = .ok lens) :
    lens.length = k ∧ ∀ i < k, ∃ a, indices[i]? = some a ∧ 1 ≤ lens.getD i 0 ∧
      (i + 1 = k → a + lens.getD i 0 ≤ n) ∧ (i + 1 < k → ∃ b, indices[i + 1]? = some b ∧ a + lens.getD i 0 ≤ b) := by
  unfold DIL.lengths at h
  rw [mapM_ok_iff] at h
  have hl := h.length_eq
  rw [List.length_range] at hl
  refine ⟨hl.symm, fun i hi => ?_⟩
  have h1 := (List.forall₂_iff_get.1 h).2 i (by simpa using hi) (by omega)
  simp only [List.get_eq_getElem, List.getElem_range] at h1
  have h2 : lens.getD i 0 = lens[i]'(by omega) := by
    rw [List.getD_eq_getElem?_getD, List.getElem?_eq_getElem]; rfl
  rcases ha : indices[i]? with _ | a
  · rw [ha] at h1; cases h1
  · rw [ha] at h1
    refine ⟨a, rfl, ?_⟩
    simp only at h1
    by_cases hk : i + 1 = k
    · rw [if_pos hk] at h1
      split at h1
      · cases h1
      · next hlt =>
        have := hg.randint_range (i + 1) 1 ((n : ℤ) - a + 1) (by omega)
        injection h1 with h1
        omega
    · rw [if_neg hk] at h1
      rcases hb : indices[i + 1]? with _ | b
      · rw [hb] at h1; cases h1
      · rw [hb] at h1
        simp only at h1
        split at h1
        · cases h1
        · next hlt =>
          have := hg.randint_range (i + 1) 1 ((b : ℤ) - a + 1) (by omega)
          injection h1 with h1
          refine ⟨by omega, by omega, fun _ => ⟨b, rfl, by omega⟩⟩

/-- The strips of a fitted state, as pairs of start and length. -/
theorem dil_row (indices lens : List ℕ) (h : indices.length = lens.length) (n : ℕ) (x : ℕ → R) :
    DIL.row indices lens (tab n x) = tab n fun t => if ∃ s ∈ indices.zip lens, inStrip t s then 0 else x t := by
  unfold DIL.row
  rw [fill_fold n (fun e : ℕ × ℕ => e.1) (fun e : ℕ × ℕ => e.1 + lens.getD e.2 0)]
  apply tab_congr
  intro t _
  have : (∃ e ∈ indices.zipIdx, e.1 ≤ t ∧ t < e.1 + lens.getD e.2 0) ↔ ∃ s ∈ indices.zip lens, inStrip t s := by
    constructor
    · rintro ⟨⟨a, i⟩, he, h1⟩
      rw [List.mem_zipIdx_iff_getElem?] at he
      simp only at he h1
      have hi : i < indices.length := by
        by_contra hcon
        rw [List.getElem?_eq_none (by omega)] at he; cases he
      refine ⟨(a, lens.getD i 0), ?_, h1⟩
      rw [List.mem_iff_getElem?]
      refine ⟨i, ?_⟩
      rw [List.getElem?_zip_eq_some]
      refine ⟨he, ?_⟩
      rw [List.getD_eq_getElem?_getD, List.getElem?_eq_getElem (by omega)]
      rfl
    · rintro ⟨⟨a, l⟩, he, h1⟩
      rw [List.mem_iff_getElem?] at he
      obtain ⟨i, hi⟩ := he
      rw [List.getElem?_zip_eq_some] at hi
      refine ⟨(a, i), ?_, ?_⟩
      · rw [List.mem_zipIdx_iff_getElem?]; exact hi.1
      · rw [List.getD_eq_getElem?_getD, hi.2]; exact h1
  by_cases h1 : ∃ s ∈ indices.zip lens, inStrip t s
  · rw [if_pos h1, if_pos (this.2 h1)]
  · rw [if_neg h1, if_neg (fun h2 => h1 (this.1 h2))]

/-- **C47.** For all random draws: after a successful `DIL.fit` on series of length `n` there are strips
`(start, length)`, as many as requested, each non-empty, each ending before the next one starts and inside the series,
such that `transform` sets exactly the values in the strips to zero and changes no other value. -/
theorem C47_dilation (T : FloatText R) [NpMath R] (g : Rng R) (hg : g.Valid) (p p' : DIL R) (X : Data R) {m d n : ℕ}
    (hX : HasShape X m d n) (hm : 0 < m) (hd : 0 < d) (hfit : p.fit g X = .ok p') :
    ∃ strips : List (ℕ × ℕ), (strips.length : ℤ) = p.nclusters g n ∧
      (∀ s ∈ strips, 1 ≤ s.2 ∧ s.1 + s.2 ≤ n) ∧ strips.Pairwise (fun s s' => s.1 + s.2 ≤ s'.1) ∧
      ∀ (Y : Data R) (m' d' : ℕ), HasShape Y m' d' n → ∃ Z, (Prep.dil p').transform T Y = .ok Z ∧ HasShape Z m' d' n ∧
        ∀ i < m', ∀ j < d', ∀ t < n, at3 Z i j t = if ∃ s ∈ strips, inStrip t s then 0 else at3 Y i j t := by
  unfold DIL.fit at hfit
  simp only [hX.shape2_eq hm hd] at hfit
  set k := p.nclusters g n with hk
  split at hfit
  · cases hfit
  next hk0 =>
  set indices := if k ≥ n then List.range n else (g.choice 0 n k.toNat).insertionSort (· ≤ ·) with hind
  rcases hlens : DIL.lengths g n indices k.toNat with e | lens
  · rw [hlens] at hfit; cases hfit
  rw [hlens, ok_bind] at hfit
  injection hfit with hfit
  subst hfit
  obtain ⟨hll, hstrip⟩ := dil_lengths hg hlens
  have hlen : indices.length = k.toNat := by
    rw [hind]
    split
    · next hkn =>
      rw [List.length_range]
      rcases Nat.eq_zero_or_pos k.toNat with h0 | h0
      · omega
      · obtain ⟨a, ha, -⟩ := hstrip (k.toNat - 1) (by omega)
        rw [hind, if_pos hkn] at ha
        have := (List.getElem?_eq_some_iff.1 ha).1
        rw [List.length_range] at this
        omega
    · rw [List.length_insertionSort, hg.choice_length _ _ _ (by omega)]
  -- consecutive strips
  have hget : ∀ i < k.toNat, ∃ a l, indices[i]? = some a ∧ lens[i]? = some l ∧ 1 ≤ l ∧
      (i + 1 = k.toNat → a + l ≤ n) ∧ (i + 1 < k.toNat → ∃ b, indices[i + 1]? = some b ∧ a + l ≤ b) := by
    intro i hi
    obtain ⟨a, ha, h1, h2, h3⟩ := hstrip i hi
    have : lens[i]? = some (lens.getD i 0) := by
      rw [List.getD_eq_getElem?_getD, List.getElem?_eq_getElem (by omega)]; rfl
    exact ⟨a, lens.getD i 0, ha, this, h1, h2, h3⟩
  have hcons : ∀ e i a l b, i + e + 1 < k.toNat → indices[i]? = some a → lens[i]? = some l →
      indices[i + e + 1]? = some b → a + l ≤ b := by
    intro e
    induction e with
    | zero =>
      intro i a l b hi ha hl hb
      obtain ⟨a', l', ha', hl', -, -, h3⟩ := hget i (by omega)
      rw [ha] at ha'; rw [hl] at hl'; cases ha'; cases hl'
      obtain ⟨b', hb', h4⟩ := h3 (by omega)
      rw [show i + 0 + 1 = i + 1 by omega, hb'] at hb
      cases hb; exact h4
    | succ e ih =>
      intro i a l b hi ha hl hb
      obtain ⟨a', l', ha', hl', h1, -, h3⟩ := hget (i + e + 1) (by omega)
      obtain ⟨b', hb', h4⟩ := h3 (by omega)
      rw [show i + (e + 1) + 1 = i + e + 1 + 1 by omega, hb'] at hb
      cases hb
      have := ih i a l a' (by omega) ha hl ha'
      omega
  have hend : ∀ (i a l : ℕ), indices[i]? = some a → lens[i]? = some l → a + l ≤ n := by
    intro i a l ha hl
    have hi : i < k.toNat := by
      have := (List.getElem?_eq_some_iff.1 ha).1; omega
    obtain ⟨a', l', ha', hl', h1, h2, -⟩ := hget (k.toNat - 1) (by omega)
    have h2 := h2 (by omega)
    rcases Nat.lt_or_ge i (k.toNat - 1) with h | h
    · have := hcons (k.toNat - 1 - i - 1) i a l a' (by omega) ha hl
        (by rw [show i + (k.toNat - 1 - i - 1) + 1 = k.toNat - 1 by omega]; exact ha')
      omega
    · have e : i = k.toNat - 1 := by omega
      subst e
      rw [ha] at ha'; rw [hl] at hl'; cases ha'; cases hl'; exact h2
  refine ⟨indices.zip lens, ?_, ?_, ?_, ?_⟩
  · rw [List.length_zip]; omega
  · rintro ⟨a, l⟩ hs
    rw [List.mem_iff_getElem?] at hs
    obtain ⟨i, hi⟩ := hs
    rw [List.getElem?_zip_eq_some] at hi
    have hik : i < k.toNat := by
      have := (List.getElem?_eq_some_iff.1 hi.1).1; omega
    obtain ⟨a', l', ha', hl', h1, -, -⟩ := hget i hik
    simp only at hi ⊢
    rw [hi.2] at hl'; cases hl'
    exact ⟨h1, hend i a l hi.1 hi.2⟩
  · rw [List.pairwise_iff_getElem]
    intro i j hi hj hij
    rw [List.length_zip] at hi hj
    simp only [List.getElem_zip]
    exact hcons (j - i - 1) i _ _ _ (by omega) (List.getElem?_eq_getElem _) (List.getElem?_eq_getElem _)
      (by rw [show i + (j - i - 1) + 1 = j by omega]; exact List.getElem?_eq_getElem _)
  · intro Y m' d' hY
    refine ⟨_, ?_, hasShape_tab3 (fun i j t => if ∃ s ∈ indices.zip lens, inStrip t s then 0 else at3 Y i j t),
      fun i hi j hj t ht => at3_tab3 hi hj ht⟩
    simp only [Prep.transform, Prep.transformC, DIL.transform]
    congr 1
    conv_lhs => rw [hY.eq_tab3]
    exact mapRows_eq_tab3 _ _ _ fun i _ j _ => dil_row indices lens (by omega) n (fun t => at3 Y i j t)

/-- The number of strips: `⌊clusters·n⌋` if given; otherwise at least 1, and at most `n/10 - 1` if that is positive. -/
theorem C47_count (g : Rng R) (hg : g.Valid) (n : ℕ) :
    (∀ c : R, 0 ≤ c → DIL.nclusters g { clusters := some c } n = ⌊c * (n : R)⌋) ∧
    (1 ≤ DIL.nclusters g ({ clusters := none } : DIL R) n ∧
      DIL.nclusters g ({ clusters := none } : DIL R) n ≤ max 1 (n / 10 - 1 : ℤ)) := by
  refine ⟨fun c hc => pyInt_nonneg (mul_nonneg hc (Nat.cast_nonneg _)), ?_⟩
  simp only [DIL.nclusters]
  split
  · omega
  · next h =>
    have := hg.randint_range 0 1 ((n / 10 : ℕ) : ℤ) (by omega)
    omega

/-- `DIL.fit` succeeds on series of length `n ≥ 1` for `clusters` in `[0, 1]` and without the argument. -/
theorem C47_fit_succeeds (g : Rng R) (hg : g.Valid) (p : DIL R) (hp : ∀ c, p.clusters = some c → 0 ≤ c ∧ c ≤ 1) (X : Data R)
    {m d n : ℕ} (hX : HasShape X m d n) (hm : 0 < m) (hd : 0 < d) (hn : 0 < n) : ∃ p', p.fit g X = .ok p' := by
  have hk : 0 ≤ p.nclusters g n ∧ p.nclusters g n ≤ n := by
    rcases hc : p.clusters with _ | c
    · have h := (C47_count g hg n).2
      have e : p.nclusters g n = DIL.nclusters g ({ clusters := none } : DIL R) n := by
        simp only [DIL.nclusters, hc]
      rw [e]
      omega
    · have h := (C47_count g hg n).1 c (hp c hc).1
      have e : p.nclusters g n = DIL.nclusters g ({ clusters := some c } : DIL R) n := by
        simp only [DIL.nclusters, hc]
      rw [e, h]
      have h0 : (0 : R) ≤ (n : R) := Nat.cast_nonneg _
      refine ⟨Int.floor_nonneg.2 (mul_nonneg (hp c hc).1 h0), ?_⟩
      have : ⌊c * (n : R)⌋ ≤ ⌊((n : ℤ) : R)⌋ := Int.floor_le_floor (by
        rw [Int.cast_natCast]; exact mul_le_of_le_one_left h0 (hp c hc).2)
      rwa [Int.floor_intCast] at this
  unfold DIL.fit
  simp only [hX.shape2_eq hm hd]
  rw [if_neg (by omega)]
  set k := p.nclusters g n with hkdef
  set indices := if k ≥ n then List.range n else (g.choice 0 n k.toNat).insertionSort (· ≤ ·) with hind
  have hlen : indices.length = k.toNat := by
    rw [hind]
    split
    · rw [List.length_range]; omega
    · rw [List.length_insertionSort, hg.choice_length _ _ _ (by omega)]
  have hlt : ∀ a ∈ indices, a < n := by
    rw [hind]
    split
    · intro a ha; exact List.mem_range.1 ha
    · intro a ha
      rw [List.mem_insertionSort] at ha
      exact hg.choice_lt _ _ _ (by omega) a ha
  have hsort : indices.Pairwise (· < ·) := by
    rw [hind]
    split
    · exact List.pairwise_lt_range
    · have h1 : ((g.choice 0 n k.toNat).insertionSort (· ≤ ·)).Pairwise (· ≤ ·) := List.pairwise_insertionSort _ _
      have h2 : ((g.choice 0 n k.toNat).insertionSort (· ≤ ·)).Nodup :=
        (List.perm_insertionSort _ _).nodup_iff.2 (hg.choice_nodup _ _ _ (by omega))
      exact (List.pairwise_and_iff.2 ⟨h1, h2⟩).imp fun h => lt_of_le_of_ne h.1 h.2
  obtain ⟨lens, hl⟩ : ∃ lens, DIL.lengths g n indices k.toNat = .ok lens := by
    unfold DIL.lengths
    rw [show List.range k.toNat = tab k.toNat fun i => i by simp [tab]]
    refine ⟨_, mapM_ok_tab (f := fun i => i) (m := k.toNat) (h := fun i => if i + 1 = k.toNat
      then (g.randint (i + 1) 1 ((n : ℤ) - (indices.getD i 0) + 1)).toNat
      else (g.randint (i + 1) 1 ((indices.getD (i + 1) 0 : ℤ) - (indices.getD i 0) + 1)).toNat) ?_⟩
    intro i hi
    have e1 : ∀ j, j < k.toNat → indices[j]? = some (indices.getD j 0) := by
      intro j hj
      rw [List.getD_eq_getElem?_getD, List.getElem?_eq_getElem (by omega)]; rfl
    rw [e1 i hi]
    simp only
    by_cases h : i + 1 = k.toNat
    · rw [if_pos h, if_pos h, if_neg]
      have : indices.getD i 0 ∈ indices := List.mem_of_getElem? (e1 i hi)
      have := hlt _ this
      omega
    · rw [if_neg h, if_neg h, e1 (i + 1) (by omega)]
      simp only
      rw [if_neg]
      have h2 := (List.pairwise_iff_getElem.1 hsort) i (i + 1) (by omega) (by omega) (by omega)
      have h3 := e1 i hi
      have h4 := e1 (i + 1) (by omega)
      rw [List.getElem?_eq_getElem (by omega)] at h3 h4
      injection h3 with h3
      injection h4 with h4
      omega
  rw [hl, ok_bind]
  exact ⟨_, rfl⟩

/-- Non-vacuity: a generator that draws the smallest values, and one that draws the largest, on the same data. -/
def lowRng : Rng ℚ := ⟨fun _ lo _ => lo, fun _ _ k => List.range k, fun _ _ _ => 0, fun _ _ _ => 0, fun _ _ => 0, id⟩
/-- A generator that draws the largest values. -/
def highRng : Rng ℚ := ⟨fun _ _ hi => hi - 1, fun _ n k => (List.range k).map fun i => n - 1 - i, fun _ _ _ => 0,
  fun _ _ _ => -1, fun _ _ => 0, id⟩

example : (do let p ← DIL.fit lowRng { clusters := some (1/2) } ([[[1, 2, 3, 4]]] : Data ℚ); p.transform [[[1, 2, 3, 4]]]).toOption
      = some [[[0, 0, 3, 4]]] ∧
    (do let p ← DIL.fit highRng { clusters := some (1/4) } ([[[1, 2, 3, 4]]] : Data ℚ); p.transform [[[1, 2, 3, 4]]]).toOption
      = some [[[1, 2, 3, 0]]] := by decide +kernel

theorem lowRng_valid : lowRng.Valid where
  randint_range := fun _ _ _ h => ⟨le_rfl, h⟩
  choice_length := fun _ _ _ _ => List.length_range
  choice_nodup := fun _ _ _ _ => List.nodup_range
  choice_lt := fun _ _ _ h x hx => by
    have := List.mem_range.1 hx
    omega
  uniform_range := fun _ _ _ => by simp [lowRng]

/-- More clusters than time steps: `fit` raises. -/
example : (DIL.fit lowRng { clusters := some 2 } ([[[1, 2, 3, 4]]] : Data ℚ)).toOption.isNone = true := by decide +kernel

/-! ### C48 -/

theorem coqs_eq (T : FloatText R) (hT : T.Lawful) (X : Data R) {m d n : ℕ} (hX : HasShape X m d n) (hd : 0 < d) (hn : 0 < n)
    (q : R) (nm : Norm) : coqs T X q nm.text = .ok (tab m fun i => coqSpec nm (at3 X i 0) n q) := by
  unfold coqs
  have := C35_coquantile T hT X hX hd hn [] q nm none
  simp only [Cache.after] at this
  rw [this]
  rfl

theorem coqSpec_le (nm : Norm) (x : ℕ → R) (n : ℕ) (q : R) : coqSpec nm x n q ≤ n := by
  have := Finset.card_filter_le (Finset.range n) (fun t => variation nm x t ≤ q * variation nm x (n - 1))
  rw [Finset.card_range] at this
  exact this

theorem coqSpec_pos (nm : Norm) (x : ℕ → R) (n : ℕ) (hn : 0 < n) (q : R) (hq : 0 ≤ q) : 1 ≤ coqSpec nm x n q :=
  (coqSpec_lt nm x n q 0 hn).2 (by
    have h0 : variation nm x 0 = 0 := by simp [variation]
    rw [h0]
    exact mul_nonneg hq (variation_nonneg _ _ _))

theorem coqSpec_mono (nm : Norm) (x : ℕ → R) (n : ℕ) {q q' : R} (h : q ≤ q') : coqSpec nm x n q ≤ coqSpec nm x n q' := by
  apply Finset.card_le_card
  intro t ht
  simp only [Finset.mem_filter] at ht ⊢
  exact ⟨ht.1, ht.2.trans (mul_le_mul_of_nonneg_right h (variation_nonneg _ _ _))⟩

theorem coqSpec_one (nm : Norm) (x : ℕ → R) (n : ℕ) : coqSpec nm x n 1 = n := by
  rcases Nat.eq_zero_or_pos n with rfl | hn
  · rfl
  · have := (coqSpec_lt nm x n 1 (n - 1) (by omega)).2 (by rw [one_mul])
    have := coqSpec_le nm x n 1
    omega

theorem win_row (a b n : ℕ) (ha : 1 ≤ a) (han : a ≤ n) (hbn : b ≤ n) (x : ℕ → R) :
    WIN.row a b (tab n x) = .ok (tab n fun t => if a - 1 ≤ t ∧ t < b then x t else 0) := by
  unfold WIN.row
  rw [show ((a : ℤ) - 1) = ((a - 1 : ℕ) : ℤ) by omega, slc_tab, tab_length, pyClip_nat, pyClip_nat, zeros_eq,
    setSlc_tab _ _ _ _ _ _ (by omega) (by omega) (by omega)]
  congr 1
  apply tab_congr
  intro t ht
  by_cases h : a - 1 ≤ t ∧ t < b
  · rw [if_pos h, if_pos (by omega)]; congr 1; omega
  · rw [if_neg h, if_neg (by omega)]

/-- **C48.** `WIN(a, b)` with `0 ≤ a`, stand-alone on series of length `n ≥ 1`, is `x_t` for `coq(a) - 1 ≤ t < coq(b)` and
zero elsewhere, where `coq` is the coquantile of the quadratic variation of the first dimension of the same series. -/
theorem C48_window (T : FloatText R) (hT : T.Lawful) [NpMath R] (X : Data R) {m d n : ℕ} (hX : HasShape X m d n)
    (hd : 0 < d) (hn : 0 < n) (a b : R) (ha : 0 ≤ a) :
    ∃ Y, (Prep.win ⟨a, b⟩).transform T X = .ok Y ∧ HasShape Y m d n ∧
      ∀ i < m, ∀ j < d, ∀ t < n, at3 Y i j t
        = if coqSpec .L2 (at3 X i 0) n a - 1 ≤ t ∧ t < coqSpec .L2 (at3 X i 0) n b then at3 X i j t else 0 := by
  refine ⟨_, ?_, hasShape_tab3 (fun i j t => if coqSpec .L2 (at3 X i 0) n a - 1 ≤ t ∧ t < coqSpec .L2 (at3 X i 0) n b
    then at3 X i j t else 0), fun i hi j hj t ht => at3_tab3 hi hj ht⟩
  simp only [Prep.transform, Prep.transformC, WIN.transform]
  have h1 := coqs_eq T hT X hX hd hn a .L2
  have h2 := coqs_eq T hT X hX hd hn b .L2
  simp only [Norm.text] at h1 h2
  rw [h1, ok_bind, h2, ok_bind, show X.length = m from hX.1,
    show List.range m = tab m fun i => i by simp [tab]]
  apply mapM_ok_tab
  intro i hi
  rw [tab_getElem?, tab_getElem?, if_pos hi, if_pos hi]
  simp only
  rw [hX.series_eq hi]
  apply mapM_ok_tab
  intro j hj
  exact win_row _ _ n (coqSpec_pos _ _ _ hn _ ha) (coqSpec_le _ _ _ _) (coqSpec_le _ _ _ _) _

/-- A time step lies in the window of `WIN(a, b)`. -/
def inWindow (x : ℕ → R) (n : ℕ) (a b : R) (t : ℕ) : Prop :=
  coqSpec .L2 x n a - 1 ≤ t ∧ t < coqSpec .L2 x n b

/-- **C48.** The windows of consecutive quantiles `q₀ ≤ q₁ ≤ … ≤ 1` (at least two) cover exactly the time steps from
`coq(q₀) - 1` on: a time step lies in one of them iff it is at least `coq(q₀) - 1`. -/
theorem C48_cover (x : ℕ → R) (n : ℕ) (q0 q1 : R) (qs : List R) (hq : (q0 :: q1 :: qs).Pairwise (· ≤ ·)) (h0 : 0 ≤ q0)
    (hlast : (q0 :: q1 :: qs).getLast (by simp) = 1) (t : ℕ) (ht : t < n) :
    (∃ e ∈ (q0 :: q1 :: qs).zip (q1 :: qs), inWindow x n e.1 e.2 t) ↔ coqSpec .L2 x n q0 - 1 ≤ t := by
  induction qs generalizing q0 q1 with
  | nil =>
    simp only [List.zip_cons_cons, List.zip_nil_right, List.mem_singleton, exists_eq_left, inWindow]
    have : q1 = 1 := by simpa using hlast
    subst this
    rw [coqSpec_one]
    exact ⟨fun h => h.1, fun h => ⟨h, ht⟩⟩
  | cons q2 qs ih =>
    have h01 : q0 ≤ q1 := (List.pairwise_cons.1 hq).1 q1 (by simp)
    have := ih q1 q2 (List.pairwise_cons.1 hq).2 (h0.trans h01) (by simpa using hlast)
    rw [List.zip_cons_cons, List.exists_mem_cons_iff, this, inWindow]
    have hm := coqSpec_mono .L2 x n h01
    constructor
    · rintro (h | h)
      · exact h.1
      · omega
    · intro h
      by_cases h2 : t < coqSpec .L2 x n q1
      · exact Or.inl ⟨h, h2⟩
      · exact Or.inr (by omega)

/-- Non-vacuity: the two halves of a series by quadratic variation (variation `0, 1, 2, 102`). -/
example : coqSpec .L2 (fun t => [0, 1, 2, 12].getD t (0 : ℚ)) 4 (1/2) = 3 ∧
    coqSpec .L2 (fun t => [0, 1, 2, 12].getD t (0 : ℚ)) 4 0 = 1 := by decide +kernel
example : (WIN.row 1 3 ([5, 6, 7, 8] : List ℚ)).toOption = some [5, 6, 7, 0] := by decide +kernel

end Fruits
