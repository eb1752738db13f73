import Verif.Props.Prep2
import Mathlib.Order.Bounds.Basic

/-! # C42: normalisation -/

namespace Fruits
set_option linter.unusedSectionVars false

variable {R : Type} [Field R] [LinearOrder R] [IsStrictOrderedRing R] [FloorRing R]

/-- The indices over which minimum and maximum are taken for dimension `j`: all dimensions with `scale_dim`, dimension `j`
alone otherwise. -/
def block (scaleDim : Bool) (d n j : ℕ) : Set (ℕ × ℕ) := {p | p.1 < d ∧ p.2 < n ∧ (scaleDim = true ∨ p.1 = j)}

/-- `(v - lo) / (hi - lo)`, or 0 if `lo = hi`. -/
def nrmVal (lo hi v : R) : R := if lo = hi then 0 else (v - lo) / (hi - lo)

section general
variable {ι : Type*} {S : Set ι} {v w : ι → R} {lo hi lo' hi' : R}

theorem nrmVal_mem (h1 : IsLeast (v '' S) lo) (h2 : IsGreatest (v '' S) hi) {s : ι} (hs : s ∈ S) :
    0 ≤ nrmVal lo hi (v s) ∧ nrmVal lo hi (v s) ≤ 1 := by
  have ha := h1.2 ⟨s, hs, rfl⟩
  have hb := h2.2 ⟨s, hs, rfl⟩
  unfold nrmVal
  split
  · exact ⟨le_rfl, zero_le_one⟩
  · next hne =>
    have hlt : 0 < hi - lo := sub_pos.2 (lt_of_le_of_ne (ha.trans hb) hne)
    refine ⟨div_nonneg (sub_nonneg.2 ha) hlt.le, ?_⟩
    rw [div_le_one hlt]
    linarith

theorem nrmVal_attains (h1 : IsLeast (v '' S) lo) (h2 : IsGreatest (v '' S) hi) (hne : lo ≠ hi) :
    (∃ s ∈ S, nrmVal lo hi (v s) = 0) ∧ ∃ s ∈ S, nrmVal lo hi (v s) = 1 := by
  obtain ⟨s, hs, hs'⟩ := h1.1
  obtain ⟨t, ht, ht'⟩ := h2.1
  refine ⟨⟨s, hs, ?_⟩, ⟨t, ht, ?_⟩⟩
  · rw [hs', nrmVal, if_neg hne, sub_self, zero_div]
  · rw [ht', nrmVal, if_neg hne, div_self]
    exact sub_ne_zero.2 (Ne.symm hne)

theorem lo_eq_hi_iff (h1 : IsLeast (v '' S) lo) (h2 : IsGreatest (v '' S) hi) :
    lo = hi ↔ ∀ s ∈ S, ∀ t ∈ S, v s = v t := by
  constructor
  · rintro rfl s hs t ht
    have a := h1.2 ⟨s, hs, rfl⟩
    have b := h2.2 ⟨s, hs, rfl⟩
    have c := h1.2 ⟨t, ht, rfl⟩
    have d := h2.2 ⟨t, ht, rfl⟩
    exact le_antisymm (b.trans c) (d.trans a)
  · intro h
    obtain ⟨s, hs, hs'⟩ := h1.1
    obtain ⟨t, ht, ht'⟩ := h2.1
    rw [← hs', ← ht']; exact h s hs t ht

theorem nrmVal_idem (h1 : IsLeast (v '' S) lo) (h2 : IsGreatest (v '' S) hi)
    (h1' : IsLeast ((fun s => nrmVal lo hi (v s)) '' S) lo') (h2' : IsGreatest ((fun s => nrmVal lo hi (v s)) '' S) hi')
    {s : ι} (hs : s ∈ S) : nrmVal lo' hi' (nrmVal lo hi (v s)) = nrmVal lo hi (v s) := by
  by_cases hne : lo = hi
  · have h0 : ∀ s, nrmVal lo hi (v s) = 0 := fun s => by rw [nrmVal, if_pos hne]
    have : lo' = hi' := by
      obtain ⟨a, _, ha⟩ := h1'.1
      obtain ⟨b, _, hb⟩ := h2'.1
      rw [← ha, ← hb]; simp only [h0]
    rw [nrmVal, if_pos this, h0]
  · obtain ⟨⟨a, ha, ha'⟩, ⟨b, hb, hb'⟩⟩ := nrmVal_attains h1 h2 hne
    have hlo : lo' = 0 := by
      apply le_antisymm
      · have := h1'.2 ⟨a, ha, rfl⟩
        simp only [ha'] at this; exact this
      · obtain ⟨c, hc, hc'⟩ := h1'.1
        rw [← hc']; exact (nrmVal_mem h1 h2 hc).1
    have hhi : hi' = 1 := by
      apply le_antisymm
      · obtain ⟨c, hc, hc'⟩ := h2'.1
        rw [← hc']; exact (nrmVal_mem h1 h2 hc).2
      · have := h2'.2 ⟨b, hb, rfl⟩
        simp only [hb'] at this; exact this
    subst hlo hhi
    generalize nrmVal lo hi (v s) = y
    simp [nrmVal]

theorem nrmVal_affine (h1 : IsLeast (v '' S) lo) (h2 : IsGreatest (v '' S) hi) (a b : R) (ha : 0 < a)
    (hw : ∀ s ∈ S, w s = a * v s + b) (h1' : IsLeast (w '' S) lo') (h2' : IsGreatest (w '' S) hi') {s : ι} (hs : s ∈ S) :
    nrmVal lo' hi' (w s) = nrmVal lo hi (v s) := by
  have hlo : lo' = a * lo + b := by
    obtain ⟨x, hx, hx'⟩ := h1.1
    obtain ⟨y, hy, hy'⟩ := h1'.1
    apply le_antisymm
    · rw [← hx', ← hw x hx]; exact h1'.2 ⟨x, hx, rfl⟩
    · rw [← hy', hw y hy]
      have := h1.2 ⟨y, hy, rfl⟩
      have := mul_le_mul_of_nonneg_left this ha.le
      linarith
  have hhi : hi' = a * hi + b := by
    obtain ⟨x, hx, hx'⟩ := h2.1
    obtain ⟨y, hy, hy'⟩ := h2'.1
    apply le_antisymm
    · rw [← hy', hw y hy]
      have := h2.2 ⟨y, hy, rfl⟩
      have := mul_le_mul_of_nonneg_left this ha.le
      linarith
    · rw [← hx', ← hw x hx]; exact h2'.2 ⟨x, hx, rfl⟩
  subst hlo hhi
  rw [hw s hs]
  unfold nrmVal
  by_cases h : lo = hi
  · rw [if_pos h, if_pos (by rw [h])]
  · have h' : ¬ a * lo + b = a * hi + b := by
      intro he
      exact h (mul_left_cancel₀ ha.ne' (add_right_cancel he))
    rw [if_neg h, if_neg h']
    rw [show a * v s + b - (a * lo + b) = a * (v s - lo) by ring, show a * hi + b - (a * lo + b) = a * (hi - lo) by ring,
      mul_div_mul_left _ _ ha.ne']

end general

/-! ### Closed form of the code -/

theorem compress_cons {α : Type*} (b : Bool) (ms : List Bool) (x : α) (xs : List α) :
    compress (b :: ms) (x :: xs) = if b then x :: compress ms xs else compress ms xs := by
  cases b <;> simp [compress]

theorem scatter_compress {α β γ : Type*} (F : α → γ × γ → β) (N : ℕ) (b : ℕ → Bool) (x : ℕ → α) (lo hi : ℕ → γ)
    (z : ℕ → β) :
    scatter (tab N b) (tab N z) (List.zipWith F (compress (tab N b) (tab N x))
      (List.zip (compress (tab N b) (tab N lo)) (compress (tab N b) (tab N hi))))
      = tab N fun i => if b i then F (x i) (lo i, hi i) else z i := by
  induction N generalizing b x lo hi z with
  | zero => rfl
  | succ N ih =>
    have h := ih (fun i => b (i + 1)) (fun i => x (i + 1)) (fun i => lo (i + 1)) (fun i => hi (i + 1)) (fun i => z (i + 1))
    simp only [tab_succ', compress_cons]
    cases hb : b 0
    · simp only [Bool.false_eq_true, if_false, scatter]
      rw [h]
    · simp only [if_true, List.zip_cons_cons, List.zipWith_cons_cons, scatter]
      rw [h]

/-- The normalisation of one row. -/
def nrmRow (x : List R) : List R :=
  match listMin x, listMax x with
  | some a, some b => x.map fun v => nrmVal a b v
  | _, _ => []

theorem regroup_flatten {α β : Type} (f : α → β) (X : List (List α)) :
    NRM.perDim.regroup (X.map List.length) (X.flatten.map f) = X.map fun s => s.map f := by
  induction X with
  | nil => rfl
  | cons s X ih =>
    simp only [List.map_cons, List.flatten_cons, List.map_append, NRM.perDim.regroup]
    rw [List.take_left' (by simp), List.drop_left' (by simp), ih]

theorem minE_ok {x : List R} (h : x ≠ []) : minE x = .ok ((listMin x).getD 0) := by
  obtain ⟨M, hM⟩ := listMin_isSome h
  simp [minE, hM]

theorem maxE_ok {x : List R} (h : x ≠ []) : maxE x = .ok ((listMax x).getD 0) := by
  obtain ⟨M, hM⟩ := listMax_isSome h
  simp [maxE, hM]

theorem list_eq_tab' {α : Type*} (xs : List α) (d : α) : ∃ N f, xs = tab N f ∧ N = xs.length :=
  ⟨_, _, tab_of_list xs d, rfl⟩

theorem perDim_eq (X : Data R) (h : ∀ x ∈ X.flatten, x ≠ []) : NRM.perDim X = .ok (mapRows nrmRow X) := by
  unfold NRM.perDim
  have hreg := regroup_flatten nrmRow X
  obtain ⟨N, f, hf, _⟩ := list_eq_tab' X.flatten ([] : List R)
  rw [hf] at h ⊢
  rw [hf] at hreg
  have hne : ∀ i < N, f i ≠ [] := fun i hi => h _ (mem_tab.2 ⟨i, hi, rfl⟩)
  have h1 : (tab N f).mapM minE = .ok (tab N fun i => (listMin (f i)).getD 0) :=
    mapM_ok_tab fun i hi => minE_ok (hne i hi)
  have h2 : (tab N f).mapM maxE = .ok (tab N fun i => (listMax (f i)).getD 0) :=
    mapM_ok_tab fun i hi => maxE_ok (hne i hi)
  simp only [h1, h2, ok_bind, zipWith_tab, map_tab]
  have := scatter_compress (fun (x : List R) (c : R × R) => x.map fun v => (v - c.1) / (c.2 - c.1)) N
    (fun i => decide ((listMin (f i)).getD 0 ≠ (listMax (f i)).getD 0)) f (fun i => (listMin (f i)).getD 0)
    (fun i => (listMax (f i)).getD 0) (fun i => (f i).map fun _ => 0)
  rw [this]
  simp only [pure, Except.pure]
  congr 1
  rw [mapRows, ← hreg]
  congr 1
  rw [map_tab]
  apply tab_congr
  intro i hi
  obtain ⟨a, ha⟩ := listMin_isSome (hne i hi)
  obtain ⟨b, hb⟩ := listMax_isSome (hne i hi)
  simp only [ha, hb, Option.getD_some, nrmRow, nrmVal, decide_eq_true_eq]
  by_cases hab : a = b
  · simp [hab]
  · simp [hab]

/-- Least and greatest value of a block. -/
theorem exists_bounds {ι : Type*} {S : Set ι} (v : ι → R) {x : List R} (hx : x ≠ []) (h : ∀ y, y ∈ x ↔ ∃ s ∈ S, v s = y) :
    ∃ lo hi, listMin x = some lo ∧ listMax x = some hi ∧ IsLeast (v '' S) lo ∧ IsGreatest (v '' S) hi := by
  obtain ⟨a, ha⟩ := listMin_isSome hx
  obtain ⟨b, hb⟩ := listMax_isSome hx
  obtain ⟨a1, a2⟩ := listMin_eq_some.1 ha
  obtain ⟨b1, b2⟩ := listMax_eq_some.1 hb
  refine ⟨a, b, ha, hb, ⟨?_, ?_⟩, ⟨?_, ?_⟩⟩
  · obtain ⟨s, hs, hs'⟩ := (h a).1 a1; exact ⟨s, hs, hs'⟩
  · rintro y ⟨s, hs, rfl⟩; exact a2 _ ((h _).2 ⟨s, hs, rfl⟩)
  · obtain ⟨s, hs, hs'⟩ := (h b).1 b1; exact ⟨s, hs, hs'⟩
  · rintro y ⟨s, hs, rfl⟩; exact b2 _ ((h _).2 ⟨s, hs, rfl⟩)

theorem isLeast_unique {S : Set R} {a b : R} (h1 : IsLeast S a) (h2 : IsLeast S b) : a = b := h1.unique h2

/-- The value `NRM` computes: there are minima and maxima of the blocks, and the result is `(x - min)/(max - min)`. -/
theorem nrm_closed (sd : Bool) (X : Data R) {m d n : ℕ} (hX : HasShape X m d n) (hd : 0 < d) (hn : 0 < n) :
    ∃ lo hi : ℕ → ℕ → R, (∀ i < m, ∀ j < d, IsLeast ((fun p : ℕ × ℕ => at3 X i p.1 p.2) '' block sd d n j) (lo i j) ∧
        IsGreatest ((fun p : ℕ × ℕ => at3 X i p.1 p.2) '' block sd d n j) (hi i j)) ∧
      NRM.transform sd X = .ok (tab3 m d n fun i j t => nrmVal (lo i j) (hi i j) (at3 X i j t)) := by
  have hrow : ∀ i j, tab n (at3 X i j) ≠ [] := fun i j h => by rw [tab_eq_nil] at h; omega
  cases sd with
  | false =>
    have hb : ∀ i, ∀ j < d, ∃ lo hi, listMin (tab n (at3 X i j)) = some lo ∧ listMax (tab n (at3 X i j)) = some hi ∧
        IsLeast ((fun p : ℕ × ℕ => at3 X i p.1 p.2) '' block false d n j) lo ∧
        IsGreatest ((fun p : ℕ × ℕ => at3 X i p.1 p.2) '' block false d n j) hi := by
      intro i j hj
      apply exists_bounds _ (hrow i j)
      intro y
      rw [mem_tab]
      constructor
      · rintro ⟨t, ht, rfl⟩; exact ⟨(j, t), ⟨hj, ht, Or.inr rfl⟩, rfl⟩
      · rintro ⟨⟨j', t⟩, ⟨_, ht, h⟩, rfl⟩
        rcases h with h | h
        · cases h
        · have : j' = j := h
          subst this; exact ⟨t, ht, rfl⟩
    refine ⟨fun i j => (listMin (tab n (at3 X i j))).getD 0, fun i j => (listMax (tab n (at3 X i j))).getD 0, ?_, ?_⟩
    · intro i hi j hj
      obtain ⟨lo, hi', e1, e2, h1, h2⟩ := hb i j hj
      simp only [e1, e2, Option.getD_some]; exact ⟨h1, h2⟩
    · unfold NRM.transform
      rw [if_neg (by simp), perDim_eq]
      · congr 1
        conv_lhs => rw [hX.eq_tab3]
        apply mapRows_eq_tab3
        intro i hi j hj
        obtain ⟨lo, hi', e1, e2, h1, h2⟩ := hb i j hj
        simp only [nrmRow, e1, e2, Option.getD_some, map_tab]
      · intro x hx hx0
        obtain ⟨s, hs, hxs⟩ := List.mem_flatten.1 hx
        have := (hX.2 s hs).2 x hxs
        rw [hx0] at this
        simp at this; omega
  | true =>
    have hb : ∀ i, ∃ lo hi, listMin (tab d fun j => (listMin (tab n (at3 X i j))).getD 0) = some lo ∧
        listMax (tab d fun j => (listMax (tab n (at3 X i j))).getD 0) = some hi ∧
        ∀ j, IsLeast ((fun p : ℕ × ℕ => at3 X i p.1 p.2) '' block true d n j) lo ∧
        IsGreatest ((fun p : ℕ × ℕ => at3 X i p.1 p.2) '' block true d n j) hi := by
      intro i
      have hdne : ∀ f : ℕ → R, tab d f ≠ [] := fun f h => by rw [tab_eq_nil] at h; omega
      obtain ⟨a, ha⟩ := listMin_isSome (hdne fun j => (listMin (tab n (at3 X i j))).getD 0)
      obtain ⟨b, hb⟩ := listMax_isSome (hdne fun j => (listMax (tab n (at3 X i j))).getD 0)
      refine ⟨a, b, ha, hb, ?_⟩
      obtain ⟨a1, a2⟩ := listMin_eq_some.1 ha
      obtain ⟨b1, b2⟩ := listMax_eq_some.1 hb
      have hmin : ∀ j, ∃ c, listMin (tab n (at3 X i j)) = some c := fun j => listMin_isSome (hrow i j)
      have hmax : ∀ j, ∃ c, listMax (tab n (at3 X i j)) = some c := fun j => listMax_isSome (hrow i j)
      intro j0
      refine ⟨⟨?_, ?_⟩, ⟨?_, ?_⟩⟩
      · obtain ⟨j, hj, hj'⟩ := mem_tab.1 a1
        obtain ⟨c, hc⟩ := hmin j
        rw [hc] at hj'
        obtain ⟨c1, _⟩ := listMin_eq_some.1 hc
        obtain ⟨t, ht, ht'⟩ := mem_tab.1 c1
        refine ⟨(j, t), ⟨hj, ht, Or.inl rfl⟩, ?_⟩
        simp only [ht', ← hj', Option.getD_some]
      · rintro y ⟨⟨j, t⟩, ⟨hj, ht, _⟩, rfl⟩
        obtain ⟨c, hc⟩ := hmin j
        have h1 := a2 _ (mem_tab.2 ⟨j, hj, rfl⟩)
        rw [hc] at h1
        exact h1.trans ((listMin_eq_some.1 hc).2 _ (mem_tab.2 ⟨t, ht, rfl⟩))
      · obtain ⟨j, hj, hj'⟩ := mem_tab.1 b1
        obtain ⟨c, hc⟩ := hmax j
        rw [hc] at hj'
        obtain ⟨c1, _⟩ := listMax_eq_some.1 hc
        obtain ⟨t, ht, ht'⟩ := mem_tab.1 c1
        refine ⟨(j, t), ⟨hj, ht, Or.inl rfl⟩, ?_⟩
        simp only [ht', ← hj', Option.getD_some]
      · rintro y ⟨⟨j, t⟩, ⟨hj, ht, _⟩, rfl⟩
        obtain ⟨c, hc⟩ := hmax j
        have h1 := b2 _ (mem_tab.2 ⟨j, hj, rfl⟩)
        rw [hc] at h1
        exact le_trans ((listMax_eq_some.1 hc).2 _ (mem_tab.2 ⟨t, ht, rfl⟩)) h1
    choose lo hi e1 e2 hlh using hb
    refine ⟨fun i _ => lo i, fun i _ => hi i, fun i _ j _ => hlh i j, ?_⟩
    unfold NRM.transform
    rw [if_pos rfl]
    unfold NRM.perSeries
    have hmins : X.mapM (fun s => do let r ← s.mapM minE; minE r) = .ok (tab m lo) := by
      conv_lhs => rw [hX.eq_tab3]
      apply mapM_ok_tab
      intro i _
      have : (tab2 d n (at3 X i)).mapM minE = .ok (tab d fun j => (listMin (tab n (at3 X i j))).getD 0) :=
        mapM_ok_tab fun j _ => minE_ok (hrow i j)
      rw [this, ok_bind, minE, e1]
    have hmaxs : X.mapM (fun s => do let r ← s.mapM maxE; maxE r) = .ok (tab m hi) := by
      conv_lhs => rw [hX.eq_tab3]
      apply mapM_ok_tab
      intro i _
      have : (tab2 d n (at3 X i)).mapM maxE = .ok (tab d fun j => (listMax (tab n (at3 X i j))).getD 0) :=
        mapM_ok_tab fun j _ => maxE_ok (hrow i j)
      rw [this, ok_bind, maxE, e2]
    simp only [hmins, hmaxs, ok_bind, zipWith_tab]
    have := scatter_compress (fun (s : Series R) (c : R × R) => s.map fun x => x.map fun v => (v - c.1) / (c.2 - c.1)) m
      (fun i => decide (lo i ≠ hi i)) (fun i => tab2 d n (at3 X i)) lo hi
      (fun i => (tab2 d n (at3 X i)).map fun x => x.map fun _ => 0)
    have hXm : X.map (fun s => s.map fun x => x.map fun _ => (0 : R))
        = tab m fun i => (tab2 d n (at3 X i)).map fun x => x.map fun _ => 0 := hX.map _
    have hXc : ∀ mask, compress mask X = compress mask (tab m fun i => tab2 d n (at3 X i)) := by
      intro mask; conv_lhs => rw [hX.eq_tab3, tab3]
    rw [hXm, hXc, this]
    simp only [pure, Except.pure]
    congr 1
    apply tab_congr
    intro i _
    by_cases hc : lo i = hi i
    · simp [hc, tab2, nrmVal, replicate_eq_tab]
    · simp [hc, tab2, nrmVal]

/-! ### C42 -/

/-- **C42.** `NRM(scale_dim)` keeps the shape; every value is in `[0, 1]`; a block (dimension, or whole series with
`scale_dim`) that is constant becomes zero, any other attains both 0 and 1; the transform is idempotent. -/
theorem C42_normalises (T : FloatText R) [NpMath R] (sd : Bool) (X : Data R) {m d n : ℕ} (hX : HasShape X m d n)
    (hd : 0 < d) (hn : 0 < n) :
    ∃ Y, (Prep.nrm sd).transform T X = .ok Y ∧ HasShape Y m d n ∧
      (∀ i < m, ∀ j < d, ∀ t < n, 0 ≤ at3 Y i j t ∧ at3 Y i j t ≤ 1) ∧
      (∀ i < m, ∀ j < d, (∀ p ∈ block sd d n j, ∀ q ∈ block sd d n j, at3 X i p.1 p.2 = at3 X i q.1 q.2) →
        ∀ t < n, at3 Y i j t = 0) ∧
      (∀ i < m, ∀ j < d, (∃ p ∈ block sd d n j, ∃ q ∈ block sd d n j, at3 X i p.1 p.2 ≠ at3 X i q.1 q.2) →
        (∃ p ∈ block sd d n j, at3 Y i p.1 p.2 = 0) ∧ ∃ p ∈ block sd d n j, at3 Y i p.1 p.2 = 1) ∧
      (Prep.nrm sd).transform T Y = .ok Y := by
  obtain ⟨lo, hi, hlh, hY⟩ := nrm_closed sd X hX hd hn
  have hsame : ∀ i < m, ∀ j < d, ∀ p ∈ block sd d n j, lo i p.1 = lo i j ∧ hi i p.1 = hi i j := by
    rintro i hi' j hj ⟨j', t⟩ ⟨hj', ht, h⟩
    rcases h with h | h
    · subst h
      have hbl : block true d n j' = block true d n j := by ext p; simp [block]
      have a := hlh i hi' j hj
      have b := hlh i hi' j' hj'
      rw [hbl] at b
      exact ⟨b.1.unique a.1, b.2.unique a.2⟩
    · have : j' = j := h
      subst this; exact ⟨rfl, rfl⟩
  set Y := tab3 m d n fun i j t => nrmVal (lo i j) (hi i j) (at3 X i j t) with hYdef
  have hYs : HasShape Y m d n := hasShape_tab3 _
  have hYv : ∀ i < m, ∀ j < d, ∀ t < n, at3 Y i j t = nrmVal (lo i j) (hi i j) (at3 X i j t) :=
    fun i hi' j hj t ht => at3_tab3 hi' hj ht
  have hself : ∀ j < d, ∀ t < n, (j, t) ∈ block sd d n j := fun j hj t ht => ⟨hj, ht, Or.inr rfl⟩
  refine ⟨Y, hY, hYs, ?_, ?_, ?_, ?_⟩
  · intro i hi' j hj t ht
    rw [hYv i hi' j hj t ht]
    exact nrmVal_mem (hlh i hi' j hj).1 (hlh i hi' j hj).2 (hself j hj t ht)
  · intro i hi' j hj hc t ht
    rw [hYv i hi' j hj t ht, nrmVal, if_pos]
    exact (lo_eq_hi_iff (hlh i hi' j hj).1 (hlh i hi' j hj).2).2 hc
  · rintro i hi' j hj ⟨p, hp, q, hq, hpq⟩
    have hne : lo i j ≠ hi i j := by
      intro h
      exact hpq ((lo_eq_hi_iff (hlh i hi' j hj).1 (hlh i hi' j hj).2).1 h p hp q hq)
    obtain ⟨⟨a, ha, ha'⟩, ⟨b, hb, hb'⟩⟩ := nrmVal_attains (hlh i hi' j hj).1 (hlh i hi' j hj).2 hne
    refine ⟨⟨a, ha, ?_⟩, ⟨b, hb, ?_⟩⟩
    · rw [hYv i hi' a.1 ha.1 a.2 ha.2.1, (hsame i hi' j hj a ha).1, (hsame i hi' j hj a ha).2]; exact ha'
    · rw [hYv i hi' b.1 hb.1 b.2 hb.2.1, (hsame i hi' j hj b hb).1, (hsame i hi' j hj b hb).2]; exact hb'
  · obtain ⟨lo', hi', hlh', hY'⟩ := nrm_closed sd Y hYs hd hn
    change NRM.transform sd Y = _
    rw [hY']
    congr 1
    conv_rhs => rw [hYs.eq_tab3]
    apply tab3_congr
    intro i hii j hj t ht
    rw [hYv i hii j hj t ht]
    have himg : (fun p : ℕ × ℕ => at3 Y i p.1 p.2) '' block sd d n j
        = (fun p : ℕ × ℕ => nrmVal (lo i j) (hi i j) (at3 X i p.1 p.2)) '' block sd d n j := by
      apply Set.image_congr
      intro p hp
      rw [hYv i hii p.1 hp.1 p.2 hp.2.1, (hsame i hii j hj p hp).1, (hsame i hii j hj p hp).2]
    have h' := hlh' i hii j hj
    rw [himg] at h'
    exact nrmVal_idem (v := fun p : ℕ × ℕ => at3 X i p.1 p.2) (hlh i hii j hj).1 (hlh i hii j hj).2 h'.1 h'.2
      (hself j hj t ht)

/-- **C42.** `NRM` does not see positive affine changes of its blocks: if every value of the block of each dimension is
`a·x + b` with `a > 0`, the result is the same. -/
theorem C42_affine_invariant (T : FloatText R) [NpMath R] (sd : Bool) (X Z : Data R) {m d n : ℕ} (hX : HasShape X m d n)
    (hZ : HasShape Z m d n) (hd : 0 < d) (hn : 0 < n) (a b : ℕ → ℕ → R) (ha : ∀ i < m, ∀ j < d, 0 < a i j)
    (h : ∀ i < m, ∀ j < d, ∀ p ∈ block sd d n j, at3 Z i p.1 p.2 = a i j * at3 X i p.1 p.2 + b i j) :
    (Prep.nrm sd).transform T Z = (Prep.nrm sd).transform T X := by
  obtain ⟨lo, hi, hlh, hY⟩ := nrm_closed sd X hX hd hn
  obtain ⟨lo', hi', hlh', hY'⟩ := nrm_closed sd Z hZ hd hn
  change NRM.transform sd Z = NRM.transform sd X
  rw [hY, hY']
  congr 1
  apply tab3_congr
  intro i hii j hj t ht
  exact nrmVal_affine (v := fun p : ℕ × ℕ => at3 X i p.1 p.2) (w := fun p : ℕ × ℕ => at3 Z i p.1 p.2) (hlh i hii j hj).1
    (hlh i hii j hj).2 (a i j) (b i j) (ha i hii j hj) (h i hii j hj) (hlh' i hii j hj).1 (hlh' i hii j hj).2
    (s := (j, t)) ⟨hj, ht, Or.inr rfl⟩

/-- Non-vacuity: both settings on a two-dimensional series with a constant dimension. -/
example : (NRM.transform false ([[[1, 3, 2], [5, 5, 5]]] : Data ℚ)).toOption = some [[[0, 1, 1/2], [0, 0, 0]]] ∧
    (NRM.transform true ([[[1, 3, 2], [5, 5, 5]]] : Data ℚ)).toOption = some [[[0, 1/2, 1/4], [1, 1, 1]]] := by
  decide +kernel

end Fruits
